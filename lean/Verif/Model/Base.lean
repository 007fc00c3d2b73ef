/-
Basic vocabulary of the model: strings, actions, argument types, exceptions and
the possible outcomes of a C++ call.
-/
namespace BletArgs

/-- A C / C++ character string, one `Char` per byte, without its NUL terminator.
`s[i]? = none` models reading the terminator (`s[i] == '\0'`).
Simplification: `std::string`s with an embedded NUL are not modelled (their text after the
NUL would be lost by the many `c_str()` calls of the code). -/
abbrev Str := List Char

/-- `include/blet/args/action.h:33-44`, `Action::eAction`. -/
inductive Action where
  | none | help | version | storeTrue | storeFalse | append | extend | infinite
  deriving DecidableEq, Repr

/-- `include/blet/args/argument.h:618-635`, `Argument::Type`. -/
inductive Ty where
  | none | help | version | boolean | reverse
  | simple | number | infinite | multi | multiInfinite | multiNumber | multiNumberInfinite
  | pos | numberPos | infinitePos | infiniteNumberPos
  deriving DecidableEq, Repr

/-- `include/blet/args/argument.h:637-647`, `Argument::isPositionnalArgument_`. -/
def Ty.isPositional : Ty → Bool
  | .pos | .numberPos | .infinitePos | .infiniteNumberPos => true
  | _ => false

/-- `include/blet/args/exception.h:39-99`: the exception classes, plus `foreign` for an exception
thrown by user code (a custom validator) that does not belong to the library. -/
inductive ExnKind where
  | basic | help | version | argument | accessDenied | parse | required | valid | foreign
  deriving DecidableEq, Repr

/-- `include/blet/args/exception.h:84-99`: `catch (const ParseArgumentException&)` also catches the
two derived classes. -/
def ExnKind.isParse : ExnKind → Bool
  | .parse | .required | .valid => true
  | _ => false

/-- `src/exception.cpp:32-90`: dynamic class, `argument()` and `what()` of a thrown exception. -/
structure Exn where
  kind : ExnKind
  argument : Str
  what : Str
  deriving DecidableEq, Repr

/-- What a call can do: return, throw, call `exit(0)` after printing, run into undefined behaviour,
or never return. -/
inductive Res (α : Type) where
  | ok (a : α)
  | throw (e : Exn)
  | exit (stdout : Str)
  | ub (why : String)
  | diverge
  deriving DecidableEq, Repr

/-- Change the type of a non-returning result (propagation of an exception, UB, ...). `ok` cannot
occur at the places where it is used; it is mapped to UB so that a misuse would be visible. -/
def Res.cast {α β : Type} : Res α → Res β
  | .ok _ => .ub "cast of a returned value"
  | .throw e => .throw e
  | .exit o => .exit o
  | .ub w => .ub w
  | .diverge => .diverge

/-- `std::size_t` is 64 bits wide: sums of an index and `nargs_` wrap modulo this number. -/
def two64 : Nat := 2 ^ 64

/-- `std::string::operator<` (`char_traits<char>::compare`: unsigned bytes, lexicographic). -/
def strLt : Str → Str → Bool
  | _, [] => false
  | [], _ :: _ => true
  | a :: as, b :: bs => decide (a < b) || (decide (a = b) && strLt as bs)

/-- Insert `x` after every element that is not greater: one step of a stable sort. -/
def insertStable {α : Type} (lt : α → α → Bool) (x : α) : List α → List α
  | [] => [x]
  | y :: ys => if lt x y then x :: y :: ys else y :: insertStable lt x ys

/-- `std::list::sort(cmp)` / `std::sort(cmp)`. `std::list::sort` is stable and its result is unique
for a strict weak order (proved for the two orders used: `C11`); `std::sort` is only used with a
strict total order, where stability does not matter. Modelled as stable insertion sort. -/
def stableSort {α : Type} (lt : α → α → Bool) (l : List α) : List α :=
  l.foldl (fun acc x => insertStable lt x acc) []

end BletArgs
