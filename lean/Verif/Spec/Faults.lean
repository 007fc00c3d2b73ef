import Verif.Spec.Tokens
/-
Specification of the complaints of the registry calls: what is wrong with the names given to `addArgument`
and to `flag`, in which order it is looked for, and how the exception says it.
-/
namespace BletArgs.Spec

/-- `FlagFault f msg`: the text `f` is not a flag, for the reason `msg`. -/
inductive FlagFault : List Char → String → Prop
  | noDash {f : List Char} : (∀ r, f ≠ '-' :: r) → FlagFault f "invalid flag not start by '-' character"
  | dash : FlagFault ['-'] "invalid flag not be only '-' character"
  | twoDashes : FlagFault ['-', '-'] "invalid flag not be only '--' characters"
  | longShort (c d : Char) (r : List Char) : c ≠ '-' →
      FlagFault ('-' :: c :: d :: r) "invalid short flag has not only one character"

/-- `AddFault used names culprit msg`: the first thing wrong with the names given to `addArgument`, when the
names already registered are those with `used`. One name that does not start with a dash is the name of a
positional argument, anything else is a list of flags. Only the first flag must be unused. -/
inductive AddFault (used : List Char → Prop) : List (List Char) → List Char → String → Prop
  | nothing : AddFault used [] [] "invalid empty flag"
  | emptyName : AddFault used [[]] [] "bad name argument"
  | usedName {n : List Char} : NameForm n → used n → AddFault used [n] n "bad name argument already exist"
  | badFirst {f : List Char} {rest : List (List Char)} {msg : String} :
      (rest = [] → ∃ r, f = '-' :: r) → FlagFault f msg → AddFault used (f :: rest) f msg
  | usedFirst {f : List Char} {rest : List (List Char)} : FlagForm f → used f →
      AddFault used (f :: rest) f "invalid flag already exist"
  | badLater {f g : List Char} {between after : List (List Char)} {msg : String} : FlagForm f → ¬used f →
      (∀ b ∈ between, FlagForm b) → FlagFault g msg → AddFault used (f :: (between ++ g :: after)) g msg

end BletArgs.Spec
