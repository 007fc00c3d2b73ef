import Verif.Spec.Edits
/-
Specification: command lines that give an argument values of its own, and parsers compared without the default texts of one
argument.
-/
namespace BletArgs
variable {D : Type}

namespace Spec

/-- The values an option that takes lists or groups keeps: those of its last occurrence, or all of them if it accumulates. -/
def KeptWords (k : Ty) (us : List (Bool × Values)) : List Str :=
  if k = .number ∨ k = .infinite then (us.getLast?.map fun u => u.2.flat).getD [] else us.flatMap fun u => u.2.flat

/-- The command line gives all the values of this argument of kind `k`, which takes `n` values: it takes none; or it takes one
value and occurs; or it is an option, occurs in a form that replaces its elements, and keeps at least one value. (`us`: its
occurrences as an option; `fs`: what fills it as a positional argument. A positional list keeps its defaults in front.) -/
def Supplied (k : Ty) (n : Nat) (us : List (Bool × Values)) (fs : List Values) : Prop :=
  n = 0 ∨ (k = .simple ∧ us ≠ []) ∨ (k = .pos ∧ fs ≠ []) ∨ (Replaced k us ∧ KeptWords k us ≠ [])

instance (k : Ty) (n : Nat) (us : List (Bool × Values)) (fs : List Values) : Decidable (Supplied k n us fs) := by
  unfold Supplied; exact inferInstance

end Spec

/-- The argument without its default texts: the list given to `defaults()`, the text shown in the usage, and – when it holds
elements – the text it has as a whole, which is the default text then. -/
def Argument.undefaulted (a : Argument D) : Argument D :=
  { a with dflt := [], defaults := [], argument := if a.elems.isEmpty then a.argument else [] }

/-- The parser without the default texts of one argument. -/
def State.undefaulted (st : State D) (ref : Nat) : State D :=
  { st with arguments := st.arguments.map fun s => if s.obj = ref then { s with arg := s.arg.undefaulted } else s }

end BletArgs
