import Verif.Spec.Dest
/-
Specification: the elements a user puts into an argument, and the command lines that make them forgotten.
-/
namespace BletArgs.Spec

/-- An occurrence on the command line that replaces all the elements of an option of this kind: any for a fixed number or a
plain list of values; for an accumulating option, the first one, unless it has the form `-oVALUE`. -/
def Replaced (k : Ty) (us : List (Bool × Values)) : Prop :=
  us ≠ [] ∧ (k = .number ∨ k = .infinite ∨
    ((k = .multi ∨ k = .multiInfinite ∨ k = .multiNumber ∨ k = .multiNumberInfinite) ∧ us.head?.map (·.1) = some false))

instance (k : Ty) (us : List (Bool × Values)) : Decidable (Replaced k us) := by unfold Replaced; exact inferInstance

/-- The values of an argument are kept behind the elements it holds: a positional list, or an accumulating list option whose
first occurrence has the form `-oVALUE`. -/
def Behind (k : Ty) (us : List (Bool × Values)) : Prop :=
  k = .numberPos ∨ k = .infinitePos ∨ ((k = .multi ∨ k = .multiInfinite) ∧ us.head?.map (·.1) = some true)

instance (k : Ty) (us : List (Bool × Values)) : Decidable (Behind k us) := by unfold Behind; exact inferInstance

end BletArgs.Spec
