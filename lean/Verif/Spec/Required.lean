import Verif.Spec.Dest
/-
Specification: arguments that `required(b)` does not move among the positional arguments.
-/
namespace BletArgs
variable {D : Type}

/-- `s` is an option, or a positional argument that stands between the required and the optional ones: the positional
arguments listed before it are required, those listed after it are not. (In a list where the required ones come first,
as always (C11), these are the last required and the first optional one.) -/
def Spec.AtBorder (st : State D) (s : Slot D) : Prop :=
  s.arg.isPositional = false ∨
  ∃ before after, st.arguments = before ++ s :: after ∧
    (∀ t ∈ before, t.arg.isPositional = true → t.arg.isRequired = true) ∧
    ∀ t ∈ after, t.arg.isPositional = true → t.arg.isRequired = false

end BletArgs
