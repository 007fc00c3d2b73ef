import Verif.Spec.Outcome
import Verif.Spec.Dest
/-
Specification: parsers that differ in their validators only.
-/
namespace BletArgs
variable {D : Type}

/-- The argument without its validator. -/
def Argument.lax (a : Argument D) : Argument D := { a with valid := none }

/-- The same for a listed argument. -/
def Slot.lax (s : Slot D) : Slot D := { s with arg := s.arg.lax }

/-- The parser without validators; nothing else is touched. -/
def State.lax (st : State D) : State D := { st with arguments := st.arguments.map Slot.lax }

/-- The validator never changes the strings it accepts. -/
def Spec.ChecksOnly (v : Validator) : Prop := ∀ xs ys, v.check xs = .accept ys → ys = xs

/-- The exception `e` with which a validator `v` refuses the values `xs` of an argument called `front`. -/
def Spec.RefusedWith (v : Validator) (front : Str) (xs : List Str) (e : Exn) : Prop :=
  match v.check xs with
  | .accept _ => False
  | .reject => e = ⟨.valid, front, "invalid check function".toList⟩
  | .throwValid msg => e = ⟨.valid, front, msg⟩
  | .throwOther x => e = x

end BletArgs
