import Verif.Model.State
import Verif.Spec.Grammar
/-
What the grammar sees of a parser.
-/
namespace BletArgs
open Spec
variable {D : Type}

/-- An argument as the grammar sees it. -/
def Slot.entry (s : Slot D) : Entry := ⟨s.node, s.arg.type, s.arg.nargs⟩
def Slot.place (s : Slot D) : Place := ⟨s.node, s.arg.front, s.arg.type, s.arg.nargs⟩

/-- The registered names and the modes. -/
def State.sig (st : State D) : Sig where
  flag name := (lookupName st.byName name).bind fun n => (st.atNode n).map Slot.entry
  alternative := st.isAlternative
  strict := st.isStrict

/-- The positional arguments in listing order. -/
def State.places (st : State D) : List Place :=
  (st.arguments.filter fun s => s.arg.isPositional).map Slot.place

end BletArgs
