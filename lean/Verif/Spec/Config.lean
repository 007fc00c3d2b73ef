import Verif.Model.Parse
/-
Specification vocabulary: what a parse may and may not change.
-/
namespace BletArgs
variable {D : Type}

/-- The configuration of an argument: everything except the outcome of the last parse (its value, number,
list of values, occurrence flag and counter). -/
def Argument.config (a : Argument D) : Argument D :=
  { a with argument := [], num := none, elems := [], isExist := false, count := 0 }

def Slot.config (s : Slot D) : Slot D := { s with arg := s.arg.config }

/-- The configuration of the parser: everything except parse outcomes, additional arguments and the
writes to destinations. -/
def State.config (st : State D) : State D :=
  { st with arguments := st.arguments.map Slot.config, additional := [], destLog := [] }

end BletArgs
