import Verif.Spec.Dest
/-
Specification: parsers that differ in their destinations only.
-/
namespace BletArgs
variable {D : Type}

/-- The argument with its destination replaced. -/
def Argument.aim (f : Option Dest → Option Dest) (a : Argument D) : Argument D := { a with dest := f a.dest }

/-- The same for a listed argument. -/
def Slot.aim (f : Option Dest → Option Dest) (s : Slot D) : Slot D := { s with arg := s.arg.aim f }

/-- The same for all the arguments of a parser; nothing else is touched. -/
def State.aim (f : Option Dest → Option Dest) (st : State D) : State D := { st with arguments := st.arguments.map (Slot.aim f) }

/-- The same destination, with a callback that always returns. -/
def calmly (d : Option Dest) : Option Dest := d.map fun d => { d with refuses := fun _ => none }

/-- The parser with callbacks that always return. -/
def State.calm (st : State D) : State D := st.aim calmly

/-- No destination. -/
def aimlessly (_ : Option Dest) : Option Dest := none

/-- The parser without destinations (what was written to them so far stays). -/
def State.aimless (st : State D) : State D := st.aim aimlessly

/-- `v` is the call the callback of destination `d` of argument `a` must get: the occurrence flag, and the values of the
argument as they can be read from it — the value of a single-value argument; the strings, or one vector per string,
of a list; all the strings, or one vector per group, of a list of groups. (A list without values and an argument that
has been given another kind since it got its values are left open here.) -/
def CallOf (a : Argument D) (d : Dest) (v : DestWrite) : Prop :=
  match d.kind with
  | .scalar => ∃ x, v = .callScalar d.slot a.isExist x ∧ (SingleKind a.type → a.toVector = some [x])
  | .vector => ∃ xs, v = .callVector d.slot a.isExist xs ∧
      (Settled a → Shaped a → ∀ vs, a.toVector = some vs → vs ≠ [] → xs = vs)
  | .vecvec => ∃ gs, v = .callVecVec d.slot a.isExist gs ∧
      (Settled a → Shaped a →
        (GroupKind a.type → ∀ gs', a.toVecVec = some gs' → gs' ≠ [] → gs = gs') ∧
        (¬GroupKind a.type → ∀ vs, a.toVector = some vs → vs ≠ [] → gs = vs.map fun v => [v]))

end BletArgs
