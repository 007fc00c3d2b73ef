import Verif.Spec.Outcome
/-
Specification of the destinations: what the program finds in its variables.
-/
namespace BletArgs
variable {D : Type}

/-- The variable a write goes to. -/
def DestWrite.slot : DestWrite → Nat
  | .set s _ | .append s _ | .appendVec s _ | .callScalar s _ _ | .callVector s _ _ | .callVecVec s _ _ => s

/-- The writes to one variable, in order. -/
def writesTo (slot : Nat) (log : List DestWrite) : List DestWrite := log.filter fun w => w.slot == slot

/-- No other argument writes to the variable of `s`. -/
def OwnSlot (st : State D) (s : Slot D) (d : Dest) : Prop :=
  ∀ t ∈ st.arguments, t.node ≠ s.node → ∀ d', t.arg.dest = some d' → d'.slot ≠ d.slot

/-- The callback given with the destination of `s`, if there is one, never throws. (What happens when one does is C73:
the call goes as if it did not, and ends at the first call that throws.) -/
def Returning (s : Slot D) : Prop := ∀ d, s.arg.dest = some d → d.custom = true → ∀ w, d.refuses w = none

/-- Kinds with one value. -/
def SingleKind (k : Ty) : Prop := k = .simple ∨ k = .pos
/-- Kinds with a list of values. -/
def ListKind (k : Ty) : Prop :=
  k = .number ∨ k = .multi ∨ k = .infinite ∨ k = .multiInfinite ∨ k = .numberPos ∨ k = .infinitePos
/-- Kinds with a list of groups of values. -/
def GroupKind (k : Ty) : Prop := k = .multiNumber ∨ k = .multiNumberInfinite ∨ k = .infiniteNumberPos

/-- The sub-elements of an argument (`size()`, `operator[]`) have the shape its kind calls for. It is so in
every state reached by a program that does not change the kind of an argument holding stale values
(`ReachableBy.shaped`). -/
structure Shaped (a : Argument D) : Prop where
  single : SingleKind a.type → a.elems = []
  list : ListKind a.type → ∀ e ∈ a.elems, e.subs = []
  groups : GroupKind a.type → ∀ e ∈ a.elems, e.subs.length = a.nargs

end BletArgs
