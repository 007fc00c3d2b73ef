import Verif.Model.Alloc
import Verif.Props.Safe
import Verif.Spec.Chain
/-
Specification: the same program with two memory allocators.
-/
namespace BletArgs.Spec
variable {D : Type}

/-- The addresses are not in use: all that is known of an allocator. -/
def Unused (st : State D) (n o : Nat) : Prop := ∀ s ∈ st.arguments, s.node ≠ n ∧ s.obj ≠ o

/-- The same program – a correct use of the API – run twice: with an allocator that never uses an address again (left)
and with any allocator (right). `place i` is the address at which the second run has the object with the address `i` of
the first run: a reference `i` of the first run is the reference `place i` in the second. If a call creates an object,
the first run has it at `s.nextObj` and the second at `o`. -/
inductive SideBySide (scan : Str → Option D) : (Nat → Nat) → State D → State D → Prop
  | init (place : Nat → Nat) : SideBySide scan place State.init State.init
  | step {place : Nat → Nat} {s s' : State D} (op : Op) (n o : Nat) : SideBySide scan place s s' →
      Proper s op → (step scan s op).2.goesOn = true → Unused s' n o →
      SideBySide scan (fun i => if i = s.nextObj then o else place i)
        (step scan s op).1 (stepAt scan n o s' (Op.rename place op)).1

end BletArgs.Spec
