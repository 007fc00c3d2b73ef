import Verif.Model.Failing
/-
Specification: histories in which memory may run out in any call.
-/
namespace BletArgs.Spec
variable {D : Type}

/-- `Survives scan P n st`: `st` is reached by calls satisfying `P (state before) call`, of which `n` were interrupted by a
failed allocation (the program caught the exception and went on); the others returned or threw. -/
inductive Survives (scan : Str → Option D) (P : State D → Op → Prop) : Nat → State D → Prop
  | init : Survives scan P 0 State.init
  | step {n : Nat} {st : State D} (op : Op) : Survives scan P n st → P st op → (step scan st op).2.goesOn = true →
      Survives scan P n (step scan st op).1
  | abort {n : Nat} {st st' : State D} (op : Op) : Survives scan P n st → P st op → Aborts scan st op st' →
      Survives scan P (n + 1) st'

/-- Any calls. -/
def Any (_ : State D) (_ : Op) : Prop := True

/-- The calls that allocate no memory: `clear()`, `required()`, `valid()`, the modes and the widths of the usage text. -/
def Unfailing : Op → Prop
  | .clear => True
  | .required _ _ => True
  | .valid _ _ _ => True
  | .setAlternative _ => True
  | .setStrict _ => True
  | .setHelpException _ => True
  | .setVersionException _ => True
  | .setUsageWidth _ _ _ _ => True
  | _ => False

theorem Survives.mono {scan : Str → Option D} {P Q : State D → Op → Prop} (hpq : ∀ st op, P st op → Q st op) {n : Nat}
    {st : State D} (h : Survives scan P n st) : Survives scan Q n st := by
  induction h with
  | init => exact .init
  | step op _ hp hg ih => exact .step op ih (hpq _ _ hp) hg
  | abort op _ hp ha ih => exact .abort op ih (hpq _ _ hp) ha

end BletArgs.Spec
