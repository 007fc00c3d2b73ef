import Verif.Props.Required
import Verif.Props.Extend
/-
Lemmas for C97: the names of an option take no part in reading a command line that does not use them.
-/
namespace BletArgs
open Spec
variable {D : Type}

/-- The argument with the names `b`. -/
def Argument.called (b : List Str) (a : Argument D) : Argument D := { a with names := b }

namespace Argument

theorem called_take (b : List Str) (vals : Values) (a : Argument D) : (a.called b).take vals = (a.take vals).called b := by
  obtain ⟨tx, df, nm, es, ns, ty, ex, rq, ct, na, hp, mv, va, vd, ac, ds, de⟩ := a
  cases vals <;> cases ty <;> cases ex <;> rfl

theorem called_see (b : List Str) (id : Nat) (a : Argument D) (ev : Event) : (a.called b).see id ev = (a.see id ev).called b := by
  cases ev with
  | option i att vals =>
    unfold Argument.see
    simp only
    split
    · unfold Argument.occur
      cases att with
      | true =>
        simp only [if_true]
        rw [show (a.called b).mark = a.mark.called b from rfl, called_take]
        rfl
      | false =>
        simp only [Bool.false_eq_true, if_false]
        rw [called_take]
        rfl
    · rfl
  | positional i vals =>
    unfold Argument.see
    simp only
    split
    · cases vals <;> rfl
    · rfl
  | extra w => rfl

theorem called_afterTokens (b : List Str) (n : Nat) (evs : List Event) (a : Argument D) :
    (a.called b).afterTokens n evs = (a.afterTokens n evs).called b := by
  unfold Argument.afterTokens
  rw [show (a.called b).reset = a.reset.called b from rfl]
  generalize a.reset = c
  induction evs generalizing c with
  | nil => rfl
  | cons ev evs ih => rw [List.foldl_cons, List.foldl_cons, called_see, ih]

theorem called_toNumber (b : List Str) (scan : Str → Option D) (a : Argument D) :
    (a.called b).toNumber scan = (a.toNumber scan).called b := by
  unfold Argument.toNumber
  simp only [show (a.called b).type = a.type from rfl, show (a.called b).elems = a.elems from rfl]
  generalize (a.type == Ty.boolean || a.type == Ty.reverse) = c0
  generalize a.elems.isEmpty = c1
  cases c0 <;> cases c1 <;> rfl

theorem called_runValid (b : List Str) (a : Argument D) : (a.called b).runValid.1 = a.runValid.1.called b ∧
    ((a.called b).runValid.2 = .ok () ↔ a.runValid.2 = .ok ()) := by
  unfold Argument.runValid
  simp only [show (a.called b).type = a.type from rfl, show (a.called b).valid = a.valid from rfl,
    show (a.called b).isExist = a.isExist from rfl, show (a.called b).toVector = a.toVector from rfl]
  cases a.valid with
  | none => exact ⟨rfl, Iff.rfl⟩
  | some v =>
    simp only
    cases a.isExist with
    | false => exact ⟨rfl, Iff.rfl⟩
    | true =>
      simp only [if_true]
      cases v.check (a.toVector.getD []) with
      | accept args =>
        simp only
        cases a.type <;> first | exact ⟨rfl, by simp⟩ | (cases args <;> exact ⟨rfl, by simp⟩)
      | _ => exact ⟨rfl, by simp⟩

theorem called_finish (b : List Str) (scan : Str → Option D) (a : Argument D) :
    ((a.called b).finish scan).1 = (a.finish scan).1.called b ∧
    ((a.called b).finish scan).2.1 = (a.finish scan).2.1 ∧
    (((a.called b).finish scan).2.2 = .ok () ↔ (a.finish scan).2.2 = .ok ()) := by
  obtain ⟨h1, h2⟩ := called_runValid b a
  unfold Argument.finish
  generalize (a.called b).runValid = y at h1 h2
  generalize a.runValid = x at h1 h2
  obtain ⟨c, r⟩ := x
  obtain ⟨c', r'⟩ := y
  simp only at h1 h2
  subst h1
  by_cases hr : r = .ok ()
  · have := h2.2 hr
    subst hr this
    simp only
    rw [called_toNumber]
    exact ⟨rfl, rfl, Iff.rfl⟩
  · have hr' : r' ≠ .ok () := fun e => hr (h2.1 e)
    cases r <;> cases r' <;> first | exact absurd rfl hr | exact absurd rfl hr' | exact ⟨rfl, rfl, by simp⟩

end Argument

end BletArgs
