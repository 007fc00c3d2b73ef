import Verif.Lemmas.Order
import Verif.Spec.Order
import Verif.Props.Tokens
/-
Lemmas: the two comparison functions are the specified orders and strict weak orders.
-/
namespace BletArgs
open Spec
variable {D : Type}

theorem compareFlag_iff (f g : Str) : compareFlag f g = true ↔ FlagBefore f g := by
  unfold compareFlag FlagBefore
  rw [← isShortOption_iff, ← isShortOption_iff]
  cases h1 : isShortOption f <;> cases h2 : isShortOption g <;> simp [strLt_iff]

theorem compareFlag_strictWeak : StrictWeak compareFlag where
  irrefl a := by
    unfold compareFlag
    cases isShortOption a <;> simp [strLt_irrefl]
  trans a b c := by
    unfold compareFlag
    cases isShortOption a <;> cases isShortOption b <;> cases isShortOption c <;> simp <;> exact strLt_trans
  negTrans a b c := by
    unfold compareFlag
    cases isShortOption a <;> cases isShortOption b <;> cases isShortOption c <;> simp <;>
      exact strLt_strictWeak.negTrans a b c

/-- `compareFlag` is total: two different flags are comparable. -/
theorem compareFlag_total (a b : Str) : compareFlag a b = true ∨ a = b ∨ compareFlag b a = true := by
  unfold compareFlag
  rcases strLt_trichotomy a b with h | rfl | h
  · cases isShortOption a <;> cases isShortOption b <;> simp [h]
  · simp
  · cases isShortOption a <;> cases isShortOption b <;> simp [h]

theorem compareOption_eq (a b : Argument D) :
    a.compareOption b =
      (decide (rank a.isPositional a.isRequired < rank b.isPositional b.isRequired) ||
       (decide (rank a.isPositional a.isRequired = rank b.isPositional b.isRequired) &&
        !a.isPositional && compareFlag a.front b.front)) := by
  unfold Argument.compareOption compareFlag
  cases a.isPositional <;> cases b.isPositional <;> cases a.isRequired <;> cases b.isRequired <;>
    cases isShortOption a.front <;> cases isShortOption b.front <;> simp [rank]

theorem compareOption_iff (a b : Argument D) : a.compareOption b = true ↔ ListedBefore a b := by
  rw [compareOption_eq]
  unfold ListedBefore
  simp [compareFlag_iff, and_assoc]

theorem compareOption_strictWeak : StrictWeak (Argument.compareOption (D := D)) where
  irrefl a := by simp [compareOption_eq, compareFlag_strictWeak.irrefl]
  trans a b c := by
    simp only [compareOption_eq, Bool.or_eq_true, Bool.and_eq_true, decide_eq_true_eq, Bool.not_eq_true']
    rintro (h1 | ⟨⟨h1, p1⟩, f1⟩) (h2 | ⟨⟨h2, p2⟩, f2⟩)
    · left; omega
    · left; omega
    · left; omega
    · exact .inr ⟨⟨by omega, p1⟩, compareFlag_strictWeak.trans _ _ _ f1 f2⟩
  negTrans a b c := by
    simp only [compareOption_eq, Bool.or_eq_true, Bool.and_eq_true, decide_eq_true_eq, Bool.not_eq_true']
    rintro (h1 | ⟨⟨h1, p1⟩, f1⟩)
    · rcases Nat.lt_or_ge (rank a.isPositional a.isRequired) (rank b.isPositional b.isRequired) with h | h
      · exact .inl (.inl h)
      · exact .inr (.inl (by omega))
    · rcases Nat.lt_trichotomy (rank a.isPositional a.isRequired) (rank b.isPositional b.isRequired) with h | h | h
      · exact .inl (.inl h)
      · have p2 : b.isPositional = false := by
          revert h p1
          cases a.isPositional <;> cases b.isPositional <;> cases a.isRequired <;> cases b.isRequired <;> simp [rank]
        rcases compareFlag_strictWeak.negTrans _ b.front _ f1 with f | f
        · exact .inl (.inr ⟨⟨h, p1⟩, f⟩)
        · exact .inr (.inr ⟨⟨by omega, p2⟩, f⟩)
      · exact .inr (.inl (by omega))

end BletArgs
