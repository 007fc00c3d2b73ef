import Verif.Model.Base
/-
Lemmas: string order, stable sort.
-/
namespace BletArgs

theorem strLt_iff (a b : Str) : strLt a b = true ↔ a < b := by
  induction a generalizing b with
  | nil => cases b <;> simp [strLt]
  | cons x a ih =>
    cases b with
    | nil => simp [strLt]
    | cons y b =>
      simp only [strLt, Bool.or_eq_true, decide_eq_true_eq, Bool.and_eq_true, ih, List.cons_lt_cons_iff]

theorem strLt_irrefl (a : Str) : strLt a a = false := by
  cases h : strLt a a
  · rfl
  · exact absurd ((strLt_iff _ _).1 h) (List.lt_irrefl _)

theorem strLt_trans {a b c : Str} (h1 : strLt a b = true) (h2 : strLt b c = true) : strLt a c = true := by
  rw [strLt_iff] at *; exact List.lt_trans h1 h2

theorem strLt_trichotomy (a b : Str) : strLt a b = true ∨ a = b ∨ strLt b a = true := by
  rw [strLt_iff, strLt_iff]
  rcases List.le_total a b with h | h
  · by_cases e : a = b
    · exact .inr (.inl e)
    · refine .inl ?_
      by_cases h' : a < b
      · exact h'
      · exact absurd (List.le_antisymm h (List.not_lt.1 h')) e
  · by_cases e : a = b
    · exact .inr (.inl e)
    · refine .inr (.inr ?_)
      by_cases h' : b < a
      · exact h'
      · exact absurd (List.le_antisymm (List.not_lt.1 h') h) e

/-- Strict weak order. -/
structure StrictWeak {α : Type} (lt : α → α → Bool) : Prop where
  irrefl : ∀ a, lt a a = false
  trans : ∀ a b c, lt a b = true → lt b c = true → lt a c = true
  negTrans : ∀ a b c, lt a c = true → lt a b = true ∨ lt b c = true

theorem strLt_strictWeak : StrictWeak strLt where
  irrefl := strLt_irrefl
  trans _ _ _ := strLt_trans
  negTrans a b c h := by
    rcases strLt_trichotomy a b with h1 | rfl | h1
    · exact .inl h1
    · exact .inr h
    · exact .inr (strLt_trans h1 h)

section
variable {α : Type} {lt : α → α → Bool}

theorem insertStable_perm (x : α) (l : List α) : (insertStable lt x l).Perm (x :: l) := by
  induction l with
  | nil => exact .refl _
  | cons y ys ih =>
    unfold insertStable
    split
    · exact .refl _
    · exact (ih.cons y).trans (.swap x y ys)

theorem foldl_insert_perm (l acc : List α) :
    (l.foldl (fun acc x => insertStable lt x acc) acc).Perm (acc ++ l) := by
  induction l generalizing acc with
  | nil => simp
  | cons x l ih =>
    simp only [List.foldl_cons]
    refine (ih _).trans ?_
    refine ((insertStable_perm x acc).append_right l).trans ?_
    exact (List.perm_middle (a := x) (l₁ := acc) (l₂ := l)).symm

theorem stableSort_perm (l : List α) : (stableSort lt l).Perm l := by
  simpa [stableSort] using foldl_insert_perm (lt := lt) l []

@[simp] theorem mem_stableSort {x : α} {l : List α} : x ∈ stableSort lt l ↔ x ∈ l :=
  (stableSort_perm l).mem_iff

/-- Sorted: no later element is smaller than an earlier one. -/
def SortedBy (lt : α → α → Bool) (l : List α) : Prop := l.Pairwise (fun a b => lt b a = false)

theorem insertStable_sorted (h : StrictWeak lt) (x : α) (l : List α) (hs : SortedBy lt l) :
    SortedBy lt (insertStable lt x l) := by
  induction l with
  | nil => exact List.pairwise_singleton _ _
  | cons y ys ih =>
    unfold SortedBy at hs
    rw [List.pairwise_cons] at hs
    unfold insertStable
    split
    · rename_i hxy
      refine List.pairwise_cons.2 ⟨?_, List.pairwise_cons.2 hs⟩
      intro z hz
      rcases List.mem_cons.1 hz with rfl | hz
      · cases hc : lt z x
        · rfl
        · have := h.trans _ _ _ hxy hc
          rw [h.irrefl] at this; cases this
      · cases hc : lt z x
        · rfl
        · have := h.trans _ _ _ hc hxy
          rw [hs.1 z hz] at this; cases this
    · rename_i hxy
      refine List.pairwise_cons.2 ⟨?_, ih hs.2⟩
      intro z hz
      rcases List.mem_cons.1 ((insertStable_perm x ys).mem_iff.1 hz) with rfl | hz
      · simpa using hxy
      · exact hs.1 z hz

theorem stableSort_sorted (h : StrictWeak lt) (l : List α) : SortedBy lt (stableSort lt l) := by
  unfold stableSort
  suffices ∀ acc, SortedBy lt acc → SortedBy lt (l.foldl (fun acc x => insertStable lt x acc) acc) from
    this [] List.Pairwise.nil
  induction l with
  | nil => intro acc h; exact h
  | cons x l ih => intro acc ha; exact ih _ (insertStable_sorted h x acc ha)

theorem insertStable_append (x : α) (l : List α) (h : ∀ y ∈ l, lt x y = false) :
    insertStable lt x l = l ++ [x] := by
  induction l with
  | nil => rfl
  | cons y ys ih =>
    unfold insertStable
    rw [h y (by simp), ih (fun z hz => h z (by simp [hz]))]
    rfl

/-- Sorting a sorted list changes nothing. -/
theorem stableSort_of_sorted (l : List α) (hs : SortedBy lt l) : stableSort lt l = l := by
  unfold stableSort
  suffices ∀ acc, SortedBy lt (acc ++ l) → l.foldl (fun acc x => insertStable lt x acc) acc = acc ++ l by
    simpa using this [] (by simpa using hs)
  clear hs
  induction l with
  | nil => intro acc _; simp
  | cons x l ih =>
    intro acc hs
    simp only [List.foldl_cons]
    have : insertStable lt x acc = acc ++ [x] := by
      refine insertStable_append x acc fun y hy => ?_
      unfold SortedBy at hs
      rw [List.pairwise_append] at hs
      exact hs.2.2 y hy x (by simp)
    rw [this, ih (acc ++ [x]) (by simpa using hs)]
    simp

/-- Stability: elements that are pairwise incomparable keep their relative order. -/
theorem insertStable_filter (h : StrictWeak lt) (p : α → Bool)
    (hp : ∀ a b, p a = true → p b = true → lt a b = false) (x : α) (l : List α) (hs : SortedBy lt l) :
    (insertStable lt x l).filter p = l.filter p ++ [x].filter p := by
  induction l with
  | nil => simp [insertStable]
  | cons y ys ih =>
    unfold SortedBy at hs
    rw [List.pairwise_cons] at hs
    unfold insertStable
    split
    · rename_i hxy
      by_cases hx : p x = true
      · have hnone : (y :: ys).filter p = [] := by
          rw [List.filter_eq_nil_iff]
          intro z hz hpz
          have hxz := hp x z hx hpz
          have hzx := hp z x hpz hx
          rcases List.mem_cons.1 hz with rfl | hz
          · rw [hxz] at hxy; cases hxy
          · rcases h.negTrans x z y hxy with h1 | h1
            · rw [hxz] at h1; cases h1
            · rw [hs.1 z hz] at h1; cases h1
        rw [List.filter_cons_of_pos hx, hnone]
        simp [hx]
      · rw [List.filter_cons_of_neg hx]
        simp [hx]
    · by_cases hy : p y = true
      · rw [List.filter_cons_of_pos hy, List.filter_cons_of_pos hy, ih hs.2]; rfl
      · rw [List.filter_cons_of_neg hy, List.filter_cons_of_neg hy, ih hs.2]

theorem stableSort_filter (h : StrictWeak lt) (p : α → Bool)
    (hp : ∀ a b, p a = true → p b = true → lt a b = false) (l : List α) :
    (stableSort lt l).filter p = l.filter p := by
  unfold stableSort
  suffices ∀ acc, SortedBy lt acc →
      (l.foldl (fun acc x => insertStable lt x acc) acc).filter p = acc.filter p ++ l.filter p by
    simpa using this [] List.Pairwise.nil
  induction l with
  | nil => intro acc _; simp
  | cons x l ih =>
    intro acc ha
    simp only [List.foldl_cons]
    rw [ih _ (insertStable_sorted h x acc ha), insertStable_filter h p hp x acc ha, List.append_assoc,
      ← List.filter_append]
    rfl

/-- The elements equivalent to `x`. -/
def equivTo (lt : α → α → Bool) (x y : α) : Bool := !lt x y && !lt y x

theorem equivTo_refl (h : StrictWeak lt) (x : α) : equivTo lt x x = true := by
  simp [equivTo, h.irrefl]

/-- Two sorted lists with the same equivalence classes, each in the same order, are equal. -/
theorem sorted_unique (h : StrictWeak lt) (l₁ l₂ : List α) (h₁ : SortedBy lt l₁) (h₂ : SortedBy lt l₂)
    (hf : ∀ x, l₁.filter (equivTo lt x) = l₂.filter (equivTo lt x)) : l₁ = l₂ := by
  induction l₁ generalizing l₂ with
  | nil =>
    cases l₂ with
    | nil => rfl
    | cons b l₂ =>
      have := hf b
      rw [List.filter_cons_of_pos (equivTo_refl h b)] at this
      simp at this
  | cons a l₁ ih =>
    cases l₂ with
    | nil =>
      have := hf a
      rw [List.filter_cons_of_pos (equivTo_refl h a)] at this
      simp at this
    | cons b l₂ =>
      unfold SortedBy at h₁ h₂
      rw [List.pairwise_cons] at h₁ h₂
      have hab : equivTo lt a b = true := by
        have ha : a ∈ (b :: l₂).filter (equivTo lt a) := by
          rw [← hf a]; simp [equivTo_refl h]
        have hb : b ∈ (a :: l₁).filter (equivTo lt b) := by
          rw [hf b]; simp [equivTo_refl h]
        have ha := (List.mem_filter.1 ha).1
        have hb := (List.mem_filter.1 hb).1
        have e1 : lt a b = false := by
          rcases List.mem_cons.1 ha with rfl | ha
          · exact h.irrefl _
          · exact h₂.1 a ha
        have e2 : lt b a = false := by
          rcases List.mem_cons.1 hb with rfl | hb
          · exact h.irrefl _
          · exact h₁.1 b hb
        simp [equivTo, e1, e2]
      have e : a = b := by
        have := hf a
        rw [List.filter_cons_of_pos (equivTo_refl h a), List.filter_cons_of_pos hab] at this
        exact (List.cons.inj this).1
      subst e
      congr 1
      refine ih l₂ h₁.2 h₂.2 fun x => ?_
      have := hf x
      by_cases hx : equivTo lt x a = true
      · rw [List.filter_cons_of_pos hx, List.filter_cons_of_pos hx] at this
        exact (List.cons.inj this).2
      · rw [List.filter_cons_of_neg hx, List.filter_cons_of_neg hx] at this
        exact this

/-- Any sorted rearrangement that keeps the order inside each class (what `std::list::sort` guarantees) is
the one computed by the model. -/
theorem stableSort_unique (h : StrictWeak lt) (l l' : List α) (hs : SortedBy lt l')
    (hf : ∀ x, l'.filter (equivTo lt x) = l.filter (equivTo lt x)) : l' = stableSort lt l := by
  refine sorted_unique h _ _ hs (stableSort_sorted h l) fun x => ?_
  rw [hf x]
  symm
  refine stableSort_filter h _ ?_ l
  intro a b ha hb
  simp only [equivTo, Bool.and_eq_true, Bool.not_eq_true'] at ha hb
  cases hc : lt a b
  · rfl
  · rcases h.negTrans a x b hc with h1 | h1
    · rw [ha.2] at h1; cases h1
    · rw [hb.1] at h1; cases h1

end
end BletArgs
