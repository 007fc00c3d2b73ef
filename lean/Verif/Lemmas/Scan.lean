import Verif.Model.Parse
import Verif.Spec.Grammar
/-
The loops of the parser over `argv`, as operations on lists of tokens.
-/
namespace BletArgs
open Spec
variable {D : Type}

/-- The tokens `argv[i], …, argv[max - 1]`. -/
def seg (argv : List Str) (i max : Nat) : List Str := (argv.take max).drop i

theorem seg_length {argv : List Str} {i max : Nat} (h : max ≤ argv.length) : (seg argv i max).length = max - i := by
  unfold seg; simp; omega

theorem seg_cons {argv : List Str} {i max : Nat} (hi : i < max) (h : max ≤ argv.length) :
    ∃ v, argv[i]? = some v ∧ seg argv i max = v :: seg argv (i + 1) max := by
  have hl : i < (argv.take max).length := by simp; omega
  refine ⟨argv[i], List.getElem?_eq_getElem (by omega), ?_⟩
  unfold seg
  rw [List.drop_eq_getElem_cons hl]
  simp

theorem seg_nil {argv : List Str} {i max : Nat} (hi : max ≤ i) : seg argv i max = [] := by
  unfold seg
  rw [List.drop_eq_nil_iff]
  simp; omega

theorem seg_drop (argv : List Str) (i n max : Nat) : (seg argv i max).drop n = seg argv (i + n) max := by
  unfold seg; rw [List.drop_drop]

theorem seg_append (argv : List Str) (i n max : Nat) :
    (seg argv i max).take n ++ seg argv (i + n) max = seg argv i max := by
  rw [← seg_drop]; exact List.take_append_drop n _

theorem readRange_eq {argv : List Str} {max : Nat} (hm : max ≤ argv.length) (n : Nat) :
    ∀ lo, lo + n ≤ max → readRange argv lo n = some ((seg argv lo max).take n) := by
  induction n with
  | zero => intro lo _; unfold readRange; rw [List.take_zero]
  | succ n ih =>
    intro lo h
    obtain ⟨v, hv, hs⟩ := seg_cons (argv := argv) (i := lo) (max := max) (by omega) hm
    unfold readRange
    rw [hv, hs, ih (lo + 1) (by omega), List.take_succ_cons]
    rfl

theorem scanInfinite_eq {argv : List Str} {max : Nat} (hm : max ≤ argv.length) (stop : Str → Bool) (n : Nat) :
    ∀ i, i + n = max → scanInfinite stop argv n i = some ((seg argv i max).takeWhile fun t => !stop t) := by
  induction n with
  | zero => intro i h; unfold scanInfinite; rw [seg_nil (by omega)]; rfl
  | succ n ih =>
    intro i h
    obtain ⟨v, hv, hs⟩ := seg_cons (argv := argv) (i := i) (max := max) (by omega) hm
    unfold scanInfinite
    rw [hv, hs, List.takeWhile_cons]
    simp only
    cases stop v with
    | true => simp
    | false => simp [ih (i + 1) (by omega)]

theorem longest_takeWhile (stop : Str → Bool) (l : List Str) :
    Longest (fun t => stop t = true) (l.takeWhile fun t => !stop t) (l.dropWhile fun t => !stop t) := by
  constructor
  · intro v hv
    have := List.all_eq_true.1 (List.all_takeWhile (p := fun t => !stop t) (l := l)) v hv
    simpa using this
  · intro t ht
    have := List.head?_dropWhile_not (fun t => !stop t) l
    rw [ht] at this
    simpa using this

theorem drop_takeWhile_length {α : Type} (p : α → Bool) (l : List α) :
    l.drop (l.takeWhile p).length = l.dropWhile p := by
  induction l with
  | nil => rfl
  | cons x l ih =>
    rw [List.takeWhile_cons, List.dropWhile_cons]
    split
    · simpa using ih
    · rfl

/-- The unlimited list taken at index `i`, as a split of the tokens from `i`. -/
theorem scanInfinite_longest {argv : List Str} {max : Nat} (hm : max ≤ argv.length) (stop : Str → Bool) {i : Nat}
    (hi : i ≤ max) :
    ∃ vs, scanInfinite stop argv (max - i) i = some vs ∧ seg argv i max = vs ++ seg argv (i + vs.length) max ∧
      Longest (fun t => stop t = true) vs (seg argv (i + vs.length) max) ∧ i + vs.length ≤ max := by
  refine ⟨_, scanInfinite_eq hm stop (max - i) i (by omega), ?_, ?_, ?_⟩
  · rw [← seg_drop, drop_takeWhile_length, List.takeWhile_append_dropWhile]
  · rw [← seg_drop, drop_takeWhile_length]; exact longest_takeWhile stop _
  · have := (List.takeWhile_sublist (fun t => !stop t) (l := seg argv i max)).length_le
    rw [seg_length hm] at this
    omega

theorem groupsCount_flatten (gs : List (List Str)) : groupsCount gs = gs.flatten.length := by
  unfold groupsCount; rw [List.length_flatten]

/-- The groups taken at index `i`. -/
theorem scanGroups_eq {argv : List Str} {max nargs : Nat} (hm : max ≤ argv.length) (stop : Str → Bool) (hn : 0 < nargs)
    (hw : max + nargs < two64) (f : Nat) :
    ∀ i, i ≤ max → max - i < f →
      ∃ gs, Groups (fun t => stop t = true) nargs gs ∧
        seg argv i max = gs.flatten ++ seg argv (i + groupsCount gs) max ∧ i + groupsCount gs ≤ max ∧
        ((scanGroups stop argv max nargs f i = (gs, .done) ∧
            ∀ t, (seg argv (i + groupsCount gs) max).head? = some t → stop t = true) ∨
          (scanGroups stop argv max nargs f i = (gs, .bad) ∧
            ∃ t ts, seg argv (i + groupsCount gs) max = t :: ts ∧ ¬stop t = true ∧ (t :: ts).length < nargs)) := by
  induction f with
  | zero => intro i _ h; omega
  | succ f ih =>
    intro i hi hf
    unfold scanGroups
    by_cases hlt : i < max
    · rw [if_pos hlt]
      obtain ⟨v, hv, hs⟩ := seg_cons (argv := argv) (i := i) (max := max) hlt hm
      rw [hv]
      simp only
      cases hst : stop v with
      | true =>
        refine ⟨[], fun g hg => (by cases hg), by simp [groupsCount], by simpa [groupsCount] using hi, .inl ⟨by simp, ?_⟩⟩
        intro t ht
        simp only [groupsCount, List.map_nil, List.sum_nil, Nat.add_zero] at ht
        rw [hs] at ht
        simp only [List.head?_cons, Option.some.injEq] at ht
        rw [← ht]; exact hst
      | false =>
        simp only [Bool.false_eq_true, if_false]
        have hmod : (i + nargs) % two64 = i + nargs := Nat.mod_eq_of_lt (by omega)
        rw [hmod]
        by_cases hb : i + nargs > max
        · rw [if_pos hb]
          refine ⟨[], fun g hg => (by cases hg), by simp [groupsCount], by simpa [groupsCount] using hi, .inr ⟨rfl, ?_⟩⟩
          refine ⟨v, seg argv (i + 1) max, by simpa [groupsCount] using hs, by simp [hst], ?_⟩
          rw [← hs, seg_length hm]; omega
        · rw [if_neg hb]
          have hr : i + nargs - i = nargs := by omega
          rw [hr, readRange_eq hm nargs i (by omega)]
          simp only
          obtain ⟨gs, h1, h2, h3, h4⟩ := ih (i + nargs) (by omega) (by omega)
          have hgl : ((seg argv i max).take nargs).length = nargs := by
            rw [List.length_take, seg_length hm]; omega
          have hc : groupsCount ((seg argv i max).take nargs :: gs) = nargs + groupsCount gs := by
            unfold groupsCount; rw [List.map_cons, List.sum_cons, hgl]
          have hassoc : i + (nargs + groupsCount gs) = i + nargs + groupsCount gs := by omega
          refine ⟨(seg argv i max).take nargs :: gs, ?_, ?_, ?_, ?_⟩
          · intro g hg
            rcases List.mem_cons.1 hg with rfl | hg
            · refine ⟨hgl, ?_⟩
              intro t ht
              rw [hs] at ht
              obtain ⟨m, rfl⟩ : ∃ m, nargs = m + 1 := ⟨nargs - 1, by omega⟩
              simp only [List.take_succ_cons, List.head?_cons, Option.some.injEq] at ht
              rw [← ht]; simp [hst]
            · exact h1 g hg
          · rw [hc, hassoc, List.flatten_cons, List.append_assoc, ← h2, seg_append]
          · rw [hc]; omega
          · rw [hc, hassoc]
            rcases h4 with ⟨e, h⟩ | ⟨e, h⟩
            · left; rw [e]; exact ⟨rfl, h⟩
            · right; rw [e]; exact ⟨rfl, h⟩
    · rw [if_neg hlt]
      refine ⟨[], fun g hg => (by cases hg), by simp [groupsCount], by simpa [groupsCount] using hi, .inl ⟨rfl, ?_⟩⟩
      intro t ht
      rw [seg_nil (by omega)] at ht
      cases ht

end BletArgs
