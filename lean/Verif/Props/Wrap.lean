import Verif.Model.Usage
import Verif.Spec.Text
/-
C43, C44: text wrapping.
-/
namespace BletArgs
open Spec

/-- `rfindSpace` returns the last space at or before `k`. -/
theorem rfindSpace_some {line : Str} {k p : Nat} (h : rfindSpace line k = some p) :
    p ≤ k ∧ line[p]? = some ' ' ∧ ∀ j, p < j → j ≤ k → line[j]? ≠ some ' ' := by
  induction k with
  | zero =>
    unfold rfindSpace at h
    split at h
    · cases h; rename_i hh; exact ⟨Nat.le_refl _, by simpa using hh, by omega⟩
    · cases h
  | succ k ih =>
    unfold rfindSpace at h
    split at h
    · cases h; rename_i hh; exact ⟨Nat.le_refl _, by simpa using hh, by omega⟩
    · rename_i hh
      obtain ⟨h1, h2, h3⟩ := ih h
      refine ⟨by omega, h2, fun j hj hk => ?_⟩
      by_cases e : j = k + 1
      · subst e; simpa using hh
      · exact h3 j hj (by omega)

theorem rfindSpace_none {line : Str} {k : Nat} (h : rfindSpace line k = none) :
    ∀ j, j ≤ k → line[j]? ≠ some ' ' := by
  induction k with
  | zero =>
    unfold rfindSpace at h
    split at h
    · cases h
    · rename_i hh; intro j hj
      have : j = 0 := by omega
      subst this; simpa using hh
  | succ k ih =>
    unfold rfindSpace at h
    split at h
    · cases h
    · rename_i hh
      intro j hj
      by_cases e : j = k + 1
      · subst e; simpa using hh
      · exact ih h j (by omega)

theorem length_dropWhile_le (p : Char → Bool) (l : List Char) : (l.dropWhile p).length ≤ l.length :=
  List.Sublist.length_le (List.dropWhile_sublist p)

theorem cut_shorter {line : Str} {p : Nat} (h : line[p]? = some ' ') :
    ((line.drop p).dropWhile (· == ' ')).length < line.length := by
  have hp : p < line.length := by
    rcases Nat.lt_or_ge p line.length with h' | h'
    · exact h'
    · rw [List.getElem?_eq_none h'] at h; cases h
  have e : line.drop p = ' ' :: line.drop (p + 1) := by
    rw [List.drop_eq_getElem_cons hp]
    rw [List.getElem?_eq_getElem hp] at h
    rw [Option.some.inj h]
  rw [e]
  simp only [List.dropWhile_cons, beq_self_eq_true, if_true]
  have := length_dropWhile_le (· == ' ') (line.drop (p + 1))
  simp only [List.length_drop] at this
  omega

/-- The step budget of the model's loop is never exhausted: any larger budget gives the same lines. -/
theorem wrapLine_budget (width : Nat) (line : Str) (f : Nat) (h : line.length < f) :
    wrapLine width f line = wrapLine width (line.length + 1) line := by
  induction f using Nat.strongRecOn generalizing line with
  | _ f ih =>
    match f, h with
    | f + 1, h =>
      unfold wrapLine
      split
      · split
        · rename_i p hp
          obtain ⟨_, h2, _⟩ := rfindSpace_some hp
          have hs := cut_shorter h2
          congr 1
          rw [ih f (by omega) _ (by omega), ← ih line.length (by omega) _ hs]
        · rfl
      · rfl

theorem replicate_takeWhile (l : List Char) :
    l.takeWhile (· == ' ') = List.replicate (l.takeWhile (· == ' ')).length ' ' := by
  rw [List.eq_replicate_iff]
  refine ⟨rfl, fun b hb => ?_⟩
  have := List.all_takeWhile (p := (· == ' ')) (l := l)
  rw [List.all_eq_true] at this
  simpa using this b hb

theorem wrapLine_pieces (width f : Nat) (line : Str) : Pieces (wrapLine width f line) line := by
  induction f generalizing line with
  | zero => exact .last _
  | succ f ih =>
    unfold wrapLine
    split
    · split
      · rename_i p hp
        obtain ⟨_, h2, _⟩ := rfindSpace_some hp
        have hp : p < line.length := by
          rcases Nat.lt_or_ge p line.length with h' | h'
          · exact h'
          · rw [List.getElem?_eq_none h'] at h2; cases h2
        have e : line.drop p = ' ' :: line.drop (p + 1) := by
          rw [List.drop_eq_getElem_cons hp]
          rw [List.getElem?_eq_getElem hp] at h2
          rw [Option.some.inj h2]
        have key : line = line.take p ++
            List.replicate (((line.drop (p + 1)).takeWhile (· == ' ')).length + 1) ' ' ++
            (line.drop p).dropWhile (· == ' ') := by
          conv => lhs; rw [← List.take_append_drop p line]
          rw [List.append_assoc]
          congr 1
          rw [e]
          simp only [List.dropWhile_cons, beq_self_eq_true, if_true, List.replicate_succ,
            List.cons_append]
          congr 1
          rw [← replicate_takeWhile, List.takeWhile_append_dropWhile]
        conv => rhs; rw [key]
        exact .spaces _ _ (ih _)
      · exact .last _
    · exact .last _

/-- Gluing: lines of a first line and pieces of the rest. -/
theorem Pieces.glue_newline {ls ms : List Str} {a b : Str} (h : Pieces ls a)
    (hnl : '\n' ∉ a) (h2 : Pieces ms b) : Pieces (ls ++ ms) (a ++ '\n' :: b) := by
  induction h with
  | last l => exact .newline l h2
  | lastNewline l => simp at hnl
  | newline l hh ih => simp at hnl
  | spaces l n hh ih =>
    simp only [List.mem_append, not_or] at hnl
    rw [List.append_assoc, List.cons_append]
    exact .spaces l n (ih hnl.2)

theorem Pieces.glue_last {ls : List Str} {a : Str} (h : Pieces ls a)
    (hnl : '\n' ∉ a) : Pieces ls (a ++ ['\n']) := by
  induction h with
  | last l => exact .lastNewline l
  | lastNewline l => simp at hnl
  | newline l hh ih => simp at hnl
  | spaces l n hh ih =>
    simp only [List.mem_append, not_or] at hnl
    rw [List.append_assoc]
    exact .spaces l n (ih hnl.2)

theorem wrapText_pieces_aux (width : Nat) (s cur : Str) (hc : '\n' ∉ cur) :
    (cur ++ s = [] ∧ (getlines cur s) = []) ∨
    Pieces ((getlines cur s).flatMap fun line => wrapLine width (line.length + 1) line) (cur ++ s) := by
  induction s generalizing cur with
  | nil =>
    unfold getlines
    by_cases h : cur = []
    · simp [h]
    · right
      simp only [List.isEmpty_iff, h, if_false, List.flatMap_cons, List.flatMap_nil, List.append_nil]
      exact wrapLine_pieces _ _ _
  | cons c s ih =>
    unfold getlines
    by_cases h : c = '\n'
    · subst h
      right
      simp only [beq_self_eq_true, if_true, List.flatMap_cons]
      rcases ih [] (by simp) with ⟨h1, h2⟩ | h2
      · simp only [List.nil_append] at h1
        subst h1
        rw [h2]
        simp only [List.flatMap_nil, List.append_nil]
        exact Pieces.glue_last (wrapLine_pieces _ _ _) hc
      · exact Pieces.glue_newline (wrapLine_pieces _ _ _) hc h2
    · have hb : (c == '\n') = false := by simpa using h
      simp only [hb, Bool.false_eq_true, if_false]
      have := ih (cur ++ [c]) (by simp [hc, Ne.symm h])
      simpa using this

/-- C43: the wrapped lines are the pieces of the text between line breaks and runs of spaces: nothing else
is lost, duplicated or reordered. The empty text gives no line. -/
theorem C43_wrap_preserves (s : Str) (width : Nat) :
    (s = [] ∧ wrapText s width = []) ∨ Pieces (wrapText s width) s := by
  rcases wrapText_pieces_aux width s [] (by simp) with ⟨h1, h2⟩ | h
  · left; exact ⟨h1, by simp [wrapText, h2]⟩
  · right; simpa [wrapText] using h

/-- What `Pieces` means for the words of a text: the characters other than spaces and line breaks are
exactly those of the lines, in order. -/
theorem C43_wrap_characters (s : Str) (width : Nat) :
    (wrapText s width).flatten.filter (fun c => c != ' ' && c != '\n') =
      s.filter (fun c => c != ' ' && c != '\n') := by
  rcases C43_wrap_preserves s width with ⟨h1, h2⟩ | h
  · rw [h1] at h2 ⊢; rw [h2]; rfl
  · generalize wrapText s width = ls at h
    induction h with
    | last l => simp
    | lastNewline l => simp
    | newline l _ ih => simp only [List.flatten_cons, List.filter_append, ih]; simp
    | spaces l n _ ih =>
      simp only [List.flatten_cons, List.filter_append, ih]
      simp

example : wrapText "ab cd\n  ef".toList 3 = ["ab".toList, "cd".toList, " ".toList, "ef".toList] := by decide

/-- Every line produced for one line of text. -/
theorem wrapLine_width (width f : Nat) (line l : Str) (hf : line.length < f)
    (h : l ∈ wrapLine width f line) : l.length ≤ width ∨ ∀ k, k ≤ width → l[k]? ≠ some ' ' := by
  induction f generalizing line with
  | zero => omega
  | succ f ih =>
    unfold wrapLine at h
    split at h
    · split at h
      · rename_i p hp
        obtain ⟨h1, h2, _⟩ := rfindSpace_some hp
        have hs := cut_shorter h2
        rcases List.mem_cons.1 h with rfl | h
        · left; simp; omega
        · exact ih _ (by omega) h
      · rename_i hn
        rw [List.mem_singleton.1 h]
        exact .inr (rfindSpace_none hn)
    · rw [List.mem_singleton.1 h]; left; omega

/-- C44: every wrapped line is at most `width` characters long, unless it has no space among its first
`width + 1` characters (no place to break it). -/
theorem C44_wrap_width (s l : Str) (width : Nat) (h : l ∈ wrapText s width) :
    l.length ≤ width ∨ ∀ k, k ≤ width → l[k]? ≠ some ' ' := by
  unfold wrapText at h
  rw [List.mem_flatMap] at h
  obtain ⟨line, _, h⟩ := h
  exact wrapLine_width width _ line l (by omega) h

/-- C44, the wrapped lines contain no line break. -/
theorem getlines_no_newline (cur s : Str) (hc : '\n' ∉ cur) : ∀ l ∈ getlines cur s, '\n' ∉ l := by
  induction s generalizing cur with
  | nil => unfold getlines; split <;> simp_all
  | cons c s ih =>
    unfold getlines
    by_cases h : c = '\n'
    · subst h
      simp only [beq_self_eq_true, if_true, List.mem_cons]
      rintro l (rfl | hl)
      · exact hc
      · exact ih [] (by simp) l hl
    · have hb : (c == '\n') = false := by simpa using h
      simp only [hb, Bool.false_eq_true, if_false]
      exact ih _ (by simp [hc, Ne.symm h])

theorem wrapLine_sub (width f : Nat) (line l : Str) (h : l ∈ wrapLine width f line) : l.Sublist line := by
  induction f generalizing line with
  | zero => rw [List.mem_singleton.1 h]; exact List.Sublist.refl _
  | succ f ih =>
    unfold wrapLine at h
    split at h
    · split at h
      · rcases List.mem_cons.1 h with rfl | h
        · exact List.take_sublist _ _
        · exact (ih _ h).trans ((List.dropWhile_sublist _).trans (List.drop_sublist _ _))
      · rw [List.mem_singleton.1 h]; exact List.Sublist.refl _
    · rw [List.mem_singleton.1 h]; exact List.Sublist.refl _

/-- C44: a wrapped line never contains a line break, so the lengths of `C44_wrap_width` are what is seen on
the screen. -/
theorem C44_wrap_single_lines (s l : Str) (width : Nat) (h : l ∈ wrapText s width) : '\n' ∉ l := by
  unfold wrapText at h
  rw [List.mem_flatMap] at h
  obtain ⟨line, h1, h⟩ := h
  exact fun hc => getlines_no_newline [] s (by simp) line h1 ((wrapLine_sub _ _ _ _ h).subset hc)

/-- C44, greediness: a cut is made as late as possible: if a line is followed by another one coming from
the same source line, the next word would not have fitted. Stated on one source line: the first piece is the
longest prefix that ends before a space at index at most `width`. -/
theorem C44_wrap_greedy (line : Str) (width f : Nat) (a b : Str) (rest : List Str)
    (h : wrapLine width f line = a :: b :: rest) :
    line.length ≥ width ∧ a.length ≤ width ∧ a <+: line ∧ line[a.length]? = some ' ' ∧
      ∀ j, a.length < j → j ≤ width → line[j]? ≠ some ' ' := by
  cases f with
  | zero => simp [wrapLine] at h
  | succ f =>
    unfold wrapLine at h
    split at h
    · rename_i hl
      split at h
      · rename_i p hp
        obtain ⟨h1, h2, h3⟩ := rfindSpace_some hp
        have hpl : p < line.length := by
          rcases Nat.lt_or_ge p line.length with h' | h'
          · exact h'
          · rw [List.getElem?_eq_none h'] at h2; cases h2
        have ha : a = line.take p := by simp at h; exact h.1.symm
        have hal : a.length = p := by rw [ha]; simp; omega
        rw [hal]
        exact ⟨hl, h1, ha ▸ List.take_prefix _ _, h2, h3⟩
      · simp at h
    · simp at h

-- a long first word: the rest of the source line is then not wrapped at all
example : "unbreakable word".toList ∈ wrapText "an unbreakable word".toList 4 := by decide

end BletArgs
