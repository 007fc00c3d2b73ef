import Verif.Spec.Fits
import Verif.Props.Usage
/-
C78: a usage text whose parts fit in the width set by `setUsageWidth` fits in that width.
-/
namespace BletArgs
open Spec
variable {D : Type}

theorem not_mem_append2 {c : Char} {s t : Str} (hs : c ∉ s) (ht : c ∉ t) : c ∉ s ++ t := by
  rw [List.mem_append, not_or]
  exact ⟨hs, ht⟩

theorem narrow_of_length {w : Nat} {s : Str} (h : s.length ≤ w) : Narrow w s :=
  fun _ hl _ => Nat.le_trans hl.length_le h

theorem narrow_newline {w : Nat} {s t : Str} (hs : Narrow w s) (ht : Narrow w t) : Narrow w (s ++ '\n' :: t) := by
  rintro l ⟨p, q, e⟩ hn
  rw [List.append_assoc, List.append_eq_append_iff] at e
  rcases e with ⟨m, e1, e2⟩ | ⟨m, e1, e2⟩
  · rw [List.append_eq_append_iff] at e2
    rcases e2 with ⟨k, e3, e4⟩ | ⟨k, e3, e4⟩
    · exact hs l ⟨p, k, by rw [e1, e3, List.append_assoc]⟩ hn
    · cases k with
      | nil => exact hs l ⟨p, [], by rw [e1, e3]; simp⟩ hn
      | cons c k =>
        rw [List.cons_append] at e4
        cases e4
        exact absurd (by rw [e3]; simp) hn
  · cases m with
    | nil =>
      rw [List.nil_append] at e2
      cases l with
      | nil => exact Nat.zero_le _
      | cons c l =>
        rw [List.cons_append] at e2
        cases e2
        exact absurd (by simp) hn
    | cons c m =>
      rw [List.cons_append] at e2
      cases e2
      exact ht l ⟨m, q, by simp⟩ hn

/-- The text `first`, then `others`, each on a line of its own. -/
theorem narrow_lines {w : Nat} {first : Str} (others : List Str) (h : Narrow w first) (ho : ∀ l ∈ others, Narrow w l) :
    Narrow w (first ++ others.flatMap fun l => '\n' :: l) := by
  induction others generalizing first with
  | nil => simpa using h
  | cons x r ih =>
    rw [List.flatMap_cons, List.cons_append, show ∀ t : Str, first ++ '\n' :: t = (first ++ ['\n']) ++ t by simp]
    have := narrow_newline h (ih (ho x (by simp)) fun l hl => ho l (by simp [hl]))
    simpa using this

theorem narrow_intercalate {w : Nat} {rows : List Str} (h : ∀ r ∈ rows, Narrow w r) : Narrow w (List.intercalate ['\n'] rows) := by
  induction rows with
  | nil => exact narrow_of_length (by simp)
  | cons x l ih =>
    cases l with
    | nil => rw [List.intercalate_singleton]; exact h x (by simp)
    | cons y l =>
      rw [List.intercalate_cons_cons]
      simpa using narrow_newline (h x (by simp)) (ih fun r hr => h r (by simp [hr]))

theorem pieces_infix {ls : List Str} {t : Str} (h : Pieces ls t) : ∀ l ∈ ls, l <:+: t := by
  induction h with
  | last l => intro x hx; rw [List.mem_singleton.1 hx]; exact List.infix_rfl
  | lastNewline l => intro x hx; rw [List.mem_singleton.1 hx]; exact ⟨[], ['\n'], by simp⟩
  | @newline l ls t _ ih =>
    intro x hx
    rcases List.mem_cons.1 hx with rfl | hx
    · exact ⟨[], '\n' :: t, by simp⟩
    · exact (ih x hx).trans ⟨l ++ ['\n'], [], by simp⟩
  | @spaces l n ls t _ ih =>
    intro x hx
    rcases List.mem_cons.1 hx with rfl | hx
    · exact ⟨[], List.replicate (n + 1) ' ' ++ t, by simp⟩
    · exact (ih x hx).trans ⟨l ++ List.replicate (n + 1) ' ', [], by simp⟩

/-- The lines of a text with short words are short. -/
theorem wrapped_short {w : Nat} {t : Str} {ls : List Str} (h : Wrapped w t ls) (hs : ShortWords w t) : ∀ l ∈ ls, l.length ≤ w := by
  intro l hl
  have hi : l <:+: t := by
    rcases h.1 with ⟨_, e⟩ | hp
    · rw [e] at hl; cases hl
    · exact pieces_infix hp l hl
  obtain ⟨hn, hk⟩ := h.2 l hl
  rcases hk with hk | hk
  · exact hk
  · rcases Nat.lt_or_ge w l.length with hlt | hge
    · have h1 := hs (l.take (w + 1)) ((List.take_prefix _ _).isInfix.trans hi) (by
          intro hm
          obtain ⟨k, hk1, hk2⟩ := List.mem_iff_getElem.1 hm
          rw [List.getElem_take] at hk2
          have : k < w + 1 := by simp at hk1; omega
          exact hk k (by omega) (by rw [List.getElem?_eq_getElem (by omega), hk2]))
          (fun hm => hn (List.mem_of_mem_take hm))
      rw [List.length_take] at h1
      omega
    · exact hge

theorem blanks_length (n : Nat) : (blanks n).length = n := by simp [blanks]

theorem narrow_columns {w c : Nat} (ls : List Str) (h : ∀ l ∈ ls, c + l.length ≤ w) :
    ∀ pre : Str, pre.length ≤ c → (c ≤ w) →
      Narrow w (pre ++ List.intercalate ('\n' :: blanks c) ls) := by
  intro pre hp hc
  induction ls generalizing pre with
  | nil => exact narrow_of_length (by simpa using Nat.le_trans hp hc)
  | cons x l ih =>
    have hx := h x (by simp)
    cases l with
    | nil => rw [List.intercalate_singleton]; exact narrow_of_length (by simp; omega)
    | cons y l =>
      rw [List.intercalate_cons_cons]
      have h1 := ih (fun l hl => h l (by simp only [List.mem_cons] at hl ⊢; exact Or.inr hl)) (blanks c) (by rw [blanks_length]; exact Nat.le_refl _)
      have h2 : Narrow w (pre ++ x) := narrow_of_length (by simp; omega)
      have := narrow_newline h2 h1
      simpa [List.append_assoc] using this

theorem narrow_row {pad args sep width : Nat} {lab help text : Str} (h : Row pad args sep width lab help text)
    (hl : pad + lab.length ≤ pad + args + sep + width) (hs : ShortWords width help) :
    Narrow (pad + args + sep + width) text := by
  obtain ⟨gap, lines, e, hw, hg⟩ := h
  have hlen := wrapped_short hw hs
  rw [e]
  rcases hg with ⟨_, k, rfl, hk⟩ | ⟨_, rfl⟩
  · refine narrow_columns (c := pad + args + sep) lines (fun l hl => ?_) _ ?_ (by omega)
    · have := hlen l hl; omega
    · simp [blanks_length]; omega
  · have h1 : Narrow (pad + args + sep + width) (blanks pad ++ lab) := narrow_of_length (by simp [blanks_length]; omega)
    have h2 := narrow_columns (w := pad + args + sep + width) (c := pad + args + sep) lines
      (fun l hl => by have := hlen l hl; omega) (blanks (pad + args + sep)) (by rw [blanks_length]; exact Nat.le_refl _) (by omega)
    simpa [List.append_assoc] using narrow_newline h1 h2

theorem narrow_rows {pad args sep width : Nat} {as : List (Argument D)} {rs : List Str} (h : Rows pad args sep width as rs)
    (ha : ∀ a ∈ as, pad + (label a).length ≤ pad + args + sep + width ∧ ShortWords width (helpShown a)) :
    ∀ r ∈ rs, Narrow (pad + args + sep + width) r := by
  induction h with
  | nil => intro r hr; cases hr
  | cons hrow _ ih =>
    intro r hr
    rcases List.mem_cons.1 hr with rfl | hr
    · obtain ⟨h1, h2⟩ := ha _ (List.mem_cons_self ..)
      exact narrow_row hrow h1 h2
    · exact ih (fun a hm => ha a (by simp [hm])) r hr

/-- Appending a section or a block: both start with a line break. -/
theorem narrow_section {w : Nat} {pre title : Str} {rows : List Str} (hp : Narrow w pre) (ht : title.length + 1 ≤ w ∨ rows = [])
    (hr : ∀ r ∈ rows, Narrow w r) : Narrow w (pre ++ section_ title rows) := by
  unfold section_
  split
  · simpa using hp
  · next hne =>
    have ht := ht.resolve_right hne
    have h0 : Narrow w ([] : Str) := narrow_of_length (by simp)
    have h1 : Narrow w (title ++ [':']) := narrow_of_length (by simp; omega)
    have := narrow_newline (narrow_newline (narrow_newline hp h0) h1) (narrow_intercalate hr)
    simpa [List.append_assoc] using this

theorem narrow_block {w : Nat} {pre text shown : Str} (hp : Narrow w pre) (hb : Block w text shown) (hs : ShortWords w text) :
    Narrow w (pre ++ shown) := by
  rcases hb with ⟨_, e⟩ | ⟨_, lines, hw, e⟩
  · rw [e]; simpa using hp
  · rw [e]
    have h0 : Narrow w ([] : Str) := narrow_of_length (by simp)
    have := narrow_lines lines (narrow_newline hp h0) fun l hl => narrow_of_length (wrapped_short hw hs l hl)
    simpa [List.append_assoc] using this

theorem narrow_layout {w : Nat} {head : Str} {lines : List (List Str)} (hh : head.length ≤ w)
    (h : ∀ l ∈ lines, head.length + (itemsText l).length ≤ w) : Narrow w (usageLayout head lines) := by
  cases lines with
  | nil => exact narrow_of_length hh
  | cons f o =>
    rw [usageLayout]
    have := narrow_lines (w := w) (o.map fun l => blanks head.length ++ itemsText l)
      (narrow_of_length (s := head ++ itemsText f) (by simpa using h f (by simp))) (by
        intro l hl
        obtain ⟨i, hi, rfl⟩ := List.mem_map.1 hl
        exact narrow_of_length (by simpa [blanks_length] using h i (by simp [hi])))
    simpa [List.flatMap_map] using this

theorem baseName_unique {path b c : Str} (hb : BaseName path b) (hc : BaseName path c) : b = c := by
  have key : ∀ {x y d : Str}, '/' ∉ x → x = d ++ '/' :: y → False := fun hx e => hx (by rw [e]; simp)
  obtain ⟨hb1, hb2⟩ := hb
  obtain ⟨hc1, hc2⟩ := hc
  rcases hb2 with e | ⟨d, e⟩ <;> rcases hc2 with e' | ⟨d', e'⟩
  · rw [← e, ← e']
  · exact (key hb1 (e.symm.trans e')).elim
  · exact (key hc1 (e'.symm.trans e)).elim
  · rw [e'] at e
    rw [List.append_eq_append_iff] at e
    rcases e with ⟨m, e1, e2⟩ | ⟨m, e1, e2⟩
    · cases m with
      | nil => cases e2; rfl
      | cons x m => rw [List.cons_append] at e2; cases e2; exact (hc1 (by simp)).elim
    · cases m with
      | nil => cases e2; rfl
      | cons x m => rw [List.cons_append] at e2; cases e2; exact (hb1 (by simp)).elim

/-- C78. Without custom usage, let `base` be the base name of the program and `W` the total width set by `setUsageWidth`.
If every item of the usage line fits in `W` after the name of the program, every label fits in `W` after the padding,
the titles of the sections fit in `W`, the words of the help texts fit in the help width and those of the description
and of the epilog fit in `W`, then no line of the usage text has more than `W` characters. -/
theorem C78_fits {scan : Str → Option D} {st : State D} (hr : Reachable scan st) (h : st.usage = [])
    {base : Str} (hb : BaseName st.binaryName base)
    (hh : ("usage: ".toList ++ base).length ≤ totalWidth st)
    (hi : ∀ i ∈ usageItems st, ("usage: ".toList ++ base).length + 1 + i.length ≤ totalWidth st)
    (hp : positionalsOf st ≠ [] → "positional arguments:".length ≤ totalWidth st)
    (ho : optionsOf st ≠ [] → "optional arguments:".length ≤ totalWidth st)
    (ha : ∀ s ∈ st.arguments, st.padWidth + (label s.arg).length ≤ totalWidth st ∧ ShortWords st.helpWidth (helpShown s.arg))
    (hd : ShortWords (totalWidth st) st.description) (he : ShortWords (totalWidth st) st.epilog) :
    Narrow (totalWidth st) st.getUsage := by
  obtain ⟨base', lines, descr, rowsP, rowsO, epi, h1, h2, h3, h4, h5, h6, h7, h8, h9, h10⟩ := usage_is hr h
  obtain rfl := baseName_unique hb h2
  have hl : Narrow (totalWidth st) (usageLayout ("usage: ".toList ++ base) lines) := by
    refine narrow_layout hh fun l hl => ?_
    rcases h8 l hl with h | h
    · match l, h with
      | [], _ => simpa [itemsText] using hh
      | [i], _ =>
        have := hi i (by rw [← h3]; exact List.mem_flatten.2 ⟨_, hl, by simp⟩)
        simp [itemsText] at this ⊢
        omega
    · exact h
  have hrow : ∀ as rs, (∀ a ∈ as, a ∈ st.arguments.map (·.arg)) → Rows st.padWidth st.argsWidth st.sepWidth st.helpWidth as rs →
      ∀ r ∈ rs, Narrow (totalWidth st) r := by
    intro as rs hm hrs
    refine narrow_rows hrs fun a hin => ?_
    obtain ⟨s, hs1, rfl⟩ := List.mem_map.1 (hm a hin)
    exact ha s hs1
  have hnil : ∀ (as : List (Argument D)) rs, Rows st.padWidth st.argsWidth st.sepWidth st.helpWidth as rs → as = [] → rs = [] := by
    intro as rs hrs hz
    subst hz
    cases hrs
    rfl
  have hP : ∀ a ∈ positionalsOf st, a ∈ st.arguments.map (·.arg) := fun a h => (List.mem_filter.1 h).1
  have hO : ∀ a ∈ optionsOf st, a ∈ st.arguments.map (·.arg) := fun a h => (List.mem_filter.1 h).1
  rw [h1]
  refine narrow_block (narrow_section (narrow_section (narrow_block hl h4 hd) ?_ (hrow _ _ hP h6)) ?_ (hrow _ _ hO h7)) h5 he
  · exact (Classical.em (positionalsOf st = [])).symm.imp (fun hz => hp hz) (hnil _ _ h6)
  · exact (Classical.em (optionsOf st = [])).symm.imp (fun hz => ho hz) (hnil _ _ h7)

/-! ### The conditions are exact -/

theorem narrow_infix {w : Nat} {s t : Str} (h : Narrow w t) (hi : s <:+: t) : Narrow w s := fun l hl hn => h l (hl.trans hi) hn

/-- A word of a text is in one of its pieces. -/
theorem pieces_word {ls : List Str} {t : Str} (h : Pieces ls t) {w : Str} (hw : w <:+: t) (hs : ' ' ∉ w) (hn : '\n' ∉ w)
    (hne : w ≠ []) : ∃ l ∈ ls, w <:+: l := by
  have cut : ∀ {x y : Str} {c : Char}, w <:+: x ++ c :: y → c ∉ w → w <:+: x ∨ w <:+: y := by
    rintro x y c ⟨p, q, e⟩ hc
    rw [List.append_assoc, List.append_eq_append_iff] at e
    rcases e with ⟨m, e1, e2⟩ | ⟨m, e1, e2⟩
    · rw [List.append_eq_append_iff] at e2
      rcases e2 with ⟨k, e3, e4⟩ | ⟨k, e3, e4⟩
      · exact .inl ⟨p, k, by rw [e1, e3, List.append_assoc]⟩
      · cases k with
        | nil => exact .inl ⟨p, [], by rw [e1, e3]; simp⟩
        | cons d k =>
          rw [List.cons_append] at e4
          cases e4
          exact absurd (by rw [e3]; simp) hc
    · cases m with
      | nil =>
        rw [List.nil_append] at e2
        cases w with
        | nil => exact absurd rfl hne
        | cons d l =>
          rw [List.cons_append] at e2
          cases e2
          exact absurd (by simp) hc
      | cons d m =>
        rw [List.cons_append] at e2
        cases e2
        exact .inr ⟨m, q, by simp⟩
  induction h with
  | last l => exact ⟨l, by simp, hw⟩
  | lastNewline l =>
    rcases cut hw hn with h | h
    · exact ⟨l, by simp, h⟩
    · exact absurd (List.infix_nil.1 h) hne
  | newline l _ ih =>
    rcases cut hw hn with h | h
    · exact ⟨l, by simp, h⟩
    · obtain ⟨x, hx, h⟩ := ih h
      exact ⟨x, by simp [hx], h⟩
  | @spaces l n ls t _ ih =>
    have rest : ∀ n, w <:+: List.replicate n ' ' ++ t → w <:+: t := by
      intro n
      induction n with
      | zero => exact fun h => by simpa using h
      | succ n ihn =>
        intro h
        rw [List.replicate_succ, List.cons_append] at h
        rcases cut (x := []) h hs with h | h
        · exact absurd (List.infix_nil.1 h) hne
        · exact ihn h
    rw [List.append_assoc, List.replicate_succ, List.cons_append] at hw
    rcases cut hw hs with h | h
    · exact ⟨l, by simp, h⟩
    · obtain ⟨x, hx, h⟩ := ih (rest n h)
      exact ⟨x, by simp [hx], h⟩

theorem short_of_wrapped {w : Nat} {t : Str} {ls : List Str} (h : Wrapped w t ls) (hl : ∀ l ∈ ls, l.length ≤ w) : ShortWords w t := by
  intro x hx hs hn
  by_cases hne : x = []
  · subst hne; exact Nat.zero_le _
  rcases h.1 with ⟨e, _⟩ | hp
  · subst e; exact absurd (List.infix_nil.1 hx) hne
  · obtain ⟨l, hm, hi⟩ := pieces_word hp hx hs hn hne
    exact Nat.le_trans hi.length_le (hl l hm)

theorem mem_columns {sep x : Str} {ls : List Str} (h : x ∈ ls) (pre : Str) :
    pre ++ x <:+: pre ++ List.intercalate sep ls ∨ sep ++ x <:+: List.intercalate sep ls := by
  induction ls with
  | nil => cases h
  | cons y l ih =>
    cases l with
    | nil =>
      rw [List.mem_singleton] at h
      subst h
      rw [List.intercalate_singleton]
      exact .inl List.infix_rfl
    | cons z l =>
      rw [List.intercalate_cons_cons]
      rcases List.mem_cons.1 h with rfl | h
      · exact .inl ⟨[], sep ++ List.intercalate sep (z :: l), by simp⟩
      · refine .inr ?_
        -- the remaining lines come after `sep`
        have : ∀ {ls : List Str}, x ∈ ls → sep ++ x <:+: sep ++ List.intercalate sep ls := by
          intro ls
          induction ls with
          | nil => intro h; cases h
          | cons u l ih =>
            intro h
            cases l with
            | nil =>
              rw [List.mem_singleton] at h
              subst h
              rw [List.intercalate_singleton]
              exact List.infix_rfl
            | cons v l =>
              rw [List.intercalate_cons_cons]
              rcases List.mem_cons.1 h with rfl | h
              · exact ⟨[], sep ++ List.intercalate sep (v :: l), by simp⟩
              · exact (ih h).trans ⟨sep ++ u, [], by simp⟩
        exact (this h).trans ⟨y, [], by simp⟩

theorem row_exact {pad args sep width : Nat} {lab help text : Str} (h : Row pad args sep width lab help text) (hl : '\n' ∉ lab)
    (hn : Narrow (pad + args + sep + width) text) :
    pad + lab.length ≤ pad + args + sep + width ∧ ShortWords width help := by
  obtain ⟨gap, lines, e, hw, hg⟩ := h
  rw [e] at hn
  have nb : ∀ n, '\n' ∉ blanks n := fun n hm => by have := (List.mem_replicate.1 hm).2; revert this; decide
  refine ⟨?_, short_of_wrapped hw fun l hm => ?_⟩
  · have := hn (blanks pad ++ lab) ⟨[], gap ++ List.intercalate ('\n' :: blanks (pad + args + sep)) lines, by simp⟩
      (not_mem_append2 (nb _) hl)
    simpa [blanks_length] using this
  · have hlast : ∃ pre : Str, pre.length = pad + args + sep ∧ '\n' ∉ pre ∧ pre <:+ blanks pad ++ lab ++ gap := by
      rcases hg with ⟨_, k, rfl, hk⟩ | ⟨_, rfl⟩
      · refine ⟨blanks pad ++ lab ++ blanks k, by simp [blanks_length]; omega, ?_, List.suffix_rfl⟩
        simp only [List.mem_append, not_or]
        exact ⟨⟨nb _, hl⟩, nb _⟩
      · exact ⟨blanks (pad + args + sep), blanks_length _, nb _, ⟨blanks pad ++ lab ++ ['\n'], by simp⟩⟩
    obtain ⟨pre, hp, hpn, z, hz⟩ := hlast
    have hmn := (hw.2 l hm).1
    rw [← hz] at hn
    rcases mem_columns hm (sep := '\n' :: blanks (pad + args + sep)) pre with hi | hi
    · have := hn (pre ++ l) (hi.trans ⟨z, [], by simp⟩) (not_mem_append2 hpn hmn)
      rw [List.length_append, hp] at this
      omega
    · have := hn (blanks (pad + args + sep) ++ l)
        ((List.IsInfix.trans ⟨['\n'], [], by simp⟩ hi).trans ⟨z ++ pre, [], by simp⟩)
        (not_mem_append2 (nb _) hmn)
      rw [List.length_append, blanks_length] at this
      omega

theorem block_exact {w : Nat} {text shown : Str} (hb : Block w text shown) (hn : Narrow w shown) : ShortWords w text := by
  rcases hb with ⟨e, _⟩ | ⟨_, lines, hw, e⟩
  · rw [e]
    intro x hx _ _
    rw [List.infix_nil.1 hx]
    exact Nat.zero_le _
  · refine short_of_wrapped hw fun l hl => hn l ?_ (hw.2 l hl).1
    rw [e]
    obtain ⟨p, q, hpq⟩ := List.append_of_mem hl
    rw [hpq]
    exact ⟨'\n' :: (p.flatMap fun l => '\n' :: l) ++ ['\n'], q.flatMap fun l => '\n' :: l, by simp⟩

theorem layout_exact {w : Nat} {head : Str} {lines : List (List Str)} (hh : '\n' ∉ head) (hi : ∀ i ∈ lines.flatten, '\n' ∉ i)
    (hn : Narrow w (usageLayout head lines)) :
    head.length ≤ w ∧ ∀ i ∈ lines.flatten, head.length + 1 + i.length ≤ w := by
  have nb : ∀ n, '\n' ∉ blanks n := fun n hm => by have := (List.mem_replicate.1 hm).2; revert this; decide
  have ni : ∀ l ∈ lines, '\n' ∉ itemsText l := by
    intro l hl hm
    obtain ⟨i, hi1, hi2⟩ := List.mem_flatMap.1 hm
    rcases List.mem_cons.1 hi2 with h | h
    · revert h; decide
    · exact hi i (List.mem_flatten.2 ⟨l, hl, hi1⟩) h
  have long : ∀ (l : List Str) i, i ∈ l → 1 + i.length ≤ (itemsText l).length := by
    intro l i hm
    obtain ⟨p, q, e⟩ := List.append_of_mem hm
    rw [e]
    simp [itemsText]
    omega
  cases lines with
  | nil => exact ⟨hn head List.infix_rfl hh, fun i h => by cases h⟩
  | cons f o =>
    rw [usageLayout] at hn
    have hf := hn (head ++ itemsText f) ⟨[], o.flatMap fun l => '\n' :: blanks head.length ++ itemsText l, by simp⟩
      (not_mem_append2 hh (ni f (by simp)))
    rw [List.length_append] at hf
    refine ⟨by omega, fun i hm => ?_⟩
    obtain ⟨l, hl, hm⟩ := List.mem_flatten.1 hm
    have h1 := long l i hm
    rcases List.mem_cons.1 hl with rfl | hl'
    · omega
    · obtain ⟨p, q, e⟩ := List.append_of_mem hl'
      have := hn (blanks head.length ++ itemsText l)
        ⟨head ++ itemsText f ++ (p.flatMap fun l => '\n' :: blanks head.length ++ itemsText l) ++ ['\n'],
          q.flatMap fun l => '\n' :: blanks head.length ++ itemsText l, by rw [e]; simp⟩
        (not_mem_append2 (nb _) (ni l hl))
      rw [List.length_append, blanks_length] at this
      omega

/-- C78. When the name of the program, the items and the labels contain no line break, the conditions of `C78_fits` are
also necessary: no line of the usage text has more than `W` characters exactly when every part fits. -/
theorem C78_fits_iff {scan : Str → Option D} {st : State D} (hr : Reachable scan st) (h : st.usage = [])
    {base : Str} (hb : BaseName st.binaryName base) (hbn : '\n' ∉ base) (hin : ∀ i ∈ usageItems st, '\n' ∉ i)
    (hln : ∀ s ∈ st.arguments, '\n' ∉ label s.arg) :
    Narrow (totalWidth st) st.getUsage ↔
      ("usage: ".toList ++ base).length ≤ totalWidth st ∧
      (∀ i ∈ usageItems st, ("usage: ".toList ++ base).length + 1 + i.length ≤ totalWidth st) ∧
      (positionalsOf st ≠ [] → "positional arguments:".length ≤ totalWidth st) ∧
      (optionsOf st ≠ [] → "optional arguments:".length ≤ totalWidth st) ∧
      (∀ s ∈ st.arguments, st.padWidth + (label s.arg).length ≤ totalWidth st ∧ ShortWords st.helpWidth (helpShown s.arg)) ∧
      ShortWords (totalWidth st) st.description ∧ ShortWords (totalWidth st) st.epilog := by
  constructor
  case mpr => exact fun ⟨h1, h2, h3, h4, h5, h6, h7⟩ => C78_fits hr h hb h1 h2 h3 h4 h5 h6 h7
  intro hn
  obtain ⟨base', lines, descr, rowsP, rowsO, epi, h1, h2, h3, h4, h5, h6, h7, h8, h9, h10⟩ := usage_is hr h
  obtain rfl := baseName_unique hb h2
  rw [h1] at hn
  generalize hL : usageLayout ("usage: ".toList ++ base) lines = L at hn
  have nL : Narrow (totalWidth st) L := narrow_infix hn ⟨[], descr ++ section_ "positional arguments".toList rowsP ++
        section_ "optional arguments".toList rowsO ++ epi, by simp⟩
  have nD : Narrow (totalWidth st) descr := narrow_infix hn ⟨L, section_ "positional arguments".toList rowsP ++
        section_ "optional arguments".toList rowsO ++ epi, by simp⟩
  have nP : Narrow (totalWidth st) (section_ "positional arguments".toList rowsP) := narrow_infix hn ⟨L ++ descr,
        section_ "optional arguments".toList rowsO ++ epi, by simp⟩
  have nO : Narrow (totalWidth st) (section_ "optional arguments".toList rowsO) := narrow_infix hn ⟨L ++ descr ++
        section_ "positional arguments".toList rowsP, epi, by simp⟩
  have nE : Narrow (totalWidth st) epi := narrow_infix hn ⟨L ++ descr ++
        section_ "positional arguments".toList rowsP ++ section_ "optional arguments".toList rowsO, [], by simp⟩
  rw [← hL] at nL
  obtain ⟨l1, l2⟩ := layout_exact (not_mem_append2 (by decide) hbn) (by rw [h3]; exact hin) nL
  rw [h3] at l2
  have title : ∀ (t : Str) (as : List (Argument D)) rs, '\n' ∉ t → Rows st.padWidth st.argsWidth st.sepWidth st.helpWidth as rs →
      Narrow (totalWidth st) (section_ t rs) → as ≠ [] → t.length + 1 ≤ totalWidth st := by
    intro t as rs ht hrs hns hne
    have hrs' : rs ≠ [] := by rintro rfl; cases hrs; exact hne rfl
    unfold section_ at hns
    rw [if_neg hrs'] at hns
    have := hns (t ++ [':']) ⟨['\n', '\n'], '\n' :: List.intercalate ['\n'] rs, by simp⟩ (not_mem_append2 ht (by decide))
    simpa using this
  refine ⟨l1, l2, fun hz => title "positional arguments".toList _ _ (by decide) h6 nP hz,
    fun hz => title "optional arguments".toList _ _ (by decide) h7 nO hz, fun s hs => ?_, block_exact h4 nD, block_exact h5 nE⟩
  have hrow : ∃ r, Row st.padWidth st.argsWidth st.sepWidth st.helpWidth (label s.arg) (helpShown s.arg) r ∧
      Narrow (totalWidth st) r := by
    cases hp : s.arg.isPositional with
    | true =>
      obtain ⟨r, hr1, hr2⟩ := rows_mem h6 (a := s.arg) (List.mem_filter.2 ⟨List.mem_map.2 ⟨s, hs, rfl⟩, hp⟩)
      exact ⟨r, hr2, narrow_infix nP (mem_section hr1)⟩
    | false =>
      obtain ⟨r, hr1, hr2⟩ := rows_mem h7 (a := s.arg) (List.mem_filter.2 ⟨List.mem_map.2 ⟨s, hs, rfl⟩, by simp [hp]⟩)
      exact ⟨r, hr2, narrow_infix nO (mem_section hr1)⟩
  obtain ⟨r, hr1, hr2⟩ := hrow
  exact row_exact hr1 (hln s hs) hr2

/-! ### Concrete cases -/

/-- Checks the words of a text; `n` is the length of the current word. -/
def shortWordsB (w n : Nat) : Str → Bool
  | [] => decide (n ≤ w)
  | c :: r => if c = ' ' ∨ c = '\n' then decide (n ≤ w) && shortWordsB w 0 r else shortWordsB w (n + 1) r

theorem shortWordsB_le {w n : Nat} {t : Str} (h : shortWordsB w n t = true) : n ≤ w := by
  induction t generalizing n with
  | nil => simpa [shortWordsB] using h
  | cons c r ih =>
    rw [shortWordsB] at h
    split at h
    · simp at h; exact h.1
    · have := ih h; omega

theorem shortWordsB_spec {w n : Nat} {t : Str} (h : shortWordsB w n t = true) :
    (∀ x : Str, x <+: t → ' ' ∉ x → '\n' ∉ x → n + x.length ≤ w) ∧ ShortWords w t := by
  induction t generalizing n with
  | nil =>
    refine ⟨fun x hx _ _ => ?_, fun x hx _ _ => ?_⟩
    · rw [List.prefix_nil.1 hx]; simpa using shortWordsB_le h
    · rw [List.infix_nil.1 hx]; exact Nat.zero_le _
  | cons c r ih =>
    have hle := shortWordsB_le h
    rw [shortWordsB] at h
    have pre : ∀ x : Str, x <+: c :: r → ' ' ∉ x → '\n' ∉ x → n + x.length ≤ w := by
      intro x hx hs hn
      cases x with
      | nil => simpa using hle
      | cons d x =>
        obtain ⟨rfl, hx2⟩ := List.cons_prefix_cons.1 hx
        split at h
        · next hc => rcases hc with rfl | rfl <;> simp_all
        · have := (ih h).1 x hx2 (by simp_all) (by simp_all)
          simp; omega
    refine ⟨pre, fun x hx hs hn => ?_⟩
    rcases List.infix_cons_iff.1 hx with hx | hx
    · have := pre x hx hs hn; omega
    · split at h
      · simp at h; exact (ih h.2).2 x hx hs hn
      · exact (ih h).2 x hx hs hn

theorem shortWords_of {w : Nat} {t : Str} (h : shortWordsB w 0 t = true) : ShortWords w t := (shortWordsB_spec h).2

/-- The parser of `Props/Usage.lean` with a larger total width. -/
def fitsDemo : State Unit := runOps demoScan State.init (usageOps ++ [.setUsageWidth 2 8 2 24])

/-- All the parts of its usage text fit, so no line of it has more than 36 characters. -/
example : Narrow 36 fitsDemo.getUsage :=
  C78_fits (scan := demoScan) (st := fitsDemo) (base := "prog".toList) (reachable_runOps .init _ (by decide +kernel)) (by decide +kernel)
    ⟨by decide, .inr ⟨"/usr/bin".toList, by decide +kernel⟩⟩ (by decide +kernel) (by decide +kernel) (by decide +kernel) (by decide +kernel)
    (fun s hs => by
      have : fitsDemo.arguments.all (fun s => decide (fitsDemo.padWidth + (label s.arg).length ≤ totalWidth fitsDemo) &&
        shortWordsB fitsDemo.helpWidth 0 (helpShown s.arg)) = true := by decide +kernel
      have := List.all_eq_true.1 this s hs
      simp only [Bool.and_eq_true, decide_eq_true_eq] at this
      exact ⟨this.1, shortWords_of this.2⟩)
    (shortWords_of (by decide +kernel)) (shortWords_of (by decide +kernel))

/-- The same parser with a total width of 22 characters. -/
def tightDemo : State Unit := runOps demoScan State.init (usageOps ++ [.setUsageWidth 2 8 2 10])

/-- An item of its usage line does not fit, so a line of its usage text has more than 22 characters. -/
example : ¬Narrow 22 tightDemo.getUsage := fun hn => by
  have := ((C78_fits_iff (scan := demoScan) (st := tightDemo) (base := "prog".toList) (reachable_runOps .init _ (by decide +kernel))
    (by decide +kernel) ⟨by decide, .inr ⟨"/usr/bin".toList, by decide +kernel⟩⟩ (by decide) (by decide +kernel) (by decide +kernel)).1 hn).2.1
  exact absurd this (by decide +kernel)

end BletArgs
