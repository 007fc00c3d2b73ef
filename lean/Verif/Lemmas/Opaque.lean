import Verif.Spec.Opaque
import Verif.Lemmas.Compose
/-
Lemmas for C93.
-/
namespace BletArgs.Spec

/-- The place is reached whatever comes there, if it does not extend a list that ended there. -/
theorem Reaches.swapAny {sig : Sig} {q q1 : List Place} (hq : PlacesTake q) {ts X : List Str} {t : Str} {evs : List Event}
    (h : Reaches sig q ts evs q1 (t :: X)) : ∃ p, ts = p ++ t :: X ∧
      ∀ Y, (∀ t', Y.head? = some t' → OptionForm sig t') → Reaches sig q (p ++ Y) evs q1 Y := by
  generalize hY : t :: X = Z at h
  induction h with
  | here q ts => subst hY; exact ⟨[], rfl, fun Y _ => .here q _⟩
  | @option q q' tok ts ts' rest evs evs' h _ ih =>
    obtain ⟨p, rfl, ih2⟩ := ih hq hY
    subst hY
    obtain ⟨p', rfl, hsw⟩ := tokenReads_swap h
    refine ⟨tok :: (p' ++ p), by simp, fun Y hy => ?_⟩
    have := hsw (p ++ Y) (by
      intro hh x hx
      cases p with
      | nil => exact hy x hx
      | cons a p => exact hh x hx)
    rw [List.cons_append, List.append_assoc]
    exact .option this (ih2 Y hy)
  | @word q q' q'' tok ts ts' rest ev evs hw h _ ih =>
    obtain ⟨p, rfl, ih2⟩ := ih (hq.tail h) hY
    subst hY
    have hpr := wordReads_progress h (word_not_option hw) hq
    obtain ⟨p', e, hsw⟩ := wordReads_swap h
    cases p' with
    | nil => exact absurd e.symm hpr
    | cons a p' =>
      cases e
      refine ⟨tok :: (p' ++ p), by simp, fun Y hy => ?_⟩
      have := hsw (p ++ Y) (by
        intro hh x hx
        cases p with
        | nil => exact hy x hx
        | cons a p => exact hh x hx)
      rw [List.cons_append, List.append_assoc]
      exact .word hw this (ih2 Y hy)

/-! ### Words after `--` -/

theorem split_length {α : Type} {a b c : List α} (h : c.length = (a ++ b).length) : ∃ a' b', c = a' ++ b' ∧ a'.length = a.length ∧ b'.length = b.length := by
  rw [List.length_append] at h
  exact ⟨c.take a.length, c.drop a.length, (List.take_append_drop _ _).symm, by rw [List.length_take]; omega, by rw [List.length_drop]; omega⟩

theorem regroup {α : Type} : ∀ (gs : List (List α)) (c : List α), c.length = gs.flatten.length →
    ∃ gs' : List (List α), gs'.flatten = c ∧ gs'.map List.length = gs.map List.length := by
  intro gs
  induction gs with
  | nil => intro c h; exact ⟨[], (List.length_eq_zero_iff.1 h).symm, rfl⟩
  | cons g gs ih =>
    intro c h
    obtain ⟨a, b, rfl, ha, hb⟩ := split_length (a := g) (b := gs.flatten) h
    obtain ⟨gs', e1, e2⟩ := ih b hb
    exact ⟨a :: gs', by simp [e1], by simp [ha, e2]⟩

theorem blank_list {a b : List Str} (h : a.length = b.length) : (a.map fun _ => ([] : Str)) = b.map fun _ => [] := by
  rw [List.map_const', List.map_const', h]

theorem blank_groups {a b : List (List Str)} (h : a.map List.length = b.map List.length) :
    (a.map fun g => g.map fun _ => ([] : Str)) = b.map fun g => g.map fun _ => [] := by
  simp only [List.map_const']
  have : ∀ l : List (List Str), (l.map fun g => List.replicate g.length ([] : Str)) = (l.map List.length).map fun n => List.replicate n [] := by
    intro l; simp
  rw [this, this, h]

theorem takes_blank {n : Nat} {k : Ty} {ts rest : List Str} {vals : Values} (h : Takes (fun _ => False) n k ts vals rest)
    {ts' : List Str} (hl : ts'.length = ts.length) : ∃ vals' rest', Takes (fun _ => False) n k ts' vals' rest' ∧
      rest'.length = rest.length ∧ vals'.blank = vals.blank := by
  have ends : ∀ {r : List Str}, (∀ t, r.head? = some t → False) → r = [] := by
    intro r hr
    cases r with
    | nil => rfl
    | cons t r => exact (hr t rfl).elim
  cases h with
  | nothing _ hv => exact ⟨.nothing, ts', .nothing _ hv, hl, rfl⟩
  | one v _ hv =>
    cases ts' with
    | nil => cases hl
    | cons w ts' => exact ⟨.single w, ts', .one w _ hv, by simpa using hl, rfl⟩
  | oneMore v _ =>
    cases ts' with
    | nil => cases hl
    | cons w ts' => exact ⟨.list [w], ts', .oneMore w _, by simpa using hl, rfl⟩
  | fixed vs _ hv hn =>
    obtain ⟨a, b, rfl, ha, hb⟩ := split_length hl
    exact ⟨.list a, b, .fixed a b hv (ha.trans hn), hb, congrArg Values.list (blank_list ha)⟩
  | fixedMore vs _ hn =>
    obtain ⟨a, b, rfl, ha, hb⟩ := split_length hl
    exact ⟨.groups [a], b, .fixedMore a b (ha.trans hn), hb, congrArg Values.groups (blank_groups (by simp [ha]))⟩
  | many vs _ hv hs =>
    obtain rfl := ends hs.2
    obtain ⟨a, b, rfl, ha, hb⟩ := split_length hl
    obtain rfl := List.length_eq_zero_iff.1 hb
    exact ⟨.list a, [], .many a [] hv ⟨fun _ _ h => h, fun _ h => by cases h⟩, rfl, congrArg Values.list (blank_list ha)⟩
  | manyGroups gs _ hv hg hs =>
    obtain rfl := ends hs
    obtain ⟨a, b, rfl, ha, hb⟩ := split_length hl
    obtain rfl := List.length_eq_zero_iff.1 hb
    obtain ⟨gs', rfl, e⟩ := regroup gs a ha
    refine ⟨.groups gs', [], .manyGroups gs' [] hv ?_ (fun _ h => by cases h), rfl, congrArg Values.groups (blank_groups e)⟩
    intro g hg'
    refine ⟨?_, fun _ _ h => h⟩
    have : g.length ∈ gs.map List.length := e ▸ List.mem_map_of_mem hg'
    obtain ⟨g0, h0, e0⟩ := List.mem_map.1 this
    rw [← e0]
    exact (hg g0 h0).1

theorem readsWords_blank {strict : Bool} {q q1 : List Place} {ts : List Str} {evs : List Event} {err : Option Exn}
    (h : ReadsWords strict q ts evs q1 err) (he : err = none) : ∀ ts' : List Str, ts'.length = ts.length →
    ∃ evs', ReadsWords strict q ts' evs' q1 none ∧ evs'.map Event.blank = evs.map Event.blank := by
  induction h with
  | nil q =>
    intro ts' hl
    obtain rfl := List.length_eq_zero_iff.1 hl
    exact ⟨[], .nil q, rfl⟩
  | badWord => cases he
  | @word q q' q'' tok ts rest ev evs err h g ih =>
    intro ts' hl
    have : ∃ ev' rest', WordReads (fun _ => False) strict q ts' ev' q' rest' ∧ rest'.length = rest.length ∧ ev'.blank = ev.blank := by
      generalize hts : tok :: ts = ts0 at h hl
      cases h with
      | fill h =>
        obtain ⟨vals', rest', h1, h2, h3⟩ := takes_blank h hl
        exact ⟨_, rest', .fill h1, h2, congrArg (Event.positional _) h3⟩
      | surplus w _ hs =>
        cases ts' with
        | nil => cases hl
        | cons w' ts' => exact ⟨_, ts', .surplus w' ts' hs, by simpa using hl, rfl⟩
    obtain ⟨ev', rest', h1, h2, h3⟩ := this
    obtain ⟨evs', g1, g2⟩ := ih he rest' h2
    refine ⟨ev' :: evs', ?_, by rw [List.map_cons, List.map_cons, h3, g2]⟩
    cases ts' with
    | nil => cases hl
    | cons t ts' => exact .word h1 g1

end BletArgs.Spec
