import Verif.Lemmas.Unique
import Verif.Spec.Position
/-
Places in a command line.
-/
namespace BletArgs.Spec

theorem Reaches.reads {sig : Sig} {q q1 q2 : List Place} {ts X : List Str} {e1 e2 : List Event} {err : Option Exn}
    (h : Reaches sig q ts e1 q1 X) (g : Reads sig q1 X e2 q2 err) : Reads sig q ts (e1 ++ e2) q2 err := by
  induction h with
  | here => exact g
  | option h _ ih => rw [List.append_assoc]; exact .option h (ih g)
  | word hw h _ ih => exact .word hw h (ih g)

theorem Reaches.trans {sig : Sig} {q q1 q2 : List Place} {ts X Y : List Str} {e1 e2 : List Event}
    (h : Reaches sig q ts e1 q1 X) (g : Reaches sig q1 X e2 q2 Y) : Reaches sig q ts (e1 ++ e2) q2 Y := by
  induction h with
  | here => exact g
  | option h _ ih => rw [List.append_assoc]; exact .option h (ih g)
  | word hw h _ ih => exact .word hw h (ih g)

theorem Reaches.sized {sig : Sig} {q q1 : List Place} {ts X : List Str} {e1 : List Event} (hq : PlacesSized q)
    (h : Reaches sig q ts e1 q1 X) : PlacesSized q1 := by
  induction h with
  | here => exact hq
  | option _ _ ih => exact ih hq
  | word _ h _ ih => exact ih (wordReads_sized hq h)

theorem Reaches.continues {sig : Sig} (hsig : Sig.Sized sig) {q q1 q2 : List Place} (hq : PlacesSized q)
    {ts X : List Str} {e1 e : List Event} {err : Option Exn} (h : Reaches sig q ts e1 q1 X)
    (g : Reads sig q ts e q2 err) : ∃ e2, e = e1 ++ e2 ∧ Reads sig q1 X e2 q2 err := by
  induction h generalizing e with
  | here => exact ⟨e, rfl, g⟩
  | option h _ ih =>
    cases g with
    | option h' g' =>
      obtain ⟨rfl, e⟩ := tokenReads_unique hsig h h'
      cases e
      obtain ⟨e2, rfl, k⟩ := ih hq g'
      exact ⟨e2, by rw [List.append_assoc], k⟩
    | badOption h' => obtain ⟨_, e⟩ := tokenReads_unique hsig h h'; cases e
    | word hw => exact absurd hw (tokenReads_dashed h)
    | badWord hw => exact absurd hw (tokenReads_dashed h)
  | word hw h _ ih =>
    cases g with
    | option h' => exact absurd hw (tokenReads_dashed h')
    | badOption h' => exact absurd hw (tokenReads_dashed h')
    | word _ h' g' =>
      obtain ⟨rfl, rfl, rfl⟩ := wordReads_unique hq h h'
      obtain ⟨e2, rfl, k⟩ := ih (wordReads_sized hq h) g'
      exact ⟨e2, rfl, k⟩
    | badWord _ h' => exact (wordReads_not_fails hq h h').elim

/-! ### Replacing the rest of the line -/

/-- The values taken do not depend on the rest, but for whether it begins with a token that stops. -/
theorem takes_swap {stop : Str → Prop} {n : Nat} {k : Ty} {ts rest : List Str} {vals : Values}
    (h : Takes stop n k ts vals rest) : ∃ p, ts = p ++ rest ∧
      ∀ rest', ((∀ t, rest.head? = some t → stop t) → ∀ t, rest'.head? = some t → stop t) →
        Takes stop n k (p ++ rest') vals rest' := by
  cases h with
  | nothing _ hv => exact ⟨[], rfl, fun r _ => .nothing r hv⟩
  | one v _ hv => exact ⟨[v], rfl, fun r _ => .one v r hv⟩
  | oneMore v _ => exact ⟨[v], rfl, fun r _ => .oneMore v r⟩
  | fixed vs _ hv hl => exact ⟨vs, rfl, fun r _ => .fixed vs r hv hl⟩
  | fixedMore vs _ hl => exact ⟨vs, rfl, fun r _ => .fixedMore vs r hl⟩
  | many vs _ hv hl => exact ⟨vs, rfl, fun r hr => .many vs r hv ⟨hl.1, hr hl.2⟩⟩
  | manyGroups gs _ hv hg hl => exact ⟨gs.flatten, rfl, fun r hr => .manyGroups gs r hv hg (hr hl)⟩

theorem optionReads_swap {stop : Str → Prop} {name : Str} {e : Entry} {att : Bool} {eq : Option Str} {ts rest : List Str}
    {evs : List Event} (h : OptionReads stop name e att eq ts evs (.rest rest)) : ∃ p, ts = p ++ rest ∧
      ∀ rest', ((∀ t, rest.head? = some t → stop t) → ∀ t, rest'.head? = some t → stop t) →
        OptionReads stop name e att eq (p ++ rest') evs (.rest rest') := by
  cases h with
  | value _ h => exact ⟨[], rfl, fun r _ => .value r h⟩
  | following h =>
    obtain ⟨p, e, h⟩ := takes_swap h
    exact ⟨p, e, fun r hr => .following (h r hr)⟩

theorem clusterReads_swap {sig : Sig} {stop : Str → Prop} {eq : Option Str} {ts : List Str} {cs : List Char}
    {evs : List Event} {out : Out} (h : ClusterReads sig stop eq ts cs evs out) : ∀ rest, out = .rest rest →
      ∃ p, ts = p ++ rest ∧
      ∀ rest', ((∀ t, rest.head? = some t → stop t) → ∀ t, rest'.head? = some t → stop t) →
        ClusterReads sig stop eq (p ++ rest') cs evs (.rest rest') := by
  induction h with
  | none | unknown | notLast => intro r e; cases e
  | last hf h =>
    rintro r rfl
    obtain ⟨p, e, h⟩ := optionReads_swap h
    exact ⟨p, e, fun r hr => .last hf (h r hr)⟩
  | attached hne hf he ha h =>
    rintro r rfl
    obtain ⟨p, e, h⟩ := optionReads_swap h
    exact ⟨p, e, fun r hr => .attached hne hf he ha (h r hr)⟩
  | switch hne hf hs _ ih =>
    intro r e
    obtain ⟨p, e, h⟩ := ih r e
    exact ⟨p, e, fun r hr => .switch hne hf hs (h r hr)⟩

theorem tokenReads_swap {sig : Sig} {stop : Str → Prop} {tok : Str} {ts rest : List Str}
    {evs : List Event} (h : TokenReads sig stop tok ts evs (.rest rest)) :
      ∃ p, ts = p ++ rest ∧
      ∀ rest', ((∀ t, rest.head? = some t → stop t) → ∀ t, rest'.head? = some t → stop t) →
        TokenReads sig stop tok (p ++ rest') evs (.rest rest') := by
  cases h with
  | long a b c h =>
    obtain ⟨p, e, h⟩ := optionReads_swap h
    exact ⟨p, e, fun r hr => .long a b c (h r hr)⟩
  | alternative a b c d h =>
    obtain ⟨p, e, h⟩ := optionReads_swap h
    exact ⟨p, e, fun r hr => .alternative a b c d (h r hr)⟩
  | cluster a b c h =>
    obtain ⟨p, e, h⟩ := clusterReads_swap h _ rfl
    exact ⟨p, e, fun r hr => .cluster a b c (h r hr)⟩

theorem wordReads_swap {stop : Str → Prop} {strict : Bool} {q q1 : List Place} {ts rest : List Str} {ev : Event}
    (h : WordReads stop strict q ts ev q1 rest) :
      ∃ p, ts = p ++ rest ∧
      ∀ rest', ((∀ t, rest.head? = some t → stop t) → ∀ t, rest'.head? = some t → stop t) →
        WordReads stop strict q (p ++ rest') ev q1 rest' := by
  cases h with
  | fill h =>
    obtain ⟨p, e, h⟩ := takes_swap h
    exact ⟨p, e, fun r hr => .fill (h r hr)⟩
  | surplus w _ hs => exact ⟨[w], rfl, fun r _ => .surplus w r hs⟩

/-- Every positional argument takes at least the word it is given. -/
def PlacesTake (q : List Place) : Prop := ∀ x ∈ q, x.kind.isPositional = true ∧ (x.kind = .numberPos → 0 < x.arity)

theorem PlacesTake.tail {q q1 : List Place} {stop : Str → Prop} {strict : Bool} {ts rest : List Str} {ev : Event}
    (hq : PlacesTake q) (h : WordReads stop strict q ts ev q1 rest) : PlacesTake q1 := by
  cases h with
  | fill h => exact fun x hx => hq x (List.mem_cons_of_mem _ hx)
  | surplus => exact hq

theorem takes_progress {stop : Str → Prop} {n : Nat} {k : Ty} {tok : Str} {ts rest : List Str} {vals : Values}
    (h : Takes stop n k (tok :: ts) vals rest) (hk : k.isPositional = true) (hn : k = .numberPos → 0 < n)
    (hs : ¬stop tok) : rest ≠ tok :: ts := by
  rintro e
  generalize hts : tok :: ts = ts' at h
  cases h with
  | nothing _ hv => unfold Valueless at hv; rcases hv with hv | hv | hv | hv | hv <;> rw [hv] at hk <;> cases hk
  | one v r hv => rw [e] at hts; simp at hts
  | oneMore v r => rw [e] at hts; simp at hts
  | fixed vs r hv hl =>
    have : vs = [] := by
      have := congrArg List.length hts
      rw [e, List.length_append] at this
      exact List.length_eq_zero_iff.1 (by omega)
    subst this
    rcases hv with rfl | rfl
    · cases hk
    · have := hn rfl; simp at hl; omega
  | fixedMore vs r hl => cases hk
  | many vs r hv hl => exact hs (hl.2 tok (by rw [e]; rfl))
  | manyGroups gs r hv hg hl => exact hs (hl tok (by rw [e]; rfl))

theorem wordReads_progress {stop : Str → Prop} {strict : Bool} {q q1 : List Place} {tok : Str} {ts rest : List Str}
    {ev : Event} (h : WordReads stop strict q (tok :: ts) ev q1 rest)
    (hs : ¬stop tok) (hq : PlacesTake q) : rest ≠ tok :: ts := by
  cases h with
  | fill h => exact takes_progress h (hq _ List.mem_cons_self).1 (hq _ List.mem_cons_self).2 hs
  | surplus => intro e; exact absurd (congrArg List.length e) (by simp)

theorem Reaches.swap {sig : Sig} {q q1 : List Place} (hq : PlacesTake q) {ts X : List Str} {t : Str} {evs : List Event}
    (h : Reaches sig q ts evs q1 (t :: X)) : ∃ p, ts = p ++ t :: X ∧
      ∀ t' X', (OptionForm sig t → OptionForm sig t') → Reaches sig q (p ++ t' :: X') evs q1 (t' :: X') := by
  generalize hY : t :: X = Y at h
  induction h with
  | here q ts => subst hY; exact ⟨[], rfl, fun t' X' _ => .here q _⟩
  | @option q q' tok ts ts' rest evs evs' h _ ih =>
    obtain ⟨p, rfl, ih2⟩ := ih hq hY
    subst hY
    obtain ⟨p', rfl, hsw⟩ := tokenReads_swap h
    refine ⟨tok :: (p' ++ p), by simp, fun t' X' ht => ?_⟩
    have := hsw (p ++ t' :: X') (by
      intro hh x hx
      cases p with
      | nil => cases hx; exact ht (hh t rfl)
      | cons a p => exact hh x hx)
    rw [List.cons_append, List.append_assoc]
    exact .option this (ih2 t' X' ht)
  | @word q q' q'' tok ts ts' rest ev evs hw h _ ih =>
    obtain ⟨p, rfl, ih2⟩ := ih (hq.tail h) hY
    subst hY
    have hpr := wordReads_progress h (word_not_option hw) hq
    obtain ⟨p', e, hsw⟩ := wordReads_swap h
    cases p' with
    | nil => exact absurd e.symm hpr
    | cons a p' =>
      cases e
      refine ⟨tok :: (p' ++ p), by simp, fun t' X' ht => ?_⟩
      have := hsw (p ++ t' :: X') (by
        intro hh x hx
        cases p with
        | nil => cases hx; exact ht (hh t rfl)
        | cons a p => exact hh x hx)
      rw [List.cons_append, List.append_assoc]
      exact .word hw this (ih2 t' X' ht)

/-! ### Lines -/

theorem noEnd_back {a b : List Str} {P : Prop} (h : ∀ t ∈ a ++ ['-', '-'] :: b, ¬EndTok t) : P :=
  absurd rfl (h ['-', '-'] (by simp))

/-- The part before the first `--` is unique. -/
theorem Front.unique {line f1 f2 : List Str} (h1 : Front line f1) (h2 : Front line f2) : f1 = f2 := by
  obtain ⟨n1, rfl | ⟨b1, e1⟩⟩ := h1 <;> obtain ⟨n2, e2 | ⟨b2, e2⟩⟩ := h2
  · exact e2
  · rw [e2] at n1; exact noEnd_back n1
  · rw [← e2, e1] at n2; exact noEnd_back n2
  · rw [e1] at e2; exact (split_unique n1 n2 e2).1

theorem Front.exists (line : List Str) : ∃ f, Front line f := by
  induction line with
  | nil => exact ⟨[], by simp, .inl rfl⟩
  | cons t line ih =>
    obtain ⟨f, hn, h⟩ := ih
    by_cases ht : EndTok t
    · exact ⟨[], by simp, .inr ⟨line, by rw [show t = ['-', '-'] from ht]; rfl⟩⟩
    · refine ⟨t :: f, ?_, ?_⟩
      · intro x hx
        rcases List.mem_cons.1 hx with rfl | hx
        · exact ht
        · exact hn x hx
      · rcases h with rfl | ⟨b, rfl⟩
        · exact .inl rfl
        · exact .inr ⟨b, rfl⟩

theorem Front.append {A post X : List Str} (hA : ∀ t ∈ A, ¬EndTok t) (h : Front post X) : Front (A ++ post) (A ++ X) := by
  refine ⟨?_, ?_⟩
  · intro t ht
    rcases List.mem_append.1 ht with ht | ht
    · exact hA t ht
    · exact h.1 t ht
  · rcases h.2 with rfl | ⟨b, rfl⟩
    · exact .inl rfl
    · exact .inr ⟨b, by rw [List.append_assoc]⟩

theorem Line.of_front {sig : Sig} {q q1 : List Place} {line ts : List Str} {evs : List Event} {x : Exn}
    (hf : Front line ts) (h : Reads sig q ts evs q1 (some x)) : Line sig q line evs (some x) := by
  rcases hf.2 with rfl | ⟨b, rfl⟩
  · exact .whole hf.1 h
  · exact .splitBad hf.1 h

/-- The part before `--` of a line that is read. -/
theorem Line.front {sig : Sig} {q : List Place} {line ts : List Str} {evs : List Event} {err : Option Exn}
    (hf : Front line ts) (h : Line sig q line evs err) : ∃ evs1 evs2 q1 err1, Reads sig q ts evs1 q1 err1 ∧
      evs = evs1 ++ evs2 ∧
      ((err1 = err ∧ evs2 = [] ∧ (line = ts ∨ ∃ x, err = some x)) ∨
        (err1 = none ∧ ∃ back q2, line = ts ++ ['-', '-'] :: back ∧ ReadsWords sig.strict q1 back evs2 q2 err)) := by
  cases h with
  | whole hn h =>
    obtain rfl := hf.unique ⟨hn, .inl rfl⟩
    exact ⟨evs, [], _, err, h, by simp, .inl ⟨rfl, rfl, .inl rfl⟩⟩
  | split hn h h' =>
    obtain rfl := hf.unique ⟨hn, .inr ⟨_, rfl⟩⟩
    exact ⟨_, _, _, none, h, rfl, .inr ⟨rfl, _, _, rfl, h'⟩⟩
  | splitBad hn h =>
    obtain rfl := hf.unique ⟨hn, .inr ⟨_, rfl⟩⟩
    exact ⟨evs, [], _, _, h, by simp, .inl ⟨rfl, rfl, .inr ⟨_, rfl⟩⟩⟩

theorem line_swap {sig : Sig} {q : List Place} {A A' post X : List Str} {evs : List Event} {err : Option Exn}
    (hA : ∀ t ∈ A, ¬EndTok t) (hA' : ∀ t ∈ A', ¬EndTok t) (hf : Front post X)
    (hread : ∀ evs q1 x, x = none ∨ x = err → Reads sig q (A ++ X) evs q1 x → Reads sig q (A' ++ X) evs q1 x)
    (h : Line sig q (A ++ post) evs err) : Line sig q (A' ++ post) evs err := by
  obtain ⟨evs1, evs2, q1, err1, h1, rfl, ⟨rfl, rfl, hx⟩ | ⟨rfl, back, q2, e, h2⟩⟩ := h.front (hf.append hA)
  · rw [List.append_nil]
    have h1 := hread _ _ _ (.inr rfl) h1
    rcases hx with hx | ⟨x, rfl⟩
    · rw [List.append_cancel_left hx]
      exact .whole (hf.append hA').1 h1
    · exact Line.of_front (hf.append hA') h1
  · rw [List.append_assoc] at e
    rw [List.append_cancel_left e, ← List.append_assoc]
    exact .split (hf.append hA').1 (hread _ _ _ (.inl rfl) h1) h2

/-- Replacing a token met in option position, with some of its followers. -/
theorem line_replace {sig : Sig} (hsig : Sig.Sized sig) {q : List Place} (hq : PlacesTake q) (hz : PlacesSized q)
    {pre A A' post : List Str} {tok tok' : Str} {evs : List Event} {err : Option Exn}
    (hm : MetAt sig q pre tok (A ++ post)) (hA : ∀ t ∈ tok :: A, ¬EndTok t) (hA' : ∀ t ∈ tok' :: A', ¬EndTok t)
    (hform : OptionForm sig tok → OptionForm sig tok')
    (hread : ∀ q1 X evs q2 x, x = none ∨ x = err → Reads sig q1 (tok :: (A ++ X)) evs q2 x →
      Reads sig q1 (tok' :: (A' ++ X)) evs q2 x)
    (h : Line sig q (pre ++ tok :: (A ++ post)) evs err) : Line sig q (pre ++ tok' :: (A' ++ post)) evs err := by
  obtain ⟨X0, e0, q0, hpre, hf0, hr⟩ := hm
  obtain ⟨X, hf⟩ := Front.exists post
  obtain rfl := hf0.unique (hf.append fun t ht => hA t (List.mem_cons_of_mem _ ht))
  obtain ⟨p, ep, hs⟩ := hr.swap hq
  obtain rfl : pre = p := List.append_cancel_right ep
  have noEnd : ∀ B : List Str, (∀ t ∈ B, ¬EndTok t) → ∀ t ∈ pre ++ B, ¬EndTok t := by
    intro B hB t ht
    rcases List.mem_append.1 ht with ht | ht
    · exact hpre t ht
    · exact hB t ht
  have key := line_swap (A := pre ++ tok :: A) (A' := pre ++ tok' :: A') (post := post) (X := X) (q := q) (sig := sig)
    (evs := evs) (err := err) (noEnd _ hA) (noEnd _ hA') hf ?_ (by simpa using h)
  · simpa using key
  · intro evs q1 x hx h
    rw [List.append_assoc, List.cons_append] at h ⊢
    obtain ⟨e2, rfl, h3⟩ := hr.continues hsig hz h
    exact (hs tok' (A' ++ X) hform).reads (hread _ _ _ _ _ hx h3)

end BletArgs.Spec
