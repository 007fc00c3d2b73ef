import Verif.Lemmas.Blame
/-
Different spellings of the same thing.
-/
namespace BletArgs.Spec

theorem Writes.reads {sig : Sig} {e : Entry} {tok : Str} {eq : Option Str} (h : Writes sig e tok eq) :
    ∃ name, ∀ stop ts evs out, TokenReads sig stop tok ts evs out ↔ OptionReads stop name e false eq ts evs out := by
  cases h with
  | long ht hsp hf =>
    refine ⟨_, fun stop ts evs out => ⟨fun h => ?_, fun h => .long ht hsp hf h⟩⟩
    cases h with
    | long _ hsp' hf' h' =>
      obtain ⟨rfl, rfl⟩ := splits_unique hsp hsp'
      rw [hf] at hf'; cases hf'
      exact h'
    | unknownLong _ hsp' hf' =>
      obtain ⟨rfl, rfl⟩ := splits_unique hsp hsp'
      rw [hf] at hf'; cases hf'
    | alternative h' => exact (long_not_short ht h').elim
    | cluster h' => exact (long_not_short ht h').elim
  | alternative ht hsp ha hf =>
    refine ⟨_, fun stop ts evs out => ⟨fun h => ?_, fun h => .alternative ht hsp ha hf h⟩⟩
    cases h with
    | long h' => exact (long_not_short h' ht).elim
    | unknownLong h' => exact (long_not_short h' ht).elim
    | alternative _ hsp' _ hf' h' =>
      obtain ⟨rfl, rfl⟩ := splits_unique hsp hsp'
      rw [hf] at hf'; cases hf'
      exact h'
    | cluster _ hsp' hn =>
      obtain ⟨rfl, rfl⟩ := splits_unique hsp hsp'
      exact absurd ⟨ha, by rw [hf]; rfl⟩ hn
  | short ht hsp hn hf =>
    refine ⟨_, fun stop ts evs out => ⟨fun h => ?_, fun h => .cluster ht hsp hn (.last hf h)⟩⟩
    cases h with
    | long h' => exact (long_not_short h' ht).elim
    | unknownLong h' => exact (long_not_short h' ht).elim
    | alternative _ hsp' ha hf' =>
      obtain ⟨rfl, rfl⟩ := splits_unique hsp hsp'
      exact absurd ⟨ha, by rw [hf']; rfl⟩ hn
    | cluster _ hsp' _ h' =>
      obtain ⟨e, rfl⟩ := splits_unique hsp hsp'
      cases e
      cases h' with
      | unknown hf' => rw [hf] at hf'; cases hf'
      | last hf' h' => rw [hf] at hf'; cases hf'; exact h'
      | attached hne => exact absurd rfl hne
      | notLast hne => exact absurd rfl hne
      | switch hne => exact absurd rfl hne

theorem Writes.form {sig : Sig} {e : Entry} {tok : Str} {eq : Option Str} (h : Writes sig e tok eq) : OptionForm sig tok := by
  cases h with
  | long ht hsp hf => exact .long ht hsp hf
  | alternative ht hsp ha hf => exact .alternative ht hsp ha hf
  | short ht hsp hn hf => exact .cluster ht hsp (.last hf)

theorem Writes.notWord {sig : Sig} {e : Entry} {tok : Str} {eq : Option Str} (h : Writes sig e tok eq) :
    ¬WordTok tok ∧ ¬EndTok tok := by
  have hc := C01_token_classes tok
  cases h with
  | long ht => exact ⟨fun hw => hc.2.2.2.2.2.2.2.2.1 ⟨ht, hw⟩, noEnd_long ht⟩
  | alternative ht => exact ⟨fun hw => hc.2.2.2.2.2.2.1 ⟨ht, hw⟩, noEnd_short ht⟩
  | short ht => exact ⟨fun hw => hc.2.2.2.2.2.2.1 ⟨ht, hw⟩, noEnd_short ht⟩

/-- Errors of the same option under another name. -/
theorem optionReads_name {stop : Str → Prop} {n n' : Str} {e : Entry} {att : Bool} {eq : Option Str} {ts rest : List Str}
    {evs : List Event} (h : OptionReads stop n e att eq ts evs (.rest rest)) : OptionReads stop n' e att eq ts evs (.rest rest) := by
  cases h with
  | value _ h => exact .value _ h
  | following h => exact .following h

/-- Two flags of an option, when the tokens are accepted. -/
theorem reads_same {sig : Sig} {e : Entry} {tok tok' : Str} {eq : Option Str} (h : Writes sig e tok eq)
    (h' : Writes sig e tok' eq) {q q1 : List Place} {X : List Str} {evs : List Event}
    (hr : Reads sig q (tok :: X) evs q1 none) : Reads sig q (tok' :: X) evs q1 none := by
  obtain ⟨n, hn⟩ := h.reads
  obtain ⟨n', hn'⟩ := h'.reads
  cases hr with
  | option g g' => exact .option ((hn' _ _ _ _).2 (optionReads_name ((hn _ _ _ _).1 g))) g'
  | word hw => exact absurd hw h.notWord.1

/-- A value in the next token or in the same one. -/
theorem optionReads_value {stop : Str → Prop} {n n' : Str} {e : Entry} (hk : e.kind = .simple ∨ e.kind = .multi) {v : Str}
    {X rest : List Str} {evs : List Event} :
    OptionReads stop n e false none (v :: X) evs (.rest rest) ↔ OptionReads stop n' e false (some v) X evs (.rest rest) := by
  constructor
  · intro h
    cases h with
    | following h =>
      generalize hK : e.kind = k at h hk
      generalize hvx : v :: X = ts at h
      cases h with
      | nothing _ h => rcases hk with rfl | rfl <;> simp [Valueless] at h
      | one w ts h =>
        cases hvx
        rcases hk with rfl | rfl
        · exact .value _ (by rw [hK]; exact .simple v)
        · simp at h
      | oneMore w ts => cases hvx; exact .value _ (by rw [hK]; exact .list v (.inr (.inl rfl)))
      | fixed _ _ h => rcases hk with rfl | rfl <;> simp at h
      | fixedMore => simp at hk
      | many _ _ h => rcases hk with rfl | rfl <;> simp at h
      | manyGroups _ _ h => rcases hk with rfl | rfl <;> simp at h
  · intro h
    cases h with
    | value _ h =>
      refine .following ?_
      generalize hK : e.kind = k at h hk
      cases h with
      | simple => exact .one v _ (.inl rfl)
      | list _ h =>
        rcases hk with rfl | rfl
        · simp at h
        · exact .oneMore v _

theorem reads_value {sig : Sig} {e : Entry} (hk : e.kind = .simple ∨ e.kind = .multi) {tok tok' v : Str}
    (h : Writes sig e tok none) (h' : Writes sig e tok' (some v)) {q q1 : List Place} {X : List Str} {evs : List Event} :
    Reads sig q (tok :: v :: X) evs q1 none ↔ Reads sig q (tok' :: X) evs q1 none := by
  obtain ⟨n, hn⟩ := h.reads
  obtain ⟨n', hn'⟩ := h'.reads
  constructor
  · intro hr
    cases hr with
    | option g g' => exact .option ((hn' _ _ _ _).2 ((optionReads_value hk).1 ((hn _ _ _ _).1 g))) g'
    | word hw => exact absurd hw h.notWord.1
  · intro hr
    cases hr with
    | option g g' => exact .option ((hn _ _ _ _).2 ((optionReads_value hk).2 ((hn' _ _ _ _).1 g))) g'
    | word hw => exact absurd hw h'.notWord.1

/-! ### Clusters -/

theorem cluster_inv {sig : Sig} {stop : Str → Prop} {tok : Str} {full : List Char} {eq : Option Str} (ht : ShortTok tok)
    (hsp : Splits tok ('-' :: full) eq) (hn : ¬(sig.alternative = true ∧ (sig.flag ('-' :: '-' :: full)).isSome))
    {ts : List Str} {evs : List Event} {out : Out} : TokenReads sig stop tok ts evs out ↔ ClusterReads sig stop eq ts full evs out := by
  refine ⟨fun h => ?_, fun h => .cluster ht hsp hn h⟩
  cases h with
  | long h' => exact (long_not_short h' ht).elim
  | unknownLong h' => exact (long_not_short h' ht).elim
  | alternative _ hsp' ha hf' =>
    obtain ⟨rfl, rfl⟩ := splits_unique hsp hsp'
    exact absurd ⟨ha, by rw [hf']; rfl⟩ hn
  | cluster _ hsp' _ h' =>
    obtain ⟨e, rfl⟩ := splits_unique hsp hsp'
    cases e
    exact h'

/-- The letters of a cluster with switches first. -/
theorem cluster_switch {sig : Sig} {stop : Str → Prop} {eq : Option Str} {ts : List Str} {s : Char} {cs : List Char} {e : Entry}
    (hne : cs ≠ []) (hf : sig.flag ['-', s] = some e) (hs : Switch e.kind) {evs : List Event} {out : Out} :
    ClusterReads sig stop eq ts (s :: cs) evs out ↔
      ∃ evs', evs = .option e.id false .nothing :: evs' ∧ ClusterReads sig stop eq ts cs evs' out := by
  constructor
  · intro h
    cases h with
    | unknown hf' => rw [hf] at hf'; cases hf'
    | last => exact absurd rfl hne
    | attached _ hf' _ ha => rw [hf] at hf'; cases hf'; exact absurd ha (switch_not_attaches hs)
    | notLast _ hf' _ hns => rw [hf] at hf'; cases hf'; exact absurd hs hns
    | switch _ hf' _ h => rw [hf] at hf'; cases hf'; exact ⟨_, rfl, h⟩
  · rintro ⟨evs', rfl, h⟩
    exact .switch hne hf hs h

/-- A letter that is a switch, alone. -/
theorem writes_switch {sig : Sig} {s : Char} {e : Entry} (h1 : s ≠ '-') (h2 : s ≠ '=') (hf : sig.flag ['-', s] = some e)
    (hn : ¬(sig.alternative = true ∧ (sig.flag ['-', '-', s]).isSome)) : Writes sig e ['-', s] none :=
  .short ⟨s, [], rfl, h1⟩ (.bare (by simp [Ne.symm h2])) hn hf

theorem optionReads_switch {stop : Str → Prop} {n : Str} {e : Entry} (hs : Switch e.kind) {ts : List Str}
    {evs : List Event} {out : Out} :
    OptionReads stop n e false none ts evs out ↔ evs = [.option e.id false .nothing] ∧ out = .rest ts := by
  constructor
  · intro h
    cases h with
    | following h =>
      generalize e.kind = k at h hs
      cases h with
      | nothing => exact ⟨rfl, rfl⟩
      | _ => exfalso; rcases hs with hs | hs <;> simp_all
    | missing h =>
      exfalso
      generalize e.kind = k at h hs
      cases h <;> rcases hs with rfl | rfl <;> simp_all
  · rintro ⟨rfl, rfl⟩
    exact .following (.nothing _ (by rcases hs with h | h <;> rw [h] <;> simp [Valueless]))

/-- A cluster of switches and a last option reads as these options one by one. -/
theorem reads_cluster {sig : Sig} {c : Char} {eq : Option Str} (ss : List Char) {tok tokc : Str} {q q1 : List Place}
    (ht : ShortTok tok) (hsp : Splits tok ('-' :: (ss ++ [c])) eq)
    (hn : ¬(sig.alternative = true ∧ (sig.flag ('-' :: '-' :: (ss ++ [c]))).isSome)) (hss : Switches sig ss)
    (htc : ShortTok tokc) (hspc : Splits tokc ['-', c] eq)
    (hdash : sig.flag ['-', '-'] = none) (heq : '=' ∉ ss)
    (halt : ∀ s ∈ ss ++ [c], ¬(sig.alternative = true ∧ (sig.flag ['-', '-', s]).isSome))
    {X : List Str} {evs : List Event} {err : Option Exn} :
    Reads sig q (tok :: X) evs q1 err ↔ Reads sig q (ss.map (fun s => ['-', s]) ++ tokc :: X) evs q1 err := by
  have hw : ¬WordTok tok := fun hw => (C01_token_classes tok).2.2.2.2.2.2.1 ⟨ht, hw⟩
  have hwc : ¬WordTok tokc := fun hw => (C01_token_classes tokc).2.2.2.2.2.2.1 ⟨htc, hw⟩
  have hnc := halt c (by simp)
  -- what the token says, in terms of its letters
  have step : Reads sig q (tok :: X) evs q1 err ↔
      ((∃ e1 rest e2, ClusterReads sig (OptionForm sig) eq X (ss ++ [c]) e1 (.rest rest) ∧ evs = e1 ++ e2 ∧ Reads sig q rest e2 q1 err) ∨
       (∃ x, ClusterReads sig (OptionForm sig) eq X (ss ++ [c]) evs (.error x) ∧ q1 = q ∧ err = some x)) := by
    constructor
    · intro h
      cases h with
      | option g g' => exact .inl ⟨_, _, _, (cluster_inv ht hsp hn).1 g, rfl, g'⟩
      | badOption g => exact .inr ⟨_, (cluster_inv ht hsp hn).1 g, rfl, rfl⟩
      | word h => exact absurd h hw
      | badWord h => exact absurd h hw
    · rintro (⟨e1, rest, e2, g, rfl, g'⟩ | ⟨x, g, rfl, rfl⟩)
      · exact .option ((cluster_inv ht hsp hn).2 g) g'
      · exact .badOption ((cluster_inv ht hsp hn).2 g)
  rw [step]
  clear step hn hsp ht hw
  induction ss generalizing evs with
  | nil =>
    simp only [List.nil_append, List.map_nil]
    constructor
    · rintro (⟨e1, rest, e2, g, rfl, g'⟩ | ⟨x, g, rfl, rfl⟩)
      · exact .option ((cluster_inv htc hspc hnc).2 g) g'
      · exact .badOption ((cluster_inv htc hspc hnc).2 g)
    · intro h
      cases h with
      | option g g' => exact .inl ⟨_, _, _, (cluster_inv htc hspc hnc).1 g, rfl, g'⟩
      | badOption g => exact .inr ⟨_, (cluster_inv htc hspc hnc).1 g, rfl, rfl⟩
      | word h => exact absurd h hwc
      | badWord h => exact absurd h hwc
  | cons s ss ih =>
    obtain ⟨e, hf, hs⟩ := hss s List.mem_cons_self
    have hsd : s ≠ '-' := by rintro rfl; rw [hdash] at hf; cases hf
    have hse : s ≠ '=' := by rintro rfl; exact heq List.mem_cons_self
    have hwr := writes_switch hsd hse hf (halt s (by simp))
    obtain ⟨n, hrd⟩ := hwr.reads
    have ih' := fun evs => ih (evs := evs) (fun x hx => hss x (List.mem_cons_of_mem _ hx)) (fun h => heq (List.mem_cons_of_mem _ h))
      (fun x hx => halt x (List.mem_cons_of_mem _ hx))
    have hne : ss ++ [c] ≠ [] := by simp
    simp only [List.cons_append, List.map_cons]
    have lhs : ((∃ e1 rest e2, ClusterReads sig (OptionForm sig) eq X (s :: (ss ++ [c])) e1 (.rest rest) ∧ evs = e1 ++ e2 ∧
          Reads sig q rest e2 q1 err) ∨
        (∃ x, ClusterReads sig (OptionForm sig) eq X (s :: (ss ++ [c])) evs (.error x) ∧ q1 = q ∧ err = some x)) ↔
        ∃ evs', evs = .option e.id false .nothing :: evs' ∧
          ((∃ e1 rest e2, ClusterReads sig (OptionForm sig) eq X (ss ++ [c]) e1 (.rest rest) ∧ evs' = e1 ++ e2 ∧ Reads sig q rest e2 q1 err) ∨
          (∃ x, ClusterReads sig (OptionForm sig) eq X (ss ++ [c]) evs' (.error x) ∧ q1 = q ∧ err = some x)) := by
      constructor
      · rintro (⟨e1, rest, e2, g, rfl, g'⟩ | ⟨x, g, rfl, rfl⟩)
        · obtain ⟨e1', rfl, g2⟩ := (cluster_switch hne hf hs).1 g
          exact ⟨e1' ++ e2, rfl, .inl ⟨_, _, _, g2, rfl, g'⟩⟩
        · obtain ⟨e1', rfl, g2⟩ := (cluster_switch hne hf hs).1 g
          exact ⟨e1', rfl, .inr ⟨_, g2, rfl, rfl⟩⟩
      · rintro ⟨evs', rfl, ⟨e1, rest, e2, g, rfl, g'⟩ | ⟨x, g, rfl, rfl⟩⟩
        · exact .inl ⟨_, _, _, (cluster_switch hne hf hs).2 ⟨_, rfl, g⟩, rfl, g'⟩
        · exact .inr ⟨_, (cluster_switch hne hf hs).2 ⟨_, rfl, g⟩, rfl, rfl⟩
    rw [lhs]
    constructor
    · rintro ⟨evs', rfl, h⟩
      have h := (ih' evs').1 h
      exact .option (evs := [.option e.id false .nothing]) ((hrd _ _ _ _).2 ((optionReads_switch hs).2 ⟨rfl, rfl⟩)) h
    · intro h
      cases h with
      | option g g' =>
        obtain ⟨rfl, e⟩ := (optionReads_switch hs).1 ((hrd _ _ _ _).1 g)
        cases e
        exact ⟨_, rfl, (ih' _).2 g'⟩
      | badOption g =>
        obtain ⟨_, e⟩ := (optionReads_switch hs).1 ((hrd _ _ _ _).1 g)
        cases e
      | word h => exact absurd h hwr.notWord.1
      | badWord h => exact absurd h hwr.notWord.1

/-! ### Signatures that differ in their modes only -/

theorem clusterForm_congr {s s' : Sig} (hf : s'.flag = s.flag) {eq : Option Str} {cs : List Char} (h : ClusterForm s eq cs) :
    ClusterForm s' eq cs := by
  induction h with
  | last h => exact .last (by rw [hf]; exact h)
  | first hne h h' => exact .first hne (by rw [hf]; exact h) h'
  | later hne h _ ih => exact .later hne (by rw [hf]; exact h) ih

theorem optionForm_congr {s s' : Sig} (hf : s'.flag = s.flag) (ha : s'.alternative = s.alternative) {tok : Str}
    (h : OptionForm s tok) : OptionForm s' tok := by
  cases h with
  | long ht hsp h => exact .long ht hsp (by rw [hf]; exact h)
  | alternative ht hsp h h' => exact .alternative ht hsp (by rw [ha]; exact h) (by rw [hf]; exact h')
  | cluster ht hsp h => exact .cluster ht hsp (clusterForm_congr hf h)

theorem optionForm_eq {s s' : Sig} (hf : s'.flag = s.flag) (ha : s'.alternative = s.alternative) :
    OptionForm s' = OptionForm s := by
  funext tok
  exact propext ⟨optionForm_congr hf.symm ha.symm, optionForm_congr hf ha⟩

theorem clusterReads_congr {s s' : Sig} (hf : s'.flag = s.flag) {stop : Str → Prop} {eq : Option Str} {ts : List Str}
    {cs : List Char} {evs : List Event} {out : Out} (h : ClusterReads s stop eq ts cs evs out) :
    ClusterReads s' stop eq ts cs evs out := by
  induction h with
  | none => exact .none
  | unknown h => exact .unknown (by rw [hf]; exact h)
  | last h h' => exact .last (by rw [hf]; exact h) h'
  | attached hne h he ha h' => exact .attached hne (by rw [hf]; exact h) he ha h'
  | notLast hne h ha hs => exact .notLast hne (by rw [hf]; exact h) ha hs
  | switch hne h hs _ ih => exact .switch hne (by rw [hf]; exact h) hs ih

theorem tokenReads_congr {s s' : Sig} (hf : s'.flag = s.flag) (ha : s'.alternative = s.alternative) {stop : Str → Prop}
    {tok : Str} {ts : List Str} {evs : List Event} {out : Out} (h : TokenReads s stop tok ts evs out) :
    TokenReads s' stop tok ts evs out := by
  cases h with
  | long ht hsp h h' => exact .long ht hsp (by rw [hf]; exact h) h'
  | unknownLong ht hsp h => exact .unknownLong ht hsp (by rw [hf]; exact h)
  | alternative ht hsp h h1 h' => exact .alternative ht hsp (by rw [ha]; exact h) (by rw [hf]; exact h1) h'
  | cluster ht hsp h h' => exact .cluster ht hsp (by rw [hf, ha]; exact h) (clusterReads_congr hf h')

/-! ### Surplus words in strict mode -/

def extraOf : Event → Option Str
  | .extra w => some w
  | _ => none

theorem reads_strict {s s' : Sig} (hf : s'.flag = s.flag) (ha : s'.alternative = s.alternative) (hs : s.strict = false)
    (hs' : s'.strict = true) {q q1 : List Place} {ts : List Str} {evs : List Event} {err : Option Exn}
    (h : Reads s q ts evs q1 err) :
    ((∀ ev ∈ evs, extraOf ev = none) → Reads s' q ts evs q1 err) ∧
    (∀ w ws, evs.filterMap extraOf = w :: ws → ∃ evs' q', Reads s' q ts evs' q' (some (parseError w "invalid additional argument"))) := by
  have hform := optionForm_eq hf ha
  induction h with
  | nil => exact ⟨fun _ => .nil _, fun w ws e => by cases e⟩
  | option h _ ih =>
    have hx : ∀ ev ∈ _, extraOf ev = none := fun ev hev => by
      obtain ⟨_, e, a, v, _, h⟩ := tokenReads_events h ev hev
      rw [h]; rfl
    have h' := tokenReads_congr hf ha h
    rw [← hform] at h'
    refine ⟨fun hh => .option h' (ih.1 fun ev hev => hh ev (List.mem_append_right _ hev)), fun w ws e => ?_⟩
    rw [List.filterMap_append, List.filterMap_eq_nil_iff.2 hx] at e
    obtain ⟨evs', q', g⟩ := ih.2 w ws e
    exact ⟨_, q', .option h' g⟩
  | badOption h =>
    have hx : ∀ ev ∈ _, extraOf ev = none := fun ev hev => by
      obtain ⟨_, e, a, v, _, h⟩ := tokenReads_events h ev hev
      rw [h]; rfl
    have h' := tokenReads_congr hf ha h
    rw [← hform] at h'
    refine ⟨fun _ => .badOption h', fun w ws e => ?_⟩
    rw [List.filterMap_eq_nil_iff.2 hx] at e
    cases e
  | @word q q' q'' tok ts rest ev evs err hw h _ ih =>
    cases h with
    | fill h =>
      rw [← hform] at h
      refine ⟨fun hh => .word hw (.fill h) (ih.1 fun ev hev => hh ev (List.mem_cons_of_mem _ hev)), fun w ws e => ?_⟩
      obtain ⟨evs', q', g⟩ := ih.2 w ws e
      exact ⟨_, q', .word hw (.fill h) g⟩
    | surplus w _ _ =>
      refine ⟨fun hh => ?_, fun w' ws e => ?_⟩
      · have := hh _ List.mem_cons_self
        cases this
      · simp only [List.filterMap_cons, extraOf, List.cons.injEq] at e
        obtain ⟨rfl, _⟩ := e
        exact ⟨_, _, .badWord hw (.surplus _ _ hs')⟩
  | badWord hw h =>
    cases h with
    | missing h => rw [← hform] at h; exact ⟨fun _ => .badWord hw (.missing h), fun w ws e => by cases e⟩
    | surplus _ _ h => rw [hs] at h; cases h

theorem readsWords_strict {q q1 : List Place} {ts : List Str} {evs : List Event} {err : Option Exn}
    (h : ReadsWords false q ts evs q1 err) :
    ((∀ ev ∈ evs, extraOf ev = none) → ReadsWords true q ts evs q1 err) ∧
    (∀ w ws, evs.filterMap extraOf = w :: ws → ∃ evs' q', ReadsWords true q ts evs' q' (some (parseError w "invalid additional argument"))) := by
  induction h with
  | nil => exact ⟨fun _ => .nil _, fun w ws e => by cases e⟩
  | @word q q' q'' tok ts rest ev evs err h _ ih =>
    cases h with
    | fill h =>
      refine ⟨fun hh => .word (.fill h) (ih.1 fun ev hev => hh ev (List.mem_cons_of_mem _ hev)), fun w ws e => ?_⟩
      obtain ⟨evs', q', g⟩ := ih.2 w ws e
      exact ⟨_, q', .word (.fill h) g⟩
    | surplus w _ _ =>
      refine ⟨fun hh => ?_, fun w' ws e => ?_⟩
      · have := hh _ List.mem_cons_self
        cases this
      · simp only [List.filterMap_cons, extraOf, List.cons.injEq] at e
        obtain ⟨rfl, _⟩ := e
        exact ⟨_, _, .badWord (.surplus _ _ rfl)⟩
  | badWord h =>
    cases h with
    | missing h => exact ⟨fun _ => .badWord (.missing h), fun w ws e => by cases e⟩
    | surplus _ _ h => cases h

theorem line_strict {s s' : Sig} (hf : s'.flag = s.flag) (ha : s'.alternative = s.alternative) (hs : s.strict = false)
    (hs' : s'.strict = true) {q : List Place} {ts : List Str} {evs : List Event} {err : Option Exn}
    (h : Line s q ts evs err) :
    ((∀ ev ∈ evs, extraOf ev = none) → Line s' q ts evs err) ∧
    (∀ w ws, evs.filterMap extraOf = w :: ws → ∃ evs', Line s' q ts evs' (some (parseError w "invalid additional argument"))) := by
  cases h with
  | whole hn h =>
    obtain ⟨h1, h2⟩ := reads_strict hf ha hs hs' h
    refine ⟨fun hh => .whole hn (h1 hh), fun w ws e => ?_⟩
    obtain ⟨evs', q', g⟩ := h2 w ws e
    exact ⟨_, .whole hn g⟩
  | splitBad hn h =>
    obtain ⟨h1, h2⟩ := reads_strict hf ha hs hs' h
    refine ⟨fun hh => .splitBad hn (h1 hh), fun w ws e => ?_⟩
    obtain ⟨evs', q', g⟩ := h2 w ws e
    exact ⟨_, .splitBad hn g⟩
  | split hn h h' =>
    obtain ⟨h1, h2⟩ := reads_strict hf ha hs hs' h
    rw [hs] at h'
    obtain ⟨h3, h4⟩ := readsWords_strict h'
    refine ⟨fun hh => .split hn (h1 fun ev hev => hh ev (List.mem_append_left _ hev))
      (by rw [hs']; exact h3 fun ev hev => hh ev (List.mem_append_right _ hev)), fun w ws e => ?_⟩
    rw [List.filterMap_append] at e
    cases e1 : List.filterMap extraOf _ with
    | nil =>
      rw [e1] at e
      obtain ⟨evs', q', g⟩ := h4 w ws e
      exact ⟨_, .split hn (h1 (List.filterMap_eq_nil_iff.1 e1)) (by rw [hs']; exact g)⟩
    | cons a as =>
      rw [e1] at e
      cases e
      obtain ⟨evs', q', g⟩ := h2 w _ e1
      exact ⟨_, .splitBad hn g⟩

/-! ### Alternative mode off -/

theorem optionForm_noAlt {s s' : Sig} (hf : s'.flag = s.flag) {tok : Str} (hna : NoAlternative s [tok])
    (h : OptionForm s tok) : OptionForm s' tok := by
  cases h with
  | long ht hsp h => exact .long ht hsp (by rw [hf]; exact h)
  | alternative ht hsp h h' => rw [hna _ (by simp) ht _ _ hsp] at h'; cases h'
  | cluster ht hsp h => exact .cluster ht hsp (clusterForm_congr hf h)

theorem takes_congr {stop stop' : Str → Prop} {n : Nat} {k : Ty} {ts rest : List Str} {vals : Values}
    (hst : ∀ t ∈ ts, stop t ↔ stop' t) (h : Takes stop n k ts vals rest) : Takes stop' n k ts vals rest := by
  cases h with
  | nothing _ hv => exact .nothing _ hv
  | one v _ hv => exact .one v _ hv
  | oneMore v _ => exact .oneMore v _
  | fixed vs _ hv hl => exact .fixed vs _ hv hl
  | fixedMore vs _ hl => exact .fixedMore vs _ hl
  | many vs _ hv hl =>
    refine .many vs _ hv ⟨fun v hv => ?_, fun t ht => ?_⟩
    · rw [← hst v (List.mem_append_left _ hv)]; exact hl.1 v hv
    · exact (hst t (List.mem_append_right _ (List.mem_of_mem_head? ht))).1 (hl.2 t ht)
  | manyGroups gs _ hv hg hl =>
    refine .manyGroups gs _ hv (fun g hg' => ⟨(hg g hg').1, fun t ht => ?_⟩) (fun t ht => ?_)
    · rw [← hst t (List.mem_append_left _ (List.mem_flatten.2 ⟨g, hg', List.mem_of_mem_head? ht⟩))]
      exact (hg g hg').2 t ht
    · exact (hst t (List.mem_append_right _ (List.mem_of_mem_head? ht))).1 (hl t ht)

theorem tooFew_congr {stop stop' : Str → Prop} {n : Nat} {k : Ty} {ts : List Str}
    (hst : ∀ t ∈ ts, stop t ↔ stop' t) (h : TooFew stop n k ts) : TooFew stop' n k ts := by
  cases h with
  | one h => exact .one h
  | fixed _ h hl => exact .fixed _ h hl
  | group gs t r h hg ht hl =>
    refine .group gs t r h (fun g hg' => ⟨(hg g hg').1, fun x hx => ?_⟩) ?_ hl
    · rw [← hst x (List.mem_append_left _ (List.mem_flatten.2 ⟨g, hg', List.mem_of_mem_head? hx⟩))]
      exact (hg g hg').2 x hx
    · rw [← hst t (by simp)]; exact ht

theorem optionReads_congr {stop stop' : Str → Prop} {name : Str} {e : Entry} {att : Bool} {eq : Option Str} {ts : List Str}
    {evs : List Event} {out : Out} (hst : ∀ t ∈ ts, stop t ↔ stop' t) (h : OptionReads stop name e att eq ts evs out) :
    OptionReads stop' name e att eq ts evs out := by
  cases h with
  | value _ h => exact .value _ h
  | valueForSeveral _ _ h => exact .valueForSeveral _ _ h
  | valueForNone _ _ h => exact .valueForNone _ _ h
  | following h => exact .following (takes_congr hst h)
  | missing h => exact .missing (tooFew_congr hst h)

theorem clusterReads_stop {s s' : Sig} (hf : s'.flag = s.flag) {stop stop' : Str → Prop} {eq : Option Str} {ts : List Str}
    (hst : ∀ t ∈ ts, stop t ↔ stop' t)
    {cs : List Char} {evs : List Event} {out : Out} (h : ClusterReads s stop eq ts cs evs out) :
    ClusterReads s' stop' eq ts cs evs out := by
  induction h with
  | none => exact .none
  | unknown h => exact .unknown (by rw [hf]; exact h)
  | last h h' => exact .last (by rw [hf]; exact h) (optionReads_congr hst h')
  | attached hne h he ha h' => exact .attached hne (by rw [hf]; exact h) he ha (optionReads_congr hst h')
  | notLast hne h ha hs => exact .notLast hne (by rw [hf]; exact h) ha hs
  | switch hne h hs _ ih => exact .switch hne (by rw [hf]; exact h) hs ih

theorem NoAlternative.mono {s : Sig} {ts ts' : List Str} (h : NoAlternative s ts) (hs : ∀ t ∈ ts', t ∈ ts) : NoAlternative s ts' :=
  fun t ht => h t (hs t ht)

theorem tokenReads_noAlt {s s' : Sig} (hf : s'.flag = s.flag) {stop stop' : Str → Prop}
    {tok : Str} {ts : List Str} (hst : ∀ t ∈ ts, stop t ↔ stop' t) (hna : NoAlternative s [tok])
    {evs : List Event} {out : Out} (h : TokenReads s stop tok ts evs out) : TokenReads s' stop' tok ts evs out := by
  cases h with
  | long ht hsp h h' => exact .long ht hsp (by rw [hf]; exact h) (optionReads_congr hst h')
  | unknownLong ht hsp h => exact .unknownLong ht hsp (by rw [hf]; exact h)
  | alternative ht hsp h h1 h' => rw [hna _ (by simp) ht _ _ hsp] at h1; cases h1
  | cluster ht hsp h h' =>
    refine .cluster ht hsp ?_ (clusterReads_stop hf hst h')
    rw [hf, hna _ (by simp) ht _ _ hsp]
    simp

theorem reads_noAlt {s s' : Sig} (hf : s'.flag = s.flag) (hs : s'.strict = s.strict) {q q1 : List Place} {ts : List Str}
    (hna : NoAlternative s ts) {evs : List Event} {err : Option Exn} (h : Reads s q ts evs q1 err) :
    Reads s' q ts evs q1 err := by
  have stop : ∀ {ts : List Str}, NoAlternative s ts → ∀ t ∈ ts, OptionForm s t ↔ OptionForm s' t := by
    intro ts hna t ht
    constructor
    · exact optionForm_noAlt hf (hna.mono fun x hx => by rw [List.mem_singleton.1 hx]; exact ht)
    · refine optionForm_noAlt hf.symm fun x hx h1 n e h2 => ?_
      rw [List.mem_singleton.1 hx] at h1 h2
      rw [hf]; exact hna t ht h1 n e h2
  induction h with
  | nil => exact .nil _
  | @option q q' tok ts rest evs evs' err h _ ih =>
    have h' := tokenReads_noAlt hf (stop (hna.mono fun t ht => List.mem_cons_of_mem _ ht))
      (hna.mono fun x hx => by rw [List.mem_singleton.1 hx]; exact List.mem_cons_self) h
    obtain ⟨p, e, _⟩ := tokenReads_swap h
    exact .option h' (ih (hna.mono fun t ht => List.mem_cons_of_mem _ (by rw [e]; exact List.mem_append_right _ ht)))
  | badOption h =>
    exact .badOption (tokenReads_noAlt hf (stop (hna.mono fun t ht => List.mem_cons_of_mem _ ht))
      (hna.mono fun x hx => by rw [List.mem_singleton.1 hx]; exact List.mem_cons_self) h)
  | word hw h _ ih =>
    have e := wordReads_words h
    have hr := ih (hna.mono fun t ht => by rw [e]; exact List.mem_append_right _ ht)
    cases h with
    | fill h => exact .word hw (.fill (takes_congr (stop hna) h)) hr
    | surplus _ _ hh => exact .word hw (.surplus _ _ (hs.trans hh)) hr
  | badWord hw h =>
    cases h with
    | missing h => exact .badWord hw (.missing (tooFew_congr (stop hna) h))
    | surplus _ _ hh => exact .badWord hw (.surplus _ _ (hs.trans hh))

theorem line_noAlt {s s' : Sig} (hf : s'.flag = s.flag) (hs : s'.strict = s.strict) {q : List Place} {ts : List Str}
    (hna : ∀ X, Front ts X → NoAlternative s X) {evs : List Event} {err : Option Exn} (h : Line s q ts evs err) :
    Line s' q ts evs err := by
  cases h with
  | whole hn h => exact .whole hn (reads_noAlt hf hs (hna _ ⟨hn, .inl rfl⟩) h)
  | splitBad hn h => exact .splitBad hn (reads_noAlt hf hs (hna _ ⟨hn, .inr ⟨_, rfl⟩⟩) h)
  | split hn h h' =>
    exact .split hn (reads_noAlt hf hs (hna _ ⟨hn, .inr ⟨_, rfl⟩⟩) h) (by rw [hs]; exact h')

end BletArgs.Spec
