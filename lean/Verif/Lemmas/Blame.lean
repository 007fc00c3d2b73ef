import Verif.Lemmas.Position
/-
Errors of option tokens, and which token is to blame.
-/
namespace BletArgs.Spec

theorem long_name2 {tok name : Str} {eq : Option Str} (hs : LongTok tok) (h : Splits tok name eq) :
    ∃ cs, name = '-' :: '-' :: cs := by
  obtain ⟨c, r, rfl⟩ := hs
  cases h with
  | eq _ _ h =>
    obtain ⟨h, _⟩ := h
    match name, h with
    | [], h => simp at h
    | [a], h => simp at h
    | a :: b :: n, h =>
      simp only [List.cons_append, List.cons.injEq] at h
      exact ⟨n, by rw [← h.1, ← h.2.1]⟩
  | bare _ => exact ⟨_, rfl⟩

theorem noEnd_short {tok : Str} (h : ShortTok tok) : ¬EndTok tok := by
  obtain ⟨c, r, rfl, hc⟩ := h
  intro h
  simp only [EndTok, List.cons.injEq, true_and] at h
  exact hc h.1

theorem noEnd_long {tok : Str} (h : LongTok tok) : ¬EndTok tok := by
  obtain ⟨c, r, rfl⟩ := h
  intro h
  simp [EndTok] at h

/-- Letters that are switches. -/
def Switches (sig : Sig) (ss : List Char) : Prop := ∀ s ∈ ss, ∃ e, sig.flag ['-', s] = some e ∧ Switch e.kind

theorem Switches.snoc {sig : Sig} {ss : List Char} {c : Char} {e : Entry} (h : Switches sig ss)
    (hf : sig.flag ['-', c] = some e) (hs : Switch e.kind) : Switches sig (ss ++ [c]) := by
  intro s hs'
  rcases List.mem_append.1 hs' with hs' | hs'
  · exact h s hs'
  · rw [List.mem_singleton] at hs'; subst hs'; exact ⟨e, hf, hs⟩

/-- The error of a cluster. -/
theorem cluster_blame {sig : Sig} {stop : Str → Prop} {q : List Place} {tok : Str} {ts : List Str} {eq : Option Str} {full : List Char}
    (ht : ShortTok tok) (hsp : Splits tok ('-' :: full) eq)
    (hn : ¬(sig.alternative = true ∧ (sig.flag ('-' :: '-' :: full)).isSome)) {cs : List Char} {evs : List Event} {out : Out}
    (h : ClusterReads sig stop eq ts cs evs out) : ∀ x ss, out = .error x → Switches sig ss → full = ss ++ cs →
      (cs = [] → ss = []) → ∃ c m, Blames sig stop q tok ts c m ∧ x = parseError c m := by
  induction h with
  | none =>
    rintro x ss e hss rfl h0
    cases e
    obtain rfl := h0 rfl
    exact ⟨_, _, .unknown (.noLetter ht hsp hn), rfl⟩
  | unknown hf =>
    rintro x ss e hss rfl _
    cases e
    exact ⟨_, _, .unknown (.letter ht hsp hn hss hf), rfl⟩
  | last hf h =>
    rintro x ss rfl hss rfl _
    cases h with
    | valueForSeveral v _ hk => exact ⟨_, _, .valueForSeveral (.letter ht hsp hn hss hf) hk, rfl⟩
    | valueForNone v _ hk => exact ⟨_, _, .valueForNone (.letter ht hsp hn hss hf) hk, rfl⟩
    | missing hk => exact ⟨_, _, .missing (.letter ht hsp hn hss hf) hk, rfl⟩
  | attached hne hf he ha h =>
    rintro x ss rfl hss rfl _
    subst he
    cases h with
    | valueForSeveral v _ hk => exact ⟨_, _, .valueForSeveral (.attached ht hsp hne hn hss hf ha) hk, rfl⟩
    | valueForNone v _ hk => exact ⟨_, _, .valueForNone (.attached ht hsp hne hn hss hf ha) hk, rfl⟩
  | notLast hne hf hna hs =>
    rintro x ss e hss rfl _
    cases e
    exact ⟨_, _, .notLast (.mk ht hsp hne hn hss hf hs hna), rfl⟩
  | switch hne hf hs _ ih =>
    rintro x ss e hss rfl _
    exact ih x _ e (hss.snoc hf hs) (by simp) (fun h => absurd h hne)

theorem token_blame {sig : Sig} {stop : Str → Prop} {q : List Place} {tok : Str} {ts : List Str} {evs : List Event} {x : Exn}
    (h : TokenReads sig stop tok ts evs (.error x)) : ∃ c m, Blames sig stop q tok ts c m ∧ x = parseError c m := by
  cases h with
  | long ht hsp hf h =>
    obtain ⟨n, rfl⟩ := long_name2 ht hsp
    cases h with
    | valueForSeveral v _ hk => exact ⟨_, _, .valueForSeveral (.long ht hsp hf) hk, rfl⟩
    | valueForNone v _ hk => exact ⟨_, _, .valueForNone (.long ht hsp hf) hk, rfl⟩
    | missing hk => exact ⟨_, _, .missing (.long ht hsp hf) hk, rfl⟩
  | unknownLong ht hsp hf =>
    obtain ⟨n, rfl⟩ := long_name2 ht hsp
    exact ⟨_, _, .unknown (.long ht hsp hf), rfl⟩
  | alternative ht hsp ha hf h =>
    obtain ⟨n, rfl⟩ := short_name ht hsp
    cases h with
    | valueForSeveral v _ hk => exact ⟨_, _, .valueForSeveral (.alternative ht hsp ha hf) hk, rfl⟩
    | valueForNone v _ hk => exact ⟨_, _, .valueForNone (.alternative ht hsp ha hf) hk, rfl⟩
    | missing hk => exact ⟨_, _, .missing (.alternative ht hsp ha hf) hk, rfl⟩
  | cluster ht hsp hn h => exact cluster_blame ht hsp hn h x [] rfl (by intro s hs; cases hs) rfl (fun _ => rfl)

/-- Reading switches first. -/
theorem cluster_switches {sig : Sig} {stop : Str → Prop} {eq : Option Str} {ts : List Str} {ss cs : List Char}
    (hss : Switches sig ss) (hne : cs ≠ []) {evs : List Event} {out : Out} (h : ClusterReads sig stop eq ts cs evs out) :
    ∃ evs', ClusterReads sig stop eq ts (ss ++ cs) (evs' ++ evs) out := by
  induction ss with
  | nil => exact ⟨[], h⟩
  | cons s ss ih =>
    obtain ⟨evs', h'⟩ := ih fun x hx => hss x (List.mem_cons_of_mem _ hx)
    obtain ⟨e, hf, hs⟩ := hss s List.mem_cons_self
    exact ⟨.option e.id false .nothing :: evs', .switch (by simp [hne]) hf hs h'⟩

theorem uses_reads' {sig : Sig} {stop : Str → Prop} {tok : Str} {ts : List Str} {e : Entry} {name : Str} {eq : Option Str}
    (hu : Uses sig tok e name eq) : ∃ att pre, (eq = none → att = false) ∧ ∀ evs out, OptionReads stop name e att eq ts evs out →
      TokenReads sig stop tok ts (pre ++ evs) out := by
  cases hu with
  | long ht hsp hf => exact ⟨false, [], fun _ => rfl, fun evs out h => .long ht hsp hf h⟩
  | alternative ht hsp ha hf => exact ⟨false, [], fun _ => rfl, fun evs out h => .alternative ht hsp ha hf h⟩
  | @letter ss c eq ht hsp hn hss hf =>
    have key : ∀ ss : List Char, Switches sig ss → ∃ pre, ∀ evs out, OptionReads stop [c] e false eq ts evs out →
        ClusterReads sig stop eq ts (ss ++ [c]) (pre ++ evs) out := by
      intro ss hss
      induction ss with
      | nil => exact ⟨[], fun evs out h => .last hf h⟩
      | cons s ss ih =>
        obtain ⟨pre, ih⟩ := ih fun x hx => hss x (List.mem_cons_of_mem _ hx)
        obtain ⟨e', hf', hs'⟩ := hss s List.mem_cons_self
        exact ⟨.option e'.id false .nothing :: pre, fun evs out h => .switch (by simp) hf' hs' (ih evs out h)⟩
    obtain ⟨pre, hk⟩ := key ss hss
    exact ⟨false, pre, fun _ => rfl, fun evs out h => .cluster ht hsp hn (hk evs out h)⟩
  | @attached ss cs c ht hsp hne hn hss hf ha =>
    have key : ∀ ss : List Char, Switches sig ss → ∃ pre, ∀ evs out, OptionReads stop [c] e true (some cs) ts evs out →
        ClusterReads sig stop none ts (ss ++ c :: cs) (pre ++ evs) out := by
      intro ss hss
      induction ss with
      | nil => exact ⟨[], fun evs out h => .attached hne hf rfl ha h⟩
      | cons s ss ih =>
        obtain ⟨pre, ih⟩ := ih fun x hx => hss x (List.mem_cons_of_mem _ hx)
        obtain ⟨e', hf', hs'⟩ := hss s List.mem_cons_self
        exact ⟨.option e'.id false .nothing :: pre, fun evs out h => .switch (by simp) hf' hs' (ih evs out h)⟩
    obtain ⟨pre, hk⟩ := key ss hss
    exact ⟨true, pre, fun e => (nomatch e), fun evs out h => .cluster ht hsp hn (hk evs out h)⟩

theorem uses_reads {sig : Sig} {stop : Str → Prop} {tok : Str} {ts : List Str} {e : Entry} {name : Str} {eq : Option Str}
    (hu : Uses sig tok e name eq) : ∃ att pre, ∀ evs out, OptionReads stop name e att eq ts evs out →
      TokenReads sig stop tok ts (pre ++ evs) out :=
  let ⟨att, pre, _, h⟩ := uses_reads' hu
  ⟨att, pre, h⟩

theorem blames_reads {sig : Sig} {stop : Str → Prop} {q : List Place} {tok : Str} {ts : List Str} {c : Str} {m : String}
    (h : Blames sig stop q tok ts c m) : ∃ evs, TokenReads sig stop tok ts evs (.error (parseError c m)) := by
  cases h with
  | unknown h =>
    cases h with
    | long ht hsp hf => exact ⟨_, .unknownLong ht hsp hf⟩
    | letter ht hsp hn hss hf =>
      obtain ⟨evs', h⟩ := cluster_switches (stop := stop) (ts := ts) hss (by simp) (.unknown (eq := _) hf)
      exact ⟨_, .cluster ht hsp hn h⟩
    | noLetter ht hsp hn => exact ⟨_, .cluster ht hsp hn .none⟩
  | notLast h =>
    obtain ⟨ht, hsp, hne, hn, hss, hf, hs, hna⟩ := h
    obtain ⟨evs', h⟩ := cluster_switches (stop := stop) (ts := ts) hss (by simp) (.notLast hne hf hna hs)
    exact ⟨_, .cluster ht hsp hn h⟩
  | valueForSeveral hu hk =>
    obtain ⟨att, pre, h⟩ := uses_reads (stop := stop) (ts := ts) hu
    exact ⟨_, h _ _ (.valueForSeveral _ _ hk)⟩
  | valueForNone hu hk =>
    obtain ⟨att, pre, h⟩ := uses_reads (stop := stop) (ts := ts) hu
    exact ⟨_, h _ _ (.valueForNone _ _ hk)⟩
  | missing hu hk =>
    obtain ⟨att, pre, h⟩ := uses_reads (stop := stop) (ts := ts) hu
    exact ⟨_, h _ _ (.missing hk)⟩

/-- Where the reading of the tokens before `--` fails. -/
theorem reads_blame {sig : Sig} {q q1 : List Place} {ts : List Str} {evs : List Event} {err : Option Exn}
    (h : Reads sig q ts evs q1 err) : ∀ x, err = some x → ∃ pre tok X evs' q', ts = pre ++ tok :: X ∧
      Reaches sig q ts evs' q' (tok :: X) ∧ ∃ c m, x = parseError c m ∧
        (Blames sig (OptionForm sig) q' tok X c m ∨ (WordTok tok ∧ BlamesWord sig.strict (OptionForm sig) tok X q' c m)) := by
  induction h with
  | nil => intro x e; cases e
  | @option q q' tok ts rest evs evs' err h _ ih =>
    intro x e
    obtain ⟨pre, t, X, evs1, q1, rfl, hr, hb⟩ := ih x e
    obtain ⟨p, e, _⟩ := tokenReads_swap h
    exact ⟨tok :: (p ++ pre), t, X, _, q1, by rw [e]; simp, .option h hr, hb⟩
  | @badOption q tok ts evs e h =>
    intro x e
    cases e
    obtain ⟨c, m, hb, rfl⟩ := token_blame (q := q) h
    exact ⟨[], tok, ts, _, q, rfl, .here _ _, c, m, rfl, .inl hb⟩
  | @word q q' q'' tok ts rest ev evs err hw h _ ih =>
    intro x e
    obtain ⟨pre, t, X, evs1, q1, rfl, hr, hb⟩ := ih x e
    obtain ⟨p, e, _⟩ := wordReads_swap h
    exact ⟨p ++ pre, t, X, _, q1, by rw [e]; simp, .word hw h hr, hb⟩
  | @badWord q tok ts e hw h =>
    intro x e
    cases e
    cases h with
    | missing h => exact ⟨[], tok, ts, _, _, rfl, .here _ _, _, _, rfl, .inr ⟨hw, .missing h⟩⟩
    | surplus _ _ h => exact ⟨[], tok, ts, _, _, rfl, .here _ _, _, _, rfl, .inr ⟨hw, .surplus h⟩⟩

theorem readsWords_blame {strict : Bool} {q q1 : List Place} {ts : List Str} {evs : List Event} {err : Option Exn}
    (h : ReadsWords strict q ts evs q1 err) : ∀ x, err = some x → ∃ pre tok X evs' q', ts = pre ++ tok :: X ∧
      ReachesWords strict q ts evs' q' (tok :: X) ∧ ∃ c m, x = parseError c m ∧
        BlamesWord strict (fun _ => False) tok X q' c m := by
  induction h with
  | nil => intro x e; cases e
  | @word q q' q'' tok ts rest ev evs err h _ ih =>
    intro x e
    obtain ⟨pre, t, X, evs1, q1, rfl, hr, hb⟩ := ih x e
    obtain ⟨p, e, _⟩ := wordReads_swap h
    exact ⟨p ++ pre, t, X, _, q1, by rw [e]; simp, .word h hr, hb⟩
  | @badWord q tok ts e h =>
    intro x e
    cases e
    cases h with
    | missing h => exact ⟨[], tok, ts, _, _, rfl, .here _ _, _, _, rfl, .missing h⟩
    | surplus _ _ h => exact ⟨[], tok, ts, _, _, rfl, .here _ _, _, _, rfl, .surplus h⟩

theorem ReachesWords.reads {strict : Bool} {q q1 q2 : List Place} {ts X : List Str} {e1 e2 : List Event} {err : Option Exn}
    (h : ReachesWords strict q ts e1 q1 X) (g : ReadsWords strict q1 X e2 q2 err) : ReadsWords strict q ts (e1 ++ e2) q2 err := by
  induction h with
  | here => exact g
  | word h _ ih => exact .word h (ih g)

theorem BlamesWord.fails {strict : Bool} {stop : Str → Prop} {q : List Place} {tok : Str} {ts : List Str} {c : Str} {m : String}
    (h : BlamesWord strict stop tok ts q c m) : WordFails stop strict q (tok :: ts) (parseError c m) := by
  cases h with
  | missing h => exact .missing h
  | surplus h => exact .surplus _ _ h

theorem fault_line {sig : Sig} {q : List Place} {line : List Str} {c : Str} {m : String} (h : Fault sig q line c m) :
    ∃ evs, Line sig q line evs (some (parseError c m)) := by
  cases h with
  | option hf hr hb =>
    obtain ⟨evs, h⟩ := blames_reads hb
    exact ⟨_, Line.of_front hf (hr.reads (.badOption h))⟩
  | word hf hr hw hb => exact ⟨_, Line.of_front hf (hr.reads (.badWord hw hb.fails))⟩
  | afterEnd hn e h hr hb =>
    subst e
    exact ⟨_, .split hn h (hr.reads (.badWord hb.fails))⟩

theorem line_fault {sig : Sig} {q : List Place} {line : List Str} {evs : List Event} {x : Exn}
    (h : Line sig q line evs (some x)) : ∃ c m, Fault sig q line c m ∧ x = parseError c m := by
  have key : ∀ {ts evs q1}, Front line ts → Reads sig q ts evs q1 (some x) → ∃ c m, Fault sig q line c m ∧ x = parseError c m := by
    intro ts evs q1 hf h
    obtain ⟨pre, tok, X, evs', q', _, hr, c, m, rfl, hb | ⟨hw, hb⟩⟩ := reads_blame h x rfl
    · exact ⟨c, m, .option hf hr hb, rfl⟩
    · exact ⟨c, m, .word hf hr hw hb, rfl⟩
  cases h with
  | whole hn h => exact key ⟨hn, .inl rfl⟩ h
  | splitBad hn h => exact key ⟨hn, .inr ⟨_, rfl⟩⟩ h
  | split hn h h' =>
    obtain ⟨pre, tok, X, evs', q', _, hr, c, m, rfl, hb⟩ := readsWords_blame h' x rfl
    exact ⟨c, m, .afterEnd hn rfl h hr hb, rfl⟩

/-! ### Words are not lost -/

theorem takes_words {stop : Str → Prop} {n : Nat} {k : Ty} {ts rest : List Str} {vals : Values}
    (h : Takes stop n k ts vals rest) (id : Nat) : ts = (Event.positional id vals).words ++ rest := by
  cases h <;> first | rfl | (simp [Event.words])

theorem wordReads_words {stop : Str → Prop} {strict : Bool} {q q1 : List Place} {ts rest : List Str} {ev : Event}
    (h : WordReads stop strict q ts ev q1 rest) : ts = ev.words ++ rest := by
  cases h with
  | fill h => exact takes_words h _
  | surplus => rfl

theorem readsWords_words {strict : Bool} {q q1 : List Place} {ts : List Str} {evs : List Event} {err : Option Exn}
    (h : ReadsWords strict q ts evs q1 err) : err = none → evs.flatMap Event.words = ts ∧ ∀ ev ∈ evs, ∀ i a v, ev ≠ .option i a v := by
  induction h with
  | nil => intro _; exact ⟨rfl, by simp⟩
  | word h _ ih =>
    intro e
    obtain ⟨h1, h2⟩ := ih e
    refine ⟨?_, ?_⟩
    · rw [List.flatMap_cons, h1]; exact (wordReads_words h).symm
    · intro ev hev
      rcases List.mem_cons.1 hev with rfl | hev
      · cases h <;> (intro i a v e; cases e)
      · exact h2 ev hev
  | badWord => intro e; cases e

theorem option_words {evs : List Event} (h : ∀ ev ∈ evs, ∃ i a v, ev = .option i a v) : evs.flatMap Event.words = [] := by
  rw [List.flatMap_eq_nil_iff]
  intro ev hev
  obtain ⟨i, a, v, rfl⟩ := h ev hev
  rfl

theorem reads_words {sig : Sig} {q q1 : List Place} {ts : List Str} {evs : List Event} {err : Option Exn}
    (h : Reads sig q ts evs q1 err) : (evs.flatMap Event.words).Sublist ts ∧
      (err = none → (∀ t ∈ ts, WordTok t) → evs.flatMap Event.words = ts) := by
  induction h with
  | nil => exact ⟨.refl _, fun _ _ => rfl⟩
  | option h _ ih =>
    have hw := tokenReads_dashed h
    refine ⟨?_, fun _ hh => absurd (hh _ List.mem_cons_self) hw⟩
    rw [List.flatMap_append, option_words, List.nil_append]
    · obtain ⟨p, e, _⟩ := tokenReads_swap h
      rw [e]
      exact (ih.1.trans (List.sublist_append_right _ _)).trans (List.sublist_cons_self _ _)
    · intro ev hev
      obtain ⟨_, e, a, v, _, h⟩ := tokenReads_events h ev hev
      exact ⟨_, a, v, h⟩
  | badOption h =>
    rw [option_words]
    · exact ⟨List.nil_sublist _, by intro e; cases e⟩
    · intro ev hev
      obtain ⟨_, e, a, v, _, h⟩ := tokenReads_events h ev hev
      exact ⟨_, a, v, h⟩
  | word hw h _ ih =>
    rw [wordReads_words h, List.flatMap_cons]
    refine ⟨List.Sublist.append_left ih.1 _, fun e hh => ?_⟩
    rw [ih.2 e fun t ht => hh t (List.mem_append_right _ ht)]
  | badWord => exact ⟨List.nil_sublist _, by intro e; cases e⟩

end BletArgs.Spec
