import Verif.Lemmas.ReadsTok
/-
Words and whole command lines: the parser against the grammar.
-/
namespace BletArgs
open Spec
variable {D : Type} {full : Prop}

theorem Sane.mono {st : State D} {m n : Nat} (h : Sane st n) (hmn : m ≤ n) : Sane st m :=
  ⟨h.inv, fun s hs => Nat.lt_of_le_of_lt (by omega) (h.small s hs), h.groups⟩

/-- Still to be filled. -/
def Slot.pending (s : Slot D) : Bool := !s.arg.isExist && s.arg.isPositional

/-- The positional arguments still to be filled. -/
def State.queue (st : State D) : List Place := (st.arguments.filter Slot.pending).map Slot.place

/-- What `parsePositionnalArgument_` does to the selected argument. -/
theorem parsePositional_reads {stop : Str → Bool} {argv : List Str} {max index : Nat} (hm : max ≤ argv.length)
    (hi : index < max) {a : Argument D} (hw : max + a.nargs < two64) (hp : a.isPositional = true)
    (hg : a.type = .infiniteNumberPos ∨ a.type = .numberPos → 0 < a.nargs)
    (hstop : ∀ t, argv[index]? = some t → stop t = false) :
    (∃ vals j, index < j ∧ j ≤ max ∧
      Takes (fun t => stop t = true) a.nargs a.type (seg argv index max) vals (seg argv j max) ∧
      a.parsePositional stop argv max index = (a.fill vals, .ok j)) ∨
    (TooFew (fun t => stop t = true) a.nargs a.type (seg argv index max) ∧
      (a.parsePositional stop argv max index).2 = .throw (parseError a.front "bad number of argument")) := by
  obtain ⟨a0, a1, a2, a3, names, type, a6, a7, a8, nargs, a10, a11, a12, a13, a14, a15, a16⟩ := a
  dsimp only at hw hg ⊢
  have hmod : (index + nargs) % two64 = index + nargs := Nat.mod_eq_of_lt (by omega)
  have hseglen : (seg argv index max).length = max - index := seg_length hm
  obtain ⟨v, hv, hseg⟩ := seg_cons (argv := argv) hi hm
  have hns := hstop v hv
  unfold Argument.parsePositional
  cases type <;> simp only
  case pos =>
    left
    rw [hv]
    refine ⟨.single v, index + 1, by omega, by omega, ?_, rfl⟩
    rw [hseg]
    exact .one v _ (by simp)
  case numberPos =>
    rw [hmod]
    by_cases h : index + nargs > max
    · right
      rw [if_pos h]
      exact ⟨.fixed _ (by simp) (by rw [hseglen]; omega), rfl⟩
    · left
      rw [if_neg h]
      have e : index + nargs - index = nargs := by omega
      have hpos := hg (.inr rfl)
      rw [e, readRange_eq hm nargs index (by omega)]
      refine ⟨.list ((seg argv index max).take nargs), index + nargs, by omega, by omega, ?_, rfl⟩
      have t := Takes.fixed (stop := fun t => stop t = true) (arity := nargs) (k := .numberPos)
        ((seg argv index max).take nargs) (seg argv (index + nargs) max) (by simp)
        (by rw [List.length_take, hseglen]; omega)
      rw [seg_append] at t
      exact t
  case infinitePos =>
    left
    obtain ⟨vs, h1, h2, h3, h4⟩ := scanInfinite_longest hm stop (i := index) (by omega)
    rw [h1]
    have hne : vs ≠ [] := by
      rintro rfl
      have : stop v = true := h3.2 v (by rw [List.length_nil, Nat.add_zero, hseg]; rfl)
      rw [hns] at this; cases this
    have hlen : 0 < vs.length := List.length_pos_iff.2 hne
    refine ⟨.list vs, index + vs.length, by omega, h4, ?_, rfl⟩
    have t := Takes.many (stop := fun t => stop t = true) (arity := nargs) (k := .infinitePos) vs _ (by simp) h3
    rw [← h2] at t
    exact t
  case infiniteNumberPos =>
    obtain ⟨gs, g1, g2, g3, ⟨e, g4⟩ | ⟨e, t, ts, g4, g5, g6⟩⟩ :=
      scanGroups_eq (argv := argv) hm stop (hg (.inl rfl)) hw (max + 1) index (by omega) (by omega)
    · left
      rw [e]
      have hpos : 0 < groupsCount gs := by
        cases gs with
        | nil =>
          have := g4 v (by simp [groupsCount, hseg])
          rw [hns] at this; cases this
        | cons g gs =>
          have := (g1 g List.mem_cons_self).1
          have hn := hg (.inl rfl)
          unfold groupsCount
          rw [List.map_cons, List.sum_cons]
          omega
      refine ⟨.groups gs, index + groupsCount gs, by omega, by omega, ?_, rfl⟩
      have t := Takes.manyGroups (stop := fun t => stop t = true) (k := .infiniteNumberPos) gs
        (seg argv (index + groupsCount gs) max) (by simp) g1 g4
      rw [← g2] at t
      exact t
    · right
      rw [e]
      refine ⟨?_, rfl⟩
      rw [g2, g4]
      exact .group gs t ts (by simp) g1 g5 g6
  all_goals (simp [Argument.isPositional, Ty.isPositional] at hp)

theorem fill_isExist (vals : Values) (a : Argument D) : (a.fill vals).isExist = true := by
  cases vals <;> rfl

theorem filter_pending_fill {l : List (Slot D)} (hn : (l.map (·.node)).Nodup) {s : Slot D}
    (h : l.find? Slot.pending = some s) (vals : Values) :
    l.filter Slot.pending = s :: (updNode l s.node (Argument.fill vals)).filter Slot.pending := by
  induction l with
  | nil => cases h
  | cons t l ih =>
    rw [List.map_cons, List.nodup_cons] at hn
    have hfix : ∀ l' : List (Slot D), t.node ∉ l'.map (·.node) → updNode l' t.node (Argument.fill vals) = l' := by
      intro l' h'
      unfold updNode
      conv => rhs; rw [← List.map_id l']
      refine List.map_congr_left fun u hu => ?_
      have : u.node ≠ t.node := fun e => h' (List.mem_map.2 ⟨u, hu, e⟩)
      simp [this]
    rw [List.find?_cons] at h
    cases hp : t.pending with
    | true =>
      rw [hp] at h
      simp only [Option.some.injEq] at h
      subst h
      rw [List.filter_cons, if_pos hp]
      have e : updNode (t :: l) t.node (Argument.fill vals) =
          { t with arg := t.arg.fill vals } :: updNode l t.node (Argument.fill vals) := by
        unfold updNode; simp
      rw [e, List.filter_cons, hfix l hn.1, if_neg]
      unfold Slot.pending
      simp [fill_isExist]
    | false =>
      rw [hp] at h
      simp only at h
      have hs : s ∈ l := List.mem_of_find?_eq_some h
      have hne : t.node ≠ s.node := fun e => hn.1 (List.mem_map.2 ⟨s, hs, e.symm⟩)
      have e : updNode (t :: l) s.node (Argument.fill vals) = t :: updNode l s.node (Argument.fill vals) := by
        unfold updNode; simp [hne]
      rw [e, List.filter_cons, List.filter_cons, if_neg (by simp [hp]), if_neg (by simp [hp])]
      exact ih hn.2 h

/-- A word: the parser against the grammar. -/
theorem parsePositionalTok_agrees {argv : List Str} {max index : Nat} (hm : max ≤ argv.length) (hi : index < max)
    {st : State D} (hsane : Sane st max) (hasEnd : Bool) (stop : Str → Prop)
    (hstop : stop = if hasEnd then fun _ => False else OptionForm st.sig)
    (hword : ∀ t, argv[index]? = some t → ¬stop t) :
    (∃ ev j, index < j ∧ j ≤ max ∧
      WordReads stop st.isStrict st.queue (seg argv index max) ev (st.record ev).queue (seg argv j max) ∧
      st.parsePositionalTok argv max index hasEnd = (st.record ev, .ok j)) ∨
    (∃ e, WordFails stop st.isStrict st.queue (seg argv index max) e ∧
      (st.parsePositionalTok argv max index hasEnd).2 = .throw e) := by
  unfold State.parsePositionalTok State.nextPositional
  cases h : st.arguments.find? (fun s => !s.arg.isExist && s.arg.isPositional) with
  | some s =>
    simp only
    have hs : s ∈ st.arguments := List.mem_of_find?_eq_some h
    have hpend := List.find?_some h
    simp only [Bool.and_eq_true, Bool.not_eq_true'] at hpend
    have hfun : (fun t => (if hasEnd then fun _ => false else st.endOfInfinite) t = true) = stop := by
      rw [hstop]
      cases hasEnd with
      | true => simp
      | false => simp only [Bool.false_eq_true, if_false]; exact endOfInfinite_eq hsane.inv
    have hst : ∀ t, argv[index]? = some t → (if hasEnd then fun _ => false else st.endOfInfinite) t = false := by
      intro t ht
      have := hword t ht
      rw [← hfun] at this
      simpa using this
    have key := parsePositional_reads (stop := if hasEnd then fun _ => false else st.endOfInfinite) hm hi
      (hsane.small s hs) hpend.2 (fun h => hsane.groups s hs (.inr h)) hst
    rw [hfun] at key
    have hq : ∀ vals, st.queue = s.place :: (st.record (.positional s.node vals)).queue := by
      intro vals
      unfold State.queue
      rw [filter_pending_fill hsane.inv.nodes h vals, List.map_cons]
      rfl
    rcases key with ⟨vals, j, h1, h2, h3, h4⟩ | ⟨h3, h4⟩
    · left
      refine ⟨.positional s.node vals, j, h1, h2, ?_, ?_⟩
      · conv => arg 3; rw [hq vals]
        exact .fill (p := s.place) h3
      · rw [h4]
        simp only
        rw [modNode_const hsane.inv hs (Argument.fill vals)]
        rfl
    · right
      refine ⟨_, ?_, h4⟩
      rw [hq .nothing]
      exact .missing (p := s.place) h3
  | none =>
    simp only
    have hq : st.queue = [] := by
      unfold State.queue
      rw [List.map_eq_nil_iff, List.filter_eq_nil_iff]
      intro s hs
      exact List.find?_eq_none.1 h s hs
    obtain ⟨v, hv, hseg⟩ := seg_cons (argv := argv) hi hm
    rw [hv, hseg, hq]
    simp only
    cases hstr : st.isStrict with
    | true =>
      right
      refine ⟨_, .surplus v _ rfl, ?_⟩
      simp [parseExn, parseError]
    | false =>
      left
      refine ⟨.extra v, index + 1, by omega, by omega, ?_, ?_⟩
      · have : (st.record (.extra v)).queue = [] := hq
        rw [this]
        exact .surplus v _ rfl
      · simp [State.record, hstr]

/-- The events of an option token concern registered options. -/
theorem optionReads_events {stop : Str → Prop} {name : Str} {e : Entry} {att : Bool} {eq : Option Str} {ts : List Str}
    {evs : List Event} {out : Out} (h : OptionReads stop name e att eq ts evs out) :
    ∀ ev ∈ evs, ∃ att vals, ev = .option e.id att vals := by
  cases h <;> simp

theorem clusterReads_events {sig : Sig} {stop : Str → Prop} {eq : Option Str} {ts : List Str} {cs : List Char}
    {evs : List Event} {out : Out} (h : ClusterReads sig stop eq ts cs evs out) :
    ∀ ev ∈ evs, ∃ name e att vals, sig.flag ('-' :: name) = some e ∧ ev = .option e.id att vals := by
  induction h with
  | none => simp
  | unknown => simp
  | last hf h =>
    intro ev hev
    obtain ⟨att, vals, e⟩ := optionReads_events h ev hev
    exact ⟨_, _, att, vals, hf, e⟩
  | attached _ hf _ _ h =>
    intro ev hev
    obtain ⟨att, vals, e⟩ := optionReads_events h ev hev
    exact ⟨_, _, att, vals, hf, e⟩
  | notLast => simp
  | switch _ hf _ _ ih =>
    intro ev hev
    rcases List.mem_cons.1 hev with rfl | hev
    · exact ⟨_, _, false, .nothing, hf, rfl⟩
    · exact ih ev hev

theorem tokenReads_events {sig : Sig} {stop : Str → Prop} {tok : Str} {ts : List Str}
    {evs : List Event} {out : Out} (h : TokenReads sig stop tok ts evs out) :
    ∀ ev ∈ evs, ∃ name e att vals, sig.flag ('-' :: name) = some e ∧ ev = .option e.id att vals := by
  cases h with
  | long hl hs hf h =>
    intro ev hev
    obtain ⟨att, vals, e⟩ := optionReads_events h ev hev
    obtain ⟨cs, rfl⟩ := long_name hl hs
    exact ⟨_, _, att, vals, hf, e⟩
  | unknownLong => simp
  | alternative _ hs _ hf h =>
    intro ev hev
    obtain ⟨att, vals, e⟩ := optionReads_events h ev hev
    exact ⟨_, _, att, vals, hf, e⟩
  | cluster _ _ _ h => exact clusterReads_events h

theorem queue_option {st : State D} (hi : GInv full st) {name : Str} {e : Entry} (hf : st.sig.flag ('-' :: name) = some e)
    (att : Bool) (vals : Values) : (st.record (.option e.id att vals)).queue = st.queue := by
  rcases flag_cases hi ('-' :: name) with ⟨_, h⟩ | ⟨s, hs, _, _, h, hn⟩
  · rw [h] at hf; cases hf
  · rw [h] at hf
    cases hf
    have hp := dashed_option hi hs hn
    unfold State.queue State.record State.modNode
    simp only
    have : ∀ l : List (Slot D), (∀ t ∈ l, t ∈ st.arguments) → ((l.map fun t => if t.node == s.entry.id then
        { t with arg := t.arg.occur att vals } else t).filter Slot.pending).map Slot.place =
        (l.filter Slot.pending).map Slot.place := by
      intro l hl
      induction l with
      | nil => rfl
      | cons t l ih =>
        have ih := ih fun t ht => hl t (List.mem_cons_of_mem _ ht)
        rw [List.map_cons]
        by_cases e : t.node = s.node
        · have := eq_of_node hi hs (hl t List.mem_cons_self) e
          subst this
          have e1 : (t.node == t.entry.id) = true := by simp [Slot.entry]
          rw [if_pos e1]
          have hp' : ({ t with arg := t.arg.occur att vals } : Slot D).arg.isPositional = false := by
            have : (t.arg.occur att vals).type = t.arg.type :=
              (congrArg (fun x : Argument D => x.type) (occur_config att vals t.arg) :)
            unfold Argument.isPositional at hp ⊢
            simp only [this, hp]
          rw [List.filter_cons, List.filter_cons, if_neg (by unfold Slot.pending; simp [hp']),
            if_neg (by unfold Slot.pending; simp [hp]), ih]
        · have e1 : (t.node == s.entry.id) = false := by simpa [Slot.entry] using e
          rw [e1]
          simp only [Bool.false_eq_true, if_false]
          rw [List.filter_cons, List.filter_cons]
          split
          · rw [List.map_cons, List.map_cons, ih]
          · exact ih
    exact this _ fun _ h => h

theorem queue_options {st : State D} (hi : GInv full st) {evs : List Event}
    (h : ∀ ev ∈ evs, ∃ name e att vals, st.sig.flag ('-' :: name) = some e ∧ ev = .option e.id att vals) :
    (st.recordAll evs).queue = st.queue := by
  induction evs generalizing st with
  | nil => rfl
  | cons ev evs ih =>
    obtain ⟨name, e, att, vals, hf, rfl⟩ := h _ List.mem_cons_self
    have hc := record_config st (.option e.id att vals)
    have := ih (st := st.record (.option e.id att vals)) (inv_of_config hc hi)
      (by rw [sig_of_config hc]; exact fun ev hev => h ev (List.mem_cons_of_mem _ hev))
    exact this.trans (queue_option hi hf att vals)

/-- The loop after `--`. -/
theorem endLoop_agrees {argv : List Str} (f : Nat) :
    ∀ (i : Nat) {st : State D}, Sane st argv.length → i ≤ argv.length → argv.length - i < f →
    ∃ evs q err, ReadsWords st.isStrict st.queue (seg argv i argv.length) evs q err ∧
      (∀ e, err = some e → (State.endLoop argv f i st).2 = .throw e) ∧
      (err = none → q = (st.recordAll evs).queue ∧ State.endLoop argv f i st = (st.recordAll evs, .ok ())) := by
  induction f with
  | zero => intro i st _ _ h; omega
  | succ f ih =>
    intro i st hsane hi hf
    unfold State.endLoop
    by_cases hlt : i < argv.length
    · rw [if_pos hlt]
      obtain ⟨v, hv, hseg⟩ := seg_cons (argv := argv) (i := i) (max := argv.length) hlt (Nat.le_refl _)
      rcases parsePositionalTok_agrees (Nat.le_refl _) hlt hsane true (fun _ => False) rfl (fun _ _ h => h) with
        ⟨ev, j, h1, h2, h3, h4⟩ | ⟨e, h3, h4⟩
      · rw [h4]
        simp only
        have hc := record_config st ev
        obtain ⟨evs, q, err, g1, g2, g3⟩ := ih j (hsane.of_config hc) h2 (by omega)
        have estr : (st.record ev).isStrict = st.isStrict := (congrArg (fun x : State D => x.isStrict) hc :)
        rw [estr] at g1
        rw [hseg] at h3 ⊢
        exact ⟨ev :: evs, q, err, .word h3 g1, g2, g3⟩
      · generalize st.parsePositionalTok argv argv.length i true = r at h4
        obtain ⟨st1, r⟩ := r
        simp only at h4
        subst h4
        rw [hseg] at h3 ⊢
        exact ⟨[], st.queue, some e, .badWord h3, fun e' he => (by cases he; rfl), fun h => (by cases h)⟩
    · rw [if_neg hlt, seg_nil (by omega)]
      exact ⟨[], st.queue, none, .nil _, fun e h => (by cases h), fun _ => ⟨rfl, rfl⟩⟩

theorem word_not_option {sig : Sig} {tok : Str} (h : WordTok tok) : ¬OptionForm sig tok := by
  have := C01_token_classes tok
  intro ho
  cases ho with
  | long hl => exact this.2.2.2.2.2.2.2.2.1 ⟨hl, h⟩
  | alternative hs => exact this.2.2.2.2.2.2.1 ⟨hs, h⟩
  | cluster hs => exact this.2.2.2.2.2.2.1 ⟨hs, h⟩

/-- The main loop up to `--` (or the end). -/
theorem mainLoop_agrees {argv : List Str} {e : Nat} (he : e ≤ argv.length)
    (hend : ∀ t ∈ argv.take e, ¬EndTok t) (f : Nat) :
    ∀ (i : Nat) {st : State D}, Sane st argv.length → i ≤ e → argv.length - i < f →
    ∃ evs q err, Reads st.sig st.queue (seg argv i e) evs q err ∧
      (∀ x, err = some x → (State.mainLoop argv e f i st).2 = .throw x) ∧
      (err = none → q = (st.recordAll evs).queue ∧
        ∃ f', argv.length - e < f' ∧
          State.mainLoop argv e f i st = State.mainLoop argv e f' e (st.recordAll evs)) := by
  induction f with
  | zero => intro i st _ _ h; omega
  | succ f ih =>
    intro i st hsane hi hf
    by_cases hlt : i < e
    · obtain ⟨tok, hv, hseg⟩ := seg_cons (argv := argv) hlt he
      have hse := hsane.mono he
      have hnotEnd : ¬EndTok tok := by
        refine hend tok ?_
        have : (argv.take e)[i]? = some tok := by rw [List.getElem?_take, if_pos hlt]; exact hv
        exact List.mem_of_getElem? this
      -- an option token
      have okCase : ∀ evs0 j, TokenReads st.sig (OptionForm st.sig) tok (seg argv (i + 1) e) evs0 (.rest (seg argv j e)) →
          i < j → j ≤ e →
          ∃ evs q err, Reads st.sig st.queue (seg argv i e) evs q err ∧
            (∀ x, err = some x → (State.mainLoop argv e f j (st.recordAll evs0)).2 = .throw x) ∧
            (err = none → q = (st.recordAll evs).queue ∧
              ∃ f', argv.length - e < f' ∧ State.mainLoop argv e f j (st.recordAll evs0)
                = State.mainLoop argv e f' e (st.recordAll evs)) := by
        intro evs0 j h1 k1 k2
        have hc := recordAll_config evs0 st
        obtain ⟨evs', q, err, g1, g2, g3⟩ := ih j (hsane.of_config hc) k2 (by omega)
        rw [sig_of_config hc, queue_options hsane.inv (tokenReads_events h1)] at g1
        refine ⟨evs0 ++ evs', q, err, ?_, g2, ?_⟩
        · rw [hseg]; exact .option h1 g1
        · rw [recordAll_append]; exact g3
      generalize hR : State.mainLoop argv e (f + 1) i st = R
      unfold State.mainLoop at hR
      rw [if_pos (by omega), hv] at hR
      simp only at hR
      by_cases hs : isShortOption tok = true
      · rw [if_pos hs] at hR
        obtain ⟨evs, out, h1, ⟨j, k1, k2, rfl, k3⟩ | ⟨x, rfl, k2⟩⟩ := parseShort_agrees he hlt hse ((isShortOption_iff _).1 hs)
        · rw [k3] at hR
          subst hR
          exact okCase evs j h1 k1 k2
        · generalize st.parseShort argv e i tok = r at k2 hR
          obtain ⟨st1, r⟩ := r
          simp only at k2
          subst k2
          subst hR
          refine ⟨evs, st.queue, some x, ?_, fun y hy => (by cases hy; rfl), fun h => (by cases h)⟩
          rw [hseg]; exact .badOption h1
      · rw [if_neg hs] at hR
        by_cases hl : isLongOption tok = true
        · rw [if_pos hl] at hR
          obtain ⟨evs, out, h1, ⟨j, k1, k2, rfl, k3⟩ | ⟨x, rfl, k2⟩⟩ := parseLong_agrees he hlt hse ((isLongOption_iff _).1 hl)
          · rw [k3] at hR
            subst hR
            exact okCase evs j h1 k1 k2
          · generalize st.parseLong argv e i tok = r at k2 hR
            obtain ⟨st1, r⟩ := r
            simp only at k2
            subst k2
            subst hR
            refine ⟨evs, st.queue, some x, ?_, fun y hy => (by cases hy; rfl), fun h => (by cases h)⟩
            rw [hseg]; exact .badOption h1
        · rw [if_neg hl, if_neg (fun h => hnotEnd ((isEndOption_iff _).1 h))] at hR
          have hword : WordTok tok := by
            rcases (C01_token_classes tok).2.2.2.1 with h | h | h | h
            · exact absurd ((isShortOption_iff _).2 h) hs
            · exact absurd ((isLongOption_iff _).2 h) hl
            · exact absurd h hnotEnd
            · exact h
          rcases parsePositionalTok_agrees he hlt hse false (OptionForm st.sig) rfl
            (fun t ht => by rw [hv] at ht; cases ht; exact word_not_option hword) with
            ⟨ev, j, h1, h2, h3, h4⟩ | ⟨x, h3, h4⟩
          · rw [h4] at hR
            simp only at hR
            subst hR
            have hc := record_config st ev
            obtain ⟨evs, q, err, g1, g2, g3⟩ := ih j (hsane.of_config hc) h2 (by omega)
            rw [sig_of_config hc] at g1
            rw [hseg] at h3 ⊢
            exact ⟨ev :: evs, q, err, .word hword h3 g1, g2, g3⟩
          · generalize st.parsePositionalTok argv e i false = r at h4 hR
            obtain ⟨st1, r⟩ := r
            simp only at h4
            subst h4
            subst hR
            rw [hseg] at h3 ⊢
            exact ⟨[], st.queue, some x, .badWord hword h3, fun y hy => (by cases hy; rfl), fun h => (by cases h)⟩
    · have : i = e := by omega
      subst this
      rw [seg_nil (Nat.le_refl _)]
      exact ⟨[], st.queue, none, .nil _, fun x h => (by cases h), fun _ => ⟨rfl, f + 1, hf, rfl⟩⟩

theorem endOptionIndex_spec (argv : List Str) :
    endOptionIndex argv ≤ argv.length ∧ (∀ t ∈ argv.take (endOptionIndex argv), ¬EndTok t) ∧
    (endOptionIndex argv < argv.length → argv[endOptionIndex argv]? = some ['-', '-']) := by
  induction argv with
  | nil => simp [endOptionIndex]
  | cons a l ih =>
    unfold endOptionIndex
    by_cases h : isEndOption a = true
    · rw [if_pos h]
      refine ⟨by simp, by simp, ?_⟩
      intro _
      have := (isEndOption_iff a).1 h
      simpa [EndTok] using this
    · rw [if_neg h]
      refine ⟨by simpa using ih.1, ?_, ?_⟩
      · intro t ht
        rw [List.take_succ_cons] at ht
        rcases List.mem_cons.1 ht with rfl | ht
        · exact fun e => h ((isEndOption_iff _).2 e)
        · exact ih.2.1 t ht
      · intro hlt
        simp only [List.length_cons] at hlt
        rw [List.getElem?_cons_succ]
        exact ih.2.2 (by omega)

theorem take_split (argv : List Str) (i e : Nat) (_hi : i ≤ e) (he : e < argv.length) {t : Str} (ht : argv[e]? = some t) :
    argv.drop i = seg argv i e ++ t :: argv.drop (e + 1) := by
  have h1 : argv = argv.take e ++ t :: argv.drop (e + 1) := by
    have h2 := (List.take_append_drop e argv).symm
    rw [List.drop_eq_getElem_cons he] at h2
    rw [List.getElem?_eq_getElem he] at ht
    cases ht
    exact h2
  have hl : (argv.take e).length = e := by simp; omega
  unfold seg
  conv => lhs; rw [h1]
  rw [List.drop_append_of_le_length (by omega)]

/-- The whole token phase of `parseArguments` agrees with the grammar. -/
theorem tokens_agree {argv : List Str} {st : State D} (hsane : Sane st argv.length) {f : Nat}
    (hf : argv.length < f) (h0 : argv[0]? ≠ some ['-', '-']) :
    ∃ evs err, Line st.sig st.queue (argv.drop 1) evs err ∧
      (∀ x, err = some x → (State.mainLoop argv (endOptionIndex argv) f 1 st).2 = .throw x) ∧
      (err = none → State.mainLoop argv (endOptionIndex argv) f 1 st = (st.recordAll evs, .ok ())) := by
  obtain ⟨h1, h2, h3⟩ := endOptionIndex_spec argv
  cases hz : endOptionIndex argv with
  | zero =>
    cases argv with
    | nil =>
      refine ⟨[], none, .whole (by simp) (.nil _), fun x h => (by cases h), fun _ => ?_⟩
      obtain ⟨f, rfl⟩ : ∃ g, f = g + 1 := ⟨f - 1, by simp at hf; omega⟩
      unfold State.mainLoop
      rfl
    | cons a l =>
      exfalso
      rw [hz] at h3
      exact h0 (h3 (by simp))
  | succ e =>
    rw [← hz]
    obtain ⟨evs, q, err, g1, g2, g3⟩ := mainLoop_agrees h1 h2 f 1 hsane (by omega) (by omega)
    by_cases hlt : endOptionIndex argv < argv.length
    · have htok := h3 hlt
      have hsplit := take_split argv 1 (endOptionIndex argv) (by omega) hlt htok
      have hno : ∀ t ∈ seg argv 1 (endOptionIndex argv), ¬EndTok t := fun t ht => h2 t (List.mem_of_mem_drop ht)
      rw [hsplit]
      cases err with
      | some x =>
        exact ⟨evs, some x, .splitBad hno g1, g2, fun h => (by cases h)⟩
      | none =>
        obtain ⟨hq, f', hf', hm⟩ := g3 rfl
        have hc := recordAll_config evs st
        have hdrop : argv.drop (endOptionIndex argv + 1) = seg argv (endOptionIndex argv + 1) argv.length := by
          unfold seg; rw [List.take_length]
        obtain ⟨f'', rfl⟩ : ∃ g, f' = g + 1 := ⟨f' - 1, by omega⟩
        obtain ⟨evs', q', err', k1, k2, k3⟩ := endLoop_agrees (argv := argv) f'' (endOptionIndex argv + 1)
          (st := st.recordAll evs) (hsane.of_config hc) (by omega) (by omega)
        have estr : (st.recordAll evs).isStrict = st.sig.strict := (congrArg (fun x : State D => x.isStrict) hc :)
        have hstep : State.mainLoop argv (endOptionIndex argv) (f'' + 1) (endOptionIndex argv) (st.recordAll evs) =
            State.endLoop argv f'' (endOptionIndex argv + 1) (st.recordAll evs) := by
          conv => lhs; unfold State.mainLoop
          rw [if_pos hlt, htok]
          rfl
        rw [hm, hstep]
        rw [estr, ← hq, ← hdrop] at k1
        refine ⟨evs ++ evs', err', .split hno g1 k1, k2, ?_⟩
        intro h
        rw [(k3 h).2, recordAll_append]
    · have e : endOptionIndex argv = argv.length := by omega
      have hdrop : argv.drop 1 = seg argv 1 (endOptionIndex argv) := by
        unfold seg; rw [e, List.take_length]
      have hno : ∀ t ∈ argv.drop 1, ¬EndTok t := by
        rw [hdrop]; exact fun t ht => h2 t (List.mem_of_mem_drop ht)
      refine ⟨evs, err, .whole hno (by rw [hdrop]; exact g1), g2, ?_⟩
      intro h
      obtain ⟨_, f', hf', hm⟩ := g3 h
      obtain ⟨f'', rfl⟩ : ∃ g, f' = g + 1 := ⟨f' - 1, by omega⟩
      rw [hm]
      conv => lhs; unfold State.mainLoop
      rw [if_neg hlt]

end BletArgs
