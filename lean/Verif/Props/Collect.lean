import Verif.Spec.Collect
import Verif.Props.Spare
import Verif.Props.Compose
/-
C104: a new positional list collects the surplus words.
-/
namespace BletArgs
open Spec
variable {D : Type}

/-! ### Words in front of a line -/

theorem word_not_end {w : Str} (h : WordTok w) : ¬EndTok w := by
  rintro rfl
  rcases h with h | h | ⟨c, r, h, hc⟩
  · cases h
  · cases h
  · simp only [List.cons.injEq] at h; exact hc h.1.symm

theorem line_surplus {sig : Sig} (hs : sig.strict = false) {ws ts : List Str} {evs : List Event} {err : Option Exn}
    (hw : ∀ w ∈ ws, WordTok w) (h : Line sig [] ts evs err) : Line sig [] (ws ++ ts) (ws.map Event.extra ++ evs) err := by
  induction ws with
  | nil => exact h
  | cons w ws ih =>
    have ih := ih fun x hx => hw x (by simp [hx])
    have h1 : WordTok w := hw w (by simp)
    have h2 := word_not_end h1
    have add : ∀ {us : List Str} {evs : List Event} {err : Option Exn}, Line sig [] us evs err →
        Line sig [] (w :: us) (.extra w :: evs) err := by
      intro us evs err h
      have hend : ∀ {us : List Str}, (∀ t ∈ us, ¬EndTok t) → ∀ t ∈ w :: us, ¬EndTok t := by
        intro us hn t ht
        rcases List.mem_cons.1 ht with rfl | ht
        · exact h2
        · exact hn t ht
      cases h with
      | whole hn h => exact .whole (hend hn) (.word h1 (.surplus _ _ hs) h)
      | @split us' ts' evs1 evs2 _ _ _ hn h h' => exact .split (ts := w :: us') (evs := .extra w :: evs1) (hend hn) (.word h1 (.surplus _ _ hs) h) h'
      | @splitBad us' ts' _ _ _ hn h => exact .splitBad (ts := w :: us') (hend hn) (.word h1 (.surplus _ _ hs) h)
    exact add ih

theorem line_refused {sig : Sig} (hs : sig.strict = true) {w : Str} (hw : WordTok w) (ts : List Str) :
    Line sig [] (w :: ts) [] (some (surplusError w)) := by
  have h2 := word_not_end hw
  have hend : ∀ {us : List Str}, (∀ t ∈ us, ¬EndTok t) → ∀ t ∈ w :: us, ¬EndTok t := by
    intro us hn t ht
    rcases List.mem_cons.1 ht with rfl | ht
    · exact h2
    · exact hn t ht
  have hr : ∀ us, Reads sig [] (w :: us) [] [] (some (surplusError w)) := fun us => .badWord hw (.surplus _ _ hs)
  by_cases hn : ∀ t ∈ ts, ¬EndTok t
  · exact .whole (hend hn) (hr ts)
  · have : ∃ us vs, (∀ t ∈ us, ¬EndTok t) ∧ ts = us ++ ['-', '-'] :: vs := by
      clear hend hr
      induction ts with
      | nil => exact absurd (fun t ht => by cases ht) hn
      | cons x xs ih =>
        by_cases hx : EndTok x
        · exact ⟨[], xs, ⟨(fun _ ht => nomatch ht), by rw [show x = ['-', '-'] from hx]; rfl⟩⟩
        · have : ¬∀ t ∈ xs, ¬EndTok t := by
            intro hall
            refine hn fun t ht => ?_
            rcases List.mem_cons.1 ht with rfl | ht
            · exact hx
            · exact hall t ht
          obtain ⟨us, vs, h1, rfl⟩ := ih this
          refine ⟨x :: us, vs, ?_, rfl⟩
          intro t ht
          rcases List.mem_cons.1 ht with rfl | ht
          · exact hx
          · exact h1 t ht
    obtain ⟨us, vs, h1, rfl⟩ := this
    exact .splitBad (ts := w :: us) (hend h1) (hr us)

/-- A list of positional arguments takes the words up to an option or `--`. -/
theorem line_collect {sig : Sig} {p : Place} (hp : p.kind = .infinitePos) {q : List Place} {ws ts : List Str} {evs : List Event}
    {err : Option Exn} (hne : ws ≠ []) (hw : ∀ w ∈ ws, WordTok w) (hf : Fresh sig ts) (h : Line sig q ts evs err) :
    Line sig (p :: q) (ws ++ ts) (.positional p.id (.list ws) :: evs) err := by
  have hend : ∀ {us : List Str}, (∀ t ∈ us, ¬EndTok t) → ∀ t ∈ ws ++ us, ¬EndTok t := by
    intro us hn t ht
    rcases List.mem_append.1 ht with ht | ht
    · exact word_not_end (hw t ht)
    · exact hn t ht
  have one : ∀ {us : List Str} {evs : List Event} {q1 : List Place} {err : Option Exn}, (∀ t, us.head? = some t → OptionForm sig t) →
      Reads sig q us evs q1 err → Reads sig (p :: q) (ws ++ us) (.positional p.id (.list ws) :: evs) q1 err := by
    intro us evs q1 err hstop hr
    obtain ⟨w, ws', rfl⟩ := List.exists_cons_of_ne_nil hne
    refine .word (hw w (by simp)) (.fill (rest := us) ?_) hr
    exact .many (w :: ws') us (.inr (.inr hp)) ⟨fun v hv => word_not_option (hw v hv), hstop⟩
  have stop : ∀ {us back : List Str}, ts = us ++ back → (∀ t ∈ us, ¬EndTok t) → ∀ t, us.head? = some t → OptionForm sig t := by
    intro us back e hn t ht
    have hm : t ∈ us := by cases us with
      | nil => cases ht
      | cons x xs => simp at ht; simp [ht]
    rcases hf t (by rw [e, List.head?_append, ht]; rfl) with h | h
    · exact h
    · exact absurd h (hn t hm)
  cases h with
  | whole hn h => exact .whole (hend hn) (one (stop (back := []) (by simp) hn) h)
  | split hn h h' =>
    rw [← List.append_assoc]
    exact .split (hend hn) (one (stop rfl hn) h) h'
  | splitBad hn h =>
    rw [← List.append_assoc]
    exact .splitBad (hend hn) (one (stop rfl hn) h)

/-! ### The two parsers -/

theorem filter_one {l : List (Slot D)} (hn : (l.map (·.obj)).Nodup) {s : Slot D} (hs : s ∈ l) :
    (l.filter fun t => t.obj == s.obj) = [s] := by
  induction l with
  | nil => cases hs
  | cons t l ih =>
    rw [List.map_cons, List.nodup_cons] at hn
    rcases List.mem_cons.1 hs with rfl | hs
    · rw [List.filter_cons, if_pos (by simp)]
      congr 1
      rw [List.filter_eq_nil_iff]
      intro u hu e
      exact hn.1 (List.mem_map.2 ⟨u, hu, by simpa using e⟩)
    · rw [List.filter_cons, if_neg, ih hn.2 hs]
      intro e
      exact hn.1 (List.mem_map.2 ⟨s, hs, by simpa using (by simpa using e : t.obj = s.obj).symm⟩)

variable {new : Nat → Bool} {st st' : State D}

theorem Spare.One.places {ref : Nat} {nof : List Str} (hx : Spare.One ref nof st st') {full : Prop} (hi' : GInv full st') {s : Slot D}
    (hs : st'.atObj ref = some s) (hp : s.arg.isPositional = true) : st'.places = st.places ++ [s.place] := by
  obtain ⟨hm, ho⟩ := State.atObj_some hs
  have hm' : s ∈ st'.arguments.filter fun t => t.arg.isPositional := List.mem_filter.2 ⟨hm, hp⟩
  have := filter_one (hi'.objs.sublist (List.Sublist.map _ List.filter_sublist)) hm'
  rw [ho] at this
  rw [hx.spare.places, this]
  rfl

variable {scan : Str → Option D} {p : Str} {ws1 ws2 ws3 : List Str} {evs1 evs3 : List Event} {err : Option Exn}

/-- Before the addition. -/
theorem Spec.Together.reads (hg : Together st ws1 ws2 ws3 evs1 evs3 err) (h : Ready scan st (p :: (ws1 ++ (ws2 ++ ws3))))
    (hs : st.isStrict = false) :
    Line st.sig st.places (ws1 ++ (ws2 ++ ws3)) (evs1 ++ (ws2.map Event.extra ++ evs3)) err := by
  refine (C92_reading h hg.noEnd hg.front (.inr hg.closed) _ _).2 ⟨_, rfl, ?_⟩
  rw [hg.full]
  exact line_surplus hs hg.words hg.back

theorem Spec.Together.collects (hg : Together st ws1 ws2 ws3 evs1 evs3 err) {ref : Nat} {nof : List Str} {full : Prop} (hi : GInv full st)
    (h' : Ready scan st' (p :: (ws1 ++ (ws2 ++ ws3)))) (hx : Spare.One ref nof st st') (hno : asksPositional nof = true) {s : Slot D}
    (hs : st'.atObj ref = some s) (hk : s.arg.type = .infinitePos) :
    Line st'.sig st'.places (ws1 ++ (ws2 ++ ws3)) (evs1 ++ (.positional s.node (.list ws2) :: evs3)) err ∧
    ¬Occurs s.node evs1 ∧ ¬Occurs s.node evs3 := by
  have hi' := h'.inv
  obtain ⟨hm, ho⟩ := State.atObj_some hs
  have hp : s.arg.isPositional = true := by unfold Argument.isPositional; rw [hk]; rfl
  obtain ⟨_, _, _, _, ha, hstr, _⟩ := hx.spare.settings
  -- no flag changes
  have hflag : ∀ cs, st'.sig.flag ('-' :: cs) = st.sig.flag ('-' :: cs) := by
    intro cs
    refine hx.spare.flag hi hi' ?_
    rintro ⟨u, hu, eu, hname⟩
    obtain rfl := inj_of_nodup Slot.obj hi'.objs hu hm ((by simpa using eu : u.obj = ref).trans ho.symm)
    obtain ⟨v, hv, _, _, hnames⟩ := hx.there
    rw [hs] at hv
    cases hv
    have hin := hnames _ hname
    unfold asksPositional at hno
    split at hno
    · simp only [List.mem_singleton] at hin
      subst hin
      simp at hno
    · cases hno
  have hline : ∀ {q : List Place} {ts : List Str} {evs : List Event} {err : Option Exn}, Line st.sig q ts evs err → Line st'.sig q ts evs err :=
    fun h => line_agree ha hstr (fun X _ t _ f hf => by obtain ⟨cs, rfl⟩ := hf.dashed; exact hflag cs) h
  have hpl := hx.places hi' hs hp
  have hn1 : ¬Occurs s.node evs1 := hx.spare.absent hi hi' hg.front hm (by simpa using ho)
  have hn3 : ¬Occurs s.node evs3 := by
    have old : ∀ t ∈ st.arguments, t.node = s.node → False := by
      intro t ht e
      have ht' := hx.spare.mem.1 ht
      obtain rfl := eq_of_node hi' hm ht'.1 e
      simp [ho] at ht'
    rintro (hu | hu)
    · obtain ⟨u, hu⟩ := List.exists_mem_of_ne_nil _ hu
      obtain ⟨name, e, hf, he⟩ := line_option_ids hg.back (mem_uses.1 hu)
      rcases flag_cases hi ('-' :: name) with ⟨_, h1⟩ | ⟨t, ht, _, _, h1, _⟩
      · rw [h1] at hf; cases hf
      · rw [h1] at hf
        cases hf
        exact old t ht he
    · obtain ⟨u, hu⟩ := List.exists_mem_of_ne_nil _ hu
      obtain ⟨q, hq, _⟩ := line_fit hg.back _ (mem_fills.1 hu)
      cases hq
  refine ⟨?_, hn1, hn3⟩
  have hfront : Line st'.sig st'.places ws1 evs1 none := by
    rw [hpl]
    exact line_behind (hline hg.front) (fun _ e => by cases e) hg.exact
  have hopen : ¬LeavesOpen st' evs1 := by
    rintro ⟨ev, u, hev, hu, habout, hunl⟩
    have hevm : ev ∈ evs1 := List.mem_of_getLast? hev
    by_cases e : u.obj = ref
    · obtain rfl := inj_of_nodup Slot.obj hi'.objs hu hm (e.trans ho.symm)
      refine hn1 ?_
      cases ev with
      | option j a v => cases habout; exact .inl (List.ne_nil_of_mem (mem_uses.2 hevm))
      | positional j v => cases habout; exact .inr (List.ne_nil_of_mem (mem_fills.2 hevm))
      | extra => cases habout
    · exact hg.closed ⟨ev, u, hev, hx.spare.mem.2 ⟨hu, by simpa using e⟩, habout, hunl⟩
  refine (C92_reading h' hg.noEnd hfront (.inr hopen) _ _).2 ⟨_, rfl, ?_⟩
  have hq : unfilled evs1 st'.places = [s.place] := by
    have h1 : unfilled evs1 (st.places ++ [s.place]) = unfilled evs1 st.places ++ unfilled evs1 [s.place] := List.filter_append ..
    have h2 : fills s.node evs1 = [] := Classical.byContradiction fun e => hn1 (.inr e)
    rw [hpl, h1, hg.full, List.nil_append]
    show List.filter _ [s.place] = _
    rw [List.filter_cons, if_pos]
    · rfl
    · show (fills s.node evs1).isEmpty = true
      rw [h2]; rfl
  rw [hq]
  refine line_collect (p := s.place) hk hg.nonempty hg.words ?_ (hline hg.back)
  intro t ht
  rcases hg.fresh t ht with h1 | h1
  · exact .inl (optionForm_agree ha (fun f hf => by obtain ⟨cs, rfl⟩ := hf.dashed; exact hflag cs) h1)
  · exact .inr h1

theorem Spare.outcome_seeing (hx : Spare new st st') {scan : Str → Option D} {argv : List Str} {evs evs' : List Event}
    (hsame : ∀ s ∈ st.arguments, s.arg.afterTokens s.node evs' = s.arg.afterTokens s.node evs)
    (hvalid : ∀ s ∈ st'.arguments, new s.obj = true → s.arg.valid = none) :
    SameButUsage ((st.seen argv evs).afterLoop scan).2 ((st'.seen argv evs').afterLoop scan).2 ∧
    (((st.seen argv evs).afterLoop scan).2 = .ok () →
      ((st'.seen argv evs').afterLoop scan).2 = .ok () ∧
      ((st'.seen argv evs').afterLoop scan).1.destLog = ((st.seen argv evs).afterLoop scan).1.destLog) := by
  obtain ⟨_, s2, s3, s4, _, _, s7, s8, _, s10⟩ := hx.settings
  have hargs : (st.seen argv evs).arguments = (st'.seen argv evs').arguments.filter fun s => !new s.obj := by
    show st.arguments.map _ = (st'.arguments.map _).filter _
    rw [List.filter_map]
    have : st'.arguments.filter ((fun s => !new s.obj) ∘ fun s => { s with arg := s.arg.afterTokens s.node evs' }) = st.arguments := hx.same.symm
    rw [this]
    exact List.map_congr_left fun s hs => by rw [hsame s hs]
  have hcfg : ∀ s : Slot D, (s.arg.afterTokens s.node evs').config = s.arg.config := fun s => afterTokens_config s.node evs' s.arg
  have seen : ∀ o : Option Nat, (∀ s ∈ st'.arguments, new s.obj = true → o ≠ some s.obj) →
      (st'.seen argv evs').optionSeen o = (st.seen argv evs).optionSeen o := by
    intro o ho
    cases o with
    | none => rfl
    | some o =>
      unfold State.optionSeen State.atObj
      simp only
      rw [hargs, find_filter_skip]
      intro t ht hk
      obtain ⟨s, hs, rfl⟩ := List.mem_map.1 ht
      rw [← Bool.not_eq_true]
      intro e
      have e : s.obj = o := by simpa using e
      exact ho s hs (by simpa using hk) (by rw [e])
  have hhelp : (st'.seen argv evs').optionSeen (st'.seen argv evs').helpOption =
      (st.seen argv evs).optionSeen (st.seen argv evs).helpOption := by
    refine (seen st'.helpOption (fun s hs hn => (hx.plain s hs hn).2.2.1)).trans ?_
    rw [show st'.helpOption = (st.seen argv evs).helpOption from s2]
  have hversion : (st'.seen argv evs').optionSeen (st'.seen argv evs').versionOption =
      (st.seen argv evs).optionSeen (st.seen argv evs).versionOption := by
    refine (seen st'.versionOption (fun s hs hn => (hx.plain s hs hn).2.2.2)).trans ?_
    rw [show st'.versionOption = (st.seen argv evs).versionOption from s3]
  have hfin : SameButUsage ((st.seen argv evs).finishParse scan).2 ((st'.seen argv evs').finishParse scan).2 ∧
    (((st.seen argv evs).finishParse scan).2 = .ok () → ((st'.seen argv evs').finishParse scan).2 = .ok () ∧
      ((st'.seen argv evs').finishParse scan).1.destLog = ((st.seen argv evs).finishParse scan).1.destLog) := by
    have hmiss : firstMissing (st.seen argv evs).arguments = firstMissing (st'.seen argv evs').arguments := by
      unfold firstMissing
      rw [hargs, find_filter_skip]
      intro t ht hk
      obtain ⟨s, hs, rfl⟩ := List.mem_map.1 ht
      have : (s.arg.afterTokens s.node evs').isRequired = s.arg.isRequired := (congrArg (fun x : Argument D => x.isRequired) (hcfg s) :)
      simp only [this, (hx.plain s hs (by simpa using hk)).1, Bool.false_and]
    have hfa : (finishAll scan (st.seen argv evs).arguments).2 = (finishAll scan (st'.seen argv evs').arguments).2 := by
      rw [hargs]
      refine finishAll_skip fun t ht hk => ?_
      obtain ⟨s, hs, rfl⟩ := List.mem_map.1 ht
      have hn : new s.obj = true := by simpa using hk
      exact finish_plain scan ((congrArg (fun x : Argument D => x.valid) (hcfg s) :).trans (hvalid s hs hn))
        ((congrArg (fun x : Argument D => x.dest) (hcfg s) :).trans (hx.plain s hs hn).2.1)
    unfold State.finishParse
    rw [hmiss]
    cases firstMissing (st'.seen argv evs').arguments with
    | some e => exact ⟨.inl rfl, fun h => by cases h⟩
    | none =>
      simp only
      rw [hfa]
      exact ⟨.inl rfl, fun h => ⟨h, by rw [show (st'.seen argv evs').destLog = (st.seen argv evs).destLog from s10]⟩⟩
  unfold State.afterLoop
  rw [hhelp, hversion, show (st'.seen argv evs').isHelpException = (st.seen argv evs).isHelpException from s7,
    show (st'.seen argv evs').isVersionException = (st.seen argv evs).isVersionException from s8,
    show (st'.seen argv evs').version = (st.seen argv evs).version from s4]
  cases (st.seen argv evs).optionSeen (st.seen argv evs).helpOption with
  | none => exact ⟨.inl rfl, fun h => by cases h⟩
  | some b =>
    cases b with
    | true =>
      simp only
      cases (st.seen argv evs).isHelpException with
      | true => exact ⟨.inr (.inl ⟨_, _, rfl, rfl⟩), fun h => by cases h⟩
      | false => exact ⟨.inr (.inr ⟨_, _, rfl, rfl⟩), fun h => by cases h⟩
    | false =>
      simp only
      cases (st.seen argv evs).optionSeen (st.seen argv evs).versionOption with
      | none => exact ⟨.inl rfl, fun h => by cases h⟩
      | some b =>
        cases b with
        | true =>
          simp only
          cases (st.seen argv evs).isVersionException with
          | true => exact ⟨.inl rfl, fun h => by cases h⟩
          | false => exact ⟨.inl rfl, fun h => by cases h⟩
        | false => exact hfin


theorem see_other {n id : Nat} (h : id ≠ n) (ws : List Str) (evs : List Event) (a : Argument D) :
    (Event.positional id (.list ws) :: evs).foldl (Argument.see n) a = (ws.map Event.extra ++ evs).foldl (Argument.see n) a := by
  rw [List.foldl_append, List.foldl_cons]
  congr 1
  have e : Argument.see n a (.positional id (.list ws)) = a := by
    unfold Argument.see
    simp only [h, if_false]
  rw [e]
  clear e
  induction ws with
  | nil => rfl
  | cons w ws ih => exact ih

theorem extras_words (ws : List Str) (evs : List Event) : extras (ws.map Event.extra ++ evs) = ws ++ extras evs := by
  induction ws with
  | nil => rfl
  | cons w ws ih =>
    show w :: extras (ws.map Event.extra ++ evs) = _
    rw [ih]; rfl

section
variable {st1 : State D} {nof : List Str} {ref : Nat} {s : Slot D}

/-- What adding and configuring an argument leads to. -/
theorem collect_ready {argv : List Str} (h : Ready scan st argv) (hreach : Reachable scan st) (hr : st.addArgument nof = (st1, .ok ref))
    (hc : Configured scan ref st1 st') (hs : st'.atObj ref = some s) (hset : Settled s.arg) (hsize : argv.length + s.arg.nargs < two64) :
    Ready scan st' argv ∧ Spare.One ref nof st st' := by
  have hst : st1 = (BletArgs.step scan st (.add nof)).1 := by
    show st1 = (st.addArgument nof).1
    rw [hr]
  have hg : (BletArgs.step scan st (.add nof)).2.goesOn = true := by
    show (st.addArgument nof).2.void.goesOn = true
    rw [hr]; rfl
  obtain ⟨hreach', hx⟩ := hc.one (hst ▸ hreach.step _ hg) (add_spare hreach hr)
  obtain ⟨hm, ho⟩ := State.atObj_some hs
  have split : ∀ t ∈ st'.arguments, t = s ∨ t ∈ st.arguments := by
    intro t ht
    by_cases e : t.obj = ref
    · exact .inl (inj_of_nodup Slot.obj hreach'.inv.objs ht hm (e.trans ho.symm))
    · exact .inr (hx.spare.mem.2 ⟨ht, by simpa using e⟩)
  refine ⟨⟨hc.survives (hst ▸ survives_step h.history _ hg), fun t ht => ?_, fun t ht => ?_, ?_, h.program⟩, hx⟩
  · rcases split t ht with rfl | ht
    · exact hset
    · exact h.settled t ht
  · rcases split t ht with rfl | ht
    · exact hsize
    · exact h.small t ht
  · rw [hx.spare.settings.2.1]; exact h.help

theorem settled_list {a : Argument D} (h : a.type = .infinitePos) (hn : a.nargs = 1) : Settled a := by
  refine ⟨.infinite, 1, ?_⟩
  unfold Argument.isPositional
  rw [h, hn]
  rfl

/-- C104, reading. After `addArgument` of a positional argument and calls that make it a list, a command line whose surplus
words stand together says that they are the values of the list, and otherwise what it said. -/
theorem C104_reading (h : Ready scan st (p :: (ws1 ++ (ws2 ++ ws3)))) (hreach : Reachable scan st)
    (hr : st.addArgument nof = (st1, .ok ref)) (ho : asksPositional nof = true) (hc : Configured scan ref st1 st')
    (hs : st'.atObj ref = some s) (hk : s.arg.type = .infinitePos) (hn : s.arg.nargs = 1)
    (hsize : (p :: (ws1 ++ (ws2 ++ ws3))).length + 1 < two64) (hg : Together st ws1 ws2 ws3 evs1 evs3 err) :
    (st.isStrict = false → Line st.sig st.places (ws1 ++ (ws2 ++ ws3)) (evs1 ++ (ws2.map Event.extra ++ evs3)) err) ∧
    Line st'.sig st'.places (ws1 ++ (ws2 ++ ws3)) (evs1 ++ (.positional s.node (.list ws2) :: evs3)) err := by
  obtain ⟨h', hx⟩ := collect_ready h hreach hr hc hs (settled_list hk hn) (by rw [hn]; exact hsize)
  exact ⟨hg.reads h, (hg.collects h.inv h' hx ho hs hk).1⟩

/-- C104, effect. If the parser before the addition is not strict then the call ends the same way (up to the text of the
usage when help is asked for), and if it returns the other arguments and the writes to variables are the same, the words
that were collected as additional arguments are the values of the list, behind its defaults, and the additional arguments
are those without them. -/
theorem C104_effect (h : Ready scan st (p :: (ws1 ++ (ws2 ++ ws3)))) (hreach : Reachable scan st)
    (hr : st.addArgument nof = (st1, .ok ref)) (ho : asksPositional nof = true) (hc : Configured scan ref st1 st')
    (hs : st'.atObj ref = some s) (hk : s.arg.type = .infinitePos) (hn : s.arg.nargs = 1) (hv : s.arg.valid = none)
    (hsize : (p :: (ws1 ++ (ws2 ++ ws3))).length + 1 < two64) (hg : Together st ws1 ws2 ws3 evs1 evs3 err) (hst : st.isStrict = false) :
    let argv := p :: (ws1 ++ (ws2 ++ ws3))
    SameButUsage (st.parseArguments scan argv).2 (st'.parseArguments scan argv).2 ∧
    ((st.parseArguments scan argv).2 = .ok () →
      (∀ t ∈ st.arguments, (st'.parseArguments scan argv).1.atObj t.obj = (st.parseArguments scan argv).1.atObj t.obj) ∧
      (∃ s', (st'.parseArguments scan argv).1.atObj ref = some s' ∧ s'.arg.isExist = true ∧
        s'.arg.toVector = some (s.arg.elems.map (·.dflt) ++ ws2)) ∧
      (st.parseArguments scan argv).1.additional = st.additional ++ (ws2 ++ extras evs3) ∧
      (st'.parseArguments scan argv).1.additional = st.additional ++ extras evs3 ∧
      (st'.parseArguments scan argv).1.destLog = (st.parseArguments scan argv).1.destLog) := by
  intro argv
  obtain ⟨h', hx⟩ := collect_ready h hreach hr hc hs (settled_list hk hn) (by rw [hn]; exact hsize)
  have hi' := h'.inv
  obtain ⟨hm, hob⟩ := State.atObj_some hs
  have hl : Line st.sig st.places (argv.drop 1) _ err := hg.reads h hst
  obtain ⟨hl', hn1, hn3⟩ := hg.collects h.inv h' hx ho hs hk
  have hl' : Line st'.sig st'.places (argv.drop 1) _ err := hl'
  cases err with
  | some x =>
    rw [(parse_of_line h hl).1 x rfl, (parse_of_line h' hl').1 x rfl]
    exact ⟨.inl rfl, fun e => by cases e⟩
  | none =>
    have hsame : ∀ t ∈ st.arguments, t.arg.afterTokens t.node (evs1 ++ (.positional s.node (.list ws2) :: evs3)) =
        t.arg.afterTokens t.node (evs1 ++ (ws2.map Event.extra ++ evs3)) := by
      intro t ht
      have hne : s.node ≠ t.node := by
        intro e
        have ht' := hx.spare.mem.1 ht
        obtain rfl := eq_of_node hi' hm ht'.1 e.symm
        simp [hob] at ht'
      unfold Argument.afterTokens
      rw [List.foldl_append, List.foldl_append, see_other hne]
    have hvalid : ∀ t ∈ st'.arguments, (t.obj == ref) = true → t.arg.valid = none := by
      intro t ht e
      rw [inj_of_nodup Slot.obj hi'.objs ht hm ((by simpa using e : t.obj = ref).trans hob.symm)]
      exact hv
    obtain ⟨h1, h2⟩ := hx.spare.outcome_seeing (scan := scan) (argv := argv) hsame hvalid
    rw [← parse_seen h hl, ← parse_seen h' hl'] at h1 h2
    refine ⟨h1, fun hok => ?_⟩
    obtain ⟨hok', hlog⟩ := h2 hok
    have hsh := shows_of_line h' hl' hok'
    refine ⟨?_, ?_, ?_, ?_, hlog⟩
    · intro t ht
      rw [parse_atObj h hl hok ht, parse_atObj h' hl' hok' (hx.spare.mem.1 ht).1, hsame t ht]
    · have hu1 : uses s.node evs1 = [] := Classical.byContradiction fun e => hn1 (.inl e)
      have hf1 : fills s.node evs1 = [] := Classical.byContradiction fun e => hn1 (.inr e)
      have hf3 : fills s.node evs3 = [] := Classical.byContradiction fun e => hn3 (.inr e)
      have hf : fills s.node (evs1 ++ (.positional s.node (.list ws2) :: evs3)) = [.list ws2] := by
        unfold fills at *
        rw [List.filterMap_append, hf1, List.filterMap_cons]
        simp only [if_true]
        rw [hf3]
        rfl
      obtain ⟨s', a1, _, a3, _, a5⟩ := hsh.1 s hm
      have hocc : Occurs s.node (evs1 ++ (.positional s.node (.list ws2) :: evs3)) := .inr (by rw [hf]; simp)
      refine ⟨s', hob ▸ a1, a3.2 hocc, ?_⟩
      have := (a5 hocc (by rw [hk]; simp [Valueless])).1
      unfold Validated at this
      rw [hv] at this
      simp only at this
      rw [this]
      unfold Argument.given
      rw [hk, hf]
      simp [Values.flat, Argument.oldStrings]
    · rw [(shows_of_line h hl hok).2, extras_append, hg.exact, List.nil_append, extras_words]
    · rw [hsh.2, extras_append, hg.exact, List.nil_append, hx.spare.settings.2.2.2.2.2.2.2.2.1]
      rfl

/-- C104, strict mode. A strict parser refuses such a line before the addition because of the first of the words. (That the
list collects them afterwards is `C104_reading`, which does not depend on the mode.) -/
theorem C104_strict (h : Ready scan st (p :: (ws1 ++ (ws2 ++ ws3)))) (hs : st.isStrict = true)
    (hg : Together st ws1 ws2 ws3 evs1 evs3 err) :
    ∃ w ws, ws2 = w :: ws ∧ (st.parseArguments scan (p :: (ws1 ++ (ws2 ++ ws3)))).2 = .throw (surplusError w) := by
  obtain ⟨w, ws, rfl⟩ := List.exists_cons_of_ne_nil hg.nonempty
  refine ⟨w, ws, rfl, ?_⟩
  have hl : Line st.sig st.places (ws1 ++ (w :: ws ++ ws3)) (evs1 ++ []) (some (surplusError w)) := by
    refine (C92_reading h hg.noEnd hg.front (.inr hg.closed) _ _).2 ⟨_, rfl, ?_⟩
    rw [hg.full]
    exact line_refused hs (hg.words w (by simp)) _
  exact (parse_of_line h (show Line st.sig st.places ((p :: (ws1 ++ (w :: ws ++ ws3))).drop 1) _ _ from hl)).1 _ rfl
end

/-! ### A case -/

section
/-- The parser of `Props/Spare` (`in` required, `-v`, help) and a line with two surplus words, then an option. -/
def wordsLine : List Str := ["prog", "file", "fast", "x", "-v"].map String.toList

theorem wordsLine_ready : Ready demoScan inParser wordsLine :=
  .of_history inParser_history (by decide +kernel) (by decide +kernel) ⟨"prog".toList, rfl, by decide +kernel⟩

theorem frontLine_ready : Ready demoScan inParser (["prog", "file"].map String.toList) :=
  .of_history inParser_history (by decide +kernel) (by decide +kernel) ⟨"prog".toList, rfl, by decide +kernel⟩

theorem wordsLine_together : Together inParser ["file".toList] (["fast", "x"].map String.toList) ["-v".toList]
    [.positional 1 (.single "file".toList)] [.option 0 false .nothing] none where
  front := frontLine_ready.says (by decide +kernel)
  noEnd := by decide +kernel
  full := by decide +kernel
  closed := by rw [leavesOpen_iff]; decide +kernel
  exact := rfl
  nonempty := by decide
  words := by
    intro w hw
    simp only [List.map_cons, List.map_nil, List.mem_cons, List.not_mem_nil, or_false] at hw
    rcases hw with rfl | rfl
    · exact .inr (.inr ⟨'f', "ast".toList, rfl, by decide⟩)
    · exact .inr (.inr ⟨'x', [], rfl, by decide⟩)
  fresh := by
    intro t ht
    obtain rfl : "-v".toList = t := Option.some.inj ht
    exact .inl ((Reader.optionForm_iff _ _).1 (by decide +kernel))
  back := by
    have hl : Line inParser.sig inParser.places (["file".toList] ++ ["-v".toList])
        ([.positional 1 (.single "file".toList)] ++ [.option 0 false .nothing]) none := shortLine_ready.says (by decide +kernel)
    obtain ⟨evs, e, h⟩ := (C92_reading (scan := demoScan) (p := "prog".toList) shortLine_ready (by decide +kernel)
      (frontLine_ready.says (evs := [.positional 1 (.single "file".toList)]) (err := none) (by decide +kernel))
      (.inr (by rw [leavesOpen_iff]; decide +kernel)) _ _).1 hl
    have hq : unfilled [.positional 1 (.single "file".toList)] inParser.places = [] := by decide +kernel
    rw [hq] at h
    obtain rfl := List.append_cancel_left e
    exact h

/-- `rest`, with defaults `a b`, gets `a b fast x`; the words are no longer additional arguments. -/
example : (inParser.parseArguments demoScan wordsLine).2 = .ok () ∧
    (inParser.parseArguments demoScan wordsLine).1.additional = ["fast", "x"].map String.toList ∧
    ((runOps demoScan inAdded restOps).parseArguments demoScan wordsLine).2 = .ok () ∧
    (∃ s', ((runOps demoScan inAdded restOps).parseArguments demoScan wordsLine).1.atObj 3 = some s' ∧
      s'.arg.toVector = some (["a", "b", "fast", "x"].map String.toList)) ∧
    ((runOps demoScan inAdded restOps).parseArguments demoScan wordsLine).1.additional = [] := by
  have hr : inParser.addArgument ["rest".toList] = (inAdded, .ok 3) := pair_of (by decide +kernel)
  have hok : (inParser.parseArguments demoScan wordsLine).2 = .ok () := by decide +kernel
  have he : ((runOps demoScan inAdded restOps).atObj 3).map (fun s => (s.arg.type, s.arg.nargs, s.arg.valid.isNone, s.arg.elems.map (·.dflt))) =
      some (.infinitePos, 1, true, ["a", "b"].map String.toList) := by decide +kernel
  obtain ⟨s, hs, e⟩ := Option.map_eq_some_iff.1 he
  simp only [Prod.mk.injEq, Option.isNone_iff_eq_none] at e
  obtain ⟨e1, e2, e3, e4⟩ := e
  obtain ⟨h1, h2⟩ := C104_effect (p := "prog".toList) wordsLine_ready inParser_history.reachable hr (by decide +kernel) inAdded_configured hs e1 e2 e3
    (by decide +kernel) wordsLine_together (by decide +kernel)
  obtain ⟨_, ⟨s', a, _, b⟩, c, d, _⟩ := h2 hok
  have hempty : inParser.additional = [] := by decide +kernel
  rw [hempty] at c d
  refine ⟨hok, c, ?_, ⟨s', a, ?_⟩, d⟩
  · rcases h1 with e | ⟨u, u', e, _⟩ | ⟨u, u', e, _⟩
    · exact e.trans hok
    · cases hok.symm.trans e
    · cases hok.symm.trans e
  · rw [b, e4]; rfl

/-- In strict mode the line is refused because of `fast`. -/
example : (strictIn.parseArguments demoScan (["prog", "file", "fast", "x"].map String.toList)).2 = .throw (surplusError "fast".toList) := by
  have hrd : Ready demoScan strictIn ("prog".toList :: (["file".toList] ++ (["fast", "x"].map String.toList ++ []))) :=
    .of_history strictIn_history (by decide +kernel) (by decide +kernel) ⟨"prog".toList, rfl, by decide +kernel⟩
  have hfr : Ready demoScan strictIn (["prog", "file"].map String.toList) :=
    .of_history strictIn_history (by decide +kernel) (by decide +kernel) ⟨"prog".toList, rfl, by decide +kernel⟩
  have hg : Together strictIn ["file".toList] (["fast", "x"].map String.toList) [] [.positional 1 (.single "file".toList)] [] none :=
    { front := hfr.says (by decide +kernel)
      noEnd := by decide +kernel
      full := by decide +kernel
      closed := by rw [leavesOpen_iff]; decide +kernel
      exact := rfl
      nonempty := by decide
      words := wordsLine_together.words
      fresh := fun _ ht => nomatch ht
      back := .whole (fun _ ht => nomatch ht) (.nil []) }
  obtain ⟨w, ws, e, h⟩ := C104_strict hrd (by decide +kernel) hg
  cases e
  exact h
end

end BletArgs
