import Verif.Props.After
/-
C67: what a failing parse, and the other calls, write to the variables of the program.
-/
namespace BletArgs
open Spec
variable {D : Type}

/-! ### Nothing is written while tokens are read -/

theorem parseAt_log (st : State D) (argv : List Str) (max index : Nat) (hasArg : Bool) (option arg : Str) (node : Nat) :
    (st.parseAt argv max index hasArg option arg node).1.destLog = st.destLog := by
  unfold State.parseAt
  split <;> rfl

theorem parseCluster_log (argv : List Str) (max index : Nat) (hasArg : Bool) (arg : Str) (cs : List Char) (st : State D) :
    (State.parseCluster argv max index hasArg arg cs st).1.destLog = st.destLog := by
  induction cs generalizing st with
  | nil =>
    unfold State.parseCluster
    split
    · rfl
    · exact parseAt_log ..
  | cons c cs ih =>
    cases cs with
    | nil =>
      unfold State.parseCluster
      split
      · rfl
      · exact parseAt_log ..
    | cons c2 rest =>
      unfold State.parseCluster
      split
      · rfl
      · split
        · rfl
        · split
          · rw [parseAt_log]; rfl
          · split
            · rfl
            · rw [ih]; rfl

theorem parseShort_log (st : State D) (argv : List Str) (max index : Nat) (tok : Str) :
    (st.parseShort argv max index tok).1.destLog = st.destLog := by
  unfold State.parseShort
  split
  next options arg hasArg _ =>
  split
  · exact parseAt_log ..
  · exact parseCluster_log ..

theorem parseLong_log (st : State D) (argv : List Str) (max index : Nat) (tok : Str) :
    (st.parseLong argv max index tok).1.destLog = st.destLog := by
  unfold State.parseLong
  split
  next options arg hasArg _ =>
  split
  · rfl
  · exact parseAt_log ..

theorem parsePositionalTok_log (st : State D) (argv : List Str) (argc index : Nat) (hasEnd : Bool) :
    (st.parsePositionalTok argv argc index hasEnd).1.destLog = st.destLog := by
  unfold State.parsePositionalTok
  cases st.nextPositional with
  | some s => rfl
  | none =>
    simp only
    split
    · rfl
    · split <;> rfl

theorem endLoop_log (argv : List Str) (f i : Nat) (st : State D) : (State.endLoop argv f i st).1.destLog = st.destLog := by
  induction f generalizing i st with
  | zero => rfl
  | succ f ih =>
    unfold State.endLoop
    split
    · have hc := parsePositionalTok_log st argv argv.length i true
      generalize st.parsePositionalTok argv argv.length i true = r at hc ⊢
      obtain ⟨st1, r⟩ := r
      cases r with
      | ok i1 => exact (ih i1 st1).trans hc
      | _ => exact hc
    · rfl

theorem mainLoop_log (argv : List Str) (e f i : Nat) (st : State D) :
    (State.mainLoop argv e f i st).1.destLog = st.destLog := by
  induction f generalizing i st with
  | zero => rfl
  | succ f ih =>
    have key : ∀ r : State D × Res Nat, r.1.destLog = st.destLog →
        (match r with
          | (st1, .ok i1) => State.mainLoop argv e f i1 st1
          | (st1, r) => (st1, r.cast)).1.destLog = st.destLog := by
      intro r hc
      obtain ⟨st1, r⟩ := r
      cases r with
      | ok i1 => exact (ih i1 st1).trans hc
      | _ => exact hc
    unfold State.mainLoop
    split
    · split
      · rfl
      · split
        · exact key _ (parseShort_log ..)
        · split
          · exact key _ (parseLong_log ..)
          · split
            · exact endLoop_log ..
            · exact key _ (parsePositionalTok_log ..)
    · rfl

/-! ### The other calls -/

theorem sortArguments_log (st : State D) : st.sortArguments.1.destLog = st.destLog := by
  unfold State.sortArguments; split <;> rfl

theorem withRef_log {α : Type} (st : State D) (ref : Nat) (f : Slot D → State D × Res α)
    (h : ∀ s, (f s).1.destLog = st.destLog) : (st.withRef ref f).1.destLog = st.destLog := by
  unfold State.withRef; split
  · rfl
  · exact h _

theorem addArgument_log (st : State D) (names : List Str) : (st.addArgument names).1.destLog = st.destLog := by
  have hlink : ∀ a : Argument D, (st.linkArgument a).1.destLog = st.destLog := by
    intro a
    unfold State.linkArgument
    simp only
    generalize hst : ({ st with
      arguments := st.arguments ++ [{ node := st.nextNode, obj := st.nextObj, arg := a }]
      byName := a.names.foldl (fun m n => insertName m n st.nextNode) st.byName
      nextNode := st.nextNode + 1, nextObj := st.nextObj + 1 } : State D) = st1
    have h1 : st1.destLog = st.destLog := by rw [← hst]
    have := sortArguments_log st1
    generalize st1.sortArguments = r at this
    obtain ⟨st2, r⟩ := r
    cases r <;> exact this.trans h1
  unfold State.addArgument
  split
  · rfl
  · split
    · split
      · rfl
      · split
        · rfl
        · exact hlink _
    · split
      · rfl
      · exact hlink _

theorem retype_log (st : State D) (s : Slot D) (a : Argument D) : (st.retype s a).1.destLog = st.destLog := by
  unfold State.retype; split <;> rfl

theorem action_log (st : State D) (ref : Nat) (act : Action) : (st.action ref act).1.destLog = st.destLog := by
  refine withRef_log st ref _ fun s => ?_
  simp only
  rw [retype_log]
  split <;> split <;> rfl

theorem setHelp_log (st : State D) (ref : Nat) (x : Str) : (st.setHelp ref x).1.destLog = st.destLog :=
  withRef_log st ref _ fun _ => rfl

theorem removeLoop_log (ns : List Str) (st : State D) : (State.removeLoop ns st).1.destLog = st.destLog := by
  induction ns generalizing st with
  | nil => rfl
  | cons n ns ih =>
    unfold State.removeLoop
    split
    · rfl
    · split
      · rfl
      · split
        · simp only
          split
          · rw [ih]; rfl
          · rw [ih]
            simp only
            split
            · rfl
            · split <;> rfl
        · rfl

/-- C67, other calls. No call but `parseArguments` writes to a variable given to `dest()`. -/
theorem C67_other_calls (scan : Str → Option D) (st : State D) (op : Op) (hop : ∀ argv, op ≠ .parse argv) :
    (step scan st op).1.destLog = st.destLog := by
  cases op with
  | add ns => exact addArgument_log st ns
  | remove ns =>
    show (st.removeArguments ns).1.destLog = st.destLog
    unfold State.removeArguments
    split
    · rfl
    · split
      · rfl
      · have h := removeLoop_log ns st
        generalize State.removeLoop ns st = r at h
        obtain ⟨st1, r⟩ := r
        cases r with
        | ok u => exact (sortArguments_log st1).trans h
        | _ => exact h
  | flag ref f =>
    refine withRef_log st ref _ fun s => ?_
    split
    · rfl
    · split
      · rfl
      · split
        · rfl
        · exact sortArguments_log _
  | action ref a => exact action_log st ref a
  | nargs ref n => exact withRef_log st ref _ fun s => retype_log st s _
  | defaults ref ds => exact withRef_log st ref _ fun _ => rfl
  | required ref b => exact withRef_log st ref _ fun s => sortArguments_log _
  | help ref x => exact setHelp_log st ref x
  | metavar ref x => exact withRef_log st ref _ fun _ => rfl
  | edit ref items => exact withRef_log st ref _ fun _ => rfl
  | behave ref c x => exact withRef_log st ref _ fun _ => rfl
  | valid ref v d => exact withRef_log st ref _ fun _ => rfl
  | dest ref d => exact withRef_log st ref _ fun _ => rfl
  | parse argv => exact absurd rfl (hop argv)
  | _ => rfl

/-! ### A parse that fails -/

theorem refused_log {scan : Str → Option D} {st : State D} {argv : List Str} (h : Ready scan st argv)
    {evs : List Event} {x : Exn} (hl : Line st.sig st.places (argv.drop 1) evs (some x)) :
    (st.parseArguments scan argv).1.destLog = st.destLog := by
  obtain ⟨p, hp, hp'⟩ := h.program
  have hne : argv ≠ [] := by rintro rfl; cases hp
  have hauto : st.resetAll.autoHelp = (st.resetAll, .ok true) := by
    unfold State.autoHelp
    have : st.resetAll.helpOption.isNone = false := by
      show st.helpOption.isNone = false
      cases hh : st.helpOption with
      | none => exact absurd hh h.help
      | some _ => rfl
    rw [this]
    rfl
  have hc := begin_config st argv
  have hsane : Sane (st.begin argv) argv.length := Sane.of_config' hc h.sane
  have hbudget : argv.length < (st.begin argv).loopBudget argv := by
    unfold State.loopBudget
    have : argv.length + 1 ≤ (argv.length + 1) * ((st.begin argv).arguments.length + 2) :=
      Nat.le_mul_of_pos_right _ (by omega)
    omega
  have h0 : argv[0]? ≠ some ['-', '-'] := by
    rw [← List.head?_eq_getElem?, hp]
    intro e; cases e; exact hp' rfl
  obtain ⟨evs', err', h1, h2, _⟩ := tokens_agree hsane hbudget h0
  rw [sig_of_config' hc, begin_queue] at h1
  obtain ⟨rfl, rfl⟩ := line_unique (sane_sized h.sane) (sane_places h.sane) hl h1
  have h2 := h2 x rfl
  have hm := mainLoop_log argv (endOptionIndex argv) ((st.begin argv).loopBudget argv) 1 (st.begin argv)
  unfold State.parseArguments
  rw [hauto]
  simp only
  rw [setBinary_eq hne]
  simp only
  generalize State.mainLoop argv (endOptionIndex argv) ((st.begin argv).loopBudget argv) 1 (st.begin argv) = r at h2 hm ⊢
  obtain ⟨st1, r⟩ := r
  simp only at h2
  subst h2
  exact hm

/-- C67, refused command lines. When the tokens are refused, when help or version is asked for, or when a required
argument is missing, no variable was written. -/
theorem C67_untouched {scan : Str → Option D} {st : State D} {argv : List Str} (h : Ready scan st argv)
    {evs : List Event} {err : Option Exn} (hl : Line st.sig st.places (argv.drop 1) evs err)
    (hbad : err ≠ none ∨ ¬Silent st evs ∨ ¬NoneMissing st evs) :
    (st.parseArguments scan argv).1.destLog = st.destLog := by
  have hi := h.inv
  cases err with
  | some x => exact refused_log h hl
  | none =>
    have hbad := hbad.resolve_left (fun e => e rfl)
    have seen : ∀ o, (st.seen argv evs).optionSeen (some o) = some false →
        ∃ t ∈ st.arguments, t.obj = o ∧ ¬Occurs t.node evs := by
      intro o ho
      unfold State.optionSeen at ho
      simp only [Option.map_eq_some_iff] at ho
      obtain ⟨s', hs', hx⟩ := ho
      unfold State.atObj at hs'
      have hm := List.mem_of_find?_eq_some hs'
      have hp := List.find?_some hs'
      obtain ⟨t, ht, rfl⟩ := List.mem_map.1 hm
      refine ⟨t, ht, by simpa using hp, fun hoc => ?_⟩
      have := (occurs_iff hi ht hl).2 hoc
      simp only at hx
      rw [hx] at this
      cases this
    rw [parse_seen h hl]
    unfold State.afterLoop
    cases h1 : (st.seen argv evs).optionSeen (st.seen argv evs).helpOption with
    | none => rfl
    | some b =>
      cases b with
      | true => simp only; split <;> rfl
      | false =>
        simp only
        cases h2 : (st.seen argv evs).optionSeen (st.seen argv evs).versionOption with
        | none => rfl
        | some b =>
          cases b with
          | true => simp only; split <;> rfl
          | false =>
            simp only
            have hq : Silent st evs := by
              refine ⟨?_, ?_⟩
              · cases hh : st.helpOption with
                | none => exact absurd hh h.help
                | some o =>
                  rw [show (st.seen argv evs).helpOption = some o from hh] at h1
                  obtain ⟨t, ht, e, hno⟩ := seen o h1
                  exact ⟨t, ht, by rw [e], hno⟩
              · intro o ho
                rw [show (st.seen argv evs).versionOption = some o from ho] at h2
                exact seen o h2
            have hbad := hbad.resolve_left (fun e => e hq)
            unfold State.finishParse
            cases h3 : firstMissing (st.seen argv evs).arguments with
            | some e => rfl
            | none =>
              refine absurd ?_ hbad
              intro s hs hr
              unfold firstMissing at h3
              rw [Option.map_eq_none_iff, List.find?_eq_none] at h3
              have := h3 _ (List.mem_map.2 ⟨s, hs, rfl⟩)
              rw [show (({ s with arg := s.arg.afterTokens s.node evs } : Slot D).arg.isRequired) = s.arg.isRequired from
                (congrArg (fun x : Argument D => x.isRequired) (afterTokens_config s.node evs s.arg) :), hr] at this
              exact (occurs_iff hi hs hl).1 (by simpa using this)

/-- A refused argument writes nothing, unless it is its own callback that throws. -/
theorem bad_writes {st : State D} {full : Prop} (hi : GInv full st) {s : Slot D} (hs : s ∈ st.arguments) (scan : Str → Option D)
    {ts : List Str} {evs : List Event} {err : Option Exn} (hl : Line st.sig st.places ts evs err) (h : ¬Passes s evs) :
    ((s.arg.afterTokens s.node evs).finish scan).2.1 = [] := by
  rw [passes_runs hi hs hl] at h
  generalize s.arg.afterTokens s.node evs = a at h
  unfold Argument.finish
  have hd := runValid_dest a
  generalize a.runValid = r at h hd
  obtain ⟨a1, r⟩ := r
  simp only at h hd
  cases r with
  | ok u =>
    simp only [true_and] at h ⊢
    cases hx : a.dest with
    | none => rw [hx] at h; exact absurd (fun d e => nomatch e) h
    | some d =>
      rw [hx] at h hd
      simp only [Option.some.injEq, forall_eq', not_or, Bool.not_eq_true] at h
      unfold Argument.toDest
      rw [toNumber_dest, hd]
      cases hk : d.kind <;> simp [h.1, h.2, hk]
  | _ => rfl

theorem finishAll_upto {scan : Str → Option D} {l1 l2 : List (Slot D)} {s : Slot D}
    (h : ∀ t ∈ l1, (t.arg.finish scan).2.2 = .ok ()) (hs : (s.arg.finish scan).2.2 ≠ .ok ()) :
    (finishAll scan (l1 ++ s :: l2)).1 = l1.map (fun t => { t with arg := t.arg.finished scan }) ++
      { s with arg := s.arg.finished scan } :: l2 ∧
    (finishAll scan (l1 ++ s :: l2)).2.1 = l1.flatMap (fun t => (t.arg.finish scan).2.1) ++ (s.arg.finish scan).2.1 := by
  induction l1 with
  | nil =>
    rw [List.nil_append, List.map_nil, List.nil_append, List.flatMap_nil, List.nil_append]
    unfold finishAll Argument.finished
    generalize s.arg.finish scan = r at hs
    obtain ⟨a1, w, r⟩ := r
    cases r with
    | ok u => exact absurd rfl hs
    | _ => exact ⟨rfl, rfl⟩
  | cons t l ih =>
    have h0 := h t (by simp)
    obtain ⟨i1, i2⟩ := ih fun t ht => h t (by simp [ht])
    rw [List.cons_append, List.map_cons, List.flatMap_cons, List.cons_append]
    unfold finishAll
    have e : t.arg.finished scan = (t.arg.finish scan).1 := rfl
    rw [e]
    generalize t.arg.finish scan = r at h0
    obtain ⟨a1, w, r⟩ := r
    simp only at h0
    subst h0
    simp only
    rw [i1, i2, List.append_assoc]
    exact ⟨rfl, rfl⟩

/-- The arguments and the writes of a call stopped by the validator or the destination of `s`. -/
theorem parse_stopped {scan : Str → Option D} {st : State D} {argv : List Str} (h : Ready scan st argv)
    {evs : List Event} (hl : Line st.sig st.places (argv.drop 1) evs none) (hq : Silent st evs) (hm : NoneMissing st evs)
    {l1 l2 : List (Slot D)} {s : Slot D} (hst : st.arguments = l1 ++ s :: l2)
    (hbefore : ∀ t ∈ l1, Passes t evs ∧ Returning t) (hbad : ¬Passes s evs) :
    (∃ rest, (st.parseArguments scan argv).1.arguments =
      l1.map (fun t => { t with arg := (t.arg.afterTokens t.node evs).finished scan }) ++ rest) ∧
    (st.parseArguments scan argv).1.destLog =
      st.destLog ++ l1.flatMap (fun t => ((t.arg.afterTokens t.node evs).finish scan).2.1) := by
  have hi := h.inv
  have hmem : ∀ t ∈ l1, t ∈ st.arguments := fun t ht => by rw [hst]; simp [ht]
  have hs : s ∈ st.arguments := by rw [hst]; simp
  have hok : ∀ x ∈ l1.map (fun t => ({ t with arg := t.arg.afterTokens t.node evs } : Slot D)),
      (x.arg.finish scan).2.2 = .ok () := by
    intro x hx
    obtain ⟨t, ht, rfl⟩ := List.mem_map.1 hx
    exact (passes_iff hi (hmem t ht) scan hl (hbefore t ht).2).2 (hbefore t ht).1
  have hno : (({ s with arg := s.arg.afterTokens s.node evs } : Slot D).arg.finish scan).2.2 ≠ .ok () :=
    fun e => hbad (passes_of hi hs hl e)
  obtain ⟨g1, g2⟩ := finishAll_upto (l2 := l2.map fun t => { t with arg := t.arg.afterTokens t.node evs }) hok hno
  have hmiss : firstMissing (st.seen argv evs).arguments = none := by
    unfold firstMissing
    rw [Option.map_eq_none_iff, List.find?_eq_none]
    intro x hx
    obtain ⟨t, ht, rfl⟩ := List.mem_map.1 hx
    have reqEq : (t.arg.afterTokens t.node evs).isRequired = t.arg.isRequired :=
      (congrArg (fun x : Argument D => x.isRequired) (afterTokens_config t.node evs t.arg) :)
    simp only [reqEq, Bool.and_eq_true, Bool.not_eq_true', not_and, Bool.not_eq_false]
    intro hr'
    exact (occurs_iff hi ht hl).2 (hm t ht hr')
  have hargs : (st.seen argv evs).arguments = l1.map (fun t => ({ t with arg := t.arg.afterTokens t.node evs } : Slot D)) ++
      { s with arg := s.arg.afterTokens s.node evs } :: l2.map fun t => { t with arg := t.arg.afterTokens t.node evs } := by
    unfold State.seen
    simp only
    rw [hst, List.map_append, List.map_cons]
  rw [hq.finish h hl]
  unfold State.finishParse
  rw [hmiss]
  simp only
  rw [hargs]
  refine ⟨⟨{ s with arg := (s.arg.afterTokens s.node evs).finished scan } ::
    l2.map fun t => { t with arg := t.arg.afterTokens t.node evs }, ?_⟩, ?_⟩
  · rw [g1, List.map_map]; rfl
  · rw [g2, List.flatMap_map, bad_writes hi hs scan hl hbad, List.append_nil]; rfl

/-- The writes of one member of a list to a variable that is no other member's. -/
theorem flatMap_own {l : List (Slot D)} {s : Slot D} {w : Slot D → List DestWrite} (hs : s ∈ l)
    (hnd : (l.map (·.node)).Nodup) (other : ∀ t ∈ l, t.node ≠ s.node → w t = []) : l.flatMap w = w s := by
  induction l with
  | nil => cases hs
  | cons t l ih =>
    rw [List.map_cons, List.nodup_cons] at hnd
    rw [List.flatMap_cons]
    rcases List.mem_cons.1 hs with rfl | hs
    · rw [show l.flatMap w = [] by
        rw [List.flatMap_eq_nil_iff]
        intro t ht
        exact other t (by simp [ht]) fun e => hnd.1 (List.mem_map.2 ⟨t, ht, e⟩)]
      rw [List.append_nil]
    · rw [other t (by simp) fun e => hnd.1 (List.mem_map.2 ⟨s, hs, e.symm⟩), List.nil_append]
      exact ih hs hnd.2 (fun t ht => other t (by simp [ht]))

/-- C67, the culprit. When the validator of an argument refuses, or its destination has no conversion, the variables
of the arguments listed before it have been written, each as a call that returns writes it (shown for scalar
destinations), and no other variable has: not the one of the culprit, and none of those listed after it. (When it is a
callback that throws, its own call is the last one: C73.) -/
theorem C67_up_to_culprit {scan : Str → Option D} {st : State D} {argv : List Str} (h : Ready scan st argv)
    {evs : List Event} (hl : Line st.sig st.places (argv.drop 1) evs none) (hq : Silent st evs) (hm : NoneMissing st evs)
    {l1 l2 : List (Slot D)} {s : Slot D} (hst : st.arguments = l1 ++ s :: l2)
    (hbefore : ∀ t ∈ l1, Passes t evs ∧ Returning t) (hbad : ¬Passes s evs) :
    (st.parseArguments scan argv).2 ≠ .ok () ∧
    ∃ log, (st.parseArguments scan argv).1.destLog = st.destLog ++ log ∧
      (∀ w ∈ log, ∃ t ∈ l1, ∃ d, t.arg.dest = some d ∧ w.slot = d.slot) ∧
      (∀ t ∈ l1, ∀ d, t.arg.dest = some d → OwnSlot st t d → d.kind = .scalar →
        ∃ t' x, (st.parseArguments scan argv).1.atObj t.obj = some t' ∧
          writesTo d.slot log =
            (if d.custom = true then [.callScalar d.slot t'.arg.isExist x]
            else if t.arg.type = .boolean ∨ t.arg.type = .reverse then [.set d.slot (.bool t'.arg.toBool)]
            else [.set d.slot (.str x)]) ∧
          (SingleKind t.arg.type → t'.arg.toVector = some [x]) ∧
          (¬SingleKind t.arg.type → x = t.arg.dflt)) := by
  have hi := h.inv
  have hmem : ∀ t ∈ l1, t ∈ st.arguments := fun t ht => by rw [hst]; simp [ht]
  have hs : s ∈ st.arguments := by rw [hst]; simp
  have hcfg : ∀ t : Slot D, ((t.arg.afterTokens t.node evs).finished scan).config = t.arg.config := fun t =>
    (Argument.finish_config scan _).trans (afterTokens_config t.node evs t.arg)
  have hfin : ∀ t ∈ l1, ((t.arg.afterTokens t.node evs).finish scan).2.1 =
      ((t.arg.afterTokens t.node evs).finished scan).toDest.1 := fun t ht =>
    finish_writes scan _ ((passes_iff hi (hmem t ht) scan hl (hbefore t ht).2).2 (hbefore t ht).1)
  have hslot : ∀ t ∈ l1, ∀ w ∈ ((t.arg.afterTokens t.node evs).finish scan).2.1, ∃ d, t.arg.dest = some d ∧ w.slot = d.slot := by
    intro t ht w hw
    rw [hfin t ht] at hw
    obtain ⟨d, e1, e2⟩ := toDest_slot _ w hw
    exact ⟨d, ((congrArg (fun x : Argument D => x.dest) (hcfg t) :).symm.trans e1), e2⟩
  obtain ⟨⟨rest, g1⟩, g2⟩ := parse_stopped h hl hq hm hst hbefore hbad
  refine ⟨fun hok => hbad (C34_returned h hl hq hm hok s hs), _, g2, ?_, ?_⟩
  · intro w hw
    obtain ⟨t, ht, hw⟩ := List.mem_flatMap.1 hw
    exact ⟨t, ht, hslot t ht w hw⟩
  · intro t ht d hd hown hkind
    have hat : (st.parseArguments scan argv).1.atObj t.obj =
        some { t with arg := (t.arg.afterTokens t.node evs).finished scan } := by
      have := State.atObj_of_mem hi.objs (hmem t ht)
      unfold State.atObj at this ⊢
      rw [hst, List.find?_append] at this
      have hin : l1.find? (fun x => x.obj == t.obj) = some t := by
        cases hf : l1.find? (fun x => x.obj == t.obj) with
        | some u => rw [hf] at this; exact this
        | none => rw [List.find?_eq_none] at hf; exact absurd (beq_self_eq_true t.obj) (hf t ht)
      rw [g1, List.find?_append, List.find?_map]
      rw [show ((fun x : Slot D => x.obj == t.obj) ∘ fun s : Slot D => { s with arg := (s.arg.afterTokens s.node evs).finished scan }) =
        fun x => x.obj == t.obj from rfl, hin]
      rfl
    have hty : ((t.arg.afterTokens t.node evs).finished scan).type = t.arg.type := (congrArg (fun x : Argument D => x.type) (hcfg t) :)
    have hde : ((t.arg.afterTokens t.node evs).finished scan).dest = some d :=
      ((congrArg (fun x : Argument D => x.dest) (hcfg t) :)).trans hd
    refine ⟨_, ((t.arg.afterTokens t.node evs).finished scan).argument, hat, ?_, ?_, ?_⟩
    · have hw : writesTo d.slot (l1.flatMap fun t => ((t.arg.afterTokens t.node evs).finish scan).2.1) =
          ((t.arg.afterTokens t.node evs).finished scan).toDest.1 := by
        unfold writesTo
        rw [List.filter_flatMap]
        have hnd : (l1.map (·.node)).Nodup := by
          have := hi.nodes
          rw [hst, List.map_append] at this
          exact (List.nodup_append.1 this).1
        rw [flatMap_own ht hnd]
        · rw [hfin t ht]
          refine filter_all fun w hw => ?_
          obtain ⟨d', e1, e2⟩ := toDest_slot _ w hw
          rw [hde] at e1
          cases e1
          rw [e2]; simp
        · intro u hu hne
          refine filter_none fun w hw => ?_
          obtain ⟨d', e1, e2⟩ := hslot u hu w hw
          have := hown u (hmem u hu) hne d' e1
          rw [e2]
          simpa using this
      rw [hw]
      have h5 := (hbefore t ht).1.dest d hd
      unfold Argument.toDest
      rw [hde]
      simp only [hkind]
      cases hc : d.custom with
      | true => simp
      | false =>
        have : d.supported = true := by simpa [hc] using h5
        simp only [this, if_true, Bool.false_eq_true, if_false]
        rw [scalarSrc_eq]
        unfold Argument.singleValue
        rw [hty]
        split <;> rfl
    · intro hk
      unfold Argument.toVector
      simp only [hty]
      rcases hk with e | e <;> rw [e]
    · intro hk
      exact finished_argument hi (hmem t ht) scan hl hk

/-- Two options with variables and a validator between them that refuses: `-r` is written; `-t` (the culprit) and `-u`
(listed after it) are not. -/
example :
    let ops : List Op := [.add ["-r".toList], .dest 12 ⟨0, .scalar, false, true, fun _ => none⟩,
      .add ["-t".toList], .valid 14 (some ⟨0, fun vs => if vs = ["good".toList] then .accept vs else .reject⟩) true, .dest 14 ⟨1, .scalar, false, true, fun _ => none⟩,
      .add ["-u".toList], .dest 16 ⟨2, .scalar, false, true, fun _ => none⟩];
    let st := runOps demoScan parser ops;
    let argv := ["prog", "-u", "1", "-t", "bad", "-r", "2", "IN"].map String.toList;
    (Ready demoScan st argv ∧
    (st.parseArguments demoScan argv).1.destLog = [.set 0 (.str "2".toList)]) := by
  exact ⟨.of_history (reachableBy_runOps parser_history _ (by decide +kernel)) (by decide +kernel) (by decide)
    ⟨"prog".toList, rfl, by decide +kernel⟩, by decide +kernel⟩

end BletArgs
