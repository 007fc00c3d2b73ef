import Verif.Spec.Spare
import Verif.Props.Surplus
import Verif.Props.Settings
/-
C103: arguments a command line does not reach.
-/
namespace BletArgs
open Spec
variable {D : Type}

/-! ### Readings with more places behind -/

theorem reads_behind {sig : Sig} {ps : List Place} {q q1 : List Place} {ts : List Str} {evs : List Event} {err : Option Exn}
    (h : Reads sig q ts evs q1 err) (herr : ∀ w, err ≠ some (surplusError w)) (he : extras evs = []) :
    Reads sig (q ++ ps) ts evs (q1 ++ ps) err := by
  induction h with
  | nil => exact .nil _
  | option h _ ih =>
    rw [extras_append] at he
    exact .option h (ih herr (List.append_eq_nil_iff.1 he).2)
  | badOption h => exact .badOption h
  | word hw h _ ih =>
    cases h with
    | fill h => exact .word hw (.fill h) (ih herr he)
    | surplus _ _ hb => simp [extras] at he
  | badWord hw h =>
    cases h with
    | missing h => exact .badWord hw (.missing h)
    | surplus _ _ hb => exact absurd rfl (herr _)

theorem readsWords_behind {b : Bool} {ps : List Place} {q q1 : List Place} {ts : List Str} {evs : List Event} {err : Option Exn}
    (h : ReadsWords b q ts evs q1 err) (herr : ∀ w, err ≠ some (surplusError w)) (he : extras evs = []) :
    ReadsWords b (q ++ ps) ts evs (q1 ++ ps) err := by
  induction h with
  | nil => exact .nil _
  | word h _ ih =>
    cases h with
    | fill h => exact .word (.fill h) (ih herr he)
    | surplus _ _ hb => simp [extras] at he
  | badWord h =>
    cases h with
    | missing h => exact .badWord (.missing h)
    | surplus _ _ hb => exact absurd rfl (herr _)

theorem line_behind {sig : Sig} {ps : List Place} {q : List Place} {ts : List Str} {evs : List Event} {err : Option Exn}
    (h : Line sig q ts evs err) (herr : ∀ w, err ≠ some (surplusError w)) (he : extras evs = []) :
    Line sig (q ++ ps) ts evs err := by
  cases h with
  | whole hn h => exact .whole hn (reads_behind h herr he)
  | splitBad hn h => exact .splitBad hn (reads_behind h herr he)
  | split hn h h' =>
    rw [extras_append] at he
    obtain ⟨e1, e2⟩ := List.append_eq_nil_iff.1 he
    exact .split hn (reads_behind h (fun _ e => by cases e) e1) (readsWords_behind h' herr e2)

theorem split_behind {α : Type} {new : α → Bool} {l : List α} (h : l.Pairwise fun s t => new s = true → new t = true) :
    l = (l.filter fun s => !new s) ++ l.filter new := by
  induction l with
  | nil => rfl
  | cons s l ih =>
    rw [List.pairwise_cons] at h
    rw [List.filter_cons, List.filter_cons]
    cases hn : new s with
    | false => simp only [Bool.not_false, if_true, Bool.false_eq_true, if_false, List.cons_append]; rw [← ih h.2]
    | true =>
      have e : l.filter new = l := List.filter_eq_self.2 fun t ht => h.1 t ht hn
      have e' : (l.filter fun s => !new s) = [] := by
        rw [List.filter_eq_nil_iff]; intro t ht; simp [h.1 t ht hn]
      simp [e, e']

/-! ### The two parsers -/

variable {new : Nat → Bool} {st st' : State D}

theorem Spare.mem (hx : Spare new st st') {s : Slot D} : s ∈ st.arguments ↔ s ∈ st'.arguments ∧ new s.obj = false := by
  rw [hx.same, List.mem_filter]; simp

theorem Spare.flag (hx : Spare new st st') {full : Prop} (hi : GInv full st) {full' : Prop} (hi' : GInv full' st') {f : Str} (hf : ¬NewName new st' f) :
    st'.sig.flag f = st.sig.flag f := by
  have hl := (hx.names f).resolve_left hf
  unfold State.getArgument at hl
  rcases flag_cases hi f with ⟨h1, h2⟩ | ⟨s, hs, h1, h2, h3, _⟩ <;>
    rcases flag_cases hi' f with ⟨g1, g2⟩ | ⟨t, ht, g1, g2, g3, _⟩
  · rw [h2, g2]
  · rw [g1, h1] at hl
    simp only [g2] at hl
    cases hl
  · rw [g1, h1] at hl
    simp only [h2] at hl
    cases hl
  · rw [g1, h1] at hl
    simp only [h2, g2] at hl
    cases hl
    rw [h3, g3]

theorem Spare.places (hx : Spare new st st') :
    st'.places = st.places ++ ((st'.arguments.filter fun s => s.arg.isPositional).filter fun s => new s.obj).map Slot.place := by
  have e : (st'.arguments.filter fun s => s.arg.isPositional).filter (fun s => !new s.obj) =
      st.arguments.filter fun s => s.arg.isPositional := by
    rw [hx.same, List.filter_filter, List.filter_filter]
    exact List.filter_congr fun t _ => Bool.and_comm _ _
  have := split_behind (new := fun s : Slot D => new s.obj) hx.behind
  unfold State.places
  rw [← e, ← List.map_append, ← this]

theorem Spare.line (hx : Spare new st st') {full : Prop} (hi : GInv full st) {full' : Prop} (hi' : GInv full' st') {line : List Str}
    (hsil : Silences (NewName new st') line) {evs : List Event} {err : Option Exn} (h : Line st.sig st.places line evs err)
    (herr : ∀ w, err ≠ some (surplusError w)) (he : extras evs = []) : Line st'.sig st'.places line evs err := by
  rw [hx.places]
  obtain ⟨_, _, _, _, ha, hs, _⟩ := hx.settings
  exact line_behind (line_agree ha hs (fun X hX t ht f hf => hx.flag hi hi' (hsil X hX t ht f hf)) h) herr he

/-- New arguments do not occur. -/
theorem Spare.absent (hx : Spare new st st') {full : Prop} (hi : GInv full st) {full' : Prop} (hi' : GInv full' st') {line : List Str} 
    {evs : List Event} {err : Option Exn} (h : Line st.sig st.places line evs err)
    {s : Slot D} (hs : s ∈ st'.arguments) (hn : new s.obj = true) : ¬Occurs s.node evs := by
  rintro (ho | ho)
  · obtain ⟨u, hu⟩ := List.exists_mem_of_ne_nil _ ho
    obtain ⟨name, e, hf, he⟩ := line_option_ids h (mem_uses.1 hu)
    rcases flag_cases hi ('-' :: name) with ⟨_, h1⟩ | ⟨t, ht, _, _, h1, _⟩
    · rw [h1] at hf; cases hf
    · rw [h1] at hf
      cases hf
      have := (hx.mem.1 ht).2
      rw [eq_of_node hi' hs (hx.mem.1 ht).1 he, hn] at this
      cases this
  · obtain ⟨u, hu⟩ := List.exists_mem_of_ne_nil _ ho
    obtain ⟨p, hp, hpe, _⟩ := line_fit h _ (mem_fills.1 hu)
    obtain ⟨t, ht, rfl⟩ := List.mem_map.1 hp
    have ht := hx.mem.1 (List.mem_filter.1 ht).1
    have := ht.2
    rw [eq_of_node hi' hs ht.1 hpe, hn] at this
    cases this

theorem Spare.outcome (hx : Spare new st st') {scan : Str → Option D} {argv : List Str} {evs : List Event}
    {full' : Prop} (hi' : GInv full' st') (hl' : Line st'.sig st'.places (argv.drop 1) evs none)
    (habs : ∀ s ∈ st'.arguments, new s.obj = true → ¬Occurs s.node evs) :
    SameButUsage ((st.seen argv evs).afterLoop scan).2 ((st'.seen argv evs).afterLoop scan).2 ∧
    (((st.seen argv evs).afterLoop scan).2 = .ok () →
      ((st'.seen argv evs).afterLoop scan).2 = .ok () ∧
      ((st'.seen argv evs).afterLoop scan).1.destLog = ((st.seen argv evs).afterLoop scan).1.destLog) := by
  obtain ⟨_, s2, s3, s4, _, _, s7, s8, _, s10⟩ := hx.settings
  have hargs : (st.seen argv evs).arguments = (st'.seen argv evs).arguments.filter fun s => !new s.obj := by
    show st.arguments.map _ = (st'.arguments.map _).filter _
    rw [List.filter_map, hx.same]
    rfl
  have hcfg : ∀ s : Slot D, (s.arg.afterTokens s.node evs).config = s.arg.config := fun s => afterTokens_config s.node evs s.arg
  have seen : ∀ o : Option Nat, (∀ s ∈ st'.arguments, new s.obj = true → o ≠ some s.obj) →
      (st'.seen argv evs).optionSeen o = (st.seen argv evs).optionSeen o := by
    intro o ho
    cases o with
    | none => rfl
    | some o =>
      unfold State.optionSeen State.atObj
      simp only
      rw [hargs, find_filter_skip]
      intro t ht hk
      obtain ⟨s, hs, rfl⟩ := List.mem_map.1 ht
      rw [← Bool.not_eq_true]
      intro e
      have e : s.obj = o := by simpa using e
      exact ho s hs (by simpa using hk) (by rw [e])
  have hhelp : (st'.seen argv evs).optionSeen (st'.seen argv evs).helpOption =
      (st.seen argv evs).optionSeen (st.seen argv evs).helpOption := by
    refine (seen st'.helpOption (fun s hs hn => (hx.plain s hs hn).2.2.1)).trans ?_
    rw [show st'.helpOption = (st.seen argv evs).helpOption from s2]
  have hversion : (st'.seen argv evs).optionSeen (st'.seen argv evs).versionOption =
      (st.seen argv evs).optionSeen (st.seen argv evs).versionOption := by
    refine (seen st'.versionOption (fun s hs hn => (hx.plain s hs hn).2.2.2)).trans ?_
    rw [show st'.versionOption = (st.seen argv evs).versionOption from s3]
  have hfin : SameButUsage ((st.seen argv evs).finishParse scan).2 ((st'.seen argv evs).finishParse scan).2 ∧
    (((st.seen argv evs).finishParse scan).2 = .ok () → ((st'.seen argv evs).finishParse scan).2 = .ok () ∧
      ((st'.seen argv evs).finishParse scan).1.destLog = ((st.seen argv evs).finishParse scan).1.destLog) := by
    have hmiss : firstMissing (st.seen argv evs).arguments = firstMissing (st'.seen argv evs).arguments := by
      unfold firstMissing
      rw [hargs, find_filter_skip]
      intro t ht hk
      obtain ⟨s, hs, rfl⟩ := List.mem_map.1 ht
      have : (s.arg.afterTokens s.node evs).isRequired = s.arg.isRequired := (congrArg (fun x : Argument D => x.isRequired) (hcfg s) :)
      simp only [this, (hx.plain s hs (by simpa using hk)).1, Bool.false_and]
    have hfa : (finishAll scan (st.seen argv evs).arguments).2 = (finishAll scan (st'.seen argv evs).arguments).2 := by
      rw [hargs]
      refine finishAll_skip fun t ht hk => ?_
      obtain ⟨s, hs, rfl⟩ := List.mem_map.1 ht
      have hn : new s.obj = true := by simpa using hk
      refine finish_absent scan ?_ ((congrArg (fun x : Argument D => x.dest) (hcfg s) :).trans (hx.plain s hs hn).2.1)
      rw [← Bool.not_eq_true]
      exact fun e => habs s hs hn ((occurs_iff hi' hs hl').1 e)
    unfold State.finishParse
    rw [hmiss]
    cases firstMissing (st'.seen argv evs).arguments with
    | some e => exact ⟨.inl rfl, fun h => by cases h⟩
    | none =>
      simp only
      rw [hfa]
      exact ⟨.inl rfl, fun h => ⟨h, by rw [show (st'.seen argv evs).destLog = (st.seen argv evs).destLog from s10]⟩⟩
  unfold State.afterLoop
  rw [hhelp, hversion, show (st'.seen argv evs).isHelpException = (st.seen argv evs).isHelpException from s7,
    show (st'.seen argv evs).isVersionException = (st.seen argv evs).isVersionException from s8,
    show (st'.seen argv evs).version = (st.seen argv evs).version from s4]
  cases (st.seen argv evs).optionSeen (st.seen argv evs).helpOption with
  | none => exact ⟨.inl rfl, fun h => by cases h⟩
  | some b =>
    cases b with
    | true =>
      simp only
      cases (st.seen argv evs).isHelpException with
      | true => exact ⟨.inr (.inl ⟨_, _, rfl, rfl⟩), fun h => by cases h⟩
      | false => exact ⟨.inr (.inr ⟨_, _, rfl, rfl⟩), fun h => by cases h⟩
    | false =>
      simp only
      cases (st.seen argv evs).optionSeen (st.seen argv evs).versionOption with
      | none => exact ⟨.inl rfl, fun h => by cases h⟩
      | some b =>
        cases b with
        | true =>
          simp only
          cases (st.seen argv evs).isVersionException with
          | true => exact ⟨.inl rfl, fun h => by cases h⟩
          | false => exact ⟨.inl rfl, fun h => by cases h⟩
        | false => exact hfin

/-- C103. Arguments that are not required, have no destination, are not mentioned before `--` and, if positional, stand
behind the others, change nothing as long as no word of the command line is surplus: the call has the same outcome as
without them (up to the text of the usage when help is asked for), and if it returns all other arguments, the additional
arguments and the writes to variables are the same and the new arguments are absent. -/
theorem C103_unreached {scan : Str → Option D} {argv : List Str} (h : Ready scan st argv) (h' : Ready scan st' argv)
    (hx : Spare new st st') (hsil : Silences (NewName new st') (argv.drop 1)) (hno : NoSurplus st (argv.drop 1)) :
    SameButUsage (st.parseArguments scan argv).2 (st'.parseArguments scan argv).2 ∧
    ((st.parseArguments scan argv).2 = .ok () →
      (∀ s ∈ st.arguments, (st'.parseArguments scan argv).1.atObj s.obj = (st.parseArguments scan argv).1.atObj s.obj) ∧
      (∀ s ∈ st'.arguments, new s.obj = true →
        ∃ s', (st'.parseArguments scan argv).1.atObj s.obj = some s' ∧ s'.arg.isExist = false ∧ s'.arg.count = 0) ∧
      (st'.parseArguments scan argv).1.additional = (st.parseArguments scan argv).1.additional ∧
      (st'.parseArguments scan argv).1.destLog = (st.parseArguments scan argv).1.destLog) := by
  have hi := h.inv
  have hi' := h'.inv
  obtain ⟨evs, err, hl, _⟩ := parse_tokens h
  have hl' := hx.line hi hi' hsil hl (hno _ _ hl).2 (hno _ _ hl).1
  have habs : ∀ s ∈ st'.arguments, new s.obj = true → ¬Occurs s.node evs := fun s hs hn => hx.absent hi hi' hl hs hn
  cases err with
  | some x =>
    rw [(parse_of_line h hl).1 x rfl, (parse_of_line h' hl').1 x rfl]
    exact ⟨.inl rfl, fun e => by cases e⟩
  | none =>
    obtain ⟨h1, h2⟩ := hx.outcome (scan := scan) hi' hl' habs
    rw [← parse_seen h hl, ← parse_seen h' hl'] at h1 h2
    refine ⟨h1, fun hok => ?_⟩
    obtain ⟨hok', hlog⟩ := h2 hok
    refine ⟨?_, ?_, ?_, hlog⟩
    · intro s hs
      rw [parse_atObj h hl hok hs, parse_atObj h' hl' hok' (hx.mem.1 hs).1]
    · intro s hs hn
      obtain ⟨s', a, _, b, c, _⟩ := (shows_of_line h' hl' hok').1 s hs
      refine ⟨s', a, ?_, ?_⟩
      · rw [← Bool.not_eq_true]; exact fun e => habs s hs hn (b.1 e)
      · rw [c]
        have : uses s.node evs = [] := Classical.byContradiction fun e => habs s hs hn (.inl e)
        rw [this]; rfl
    · rw [(parse_result h hl hok).2.2, (parse_result h' hl' hok').2.2]
      simp only
      rw [hx.settings.2.2.2.2.2.2.2.2.1]

/-- C103, in terms of the call. If the call without the new arguments returns and adds no additional arguments then no word
was surplus. -/
theorem C103_no_surplus {scan : Str → Option D} {argv : List Str} (h : Ready scan st argv)
    (hok : (st.parseArguments scan argv).2 = .ok ()) (hadd : (st.parseArguments scan argv).1.additional = st.additional) :
    NoSurplus st (argv.drop 1) := by
  intro evs err hl
  cases err with
  | some x => rw [(parse_of_line h hl).1 x rfl] at hok; cases hok
  | none =>
    refine ⟨?_, fun _ e => by cases e⟩
    have := (shows_of_line h hl hok).2
    rw [hadd] at this
    exact List.append_cancel_left (by rw [List.append_nil]; exact this.symm)

/-! ### The calls -/

theorem typeConstructor_plain (self : Nat) (h v : Option Nat) {a : Argument D} (h1 : a.action ≠ .help) (h2 : a.action ≠ .version) :
    (a.typeConstructor self h v).2.1 = h ∧ (a.typeConstructor self h v).2.2.1 = v ∧
    (a.typeConstructor self h v).1.action ≠ .help ∧ (a.typeConstructor self h v).1.action ≠ .version := by
  let P : Argument D × Option Nat × Option Nat × Res Unit → Prop := fun r =>
    r.2.1 = h ∧ r.2.2.1 = v ∧ r.1.action ≠ .help ∧ r.1.action ≠ .version
  show P (a.typeConstructor self h v)
  unfold Argument.typeConstructor
  repeat' (refine ite_elim (P := P) (fun _ => ?_) (fun _ => ?_))
  all_goals first
    | exact ⟨rfl, rfl, h1, h2⟩
    | exact ⟨rfl, rfl, by simp, by simp⟩
    | (rename_i e; exact absurd (by simpa using e) h1)
    | (rename_i e; exact absurd (by simpa using e) h2)
    | (rename_i e _; exact absurd (by simpa using e) h1)
    | (rename_i e _; exact absurd (by simpa using e) h2)

theorem retyped_plain (self : Nat) (h v : Option Nat) {a : Argument D} (h1 : a.action ≠ .help) (h2 : a.action ≠ .version) :
    (a.retyped self h v).action ≠ .help ∧ (a.retyped self h v).action ≠ .version := by
  obtain ⟨_, _, g1, g2⟩ := typeConstructor_plain self h v h1 h2
  unfold Argument.retyped
  split
  · rw [(defaultsConstructor_frame _).2.2.2.1]; exact ⟨g1, g2⟩
  · exact ⟨g1, g2⟩

theorem retyped_dest (self : Nat) (h v : Option Nat) (a : Argument D) : (a.retyped self h v).dest = a.dest := by
  rw [retyped_alters]

theorem defaults_dest (a : Argument D) : a.defaultsConstructor.1.dest = a.dest := by
  rw [defaultsConstructor_alters]

/-- What such a call does: it replaces that argument by one with the same names, requiredness, destination. -/
theorem configures_step {scan : Str → Option D} {st : State D} {full : Prop} (hi : GInv full st) {ref : Nat} {s : Slot D} (h : st.atObj ref = some s)
    (h1 : s.arg.action ≠ .help) (h2 : s.arg.action ≠ .version) {op : Op} (hc : Configures ref op) :
    ∃ a' freed, (step scan st op).1 =
        { st with arguments := st.arguments.map fun t => if t.obj = ref then { t with arg := a' } else t, freedValids := freed } ∧
      a'.names = s.arg.names ∧ a'.isPositional = s.arg.isPositional ∧ a'.isRequired = s.arg.isRequired ∧ a'.dest = s.arg.dest ∧
      a'.action ≠ .help ∧ a'.action ≠ .version := by
  have eo := (State.atObj_some h).2
  cases op with
  | nargs r n =>
    obtain rfl : r = ref := hc
    have hr := retype_names s.obj st.helpOption st.versionOption { s.arg with nargs := n }
    have hp := retyped_plain s.obj st.helpOption st.versionOption (a := { s.arg with nargs := n }) h1 h2
    obtain ⟨t1, t2, _⟩ := typeConstructor_plain s.obj st.helpOption st.versionOption (a := { s.arg with nargs := n }) h1 h2
    refine ⟨_, st.freedValids, ?_, hr.1, hr.2.1, hr.2.2, retyped_dest _ _ _ _, hp⟩
    show (st.nargs r n).1 = _
    unfold State.nargs State.withRef
    rw [h]
    simp only
    rw [retype_eq, t1, t2, updNode_obj hi h (fun _ => Argument.retyped s.obj _ _ _)]
  | action r act =>
    obtain ⟨rfl, n1, n2⟩ := hc
    have b1 : st.helpBut s = st.helpOption := by unfold State.helpBut; rw [if_neg (by simpa using h1)]
    have b2 : st.versionBut s = st.versionOption := by unfold State.versionBut; rw [if_neg (by simpa using h2)]
    have hr := retype_names s.obj st.helpOption st.versionOption { s.arg with action := act }
    have hp := retyped_plain s.obj st.helpOption st.versionOption (a := { s.arg with action := act }) n1 n2
    obtain ⟨t1, t2, _⟩ := typeConstructor_plain s.obj st.helpOption st.versionOption (a := { s.arg with action := act }) n1 n2
    refine ⟨_, st.freedValids, ?_, hr.1, hr.2.1, hr.2.2, retyped_dest _ _ _ _, hp⟩
    show (st.action r act).1 = _
    rw [action_eq h, b1, b2, retype_eq]
    simp only
    rw [t1, t2, updNode_obj hi h (fun _ => Argument.retyped s.obj _ _ _)]
  | defaults r ds =>
    obtain rfl : r = ref := hc
    have hf := defaultsConstructor_frame { s.arg with defaults := ds }
    refine ⟨_, st.freedValids, ?_, hf.1, ?_, hf.2.2.1, defaults_dest _, ?_⟩
    · show (st.setDefaults r ds).1 = _
      unfold State.setDefaults State.withRef
      rw [h]
      exact congrArg (fun l => ({ st with arguments := l, freedValids := st.freedValids } : State D)) (updNode_obj hi h fun _ => ({ s.arg with defaults := ds } : Argument D).defaultsConstructor.1)
    · unfold Argument.isPositional; rw [hf.2.1]
    · rw [hf.2.2.2.1]; exact ⟨h1, h2⟩
  | help r x =>
    obtain rfl : r = ref := hc
    refine ⟨{ s.arg with help := x }, st.freedValids, ?_, rfl, rfl, rfl, rfl, h1, h2⟩
    show (st.setHelp r x).1 = _
    unfold State.setHelp State.withRef
    rw [h]
    exact congrArg (fun l => ({ st with arguments := l, freedValids := st.freedValids } : State D)) (updNode_obj hi h fun a => { a with help := x })
  | metavar r x =>
    obtain rfl : r = ref := hc
    refine ⟨{ s.arg with metavar := x }, st.freedValids, ?_, rfl, rfl, rfl, rfl, h1, h2⟩
    show (st.setMetavar r x).1 = _
    unfold State.setMetavar State.withRef
    rw [h]
    exact congrArg (fun l => ({ st with arguments := l, freedValids := st.freedValids } : State D)) (updNode_obj hi h fun a => { a with metavar := x })
  | valid r v d =>
    obtain rfl : r = ref := hc
    refine ⟨{ s.arg with valid := v, validDeletable := d }, st.freedValids ++ s.arg.ownedValid, ?_, rfl, rfl, rfl, rfl, h1, h2⟩
    show (st.setValid r v d).1 = _
    unfold State.setValid State.withRef
    rw [h]
    exact congrArg (fun l => ({ st with arguments := l, freedValids := st.freedValids ++ s.arg.ownedValid } : State D)) (updNode_obj hi h fun a => { a with valid := v, validDeletable := d })
  | _ => exact absurd hc id

/-- The argument `ref` of `st'` is not in `st`, and configures neither help nor version. -/
structure Spare.One (ref : Nat) (nof : List Str) (st st' : State D) : Prop where
  spare : Spare (· == ref) st st'
  there : ∃ s, st'.atObj ref = some s ∧ s.arg.action ≠ .help ∧ s.arg.action ≠ .version ∧ ∀ f ∈ s.arg.names, f ∈ nof

theorem Spare.One.step {scan : Str → Option D} {ref : Nat} {nof : List Str} (hx : Spare.One ref nof st st') {full : Prop} (hi' : GInv full st') {op : Op}
    (hc : Configures ref op) : Spare.One ref nof st (step scan st' op).1 := by
  obtain ⟨s, hs, a1, a2, a3⟩ := hx.there
  obtain ⟨a', freed, e, e1, e2, e3, e4, e5, e6⟩ := configures_step (scan := scan) hi' hs a1 a2 hc
  obtain ⟨hm, ho⟩ := State.atObj_some hs
  rw [e]
  have self : ∀ t ∈ st'.arguments, t.obj = ref → t = s := fun t ht et => inj_of_nodup Slot.obj hi'.objs ht hm (et.trans ho.symm)
  have hobj : ∀ t : Slot D, (if t.obj = ref then { t with arg := a' } else t).obj = t.obj := fun t => by split <;> rfl
  have hnode : ∀ t : Slot D, (if t.obj = ref then { t with arg := a' } else t).node = t.node := fun t => by split <;> rfl
  have hsp := hx.spare
  refine ⟨⟨?_, ?_, ?_, ?_, hsp.settings⟩, ⟨{ s with arg := a' }, ?_, e5, e6, fun f hf => a3 f (e1 ▸ hf)⟩⟩
  · show st.arguments = (st'.arguments.map _).filter _
    rw [List.filter_map, hsp.same]
    have : (fun t : Slot D => !(t.obj == ref)) ∘ (fun t => if t.obj = ref then { t with arg := a' } else t) = fun t : Slot D => !(t.obj == ref) := by
      funext t; simp only [Function.comp]; rw [hobj]
    rw [this]
    conv => lhs; rw [← List.map_id (List.filter _ _)]
    refine List.map_congr_left fun t ht => ?_
    have := (List.mem_filter.1 ht).2
    rw [if_neg (by simpa using this)]
    rfl
  · intro u hu hn
    obtain ⟨t, ht, rfl⟩ := List.mem_map.1 hu
    rw [hobj] at hn ⊢
    have hn' : t.obj = ref := by simpa using hn
    rw [if_pos hn']
    obtain rfl := self t ht hn'
    obtain ⟨p1, p2, p3, p4⟩ := hsp.plain t ht hn
    exact ⟨e3.trans p1, e4.trans p2, p3, p4⟩
  · show ((st'.arguments.map _).filter _).Pairwise _
    rw [List.filter_map, List.pairwise_map]
    have : st'.arguments.filter ((fun t : Slot D => t.arg.isPositional) ∘ (fun t => if t.obj = ref then { t with arg := a' } else t)) =
        st'.arguments.filter fun t => t.arg.isPositional := by
      refine List.filter_congr fun t ht => ?_
      simp only [Function.comp]
      split
      · next en => rw [self t ht en]; exact e2
      · rfl
    rw [this]
    exact hsp.behind.imp fun {x y} h => by rw [hobj, hobj]; exact h
  · intro name
    rcases hsp.names name with ⟨t, ht, hn, hname⟩ | hg
    · left
      refine ⟨_, List.mem_map_of_mem ht, by rw [hobj]; exact hn, ?_⟩
      have hn' : t.obj = ref := by simpa using hn
      rw [if_pos hn']
      show name ∈ a'.names
      rw [e1, ← self t ht hn']
      exact hname
    · by_cases hnn : name ∈ s.arg.names
      · left
        refine ⟨_, List.mem_map_of_mem hm, by rw [hobj]; simpa using ho, ?_⟩
        rw [if_pos ho]
        show name ∈ a'.names
        rw [e1]; exact hnn
      · right
        rw [← hg]
        unfold State.getArgument
        simp only
        cases hl : lookupName st'.byName name with
        | none => rfl
        | some n =>
          simp only
          unfold State.atNode
          simp only
          rw [List.find?_map]
          have hfn : (fun t : Slot D => t.node == n) ∘ (fun t => if t.obj = ref then { t with arg := a' } else t) = fun t : Slot D => t.node == n := by
            funext t; simp only [Function.comp]; rw [hnode]
          rw [hfn]
          cases hf : st'.arguments.find? (fun t => t.node == n) with
          | none => rfl
          | some t =>
            have ht := List.mem_of_find?_eq_some hf
            have htn : t.node = n := by simpa using List.find?_some hf
            simp only [Option.map_some]
            rw [if_neg]
            intro et
            obtain rfl := self t ht et
            refine hnn ?_
            obtain ⟨u, hu, hun, hname⟩ := hi'.entries _ (lookupName_mem hl)
            obtain rfl := eq_of_node hi' hu ht (htn.trans hun.symm)
            exact hname
  · show (st'.arguments.map _).find? _ = _
    rw [List.find?_map]
    have hfn : (fun t : Slot D => t.obj == ref) ∘ (fun t => if t.obj = ref then { t with arg := a' } else t) = fun t : Slot D => t.obj == ref := by
      funext t; simp only [Function.comp]; rw [hobj]
    rw [hfn, show st'.arguments.find? (fun t => t.obj == ref) = some s from hs]
    simp [ho]

theorem add_spare {scan : Str → Option D} {st st' : State D} (h : Reachable scan st) {nof : List Str} {ref : Nat}
    (hr : st.addArgument nof = (st', .ok ref)) : Spare.One ref nof st st' := by
  obtain ⟨s, names, e1, e2, e3, e4, _, e6, e7, e8, e9, e10, e11⟩ := C06_add_effect h hr
  have eref : ref = st.nextObj := by
    have ha := addArgument_outcome h.inv nof
    rw [hr] at ha
    cases ha <;> rfl
  have self : ∀ t ∈ st'.arguments, t.obj = ref → t = s := by
    intro t ht e
    rcases List.mem_cons.1 (e7.mem_iff.1 ht) with rfl | ht
    · rfl
    · exact absurd e (e2 t ht)
  have hs : s ∈ st'.arguments := e7.mem_iff.2 (by simp)
  have h' : Reachable scan st' := by
    have hst : st' = (BletArgs.step scan st (.add nof)).1 := by
      show st' = (st.addArgument nof).1
      rw [hr]
    rw [hst]
    refine h.step _ ?_
    show (st.addArgument nof).2.void.goesOn = true
    rw [hr]; rfl
  refine ⟨⟨?_, ?_, ?_, ?_, ?_⟩, s, ?_, ?_, ?_, ?_⟩
  · rw [← e8]; rfl
  · intro t ht e
    obtain rfl := self t ht (by simpa using e)
    rw [e4]
    have old := h.ptrsOld
    have h1 : st'.helpOption = st.helpOption := by rw [e11]
    have h2 : st'.versionOption = st.versionOption := by rw [e11]
    refine ⟨rfl, rfl, ?_, ?_⟩
    · intro e; have := old t.obj (.inl (h1 ▸ e)); omega
    · intro e; have := old t.obj (.inr (h2 ▸ e)); omega
  · cases ho : asksPositional nof with
    | true =>
      obtain ⟨s0, es0, hx⟩ := Surplus.added h hr ho
      obtain rfl : s0 = s := self s0 (hx.perm.mem_iff.2 (by simp)) es0
      have hp := hx.places
      unfold State.places at hp
      obtain ⟨a, b, ab, ha, hb⟩ := List.map_eq_append_iff.1 hp
      obtain ⟨x, rfl, hxe⟩ : ∃ x, b = [x] ∧ x.place = s0.place := by
        cases b with
        | nil => cases hb
        | cons x b =>
          simp only [List.map_cons, List.cons.injEq, List.map_eq_nil_iff] at hb
          exact ⟨x, by rw [hb.2], hb.1⟩
      have hxm : x ∈ st'.arguments := (List.mem_filter.1 (by rw [ab]; simp : x ∈ st'.arguments.filter fun s => s.arg.isPositional)).1
      obtain rfl : x = s0 := eq_of_node h'.inv hs hxm (congrArg (fun p : Place => p.id) hxe)
      rw [ab, List.pairwise_append]
      have hold : ∀ t ∈ a, t.obj ≠ ref := by
        intro t ht et
        have htm : t ∈ st'.arguments := (List.mem_filter.1 (by rw [ab]; simp [ht] : t ∈ st'.arguments.filter fun s => s.arg.isPositional)).1
        obtain rfl := self t htm et
        have : t.place ∈ (st.arguments.filter fun s => s.arg.isPositional).map Slot.place := ha ▸ List.mem_map_of_mem ht
        obtain ⟨u, hu, eu⟩ := List.mem_map.1 this
        have hu := (List.mem_filter.1 hu).1
        have : u = t := eq_of_node h'.inv hs (hx.perm.mem_iff.2 (by simp [hu])) (congrArg (fun p : Place => p.id) eu)
        subst this
        exact e2 _ hu et
      refine ⟨?_, List.pairwise_singleton _ _, ?_⟩
      · exact List.Pairwise.imp_of_mem (fun {x y} hx _ _ hn => absurd (by simpa using hn) (hold x hx)) (List.pairwise_of_forall fun _ _ => trivial)
      · intro t ht y _ hn
        exact absurd (by simpa using hn) (hold t ht)
    | false =>
      refine List.Pairwise.imp_of_mem (fun {x y} hx _ _ hn => ?_) (List.pairwise_of_forall fun _ _ => trivial)
      rw [List.mem_filter] at hx
      obtain rfl := self x hx.1 (by simpa using hn)
      rw [e4, ho] at hx
      cases hx.2
  · intro f
    by_cases hf : f ∈ nof
    · exact .inl ⟨s, hs, by simpa using e1, by rw [e4]; exact (e6 f).2 hf⟩
    · right
      rw [e10 f, if_neg hf]
      rcases C13_lookup h f with ⟨h1, _⟩ | ⟨h1, h2⟩
      · rw [if_pos h1]
      · rw [h1, h2]; rfl
  · rw [e11]; exact ⟨rfl, rfl, rfl, rfl, rfl, rfl, rfl, rfl, rfl, rfl⟩
  · rw [← e1]; exact State.atObj_of_mem h'.inv.objs hs
  · rw [e4]; intro e; cases e
  · rw [e4]; intro e; cases e
  · rw [e4]; exact fun f hf => (e6 f).1 hf

theorem Spec.Configured.one {scan : Str → Option D} {ref : Nat} {nof : List Str} {st0 : State D} (hc : Configured scan ref st st') (h : Reachable scan st)
    (hx : Spare.One ref nof st0 st) : Reachable scan st' ∧ Spare.One ref nof st0 st' := by
  induction hc with
  | refl => exact ⟨h, hx⟩
  | step op _ hop hg ih =>
    obtain ⟨h1, h2⟩ := ih
    exact ⟨h1.step op hg, h2.step h1.inv hop⟩

theorem Spec.Configured.survives {scan : Str → Option D} {ref : Nat} (hc : Configured scan ref st st')
    (h : ∃ n, Survives scan Any n st) : ∃ n, Survives scan Any n st' := by
  induction hc with
  | refl => exact h
  | step op _ _ hg ih => exact survives_step ih op hg

/-- C103, adding an argument. After `addArgument` of one more argument, option or positional, and any calls that configure
it, the command lines without surplus words that do not mention its flags before `--` do what they did before it was
added. -/
theorem C103_added {scan : Str → Option D} {st st1 st' : State D} {nof : List Str} {ref : Nat} {argv : List Str}
    (h : Ready scan st argv) (hreach : Reachable scan st) (hr : st.addArgument nof = (st1, .ok ref))
    (hc : Configured scan ref st1 st')
    (hset : ∀ s, st'.atObj ref = some s → Settled s.arg ∧ argv.length + s.arg.nargs < two64)
    (hsil : Silences (· ∈ nof) (argv.drop 1)) (hno : NoSurplus st (argv.drop 1)) :
    SameButUsage (st.parseArguments scan argv).2 (st'.parseArguments scan argv).2 ∧
    ((st.parseArguments scan argv).2 = .ok () →
      (∀ s ∈ st.arguments, (st'.parseArguments scan argv).1.atObj s.obj = (st.parseArguments scan argv).1.atObj s.obj) ∧
      (∃ s', (st'.parseArguments scan argv).1.atObj ref = some s' ∧ s'.arg.isExist = false ∧ s'.arg.count = 0) ∧
      (st'.parseArguments scan argv).1.additional = (st.parseArguments scan argv).1.additional ∧
      (st'.parseArguments scan argv).1.destLog = (st.parseArguments scan argv).1.destLog) := by
  have hst : st1 = (BletArgs.step scan st (.add nof)).1 := by
    show st1 = (st.addArgument nof).1
    rw [hr]
  have hg : (BletArgs.step scan st (.add nof)).2.goesOn = true := by
    show (st.addArgument nof).2.void.goesOn = true
    rw [hr]; rfl
  have hreach1 : Reachable scan st1 := hst ▸ hreach.step _ hg
  obtain ⟨hreach', hx⟩ := hc.one hreach1 (add_spare hreach hr)
  obtain ⟨s, hs, _, _, hnames⟩ := hx.there
  obtain ⟨hm, ho⟩ := State.atObj_some hs
  have hi' := hreach'.inv
  have split : ∀ t ∈ st'.arguments, t = s ∨ t ∈ st.arguments := by
    intro t ht
    by_cases e : t.obj = ref
    · exact .inl (inj_of_nodup Slot.obj hi'.objs ht hm (e.trans ho.symm))
    · exact .inr (hx.spare.mem.2 ⟨ht, by simpa using e⟩)
  have h' : Ready scan st' argv := by
    refine ⟨hc.survives (hst ▸ survives_step h.history _ hg), fun t ht => ?_, fun t ht => ?_, ?_, h.program⟩
    · rcases split t ht with rfl | ht
      · exact (hset t hs).1
      · exact h.settled t ht
    · rcases split t ht with rfl | ht
      · exact (hset t hs).2
      · exact h.small t ht
    · rw [hx.spare.settings.2.1]; exact h.help
  obtain ⟨h1, h2⟩ := C103_unreached h h' hx.spare (fun X hX t ht f hf hn => by
    obtain ⟨u, hu, eu, hname⟩ := hn
    obtain rfl := inj_of_nodup Slot.obj hi'.objs hu hm ((by simpa using eu : u.obj = ref).trans ho.symm)
    exact hsil X hX t ht f hf (hnames f hname)) hno
  refine ⟨h1, fun hok => ?_⟩
  obtain ⟨a, b, c, d⟩ := h2 hok
  exact ⟨a, ho ▸ b s hm (by simpa using ho), c, d⟩

/-! ### A case -/

section
def shortLine : List Str := ["prog", "file", "-v"].map String.toList

theorem shortLine_ready : Ready demoScan inParser shortLine :=
  .of_history inParser_history (by decide +kernel) (by decide +kernel) ⟨"prog".toList, rfl, by decide +kernel⟩

/-- The calls on the new argument: `nargs('+').defaults({"a", "b"}).metavar("REST")`. -/
def restOps : List Op := [.nargs 3 43, .defaults 3 ["a".toList, "b".toList], .metavar 3 "REST".toList]

def inAdded : State Unit := (inParser.addArgument ["rest".toList]).1

theorem inAdded_configured : Configured demoScan 3 inAdded (runOps demoScan inAdded restOps) :=
  .step _ (.step _ (.step _ (.refl _) (by exact rfl) (by decide +kernel)) (by exact rfl) (by decide +kernel)) (by exact rfl)
    (by decide +kernel)

theorem runOps_cons (st : State Unit) (op : Op) (ops : List Op) :
    runOps demoScan st (op :: ops) = runOps demoScan (step demoScan st op).1 ops := rfl

def restParser : State Unit := runOps demoScan inParser (.add ["rest".toList] :: restOps)

theorem restParser_ready : Ready demoScan restParser shortLine :=
  .of_history (reachableBy_runOps inParser_history _ (by decide +kernel)) (by decide +kernel) (by decide +kernel)
    ⟨"prog".toList, rfl, by decide +kernel⟩

theorem inAdded_ready : Ready demoScan (runOps demoScan inAdded restOps) shortLine := by
  have h := restParser_ready
  unfold restParser at h
  rw [runOps_cons] at h
  exact h

theorem inParser_noSurplus : NoSurplus inParser (shortLine.drop 1) :=
  C103_no_surplus shortLine_ready (by decide +kernel) (by decide +kernel)

/-- A list of positional arguments with defaults is added; the command line does not reach it. -/
example : (inParser.parseArguments demoScan shortLine).2 = .ok () ∧
    ((runOps demoScan inAdded restOps).parseArguments demoScan shortLine).2 = .ok () ∧
    ∃ s', ((runOps demoScan inAdded restOps).parseArguments demoScan shortLine).1.atObj 3 = some s' ∧ s'.arg.isExist = false := by
  have hr : inParser.addArgument ["rest".toList] = (inAdded, .ok 3) := pair_of (by decide +kernel)
  have hok : (inParser.parseArguments demoScan shortLine).2 = .ok () := by decide +kernel
  have h := C103_added shortLine_ready inParser_history.reachable hr inAdded_configured
    (fun s hs => by
      have e : (runOps demoScan inAdded restOps).atObj 3 = some s := hs
      exact ⟨inAdded_ready.settled s (State.atObj_some e).1, inAdded_ready.small s (State.atObj_some e).1⟩)
    (.of_char 'r' (by decide) (by decide +kernel) (by decide +kernel)) inParser_noSurplus
  refine ⟨hok, ?_, ?_⟩
  · rcases h.1 with e | ⟨u, u', e, _⟩ | ⟨u, u', e, _⟩
    · rw [e]; exact hok
    · rw [hok] at e; cases e
    · rw [hok] at e; cases e
  · obtain ⟨_, ⟨s', a, b, _⟩, _⟩ := h.2 hok
    exact ⟨s', a, b⟩

/-- The hypothesis on surplus words is needed: `fast` is an additional argument until `rest` takes it. -/
example : (inParser.parseArguments demoScan inLine).1.additional = ["fast", "x", "y"].map String.toList ∧
    ((runOps demoScan inAdded restOps).parseArguments demoScan inLine).1.additional = [] := by decide +kernel
end

end BletArgs
