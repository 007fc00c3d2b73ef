import Verif.Lemmas.InvRemove
import Verif.Spec.Config
import Verif.Spec.Api
/-
What parsing leaves unchanged.
-/
namespace BletArgs
variable {D : Type}

theorem Argument.parseArgument_config (stop : Str → Bool) (argv : List Str) (max index : Nat) (hasArg : Bool)
    (option arg : Str) (a : Argument D) :
    (a.parseArgument stop argv max index hasArg option arg).1.config = a.config := by
  unfold Argument.parseArgument
  cases hasArg <;> simp only [if_true, Bool.false_eq_true, if_false] <;> cases ht : a.type <;> simp only <;>
    (repeat' split) <;>
    simp [Argument.config, Argument.mark, Argument.push, Argument.clearIfFirst, ht] <;> (try split) <;> simp [ht]

theorem Argument.parsePositional_config (stop : Str → Bool) (argv : List Str) (argc index : Nat)
    (a : Argument D) : (a.parsePositional stop argv argc index).1.config = a.config := by
  unfold Argument.parsePositional
  cases ht : a.type <;> simp only <;> (repeat' split) <;> simp [Argument.config, Argument.push, ht]

theorem config_nodes {st st' : State D} (h : st'.config = st.config) :
    st'.arguments.map (·.node) = st.arguments.map (·.node) := by
  have := congrArg (fun s => s.arguments.map (·.node)) h
  simpa [State.config, Slot.config, List.map_map, Function.comp_def] using this

theorem modNode_config {st : State D} {node : Nat} {f : Argument D → Argument D}
    (h : ∀ s ∈ st.arguments, s.node = node → (f s.arg).config = s.arg.config) :
    (st.modNode node f).config = st.config := by
  unfold State.config State.modNode
  simp only
  congr 1
  rw [List.map_map]
  refine List.map_congr_left fun t ht => ?_
  simp only [Function.comp]
  by_cases e : t.node = node
  · simp only [e, beq_self_eq_true, if_true, Slot.config, h t ht e]
  · simp [e]

theorem parseAt_config {st : State D} (hn : (st.arguments.map (·.node)).Nodup) (argv : List Str)
    (max index : Nat) (hasArg : Bool) (option arg : Str) (node : Nat) :
    (st.parseAt argv max index hasArg option arg node).1.config = st.config := by
  unfold State.parseAt
  cases h : st.atNode node with
  | none => rfl
  | some s =>
    obtain ⟨hs, e⟩ := State.atNode_some h
    refine modNode_config fun t ht e' => ?_
    obtain rfl := inj_of_nodup Slot.node hn ht hs (e'.trans e.symm)
    exact Argument.parseArgument_config ..

theorem mark_config (a : Argument D) : a.mark.config = a.config := rfl

theorem parseCluster_config (argv : List Str) (max index : Nat) (hasArg : Bool) (arg : Str)
    (cs : List Char) {st : State D} (hn : (st.arguments.map (·.node)).Nodup) :
    (State.parseCluster argv max index hasArg arg cs st).1.config = st.config := by
  induction cs generalizing st with
  | nil =>
    unfold State.parseCluster
    split
    · rfl
    · exact parseAt_config hn ..
  | cons c cs ih =>
    cases cs with
    | nil =>
      unfold State.parseCluster
      split
      · rfl
      · exact parseAt_config hn ..
    | cons c2 rest =>
      unfold State.parseCluster
      split
      · rfl
      · next n _ =>
        split
        · rfl
        · have hm : (st.modNode n Argument.mark).config = st.config :=
            modNode_config fun s _ _ => mark_config s.arg
          have hn' : ((st.modNode n Argument.mark).arguments.map (·.node)).Nodup := by
            rw [config_nodes hm]; exact hn
          split
          · rw [parseAt_config hn', hm]
          · split
            · rfl
            · rw [ih hn', hm]

theorem parseShort_config {st : State D} (hn : (st.arguments.map (·.node)).Nodup) (argv : List Str)
    (max index : Nat) (tok : Str) : (st.parseShort argv max index tok).1.config = st.config := by
  unfold State.parseShort
  split
  next options arg hasArg _ =>
  split
  · exact parseAt_config hn ..
  · exact parseCluster_config _ _ _ _ _ _ hn

theorem parseLong_config {st : State D} (hn : (st.arguments.map (·.node)).Nodup) (argv : List Str)
    (max index : Nat) (tok : Str) : (st.parseLong argv max index tok).1.config = st.config := by
  unfold State.parseLong
  split
  next options arg hasArg _ =>
  split
  · rfl
  · exact parseAt_config hn ..

theorem parsePositionalTok_config {st : State D} (hn : (st.arguments.map (·.node)).Nodup) (argv : List Str)
    (argc index : Nat) (hasEnd : Bool) :
    (st.parsePositionalTok argv argc index hasEnd).1.config = st.config := by
  unfold State.parsePositionalTok
  cases h : st.nextPositional with
  | some s =>
    simp only
    refine modNode_config fun t ht e' => ?_
    have hs := List.mem_of_find?_eq_some h
    obtain rfl := inj_of_nodup Slot.node hn ht hs e'
    exact Argument.parsePositional_config ..
  | none =>
    simp only
    split
    · rfl
    · split <;> rfl

theorem endLoop_config (argv : List Str) (f i : Nat) {st : State D}
    (hn : (st.arguments.map (·.node)).Nodup) : (State.endLoop argv f i st).1.config = st.config := by
  induction f generalizing i st with
  | zero => rfl
  | succ f ih =>
    unfold State.endLoop
    split
    · have hc := parsePositionalTok_config hn argv argv.length i true
      generalize st.parsePositionalTok argv argv.length i true = r at hc ⊢
      obtain ⟨st1, r⟩ := r
      cases r with
      | ok i1 =>
        simp only at hc ⊢
        rw [ih i1 (by rw [config_nodes hc]; exact hn), hc]
      | _ => exact hc
    · rfl

theorem mainLoop_config (argv : List Str) (e f i : Nat) {st : State D}
    (hn : (st.arguments.map (·.node)).Nodup) : (State.mainLoop argv e f i st).1.config = st.config := by
  induction f generalizing i st with
  | zero => rfl
  | succ f ih =>
    have key : ∀ r : State D × Res Nat, r.1.config = st.config →
        (match r with
          | (st1, .ok i1) => State.mainLoop argv e f i1 st1
          | (st1, r) => (st1, r.cast)).1.config = st.config := by
      intro r hc
      obtain ⟨st1, r⟩ := r
      cases r with
      | ok i1 =>
        simp only at hc ⊢
        rw [ih i1 (by rw [config_nodes hc]; exact hn), hc]
      | _ => exact hc
    unfold State.mainLoop
    split
    · split
      · rfl
      · split
        · exact key _ (parseShort_config hn ..)
        · split
          · exact key _ (parseLong_config hn ..)
          · split
            · exact endLoop_config _ _ _ hn
            · exact key _ (parsePositionalTok_config hn ..)
    · rfl

theorem resetAll_config (st : State D) : st.resetAll.config = st.config := by
  unfold State.resetAll State.config
  simp only
  congr 1
  rw [List.map_map]
  rfl

theorem Argument.runValid_config (a : Argument D) : a.runValid.1.config = a.config := by
  unfold Argument.runValid
  repeat' split
  all_goals first | rfl | skip

theorem Argument.toNumber_config (scan : Str → Option D) (a : Argument D) :
    (a.toNumber scan).config = a.config := by
  unfold Argument.toNumber
  repeat' split
  all_goals rfl

theorem Argument.finish_config (scan : Str → Option D) (a : Argument D) :
    (a.finish scan).1.config = a.config := by
  unfold Argument.finish
  have h := a.runValid_config
  generalize a.runValid = r at h ⊢
  obtain ⟨a1, r⟩ := r
  cases r <;> simp only at h ⊢ <;> try exact h
  rw [Argument.toNumber_config]; exact h

theorem finishAll_config (scan : Str → Option D) (l : List (Slot D)) :
    (finishAll scan l).1.map Slot.config = l.map Slot.config := by
  induction l with
  | nil => rfl
  | cons s ss ih =>
    unfold finishAll
    have h := s.arg.finish_config scan
    generalize s.arg.finish scan = r at h ⊢
    obtain ⟨a1, w, r⟩ := r
    cases r <;> simp only at h ⊢ <;> simp [Slot.config, h] <;> exact ih

theorem finishParse_config (scan : Str → Option D) (st : State D) :
    (st.finishParse scan).1.config = st.config := by
  unfold State.finishParse
  split
  · rfl
  · simp only [State.config, finishAll_config]

theorem afterLoop_config (scan : Str → Option D) (st : State D) :
    (∃ o, (st.afterLoop scan).2 = .exit o) ∨ (st.afterLoop scan).1.config = st.config := by
  unfold State.afterLoop
  split
  · exact .inr rfl
  · split
    · exact .inr rfl
    · exact .inl ⟨_, rfl⟩
  · split
    · exact .inr rfl
    · split
      · exact .inr rfl
      · exact .inl ⟨_, rfl⟩
    · exact .inr (finishParse_config scan st)

theorem setBinaryIfEmpty_config (st : State D) (argv : List Str) :
    ∃ b, (st.setBinaryIfEmpty argv).1 = { st with binaryName := b } := by
  unfold State.setBinaryIfEmpty
  split
  · split
    · exact ⟨st.binaryName, rfl⟩
    · exact ⟨_, rfl⟩
  · exact ⟨st.binaryName, rfl⟩

variable {full : Prop}

/-- The registry invariant only depends on the configuration. -/
theorem inv_of_config {st st' : State D} (h : st'.config = st.config) (hi : GInv full st) : GInv full st' := by
  have e1 : st'.byName = st.byName := (congrArg (fun x : State D => x.byName) h :)
  have e2 : st'.nextNode = st.nextNode := (congrArg (fun x : State D => x.nextNode) h :)
  have e3 : st'.nextObj = st.nextObj := (congrArg (fun x : State D => x.nextObj) h :)
  have e4 : st'.freedObjs = st.freedObjs := (congrArg (fun x : State D => x.freedObjs) h :)
  have e5 : st'.arguments.map Slot.sig = st.arguments.map Slot.sig := by
    have e : st'.arguments.map Slot.config = st.arguments.map Slot.config := congrArg State.arguments h
    have := congrArg (List.map Slot.sig) e
    rw [List.map_map, List.map_map] at this
    exact this
  unfold GInv
  rw [e1, e2, e3, e4]
  exact RegInv.congr e5 hi

theorem autoHelp_inv {st : State D} (hi : GInv full st) : GInv full st.autoHelp.1 := by
  unfold State.autoHelp
  split
  · split
    · exact hi
    · simp only
      generalize hfl : (if st.argumentExists "-h".toList = true then [] else ["-h".toList]) ++
        (if st.argumentExists "--help".toList = true then [] else ["--help".toList]) = flags
      have h1 := addArgument_inv hi flags
      generalize st.addArgument flags = r1 at h1 ⊢
      obtain ⟨st1, r1⟩ := r1
      cases r1 <;> simp only at h1 ⊢ <;> try exact h1
      next ref =>
      have h2 := action_inv h1 ref .help
      generalize st1.action ref .help = r2 at h2 ⊢
      obtain ⟨st2, r2⟩ := r2
      cases r2 <;> simp only at h2 ⊢ <;> try exact h2
      have h3 := setHelp_inv h2 ref "show this help message and exit".toList
      generalize st2.setHelp ref "show this help message and exit".toList = r3 at h3 ⊢
      obtain ⟨st3, r3⟩ := r3
      cases r3 <;> simp only at h3 ⊢ <;> exact h3
  · exact hi

/-- `parseArguments` after the automatic help option: only the binary name and parse outcomes change. -/
theorem parseTail_config {scan : Str → Option D} {st : State D}
    (hn : (st.arguments.map (·.node)).Nodup) {argv : List Str} :
    let r := (match st.setBinaryIfEmpty argv with
      | (st2, .ok ()) =>
        match State.mainLoop argv (endOptionIndex argv) (st2.loopBudget argv) 1 st2 with
        | (st3, .ok ()) => st3.afterLoop scan
        | (st3, r) => (st3, r)
      | (st2, r) => (st2, r))
    (∃ o, r.2 = .exit o) ∨ ∃ b, r.1.config = { st.config with binaryName := b } := by
  obtain ⟨b, hb⟩ := setBinaryIfEmpty_config st argv
  generalize st.setBinaryIfEmpty argv = r at hb ⊢
  obtain ⟨st2, r⟩ := r
  simp only at hb
  subst hb
  cases r with
  | ok u =>
    simp only
    have hl := mainLoop_config argv (endOptionIndex argv)
      (State.loopBudget { st with binaryName := b } argv) 1 (st := { st with binaryName := b }) hn
    generalize State.mainLoop argv (endOptionIndex argv)
      (State.loopBudget { st with binaryName := b } argv) 1 { st with binaryName := b } = r2 at hl ⊢
    obtain ⟨st3, r2⟩ := r2
    cases r2 with
    | ok u =>
      simp only at hl ⊢
      rcases afterLoop_config scan st3 with h | h
      · exact .inl h
      · exact .inr ⟨b, h.trans hl⟩
    | _ => exact .inr ⟨b, hl⟩
  | _ => exact .inr ⟨b, rfl⟩

theorem parseArguments_config {scan : Str → Option D} {st : State D} (hi : GInv full st) (argv : List Str) :
    (∃ o, (st.parseArguments scan argv).2 = .exit o) ∨
    ∃ b, (st.parseArguments scan argv).1.config = { st.resetAll.autoHelp.1.config with binaryName := b } := by
  have hr : GInv full st.resetAll := inv_of_config (resetAll_config st) hi
  have ha := autoHelp_inv hr
  unfold State.parseArguments
  generalize st.resetAll.autoHelp = r at ha ⊢
  obtain ⟨st1, r⟩ := r
  cases r with
  | ok b =>
    cases b with
    | false => exact .inr ⟨_, rfl⟩
    | true => exact parseTail_config ha.nodes
  | _ => exact .inr ⟨_, rfl⟩

theorem parseArguments_inv {scan : Str → Option D} {st : State D} (hi : GInv full st) (argv : List Str)
    (hg : (st.parseArguments scan argv).2.goesOn = true) : GInv full (st.parseArguments scan argv).1 := by
  have hr : GInv full st.resetAll := inv_of_config (resetAll_config st) hi
  have ha := autoHelp_inv hr
  rcases parseArguments_config (scan := scan) hi argv with ⟨o, h⟩ | ⟨b, h⟩
  · rw [h] at hg; cases hg
  · have hb : GInv full { st.resetAll.autoHelp.1 with binaryName := b } := inv_of_eq ha rfl rfl rfl rfl rfl
    exact inv_of_config (st := { st.resetAll.autoHelp.1 with binaryName := b }) h hb

/-- Every call preserves the registry invariant. -/
theorem step_inv {scan : Str → Option D} {st : State D} (hi : GInv full st) (op : Op)
    (hg : (step scan st op).2.goesOn = true) : GInv full (step scan st op).1 := by
  cases op with
  | add names => exact addArgument_inv hi names
  | remove names => exact removeArguments_inv hi names hg
  | clear => exact clear_inv hi
  | flag ref f => exact flag_inv hi ref f
  | action ref a => exact action_inv hi ref a
  | nargs ref n => exact nargs_inv hi ref n
  | defaults ref ds => exact setDefaults_inv hi ref ds
  | required ref b => exact required_inv hi ref b
  | help ref h => exact setHelp_inv hi ref h
  | metavar ref m => exact setMetavar_inv hi ref m
  | behave ref c r => exact behave_inv hi ref c r
  | edit ref items => exact edit_inv hi scan ref items
  | valid ref v d => exact setValid_inv hi ref v d
  | dest ref d => exact setDest_inv hi ref d
  | parse argv => exact parseArguments_inv hi argv hg
  | _ => exact inv_of_eq hi rfl rfl rfl rfl rfl

theorem Reachable.inv {scan : Str → Option D} {st : State D} (h : Reachable scan st) : Inv st := by
  induction h with
  | init => exact inv_init
  | step op _ hg ih => exact step_inv ih op hg

end BletArgs
