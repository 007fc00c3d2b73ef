import Verif.Spec.Settings
import Verif.Props.ParseConfig
import Verif.Props.Kinds
/-
C61, C62: what the setters change, and what nothing else changes.
-/
namespace BletArgs
open Spec
variable {D : Type}

theorem settings_sort (st : State D) : settings st.sortArguments.1 = settings st := by
  unfold State.sortArguments; split <;> rfl

theorem settings_modNode (st : State D) (n : Nat) (f : Argument D → Argument D) :
    settings (st.modNode n f) = settings st := rfl

theorem settings_withRef {α : Type} (st : State D) (ref : Nat) (f : Slot D → State D × Res α)
    (h : ∀ s, settings (f s).1 = settings st) : settings (st.withRef ref f).1 = settings st := by
  unfold State.withRef
  split
  · rfl
  · exact h _

theorem settings_link (st : State D) (a : Argument D) : settings (st.linkArgument a).1 = settings st := by
  unfold State.linkArgument
  simp only
  generalize hx : State.sortArguments _ = r
  have := congrArg (fun r : State D × Res Unit => settings r.1) hx
  rw [settings_sort] at this
  obtain ⟨s, r⟩ := r
  cases r <;> exact this.symm

theorem settings_add (st : State D) (names : List Str) : settings (st.addArgument names).1 = settings st := by
  unfold State.addArgument
  split
  · rfl
  · split
    · split
      · rfl
      · split
        · rfl
        · exact settings_link ..
    · split
      · rfl
      · exact settings_link ..

theorem settings_removeLoop (names : List Str) (st : State D) : settings (State.removeLoop names st).1 = settings st := by
  induction names generalizing st with
  | nil => rfl
  | cons n ns ih =>
    unfold State.removeLoop
    split
    · rfl
    · split
      · rfl
      · split
        · simp only
          split
          · rw [ih]; rfl
          · rw [ih]
            simp only [settings]
            split
            · rfl
            · split <;> rfl
        · rfl

theorem settings_remove (names : List Str) (st : State D) : settings (st.removeArguments names).1 = settings st := by
  unfold State.removeArguments
  split
  · rfl
  · split
    · rfl
    · have := settings_removeLoop names st
      generalize State.removeLoop names st = r at this
      obtain ⟨s, r⟩ := r
      cases r with
      | ok u => simp only; rw [settings_sort]; exact this
      | _ => exact this

theorem settings_retype (st : State D) (s : Slot D) (a : Argument D) : settings (st.retype s a).1 = settings st := by
  rw [retype_eq]; rfl

theorem settings_config {st st' : State D} (h : st'.config = st.config) : settings st' = settings st :=
  (congrArg settings h :)

theorem settings_afterLoop (scan : Str → Option D) (st : State D) (hg : (st.afterLoop scan).2.goesOn = true) :
    settings (st.afterLoop scan).1 = settings st := by
  rcases afterLoop_config scan st with ⟨o, h⟩ | h
  · rw [h] at hg; cases hg
  · exact settings_config h

theorem settings_parse (scan : Str → Option D) {st : State D} {full : Prop} (hi : GInv full st) (argv : List Str)
    (hg : (st.parseArguments scan argv).2.goesOn = true) :
    settings (st.parseArguments scan argv).1 =
      Op.sets (decide (st.helpOption = none ∧ st.argumentExists "-h".toList = true ∧ st.argumentExists "--help".toList = true))
        (.parse argv) (settings st) := by
  have hr : GInv full st.resetAll := inv_of_config (resetAll_config st) hi
  have tail : ∀ st1 : State D, (st1.arguments.map (·.node)).Nodup → settings st1 = settings st →
      ∀ r : State D × Res Unit, r = (match st1.setBinaryIfEmpty argv with
        | (st2, .ok ()) =>
          match State.mainLoop argv (endOptionIndex argv) (st2.loopBudget argv) 1 st2 with
          | (st3, .ok ()) => st3.afterLoop scan
          | (st3, r) => (st3, r)
        | (st2, r) => (st2, r)) → r.2.goesOn = true →
      settings r.1 = if (settings st).binaryName = [] then { settings st with binaryName := argv.headD [] } else settings st := by
    intro st1 hn hs r hr hgr
    have key : ∀ st2 : State D, (st2.arguments.map (·.node)).Nodup → ∀ r : State D × Res Unit,
        r = (match State.mainLoop argv (endOptionIndex argv) (st2.loopBudget argv) 1 st2 with
          | (st3, .ok ()) => st3.afterLoop scan
          | (st3, r) => (st3, r)) → r.2.goesOn = true → settings r.1 = settings st2 := by
      intro st2 hn r hr hg
      have hl := mainLoop_config argv (endOptionIndex argv) (st2.loopBudget argv) 1 hn
      generalize State.mainLoop argv (endOptionIndex argv) (st2.loopBudget argv) 1 st2 = x at hl hr
      obtain ⟨st3, x⟩ := x
      subst hr
      cases x with
      | ok u => exact (settings_afterLoop scan st3 hg).trans (settings_config hl)
      | _ => exact settings_config hl
    unfold State.setBinaryIfEmpty at hr
    have hb : (settings st).binaryName = st1.binaryName := by rw [← hs]; rfl
    by_cases e : st1.binaryName = []
    · rw [if_pos (by rw [e]; rfl)] at hr
      rw [if_pos (by rw [hb]; exact e)]
      cases argv with
      | nil => subst hr; cases hgr
      | cons b t =>
        simp only [List.getElem?_cons_zero] at hr
        rw [key { st1 with binaryName := b } hn r hr hgr, ← hs]
        rfl
    · rw [if_neg (by simpa using e)] at hr
      rw [if_neg (by rw [hb]; exact e), key _ hn r hr hgr, hs]
  have hrs : settings st.resetAll = settings st := settings_config (resetAll_config st)
  have he : ∀ n, st.resetAll.argumentExists n = st.argumentExists n := fun n => rfl
  have hh : st.resetAll.helpOption = st.helpOption := rfl
  unfold Op.sets
  simp only
  unfold State.parseArguments at hg ⊢
  rcases autoHelp_cases hr with ⟨h1, e⟩ | ⟨h1, h2, e⟩ | ⟨h1, h2, e⟩
  · rw [e] at hg ⊢
    refine (tail st.resetAll hr.nodes hrs _ rfl hg).trans ?_
    rw [hh] at h1
    simp [h1]
  · rw [e] at hg ⊢
    simp only
    rw [hh] at h1
    rw [he, he] at h2
    rw [if_neg (by simp_all)]
    exact hrs
  · rw [e] at hg ⊢
    refine (tail st.resetAll.withHelp (withHelp_inv hr h2 h1).nodes (hrs ▸ rfl) _ rfl hg).trans ?_
    rw [hh] at h1
    rw [he, he] at h2
    have : ¬(st.helpOption = none ∧ st.argumentExists "-h".toList = true ∧ st.argumentExists "--help".toList = true) := by
      intro h; rw [h.2.1, h.2.2] at h2; cases h2
    rw [decide_eq_false this]
    simp only [and_true]

/-- C62. The settings of the parser are changed by their own setters only, and by `clear()`, which restores those of a new
object; `parseArguments` sets the program name to the first word when there is none yet, and nothing else, whatever the
command line and however it ends. -/
theorem C62_settings {scan : Str → Option D} {st : State D} (hr : Reachable scan st) (op : Op)
    (hg : (step scan st op).2.goesOn = true) :
    settings (step scan st op).1 =
      Op.sets (decide (st.helpOption = none ∧ st.argumentExists "-h".toList = true ∧ st.argumentExists "--help".toList = true))
        op (settings st) := by
  cases op with
  | add names => exact settings_add st names
  | remove names => exact settings_remove names st
  | flag ref f =>
    refine settings_withRef _ _ _ fun s => ?_
    split
    · rfl
    · split
      · rfl
      · split
        · rfl
        · simp only; rw [settings_sort]; rfl
  | action ref a =>
    refine settings_withRef _ _ _ fun s => ?_
    simp only
    rw [settings_retype]
    split <;> split <;> rfl
  | nargs ref n => exact settings_withRef _ _ _ fun s => settings_retype ..
  | defaults ref ds => exact settings_withRef _ _ _ fun s => rfl
  | required ref b => exact settings_withRef _ _ _ fun s => by rw [settings_sort]; rfl
  | help ref h => exact settings_withRef _ _ _ fun s => rfl
  | metavar ref h => exact settings_withRef _ _ _ fun s => rfl
  | edit ref items => exact settings_withRef _ _ _ fun s => rfl
  | behave ref c x => exact settings_withRef _ _ _ fun s => rfl
  | valid ref v d => exact settings_withRef _ _ _ fun s => rfl
  | dest ref d => exact settings_withRef _ _ _ fun s => rfl
  | parse argv => exact settings_parse scan hr.inv argv hg
  | _ => rfl

theorem defaultsConstructor_alters (a : Argument D) :
    a.defaultsConstructor.1 = { a with dflt := a.defaultsConstructor.1.dflt, argument := a.defaultsConstructor.1.argument,
                                       elems := a.defaultsConstructor.1.elems } := by
  unfold Argument.defaultsConstructor
  split
  · simp only
    split <;> (try split) <;> rfl
  · rfl

theorem retyped_alters (self : Nat) (h v : Option Nat) (a : Argument D) :
    a.retyped self h v = { a with
      nargs := (a.retyped self h v).nargs, type := (a.retyped self h v).type, action := (a.retyped self h v).action
      dflt := (a.retyped self h v).dflt, argument := (a.retyped self h v).argument, elems := (a.retyped self h v).elems } := by
  unfold Argument.retyped
  obtain ⟨t, n, act, e, _⟩ := typeConstructor_shape self h v a
  generalize (a.typeConstructor self h v).1 = b at e
  split
  · have := defaultsConstructor_alters b
    generalize b.defaultsConstructor.1 = c at this
    subst e
    have h1 : c.nargs = n := (congrArg (fun x : Argument D => x.nargs) this :)
    have h2 : c.type = t := (congrArg (fun x : Argument D => x.type) this :)
    have h3 : c.action = act := (congrArg (fun x : Argument D => x.action) this :)
    rw [h1, h2, h3]
    exact this
  · subst e; rfl

theorem updNode_obj {st : State D} {full : Prop} (hi : GInv full st) {ref : Nat} {s : Slot D} (h : st.atObj ref = some s)
    (f : Argument D → Argument D) :
    updNode st.arguments s.node f = st.arguments.map fun t => if t.obj = ref then { t with arg := f s.arg } else t := by
  obtain ⟨hs, ho⟩ := State.atObj_some h
  unfold updNode
  refine List.map_congr_left fun t ht => ?_
  by_cases e : t.node = s.node
  · have := eq_of_node hi hs ht e
    subst this
    simp [ho]
  · have : t.obj ≠ ref := fun e' => e (by rw [eq_of_obj hi hs ht (e'.trans ho.symm)])
    simp [e, this]

/-- C61. A call made through a reference changes that argument only, and of it only what the call is about: `help()`,
`metavar()`, `valid()` and `required()` one attribute, `flag()` the list of flags, `defaults()`, `nargs()` and `action()`
the kind and the values, never the help text, metavar, validator, requiredness or destination. No argument appears or
disappears; no name leads elsewhere (`flag()` adds one); the listing order changes only by `flag()` and `required()`. -/
theorem C61_setters {scan : Str → Option D} {st : State D} (hr : Reachable scan st) (op : Op) {ref : Nat}
    (ht : Op.target op = some ref) {s : Slot D} (h : st.atObj ref = some s) :
    ∃ a', Op.alters op s.arg a' ∧
      (step scan st op).1.arguments.Perm (st.arguments.map fun t => if t.obj = ref then { t with arg := a' } else t) ∧
      ((∀ f, op ≠ .flag ref f) → (step scan st op).1.byName = st.byName ∧
        ((∀ b, op ≠ .required ref b) →
          (step scan st op).1.arguments = st.arguments.map fun t => if t.obj = ref then { t with arg := a' } else t)) := by
  have hi := hr.inv
  have same : st.arguments = st.arguments.map fun t => if t.obj = ref then { t with arg := s.arg } else t := by
    rw [← updNode_obj hi h (fun a => a)]
    unfold updNode
    conv => lhs; rw [← List.map_id st.arguments]
    refine List.map_congr_left fun t _ => ?_
    split <;> rfl
  cases op with
  | flag r f =>
    obtain rfl : r = ref := Option.some.inj ht
    show ∃ a', _ ∧ (st.flag r f).1.arguments.Perm _ ∧ _
    rcases flag_outcome hi h f with ⟨_, e⟩ | ⟨_, _, _, e⟩ | ⟨_, _, _, e⟩ | ⟨_, _, _, e, _⟩
    · rw [e]; exact ⟨s.arg, .inl rfl, by rw [← same], fun hf => absurd rfl (hf f)⟩
    · rw [e]; exact ⟨s.arg, .inl rfl, by rw [← same], fun hf => absurd rfl (hf f)⟩
    · rw [e]; exact ⟨s.arg, .inl rfl, by rw [← same], fun hf => absurd rfl (hf f)⟩
    · rw [e]
      refine ⟨{ s.arg with names := sortNames (s.arg.names ++ [f]) },
        .inr ⟨(stableSort_perm _).trans List.perm_append_comm, rfl⟩, ?_, fun hf => absurd rfl (hf f)⟩
      rw [← updNode_obj hi h (fun a => { a with names := sortNames (a.names ++ [f]) })]
      exact stableSort_perm _
  | required r b =>
    obtain rfl : r = ref := Option.some.inj ht
    show ∃ a', _ ∧ (st.required r b).1.arguments.Perm _ ∧ (_ → (st.required r b).1.byName = _ ∧ _)
    refine ⟨{ s.arg with isRequired := b }, rfl, ?_, fun _ => ⟨?_, fun hb => absurd rfl (hb b)⟩⟩
    · rw [(required_ok hi h b).1, ← updNode_obj hi h (fun a => { a with isRequired := b })]
      exact stableSort_perm _
    · rw [(required_ok hi h b).1]
  | action r act =>
    obtain rfl : r = ref := Option.some.inj ht
    show ∃ a', _ ∧ (st.action r act).1.arguments.Perm _ ∧ (_ → (st.action r act).1.byName = _ ∧
      (_ → (st.action r act).1.arguments = _))
    rw [action_eq h, retype_eq]
    refine ⟨_, ?_, ?_, fun _ => ⟨rfl, fun _ => updNode_obj hi h (fun _ => Argument.retyped s.obj _ _ _)⟩⟩
    · have := retyped_alters s.obj (st.helpBut s) (st.versionBut s) { s.arg with action := act }
      exact this
    · simp only; rw [updNode_obj hi h]
  | nargs r n =>
    obtain rfl : r = ref := Option.some.inj ht
    show ∃ a', _ ∧ (st.nargs r n).1.arguments.Perm _ ∧ (_ → (st.nargs r n).1.byName = _ ∧
      (_ → (st.nargs r n).1.arguments = _))
    have e : st.nargs r n = st.retype s { s.arg with nargs := n } := by
      unfold State.nargs State.withRef; rw [h]
    rw [e, retype_eq]
    refine ⟨_, ?_, ?_, fun _ => ⟨rfl, fun _ => updNode_obj hi h (fun _ => Argument.retyped s.obj _ _ _)⟩⟩
    · have := retyped_alters s.obj st.helpOption st.versionOption { s.arg with nargs := n }
      exact this
    · simp only; rw [updNode_obj hi h]
  | defaults r ds =>
    obtain rfl : r = ref := Option.some.inj ht
    show ∃ a', _ ∧ (st.setDefaults r ds).1.arguments.Perm _ ∧ (_ → (st.setDefaults r ds).1.byName = _ ∧
      (_ → (st.setDefaults r ds).1.arguments = _))
    rw [setDefaults_eq h]
    refine ⟨_, ?_, ?_, fun _ => ⟨rfl, fun _ => updNode_obj hi h (fun _ => _)⟩⟩
    · exact defaultsConstructor_alters { s.arg with defaults := ds }
    · simp only [State.modNode]
      exact (updNode_obj hi h (fun _ => _)) ▸ List.Perm.refl _
  | help r x =>
    obtain rfl : r = ref := Option.some.inj ht
    have e : st.setHelp r x = (st.modNode s.node fun a => { a with help := x }, .ok ()) := by
      unfold State.setHelp State.withRef; rw [h]
    show ∃ a', _ ∧ (st.setHelp r x).1.arguments.Perm _ ∧ (_ → (st.setHelp r x).1.byName = _ ∧
      (_ → (st.setHelp r x).1.arguments = _))
    rw [e]
    have u := updNode_obj hi h (fun a => { a with help := x })
    exact ⟨_, rfl, u ▸ List.Perm.refl _, fun _ => ⟨rfl, fun _ => u⟩⟩
  | metavar r x =>
    obtain rfl : r = ref := Option.some.inj ht
    have e : st.setMetavar r x = (st.modNode s.node fun a => { a with metavar := x }, .ok ()) := by
      unfold State.setMetavar State.withRef; rw [h]
    show ∃ a', _ ∧ (st.setMetavar r x).1.arguments.Perm _ ∧ (_ → (st.setMetavar r x).1.byName = _ ∧
      (_ → (st.setMetavar r x).1.arguments = _))
    rw [e]
    have u := updNode_obj hi h (fun a => { a with metavar := x })
    exact ⟨_, rfl, u ▸ List.Perm.refl _, fun _ => ⟨rfl, fun _ => u⟩⟩
  | edit r items =>
    obtain rfl : r = ref := Option.some.inj ht
    have e : st.edit scan r items = (st.modNode s.node fun a => { a with elems := items.map (NewElem.elem scan) }, .ok ()) := by
      unfold State.edit State.withRef; rw [h]
    show ∃ a', _ ∧ (st.edit scan r items).1.arguments.Perm _ ∧ (_ → (st.edit scan r items).1.byName = _ ∧
      (_ → (st.edit scan r items).1.arguments = _))
    rw [e]
    have u := updNode_obj hi h (fun a => { a with elems := items.map (NewElem.elem scan) })
    refine ⟨_, ⟨rfl, ?_⟩, u ▸ List.Perm.refl _, fun _ => ⟨rfl, fun _ => u⟩⟩
    simp [NewElem.elem, Function.comp_def]
  | behave r c x =>
    obtain rfl : r = ref := Option.some.inj ht
    have e : st.behave r c x = (st.modNode s.node fun a => a.behaving c x, .ok ()) := by
      unfold State.behave State.withRef; rw [h]
    show ∃ a', _ ∧ (st.behave r c x).1.arguments.Perm _ ∧ (_ → (st.behave r c x).1.byName = _ ∧
      (_ → (st.behave r c x).1.arguments = _))
    rw [e]
    have u := updNode_obj hi h (fun a => a.behaving c x)
    exact ⟨_, rfl, u ▸ List.Perm.refl _, fun _ => ⟨rfl, fun _ => u⟩⟩
  | valid r v d =>
    obtain rfl : r = ref := Option.some.inj ht
    have e : st.setValid r v d = ({ st with freedValids := st.freedValids ++ s.arg.ownedValid }.modNode s.node
      fun a => { a with valid := v, validDeletable := d }, .ok ()) := by
      unfold State.setValid State.withRef; rw [h]
    show ∃ a', _ ∧ (st.setValid r v d).1.arguments.Perm _ ∧ (_ → (st.setValid r v d).1.byName = _ ∧
      (_ → (st.setValid r v d).1.arguments = _))
    rw [e]
    have u := updNode_obj hi h (fun a => { a with valid := v, validDeletable := d })
    exact ⟨_, rfl, u ▸ List.Perm.refl _, fun _ => ⟨rfl, fun _ => u⟩⟩
  | _ => cases ht

/-- C61, outcome: `help()`, `metavar()`, `valid()` and `required()` always return. -/
theorem C61_return {scan : Str → Option D} {st : State D} (hr : Reachable scan st) {ref : Nat} {s : Slot D}
    (h : st.atObj ref = some s) :
    (∀ x, (step scan st (.help ref x)).2 = .ok ()) ∧ (∀ x, (step scan st (.metavar ref x)).2 = .ok ()) ∧
    (∀ v d, (step scan st (.valid ref v d)).2 = .ok ()) ∧ (∀ b, (step scan st (.required ref b)).2 = .ok ()) := by
  refine ⟨fun x => ?_, fun x => ?_, fun v d => ?_, fun b => ?_⟩
  · show (st.setHelp ref x).2 = _
    unfold State.setHelp State.withRef; rw [h]
  · show (st.setMetavar ref x).2 = _
    unfold State.setMetavar State.withRef; rw [h]
  · show (st.setValid ref v d).2 = _
    unfold State.setValid State.withRef; rw [h]
  · show (st.required ref b).2 = _
    rw [(required_ok hr.inv h b).1]

/-- C61, concretely: `metavar()` on one of three arguments. -/
example :
    let st := runOps demoScan demo [.metavar 0 "FILE".toList];
    st.arguments.map (fun s => (s.arg.front, s.arg.metavar)) =
      [("-o".toList, "FILE".toList), ("-v".toList, []), ("file".toList, [])] ∧
    (demo.atObj 0).isSome = true := by
  decide +kernel

/-- C62, concretely: settings, then a failing parse. -/
example :
    let st := runOps demoScan demo [.setVersion "1.2".toList, .setStrict true, .parse (["prog", "--nope"].map String.toList)];
    settings st = { fresh with version := "1.2".toList, isStrict := true, binaryName := "prog".toList } := by
  decide +kernel

end BletArgs
