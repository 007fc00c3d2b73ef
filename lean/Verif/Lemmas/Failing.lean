import Verif.Lemmas.FailInv
import Verif.Lemmas.Calls
import Verif.Props.Safe
/-
Lemmas: interrupted calls.
-/
namespace BletArgs
open Spec
variable {D : Type} {full : Prop} {scan : Str → Option D}

/-! ### The help and version pointers -/

theorem ptrs_of_config {st1 st2 : State D} {b : Str} (hc : st2.config = { st1.config with binaryName := b }) (hp : st1.Ptrs) :
    st2.Ptrs := by
  have e0 : st2.arguments.map Slot.config = st1.arguments.map Slot.config :=
    (congrArg (fun x : State D => x.arguments) hc :)
  have e1 : st2.helpOption = st1.helpOption := (congrArg (fun x : State D => x.helpOption) hc :)
  have e2 : st2.versionOption = st1.versionOption := (congrArg (fun x : State D => x.versionOption) hc :)
  constructor
  · intro o ho
    obtain ⟨s, hs, g1, g2⟩ := hp.help o (e1 ▸ ho)
    obtain ⟨t, ht, e⟩ := slots_of_config e0.symm hs
    exact ⟨t, ht, (congrArg Slot.obj e.symm :).trans g1, ((congrArg (fun x : Slot D => x.arg.action) e.symm :)).trans g2⟩
  · intro o ho
    obtain ⟨s, hs, g1, g2⟩ := hp.version o (e2 ▸ ho)
    obtain ⟨t, ht, e⟩ := slots_of_config e0.symm hs
    exact ⟨t, ht, (congrArg Slot.obj e.symm :).trans g1, ((congrArg (fun x : Slot D => x.arg.action) e.symm :)).trans g2⟩

theorem ptrs_of_config_eq {st1 st2 : State D} (hc : st2.config = st1.config) (hp : st1.Ptrs) : st2.Ptrs :=
  ptrs_of_config (b := st1.binaryName) (by rw [hc]; rfl) hp

/-- New arguments do not disturb the pointers. -/
theorem PtrInv.more {l l' : List (Slot D)} {h v : Option Nat} (hp : PtrInv l h v) (hs : ∀ s ∈ l, s ∈ l') : PtrInv l' h v :=
  ⟨fun o ho => by obtain ⟨s, h1, h2⟩ := hp.help o ho; exact ⟨s, hs s h1, h2⟩,
   fun o ho => by obtain ⟨s, h1, h2⟩ := hp.version o ho; exact ⟨s, hs s h1, h2⟩⟩

theorem PtrInv.modNode {st : State D} (hp : st.Ptrs) (node : Nat) (f : Argument D → Argument D)
    (hf : ∀ a, (f a).action = a.action) : (st.modNode node f).Ptrs := by
  have key : ∀ s ∈ st.arguments, ∃ t ∈ (st.modNode node f).arguments, t.obj = s.obj ∧ t.arg.action = s.arg.action := by
    intro s hs
    refine ⟨_, List.mem_map.2 ⟨s, hs, rfl⟩, ?_⟩
    split
    · exact ⟨rfl, hf _⟩
    · exact ⟨rfl, rfl⟩
  constructor
  · intro o ho
    obtain ⟨s, hs, e1, e2⟩ := hp.help o ho
    obtain ⟨t, ht, g1, g2⟩ := key s hs
    exact ⟨t, ht, g1.trans e1, g2.trans e2⟩
  · intro o ho
    obtain ⟨s, hs, e1, e2⟩ := hp.version o ho
    obtain ⟨t, ht, g1, g2⟩ := key s hs
    exact ⟨t, ht, g1.trans e1, g2.trans e2⟩

/-- A help option was added. -/
theorem PtrInv.added {st st' : State D} (hp : st.Ptrs) {a : Argument D} (ha : a.action = .help)
    (e1 : st'.arguments = stableSort slotLt (st.arguments ++ [st.newSlot a])) (e2 : st'.helpOption = some st.nextObj)
    (e3 : st'.versionOption = st.versionOption) : st'.Ptrs := by
  have mem : ∀ s, s ∈ st.arguments ∨ s = st.newSlot a → s ∈ st'.arguments := by
    intro s hs
    rw [e1, mem_stableSort, List.mem_append, List.mem_singleton]
    exact hs
  constructor
  · intro o ho
    rw [e2] at ho
    exact ⟨_, mem _ (.inr rfl), Option.some.inj ho, ha⟩
  · intro o ho
    rw [e3] at ho
    obtain ⟨s, hs, e⟩ := hp.version o ho
    exact ⟨s, mem s (.inl hs), e⟩

theorem action_goesOn {st : State D} {ref : Nat} {s : Slot D} (h : st.atObj ref = some s) (x : Action) :
    (st.action ref x).2.goesOn = true := by
  unfold State.action
  rw [withRef_live h]
  exact retype_goesOn ..

theorem nargs_goesOn {st : State D} {ref : Nat} {s : Slot D} (h : st.atObj ref = some s) (x : Nat) :
    (st.nargs ref x).2.goesOn = true := by
  unfold State.nargs
  rw [withRef_live h]
  exact retype_goesOn ..

theorem setDefaults_goesOn {st : State D} {ref : Nat} {s : Slot D} (h : st.atObj ref = some s) (x : List Str) :
    (st.setDefaults ref x).2.goesOn = true := by
  unfold State.setDefaults
  rw [withRef_live h]
  exact defaultsConstructor_goesOn ..

theorem valueCall_goesOn {st : State D} {op : Op} {ref : Nat} {s : Slot D}
    (hop : (∃ x, op = .action ref x) ∨ (∃ x, op = .nargs ref x) ∨ ∃ x, op = .defaults ref x) (h : st.atObj ref = some s) :
    (step scan st op).2.goesOn = true := by
  rcases hop with ⟨x, rfl⟩ | ⟨x, rfl⟩ | ⟨x, rfl⟩
  · exact action_goesOn h x
  · exact nargs_goesOn h x
  · exact setDefaults_goesOn h x

theorem aborts_ptrs {st st' : State D} {op : Op} (hi : GInv False st) (hp : st.Ptrs)
    (hd : ∀ ref d, op = .dest ref d → st.helpOption ≠ some ref ∧ st.versionOption ≠ some ref)
    (h : Aborts scan st op st') : st'.Ptrs := by
  induction h with
  | unchanged => exact hp
  | unthrown h => exact step_ptrs hi hp _ (by rw [h]; rfl) hd
  | lost h => exact hp
  | listed h _ => exact PtrInv.more hp fun s hs => List.mem_append_left _ hs
  | flagged => exact PtrInv.modNode hp _ _ fun _ => rfl
  | values hop h => exact PtrInv.modNode (step_ptrs hi hp _ (valueCall_goesOn hop h) hd) _ _ fun _ => rfl
  | defaults => exact PtrInv.modNode hp _ _ fun _ => rfl
  | dest => exact PtrInv.modNode hp _ _ fun _ => rfl
  | parseReset h => exact ptrs_of_config_eq h hp
  | parseAdd h _ _ ih => exact ih (inv_of_config h hi) (ptrs_of_config_eq h hp) (fun _ _ e => nomatch e)
  | parseText h hc =>
    rw [addHelp_eq (inv_of_config h hi) hc]
    exact PtrInv.added (ptrs_of_config_eq h hp) (a := { names := helpFlags _, type := .help, nargs := 0, action := .help })
      rfl rfl rfl rfl
  | parseRun h1 h2 h3 _ =>
    refine ptrs_of_config h3 ?_
    have h0 := ptrs_of_config_eq h1 hp
    rcases autoHelp_cases (inv_of_config h1 hi) with ⟨_, e⟩ | ⟨_, _, e⟩ | ⟨_, _, e⟩
    · have := congrArg Prod.fst (h2.symm.trans e); simp only at this; rw [this]; exact h0
    · have := congrArg Prod.fst (h2.symm.trans e); simp only at this; rw [this]; exact h0
    · have := congrArg Prod.fst (h2.symm.trans e); simp only at this; rw [this]
      exact PtrInv.added h0 (a := helpArgument (helpFlags _)) rfl rfl rfl rfl

/-! ### Objects made, deleted and listed -/

/-- As many objects were made between the two states as there are more listed or deleted ones. -/
def Balanced (st st' : State D) : Prop :=
  st'.nextObj + (st.freedObjs.length + st.arguments.length) = st.nextObj + (st'.freedObjs.length + st'.arguments.length)

theorem Balanced.trans {a b c : State D} (h1 : Balanced a b) (h2 : Balanced b c) : Balanced a c := by
  unfold Balanced at *; omega

theorem Balanced.of_eq {st st' : State D} (h1 : st'.nextObj = st.nextObj) (h2 : st'.freedObjs = st.freedObjs)
    (h3 : st'.arguments.length = st.arguments.length) : Balanced st st' := by
  unfold Balanced; rw [h1, h2, h3]

theorem Balanced.of_sameReg {st st' : State D} (h : SameReg st st') : Balanced st st' :=
  .of_eq h.nextObj h.freedObjs (by simpa using congrArg List.length h.sig)

theorem Balanced.added {st st' : State D} {s : Slot D} (h1 : st'.nextObj = st.nextObj + 1) (h2 : st'.freedObjs = st.freedObjs)
    (h3 : st'.arguments.Perm (st.arguments ++ [s])) : Balanced st st' := by
  unfold Balanced
  rw [h1, h2, h3.length_eq, List.length_append, List.length_singleton]; omega

theorem removeStep_balanced {st : State D} (hi : GPre full st) {n : Str} {s : Slot D} (hs : s ∈ st.arguments) :
    Balanced st (st.removeStep n s) := by
  unfold State.removeStep
  simp only
  split
  · exact .of_eq rfl rfl (by simp [updNode])
  · have := (perm_filter_out hi.nodes hs).length_eq
    unfold Balanced
    simp only [List.length_append, List.length_cons, List.length_nil] at this ⊢
    omega

theorem removeLoop_balanced (rm : List Str) {st : State D} (hi : GPre full st) :
    (State.removeLoop rm st).2 = .ok () → Balanced st (State.removeLoop rm st).1 := by
  induction rm generalizing st with
  | nil => intro _; exact rfl
  | cons n ns ih =>
    intro h
    cases hl : lookupName st.byName n with
    | none => unfold State.removeLoop at h; rw [hl] at h; cases h
    | some v =>
      obtain ⟨s, hs, e, hm, hr⟩ := removeLoop_cons hi hl
      rw [hr] at h ⊢
      subst e
      exact (removeStep_balanced hi hs).trans (ih (removeStep_preInv hi hs hl) h)

theorem withHelp_balanced (st : State D) : Balanced st st.withHelp :=
  .added (s := st.newSlot (helpArgument (helpFlags st))) rfl rfl (stableSort_perm _)

theorem step_balanced {st : State D} (hi : GInv full st) (op : Op) (hg : (step scan st op).2.goesOn = true) :
    Balanced st (step scan st op).1 := by
  by_cases ht : op.isTweak = true
  · exact .of_sameReg (tweak_sameReg hi op ht)
  cases op with
  | add names =>
    show Balanced st (st.addArgument names).1
    have h := addArgument_outcome hi names
    generalize st.addArgument names = r at h
    cases h with
    | positional n st' _ _ _ e _ => subst e; exact .added rfl rfl (stableSort_perm _)
    | option f rest fs st' _ _ _ _ _ e _ => subst e; exact .added rfl rfl (stableSort_perm _)
    | _ => rfl
  | remove names =>
    show Balanced st (st.removeArguments names).1
    rcases removeArguments_cases hi names with ⟨_, e⟩ | ⟨_, _, e⟩ | ⟨_, _, hn, w, e⟩ | ⟨h1, h2, h3, _⟩
    · rw [e]; rfl
    · rw [e]; rfl
    · have : (st.removeArguments names).2.goesOn = true := hg
      rw [e] at this; cases this
    · have h4 : ∀ n ∈ names, (lookupName st.byName n).isSome = true := h2
      rw [removeArguments_runs hi h1 h3 h4]
      refine (removeLoop_balanced names hi.toPreInv (removeLoop_runs names hi.toPreInv h3 h4).1).trans ?_
      exact .of_eq rfl rfl (stableSort_perm _).length_eq
  | clear =>
    show Balanced st st.clear
    unfold Balanced State.clear State.deleteAll
    simp
  | flag ref f =>
    show Balanced st (st.flag ref f).1
    cases h : st.atObj ref with
    | none => unfold State.flag; rw [withRef_none h]; rfl
    | some s =>
      rcases flag_outcome hi h f with ⟨_, e⟩ | ⟨_, _, _, e⟩ | ⟨_, _, _, e⟩ | ⟨_, _, _, e, _⟩
      · rw [e]; rfl
      · rw [e]; rfl
      · rw [e]; rfl
      · rw [e]
        refine .of_eq rfl rfl ?_
        rw [(stableSort_perm _).length_eq]
        simp [State.flagged, updNode]
  | required ref b =>
    show Balanced st (st.required ref b).1
    cases h : st.atObj ref with
    | none => unfold State.required; rw [withRef_none h]; rfl
    | some s =>
      rw [(required_ok hi h b).1]
      refine .of_eq rfl rfl ?_
      rw [(stableSort_perm _).length_eq]
      exact List.length_map _
  | dest ref d =>
    show Balanced st (st.setDest ref d).1
    cases h : st.atObj ref with
    | none => unfold State.setDest; rw [withRef_none h]; rfl
    | some s =>
      rw [setDest_eq h]
      unfold Balanced
      simp only [List.length_append, List.length_singleton, List.length_map]
      omega
  | parse argv =>
    rcases parse_sameReg (scan := scan) hi argv hg with h | ⟨_, _, h⟩
    · exact .of_sameReg h
    · exact (Balanced.of_sameReg (resetAll_sameReg st)).trans ((withHelp_balanced _).trans (.of_sameReg h))
  | _ => exact absurd rfl ht

/-- At most one object is lost in an interrupted call. -/
theorem aborts_objects {st st' : State D} {op : Op} (hi : GInv False st) (h : Aborts scan st op st') :
    st'.nextObj + (st.freedObjs.length + st.arguments.length) ≤
      st.nextObj + (st'.freedObjs.length + st'.arguments.length) + 1 := by
  have of : ∀ {a b : State D}, Balanced a b → b.nextObj + (a.freedObjs.length + a.arguments.length) ≤
      a.nextObj + (b.freedObjs.length + b.arguments.length) + 1 := by
    intro a b h; unfold Balanced at h; omega
  have cfg : ∀ {a b : State D} {x : Str}, b.config = { a.config with binaryName := x } → Balanced a b :=
    fun h => .of_sameReg (.of_config h)
  have cfg' : ∀ {a b : State D}, b.config = a.config → Balanced a b :=
    fun {a b} h => cfg (x := a.binaryName) (by rw [h]; rfl)
  induction h with
  | unchanged => omega
  | unthrown h => exact of (step_balanced hi _ (by rw [h]; rfl))
  | lost h => simp only; omega
  | listed h _ => exact of (.added rfl rfl (List.Perm.refl _))
  | flagged => exact of (.of_eq rfl rfl (by simp [State.modNode]))
  | values hop h =>
    exact of ((step_balanced hi _ (valueCall_goesOn hop h)).trans (.of_eq rfl rfl (by simp [State.modNode])))
  | defaults => exact of (.of_eq rfl rfl (by simp [State.modNode]))
  | dest => exact of (.of_eq rfl rfl (by simp [State.modNode]))
  | parseReset h => exact of (cfg' h)
  | parseAdd h _ _ ih =>
    have h1 := cfg' h
    have := ih (inv_of_config h hi)
    unfold Balanced at h1
    omega
  | parseText h hc =>
    rw [addHelp_eq (inv_of_config h hi) hc]
    exact of ((cfg' h).trans (.added rfl rfl (stableSort_perm _)))
  | parseRun h1 h2 h3 _ =>
    refine of (((cfg' h1).trans ?_).trans (cfg h3))
    rcases autoHelp_cases (inv_of_config h1 hi) with ⟨_, e⟩ | ⟨_, _, e⟩ | ⟨_, _, e⟩
    · have := congrArg Prod.fst (h2.symm.trans e); simp only at this; rw [this]; rfl
    · have := congrArg Prod.fst (h2.symm.trans e); simp only at this; rw [this]; rfl
    · have := congrArg Prod.fst (h2.symm.trans e); simp only at this; rw [this]; exact withHelp_balanced _

/-! ### Validators -/

/-- The call neither deletes nor acquires validators, and no argument starts to use one. -/
structure SameValids (st st' : State D) : Prop where
  bag : st'.validBag.Perm st.validBag
  borrowed : ∀ s' ∈ st'.arguments, ∀ v ∈ s'.arg.borrowed, ∃ s ∈ st.arguments, v ∈ s.arg.borrowed

theorem SameValids.refl (st : State D) : SameValids st st := ⟨List.Perm.refl _, fun s hs _ hv => ⟨s, hs, hv⟩⟩

theorem SameValids.trans {a b c : State D} (h1 : SameValids a b) (h2 : SameValids b c) : SameValids a c :=
  ⟨h2.bag.trans h1.bag, fun s hs v hv => by
    obtain ⟨t, ht, hv⟩ := h2.borrowed s hs v hv
    exact h1.borrowed t ht v hv⟩

theorem SameValids.of_config {st st' : State D} {b : Str} (h : st'.config = { st.config with binaryName := b }) : SameValids st st' := by
  have ha : st'.arguments.map Slot.config = st.arguments.map Slot.config := (congrArg (fun x : State D => x.arguments) h :)
  refine ⟨List.Perm.of_eq (validBag_of_config ha (congrArg (fun x : State D => x.freedValids) h :)), fun s hs v hv => ?_⟩
  obtain ⟨t, ht, e⟩ := slots_of_config ha hs
  refine ⟨t, ht, ?_⟩
  have e' : s.arg.config = t.arg.config := (congrArg Slot.arg e :)
  rw [← borrowed_congr (a := s.arg) (b := t.arg) (congrArg (fun x : Argument D => x.valid) e' :)
    (congrArg (fun x : Argument D => x.validDeletable) e' :)]
  exact hv

theorem SameValids.of_config_eq {st st' : State D} (h : st'.config = st.config) : SameValids st st' :=
  .of_config (b := st.binaryName) (by rw [h]; rfl)

theorem SameValids.modNode (st : State D) (node : Nat) (f : Argument D → Argument D) (h1 : ∀ a, (f a).valid = a.valid)
    (h2 : ∀ a, (f a).validDeletable = a.validDeletable) : SameValids st (st.modNode node f) := by
  refine ⟨updNode_validBag (n := node) (f := f) rfl (fun s _ _ => ownedValid_congr (h1 _) (h2 _)) rfl, fun s' hs' v hv => ?_⟩
  obtain ⟨s, hs, rfl⟩ := List.mem_map.1 hs'
  refine ⟨s, hs, ?_⟩
  split at hv
  · simp only at hv; rw [borrowed_congr (h1 s.arg) (h2 s.arg)] at hv; exact hv
  · exact hv

theorem SameValids.added {st st' : State D} {s : Slot D} (h0 : s.arg.valid = none)
    (h1 : st'.arguments.Perm (st.arguments ++ [s])) (h2 : st'.freedValids = st.freedValids) : SameValids st st' := by
  constructor
  · unfold State.validBag
    rw [h2]
    refine List.Perm.append_left _ ((h1.flatMap_right _).trans ?_)
    rw [List.flatMap_append]
    have : s.arg.ownedValid = [] := by unfold Argument.ownedValid; rw [h0]
    simp [this]
  · intro s' hs' v hv
    rcases List.mem_append.1 (h1.mem_iff.1 hs') with h | h
    · exact ⟨s', h, hv⟩
    · rw [List.mem_singleton.1 h] at hv
      unfold Argument.borrowed at hv; rw [h0] at hv; cases hv

theorem SameValids.step {st : State D} (hi : GInv full st) (op : Op) (hg : (BletArgs.step scan st op).2.goesOn = true)
    (h1 : op.handsOver = []) (h2 : op.lends = []) : SameValids st (BletArgs.step scan st op).1 := by
  refine ⟨?_, fun s' hs' v hv => ?_⟩
  · have := step_validBag hi op hg
    rwa [h1, List.append_nil] at this
  · rcases step_borrowed hi op hg hs' hv with h | h
    · exact h
    · rw [h2] at h; cases h

theorem throw_not_valid {st : State D} {op : Op} {e : Exn} (h : (step scan st op).2 = .throw e) :
    op.handsOver = [] ∧ op.lends = [] := by
  cases op with
  | valid ref v d =>
    exfalso
    change (st.setValid ref v d).2 = _ at h
    unfold State.setValid at h
    cases ha : st.atObj ref with
    | none => rw [withRef_none ha] at h; cases h
    | some s => rw [withRef_some ha] at h; cases h
  | _ => exact ⟨rfl, rfl⟩

/-- Either nothing changes for the validators, or one argument lets go of the validator it owned. -/
theorem aborts_valids {st st' : State D} {op : Op} (hi : GInv False st) (h : Aborts scan st op st') :
    SameValids st st' ∨ ∃ s ∈ st.arguments, st' = st.modNode s.node fun a => { a with validDeletable := false } := by
  induction h with
  | unchanged => exact .inl (.refl _)
  | unthrown h =>
    obtain ⟨h1, h2⟩ := throw_not_valid h
    exact .inl (.step hi _ (by rw [h]; rfl) h1 h2)
  | lost h => exact .inl ⟨List.Perm.refl _, fun s hs _ hv => ⟨s, hs, hv⟩⟩
  | listed h _ =>
    obtain ⟨_, _, _, e, _⟩ := build_some h
    exact .inl (.added (by rw [e]) (List.Perm.refl _) rfl)
  | flagged => exact .inl (.modNode _ _ _ (fun _ => rfl) fun _ => rfl)
  | values hop h =>
    left
    refine SameValids.trans (.step (scan := scan) hi _ (valueCall_goesOn hop h) ?_ ?_) (.modNode _ _ _ (fun _ => rfl) fun _ => rfl) <;>
      (rcases hop with ⟨x, rfl⟩ | ⟨x, rfl⟩ | ⟨x, rfl⟩ <;> rfl)
  | defaults => exact .inl (.modNode _ _ _ (fun _ => rfl) fun _ => rfl)
  | dest h => exact .inr ⟨_, (State.atObj_some h).1, rfl⟩
  | parseReset h => exact .inl (.of_config_eq h)
  | @parseAdd st st0 st' _ h _ ha ih =>
    rcases ih (inv_of_config h hi) with h1 | h1
    · exact .inl ((SameValids.of_config_eq h).trans h1)
    · left
      refine (SameValids.of_config_eq h).trans ?_
      cases ha with
      | unchanged => exact .refl _
      | unthrown h' =>
        obtain ⟨h1, h2⟩ := throw_not_valid h'
        exact .step (inv_of_config h hi) _ (by rw [h']; rfl) h1 h2
      | lost h => exact ⟨List.Perm.refl _, fun s hs _ hv => ⟨s, hs, hv⟩⟩
      | listed h _ =>
        obtain ⟨_, _, _, e, _⟩ := build_some h
        exact .added (by rw [e]) (List.Perm.refl _) rfl
      | values hop _ => rcases hop with ⟨x, e⟩ | ⟨x, e⟩ | ⟨x, e⟩ <;> cases e
  | parseText h hc =>
    left
    rw [addHelp_eq (inv_of_config h hi) hc]
    exact (SameValids.of_config_eq h).trans (.added rfl (stableSort_perm _) rfl)
  | parseRun h1 h2 h3 _ =>
    left
    refine ((SameValids.of_config_eq h1).trans ?_).trans (.of_config h3)
    rcases autoHelp_cases (inv_of_config h1 hi) with ⟨_, e⟩ | ⟨_, _, e⟩ | ⟨_, _, e⟩
    · have := congrArg Prod.fst (h2.symm.trans e); simp only at this; rw [this]; exact .refl _
    · have := congrArg Prod.fst (h2.symm.trans e); simp only at this; rw [this]; exact .refl _
    · have := congrArg Prod.fst (h2.symm.trans e); simp only at this; rw [this]
      exact .added (s := State.newSlot _ (helpArgument (helpFlags _))) rfl (stableSort_perm _) rfl

/-! ### The other arguments -/

/-- Every argument is still there, at the same address and with all its registered names; but for the one designated by
`ref`, with the same settings (`all`: and the same values). -/
structure Stays (ref : Option Nat) (all : Prop) (st st' : State D) : Prop where
  slots : ∀ s ∈ st.arguments, ∃ s' ∈ st'.arguments, s'.node = s.node ∧ s'.obj = s.obj ∧
    (ref ≠ some s.obj → s'.config = s.config ∧ (all → s' = s))
  names : ∀ n v, lookupName st.byName n = some v → lookupName st'.byName n = some v

theorem Stays.refl {ref : Option Nat} {all : Prop} (st : State D) : Stays ref all st st :=
  ⟨fun s hs => ⟨s, hs, rfl, rfl, fun _ => ⟨rfl, fun _ => rfl⟩⟩, fun _ _ h => h⟩

theorem Stays.trans {ref : Option Nat} {all : Prop} {a b c : State D} (h1 : Stays ref all a b) (h2 : Stays ref all b c) :
    Stays ref all a c := by
  refine ⟨fun s hs => ?_, fun n v h => h2.names n v (h1.names n v h)⟩
  obtain ⟨t, ht, e1, e2, e3⟩ := h1.slots s hs
  obtain ⟨u, hu, g1, g2, g3⟩ := h2.slots t ht
  refine ⟨u, hu, g1.trans e1, g2.trans e2, fun hr => ?_⟩
  obtain ⟨c1, c2⟩ := e3 hr
  obtain ⟨d1, d2⟩ := g3 (by rw [e2]; exact hr)
  exact ⟨d1.trans c1, fun ha => (d2 ha).trans (c2 ha)⟩

theorem Stays.more {ref : Option Nat} {all : Prop} {st st' : State D} (h1 : ∀ s ∈ st.arguments, s ∈ st'.arguments)
    (h2 : ∀ n v, lookupName st.byName n = some v → lookupName st'.byName n = some v) : Stays ref all st st' :=
  ⟨fun s hs => ⟨s, h1 s hs, rfl, rfl, fun _ => ⟨rfl, fun _ => rfl⟩⟩, h2⟩

theorem Stays.of_config {ref : Option Nat} {st st' : State D} {b : Str} (h : st'.config = { st.config with binaryName := b }) :
    Stays ref False st st' := by
  have ha : st'.arguments.map Slot.config = st.arguments.map Slot.config := (congrArg (fun x : State D => x.arguments) h :)
  have hb : st'.byName = st.byName := (congrArg (fun x : State D => x.byName) h :)
  refine ⟨fun s hs => ?_, fun n v h => hb ▸ h⟩
  obtain ⟨t, ht, e⟩ := slots_of_config ha.symm hs
  exact ⟨t, ht, (congrArg Slot.node e :).symm, (congrArg Slot.obj e :).symm, fun _ => ⟨e.symm, False.elim⟩⟩

theorem Stays.of_config_eq {ref : Option Nat} {st st' : State D} (h : st'.config = st.config) : Stays ref False st st' :=
  .of_config (b := st.binaryName) (by rw [h]; rfl)

theorem Stays.modNode {all : Prop} {st : State D} (hi : GInv full st) {s : Slot D} (hs : s ∈ st.arguments) {ref : Nat}
    (hr : s.obj = ref) (f : Argument D → Argument D) : Stays (some ref) all st (st.modNode s.node f) := by
  refine ⟨fun t ht => ⟨_, List.mem_map.2 ⟨t, ht, rfl⟩, ?_⟩, fun _ _ h => h⟩
  by_cases e : t.node = s.node
  · rw [if_pos (by simpa using e)]
    refine ⟨rfl, rfl, fun h => absurd ?_ h⟩
    rw [eq_of_node hi hs ht e, hr]
  · rw [if_neg (by simpa using e)]
    exact ⟨rfl, rfl, fun _ => ⟨rfl, fun _ => rfl⟩⟩

theorem Stays.weaken {ref : Option Nat} {all all' : Prop} {st st' : State D} (h : Stays ref all st st') (ha : all' → all) :
    Stays ref all' st st' :=
  ⟨fun s hs => by
    obtain ⟨t, ht, e1, e2, e3⟩ := h.slots s hs
    exact ⟨t, ht, e1, e2, fun hr => ⟨(e3 hr).1, fun h => (e3 hr).2 (ha h)⟩⟩, h.names⟩

/-- A call that throws. -/
theorem Stays.thrown {st : State D} (hi : GInv full st) {op : Op} {e : Exn} (h : (BletArgs.step scan st op).2 = .throw e) :
    Stays op.ref (∀ argv, op ≠ .parse argv) st (BletArgs.step scan st op).1 := by
  have hg : (BletArgs.step scan st op).2.goesOn = true := by rw [h]; rfl
  by_cases hrm : ∃ ns, op = .remove ns
  · obtain ⟨ns, rfl⟩ := hrm
    rcases removeArguments_cases hi ns with ⟨_, e⟩ | ⟨_, _, e⟩ | ⟨_, _, hn, w, e⟩ | ⟨_, _, _, e⟩
    · show Stays _ _ st (st.removeArguments ns).1
      rw [e]; exact .refl _
    · show Stays _ _ st (st.removeArguments ns).1
      rw [e]; exact .refl _
    · change (st.removeArguments ns).2 = _ at h; rw [e] at h; cases h
    · change (st.removeArguments ns).2 = _ at h; rw [e] at h; cases h
  by_cases hfl : ∃ r f, op = .flag r f
  · obtain ⟨r, f, rfl⟩ := hfl
    show Stays _ _ st (st.flag r f).1
    change (st.flag r f).2 = _ at h
    cases ha : st.atObj r with
    | none => unfold State.flag; rw [withRef_none ha]; exact .refl _
    | some s =>
      rcases flag_outcome hi ha f with ⟨_, e⟩ | ⟨_, _, _, e⟩ | ⟨_, _, _, e⟩ | ⟨_, _, _, e, _⟩
      · rw [e]; exact .refl _
      · rw [e]; exact .refl _
      · rw [e]; exact .refl _
      · rw [e] at h; cases h
  have hc : op ≠ .clear := by rintro rfl; cases h
  have hd : ∀ r d, op ≠ .dest r d := by
    rintro r d rfl
    change (st.setDest r d).2.void = _ at h
    unfold State.setDest at h
    cases ha : st.atObj r with
    | none => rw [withRef_none ha] at h; cases h
    | some s => rw [withRef_some ha] at h; cases h
  refine ⟨fun s hs => ?_, fun n v hl => step_lookup hi op hg hc (fun ns e => absurd ⟨ns, e⟩ hrm) hl⟩
  obtain ⟨s', hs', e, hch⟩ := step_stays hi op hg hs hc (fun ns e => hrm ⟨ns, e⟩) (fun d => hd _ d)
  refine ⟨s', hs', ArgChange.node hch, e, fun hr => ?_⟩
  have key : s' = s → s'.config = s.config ∧ ((∀ argv, op ≠ .parse argv) → s' = s) := fun e => by rw [e]; exact ⟨rfl, fun _ => rfl⟩
  cases op with
  | parse argv => exact ⟨hch, fun h => absurd rfl (h argv)⟩
  | remove ns => exact absurd ⟨ns, rfl⟩ hrm
  | flag r f => exact absurd ⟨r, f, rfl⟩ hfl
  | clear => exact absurd rfl hc
  | dest r d => exact absurd rfl (hd r d)
  | action | nargs | defaults | required | help | metavar | valid | behave | edit =>
    simp only [ArgChange] at hch
    rw [if_neg (fun e => hr (by rw [e]; rfl))] at hch
    exact key hch
  | _ => simp only [ArgChange] at hch; exact key hch

theorem stays_withHelp {ref : Option Nat} {all : Prop} {st st' : State D} {a : Argument D}
    (e1 : st'.arguments = stableSort slotLt (st.arguments ++ [st.newSlot a])) (e2 : st'.byName = insertAll st.byName a.names st.nextNode) :
    Stays ref all st st' := by
  refine .more (fun s hs => by rw [e1, mem_stableSort]; exact List.mem_append_left _ hs) fun n v h => ?_
  rw [e2, insertAll_lookup, h]; rfl

theorem aborts_stays {st st' : State D} {op : Op} (hi : GInv False st) (h : Aborts scan st op st') :
    Stays op.ref (∀ argv, op ≠ .parse argv) st st' := by
  induction h with
  | unchanged => exact .refl _
  | unthrown h => exact .thrown hi h
  | lost h => exact .more (fun _ h => h) fun _ _ h => h
  | listed h _ =>
    refine .more (fun _ h => List.mem_append_left _ h) fun n v h => ?_
    show lookupName (insertAll _ _ _) _ = _
    rw [insertAll_lookup, h]; rfl
  | flagged h => exact .modNode hi (State.atObj_some h).1 (State.atObj_some h).2 _
  | @values st op ref s t d es hop h =>
    obtain ⟨hs, ho⟩ := State.atObj_some h
    have hg := valueCall_goesOn (scan := scan) hop h
    have hr : op.ref = some ref := by rcases hop with ⟨x, rfl⟩ | ⟨x, rfl⟩ | ⟨x, rfl⟩ <;> rfl
    have hc : op ≠ .clear := by rcases hop with ⟨x, rfl⟩ | ⟨x, rfl⟩ | ⟨x, rfl⟩ <;> exact nofun
    have hrm : ∀ ns, op ≠ .remove ns := by rcases hop with ⟨x, rfl⟩ | ⟨x, rfl⟩ | ⟨x, rfl⟩ <;> exact nofun
    have hd : ∀ r d, op ≠ .dest r d := by rcases hop with ⟨x, rfl⟩ | ⟨x, rfl⟩ | ⟨x, rfl⟩ <;> exact nofun
    have hi' := step_inv (scan := scan) hi op hg
    rw [hr]
    have first : Stays (some ref) (∀ argv, op ≠ .parse argv) st (step scan st op).1 := by
      refine ⟨fun u hu => ?_, fun n v hl => step_lookup hi op hg hc (fun ns e => absurd e (hrm ns)) hl⟩
      obtain ⟨u', hu', e, hch⟩ := step_stays hi op hg hu hc hrm (fun d => hd _ d)
      refine ⟨u', hu', ArgChange.node hch, e, fun hn => ?_⟩
      have : u' = u := by
        rcases hop with ⟨x, rfl⟩ | ⟨x, rfl⟩ | ⟨x, rfl⟩ <;>
          (simp only [ArgChange] at hch; rw [if_neg (fun e => hn (by rw [e]))] at hch; exact hch)
      rw [this]; exact ⟨rfl, fun _ => rfl⟩
    obtain ⟨s', hs', e1, e2, _⟩ := first.slots s hs
    rw [← e1]
    exact first.trans (.modNode hi' hs' (e2.trans ho) _)
  | defaults h => exact .modNode hi (State.atObj_some h).1 (State.atObj_some h).2 _
  | dest h => exact .modNode hi (State.atObj_some h).1 (State.atObj_some h).2 _
  | parseReset h => exact (Stays.of_config_eq h).weaken fun h => absurd rfl (h _)
  | parseAdd h _ _ ih =>
    have := (ih (inv_of_config h hi)).weaken (all' := False) False.elim
    exact ((Stays.of_config_eq h).trans this).weaken fun h => absurd rfl (h _)
  | parseText h hc =>
    rw [addHelp_eq (inv_of_config h hi) hc]
    refine ((Stays.of_config_eq h).trans (stays_withHelp (a := { names := helpFlags _, type := .help, nargs := 0, action := .help })
      rfl rfl)).weaken fun h => absurd rfl (h _)
  | parseRun h1 h2 h3 _ =>
    refine (((Stays.of_config_eq h1).trans ?_).trans (.of_config h3)).weaken fun h => absurd rfl (h _)
    rcases autoHelp_cases (inv_of_config h1 hi) with ⟨_, e⟩ | ⟨_, _, e⟩ | ⟨_, _, e⟩
    · have := congrArg Prod.fst (h2.symm.trans e); simp only at this; rw [this]; exact .refl _
    · have := congrArg Prod.fst (h2.symm.trans e); simp only at this; rw [this]; exact .refl _
    · have := congrArg Prod.fst (h2.symm.trans e); simp only at this; rw [this]
      exact stays_withHelp (a := helpArgument (helpFlags _)) rfl rfl

end BletArgs
