import Verif.Props.Registry2
import Verif.Lemmas.Slots
/-
C50, C53, C54: replaced, deleted and owned objects.
-/
namespace BletArgs
open Spec
variable {D : Type} {full : Prop}

/-! ### C54 -/

theorem objects_of_inv {st : State D} (hi : Inv st) :
    st.freedObjs.Nodup ∧ (∀ s ∈ st.arguments, s.obj ∉ st.freedObjs) ∧
    st.deleteAll.freedObjs.Perm (List.range st.nextObj) := by
  refine ⟨hi.freedNodup, hi.freedDead, ?_⟩
  have hnd : st.deleteAll.freedObjs.Nodup := by
    unfold State.deleteAll
    simp only
    rw [List.nodup_append]
    refine ⟨hi.freedNodup, hi.objs, ?_⟩
    rintro a ha b hb rfl
    obtain ⟨s, hs, rfl⟩ := List.mem_map.1 hb
    exact hi.freedDead s hs ha
  rw [List.perm_ext_iff_of_nodup hnd List.nodup_range]
  intro o
  unfold State.deleteAll
  simp only [List.mem_append, List.mem_range, List.mem_map]
  constructor
  · rintro (h | ⟨s, hs, rfl⟩)
    · exact hi.freedLt o h
    · exact hi.objsLt s hs
  · intro h
    rcases hi.noLeak o h with h | ⟨s, hs, e⟩
    · exact .inl h
    · exact .inr ⟨s, hs, e⟩

/-- C54. The argument objects ever created are `0, …, nextObj - 1` (`addArgument` and `dest` return the
address `nextObj` and increment it). In every reachable state the deleted ones were deleted once and none
of them is listed; destroying the parser then deletes exactly the remaining ones: in the end every object
has been deleted exactly once. -/
theorem C54_objects_freed_once {scan : Str → Option D} {st : State D} (h : Reachable scan st) :
    st.freedObjs.Nodup ∧ (∀ s ∈ st.arguments, s.obj ∉ st.freedObjs) ∧
    st.deleteAll.freedObjs.Perm (List.range st.nextObj) :=
  objects_of_inv h.inv

/-- A history that creates, replaces and removes arguments. -/
def demoMemory : State Unit :=
  runOps demoScan demo [.dest 0 ⟨0, .scalar, false, true, fun _ => none⟩, .remove ["-v".toList], .add ["-w".toList]]

example : Reachable demoScan demoMemory ∧ demoMemory.freedObjs = [0, 2] ∧ demoMemory.nextObj = 5 :=
  ⟨reachable_runOps demo_reachable _ (by decide +kernel), by decide +kernel⟩

/-! ### C53 -/

/-- The validator a call hands over to the parser (to be deleted by it), resp. only lends. -/
def Op.handsOver : Op → List Nat
  | .valid _ (some v) true => [v.id]
  | _ => []
def Op.lends : Op → List Nat
  | .valid _ (some v) false => [v.id]
  | _ => []

/-- Histories in which a validator is handed over at most once, and a validator handed over is never also
lent. `handed` and `lent` list the addresses so far. -/
inductive HandedBy (scan : Str → Option D) : List Nat → List Nat → State D → Prop
  | init : HandedBy scan [] [] State.init
  | step {handed lent : List Nat} {st : State D} (op : Op) : HandedBy scan handed lent st →
      (step scan st op).2.goesOn = true →
      (∀ v ∈ op.handsOver, v ∉ handed ∧ v ∉ lent) → (∀ v ∈ op.lends, v ∉ handed) →
      HandedBy scan (handed ++ op.handsOver) (lent ++ op.lends) (BletArgs.step scan st op).1

theorem HandedBy.reachable {scan : Str → Option D} {handed lent : List Nat} {st : State D}
    (h : HandedBy scan handed lent st) : Reachable scan st := by
  induction h with
  | init => exact .init
  | step op _ hg _ _ ih => exact .step op ih hg

/-- All validators deleted or still owned. -/
def State.validBag (st : State D) : List Nat :=
  st.freedValids ++ st.arguments.flatMap fun s => s.arg.ownedValid

/-- The validators used without being owned. -/
def Argument.borrowed (a : Argument D) : List Nat :=
  match a.valid with
  | some v => if a.validDeletable then [] else [v.id]
  | none => []

theorem validBag_of_map {st st' : State D} {f : Slot D → Slot D}
    (ha : st'.arguments.Perm (st.arguments.map f)) (hf : ∀ s ∈ st.arguments, (f s).arg.ownedValid = s.arg.ownedValid)
    (hv : st'.freedValids = st.freedValids) : st'.validBag.Perm st.validBag := by
  unfold State.validBag
  rw [hv]
  refine List.Perm.append_left _ ?_
  refine (ha.flatMap_right _).trans ?_
  rw [List.flatMap_map]
  refine List.Perm.of_eq ?_
  rw [List.flatMap_def, List.flatMap_def]
  congr 1
  exact List.map_congr_left hf

theorem validBag_of_perm {st st' : State D} (ha : st'.arguments.Perm st.arguments)
    (hv : st'.freedValids = st.freedValids) : st'.validBag.Perm st.validBag :=
  validBag_of_map (f := id) (by rw [List.map_id]; exact ha) (fun _ _ => rfl) hv

theorem validBag_of_config {st st' : State D} (ha : st'.arguments.map Slot.config = st.arguments.map Slot.config)
    (hv : st'.freedValids = st.freedValids) : st'.validBag = st.validBag := by
  unfold State.validBag
  rw [hv]
  congr 1
  have key : ∀ l : List (Slot D), l.flatMap (fun s => s.arg.ownedValid) =
      (l.map Slot.config).flatMap fun s => s.arg.ownedValid := by
    intro l; rw [List.flatMap_map]; rfl
  rw [key st'.arguments, ha, ← key]

theorem perm_filter_out {l : List (Slot D)} (hn : (l.map (·.node)).Nodup) {s : Slot D} (hs : s ∈ l) :
    l.Perm (s :: l.filter fun t => !(t.node == s.node)) := by
  induction l with
  | nil => cases hs
  | cons t l ih =>
    rw [List.map_cons, List.nodup_cons] at hn
    rcases List.mem_cons.1 hs with rfl | hs
    · rw [List.filter_cons]
      simp only [beq_self_eq_true, Bool.not_true, Bool.false_eq_true, if_false]
      have : l.filter (fun t => !(t.node == s.node)) = l := by
        rw [List.filter_eq_self]
        intro t ht
        have : t.node ≠ s.node := fun e => hn.1 (List.mem_map.2 ⟨t, ht, e⟩)
        simpa using this
      rw [this]
    · have hne : t.node ≠ s.node := fun e => hn.1 (List.mem_map.2 ⟨s, hs, e.symm⟩)
      rw [List.filter_cons, if_pos (by simpa using hne)]
      exact ((ih hn.2 hs).cons t).trans (List.Perm.swap s t _)

theorem removeStep_validBag {st : State D} (hi : GPre full st) {n : Str} {s : Slot D} (hs : s ∈ st.arguments) :
    (st.removeStep n s).validBag.Perm st.validBag := by
  unfold State.removeStep
  simp only
  split
  · refine validBag_of_map (f := fun t => if t.node == s.node then { t with arg := { t.arg with names := t.arg.names.erase n } } else t)
      (List.Perm.refl _) ?_ rfl
    intro t _
    split <;> rfl
  · unfold State.validBag
    simp only
    rw [List.append_assoc]
    refine List.Perm.append_left _ ?_
    have := (perm_filter_out hi.nodes hs).flatMap_right (fun s => s.arg.ownedValid)
    rw [List.flatMap_cons] at this
    exact this.symm

theorem removeLoop_validBag (rm : List Str) {st : State D} (hi : GPre full st) :
    (State.removeLoop rm st).2 = .ok () → (State.removeLoop rm st).1.validBag.Perm st.validBag := by
  induction rm generalizing st with
  | nil => intro _; exact List.Perm.refl _
  | cons n ns ih =>
    intro h
    cases hl : lookupName st.byName n with
    | none => unfold State.removeLoop at h; rw [hl] at h; cases h
    | some v =>
      obtain ⟨s, hs, e, hm, hr⟩ := removeLoop_cons hi hl
      rw [hr] at h ⊢
      subst e
      exact (ih (removeStep_preInv hi hs hl) h).trans (removeStep_validBag hi hs)

theorem behaving_ownedValid (a : Argument D) (c : List Str → VRes) (x : DestWrite → Option Exn) :
    (a.behaving c x).ownedValid = a.ownedValid := by
  unfold Argument.ownedValid Argument.behaving
  cases a.valid <;> rfl

theorem updNode_validBag {st st' : State D} {n : Nat} {f : Argument D → Argument D}
    (ha : st'.arguments = updNode st.arguments n f) (hf : ∀ s ∈ st.arguments, s.node = n → (f s.arg).ownedValid = s.arg.ownedValid)
    (hv : st'.freedValids = st.freedValids) : st'.validBag.Perm st.validBag := by
  refine validBag_of_map (List.Perm.of_eq ha) ?_ hv
  intro s hs
  split
  · rename_i e; exact hf s hs (by simpa using e)
  · rfl

theorem ownedValid_congr {a b : Argument D} (h1 : a.valid = b.valid) (h2 : a.validDeletable = b.validDeletable) :
    a.ownedValid = b.ownedValid := by
  unfold Argument.ownedValid; rw [h1, h2]

theorem retyped_valid (o : Nat) (h v : Option Nat) (a : Argument D) :
    (a.retyped o h v).valid = a.valid ∧ (a.retyped o h v).validDeletable = a.validDeletable := by
  obtain ⟨t, n, act, e, _⟩ := typeConstructor_shape o h v a
  have hf := defaultsConstructor_frame (a.typeConstructor o h v).1
  unfold Argument.retyped
  split
  · rw [hf.2.2.2.2.2.1, hf.2.2.2.2.2.2, e]; exact ⟨rfl, rfl⟩
  · rw [e]; exact ⟨rfl, rfl⟩

theorem withRef_none {α : Type} {st : State D} {ref : Nat} {F : Slot D → State D × Res α} (h : st.atObj ref = none) :
    st.withRef ref F = (st, .ub "dangling Argument&") := by
  unfold State.withRef; rw [h]

theorem withRef_some {α : Type} {st : State D} {ref : Nat} {F : Slot D → State D × Res α} {s : Slot D}
    (h : st.atObj ref = some s) : st.withRef ref F = F s := by
  unfold State.withRef; rw [h]

/-- Every call keeps the bag of deleted-or-owned validators, but for the one handed over. -/
theorem step_validBag {scan : Str → Option D} {st : State D} (hi : GInv full st) (op : Op)
    (hg : (step scan st op).2.goesOn = true) :
    (step scan st op).1.validBag.Perm (st.validBag ++ op.handsOver) := by
  have plain : ∀ {st' : State D}, st'.validBag.Perm st.validBag → op.handsOver = [] →
      st'.validBag.Perm (st.validBag ++ op.handsOver) := by
    intro st' h1 h2; rw [h2, List.append_nil]; exact h1
  cases op with
  | add names =>
    refine plain ?_ rfl
    show (st.addArgument names).1.validBag.Perm st.validBag
    have h := addArgument_outcome hi names
    generalize st.addArgument names = r at h
    have new : ∀ a : Argument D, a.ownedValid = [] → ∀ st' : State D,
        st'.arguments = stableSort slotLt (st.arguments ++ [st.newSlot a]) → st'.freedValids = st.freedValids →
        st'.validBag.Perm st.validBag := by
      intro a ha st' e1 e2
      unfold State.validBag
      rw [e1, e2]
      refine List.Perm.append_left _ ?_
      refine ((stableSort_perm _).flatMap_right _).trans ?_
      rw [List.flatMap_append]
      simp [State.newSlot, ha]
    cases h with
    | positional n st' _ _ _ e _ => subst e; exact new _ rfl _ rfl rfl
    | option f rest fs st' _ _ _ _ _ e _ => subst e; exact new _ rfl _ rfl rfl
    | _ => exact List.Perm.refl _
  | remove names =>
    refine plain ?_ rfl
    show (st.removeArguments names).1.validBag.Perm st.validBag
    have hg' : (st.removeArguments names).2.goesOn = true := hg
    unfold State.removeArguments at hg' ⊢
    by_cases h1 : names.isEmpty = true
    · rw [if_pos h1]
    · rw [if_neg h1] at hg' ⊢
      cases h2 : State.firstUnknown st.byName names with
      | some n => simp only; exact List.Perm.refl _
      | none =>
        rw [h2] at hg'
        simp only at hg' ⊢
        rcases removeLoop_inv names hi.toPreInv with ⟨w, h⟩ | ⟨h, h3⟩
        · generalize State.removeLoop names st = r at h hg' ⊢
          obtain ⟨st1, r⟩ := r
          simp only at h
          subst h
          simp [Res.goesOn] at hg'
        · have hb := removeLoop_validBag names hi.toPreInv h
          generalize State.removeLoop names st = r at h h3 hb ⊢
          obtain ⟨st1, r⟩ := r
          simp only at h h3 hb
          subst h
          simp only
          rw [(sortArguments_ok h3).1]
          exact List.Perm.trans (validBag_of_perm (st := st1) (stableSort_perm st1.arguments) rfl) hb
  | clear =>
    refine plain ?_ rfl
    show st.clear.validBag.Perm st.validBag
    unfold State.validBag State.clear State.deleteAll
    simp
  | flag ref f =>
    refine plain ?_ rfl
    show (st.flag ref f).1.validBag.Perm st.validBag
    cases h : st.atObj ref with
    | none => unfold State.flag; rw [withRef_none h]
    | some s =>
      rcases flag_outcome hi h f with ⟨_, e⟩ | ⟨_, _, _, e⟩ | ⟨_, _, _, e⟩ | ⟨_, _, _, e, _⟩
      · rw [e]
      · rw [e]
      · rw [e]
      · rw [e]
        refine List.Perm.trans (validBag_of_perm (st := st.flagged s f) (stableSort_perm _) rfl) ?_
        exact updNode_validBag (st' := st.flagged s f) (f := fun a => { a with names := sortNames (a.names ++ [f]) })
          rfl (fun _ _ _ => rfl) rfl
  | action ref act =>
    refine plain ?_ rfl
    show (st.action ref act).1.validBag.Perm st.validBag
    cases h : st.atObj ref with
    | none => unfold State.action; rw [withRef_none h]
    | some s =>
      rw [action_eq h, retype_eq]
      refine updNode_validBag (n := s.node) (f := fun _ => Argument.retyped s.obj (st.helpBut s) (st.versionBut s)
        { s.arg with action := act }) rfl (fun t ht e => ?_) rfl
      obtain rfl := eq_of_node hi (State.atObj_some h).1 ht e
      have := retyped_valid t.obj (st.helpBut t) (st.versionBut t) { t.arg with action := act }
      exact ownedValid_congr this.1 this.2
  | nargs ref n =>
    refine plain ?_ rfl
    show (st.nargs ref n).1.validBag.Perm st.validBag
    unfold State.nargs
    cases h : st.atObj ref with
    | none => rw [withRef_none h]
    | some s =>
      rw [withRef_some h, retype_eq]
      refine updNode_validBag (n := s.node) (f := fun _ => Argument.retyped s.obj st.helpOption st.versionOption
        { s.arg with nargs := n }) rfl (fun t ht e => ?_) rfl
      obtain rfl := eq_of_node hi (State.atObj_some h).1 ht e
      have := retyped_valid t.obj st.helpOption st.versionOption { t.arg with nargs := n }
      exact ownedValid_congr this.1 this.2
  | defaults ref ds =>
    refine plain ?_ rfl
    show (st.setDefaults ref ds).1.validBag.Perm st.validBag
    unfold State.setDefaults
    cases h : st.atObj ref with
    | none => rw [withRef_none h]
    | some s =>
      rw [withRef_some h]
      refine updNode_validBag (n := s.node) (f := fun _ => ({ s.arg with defaults := ds } : Argument D).defaultsConstructor.1)
        rfl (fun t ht e => ?_) rfl
      obtain rfl := eq_of_node hi (State.atObj_some h).1 ht e
      have hf := defaultsConstructor_frame ({ t.arg with defaults := ds } : Argument D)
      exact ownedValid_congr hf.2.2.2.2.2.1 hf.2.2.2.2.2.2
  | required ref b =>
    refine plain ?_ rfl
    show (st.required ref b).1.validBag.Perm st.validBag
    cases h : st.atObj ref with
    | none => unfold State.required; rw [withRef_none h]
    | some s =>
      rw [(required_ok hi h b).1]
      refine List.Perm.trans (validBag_of_perm (st := st.modNode s.node fun a => { a with isRequired := b })
        (stableSort_perm _) rfl) ?_
      exact updNode_validBag (n := s.node) (f := fun a => { a with isRequired := b }) rfl (fun _ _ _ => rfl) rfl
  | help ref t =>
    refine plain ?_ rfl
    show (st.setHelp ref t).1.validBag.Perm st.validBag
    unfold State.setHelp
    cases h : st.atObj ref with
    | none => rw [withRef_none h]
    | some s =>
      rw [withRef_some h]
      exact updNode_validBag (n := s.node) (f := fun a => { a with help := t }) rfl (fun _ _ _ => rfl) rfl
  | metavar ref t =>
    refine plain ?_ rfl
    show (st.setMetavar ref t).1.validBag.Perm st.validBag
    unfold State.setMetavar
    cases h : st.atObj ref with
    | none => rw [withRef_none h]
    | some s =>
      rw [withRef_some h]
      exact updNode_validBag (n := s.node) (f := fun a => { a with metavar := t }) rfl (fun _ _ _ => rfl) rfl
  | edit ref items =>
    refine plain ?_ rfl
    show (st.edit scan ref items).1.validBag.Perm st.validBag
    unfold State.edit
    cases h : st.atObj ref with
    | none => rw [withRef_none h]
    | some s =>
      rw [withRef_some h]
      exact updNode_validBag (n := s.node) (f := fun a => { a with elems := items.map (NewElem.elem scan) }) rfl (fun _ _ _ => rfl) rfl
  | behave ref c x =>
    refine plain ?_ rfl
    show (st.behave ref c x).1.validBag.Perm st.validBag
    unfold State.behave
    cases h : st.atObj ref with
    | none => rw [withRef_none h]
    | some s =>
      rw [withRef_some h]
      exact updNode_validBag (n := s.node) (f := fun a => a.behaving c x) rfl (fun a _ _ => behaving_ownedValid _ c x) rfl
  | valid ref v d =>
    have hg' : (st.setValid ref v d).2.goesOn = true := hg
    show (st.setValid ref v d).1.validBag.Perm _
    unfold State.setValid at hg' ⊢
    cases h : st.atObj ref with
    | none => rw [withRef_none h] at hg'; cases hg'
    | some s =>
      rw [withRef_some h]
      obtain ⟨hs, ho⟩ := State.atObj_some h
      have hperm := perm_filter_out hi.nodes hs
      have e1 : ∀ l : List (Slot D), (∀ t ∈ l, t.node ≠ s.node) →
          updNode l s.node (fun a => { a with valid := v, validDeletable := d }) = l := by
        intro l hl
        unfold updNode
        conv => rhs; rw [← List.map_id l]
        refine List.map_congr_left fun t ht => ?_
        have := hl t ht
        simp [this]
      have e2 : (updNode st.arguments s.node (fun a => { a with valid := v, validDeletable := d })).Perm
          ({ s with arg := { s.arg with valid := v, validDeletable := d } } ::
            st.arguments.filter fun t => !(t.node == s.node)) := by
        have := hperm.map (fun t : Slot D => if t.node == s.node then
          { t with arg := { t.arg with valid := v, validDeletable := d } } else t)
        refine this.trans ?_
        rw [List.map_cons]
        simp only [beq_self_eq_true, if_true]
        refine List.Perm.cons _ (List.Perm.of_eq ?_)
        refine e1 _ ?_
        intro t ht
        simpa using (List.mem_filter.1 ht).2
      have hnew : ({ s.arg with valid := v, validDeletable := d } : Argument D).ownedValid = (Op.valid ref v d).handsOver := by
        unfold Argument.ownedValid Op.handsOver
        cases v with
        | none => rfl
        | some v => cases d <;> rfl
      show (State.validBag { st with
        freedValids := st.freedValids ++ s.arg.ownedValid
        arguments := updNode st.arguments s.node (fun a => { a with valid := v, validDeletable := d }) }).Perm _
      unfold State.validBag
      simp only
      have f1 := e2.flatMap_right (fun t => t.arg.ownedValid)
      have f2 := hperm.flatMap_right (fun t => t.arg.ownedValid)
      rw [List.flatMap_cons] at f1 f2
      simp only [hnew] at f1
      refine (List.Perm.append_left _ f1).trans ?_
      rw [List.append_assoc, List.append_assoc]
      refine List.Perm.append_left _ ?_
      refine List.Perm.trans ?_ (f2.append_right _).symm
      rw [List.append_assoc]
      refine List.Perm.append_left _ ?_
      exact List.perm_append_comm
  | dest ref d =>
    refine plain ?_ rfl
    show (st.setDest ref d).1.validBag.Perm st.validBag
    cases h : st.atObj ref with
    | none => unfold State.setDest; rw [withRef_none h]
    | some s =>
      rw [setDest_eq h]
      refine validBag_of_map (List.Perm.refl _) ?_ rfl
      intro t _
      split <;> rfl
  | parse argv =>
    refine plain ?_ rfl
    show (st.parseArguments scan argv).1.validBag.Perm st.validBag
    have hg' : (st.parseArguments scan argv).2.goesOn = true := hg
    rcases parse_config (scan := scan) hi argv with ⟨o, h⟩ | ⟨b, h | ⟨h1, h2, h3⟩⟩
    · rw [h] at hg'; cases hg'
    · exact List.Perm.of_eq (validBag_of_config (congrArg (fun x : State D => x.arguments) h :)
        (congrArg (fun x : State D => x.freedValids) h :))
    · have e := validBag_of_config (st := st.resetAll.withHelp) (congrArg (fun x : State D => x.arguments) h3 :)
        (congrArg (fun x : State D => x.freedValids) h3 :)
      rw [e]
      have e3 : st.resetAll.validBag = st.validBag :=
        validBag_of_config (congrArg (fun x : State D => x.arguments) (resetAll_config st) :) rfl
      rw [← e3]
      unfold State.validBag
      refine List.Perm.append_left _ ?_
      refine ((withHelp_perm st.resetAll).flatMap_right _).trans ?_
      rw [List.flatMap_cons]
      exact List.Perm.refl _
  | _ => exact plain (List.Perm.refl _) rfl

theorem HandedBy.bag {scan : Str → Option D} {handed lent : List Nat} {st : State D}
    (h : HandedBy scan handed lent st) : st.validBag.Perm handed ∧ handed.Nodup := by
  induction h with
  | init => exact ⟨List.Perm.refl _, List.nodup_nil⟩
  | step op h0 hg hn _ ih =>
    refine ⟨(step_validBag h0.reachable.inv op hg).trans (ih.1.append_right _), ?_⟩
    rw [List.nodup_append]
    refine ⟨ih.2, ?_, ?_⟩
    · unfold Op.handsOver; split <;> simp
    · rintro a ha b hb rfl
      exact (hn a hb).1 ha

theorem behaving_borrowed (a : Argument D) (c : List Str → VRes) (x : DestWrite → Option Exn) :
    (a.behaving c x).borrowed = a.borrowed := by
  unfold Argument.borrowed Argument.behaving
  cases a.valid <;> rfl

theorem borrowed_congr {a b : Argument D} (h1 : a.valid = b.valid) (h2 : a.validDeletable = b.validDeletable) :
    a.borrowed = b.borrowed := by
  unfold Argument.borrowed; rw [h1, h2]

/-- A validator used without being owned was so before the call, or is the one the call lends. -/
theorem step_borrowed {scan : Str → Option D} {st : State D} (hi : GInv full st) (op : Op)
    (hg : (step scan st op).2.goesOn = true) {s' : Slot D} (hs' : s' ∈ (step scan st op).1.arguments) {v : Nat}
    (hv : v ∈ s'.arg.borrowed) : (∃ s ∈ st.arguments, v ∈ s.arg.borrowed) ∨ v ∈ op.lends := by
    rcases step_slots hi op hg hs' with ⟨s, hs, hc⟩ | hf
    · have old : s'.arg.borrowed = s.arg.borrowed → (∃ s ∈ st.arguments, v ∈ s.arg.borrowed) ∨ v ∈ op.lends :=
        fun e => .inl ⟨s, hs, e ▸ hv⟩
      have cond : ∀ {p : Prop} [Decidable p] {x : Slot D}, s' = (if p then x else s) →
          x.arg.borrowed = s.arg.borrowed → (∃ s ∈ st.arguments, v ∈ s.arg.borrowed) ∨ v ∈ op.lends := by
        intro p _ x e hx
        refine old ?_
        rw [e]; split
        · exact hx
        · rfl
      cases op <;> simp only [ArgChange] at hc
      case action => exact cond hc (borrowed_congr (retyped_valid _ _ _ _).1 (retyped_valid _ _ _ _).2)
      case nargs => exact cond hc (borrowed_congr (retyped_valid _ _ _ _).1 (retyped_valid _ _ _ _).2)
      case defaults ref ds =>
        have hf := defaultsConstructor_frame ({ s.arg with defaults := ds } : Argument D)
        exact cond hc (borrowed_congr hf.2.2.2.2.2.1 hf.2.2.2.2.2.2)
      case valid ref w d =>
        by_cases e : s.obj = ref
        · rw [if_pos e] at hc
          subst hc
          right
          unfold Argument.borrowed at hv
          unfold Op.lends
          cases w with
          | none => cases hv
          | some w => cases d <;> simpa using hv
        · rw [if_neg e] at hc
          exact old (by rw [hc])
      case behave => exact cond hc (behaving_borrowed _ _ _)
      case parse =>
        refine old ?_
        have e : s'.arg.config = s.arg.config := (congrArg (fun x : Slot D => x.arg) hc :)
        exact borrowed_congr (congrArg (fun x : Argument D => x.valid) e :)
          (congrArg (fun x : Argument D => x.validDeletable) e :)
      all_goals first
        | exact cond hc rfl
        | exact old (by rw [hc])
        | (obtain ⟨ns, e⟩ := hc; exact old (by rw [e]; rfl))
    · exfalso
      have none_borrowed : s'.arg.valid = none → False := by
        intro e; unfold Argument.borrowed at hv; rw [e] at hv; cases hv
      cases op <;> simp only [ArgFresh] at hf
      case add =>
        rcases hf.2.2 with ⟨n, e⟩ | ⟨fs, e⟩ <;> exact none_borrowed (by rw [e])
      case parse =>
        have := (congrArg (fun x : Argument D => x.valid) hf.2.2.2 :)
        exact none_borrowed this

theorem HandedBy.borrowed {scan : Str → Option D} {handed lent : List Nat} {st : State D}
    (h : HandedBy scan handed lent st) : ∀ s ∈ st.arguments, ∀ v ∈ s.arg.borrowed, v ∈ lent := by
  induction h with
  | init => intro s hs; cases hs
  | step op h0 hg hn hl ih =>
    intro s' hs' v hv
    rw [List.mem_append]
    rcases step_borrowed h0.reachable.inv op hg hs' hv with ⟨s, hs, h⟩ | h
    · exact .inl (ih s hs v h)
    · exact .inr h

/-- C53. Validators handed over (`valid(v)`) or lent (`valid(v, false)`), each handed over at most once and
not both. In every state of such a history: nothing was deleted twice and only handed-over validators were
deleted; an argument never uses a deleted validator; two arguments never own the same validator; and
destroying the parser then deletes what is left, so that exactly the handed-over validators have been
deleted, each once. -/
theorem C53_validators_freed_once {scan : Str → Option D} {handed lent : List Nat} {st : State D}
    (h : HandedBy scan handed lent st) :
    st.freedValids.Nodup ∧ (∀ v ∈ st.freedValids, v ∈ handed ∧ v ∉ lent) ∧
    (∀ s ∈ st.arguments, ∀ v, s.arg.valid = some v → v.id ∉ st.freedValids) ∧
    st.deleteAll.freedValids.Perm handed ∧ st.deleteAll.freedValids.Nodup := by
  obtain ⟨hp, hn⟩ := h.bag
  have hnd : st.validBag.Nodup := hp.nodup_iff.2 hn
  have disjoint : ∀ {handed lent : List Nat} {st : State D}, HandedBy scan handed lent st →
      ∀ v ∈ lent, v ∉ handed := by
    intro handed lent st h
    induction h with
    | init => intro v hv; cases hv
    | step op _ _ h1 h2 ih =>
      intro v hv hv'
      rcases List.mem_append.1 hv with hv | hv <;> rcases List.mem_append.1 hv' with hv' | hv'
      · exact ih v hv hv'
      · exact (h1 v hv').2 hv
      · exact h2 v hv hv'
      · unfold Op.lends at hv
        unfold Op.handsOver at hv'
        split at hv
        · simp at hv'
        · cases hv
  have hd := disjoint h
  have hfreed : ∀ v ∈ st.freedValids, v ∈ handed := fun v hv =>
    hp.mem_iff.1 (List.mem_append.2 (.inl hv))
  have hnd' := hnd
  unfold State.validBag at hnd'
  rw [List.nodup_append] at hnd'
  refine ⟨hnd'.1, fun v hv => ⟨hfreed v hv, fun hl => hd v hl (hfreed v hv)⟩, ?_, hp, hnd⟩
  intro s hs v hv hf
  cases hdel : s.arg.validDeletable with
  | true =>
    refine hnd'.2.2 v.id hf v.id (List.mem_flatMap.2 ⟨s, hs, ?_⟩) rfl
    unfold Argument.ownedValid; rw [hv]; simp [hdel]
  | false =>
    refine hd v.id (h.borrowed s hs v.id ?_) (hfreed _ hf)
    unfold Argument.borrowed; rw [hv]; simp [hdel]

/-- A history handing over two validators (addresses 1 and 2) and lending a third: the first is replaced by
the second, which goes away with its argument. -/
example : ∃ st : State Unit, HandedBy demoScan [1, 2] [7] st ∧ st.freedValids = [1, 2] := by
  let st1 := (step demoScan (State.init : State Unit) (.add ["-a".toList])).1
  let st2 := (step demoScan st1 (.valid 0 (some ⟨1, .accept⟩) true)).1
  let st3 := (step demoScan st2 (.valid 0 (some ⟨2, .accept⟩) true)).1
  let st4 := (step demoScan st3 (.add ["-b".toList])).1
  let st5 := (step demoScan st4 (.valid 1 (some ⟨7, .accept⟩) false)).1
  let st6 := (step demoScan st5 (.remove ["-a".toList])).1
  have h1 : HandedBy demoScan [] [] st1 :=
    .step (.add ["-a".toList]) .init (by decide +kernel) (by simp [Op.handsOver]) (by simp [Op.lends])
  have h2 : HandedBy demoScan [1] [] st2 :=
    .step (.valid 0 (some ⟨1, .accept⟩) true) h1 (by decide +kernel) (by simp [Op.handsOver]) (by simp [Op.lends])
  have h3 : HandedBy demoScan [1, 2] [] st3 :=
    .step (.valid 0 (some ⟨2, .accept⟩) true) h2 (by decide +kernel) (by simp [Op.handsOver]) (by simp [Op.lends])
  have h4 : HandedBy demoScan [1, 2] [] st4 :=
    .step (.add ["-b".toList]) h3 (by decide +kernel) (by simp [Op.handsOver]) (by simp [Op.lends])
  have h5 : HandedBy demoScan [1, 2] [7] st5 :=
    .step (.valid 1 (some ⟨7, .accept⟩) false) h4 (by decide +kernel) (by simp [Op.handsOver]) (by simp [Op.lends])
  have h6 : HandedBy demoScan [1, 2] [7] st6 :=
    .step (.remove ["-a".toList]) h5 (by decide +kernel) (by simp [Op.handsOver]) (by simp [Op.lends])
  exact ⟨st6, h6, by decide +kernel⟩

/-! ### C50 -/

/-- C50. `dest()` on a live argument always succeeds. The reference it returns is new; behind it is the
argument with the same settings and values (only the destination is recorded, and the remembered
`defaults()` list, which `getDefaults()` shows, is lost); every name that led to the argument leads to the
new reference, all other names and arguments are as before, and so is the listing order; the old reference
is dead: any use of it is undefined behaviour. -/
theorem C50_dest_keeps_configuration {scan : Str → Option D} {st : State D} (hr : Reachable scan st) {ref : Nat}
    {s : Slot D} (h : st.atObj ref = some s) (d : Dest) :
    ∃ new, (st.setDest ref d).2 = .ok new ∧ new ≠ ref ∧ st.atObj new = none ∧
      (st.setDest ref d).1.atObj new =
        some { s with obj := new, arg := { s.arg with dest := some d, defaults := [] } } ∧
      (∀ o, o ≠ ref → o ≠ new → (st.setDest ref d).1.atObj o = st.atObj o) ∧
      (∀ n, (st.setDest ref d).1.resolve n = if st.resolve n = some ref then some new else st.resolve n) ∧
      (st.setDest ref d).1.arguments.map (·.arg.names) = st.arguments.map (·.arg.names) ∧
      (st.setDest ref d).1.atObj ref = none ∧ ref ∈ (st.setDest ref d).1.freedObjs ∧
      (∀ d', ∃ w, ((st.setDest ref d).1.setDest ref d').2 = .ub w) := by
  have hi := hr.inv
  have hi' : Inv (st.setDest ref d).1 := setDest_inv hi ref d
  obtain ⟨hs, ho⟩ := State.atObj_some h
  rw [setDest_eq h] at hi' ⊢
  simp only at hi' ⊢
  have hfresh : ∀ t ∈ st.arguments, t.obj ≠ st.nextObj := fun t ht e => by
    have := hi.objsLt t ht; omega
  have hmem : ∀ t ∈ st.arguments, (t.node == s.node) = true ↔ t.obj = ref := by
    intro t ht
    constructor
    · intro e; rw [eq_of_node hi hs ht (by simpa using e)]; exact ho
    · intro e; rw [eq_of_obj hi hs ht (e.trans ho.symm)]; simp
  have hnew : ∀ {o : Nat}, st.atObj o = none ↔ ∀ t ∈ st.arguments, t.obj ≠ o := by
    intro o
    refine ⟨atObj_none, fun hh => ?_⟩
    refine List.find?_eq_none.2 fun t ht => ?_
    have := hh t ht
    simpa using this
  have hold : ∀ o, o ≠ ref → o ≠ st.nextObj → (State.atObj { st with
      arguments := st.arguments.map fun t => if t.node == s.node then
        { t with obj := st.nextObj, arg := { t.arg with defaults := [], dest := some d } } else t
      nextObj := st.nextObj + 1, freedObjs := st.freedObjs ++ [s.obj] } o) = st.atObj o := by
    intro o h1 h2
    unfold State.atObj
    simp only
    have : ∀ l : List (Slot D), (∀ t ∈ l, t ∈ st.arguments) → (l.map fun t => if t.node == s.node then
        { t with obj := st.nextObj, arg := { t.arg with defaults := [], dest := some d } } else t).find?
          (fun t => t.obj == o) = l.find? (fun t => t.obj == o) := by
      intro l hl
      induction l with
      | nil => rfl
      | cons t l ih =>
        have ih := ih fun t ht => hl t (List.mem_cons_of_mem _ ht)
        have := hmem t (hl t List.mem_cons_self)
        rw [List.map_cons, List.find?_cons, List.find?_cons, ih]
        by_cases e : (t.node == s.node) = true
        · rw [if_pos e]
          have e1 : (st.nextObj == o) = false := by simpa using Ne.symm h2
          have e2 : (t.obj == o) = false := by rw [this.1 e]; simpa using Ne.symm h1
          simp only [e1, e2]
        · rw [if_neg e]
    exact this _ fun _ h => h
  have hnewmem : { s with obj := st.nextObj, arg := { s.arg with dest := some d, defaults := [] } } ∈
      (st.arguments.map fun t => if t.node == s.node then
        { t with obj := st.nextObj, arg := { t.arg with defaults := [], dest := some d } } else t) := by
    refine List.mem_map.2 ⟨s, hs, ?_⟩
    rw [if_pos (by simp)]
  have hdead : ∀ t ∈ (st.arguments.map fun t => if t.node == s.node then
        { t with obj := st.nextObj, arg := { t.arg with defaults := [], dest := some d } } else t), t.obj ≠ ref := by
    intro t ht
    obtain ⟨u, hu, rfl⟩ := List.mem_map.1 ht
    by_cases e : (u.node == s.node) = true
    · rw [if_pos e]
      intro e'
      exact hfresh s hs (ho.trans e'.symm)
    · rw [if_neg e]
      exact fun e' => e ((hmem u hu).2 e')
  refine ⟨st.nextObj, rfl, fun e => hfresh s hs (ho.trans e.symm), hnew.2 hfresh, ?_, hold, ?_, ?_, ?_, ?_, ?_⟩
  · exact State.atObj_of_mem hi'.objs hnewmem
  · intro n
    cases hl : lookupName st.byName n with
    | none =>
      unfold State.resolve State.getArgument
      simp [hl]
    | some v =>
      obtain ⟨t, ht, e, _⟩ := hi.entries _ (lookupName_mem hl)
      simp only at e
      subst e
      rw [resolve_of_entry hi ht hl]
      by_cases et : t.obj = ref
      · rw [et, if_pos rfl]
        have ets : t = s := eq_of_obj hi hs ht (et.trans ho.symm)
        subst ets
        exact resolve_of_entry hi' hnewmem hl
      · rw [if_neg (fun e => et (Option.some.inj e))]
        refine resolve_of_entry hi' (s := t) (List.mem_map.2 ⟨t, ht, ?_⟩) hl
        rw [if_neg (fun e => et ((hmem t ht).1 e))]
  · rw [List.map_map]
    refine List.map_congr_left fun t _ => ?_
    simp only [Function.comp]
    split <;> rfl
  · refine List.find?_eq_none.2 fun t ht => ?_
    simpa using hdead t ht
  · rw [ho]; simp
  · intro d'
    refine ⟨"dangling Argument&", ?_⟩
    unfold State.setDest
    rw [withRef_none]
    refine List.find?_eq_none.2 fun t ht => ?_
    simpa using hdead t ht

/-- `dest()` on the option `--out` of `demo`, and what it loses. -/
example : (demo.atObj 0).map (fun s => s.arg.defaults) = some [] ∧ (demo.atObj 0).isSome = true ∧
    (demo.setDest 0 ⟨9, .scalar, false, true, fun _ => none⟩).2 = .ok 3 := by decide +kernel

end BletArgs
