import Verif.Lemmas.Slots
import Verif.Lemmas.TypeCore
import Verif.Props.Registry2
/-
How the calls other than `parseArguments` end, which references survive a call, and what calls do to
the help and version pointers.
-/
namespace BletArgs
open Spec
variable {D : Type} {full : Prop}

/-! ### Results -/

theorem typeConstructor_goesOn (self : Nat) (h v : Option Nat) (a : Argument D) :
    (a.typeConstructor self h v).2.2.2.goesOn = true := by
  rw [typeConstructor_core]
  generalize tcCore a.isPositional a.action a.nargs (h == none || h == some self) (v == none || v == some self) = c
  cases c <;> rfl

theorem defaultsConstructor_goesOn (a : Argument D) : a.defaultsConstructor.2.goesOn = true := by
  unfold Argument.defaultsConstructor
  split
  · cases ht : a.type <;> simp only <;> (repeat' split) <;> rfl
  · rfl

theorem retype_goesOn (st : State D) (s : Slot D) (a : Argument D) : (st.retype s a).2.goesOn = true := by
  unfold State.retype
  have h1 := typeConstructor_goesOn s.obj st.helpOption st.versionOption a
  generalize a.typeConstructor s.obj st.helpOption st.versionOption = r at h1 ⊢
  obtain ⟨a1, h, v, r⟩ := r
  cases r with
  | ok u => exact defaultsConstructor_goesOn a1
  | throw e => rfl
  | _ => cases h1

theorem withRef_dead {α : Type} {st : State D} {ref : Nat} (h : st.atObj ref = none) (f : Slot D → State D × Res α) :
    st.withRef ref f = (st, .ub "dangling Argument&") := by
  unfold State.withRef; rw [h]

theorem withRef_live {α : Type} {st : State D} {ref : Nat} {s : Slot D} (h : st.atObj ref = some s)
    (f : Slot D → State D × Res α) : st.withRef ref f = f s := by
  unfold State.withRef; rw [h]

/-- A call other than `parseArguments` returns or throws, unless its reference is dead or it removes a
name twice. -/
theorem call_outcome {scan : Str → Option D} {st : State D} (hi : GInv full st) (op : Op) (hp : ∀ argv, op ≠ .parse argv) :
    (step scan st op).2.goesOn = true ∨
    ((∃ w, (step scan st op).2 = .ub w) ∧
      ((∃ r, op.ref = some r ∧ st.atObj r = none) ∨ ∃ ns, op = .remove ns ∧ ¬ns.Nodup)) := by
  have key : ∀ (r : Nat) (g : Slot D → State D × Res Unit), (∀ s, st.atObj r = some s → (g s).2.goesOn = true) →
      (st.withRef r g).2.goesOn = true ∨ ((∃ w, (st.withRef r g).2 = .ub w) ∧ st.atObj r = none) := by
    intro r g hg
    cases h : st.atObj r with
    | none => rw [withRef_dead h]; exact .inr ⟨⟨_, rfl⟩, rfl⟩
    | some s => rw [withRef_live h]; exact .inl (hg s h)
  have fin : ∀ (r : Nat) (g : Slot D → State D × Res Unit), op.ref = some r →
      (∀ s, st.atObj r = some s → (g s).2.goesOn = true) → (step scan st op).2 = (st.withRef r g).2 → _ :=
    fun r g hr hg e => (by
      rw [e]
      exact (key r g hg).imp id fun h => ⟨h.1, .inl ⟨r, hr, h.2⟩⟩ :
      (step scan st op).2.goesOn = true ∨
      ((∃ w, (step scan st op).2 = .ub w) ∧
        ((∃ r, op.ref = some r ∧ st.atObj r = none) ∨ ∃ ns, op = .remove ns ∧ ¬ns.Nodup)))
  cases op with
  | parse argv => exact absurd rfl (hp argv)
  | add names =>
    left
    show (st.addArgument names).2.void.goesOn = true
    have h := addArgument_outcome hi names
    generalize st.addArgument names = r at h
    cases h <;> rfl
  | remove names =>
    rcases removeArguments_cases hi names with ⟨_, e⟩ | ⟨_, _, e⟩ | ⟨_, _, hn, w, e⟩ | ⟨_, _, _, e⟩
    · left; show (st.removeArguments names).2.goesOn = true; rw [e]; rfl
    · left; show (st.removeArguments names).2.goesOn = true; rw [e]; rfl
    · right; exact ⟨⟨w, e⟩, .inr ⟨names, rfl, hn⟩⟩
    · left; show (st.removeArguments names).2.goesOn = true; rw [e]; rfl
  | flag ref f =>
    refine fin ref _ rfl (fun s h => ?_) rfl
    have e : (st.flag ref f) = _ := withRef_live h _
    rw [← e]
    rcases flag_outcome hi h f with ⟨_, e⟩ | ⟨_, _, _, e⟩ | ⟨_, _, _, e⟩ | ⟨_, _, _, e, _⟩ <;> rw [e] <;> rfl
  | action ref act =>
    refine fin ref _ rfl (fun s h => ?_) rfl
    exact retype_goesOn ..
  | nargs ref n =>
    refine fin ref _ rfl (fun s h => ?_) rfl
    exact retype_goesOn ..
  | defaults ref ds =>
    refine fin ref _ rfl (fun s h => ?_) rfl
    exact defaultsConstructor_goesOn _
  | required ref b =>
    refine fin ref _ rfl (fun s h => ?_) rfl
    have e : (st.required ref b) = _ := withRef_live h _
    rw [← e, (required_ok hi h b).1]
    rfl
  | help ref _ | metavar ref _ | behave ref _ _ | edit ref _ | valid ref _ _ => exact fin ref _ rfl (fun s h => rfl) rfl
  | dest ref d =>
    cases h : st.atObj ref with
    | none =>
      right
      refine ⟨⟨"dangling Argument&", ?_⟩, .inl ⟨ref, rfl, h⟩⟩
      show (st.setDest ref d).2.void = _
      unfold State.setDest
      rw [withRef_dead h]; rfl
    | some s =>
      left
      show (st.setDest ref d).2.void.goesOn = true
      rw [setDest_eq h]; rfl
  | _ => left; rfl

/-! ### References -/

/-- The object survives the calls other than `clear`, `removeArguments` and its own `dest`. -/
theorem step_obj_stays {scan : Str → Option D} {st : State D} (hi : GInv full st) (op : Op)
    (hg : (step scan st op).2.goesOn = true) {s : Slot D} (hs : s ∈ st.arguments) (hc : op ≠ .clear)
    (hr : ∀ ns, op ≠ .remove ns) (hd : ∀ d, op ≠ .dest s.obj d) :
    ∃ s' ∈ (step scan st op).1.arguments, s'.obj = s.obj := by
  have same : ∀ st' : State D, SameReg st st' → ∃ s' ∈ st'.arguments, s'.obj = s.obj := by
    intro st' h
    have : s.sig ∈ st'.arguments.map Slot.sig := by rw [h.sig]; exact List.mem_map.2 ⟨s, hs, rfl⟩
    obtain ⟨s', hs', e⟩ := List.mem_map.1 this
    exact ⟨s', hs', (congrArg Slot.obj e :)⟩
  have upd : ∀ (l : List (Slot D)) (node : Nat) (f : Argument D → Argument D), s ∈ l →
      ∃ s' ∈ updNode l node f, s'.obj = s.obj := by
    intro l node f h
    refine ⟨_, List.mem_map.2 ⟨s, h, rfl⟩, ?_⟩
    split <;> rfl
  by_cases ht : op.isTweak = true
  · exact same _ (tweak_sameReg hi op ht)
  cases op with
  | add names =>
    have h := addArgument_outcome hi names
    change ∃ s' ∈ (st.addArgument names).1.arguments, s'.obj = s.obj
    generalize st.addArgument names = r at h
    cases h with
    | positional n st' _ _ _ e _ =>
      subst e
      exact ⟨s, by simp only; rw [mem_stableSort, List.mem_append]; exact .inl hs, rfl⟩
    | option f rest fs st' _ _ _ _ _ e _ =>
      subst e
      exact ⟨s, by simp only; rw [mem_stableSort, List.mem_append]; exact .inl hs, rfl⟩
    | _ => exact ⟨s, hs, rfl⟩
  | remove names => exact absurd rfl (hr names)
  | clear => exact absurd rfl hc
  | flag ref f =>
    change ∃ s' ∈ (st.flag ref f).1.arguments, s'.obj = s.obj
    cases h : st.atObj ref with
    | none => unfold State.flag; rw [withRef_dead h]; exact ⟨s, hs, rfl⟩
    | some t =>
      rcases flag_outcome hi h f with ⟨_, e⟩ | ⟨_, _, _, e⟩ | ⟨_, _, _, e⟩ | ⟨_, _, _, e, _⟩ <;> rw [e]
      · exact ⟨s, hs, rfl⟩
      · exact ⟨s, hs, rfl⟩
      · exact ⟨s, hs, rfl⟩
      · obtain ⟨s', h', e'⟩ := upd st.arguments t.node (fun a => { a with names := sortNames (a.names ++ [f]) }) hs
        exact ⟨s', by simp only; rw [mem_stableSort]; exact h', e'⟩
  | required ref b =>
    change ∃ s' ∈ (st.required ref b).1.arguments, s'.obj = s.obj
    cases h : st.atObj ref with
    | none => unfold State.required; rw [withRef_dead h]; exact ⟨s, hs, rfl⟩
    | some t =>
      rw [(required_ok hi h b).1]
      obtain ⟨s', h', e'⟩ := upd st.arguments t.node (fun a => { a with isRequired := b }) hs
      exact ⟨s', by simp only; rw [mem_stableSort]; exact h', e'⟩
  | dest ref d =>
    change ∃ s' ∈ (st.setDest ref d).1.arguments, s'.obj = s.obj
    cases h : st.atObj ref with
    | none => unfold State.setDest; rw [withRef_dead h]; exact ⟨s, hs, rfl⟩
    | some t =>
      rw [setDest_eq h]
      refine ⟨_, List.mem_map.2 ⟨s, hs, rfl⟩, ?_⟩
      obtain ⟨ht', ho⟩ := State.atObj_some h
      have : s.node ≠ t.node := by
        intro e
        obtain rfl := eq_of_node hi ht' hs e
        exact hd d (by rw [ho])
      simp [this]
  | parse argv =>
    rcases parse_sameReg hi argv hg with h | ⟨_, _, h⟩
    · exact same _ h
    · have hm : s.sig ∈ st.resetAll.withHelp.arguments.map Slot.sig := by
        refine List.mem_map.2 ⟨{ s with arg := s.arg.reset }, ?_, rfl⟩
        unfold State.withHelp
        simp only
        rw [mem_stableSort, List.mem_append]
        exact .inl (List.mem_map.2 ⟨s, hs, rfl⟩)
      rw [← h.sig] at hm
      obtain ⟨s', hs', e⟩ := List.mem_map.1 hm
      exact ⟨s', hs', (congrArg Slot.obj e :)⟩
  | _ => exact absurd rfl ht

theorem ArgChange.obj {st : State D} {op : Op} {s s' : Slot D} (h : ArgChange st op s s') :
    s'.obj = s.obj ∨ (∃ d, op = .dest s.obj d) ∧ s'.obj = st.nextObj := by
  cases op with
  | dest ref d =>
    simp only [ArgChange] at h
    split at h
    · next e => subst e; exact .inr ⟨⟨d, rfl⟩, by rw [h]⟩
    · exact .inl (by rw [h])
  | action | nargs | defaults | required | help | metavar | behave | edit | valid =>
    simp only [ArgChange] at h
    split at h <;> exact .inl (by rw [h])
  | flag | remove => obtain ⟨_, rfl⟩ := h; exact .inl rfl
  | parse => exact .inl (congrArg Slot.obj h :)
  | _ => simp only [ArgChange] at h; exact .inl (by rw [h])

theorem ArgFresh.obj {st : State D} {op : Op} {s' : Slot D} (h : ArgFresh st op s') : s'.obj = st.nextObj := by
  cases op with
  | add => exact h.2.1
  | parse => exact h.2.2.1
  | _ => exact h.elim

/-- …and the call does to it what `ArgChange` says. -/
theorem step_stays {scan : Str → Option D} {st : State D} (hi : GInv full st) (op : Op)
    (hg : (step scan st op).2.goesOn = true) {s : Slot D} (hs : s ∈ st.arguments) (hc : op ≠ .clear)
    (hr : ∀ ns, op ≠ .remove ns) (hd : ∀ d, op ≠ .dest s.obj d) :
    ∃ s' ∈ (step scan st op).1.arguments, s'.obj = s.obj ∧ ArgChange st op s s' := by
  obtain ⟨s', hs', e⟩ := step_obj_stays hi op hg hs hc hr hd
  refine ⟨s', hs', e, ?_⟩
  have hlt := hi.objsLt s hs
  rcases step_slots hi op hg hs' with ⟨u, hu, h⟩ | h
  · rcases h.obj with e' | ⟨_, e'⟩
    · obtain rfl := eq_of_obj hi hs hu (e'.symm.trans e)
      exact h
    · omega
  · have := h.obj; omega

/-! ### The help and version pointers -/

/-- The pointers designate listed arguments with the corresponding action. -/
structure PtrInv (l : List (Slot D)) (h v : Option Nat) : Prop where
  help : ∀ o, h = some o → ∃ s ∈ l, s.obj = o ∧ s.arg.action = .help
  version : ∀ o, v = some o → ∃ s ∈ l, s.obj = o ∧ s.arg.action = .version

def State.Ptrs (st : State D) : Prop := PtrInv st.arguments st.helpOption st.versionOption

theorem retyped_action (self : Nat) (h v : Option Nat) (a : Argument D) :
    (a.retyped self h v).action = a.action ∨
    ((a.action = .none ∨ a.action = .infinite) ∧ (a.retyped self h v).action = .infinite) := by
  have e : (a.retyped self h v).action = (a.typeConstructor self h v).1.action := by
    unfold Argument.retyped
    have h2 := defaultsConstructor_frame (a.typeConstructor self h v).1
    split
    · exact h2.2.2.2.1
    · rfl
  rw [e, typeConstructor_core]
  have hk := tcCore_kind a.isPositional a.action a.nargs (h == none || h == some self) (v == none || v == some self)
  unfold tcCore at hk ⊢
  cases ha : a.action <;> cases a.isPositional <;> simp [ha] <;> (repeat' split) <;> simp [TC.apply, ha]

/-- What `typeConstructor_` does to the help pointer. -/
theorem tc_help (self : Nat) (h v : Option Nat) (a : Argument D) :
    (a.typeConstructor self h v).2.1 = h ∨
    ((a.typeConstructor self h v).2.1 = some self ∧ a.action = .help ∧ (h = none ∨ h = some self)) := by
  rw [typeConstructor_core]
  have hk := tcCore_kind a.isPositional a.action a.nargs (h == none || h == some self) (v == none || v == some self)
  cases ht : tcCore a.isPositional a.action a.nargs (h == none || h == some self) (v == none || v == some self) with
  | setHelp =>
    right
    rw [ht] at hk
    refine ⟨rfl, ?_⟩
    cases hko : kindOf a.isPositional a.action a.nargs with
    | none => rw [hko] at hk; cases hk
    | some km =>
      obtain ⟨k, m⟩ := km
      rw [hko] at hk
      cases k <;> simp at hk
      · exact ⟨hk.2.2.1, by cases h with | none => exact .inl rfl | some x => right; simpa using hk.1⟩
      · exact absurd hk.1 (by split <;> simp)
  | _ => left; rfl

theorem tc_version (self : Nat) (h v : Option Nat) (a : Argument D) :
    (a.typeConstructor self h v).2.2.1 = v ∨
    ((a.typeConstructor self h v).2.2.1 = some self ∧ a.action = .version ∧ (v = none ∨ v = some self)) := by
  rw [typeConstructor_core]
  have hk := tcCore_kind a.isPositional a.action a.nargs (h == none || h == some self) (v == none || v == some self)
  cases ht : tcCore a.isPositional a.action a.nargs (h == none || h == some self) (v == none || v == some self) with
  | setVersion =>
    right
    rw [ht] at hk
    refine ⟨rfl, ?_⟩
    cases hko : kindOf a.isPositional a.action a.nargs with
    | none => rw [hko] at hk; cases hk
    | some km =>
      obtain ⟨k, m⟩ := km
      rw [hko] at hk
      cases k <;> simp at hk
      · exact absurd hk.1 (by split <;> simp)
      · exact ⟨hk.2.2.1, by cases v with | none => exact .inl rfl | some x => right; simpa using hk.1⟩
  | _ => left; rfl

/-- The calls that leave the pointers alone. -/
def Op.keepsPtrs : Op → Bool
  | .action _ _ | .nargs _ _ | .remove _ | .clear | .parse _ => false
  | _ => true

theorem withRef_ptrs {α : Type} {st : State D} {ref : Nat} {f : Slot D → State D × Res α}
    (h : ∀ s, (f s).1.helpOption = st.helpOption ∧ (f s).1.versionOption = st.versionOption) :
    (st.withRef ref f).1.helpOption = st.helpOption ∧ (st.withRef ref f).1.versionOption = st.versionOption := by
  unfold State.withRef
  split
  · exact ⟨rfl, rfl⟩
  · exact h _

theorem sortArguments_ptrs (st : State D) : st.sortArguments.1.helpOption = st.helpOption ∧
    st.sortArguments.1.versionOption = st.versionOption := by
  unfold State.sortArguments; split <;> exact ⟨rfl, rfl⟩

theorem step_keepsPtrs {scan : Str → Option D} {st : State D} (hi : GInv full st) (op : Op) (h : op.keepsPtrs = true) :
    (step scan st op).1.helpOption = st.helpOption ∧ (step scan st op).1.versionOption = st.versionOption := by
  cases op with
  | action | nargs | remove | clear | parse => cases h
  | add names =>
    have h := addArgument_outcome hi names
    change (st.addArgument names).1.helpOption = _ ∧ (st.addArgument names).1.versionOption = _
    generalize st.addArgument names = r at h
    cases h with
    | positional n st' _ _ _ e _ => subst e; exact ⟨rfl, rfl⟩
    | option f rest fs st' _ _ _ _ _ e _ => subst e; exact ⟨rfl, rfl⟩
    | _ => exact ⟨rfl, rfl⟩
  | flag ref f =>
    refine withRef_ptrs fun s => ?_
    split
    · exact ⟨rfl, rfl⟩
    · split
      · exact ⟨rfl, rfl⟩
      · split
        · exact ⟨rfl, rfl⟩
        · exact sortArguments_ptrs _
  | required ref b => exact withRef_ptrs fun s => sortArguments_ptrs _
  | defaults ref _ | help ref _ | metavar ref _ | behave ref _ _ | edit ref _ | valid ref _ _ | dest ref _ => exact withRef_ptrs fun s => ⟨rfl, rfl⟩
  | _ => exact ⟨rfl, rfl⟩

theorem removeStep_ptrs {st : State D} (hi : GPre full st) (hp : st.Ptrs) {n : Str} {s : Slot D} (hs : s ∈ st.arguments) :
    (st.removeStep n s).Ptrs ∧
    (∀ o, (st.removeStep n s).helpOption = some o → st.helpOption = some o) ∧
    (∀ o, (st.removeStep n s).versionOption = some o → st.versionOption = some o) ∧
    (∀ t ∈ (st.removeStep n s).arguments, st.helpOption = some t.obj → (st.removeStep n s).helpOption = some t.obj) ∧
    (∀ t ∈ (st.removeStep n s).arguments, st.versionOption = some t.obj →
      (st.removeStep n s).versionOption = some t.obj) := by
  have inj : ∀ t ∈ st.arguments, ∀ u ∈ st.arguments, t.obj = u.obj → t = u :=
    fun t ht u hu e => inj_of_nodup Slot.obj hi.objs ht hu e
  unfold State.removeStep
  simp only
  split
  · refine ⟨⟨?_, ?_⟩, fun _ h => h, fun _ h => h, fun _ _ h => h, fun _ _ h => h⟩
    · intro o ho
      obtain ⟨t, ht, e1, e2⟩ := hp.help o ho
      refine ⟨_, List.mem_map.2 ⟨t, ht, rfl⟩, ?_⟩
      split <;> exact ⟨e1, e2⟩
    · intro o ho
      obtain ⟨t, ht, e1, e2⟩ := hp.version o ho
      refine ⟨_, List.mem_map.2 ⟨t, ht, rfl⟩, ?_⟩
      split <;> exact ⟨e1, e2⟩
  · have stay : ∀ t ∈ st.arguments, t.obj ≠ s.obj → t ∈ st.arguments.filter (fun t => !(t.node == s.node)) := by
      intro t ht hne
      refine List.mem_filter.2 ⟨ht, ?_⟩
      have : t.node ≠ s.node := fun e => hne (by rw [inj_of_nodup Slot.node hi.nodes ht hs e])
      simpa using this
    have gone : ∀ t ∈ st.arguments.filter (fun t => !(t.node == s.node)), t.obj ≠ s.obj := by
      intro t ht e
      obtain ⟨h1, h2⟩ := List.mem_filter.1 ht
      have := inj t h1 s hs e
      simp [this] at h2
    have clash : st.helpOption = some s.obj → st.versionOption ≠ some s.obj := by
      intro h1 h2
      obtain ⟨t, ht, e1, e2⟩ := hp.help _ h1
      obtain ⟨u, hu, e3, e4⟩ := hp.version _ h2
      have := inj t ht u hu (e1.trans e3.symm)
      subst this
      rw [e2] at e4; cases e4
    refine ⟨⟨?_, ?_⟩, ?_, ?_, ?_, ?_⟩
    · intro o ho
      simp only at ho
      split at ho
      · cases ho
      · next hne =>
        obtain ⟨t, ht, e1, e2⟩ := hp.help o ho
        refine ⟨t, stay t ht ?_, e1, e2⟩
        rintro e
        exact hne (by rw [ho, ← e, e1]; simp)
    · intro o ho
      simp only at ho
      split at ho
      · next h1 =>
        obtain ⟨t, ht, e1, e2⟩ := hp.version o ho
        refine ⟨t, stay t ht ?_, e1, e2⟩
        rintro e
        exact clash (by simpa using h1) (by rw [ho, ← e, e1])
      · split at ho
        · cases ho
        · next hne =>
          obtain ⟨t, ht, e1, e2⟩ := hp.version o ho
          refine ⟨t, stay t ht ?_, e1, e2⟩
          rintro e
          exact hne (by rw [ho, ← e, e1]; simp)
    · intro o ho
      simp only at ho
      split at ho
      · cases ho
      · exact ho
    · intro o ho
      simp only at ho
      split at ho
      · exact ho
      · split at ho
        · cases ho
        · exact ho
    · intro t ht ho
      have := gone t ht
      simp only
      rw [if_neg, ho]
      rw [ho]; simpa using this
    · intro t ht ho
      have := gone t ht
      simp only
      split
      · exact ho
      · rw [if_neg, ho]
        rw [ho]; simpa using this

theorem removeLoop_slots (rm : List Str) {st : State D} (hi : GPre full st) :
    ∀ t ∈ (State.removeLoop rm st).1.arguments,
      ∃ s ∈ st.arguments, ∃ ns, t = { s with arg := { s.arg with names := ns } } := by
  induction rm generalizing st with
  | nil => intro t ht; exact ⟨t, ht, t.arg.names, rfl⟩
  | cons n ns ih =>
    intro t ht
    cases hl : lookupName st.byName n with
    | none => unfold State.removeLoop at ht; rw [hl] at ht; exact ⟨t, ht, t.arg.names, rfl⟩
    | some v =>
      obtain ⟨s, hs, e, hm, hr⟩ := removeLoop_cons hi hl
      rw [hr] at ht
      subst e
      obtain ⟨u, hu, ms, rfl⟩ := ih (removeStep_preInv hi hs hl) t ht
      unfold State.removeStep at hu
      simp only at hu
      split at hu
      · obtain ⟨w, hw, rfl⟩ := List.mem_map.1 hu
        refine ⟨w, hw, ms, ?_⟩
        split <;> rfl
      · exact ⟨u, (List.mem_filter.1 hu).1, ms, rfl⟩

theorem removeLoop_ptrs (rm : List Str) {st : State D} (hi : GPre full st) (hp : st.Ptrs) :
    let st' := (State.removeLoop rm st).1
    st'.Ptrs ∧
    (∀ o, st'.helpOption = some o → st.helpOption = some o) ∧
    (∀ o, st'.versionOption = some o → st.versionOption = some o) ∧
    (∀ t ∈ st'.arguments, st.helpOption = some t.obj → st'.helpOption = some t.obj) ∧
    (∀ t ∈ st'.arguments, st.versionOption = some t.obj → st'.versionOption = some t.obj) := by
  induction rm generalizing st with
  | nil => exact ⟨hp, fun _ h => h, fun _ h => h, fun _ _ h => h, fun _ _ h => h⟩
  | cons n ns ih =>
    cases hl : lookupName st.byName n with
    | none =>
      unfold State.removeLoop
      rw [hl]
      exact ⟨hp, fun _ h => h, fun _ h => h, fun _ _ h => h, fun _ _ h => h⟩
    | some v =>
      obtain ⟨s, hs, e, hm, hr⟩ := removeLoop_cons hi hl
      rw [hr]
      subst e
      obtain ⟨a1, a2, a3, a4, a5⟩ := removeStep_ptrs hi hp (n := n) hs
      obtain ⟨b1, b2, b3, b4, b5⟩ := ih (removeStep_preInv hi hs hl) a1
      have sub : ∀ t ∈ (State.removeLoop ns (st.removeStep n s)).1.arguments,
          ∃ u ∈ (st.removeStep n s).arguments, u.obj = t.obj := by
        intro t ht
        obtain ⟨u, hu, ms, rfl⟩ := removeLoop_slots ns (removeStep_preInv hi hs hl) t ht
        exact ⟨u, hu, rfl⟩
      refine ⟨b1, fun o h => a2 o (b2 o h), fun o h => a3 o (b3 o h), ?_, ?_⟩
      · intro t ht h
        obtain ⟨u, hu, e⟩ := sub t ht
        exact b4 t ht (e ▸ a4 u hu (e ▸ h))
      · intro t ht h
        obtain ⟨u, hu, e⟩ := sub t ht
        exact b5 t ht (e ▸ a5 u hu (e ▸ h))

theorem remove_ptrs {st : State D} (hi : GInv full st) (hp : st.Ptrs) (names : List Str)
    (hg : (st.removeArguments names).2.goesOn = true) :
    let st' := (st.removeArguments names).1
    st'.Ptrs ∧
    (∀ o, st'.helpOption = some o → st.helpOption = some o) ∧
    (∀ o, st'.versionOption = some o → st.versionOption = some o) ∧
    (∀ t ∈ st'.arguments, st.helpOption = some t.obj → st'.helpOption = some t.obj) ∧
    (∀ t ∈ st'.arguments, st.versionOption = some t.obj → st'.versionOption = some t.obj) := by
  unfold State.removeArguments at hg ⊢
  split
  · exact ⟨hp, fun _ h => h, fun _ h => h, fun _ _ h => h, fun _ _ h => h⟩
  · rename_i hne
    rw [if_neg hne] at hg
    split
    · exact ⟨hp, fun _ h => h, fun _ h => h, fun _ _ h => h, fun _ _ h => h⟩
    · rename_i hf
      rw [hf] at hg
      have h1 := removeLoop_ptrs names hi.toPreInv hp
      have h2 := removeLoop_inv names hi.toPreInv
      generalize State.removeLoop names st = r at h1 h2 hg ⊢
      obtain ⟨st1, r⟩ := r
      rcases h2 with ⟨w, h2⟩ | ⟨h2, h3⟩
      · simp only at h2
        subst h2
        cases hg
      · simp only at h2 h3 h1 ⊢
        subst h2
        simp only
        rw [(sortArguments_ok h3).1]
        obtain ⟨b1, b2, b3, b4, b5⟩ := h1
        refine ⟨⟨?_, ?_⟩, b2, b3, ?_, ?_⟩
        · intro o ho
          obtain ⟨s, hs, e⟩ := b1.help o ho
          exact ⟨s, by simp only; rw [mem_stableSort]; exact hs, e⟩
        · intro o ho
          obtain ⟨s, hs, e⟩ := b1.version o ho
          exact ⟨s, by simp only; rw [mem_stableSort]; exact hs, e⟩
        · intro t ht; simp only at ht; rw [mem_stableSort] at ht; exact b4 t ht
        · intro t ht; simp only at ht; rw [mem_stableSort] at ht; exact b5 t ht

/-- Keeping the pointers alive: `dest()` is not called on the current help or version option. -/
def PtrSafe (st : State D) (op : Op) (_ : Res Unit) : Prop :=
  ∀ ref d, op = .dest ref d → st.helpOption ≠ some ref ∧ st.versionOption ≠ some ref

theorem retype_ptrs {st : State D} (hi : GInv full st) {s : Slot D} (hs : s ∈ st.arguments) (a : Argument D)
    (hh : ∀ o, st.helpOption = some o → (∃ t ∈ st.arguments, t.obj = o ∧ t.arg.action = .help ∧ t.obj ≠ s.obj) ∨
      (o = s.obj ∧ a.action = .help))
    (hv : ∀ o, st.versionOption = some o → (∃ t ∈ st.arguments, t.obj = o ∧ t.arg.action = .version ∧ t.obj ≠ s.obj) ∨
      (o = s.obj ∧ a.action = .version)) :
    (st.retype s a).1.Ptrs := by
  rw [retype_eq]
  have ract := retyped_action s.obj st.helpOption st.versionOption a
  have self : ⟨s.node, s.obj, a.retyped s.obj st.helpOption st.versionOption⟩ ∈
      updNode st.arguments s.node fun _ => a.retyped s.obj st.helpOption st.versionOption :=
    List.mem_map.2 ⟨s, hs, by simp⟩
  have other : ∀ t ∈ st.arguments, t.obj ≠ s.obj →
      t ∈ updNode st.arguments s.node fun _ => a.retyped s.obj st.helpOption st.versionOption := by
    intro t ht hne
    refine List.mem_map.2 ⟨t, ht, ?_⟩
    have : t.node ≠ s.node := fun e => hne (by rw [eq_of_node hi hs ht e])
    simp [this]
  constructor
  · intro o ho
    simp only at ho
    have key : ∀ o, (a.action = .help ∧ o = s.obj) → ∃ t ∈ updNode st.arguments s.node fun _ =>
        a.retyped s.obj st.helpOption st.versionOption, t.obj = o ∧ t.arg.action = .help := by
      rintro o ⟨h1, rfl⟩
      refine ⟨_, self, rfl, ?_⟩
      rcases ract with e | ⟨e, _⟩
      · exact e.trans h1
      · rw [h1] at e; rcases e with e | e <;> cases e
    rcases tc_help s.obj st.helpOption st.versionOption a with e | ⟨e, h1, _⟩
    · rw [e] at ho
      rcases hh o ho with ⟨t, ht, e1, e2, e3⟩ | ⟨rfl, h⟩
      · exact ⟨t, other t ht e3, e1, e2⟩
      · exact key _ ⟨h, rfl⟩
    · rw [e] at ho; cases ho; exact key _ ⟨h1, rfl⟩
  · intro o ho
    simp only at ho
    have key : ∀ o, (a.action = .version ∧ o = s.obj) → ∃ t ∈ updNode st.arguments s.node fun _ =>
        a.retyped s.obj st.helpOption st.versionOption, t.obj = o ∧ t.arg.action = .version := by
      rintro o ⟨h1, rfl⟩
      refine ⟨_, self, rfl, ?_⟩
      rcases ract with e | ⟨e, _⟩
      · exact e.trans h1
      · rw [h1] at e; rcases e with e | e <;> cases e
    rcases tc_version s.obj st.helpOption st.versionOption a with e | ⟨e, h1, _⟩
    · rw [e] at ho
      rcases hv o ho with ⟨t, ht, e1, e2, e3⟩ | ⟨rfl, h⟩
      · exact ⟨t, other t ht e3, e1, e2⟩
      · exact key _ ⟨h, rfl⟩
    · rw [e] at ho; cases ho; exact key _ ⟨h1, rfl⟩

theorem step_ptrs {scan : Str → Option D} {st : State D} (hi : GInv full st) (hp : st.Ptrs) (op : Op)
    (hg : (step scan st op).2.goesOn = true) (hd : PtrSafe st op (step scan st op).2) :
    (step scan st op).1.Ptrs := by
  by_cases hk : op.keepsPtrs = true
  · obtain ⟨e1, e2⟩ := step_keepsPtrs (scan := scan) hi op hk
    have stay : ∀ s ∈ st.arguments, (∀ d, op ≠ .dest s.obj d) →
        ∃ s' ∈ (step scan st op).1.arguments, s'.obj = s.obj ∧ s'.arg.action = s.arg.action := by
      intro s hs hds
      obtain ⟨s', hs', e, hc⟩ := step_stays hi op hg hs (by rintro rfl; cases hk) (by rintro ns rfl; cases hk) hds
      refine ⟨s', hs', e, ?_⟩
      cases op with
      | action | nargs | remove | clear | parse => cases hk
      | defaults ref ds =>
        simp only [ArgChange] at hc
        split at hc
        · rw [hc]; exact (defaultsConstructor_frame _).2.2.2.1
        · rw [hc]
      | required | help | metavar | valid | dest => simp only [ArgChange] at hc; split at hc <;> rw [hc]
      | behave | edit => simp only [ArgChange] at hc; split at hc <;> (rw [hc]; try rfl)
      | flag => obtain ⟨_, rfl⟩ := hc; rfl
      | _ => simp only [ArgChange] at hc; rw [hc]
    constructor
    · intro o ho
      rw [e1] at ho
      obtain ⟨s, hs, rfl, ha⟩ := hp.help o ho
      obtain ⟨s', hs', e, e'⟩ := stay s hs (fun d e => (hd _ d e).1 ho)
      exact ⟨s', hs', e, e'.trans ha⟩
    · intro o ho
      rw [e2] at ho
      obtain ⟨s, hs, rfl, ha⟩ := hp.version o ho
      obtain ⟨s', hs', e, e'⟩ := stay s hs (fun d e => (hd _ d e).2 ho)
      exact ⟨s', hs', e, e'.trans ha⟩
  · cases op with
    | clear => exact ⟨fun o ho => (by cases ho), fun o ho => (by cases ho)⟩
    | remove names => exact (remove_ptrs hi hp names hg).1
    | action ref act =>
      change (st.action ref act).1.Ptrs
      cases h : st.atObj ref with
      | none => unfold State.action; rw [withRef_dead h]; exact hp
      | some s =>
        obtain ⟨hs, ho⟩ := State.atObj_some h
        rw [action_eq h]
        refine retype_ptrs (st := { st with helpOption := st.helpBut s, versionOption := st.versionBut s })
          (inv_of_eq hi rfl rfl rfl rfl rfl) hs _ ?_ ?_
        · intro o ho'
          left
          simp only [State.helpBut] at ho'
          split at ho'
          · cases ho'
          · next hne =>
            obtain ⟨t, ht, e1, e2⟩ := hp.help o ho'
            refine ⟨t, ht, e1, e2, fun e => hne ?_⟩
            rw [← eq_of_obj hi hs ht e, e2]; rfl
        · intro o ho'
          left
          simp only [State.versionBut] at ho'
          split at ho'
          · cases ho'
          · next hne =>
            obtain ⟨t, ht, e1, e2⟩ := hp.version o ho'
            refine ⟨t, ht, e1, e2, fun e => hne ?_⟩
            rw [← eq_of_obj hi hs ht e, e2]; rfl
    | nargs ref n =>
      change (st.nargs ref n).1.Ptrs
      cases h : st.atObj ref with
      | none => unfold State.nargs; rw [withRef_dead h]; exact hp
      | some s =>
        obtain ⟨hs, ho⟩ := State.atObj_some h
        unfold State.nargs
        rw [withRef_live h]
        refine retype_ptrs hi hs _ ?_ ?_
        · intro o ho'
          obtain ⟨t, ht, e1, e2⟩ := hp.help o ho'
          by_cases e : t.obj = s.obj
          · right; exact ⟨e1.symm.trans e, by rw [← eq_of_obj hi hs ht e]; exact e2⟩
          · left; exact ⟨t, ht, e1, e2, e⟩
        · intro o ho'
          obtain ⟨t, ht, e1, e2⟩ := hp.version o ho'
          by_cases e : t.obj = s.obj
          · right; exact ⟨e1.symm.trans e, by rw [← eq_of_obj hi hs ht e]; exact e2⟩
          · left; exact ⟨t, ht, e1, e2, e⟩
    | parse argv =>
      have same : ∀ (st1 st2 : State D) (b : Str), st2.config = { st1.config with binaryName := b } → st1.Ptrs → st2.Ptrs := by
        intro st1 st2 b hc hp
        have e0 : st2.arguments.map Slot.config = st1.arguments.map Slot.config :=
          (congrArg (fun x : State D => x.arguments) hc :)
        have e1 : st2.helpOption = st1.helpOption := (congrArg (fun x : State D => x.helpOption) hc :)
        have e2 : st2.versionOption = st1.versionOption := (congrArg (fun x : State D => x.versionOption) hc :)
        constructor
        · intro o ho
          obtain ⟨s, hs, g1, g2⟩ := hp.help o (e1 ▸ ho)
          obtain ⟨t, ht, e⟩ := slots_of_config e0.symm hs
          exact ⟨t, ht, (congrArg Slot.obj e.symm :).trans g1, ((congrArg (fun x : Slot D => x.arg.action) e.symm :)).trans g2⟩
        · intro o ho
          obtain ⟨s, hs, g1, g2⟩ := hp.version o (e2 ▸ ho)
          obtain ⟨t, ht, e⟩ := slots_of_config e0.symm hs
          exact ⟨t, ht, (congrArg Slot.obj e.symm :).trans g1, ((congrArg (fun x : Slot D => x.arg.action) e.symm :)).trans g2⟩
      change (st.parseArguments scan argv).1.Ptrs
      rcases parse_config (scan := scan) hi argv with ⟨o, h⟩ | ⟨b, h | ⟨h1, h2, h3⟩⟩
      · change (st.parseArguments scan argv).2.goesOn = true at hg
        rw [h] at hg; cases hg
      · exact same _ _ _ h hp
      · refine same _ _ _ h3 ?_
        have hr : st.resetAll.Ptrs := same st st.resetAll st.binaryName (by rw [resetAll_config]; rfl) hp
        constructor
        · intro o ho
          have e : o = st.nextObj := (Option.some.inj ho).symm
          refine ⟨st.resetAll.newSlot (helpArgument (helpFlags st.resetAll)), ?_, e.symm, rfl⟩
          unfold State.withHelp
          simp only
          rw [mem_stableSort, List.mem_append]
          exact .inr (List.mem_singleton.2 rfl)
        · intro o ho
          obtain ⟨s, hs, e⟩ := hr.version o ho
          refine ⟨s, ?_, e⟩
          unfold State.withHelp
          simp only
          rw [mem_stableSort, List.mem_append]
          exact .inl hs
    | _ => exact absurd rfl hk

theorem ReachableBy.ptrs {scan : Str → Option D} {st : State D} (h : ReachableBy scan PtrSafe st) : st.Ptrs := by
  induction h with
  | init => exact ⟨fun o ho => (by cases ho), fun o ho => (by cases ho)⟩
  | step op hr hg hd ih => exact step_ptrs hr.reachable.inv ih op hg hd

end BletArgs
