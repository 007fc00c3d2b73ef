import Verif.Lemmas.Steps
/-
What every call can do to one argument, and to the help/version pointers.
-/
namespace BletArgs
open Spec
variable {D : Type} {full : Prop}

/-- What a call may do to a listed argument that stays listed. -/
def ArgChange (st : State D) (op : Op) (s s' : Slot D) : Prop :=
  match op with
  | .action ref act => s' = if s.obj = ref then
      { s with arg := Argument.retyped s.obj (st.helpBut s) (st.versionBut s) { s.arg with action := act } } else s
  | .nargs ref n => s' = if s.obj = ref then
      { s with arg := Argument.retyped s.obj st.helpOption st.versionOption { s.arg with nargs := n } } else s
  | .defaults ref ds => s' = if s.obj = ref then
      { s with arg := ({ s.arg with defaults := ds } : Argument D).defaultsConstructor.1 } else s
  | .required ref b => s' = if s.obj = ref then { s with arg := { s.arg with isRequired := b } } else s
  | .help ref h => s' = if s.obj = ref then { s with arg := { s.arg with help := h } } else s
  | .metavar ref m => s' = if s.obj = ref then { s with arg := { s.arg with metavar := m } } else s
  | .edit ref _ => s' = if s.obj = ref then { s with arg := { s.arg with elems := s'.arg.elems } } else s
  | .behave ref c r => s' = if s.obj = ref then { s with arg := s.arg.behaving c r } else s
  | .valid ref v d => s' = if s.obj = ref then { s with arg := { s.arg with valid := v, validDeletable := d } } else s
  | .dest ref d => s' = if s.obj = ref then
      { s with obj := st.nextObj, arg := { s.arg with defaults := [], dest := some d } } else s
  | .flag _ _ | .remove _ => ∃ ns, s' = { s with arg := { s.arg with names := ns } }
  | .parse _ => s'.config = s.config
  | _ => s' = s

/-- The arguments a call may create. -/
def ArgFresh (st : State D) (op : Op) (s' : Slot D) : Prop :=
  match op with
  | .add _ => s'.node = st.nextNode ∧ s'.obj = st.nextObj ∧
      ((∃ n, s'.arg = { names := [n], nargs := 1, type := .pos }) ∨ ∃ fs, s'.arg = { names := fs })
  | .parse _ => st.helpOption = none ∧ s'.node = st.nextNode ∧ s'.obj = st.nextObj ∧
      s'.arg.config = helpArgument (helpFlags st)
  | _ => False

theorem mem_updNode_obj {st : State D} (hi : GInv full st) {ref : Nat} {s : Slot D} (h : st.atObj ref = some s)
    {f : Argument D → Argument D} {t : Slot D} (ht : t ∈ updNode st.arguments s.node f) :
    ∃ u ∈ st.arguments, t = if u.obj = ref then { u with arg := f u.arg } else u := by
  obtain ⟨hs, ho⟩ := State.atObj_some h
  obtain ⟨u, hu, rfl⟩ := List.mem_map.1 ht
  refine ⟨u, hu, ?_⟩
  by_cases e : u.node = s.node
  · have := eq_of_node hi hs hu e
    subst this
    simp [ho]
  · have : u.obj ≠ ref := by
      intro e'
      exact e (by rw [eq_of_obj hi hs hu (e'.trans ho.symm)])
    simp [e, this]

theorem atObj_none {st : State D} {ref : Nat} (h : st.atObj ref = none) : ∀ s ∈ st.arguments, s.obj ≠ ref := by
  intro s hs e
  have := List.find?_eq_none.1 h s hs
  simp [e] at this

theorem withRef_slots {α : Type} {st : State D} (hi : GInv full st) {ref : Nat} {F : Slot D → State D × Res α}
    {f : Slot D → Argument D → Argument D}
    (h : ∀ s, st.atObj ref = some s → (F s).1.arguments = updNode st.arguments s.node (f s))
    {t : Slot D} (ht : t ∈ (st.withRef ref F).1.arguments) :
    ∃ u ∈ st.arguments, t = if u.obj = ref then { u with arg := f u u.arg } else u := by
  unfold State.withRef at ht
  cases hs : st.atObj ref with
  | none =>
    rw [hs] at ht
    exact ⟨t, ht, by rw [if_neg (atObj_none hs t ht)]⟩
  | some s =>
    rw [hs] at ht
    simp only at ht
    rw [h s hs] at ht
    obtain ⟨u, hu, e⟩ := mem_updNode_obj hi hs ht
    refine ⟨u, hu, ?_⟩
    rw [e]
    split
    · rename_i hur
      have := eq_of_obj hi (State.atObj_some hs).1 hu (hur.trans (State.atObj_some hs).2.symm)
      rw [this]
    · rfl

theorem slots_of_config {l l' : List (Slot D)} (h : l'.map Slot.config = l.map Slot.config) {t : Slot D}
    (ht : t ∈ l') : ∃ u ∈ l, t.config = u.config := by
  have : t.config ∈ l.map Slot.config := h ▸ List.mem_map.2 ⟨t, ht, rfl⟩
  obtain ⟨u, hu, e⟩ := List.mem_map.1 this
  exact ⟨u, hu, e.symm⟩

/-- Every argument listed after a call was listed before and changed as described, or is new. -/
theorem step_slots {scan : Str → Option D} {st : State D} (hi : GInv full st) (op : Op)
    (hg : (step scan st op).2.goesOn = true) {s' : Slot D} (hs' : s' ∈ (step scan st op).1.arguments) :
    (∃ s ∈ st.arguments, ArgChange st op s s') ∨ ArgFresh st op s' := by
  cases op with
  | add names =>
    have h := addArgument_outcome hi names
    change s' ∈ (st.addArgument names).1.arguments at hs'
    generalize st.addArgument names = r at h hs'
    cases h with
    | positional n st' _ _ _ e _ =>
      subst e
      rw [mem_stableSort, List.mem_append, List.mem_singleton] at hs'
      rcases hs' with h | rfl
      · exact .inl ⟨s', h, rfl⟩
      · exact .inr ⟨rfl, rfl, .inl ⟨n, rfl⟩⟩
    | option f rest fs st' _ _ _ _ _ e _ =>
      subst e
      rw [mem_stableSort, List.mem_append, List.mem_singleton] at hs'
      rcases hs' with h | rfl
      · exact .inl ⟨s', h, rfl⟩
      · exact .inr ⟨rfl, rfl, .inr ⟨_, rfl⟩⟩
    | _ => exact .inl ⟨s', hs', rfl⟩
  | remove names =>
    left
    change s' ∈ (st.removeArguments names).1.arguments at hs'
    unfold State.removeArguments at hs'
    split at hs'
    · exact ⟨s', hs', s'.arg.names, rfl⟩
    · split at hs'
      · exact ⟨s', hs', s'.arg.names, rfl⟩
      · have key : ∀ (rm : List Str) (st : State D), GPre full st → ∀ t ∈ (State.removeLoop rm st).1.arguments,
            ∃ s ∈ st.arguments, ∃ ns, t = { s with arg := { s.arg with names := ns } } := by
          intro rm
          induction rm with
          | nil => intro st _ t ht; exact ⟨t, ht, t.arg.names, rfl⟩
          | cons n ns ih =>
            intro st hi t ht
            cases hl : lookupName st.byName n with
            | none =>
              unfold State.removeLoop at ht; rw [hl] at ht; exact ⟨t, ht, t.arg.names, rfl⟩
            | some v =>
              obtain ⟨s, hs, e, hm, hr⟩ := removeLoop_cons hi hl
              rw [hr] at ht
              subst e
              obtain ⟨u, hu, ms, rfl⟩ := ih _ (removeStep_preInv hi hs hl) t ht
              unfold State.removeStep at hu
              simp only at hu
              split at hu
              · obtain ⟨w, hw, rfl⟩ := List.mem_map.1 hu
                refine ⟨w, hw, ms, ?_⟩
                split <;> rfl
              · exact ⟨u, (List.mem_filter.1 hu).1, ms, rfl⟩
        rcases removeLoop_inv names hi.toPreInv with ⟨w, h⟩ | ⟨h, h2⟩
        · have hk := key names st hi.toPreInv
          generalize State.removeLoop names st = r at h hs' hk
          obtain ⟨st1, r⟩ := r
          simp only at h
          subst h
          exact hk s' hs'
        · have hk := key names st hi.toPreInv
          generalize State.removeLoop names st = r at h h2 hs' hk
          obtain ⟨st1, r⟩ := r
          simp only at h h2
          subst h
          simp only at hs'
          rw [(sortArguments_ok h2).1] at hs'
          rw [mem_stableSort] at hs'
          exact hk s' hs'
  | clear => cases hs'
  | flag ref f =>
    left
    change s' ∈ (st.flag ref f).1.arguments at hs'
    cases h : st.atObj ref with
    | none =>
      unfold State.flag State.withRef at hs'; rw [h] at hs'
      exact ⟨s', hs', s'.arg.names, rfl⟩
    | some s =>
      rcases flag_outcome hi h f with ⟨_, e⟩ | ⟨_, _, _, e⟩ | ⟨_, _, _, e⟩ | ⟨_, _, _, e, _⟩
      · rw [e] at hs'; exact ⟨s', hs', s'.arg.names, rfl⟩
      · rw [e] at hs'; exact ⟨s', hs', s'.arg.names, rfl⟩
      · rw [e] at hs'; exact ⟨s', hs', s'.arg.names, rfl⟩
      · rw [e, mem_stableSort] at hs'
        obtain ⟨u, hu, rfl⟩ := List.mem_map.1 hs'
        split
        · exact ⟨u, hu, _, rfl⟩
        · exact ⟨u, hu, u.arg.names, rfl⟩
  | action ref act =>
    left
    change s' ∈ (st.action ref act).1.arguments at hs'
    cases h : st.atObj ref with
    | none =>
      unfold State.action State.withRef at hs'; rw [h] at hs'
      exact ⟨s', hs', by simp only [ArgChange]; rw [if_neg (atObj_none h s' hs')]⟩
    | some s =>
      rw [action_eq h, retype_eq] at hs'
      simp only at hs'
      obtain ⟨u, hu, e⟩ := mem_updNode_obj hi h hs'
      refine ⟨u, hu, ?_⟩
      simp only [ArgChange]
      rw [e]
      split
      · rename_i hur
        have := eq_of_obj hi (State.atObj_some h).1 hu (hur.trans (State.atObj_some h).2.symm)
        rw [this]
      · rfl
  | nargs ref n =>
    left
    exact withRef_slots hi (f := fun s a => Argument.retyped s.obj st.helpOption st.versionOption { s.arg with nargs := n })
      (fun s _ => by rw [retype_eq]) hs'
  | defaults ref ds =>
    left
    exact withRef_slots hi (f := fun s a => ({ s.arg with defaults := ds } : Argument D).defaultsConstructor.1)
      (fun s _ => rfl) hs'
  | required ref b =>
    left
    change s' ∈ (st.required ref b).1.arguments at hs'
    cases h : st.atObj ref with
    | none =>
      unfold State.required State.withRef at hs'; rw [h] at hs'
      exact ⟨s', hs', by simp only [ArgChange]; rw [if_neg (atObj_none h s' hs')]⟩
    | some s =>
      rw [(required_ok hi h b).1, mem_stableSort] at hs'
      exact mem_updNode_obj hi h hs'
  | help ref h =>
    left
    exact withRef_slots hi (f := fun s a => { a with help := h }) (fun s _ => rfl) hs'
  | metavar ref h =>
    left
    exact withRef_slots hi (f := fun s a => { a with metavar := h }) (fun s _ => rfl) hs'
  | edit ref items =>
    left
    obtain ⟨s, hs, e⟩ := withRef_slots hi (f := fun s a => { a with elems := items.map (NewElem.elem scan) }) (fun s _ => rfl) hs'
    refine ⟨s, hs, ?_⟩
    simp only [ArgChange]
    split at e <;> rw [e]
    · rename_i h; rw [if_pos h]
    · rename_i h; rw [if_neg h]
  | behave ref c r =>
    left
    exact withRef_slots hi (f := fun s a => a.behaving c r) (fun s _ => rfl) hs'
  | valid ref v d =>
    left
    exact withRef_slots hi (f := fun s a => { a with valid := v, validDeletable := d }) (fun s _ => rfl) hs'
  | dest ref d =>
    left
    change s' ∈ (st.setDest ref d).1.arguments at hs'
    unfold State.setDest State.withRef at hs'
    cases h : st.atObj ref with
    | none =>
      rw [h] at hs'
      exact ⟨s', hs', by simp only [ArgChange]; rw [if_neg (atObj_none h s' hs')]⟩
    | some s =>
      rw [h] at hs'
      simp only at hs'
      obtain ⟨u, hu, rfl⟩ := List.mem_map.1 hs'
      refine ⟨u, hu, ?_⟩
      simp only [ArgChange]
      obtain ⟨hs, ho⟩ := State.atObj_some h
      by_cases e : u.node = s.node
      · have := eq_of_node hi hs hu e
        subst this
        simp [ho]
      · have : u.obj ≠ ref := by
          intro e'
          exact e (by rw [eq_of_obj hi hs hu (e'.trans ho.symm)])
        simp [e, this]
  | parse argv =>
    change (st.parseArguments scan argv).2.goesOn = true at hg
    change s' ∈ (st.parseArguments scan argv).1.arguments at hs'
    rcases parse_config (scan := scan) hi argv with ⟨o, h⟩ | ⟨b, h | ⟨h1, h2, h3⟩⟩
    · rw [h] at hg; cases hg
    · left
      exact slots_of_config (congrArg (fun x : State D => x.arguments) h :) hs'
    · obtain ⟨u, hu, e⟩ := slots_of_config (congrArg (fun x : State D => x.arguments) h3 :) hs'
      have hu : u ∈ st.resetAll.withHelp.arguments := hu
      unfold State.withHelp at hu
      simp only at hu
      rw [mem_stableSort, List.mem_append, List.mem_singleton] at hu
      rcases hu with hu | rfl
      · left
        obtain ⟨w, hw, rfl⟩ := List.mem_map.1 hu
        exact ⟨w, hw, e⟩
      · right
        exact ⟨h1, (congrArg Slot.node e :), (congrArg Slot.obj e :), (congrArg Slot.arg e :)⟩
  | _ => exact .inl ⟨s', hs', rfl⟩

end BletArgs
