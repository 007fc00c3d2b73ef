import Verif.Lemmas.Inv
/-
Lemmas: preservation of the registry invariant by the mutators of `Argument`, `clear` and `dest`.
-/
namespace BletArgs
open Spec
variable {D : Type} {full : Prop}

theorem PreInv.mapSlots {l : List (Slot D)} {m : List (Str × Nat)} {nn no : Nat} {freed : List Nat}
    (hi : PreInv full l m nn no freed) (g : Slot D → Slot D)
    (hg : ∀ s ∈ l, (g s).node = s.node ∧ (g s).obj = s.obj ∧ (g s).arg.names = s.arg.names ∧
      (g s).arg.isPositional = s.arg.isPositional) : PreInv full (l.map g) m nn no freed := by
  have hnode : (l.map g).map (·.node) = l.map (·.node) := by
    rw [List.map_map]; exact List.map_congr_left fun s hs => (hg s hs).1
  have hobj : (l.map g).map (·.obj) = l.map (·.obj) := by
    rw [List.map_map]; exact List.map_congr_left fun s hs => (hg s hs).2.1
  refine ⟨hnode ▸ hi.nodes, ?_, hobj ▸ hi.objs, ?_, hi.keys, ?_, ?_, ?_, hi.freedNodup, hi.freedLt, ?_, ?_⟩
  · intro s hs
    obtain ⟨t, ht, rfl⟩ := List.mem_map.1 hs
    rw [(hg t ht).1]; exact hi.nodesLt t ht
  · intro s hs
    obtain ⟨t, ht, rfl⟩ := List.mem_map.1 hs
    rw [(hg t ht).2.1]; exact hi.objsLt t ht
  · intro p hp
    obtain ⟨s, hs, h1, h2⟩ := hi.entries p hp
    exact ⟨g s, List.mem_map.2 ⟨s, hs, rfl⟩, (hg s hs).1.trans h1, (hg s hs).2.2.1 ▸ h2⟩
  · intro hfull s hs
    obtain ⟨t, ht, rfl⟩ := List.mem_map.1 hs
    obtain ⟨n, h1, h2⟩ := hi.namedIf hfull t ht
    exact ⟨n, (hg t ht).2.2.1 ▸ h1, (hg t ht).1.symm ▸ h2⟩
  · intro s hs
    obtain ⟨t, ht, rfl⟩ := List.mem_map.1 hs
    obtain ⟨_, _, hn, hp⟩ := hg t ht
    have hf := hi.forms t ht
    exact ⟨hn ▸ hf.sorted, fun h' => hn ▸ hf.positional (hp ▸ h'),
      fun h' => hn ▸ hf.option (hp ▸ h')⟩
  · intro s hs
    obtain ⟨t, ht, rfl⟩ := List.mem_map.1 hs
    rw [(hg t ht).2.1]; exact hi.freedDead t ht
  · intro hfull o ho
    rcases hi.noLeakIf hfull o ho with h | ⟨s, hs, h⟩
    · exact .inl h
    · exact .inr ⟨g s, List.mem_map.2 ⟨s, hs, rfl⟩, (hg s hs).2.1.trans h⟩

/-- The list after updating one node. -/
def updNode (l : List (Slot D)) (node : Nat) (f : Argument D → Argument D) : List (Slot D) :=
  l.map fun s => if s.node == node then { s with arg := f s.arg } else s

theorem modNode_arguments (st : State D) (node : Nat) (f : Argument D → Argument D) :
    (st.modNode node f).arguments = updNode st.arguments node f := rfl

theorem updNode_sig {l : List (Slot D)} {node : Nat} {f : Argument D → Argument D}
    (h : ∀ s ∈ l, s.node = node → ({ s with arg := f s.arg } : Slot D).sig = s.sig) :
    (updNode l node f).map Slot.sig = l.map Slot.sig := by
  unfold updNode
  rw [List.map_map]
  refine List.map_congr_left fun s hs => ?_
  simp only [Function.comp_def]
  split
  · rename_i e; exact h s hs (by simpa using e)
  · rfl

theorem sig_eq {s : Slot D} {a : Argument D} (h1 : a.names = s.arg.names)
    (h2 : a.isPositional = s.arg.isPositional) (h3 : a.isRequired = s.arg.isRequired) :
    ({ s with arg := a } : Slot D).sig = s.sig := by
  unfold Slot.sig
  simp [h1, h2, h3]

/-- Updating an argument without touching names, requiredness and positional-ness keeps the invariant. -/
theorem modNode_inv {st : State D} (hi : GInv full st) {node : Nat} {f : Argument D → Argument D}
    (h : ∀ s ∈ st.arguments, s.node = node → (f s.arg).names = s.arg.names ∧
      (f s.arg).isPositional = s.arg.isPositional ∧ (f s.arg).isRequired = s.arg.isRequired) :
    GInv full (st.modNode node f) := by
  refine RegInv.congr ?_ hi
  rw [modNode_arguments]
  exact updNode_sig fun s hs e => sig_eq (h s hs e).1 (h s hs e).2.1 (h s hs e).2.2

/-- Changes of members that the registry invariant does not mention. -/
theorem inv_of_eq {st st' : State D} (hi : GInv full st) (h1 : st'.arguments = st.arguments)
    (h2 : st'.byName = st.byName) (h3 : st'.nextNode = st.nextNode) (h4 : st'.nextObj = st.nextObj)
    (h5 : st'.freedObjs = st.freedObjs) : GInv full st' := by
  unfold GInv; rw [h1, h2, h3, h4, h5]; exact hi

theorem withRef_inv {α : Type} {st : State D} (hi : GInv full st) {ref : Nat} {f : Slot D → State D × Res α}
    (h : ∀ s ∈ st.arguments, s.obj = ref → GInv full (f s).1) : GInv full (st.withRef ref f).1 := by
  unfold State.withRef
  split
  · exact hi
  · rename_i s hs
    have := State.atObj_some hs
    exact h s this.1 this.2

theorem ite_elim {α : Type} {P : α → Prop} {c : Prop} [Decidable c] {x y : α} (h1 : c → P x) (h2 : ¬c → P y) :
    P (if c then x else y) := by
  by_cases h : c
  · rw [if_pos h]; exact h1 h
  · rw [if_neg h]; exact h2 h

/-- Case analysis on the results of `typeConstructor`, along its `if`s. -/
theorem typeConstructor_shape (self : Nat) (h v : Option Nat) (a : Argument D) :
    ∃ t n act, (a.typeConstructor self h v).1 = { a with type := t, nargs := n, action := act } ∧
      t.isPositional = a.isPositional := by
  let P : Argument D × Option Nat × Option Nat × Res Unit → Prop := fun r =>
    ∃ t n act, r.1 = { a with type := t, nargs := n, action := act } ∧ t.isPositional = a.isPositional
  show P (a.typeConstructor self h v)
  unfold Argument.typeConstructor
  refine ite_elim (P := P) (fun hp => ?_) (fun hp => ?_)
  · repeat' (refine ite_elim (P := P) (fun _ => ?_) (fun _ => ?_))
    all_goals first
      | exact ⟨_, _, _, rfl, hp.symm⟩
      | exact ⟨_, _, _, rfl, rfl⟩
  · have hp : a.isPositional = false := by simpa using hp
    repeat' (refine ite_elim (P := P) (fun _ => ?_) (fun _ => ?_))
    all_goals first
      | exact ⟨_, _, _, rfl, hp.symm⟩
      | exact ⟨_, _, _, rfl, rfl⟩

theorem typeConstructor_frame (self : Nat) (h v : Option Nat) (a : Argument D) :
    (a.typeConstructor self h v).1.names = a.names ∧
    (a.typeConstructor self h v).1.isPositional = a.isPositional ∧
    (a.typeConstructor self h v).1.isRequired = a.isRequired := by
  obtain ⟨t, n, act, e, hp⟩ := typeConstructor_shape self h v a
  rw [e]
  exact ⟨rfl, hp, rfl⟩

theorem defaultsConstructor_frame (a : Argument D) :
    a.defaultsConstructor.1.names = a.names ∧
    a.defaultsConstructor.1.type = a.type ∧
    a.defaultsConstructor.1.isRequired = a.isRequired ∧
    a.defaultsConstructor.1.action = a.action ∧
    a.defaultsConstructor.1.nargs = a.nargs ∧
    a.defaultsConstructor.1.valid = a.valid ∧
    a.defaultsConstructor.1.validDeletable = a.validDeletable := by
  unfold Argument.defaultsConstructor
  repeat' split
  all_goals simp only
  all_goals repeat' split
  all_goals simp_all

theorem eq_of_node {st : State D} (hi : GInv full st) {s t : Slot D} (hs : s ∈ st.arguments)
    (ht : t ∈ st.arguments) (h : t.node = s.node) : t = s :=
  inj_of_nodup Slot.node hi.nodes ht hs h

theorem eq_of_obj {st : State D} (hi : GInv full st) {s t : Slot D} (hs : s ∈ st.arguments)
    (ht : t ∈ st.arguments) (h : t.obj = s.obj) : t = s :=
  inj_of_nodup Slot.obj hi.objs ht hs h

theorem retype_inv {st : State D} (hi : GInv full st) {s : Slot D} (hs : s ∈ st.arguments) {a : Argument D}
    (h1 : a.names = s.arg.names) (h2 : a.isPositional = s.arg.isPositional)
    (h3 : a.isRequired = s.arg.isRequired) : GInv full (st.retype s a).1 := by
  unfold State.retype
  have hf := typeConstructor_frame s.obj st.helpOption st.versionOption a
  split
  · rename_i a1 hh hv he
    rw [he] at hf
    simp only at hf ⊢
    refine modNode_inv (st := { st with helpOption := hh, versionOption := hv }) (inv_of_eq hi rfl rfl rfl rfl rfl) fun t ht e => ?_
    obtain rfl := eq_of_node hi hs ht e
    have hd := defaultsConstructor_frame a1
    refine ⟨?_, ?_, ?_⟩
    · rw [hd.1, hf.1, h1]
    · show a1.defaultsConstructor.1.type.isPositional = _
      rw [hd.2.1]; exact hf.2.1.trans h2
    · rw [hd.2.2.1, hf.2.2, h3]
  · rename_i a1 hh hv r _ he
    rw [he] at hf
    simp only at hf ⊢
    refine modNode_inv (st := { st with helpOption := hh, versionOption := hv }) (inv_of_eq hi rfl rfl rfl rfl rfl) fun t ht e => ?_
    obtain rfl := eq_of_node hi hs ht e
    exact ⟨hf.1.trans h1, hf.2.1.trans h2, hf.2.2.trans h3⟩

theorem action_inv {st : State D} (hi : GInv full st) (ref : Nat) (act : Action) : GInv full (st.action ref act).1 := by
  refine withRef_inv hi fun s hs _ => ?_
  simp only
  refine retype_inv ?_ ?_ rfl rfl rfl
  · refine inv_of_eq hi ?_ ?_ ?_ ?_ ?_ <;> (repeat' split) <;> rfl
  · repeat' split
    all_goals exact hs

theorem nargs_inv {st : State D} (hi : GInv full st) (ref : Nat) (n : Nat) : GInv full (st.nargs ref n).1 :=
  withRef_inv hi fun _ hs _ => retype_inv hi hs rfl rfl rfl

theorem setDefaults_inv {st : State D} (hi : GInv full st) (ref : Nat) (ds : List Str) :
    GInv full (st.setDefaults ref ds).1 := by
  refine withRef_inv hi fun s hs _ => ?_
  refine modNode_inv hi fun t ht e => ?_
  obtain rfl := eq_of_node hi hs ht e
  have hd := defaultsConstructor_frame { t.arg with defaults := ds }
  exact ⟨hd.1, congrArg Ty.isPositional hd.2.1, hd.2.2.1⟩

theorem setHelp_inv {st : State D} (hi : GInv full st) (ref : Nat) (h : Str) : GInv full (st.setHelp ref h).1 :=
  withRef_inv hi fun _ _ _ => modNode_inv hi fun _ _ _ => ⟨rfl, rfl, rfl⟩

theorem edit_inv {st : State D} (hi : GInv full st) (scan : Str → Option D) (ref : Nat) (items : List NewElem) :
    GInv full (st.edit scan ref items).1 :=
  withRef_inv hi fun _ _ _ => modNode_inv hi fun _ _ _ => ⟨rfl, rfl, rfl⟩

theorem behave_inv {st : State D} (hi : GInv full st) (ref : Nat) (c : List Str → VRes) (r : DestWrite → Option Exn) :
    GInv full (st.behave ref c r).1 :=
  withRef_inv hi fun _ _ _ => modNode_inv hi fun _ _ _ => ⟨rfl, rfl, rfl⟩

theorem setMetavar_inv {st : State D} (hi : GInv full st) (ref : Nat) (h : Str) : GInv full (st.setMetavar ref h).1 :=
  withRef_inv hi fun _ _ _ => modNode_inv hi fun _ _ _ => ⟨rfl, rfl, rfl⟩

theorem setValid_inv {st : State D} (hi : GInv full st) (ref : Nat) (v : Option Validator) (d : Bool) :
    GInv full (st.setValid ref v d).1 := by
  refine withRef_inv hi fun s _ _ => ?_
  exact modNode_inv (st := { st with freedValids := st.freedValids ++ s.arg.ownedValid })
    (inv_of_eq hi rfl rfl rfl rfl rfl) fun _ _ _ => ⟨rfl, rfl, rfl⟩

theorem required_ok {st : State D} (hi : GInv full st) {ref : Nat} {s : Slot D} (h : st.atObj ref = some s)
    (b : Bool) :
    st.required ref b =
      ({ st with arguments := stableSort slotLt (updNode st.arguments s.node fun a => { a with isRequired := b }) },
        .ok ()) ∧
    GInv full (st.required ref b).1 := by
  have hp : GPre full (st.modNode s.node fun a => { a with isRequired := b }) := by
    refine PreInv.mapSlots hi.toPreInv _ fun t _ => ?_
    split <;> exact ⟨rfl, rfl, rfl, rfl⟩
  have := sortArguments_ok hp
  unfold State.required State.withRef
  rw [h]
  simp only [this.1]
  exact ⟨rfl, this.2⟩

theorem required_inv {st : State D} (hi : GInv full st) (ref : Nat) (b : Bool) : GInv full (st.required ref b).1 := by
  cases h : st.atObj ref with
  | none => unfold State.required State.withRef; rw [h]; exact hi
  | some s => exact (required_ok hi h b).2

/-! ### flag -/

/-- The state after `flag` on slot `s`, before sorting. -/
def State.flagged (st : State D) (s : Slot D) (f : Str) : State D :=
  { st with
    arguments := updNode st.arguments s.node fun a => { a with names := sortNames (a.names ++ [f]) }
    byName := insertName st.byName f s.node }

theorem flagged_preInv {st : State D} (hi : GInv full st) {s : Slot D} (hs : s ∈ st.arguments) {f : Str}
    (hp : s.arg.isPositional = false) (hv : FlagForm f) :
    GPre full (st.flagged s f) := by
  have hmem : ∀ t, t ∈ (st.flagged s f).arguments →
      (t = { s with arg := { s.arg with names := sortNames (s.arg.names ++ [f]) } } ∨
        (t ∈ st.arguments ∧ t.node ≠ s.node)) := by
    intro t ht
    obtain ⟨u, hu, rfl⟩ := List.mem_map.1 ht
    by_cases e : u.node = s.node
    · obtain rfl := eq_of_node hi hs hu e
      left; simp
    · right; simp [e, hu]
  have hnode : ((st.flagged s f).arguments).map (·.node) = st.arguments.map (·.node) := by
    unfold State.flagged updNode
    rw [List.map_map]
    refine List.map_congr_left fun t _ => ?_
    simp only [Function.comp_def]; split <;> rfl
  have hobj : ((st.flagged s f).arguments).map (·.obj) = st.arguments.map (·.obj) := by
    unfold State.flagged updNode
    rw [List.map_map]
    refine List.map_congr_left fun t _ => ?_
    simp only [Function.comp_def]; split <;> rfl
  have hback : ∀ t ∈ st.arguments, ∃ u ∈ (st.flagged s f).arguments, u.node = t.node ∧ u.obj = t.obj ∧
      ∀ n ∈ t.arg.names, n ∈ u.arg.names := by
    intro t ht
    refine ⟨_, List.mem_map.2 ⟨t, ht, rfl⟩, ?_⟩
    split
    · exact ⟨rfl, rfl, fun n hn => by simp [hn]⟩
    · exact ⟨rfl, rfl, fun n hn => hn⟩
  refine ⟨hnode ▸ hi.nodes, ?_, hobj ▸ hi.objs, ?_, insertName_keys hi.keys _ _, ?_, ?_, ?_,
    hi.freedNodup, hi.freedLt, ?_, ?_⟩
  · intro t ht
    rcases hmem t ht with rfl | h
    · exact hi.nodesLt s hs
    · exact hi.nodesLt t h.1
  · intro t ht
    rcases hmem t ht with rfl | h
    · exact hi.objsLt s hs
    · exact hi.objsLt t h.1
  · intro p hp
    rcases mem_insertName.1 hp with h | ⟨rfl, _⟩
    · obtain ⟨t, ht, h1, h2⟩ := hi.entries p h
      obtain ⟨u, hu, e1, _, e3⟩ := hback t ht
      exact ⟨u, hu, e1.trans h1, e3 _ h2⟩
    · refine ⟨{ s with arg := { s.arg with names := sortNames (s.arg.names ++ [f]) } }, ?_, rfl, by simp⟩
      exact List.mem_map.2 ⟨s, hs, by simp⟩
  · intro hfull t ht
    rcases hmem t ht with rfl | h
    · obtain ⟨n, h1, h2⟩ := hi.namedIf hfull s hs
      exact ⟨n, by simp [h1], mem_insertName.2 (.inl h2)⟩
    · obtain ⟨n, h1, h2⟩ := hi.namedIf hfull t h.1
      exact ⟨n, h1, mem_insertName.2 (.inl h2)⟩
  · intro t ht
    rcases hmem t ht with rfl | h
    · have hf := hi.forms s hs
      have ho := hf.option hp
      refine ⟨sortNames_sorted _, ?_, ?_⟩
      · intro h'; exact absurd (hp.symm.trans h') (by simp)
      · intro _
        refine ⟨sortNames_ne_nil (by simp), fun g hg => ?_⟩
        rcases List.mem_append.1 (mem_sortNames.1 hg) with h | h
        · exact ho.2 g h
        · rw [List.mem_singleton.1 h]; exact hv
    · exact hi.forms t h.1
  · intro t ht
    rcases hmem t ht with rfl | h
    · exact hi.freedDead s hs
    · exact hi.freedDead t h.1
  · intro hfull o ho
    rcases hi.noLeakIf hfull o ho with h | ⟨t, ht, h⟩
    · exact .inl h
    · obtain ⟨u, hu, _, e2, _⟩ := hback t ht
      exact .inr ⟨u, hu, e2.trans h⟩

/-- What `flag` does on a live argument. -/
theorem flag_outcome {st : State D} (hi : GInv full st) {ref : Nat} {s : Slot D} (h : st.atObj ref = some s)
    (f : Str) :
    (s.arg.isPositional = true ∧
      st.flag ref f = (st, .throw ⟨.argument, f, "can't add flag in positionnal argument".toList⟩)) ∨
    (s.arg.isPositional = false ∧ ∃ msg, validFormatFlag f = some msg ∧
      st.flag ref f = (st, .throw ⟨.argument, f, msg⟩)) ∨
    (s.arg.isPositional = false ∧ FlagForm f ∧ (lookupName st.byName f).isSome = true ∧
      st.flag ref f = (st, .throw ⟨.argument, f, "invalid flag already exist".toList⟩)) ∨
    (s.arg.isPositional = false ∧ FlagForm f ∧ lookupName st.byName f = none ∧
      st.flag ref f = ({ st.flagged s f with arguments := stableSort slotLt (st.flagged s f).arguments }, .ok ()) ∧
      GInv full (st.flag ref f).1) := by
  have hs := (State.atObj_some h).1
  unfold State.flag State.withRef
  rw [h]
  simp only
  cases hp : s.arg.isPositional with
  | true => left; simp
  | false =>
    right
    simp only [Bool.false_eq_true, if_false]
    cases hv : validFormatFlag f with
    | some msg => left; exact ⟨trivial, msg, rfl, rfl⟩
    | none =>
      have hff := (C03_flag_syntax f).1 hv
      right
      simp only
      unfold State.argumentExists
      cases hl : lookupName st.byName f with
      | some w => left; exact ⟨trivial, hff, rfl, rfl⟩
      | none =>
        right
        have hpre := flagged_preInv hi hs hp hff
        have := sortArguments_ok hpre
        have e : ({ (st.modNode s.node fun a => { a with names := sortNames (a.names ++ [f]) }) with
            byName := insertName (st.modNode s.node fun a => { a with names := sortNames (a.names ++ [f]) }).byName f s.node } :
            State D) = st.flagged s f := rfl
        simp only [Option.isSome_none, Bool.false_eq_true, if_false, e, this.1]
        exact ⟨trivial, hff, trivial, trivial, this.2⟩

theorem flag_inv {st : State D} (hi : GInv full st) (ref : Nat) (f : Str) : GInv full (st.flag ref f).1 := by
  cases h : st.atObj ref with
  | none => unfold State.flag State.withRef; rw [h]; exact hi
  | some s =>
    rcases flag_outcome hi h f with ⟨_, e⟩ | ⟨_, m, _, e⟩ | ⟨_, _, _, e⟩ | ⟨_, _, _, _, e⟩
    · rw [e]; exact hi
    · rw [e]; exact hi
    · rw [e]; exact hi
    · exact e

/-! ### dest -/

theorem setDest_inv {st : State D} (hi : GInv full st) (ref : Nat) (d : Dest) : GInv full (st.setDest ref d).1 := by
  unfold State.setDest
  refine withRef_inv hi fun s hs _ => ?_
  have hmem : ∀ t, t ∈ st.arguments.map (fun t => if t.node == s.node then
      { t with obj := st.nextObj, arg := { t.arg with defaults := [], dest := some d } } else t) →
      (t = { s with obj := st.nextObj, arg := { s.arg with defaults := [], dest := some d } } ∨
        (t ∈ st.arguments ∧ t.node ≠ s.node)) := by
    intro t ht
    obtain ⟨u, hu, rfl⟩ := List.mem_map.1 ht
    by_cases e : u.node = s.node
    · obtain rfl := eq_of_node hi hs hu e
      left; simp
    · right; simp [e, hu]
  have hnode : (st.arguments.map (fun t => if t.node == s.node then
      { t with obj := st.nextObj, arg := { t.arg with defaults := [], dest := some d } } else t)).map (·.node) =
      st.arguments.map (·.node) := by
    rw [List.map_map]
    refine List.map_congr_left fun t _ => ?_
    simp only [Function.comp_def]; split <;> rfl
  have hback : ∀ t ∈ st.arguments, ∃ u ∈ st.arguments.map (fun t => if t.node == s.node then
      { t with obj := st.nextObj, arg := { t.arg with defaults := [], dest := some d } } else t),
      u.node = t.node ∧ u.arg.names = t.arg.names ∧ (t.node ≠ s.node → u.obj = t.obj) := by
    intro t ht
    refine ⟨_, List.mem_map.2 ⟨t, ht, rfl⟩, ?_⟩
    split
    · rename_i e; exact ⟨rfl, rfl, fun h => absurd (by simpa using e) h⟩
    · exact ⟨rfl, rfl, fun _ => rfl⟩
  have hobjs : ((st.arguments.map (fun t => if t.node == s.node then
      { t with obj := st.nextObj, arg := { t.arg with defaults := [], dest := some d } } else t)).map (·.obj)).Nodup := by
    rw [List.map_map, List.Nodup, List.pairwise_map]
    have h1 : st.arguments.Pairwise (fun a b => a.obj ≠ b.obj) := by
      have := hi.objs; rw [List.Nodup, List.pairwise_map] at this; exact this
    have h2 : st.arguments.Pairwise (fun a b => a.node ≠ b.node) := by
      have := hi.nodes; rw [List.Nodup, List.pairwise_map] at this; exact this
    refine (List.Pairwise.and_mem.1 (h1.and h2)).imp ?_
    rintro a b ⟨ha, hb, h3, h4⟩
    have ha := hi.objsLt a ha
    have hb := hi.objsLt b hb
    simp only [Function.comp_def]
    by_cases e1 : a.node = s.node <;> by_cases e2 : b.node = s.node <;> simp [e1, e2] <;> omega
  refine ⟨⟨?_, ?_, hobjs, ?_, hi.keys, ?_, ?_, ?_, ?_, ?_, ?_, ?_⟩, ?_⟩
  · simp only; rw [hnode]; exact hi.nodes
  · intro t ht
    rcases hmem t ht with rfl | h
    · exact hi.nodesLt s hs
    · exact hi.nodesLt t h.1
  · intro t ht
    simp only
    rcases hmem t ht with rfl | h
    · simp
    · have := hi.objsLt t h.1; omega
  · intro p hp
    obtain ⟨t, ht, h1, h2⟩ := hi.entries p hp
    obtain ⟨u, hu, e1, e2, _⟩ := hback t ht
    exact ⟨u, hu, e1.trans h1, e2 ▸ h2⟩
  · intro hfull t ht
    rcases hmem t ht with rfl | h
    · exact hi.namedIf hfull s hs
    · exact hi.namedIf hfull t h.1
  · intro t ht
    rcases hmem t ht with rfl | h
    · have hf := hi.forms s hs
      exact ⟨hf.sorted, hf.positional, hf.option⟩
    · exact hi.forms t h.1
  · simp only
    rw [List.nodup_append]
    refine ⟨hi.freedNodup, by simp, ?_⟩
    intro a ha b hb
    rw [List.mem_singleton.1 hb]
    rintro rfl
    exact hi.freedDead s hs ha
  · intro o ho
    simp only at ho ⊢
    rcases List.mem_append.1 ho with h | h
    · have := hi.freedLt o h; omega
    · rw [List.mem_singleton.1 h]
      have := hi.objsLt s hs; omega
  · intro t ht hc
    simp only at hc
    rcases hmem t ht with rfl | ⟨h1, h2⟩
    · simp only at hc
      rcases List.mem_append.1 hc with h | h
      · have := hi.freedLt _ h; omega
      · have := List.mem_singleton.1 h
        have := hi.objsLt s hs; omega
    · rcases List.mem_append.1 hc with h | h
      · exact hi.freedDead t h1 h
      · have := List.mem_singleton.1 h
        exact h2 (by rw [eq_of_obj hi hs h1 this])
  · intro hfull o ho
    simp only at ho ⊢
    by_cases e : o = st.nextObj
    · refine .inr ⟨{ s with obj := st.nextObj, arg := { s.arg with defaults := [], dest := some d } }, ?_, e.symm⟩
      exact List.mem_map.2 ⟨s, hs, by simp⟩
    · rcases hi.noLeakIf hfull o (by omega) with h | ⟨t, ht, h⟩
      · exact .inl (by simp [h])
      · by_cases e : t.node = s.node
        · obtain rfl := eq_of_node hi hs ht e
          exact .inl (by simp [h])
        · obtain ⟨u, hu, _, _, h3⟩ := hback t ht
          exact .inr ⟨u, hu, (h3 e).trans h⟩
  · have : ∀ t u : Slot D, slotLt (if t.node == s.node then
        { t with obj := st.nextObj, arg := { t.arg with defaults := [], dest := some d } } else t)
        (if u.node == s.node then
        { u with obj := st.nextObj, arg := { u.arg with defaults := [], dest := some d } } else u) = slotLt t u := by
      intro t u
      have key : ∀ t : Slot D, (if t.node == s.node then
        ({ t with obj := st.nextObj, arg := { t.arg with defaults := [], dest := some d } } : Slot D) else t).arg.names = t.arg.names ∧
        (if t.node == s.node then
        ({ t with obj := st.nextObj, arg := { t.arg with defaults := [], dest := some d } } : Slot D) else t).arg.isPositional = t.arg.isPositional ∧
        (if t.node == s.node then
        ({ t with obj := st.nextObj, arg := { t.arg with defaults := [], dest := some d } } : Slot D) else t).arg.isRequired = t.arg.isRequired := by
        intro t; split <;> exact ⟨rfl, rfl, rfl⟩
      unfold slotLt
      rw [compareOption_eq, compareOption_eq]
      unfold Argument.front
      rw [(key t).1, (key u).1, (key t).2.1, (key u).2.1, (key t).2.2, (key u).2.2]
    intro hfull
    show SortedBy slotLt _
    unfold SortedBy
    simp only
    rw [List.pairwise_map]
    simp only [this]
    exact hi.sortedIf hfull

/-! ### clear -/

theorem clear_inv {st : State D} (hi : GInv full st) : GInv full st.clear := by
  refine ⟨⟨?_, ?_, ?_, ?_, ?_, ?_, ?_, ?_, ?_, ?_, ?_, ?_⟩, ?_⟩
  all_goals try simp [State.clear, SortedBy]
  · rw [State.deleteAll, List.nodup_append]
    refine ⟨hi.freedNodup, hi.objs, ?_⟩
    rintro a ha b hb rfl
    obtain ⟨s, hs, rfl⟩ := List.mem_map.1 hb
    exact hi.freedDead s hs ha
  · intro o ho
    simp only [State.deleteAll] at ho ⊢
    rcases List.mem_append.1 ho with h | h
    · exact hi.freedLt o h
    · obtain ⟨s, hs, rfl⟩ := List.mem_map.1 h
      exact hi.objsLt s hs
  · intro hfull o ho
    simp only [State.deleteAll] at ho ⊢
    rcases hi.noLeakIf hfull o ho with h | ⟨s, hs, rfl⟩
    · simp [h]
    · exact List.mem_append.2 (.inr (List.mem_map.2 ⟨s, hs, rfl⟩))

end BletArgs
