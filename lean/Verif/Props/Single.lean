import Verif.Lemmas.Calls
import Verif.Props.Kinds
import Verif.Props.Parse
/-
C16: one help option, one version option.
-/
namespace BletArgs
open Spec
variable {D : Type}

/-- The discipline under which help and version options stay unique: no exception of `action()` or `nargs()` is
ignored, `action(HELP)` and `action(VERSION)` are called on arguments that take values (as they do until told
otherwise), and `dest()` is not called on the current help or version option. -/
def HelpCareful (st : State D) (op : Op) (r : Res Unit) : Prop :=
  match op with
  | .action ref act => r = .ok () ∧ (act = .help ∨ act = .version → ∀ s, st.atObj ref = some s → s.arg.nargs ≠ 0)
  | .nargs _ _ => r = .ok ()
  | .dest ref _ => st.helpOption ≠ some ref ∧ st.versionOption ≠ some ref
  | _ => True

/-- Every argument with the HELP action is the registered help option, and so is every argument of help kind. -/
structure HelpInv (st : State D) : Prop where
  act : ∀ s ∈ st.arguments, s.arg.action = .help → st.helpOption = some s.obj
  kind : ∀ s ∈ st.arguments, s.arg.type = .help → s.arg.action = .help

theorem kindOf_help {p : Bool} {act : Action} {n m : Nat} (h : kindOf p act n = some (.help, m)) :
    act = .help ∧ p = false ∧ n ≠ 0 := by
  unfold kindOf at h
  cases p <;> cases act <;> simp only [Bool.false_eq_true, if_false, if_true] at h <;> grind

theorem kindOf_of_help {p : Bool} {n m : Nat} {k : Ty} (h : kindOf p .help n = some (k, m)) :
    p = false ∧ (k = .help ∨ (k = .boolean ∧ n = 0)) := by
  unfold kindOf at h
  cases p <;> simp only [Bool.false_eq_true, if_false, if_true] at h <;> grind

theorem retype_helpInv {st : State D} {full : Prop} (hi : GInv full st) {s : Slot D} (hs : s ∈ st.arguments) {a : Argument D}
    (h1 : (st.retype s a).2 = .ok ()) (hn : a.action = .help → a.nargs = 0 → st.helpOption = some s.obj)
    (act : ∀ t ∈ st.arguments, t.obj ≠ s.obj → t.arg.action = .help → st.helpOption = some t.obj)
    (kind : ∀ t ∈ st.arguments, t.obj ≠ s.obj → t.arg.type = .help → t.arg.action = .help) :
    HelpInv (st.retype s a).1 := by
  obtain ⟨k, n, g0, g1, g2, g3, g4, g5, g6, _, _⟩ := retype_ok h1
  have tc := tc_help s.obj st.helpOption st.versionOption a
  have e := retype_eq st s a
  have eh : (st.retype s a).1.helpOption = (a.typeConstructor s.obj st.helpOption st.versionOption).2.1 := by rw [e]
  have ea : (st.retype s a).1.arguments = updNode st.arguments s.node fun _ =>
      a.retyped s.obj st.helpOption st.versionOption := by rw [e]
  have cases' : ∀ t' ∈ (st.retype s a).1.arguments,
      (t' ∈ st.arguments ∧ t'.obj ≠ s.obj) ∨ t' = { s with arg := a.retyped s.obj st.helpOption st.versionOption } := by
    intro t' ht'
    rw [ea] at ht'
    obtain ⟨t, ht, rfl⟩ := List.mem_map.1 ht'
    by_cases e : t.node = s.node
    · obtain rfl := eq_of_node hi hs ht e
      right; simp
    · left
      simp only [e, beq_iff_eq, if_false]
      exact ⟨ht, fun e' => e (by rw [eq_of_obj hi hs ht e'])⟩
  constructor
  · intro t' ht' hact
    rcases cases' t' ht' with ⟨ht, hne⟩ | rfl
    · have := act t' ht hne hact
      rw [eh]
      rcases tc with e | ⟨e, _, h | h⟩
      · rw [e]; exact this
      · rw [this] at h; cases h
      · rw [this] at h; exact absurd (Option.some.inj h) hne
    · have ha : a.action = .help := by
        simp only at hact
        rw [g4] at hact
        split at hact
        · cases hact
        · exact hact
      rw [ha] at g0
      obtain ⟨_, hk | ⟨hk, hz⟩⟩ := kindOf_of_help g0
      · exact g6 hk
      · rw [g5 (by rw [hk]; simp)]
        exact hn ha hz
  · intro t' ht' hty
    rcases cases' t' ht' with ⟨ht, hne⟩ | rfl
    · exact kind t' ht hne hty
    · simp only at hty ⊢
      rw [g1] at hty
      subst hty
      rw [g4, if_neg (by simp)]
      exact (kindOf_help g0).1

theorem step_helpInv {scan : Str → Option D} {st : State D} {full : Prop} (hi : GInv full st) (hp : st.Ptrs) (h : HelpInv st) (op : Op)
    (hg : (step scan st op).2.goesOn = true) (hc : HelpCareful st op (step scan st op).2) :
    HelpInv (step scan st op).1 := by
  by_cases hk : op.keepsPtrs = true
  · have hptr := (step_keepsPtrs (scan := scan) hi op hk).1
    have back : ∀ s' ∈ (step scan st op).1.arguments, (s'.arg.action ≠ .help ∧ s'.arg.type ≠ .help) ∨
        ∃ s ∈ st.arguments, s'.arg.action = s.arg.action ∧ s'.arg.type = s.arg.type ∧
          (s'.obj = s.obj ∨ s.arg.action ≠ .help) := by
      intro s' hs'
      rcases step_slots hi op hg hs' with ⟨s, hs, hch⟩ | hf
      · right
        refine ⟨s, hs, ?_⟩
        cases op with
        | action | nargs | remove | clear | parse => cases hk
        | defaults ref ds =>
          simp only [ArgChange] at hch
          split at hch
          · have hf := defaultsConstructor_frame ({ s.arg with defaults := ds } : Argument D)
            rw [hch]
            exact ⟨hf.2.2.2.1, hf.2.1, .inl rfl⟩
          · rw [hch]; exact ⟨rfl, rfl, .inl rfl⟩
        | dest ref d =>
          simp only [ArgChange] at hch
          split at hch
          · next e =>
            rw [hch]
            refine ⟨rfl, rfl, .inr fun ha => ?_⟩
            exact hc.1 (e ▸ h.act s hs ha)
          · rw [hch]; exact ⟨rfl, rfl, .inl rfl⟩
        | required | help | metavar | behave | edit | valid =>
          simp only [ArgChange] at hch; split at hch <;> (rw [hch]; exact ⟨rfl, rfl, .inl rfl⟩)
        | flag => obtain ⟨_, rfl⟩ := hch; exact ⟨rfl, rfl, .inl rfl⟩
        | _ => simp only [ArgChange] at hch; rw [hch]; exact ⟨rfl, rfl, .inl rfl⟩
      · left
        cases op with
        | add => rcases hf.2.2 with ⟨n, e⟩ | ⟨fs, e⟩ <;> rw [e] <;> simp
        | parse => cases hk
        | _ => exact hf.elim
    constructor
    · intro s' hs' ha
      rcases back s' hs' with ⟨h1, _⟩ | ⟨s, hs, e1, e2, e3 | e3⟩
      · exact absurd ha h1
      · rw [hptr, e3]; exact h.act s hs (e1 ▸ ha)
      · exact absurd (e1 ▸ ha) e3
    · intro s' hs' ht
      rcases back s' hs' with ⟨_, h1⟩ | ⟨s, hs, e1, e2, _⟩
      · exact absurd ht h1
      · rw [e1]; exact h.kind s hs (e2 ▸ ht)
  · cases op with
    | clear => exact ⟨fun s hs => (by cases hs), fun s hs => (by cases hs)⟩
    | remove names =>
      obtain ⟨_, _, _, b4, b5⟩ := remove_ptrs hi hp names hg
      constructor
      · intro s' hs' ha
        rcases step_slots hi (.remove names) hg hs' with ⟨s, hs, ns, rfl⟩ | hf
        · exact b4 _ hs' (h.act s hs ha)
        · exact hf.elim
      · intro s' hs' ha
        rcases step_slots hi (.remove names) hg hs' with ⟨s, hs, ns, rfl⟩ | hf
        · exact h.kind s hs ha
        · exact hf.elim
    | action ref act =>
      change HelpInv (st.action ref act).1
      obtain ⟨hok, hnz⟩ := hc
      change (st.action ref act).2 = .ok () at hok
      cases ho : st.atObj ref with
      | none => unfold State.action; rw [withRef_dead ho]; exact h
      | some s =>
        obtain ⟨hs, hobj⟩ := State.atObj_some ho
        rw [action_eq ho] at hok ⊢
        refine retype_helpInv (st := { st with helpOption := st.helpBut s, versionOption := st.versionBut s })
          (inv_of_eq hi rfl rfl rfl rfl rfl) hs hok ?_ ?_ ?_
        · intro h1 h2
          exact absurd h2 (hnz (by simp only at h1; rw [h1]; simp) s ho)
        · intro t ht hne ha
          have h1 := h.act t ht ha
          simp only [State.helpBut]
          rw [if_neg]
          · exact h1
          · intro hs'
            have := h.act s hs (by simpa using hs')
            rw [h1] at this
            exact hne (Option.some.inj this)
        · intro t ht _ hty; exact h.kind t ht hty
    | nargs ref n =>
      change HelpInv (st.nargs ref n).1
      change (st.nargs ref n).2 = .ok () at hc
      cases ho : st.atObj ref with
      | none => unfold State.nargs; rw [withRef_dead ho]; exact h
      | some s =>
        obtain ⟨hs, hobj⟩ := State.atObj_some ho
        unfold State.nargs at hc ⊢
        rw [withRef_live ho] at hc ⊢
        refine retype_helpInv hi hs hc ?_ ?_ ?_
        · intro h1 _; exact h.act s hs h1
        · intro t ht _ ha; exact h.act t ht ha
        · intro t ht _ hty; exact h.kind t ht hty
    | parse argv =>
      have same : ∀ (st1 st2 : State D) (b : Str), st2.config = { st1.config with binaryName := b } →
          HelpInv st1 → HelpInv st2 := by
        intro st1 st2 b hcf h
        have e0 : st2.arguments.map Slot.config = st1.arguments.map Slot.config :=
          (congrArg (fun x : State D => x.arguments) hcf :)
        have e1 : st2.helpOption = st1.helpOption := (congrArg (fun x : State D => x.helpOption) hcf :)
        constructor
        · intro s hs ha
          obtain ⟨t, ht, e⟩ := slots_of_config e0 hs
          have ea : s.arg.action = t.arg.action := (congrArg (fun x : Slot D => x.arg.action) e :)
          have eo : s.obj = t.obj := (congrArg (fun x : Slot D => x.obj) e :)
          rw [e1, eo]; exact h.act t ht (ea ▸ ha)
        · intro s hs ha
          obtain ⟨t, ht, e⟩ := slots_of_config e0 hs
          have ea : s.arg.action = t.arg.action := (congrArg (fun x : Slot D => x.arg.action) e :)
          have et : s.arg.type = t.arg.type := (congrArg (fun x : Slot D => x.arg.type) e :)
          rw [ea]; exact h.kind t ht (et ▸ ha)
      change HelpInv (st.parseArguments scan argv).1
      rcases parse_config (scan := scan) hi argv with ⟨o, hx⟩ | ⟨b, hx | ⟨h1, h2, h3⟩⟩
      · change (st.parseArguments scan argv).2.goesOn = true at hg
        rw [hx] at hg; cases hg
      · exact same _ _ _ hx h
      · refine same _ _ _ h3 ?_
        have hr : HelpInv st.resetAll := same st st.resetAll st.binaryName (by rw [resetAll_config]; rfl) h
        have mem : ∀ s ∈ st.resetAll.withHelp.arguments, s ∈ st.resetAll.arguments ∨
            s = st.resetAll.newSlot (helpArgument (helpFlags st.resetAll)) := by
          intro s hs
          unfold State.withHelp at hs
          simp only at hs
          rw [mem_stableSort, List.mem_append, List.mem_singleton] at hs
          exact hs
        constructor
        · intro s hs ha
          rcases mem s hs with hs | rfl
          · have := hr.act s hs ha
            rw [show st.resetAll.helpOption = st.helpOption from rfl, h1] at this; cases this
          · rfl
        · intro s hs ha
          rcases mem s hs with hs | rfl
          · exact hr.kind s hs ha
          · rfl
    | _ => exact absurd rfl hk

/-- Every argument with the VERSION action is the registered version option, and so is every argument of version kind. -/
structure VersionInv (st : State D) : Prop where
  act : ∀ s ∈ st.arguments, s.arg.action = .version → st.versionOption = some s.obj
  kind : ∀ s ∈ st.arguments, s.arg.type = .version → s.arg.action = .version

theorem kindOf_version {p : Bool} {act : Action} {n m : Nat} (h : kindOf p act n = some (.version, m)) :
    act = .version ∧ p = false ∧ n ≠ 0 := by
  unfold kindOf at h
  cases p <;> cases act <;> simp only [Bool.false_eq_true, if_false, if_true] at h <;> grind

theorem kindOf_of_version {p : Bool} {n m : Nat} {k : Ty} (h : kindOf p .version n = some (k, m)) :
    p = false ∧ (k = .version ∨ (k = .boolean ∧ n = 0)) := by
  unfold kindOf at h
  cases p <;> simp only [Bool.false_eq_true, if_false, if_true] at h <;> grind

theorem retype_versionInv {st : State D} {full : Prop} (hi : GInv full st) {s : Slot D} (hs : s ∈ st.arguments) {a : Argument D}
    (h1 : (st.retype s a).2 = .ok ()) (hn : a.action = .version → a.nargs = 0 → st.versionOption = some s.obj)
    (act : ∀ t ∈ st.arguments, t.obj ≠ s.obj → t.arg.action = .version → st.versionOption = some t.obj)
    (kind : ∀ t ∈ st.arguments, t.obj ≠ s.obj → t.arg.type = .version → t.arg.action = .version) :
    VersionInv (st.retype s a).1 := by
  obtain ⟨k, n, g0, g1, g2, g3, g4, _, _, g5, g6⟩ := retype_ok h1
  have tc := tc_version s.obj st.helpOption st.versionOption a
  have e := retype_eq st s a
  have eh : (st.retype s a).1.versionOption = (a.typeConstructor s.obj st.helpOption st.versionOption).2.2.1 := by rw [e]
  have ea : (st.retype s a).1.arguments = updNode st.arguments s.node fun _ =>
      a.retyped s.obj st.helpOption st.versionOption := by rw [e]
  have cases' : ∀ t' ∈ (st.retype s a).1.arguments,
      (t' ∈ st.arguments ∧ t'.obj ≠ s.obj) ∨ t' = { s with arg := a.retyped s.obj st.helpOption st.versionOption } := by
    intro t' ht'
    rw [ea] at ht'
    obtain ⟨t, ht, rfl⟩ := List.mem_map.1 ht'
    by_cases e : t.node = s.node
    · obtain rfl := eq_of_node hi hs ht e
      right; simp
    · left
      simp only [e, beq_iff_eq, if_false]
      exact ⟨ht, fun e' => e (by rw [eq_of_obj hi hs ht e'])⟩
  constructor
  · intro t' ht' hact
    rcases cases' t' ht' with ⟨ht, hne⟩ | rfl
    · have := act t' ht hne hact
      rw [eh]
      rcases tc with e | ⟨e, _, h | h⟩
      · rw [e]; exact this
      · rw [this] at h; cases h
      · rw [this] at h; exact absurd (Option.some.inj h) hne
    · have ha : a.action = .version := by
        simp only at hact
        rw [g4] at hact
        split at hact
        · cases hact
        · exact hact
      rw [ha] at g0
      obtain ⟨_, hk | ⟨hk, hz⟩⟩ := kindOf_of_version g0
      · exact g6 hk
      · rw [g5 (by rw [hk]; simp)]
        exact hn ha hz
  · intro t' ht' hty
    rcases cases' t' ht' with ⟨ht, hne⟩ | rfl
    · exact kind t' ht hne hty
    · simp only at hty ⊢
      rw [g1] at hty
      subst hty
      rw [g4, if_neg (by simp)]
      exact (kindOf_version g0).1

theorem step_versionInv {scan : Str → Option D} {st : State D} {full : Prop} (hi : GInv full st) (hp : st.Ptrs) (h : VersionInv st) (op : Op)
    (hg : (step scan st op).2.goesOn = true) (hc : HelpCareful st op (step scan st op).2) :
    VersionInv (step scan st op).1 := by
  by_cases hk : op.keepsPtrs = true
  · have hptr := (step_keepsPtrs (scan := scan) hi op hk).2
    have back : ∀ s' ∈ (step scan st op).1.arguments, (s'.arg.action ≠ .version ∧ s'.arg.type ≠ .version) ∨
        ∃ s ∈ st.arguments, s'.arg.action = s.arg.action ∧ s'.arg.type = s.arg.type ∧
          (s'.obj = s.obj ∨ s.arg.action ≠ .version) := by
      intro s' hs'
      rcases step_slots hi op hg hs' with ⟨s, hs, hch⟩ | hf
      · right
        refine ⟨s, hs, ?_⟩
        cases op with
        | action | nargs | remove | clear | parse => cases hk
        | defaults ref ds =>
          simp only [ArgChange] at hch
          split at hch
          · have hf := defaultsConstructor_frame ({ s.arg with defaults := ds } : Argument D)
            rw [hch]
            exact ⟨hf.2.2.2.1, hf.2.1, .inl rfl⟩
          · rw [hch]; exact ⟨rfl, rfl, .inl rfl⟩
        | dest ref d =>
          simp only [ArgChange] at hch
          split at hch
          · next e =>
            rw [hch]
            refine ⟨rfl, rfl, .inr fun ha => ?_⟩
            exact hc.2 (e ▸ h.act s hs ha)
          · rw [hch]; exact ⟨rfl, rfl, .inl rfl⟩
        | required | help | metavar | behave | edit | valid =>
          simp only [ArgChange] at hch; split at hch <;> (rw [hch]; exact ⟨rfl, rfl, .inl rfl⟩)
        | flag => obtain ⟨_, rfl⟩ := hch; exact ⟨rfl, rfl, .inl rfl⟩
        | _ => simp only [ArgChange] at hch; rw [hch]; exact ⟨rfl, rfl, .inl rfl⟩
      · left
        cases op with
        | add => rcases hf.2.2 with ⟨n, e⟩ | ⟨fs, e⟩ <;> rw [e] <;> simp
        | parse => cases hk
        | _ => exact hf.elim
    constructor
    · intro s' hs' ha
      rcases back s' hs' with ⟨h1, _⟩ | ⟨s, hs, e1, e2, e3 | e3⟩
      · exact absurd ha h1
      · rw [hptr, e3]; exact h.act s hs (e1 ▸ ha)
      · exact absurd (e1 ▸ ha) e3
    · intro s' hs' ht
      rcases back s' hs' with ⟨_, h1⟩ | ⟨s, hs, e1, e2, _⟩
      · exact absurd ht h1
      · rw [e1]; exact h.kind s hs (e2 ▸ ht)
  · cases op with
    | clear => exact ⟨fun s hs => (by cases hs), fun s hs => (by cases hs)⟩
    | remove names =>
      obtain ⟨_, _, _, b4, b5⟩ := remove_ptrs hi hp names hg
      constructor
      · intro s' hs' ha
        rcases step_slots hi (.remove names) hg hs' with ⟨s, hs, ns, rfl⟩ | hf
        · exact b5 _ hs' (h.act s hs ha)
        · exact hf.elim
      · intro s' hs' ha
        rcases step_slots hi (.remove names) hg hs' with ⟨s, hs, ns, rfl⟩ | hf
        · exact h.kind s hs ha
        · exact hf.elim
    | action ref act =>
      change VersionInv (st.action ref act).1
      obtain ⟨hok, hnz⟩ := hc
      change (st.action ref act).2 = .ok () at hok
      cases ho : st.atObj ref with
      | none => unfold State.action; rw [withRef_dead ho]; exact h
      | some s =>
        obtain ⟨hs, hobj⟩ := State.atObj_some ho
        rw [action_eq ho] at hok ⊢
        refine retype_versionInv (st := { st with helpOption := st.helpBut s, versionOption := st.versionBut s })
          (inv_of_eq hi rfl rfl rfl rfl rfl) hs hok ?_ ?_ ?_
        · intro h1 h2
          exact absurd h2 (hnz (by simp only at h1; rw [h1]; simp) s ho)
        · intro t ht hne ha
          have h1 := h.act t ht ha
          simp only [State.versionBut]
          rw [if_neg]
          · exact h1
          · intro hs'
            have := h.act s hs (by simpa using hs')
            rw [h1] at this
            exact hne (Option.some.inj this)
        · intro t ht _ hty; exact h.kind t ht hty
    | nargs ref n =>
      change VersionInv (st.nargs ref n).1
      change (st.nargs ref n).2 = .ok () at hc
      cases ho : st.atObj ref with
      | none => unfold State.nargs; rw [withRef_dead ho]; exact h
      | some s =>
        obtain ⟨hs, hobj⟩ := State.atObj_some ho
        unfold State.nargs at hc ⊢
        rw [withRef_live ho] at hc ⊢
        refine retype_versionInv hi hs hc ?_ ?_ ?_
        · intro h1 _; exact h.act s hs h1
        · intro t ht _ ha; exact h.act t ht ha
        · intro t ht _ hty; exact h.kind t ht hty
    | parse argv =>
      have same : ∀ (st1 st2 : State D) (b : Str), st2.config = { st1.config with binaryName := b } →
          VersionInv st1 → VersionInv st2 := by
        intro st1 st2 b hcf h
        have e0 : st2.arguments.map Slot.config = st1.arguments.map Slot.config :=
          (congrArg (fun x : State D => x.arguments) hcf :)
        have e1 : st2.versionOption = st1.versionOption := (congrArg (fun x : State D => x.versionOption) hcf :)
        constructor
        · intro s hs ha
          obtain ⟨t, ht, e⟩ := slots_of_config e0 hs
          have ea : s.arg.action = t.arg.action := (congrArg (fun x : Slot D => x.arg.action) e :)
          have eo : s.obj = t.obj := (congrArg (fun x : Slot D => x.obj) e :)
          rw [e1, eo]; exact h.act t ht (ea ▸ ha)
        · intro s hs ha
          obtain ⟨t, ht, e⟩ := slots_of_config e0 hs
          have ea : s.arg.action = t.arg.action := (congrArg (fun x : Slot D => x.arg.action) e :)
          have et : s.arg.type = t.arg.type := (congrArg (fun x : Slot D => x.arg.type) e :)
          rw [ea]; exact h.kind t ht (et ▸ ha)
      change VersionInv (st.parseArguments scan argv).1
      rcases parse_config (scan := scan) hi argv with ⟨o, hx⟩ | ⟨b, hx | ⟨h1, h2, h3⟩⟩
      · change (st.parseArguments scan argv).2.goesOn = true at hg
        rw [hx] at hg; cases hg
      · exact same _ _ _ hx h
      · refine same _ _ _ h3 ?_
        have hr : VersionInv st.resetAll := same st st.resetAll st.binaryName (by rw [resetAll_config]; rfl) h
        have mem : ∀ s ∈ st.resetAll.withHelp.arguments, s ∈ st.resetAll.arguments ∨
            s = st.resetAll.newSlot (helpArgument (helpFlags st.resetAll)) := by
          intro s hs
          unfold State.withHelp at hs
          simp only at hs
          rw [mem_stableSort, List.mem_append, List.mem_singleton] at hs
          exact hs
        constructor
        · intro s hs ha
          rcases mem s hs with hs | rfl
          · exact hr.act s hs ha
          · cases ha
        · intro s hs ha
          rcases mem s hs with hs | rfl
          · exact hr.kind s hs ha
          · cases ha
    | _ => exact absurd rfl hk

theorem HelpCareful.safe {st : State D} {op : Op} {r : Res Unit} (h : HelpCareful st op r) : PtrSafe st op r := by
  rintro ref d rfl; exact h

theorem ReachableBy.helpInv {scan : Str → Option D} {st : State D} (h : ReachableBy scan HelpCareful st) :
    HelpInv st ∧ VersionInv st := by
  induction h with
  | init => exact ⟨⟨fun s hs => (by cases hs), fun s hs => (by cases hs)⟩, ⟨fun s hs => (by cases hs), fun s hs => (by cases hs)⟩⟩
  | step op hr hg hc ih =>
    have hp := (hr.mono fun _ _ _ => HelpCareful.safe).ptrs
    exact ⟨step_helpInv hr.reachable.inv hp ih.1 op hg hc, step_versionInv hr.reachable.inv hp ih.2 op hg hc⟩

/-- C16. After a careful history, the help option registered by the parser is the only argument of help kind
(and the only one with the HELP action); the same for the version; and the registered options are listed. -/
theorem C16_at_most_one {scan : Str → Option D} {st : State D} (h : ReachableBy scan HelpCareful st) :
    (∀ s ∈ st.arguments, s.arg.type = .help ∨ s.arg.action = .help → st.helpOption = some s.obj) ∧
    (∀ s ∈ st.arguments, s.arg.type = .version ∨ s.arg.action = .version → st.versionOption = some s.obj) ∧
    (∀ s ∈ st.arguments, ∀ t ∈ st.arguments, s.arg.type = .help → t.arg.type = .help → s = t) ∧
    (∀ s ∈ st.arguments, ∀ t ∈ st.arguments, s.arg.type = .version → t.arg.type = .version → s = t) ∧
    (∀ o, st.helpOption = some o → ∃ s ∈ st.arguments, s.obj = o ∧ s.arg.action = .help) ∧
    (∀ o, st.versionOption = some o → ∃ s ∈ st.arguments, s.obj = o ∧ s.arg.action = .version) := by
  obtain ⟨h1, h2⟩ := h.helpInv
  have hi := h.reachable.inv
  have hp := (h.mono fun _ _ _ => HelpCareful.safe).ptrs
  have a1 : ∀ s ∈ st.arguments, s.arg.type = .help ∨ s.arg.action = .help → st.helpOption = some s.obj :=
    fun s hs h => h.elim (fun e => h1.act s hs (h1.kind s hs e)) (fun e => h1.act s hs e)
  have a2 : ∀ s ∈ st.arguments, s.arg.type = .version ∨ s.arg.action = .version → st.versionOption = some s.obj :=
    fun s hs h => h.elim (fun e => h2.act s hs (h2.kind s hs e)) (fun e => h2.act s hs e)
  refine ⟨a1, a2, ?_, ?_, hp.help, hp.version⟩
  · intro s hs t ht e1 e2
    refine eq_of_obj hi ht hs ?_
    have := a1 s hs (.inl e1)
    rw [a1 t ht (.inl e2)] at this
    exact (Option.some.inj this).symm
  · intro s hs t ht e1 e2
    refine eq_of_obj hi ht hs ?_
    have := a2 s hs (.inl e1)
    rw [a2 t ht (.inl e2)] at this
    exact (Option.some.inj this).symm

/-- C16. While an option is registered as help option, `action(HELP)` on another option (that takes values and
was not itself given the HELP action before) throws and the registered one stays. -/
theorem C16_second_help_refused {scan : Str → Option D} {st : State D} (hr : Reachable scan st) {o : Nat}
    (ho : st.helpOption = some o) {s : Slot D} (hs : s ∈ st.arguments) (hne : s.obj ≠ o)
    (hopt : s.arg.isPositional = false) (hact : s.arg.action ≠ .help) (hn : s.arg.nargs ≠ 0) :
    (st.action s.obj .help).2 = .throw ⟨.argument, s.arg.front, "help action already defined".toList⟩ ∧
    (st.action s.obj .help).1.helpOption = some o := by
  have hat := State.atObj_of_mem hr.inv.objs hs
  have e : st.helpBut s = some o := by
    unfold State.helpBut
    rw [if_neg (by simpa using hact), ho]
  have tc : ({ s.arg with action := .help } : Argument D).typeConstructor s.obj (st.helpBut s) (st.versionBut s) =
      ({ s.arg with action := .help }, some o, st.versionBut s,
        .throw ⟨.argument, s.arg.front, "help action already defined".toList⟩) := by
    have e1 : ({ s.arg with action := .help } : Argument D).isPositional = false := hopt
    have e2 : (s.arg.nargs == 0) = false := by simpa using hn
    have e3 : (o == s.obj) = false := by simpa using fun h : o = s.obj => hne h.symm
    unfold Argument.typeConstructor
    rw [e1, e]
    simp only [e2, e3, Bool.false_eq_true, if_false, Bool.false_or]
    simp [e3]
    rfl
  rw [action_eq hat]
  unfold State.retype
  simp only
  rw [tc]
  exact ⟨rfl, rfl⟩

theorem C16_second_version_refused {scan : Str → Option D} {st : State D} (hr : Reachable scan st) {o : Nat}
    (ho : st.versionOption = some o) {s : Slot D} (hs : s ∈ st.arguments) (hne : s.obj ≠ o)
    (hopt : s.arg.isPositional = false) (hact : s.arg.action ≠ .version) (hn : s.arg.nargs ≠ 0) :
    (st.action s.obj .version).2 = .throw ⟨.argument, s.arg.front, "version action already defined".toList⟩ ∧
    (st.action s.obj .version).1.versionOption = some o := by
  have hat := State.atObj_of_mem hr.inv.objs hs
  have e : st.versionBut s = some o := by
    unfold State.versionBut
    rw [if_neg (by simpa using hact), ho]
  have tc : ({ s.arg with action := .version } : Argument D).typeConstructor s.obj (st.helpBut s) (st.versionBut s) =
      ({ s.arg with action := .version }, st.helpBut s, some o,
        .throw ⟨.argument, s.arg.front, "version action already defined".toList⟩) := by
    have e1 : ({ s.arg with action := .version } : Argument D).isPositional = false := hopt
    have e2 : (s.arg.nargs == 0) = false := by simpa using hn
    have e3 : (o == s.obj) = false := by simpa using fun h : o = s.obj => hne h.symm
    unfold Argument.typeConstructor
    rw [e1, e]
    simp only [e2, e3, Bool.false_eq_true, if_false, Bool.false_or]
    simp [e3]
    rfl
  rw [action_eq hat]
  unfold State.retype
  simp only
  rw [tc]
  exact ⟨rfl, rfl⟩

/-- C16, why `action(HELP)` must be given to an argument that takes values: on one with `nargs(0)` it is accepted
without effect on the kind, yet taking it back unregisters the help option of the parser, and a second one
can then be registered. No call of this history throws. -/
theorem C16_two_help_options :
    ∃ (st : State Unit) (ops : List Op), Reachable demoScan st ∧ st = runOps demoScan State.init ops ∧
      ops = [.add ["-a".toList], .action 0 .help, .add ["-b".toList], .nargs 1 0, .action 1 .help, .action 1 .none,
        .add ["-c".toList], .action 2 .help] ∧
      opsDisciplined demoScan State.init ops = true ∧
      (∃ s ∈ st.arguments, s.obj = 0 ∧ s.arg.type = .help) ∧ (∃ s ∈ st.arguments, s.obj = 2 ∧ s.arg.type = .help) ∧
      st.helpOption = some 2 :=
  ⟨_, _, reachable_runOps .init _ (by decide +kernel), rfl, rfl, by decide +kernel, by decide +kernel, by decide +kernel,
    by decide +kernel⟩

/-- …and why its exceptions must not be ignored: the refused argument keeps the HELP action, so that changing
its action unregisters the help option. -/
theorem C16_ignored_exception :
    ∃ st : State Unit, Reachable demoScan st ∧
      (∃ s ∈ st.arguments, s.obj = 0 ∧ s.arg.type = .help) ∧ st.helpOption = none :=
  ⟨runOps demoScan State.init [.add ["-a".toList], .action 0 .help, .add ["-b".toList], .action 1 .help, .action 1 .none],
    reachable_runOps .init _ (by decide +kernel), by decide +kernel, by decide +kernel⟩

/-- A careful history with a help and a version option; the hypotheses of `C16_second_help_refused` are met. -/
def helpCarefulB (scan : Str → Option D) (st : State D) (op : Op) : Bool :=
  match op with
  | .action ref act => (match (step scan st op).2 with | .ok () => true | _ => false) &&
      (match st.atObj ref with | some s => decide (s.arg.nargs ≠ 0) | none => true)
  | .nargs _ _ => (match (step scan st op).2 with | .ok () => true | _ => false)
  | .dest ref _ => st.helpOption != some ref && st.versionOption != some ref
  | _ => true

def opsHelpCareful (scan : Str → Option D) : State D → List Op → Bool
  | _, [] => true
  | st, op :: ops => (step scan st op).2.goesOn && helpCarefulB scan st op && opsHelpCareful scan (step scan st op).1 ops

theorem helpCareful_runOps {scan : Str → Option D} {st : State D} (h : ReachableBy scan HelpCareful st) (ops : List Op)
    (h1 : opsHelpCareful scan st ops = true) : ReachableBy scan HelpCareful (runOps scan st ops) := by
  induction ops generalizing st with
  | nil => exact h
  | cons op ops ih =>
    simp only [opsHelpCareful, Bool.and_eq_true] at h1
    obtain ⟨⟨hg, hb⟩, h2⟩ := h1
    refine ih (.step op h hg ?_) h2
    cases op with
    | action ref act =>
      simp only [helpCarefulB, Bool.and_eq_true] at hb
      refine ⟨?_, fun _ s hs => ?_⟩
      · have := hb.1
        split at this
        · assumption
        · cases this
      · have := hb.2
        rw [hs] at this
        simpa using this
    | nargs ref n =>
      simp only [helpCarefulB] at hb
      split at hb
      · assumption
      · cases hb
    | dest ref d => simpa [helpCarefulB, HelpCareful] using hb
    | _ => trivial

example : let st := runOps demoScan State.init (parserOps ++ [.add ["-V".toList], .action 12 .version]);
    ReachableBy demoScan HelpCareful st ∧ st.helpOption = some 9 ∧ st.versionOption = some 12 ∧
    (st.action 0 .help).2 = .throw ⟨.argument, "-o".toList, "help action already defined".toList⟩ :=
  ⟨helpCareful_runOps .init _ (by decide +kernel), by decide +kernel, by decide +kernel, by decide +kernel⟩

end BletArgs
