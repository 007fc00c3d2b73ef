import Verif.Lemmas.Failing
import Verif.Props.Order
/-
C85: memory runs out in any call.
-/
namespace BletArgs
open Spec
variable {D : Type} {scan : Str → Option D}

/-! ### The registry -/

/-- C85. After any history of calls of which any number were interrupted by failed allocations: a registered name
resolves to a listed argument that has this name; the names of arguments are well-formed and in order; no object is
listed twice, and a deleted object is not listed. -/
theorem C85_registry {n : Nat} {st : State D} (h : Survives scan Any n st) :
    (∀ f, st.argumentExists f = true → ∃ s ∈ st.arguments, st.getArgument f = .ok s ∧ f ∈ s.arg.names) ∧
    (st.byName.map (·.1)).Nodup ∧
    (∀ s ∈ st.arguments,
      (s.arg.isPositional = true → ∃ f, s.arg.names = [f] ∧ NameForm f) ∧
      (s.arg.isPositional = false → s.arg.names ≠ [] ∧ ∀ f ∈ s.arg.names, FlagForm f) ∧
      s.arg.names.Pairwise fun f g => ¬FlagBefore g f) ∧
    (st.arguments.map (·.obj)).Nodup ∧ (∀ s ∈ st.arguments, s.obj ∉ st.freedObjs) := by
  have hi := h.inv
  refine ⟨fun f hf => ?_, hi.keys, fun s hs => ?_, hi.objs, hi.freedDead⟩
  · obtain ⟨s, hs, h1, h2, _⟩ := getArgument_exists hi hf
    exact ⟨s, hs, h1, h2⟩
  · have hf := hi.forms s hs
    refine ⟨hf.positional, hf.option, hf.sorted.imp fun {a b} h => ?_⟩
    rw [← compareFlag_iff]
    simp [h]

/-- The objects: none is deleted twice, also at the end by the destructor, which then leaves at most one object per
interrupted call. -/
theorem C85_objects {n : Nat} {st : State D} (h : Survives scan Any n st) :
    st.deleteAll.freedObjs.Nodup ∧ (∀ o ∈ st.deleteAll.freedObjs, o < st.nextObj) ∧
    st.nextObj ≤ st.deleteAll.freedObjs.length + n := by
  have hi := h.inv
  refine ⟨?_, ?_, ?_⟩
  · unfold State.deleteAll
    simp only
    rw [List.nodup_append]
    refine ⟨hi.freedNodup, hi.objs, ?_⟩
    rintro a ha b hb rfl
    obtain ⟨s, hs, rfl⟩ := List.mem_map.1 hb
    exact hi.freedDead s hs ha
  · intro o ho
    unfold State.deleteAll at ho
    simp only [List.mem_append, List.mem_map] at ho
    rcases ho with ho | ⟨s, hs, rfl⟩
    · exact hi.freedLt o ho
    · exact hi.objsLt s hs
  · have key : st.nextObj ≤ st.freedObjs.length + st.arguments.length + n := by
      clear hi
      induction h with
      | init => exact Nat.zero_le _
      | step op h0 _ hg ih =>
        have := step_balanced h0.inv op hg
        unfold Balanced at this
        omega
      | abort op h0 _ ha ih =>
        have := aborts_objects h0.inv ha
        omega
    show _ ≤ (st.freedObjs ++ st.arguments.map (·.obj)).length + n
    rw [List.length_append, List.length_map]
    exact key

/-! ### The other arguments -/

/-- An interrupted call leaves every reference valid and every name leading to the argument it led to; an argument other
than the one the call was made on keeps its settings, and its values unless the call was `parseArguments`. -/
theorem C85_others_untouched {n : Nat} {st st' : State D} (h : Survives scan Any n st) {op : Op} (ha : Aborts scan st op st') :
    (∀ r s, st.atObj r = some s → ∃ s', st'.atObj r = some s' ∧
      (op.ref ≠ some r → s'.config = s.config ∧ ((∀ argv, op ≠ .parse argv) → s' = s))) ∧
    (∀ f r, st.resolve f = some r → st'.resolve f = some r) := by
  have hi := h.inv
  have hi' := aborts_inv hi ha
  have hst := aborts_stays hi ha
  constructor
  · intro r s hs
    obtain ⟨hm, rfl⟩ := State.atObj_some hs
    obtain ⟨s', hs', _, e2, e3⟩ := hst.slots s hm
    exact ⟨s', by rw [← e2]; exact State.atObj_of_mem hi'.objs hs', e3⟩
  · intro f r hr
    unfold State.resolve at hr
    cases hg : st.getArgument f with
    | ok s =>
      rw [hg] at hr
      cases hr
      obtain ⟨hl, hs⟩ := entry_of_getArgument hg
      obtain ⟨s', hs', e1, e2, _⟩ := hst.slots s hs
      rw [← e2]
      exact resolve_of_entry hi' hs' (by rw [e1]; exact hst.names _ _ hl)
    | _ => rw [hg] at hr; cases hr

/-- The calls that have no effect when they are interrupted. -/
def Op.atomic : Op → Bool
  | .remove _ | .help .. | .metavar .. | .setBinaryName _ | .setDescription _ | .setEpilog _ | .setUsage _ | .setVersion _ => true
  | _ => false

theorem withRef_ok_not_throw {st : State D} {ref : Nat} {g : Slot D → State D × Res Unit} (hg : ∀ s, (g s).2 = .ok ()) (e : Exn) :
    (st.withRef ref g).2 ≠ .throw e := by
  cases h : st.atObj ref with
  | none => rw [withRef_none h]; exact nofun
  | some s => rw [withRef_some h, hg s]; exact nofun

/-- An interrupted removal or setter has had no effect. -/
theorem C85_all_or_nothing {n : Nat} {st st' : State D} (h : Survives scan Any n st) {op : Op} (ha : Aborts scan st op st')
    (hop : op.atomic = true) : st' = st := by
  have hi := h.inv
  cases ha with
  | unchanged => rfl
  | unthrown ht =>
    cases op with
    | remove ns =>
      rcases removeArguments_cases hi ns with ⟨_, e⟩ | ⟨_, _, e⟩ | ⟨_, _, hn, w, e⟩ | ⟨_, _, _, e⟩
      · show (st.removeArguments ns).1 = _
        rw [e]
      · show (st.removeArguments ns).1 = _
        rw [e]
      · change (st.removeArguments ns).2 = _ at ht; rw [e] at ht; cases ht
      · change (st.removeArguments ns).2 = _ at ht; rw [e] at ht; cases ht
    | help r x => exact absurd ht (withRef_ok_not_throw (fun _ => rfl) _)
    | metavar r x => exact absurd ht (withRef_ok_not_throw (fun _ => rfl) _)
    | setBinaryName | setDescription | setEpilog | setUsage | setVersion => cases ht
    | _ => cases hop
  | values hop' => rcases hop' with ⟨x, rfl⟩ | ⟨x, rfl⟩ | ⟨x, rfl⟩ <;> cases hop
  | _ => cases hop

/-- `clear()`, `required()`, `valid()`, the flags and widths of the parser are never interrupted. -/
theorem C85_never_interrupted {st st' : State D} {op : Op} (hu : Unfailing op) : ¬Aborts scan st op st' := by
  have hop : op.allocates = false := by
    cases op <;> first | rfl | exact hu.elim
  intro ha
  cases ha with
  | unchanged h => rw [hop] at h; cases h
  | unthrown ht =>
    cases op with
    | required r b =>
      change (st.required r b).2 = _ at ht
      unfold State.required at ht
      cases h : st.atObj r with
      | none => rw [withRef_none h] at ht; cases ht
      | some s =>
        rw [withRef_some h] at ht
        unfold State.sortArguments at ht
        split at ht <;> cases ht
    | valid r v d => exact withRef_ok_not_throw (fun _ => rfl) _ ht
    | behave r c x => exact withRef_ok_not_throw (fun _ => rfl) _ ht
    | edit r l => exact withRef_ok_not_throw (fun _ => rfl) _ ht
    | clear | setAlternative | setStrict | setHelpException | setVersionException | setUsageWidth => cases ht
    | _ => cases hop
  | values hop' => rcases hop' with ⟨x, rfl⟩ | ⟨x, rfl⟩ | ⟨x, rfl⟩ <;> cases hop
  | _ => cases hop

theorem setBinaryIfEmpty_named (st : State D) (argv : List Str) :
    ∃ b, (st.setBinaryIfEmpty argv).1 = { st with binaryName := b } ∧ (b = st.binaryName ∨ st.binaryName = [] ∧ argv.head? = some b) := by
  unfold State.setBinaryIfEmpty
  split
  · next he =>
    split
    · exact ⟨st.binaryName, rfl, .inl rfl⟩
    · next b hb => exact ⟨b, rfl, .inr ⟨by simpa using he, by cases argv <;> simpa using hb⟩⟩
  · exact ⟨st.binaryName, rfl, .inl rfl⟩

theorem parse_named {full : Prop} {st : State D} (hi : GInv full st) {argv : List Str} (hh : st.helpOption ≠ none) {e : Exn}
    (ht : (st.parseArguments scan argv).2 = .throw e) :
    ∃ b, (st.parseArguments scan argv).1.config = { st.config with binaryName := b } ∧
      (b = st.binaryName ∨ st.binaryName = [] ∧ argv.head? = some b) := by
  have hr : GInv full st.resetAll := inv_of_config (resetAll_config st) hi
  unfold State.parseArguments at ht ⊢
  rcases autoHelp_cases hr with ⟨_, e⟩ | ⟨hn, _⟩ | ⟨hn, _⟩
  · rw [e] at ht ⊢
    simp only at ht ⊢
    obtain ⟨b, hb, hb'⟩ := setBinaryIfEmpty_named st.resetAll argv
    have hc : State.config { st.resetAll with binaryName := b } = { st.config with binaryName := b } := by
      have := resetAll_config st
      rw [← this]; rfl
    refine ⟨b, ?_, hb'⟩
    generalize st.resetAll.setBinaryIfEmpty argv = r at hb ht ⊢
    obtain ⟨st2, r⟩ := r
    simp only at hb
    subst hb
    cases r with
    | ok u =>
      simp only at ht ⊢
      have hl := mainLoop_config argv (endOptionIndex argv)
        (State.loopBudget { st.resetAll with binaryName := b } argv) 1 (st := { st.resetAll with binaryName := b }) hr.nodes
      generalize State.mainLoop argv (endOptionIndex argv)
        (State.loopBudget { st.resetAll with binaryName := b } argv) 1 { st.resetAll with binaryName := b } = r2 at hl ht ⊢
      obtain ⟨st3, r2⟩ := r2
      rw [← hc, ← hl]
      cases r2 with
      | ok u =>
        simp only at ht ⊢
        rcases afterLoop_config scan st3 with ⟨o, h⟩ | h
        · rw [h] at ht; cases ht
        · exact h
      | _ => rfl
    | _ => exact hc
  · exact absurd hn hh
  · exact absurd hn hh

/-- An interrupted `parseArguments` of a parser that has its help option has changed nothing but the values, the list of
additional arguments, the destinations and, if it was empty, the program name. -/
theorem C85_parse_keeps_configuration {n : Nat} {st st' : State D} (h : Survives scan Any n st) {argv : List Str}
    (ha : Aborts scan st (.parse argv) st') (hh : st.helpOption ≠ none) :
    ∃ b, st'.config = { st.config with binaryName := b } ∧ (b = st.binaryName ∨ st.binaryName = [] ∧ argv.head? = some b) := by
  have hi := h.inv
  have hc : ∀ st0 : State D, st0.config = st.config → st0.createsHelp = false := by
    intro st0 e
    have : st0.helpOption = st.helpOption := (congrArg (fun x : State D => x.helpOption) e :)
    unfold State.createsHelp
    rw [this]
    cases h : st.helpOption with
    | none => exact absurd h hh
    | some _ => rfl
  cases ha with
  | unchanged => exact ⟨_, rfl, .inl rfl⟩
  | unthrown ht => exact parse_named hi hh ht
  | values hop => rcases hop with ⟨x, h⟩ | ⟨x, h⟩ | ⟨x, h⟩ <;> cases h
  | parseReset e => exact ⟨st.binaryName, by rw [e]; rfl, .inl rfl⟩
  | parseAdd e h => rw [hc _ e] at h; cases h
  | parseText e h => rw [hc _ e] at h; cases h
  | parseRun e h1 h2 h3 =>
    have e0 : _ = st.helpOption := (congrArg (fun x : State D => x.helpOption) e :)
    rcases autoHelp_cases (inv_of_config e hi) with ⟨_, e'⟩ | ⟨hn, _⟩ | ⟨hn, _⟩
    · have e1 := congrArg Prod.fst (h1.symm.trans e')
      simp only at e1
      rw [e1] at h2 h3
      rw [e] at h2
      have eb : _ = st.binaryName := (congrArg (fun x : State D => x.binaryName) e :)
      simp only [State.config] at eb
      rw [eb] at h3
      exact ⟨_, h2, h3⟩
    · exact absurd (e0.symm.trans hn) hh
    · exact absurd (e0.symm.trans hn) hh

/-! ### Undefined behaviour -/

/-- In a state left by interrupted calls, a call runs into undefined behaviour only by one of the misuses of C19. -/
theorem C85_only_by_misuse {n : Nat} {st : State D} (h : Survives scan Any n st) {op : Op} {w : String}
    (hw : (step scan st op).2 = .ub w) : Misuse st op := by
  by_cases hp : ∃ argv, op = .parse argv
  · obtain ⟨argv, rfl⟩ := hp
    exact .inr (.inr ⟨argv, rfl, parse_ub h.inv hw⟩)
  · rcases call_outcome (scan := scan) h.inv op (fun argv e => hp ⟨argv, e⟩) with e | ⟨_, e | e⟩
    · rw [hw] at e; cases e
    · exact .inl e
    · exact .inr (.inl e)

/-- As long as every call is a correct use in the sense of C19, whatever the calls that are interrupted, the help and
version pointers designate listed arguments and no call runs into undefined behaviour. -/
theorem C85_no_undefined_behaviour {n : Nat} {st : State D} (h : Survives scan Proper n st) :
    (∀ o, st.helpOption = some o ∨ st.versionOption = some o → st.atObj o ≠ none) ∧
    ∀ op, Proper st op → ∀ w, (step scan st op).2 ≠ .ub w := by
  have any : ∀ {n : Nat} {st : State D}, Survives scan Proper n st → Survives scan Any n st := fun h => h.mono fun _ _ _ => trivial
  have hp : st.Ptrs := by
    induction h with
    | init => exact ⟨fun _ h => (nomatch h), fun _ h => (nomatch h)⟩
    | step op h0 hop hg ih => exact step_ptrs h0.inv ih op hg hop.keepsHelp
    | abort op h0 hop ha ih => exact aborts_ptrs h0.inv ih hop.keepsHelp ha
  have live : ∀ o, st.helpOption = some o ∨ st.versionOption = some o → st.atObj o ≠ none := by
    intro o ho hn
    rcases ho with ho | ho
    · obtain ⟨s, hs, e, _⟩ := hp.help o ho
      exact atObj_none hn s hs e
    · obtain ⟨s, hs, e, _⟩ := hp.version o ho
      exact atObj_none hn s hs e
  refine ⟨live, fun op hop w hw => ?_⟩
  rcases C85_only_by_misuse (any h) hw with ⟨r, h1, h2⟩ | ⟨ns, h1, h2⟩ | ⟨argv, h1, ⟨h2, h3⟩ | ⟨o, h2, h3⟩ | ⟨o, h2, h3⟩⟩
  · exact hop.live r h1 h2
  · exact h2 (hop.once ns h1)
  · rcases hop.program argv h1 with h | h
    · exact h h2
    · exact h h3
  · exact live o (.inl h2) h3
  · exact live o (.inr h2) h3

/-! ### The order -/

/-- The order of the list, which an interrupted `addArgument` or `flag` may leave wrong, is right again after the next
`addArgument`, `flag`, `required` or `removeArguments` that returns. -/
theorem C85_order_restored {n : Nat} {st : State D} (h : Survives scan Any n st) {op : Op}
    (hop : (∃ ns, op = .add ns ∨ op = .remove ns) ∨ ∃ r, (∃ f, op = .flag r f) ∨ ∃ b, op = .required r b)
    (hok : (step scan st op).2 = .ok ()) :
    (step scan st op).1.arguments.Pairwise fun a b => ¬ListedBefore b.arg a.arg := by
  have hi := h.inv
  have key : ∀ {l : List (Slot D)}, (stableSort slotLt l).Pairwise fun a b => ¬ListedBefore b.arg a.arg := by
    intro l
    refine (stableSort_sorted slotLt_strictWeak l).imp fun {a b} h => ?_
    rw [← compareOption_iff]
    simpa [slotLt] using h
  rcases hop with ⟨ns, rfl | rfl⟩ | ⟨r, ⟨f, rfl⟩ | ⟨b, rfl⟩⟩
  · show (st.addArgument ns).1.arguments.Pairwise _
    change (st.addArgument ns).2.void = _ at hok
    have ho := addArgument_outcome hi ns
    generalize st.addArgument ns = r at ho hok
    cases ho with
    | positional n st' _ _ _ e _ => subst e; exact key
    | option f rest fs st' _ _ _ _ _ e _ => subst e; exact key
    | _ => cases hok
  · show (st.removeArguments ns).1.arguments.Pairwise _
    change (st.removeArguments ns).2 = _ at hok
    rcases removeArguments_cases hi ns with ⟨_, e⟩ | ⟨_, _, e⟩ | ⟨_, _, hn, w, e⟩ | ⟨h1, h2, h3, e⟩
    · rw [e] at hok; cases hok
    · rw [e] at hok; cases hok
    · rw [e] at hok; cases hok
    · rw [removeArguments_runs hi h1 h3 h2]; exact key
  · show (st.flag r f).1.arguments.Pairwise _
    change (st.flag r f).2 = _ at hok
    cases ha : st.atObj r with
    | none => unfold State.flag at hok; rw [withRef_none ha] at hok; cases hok
    | some s =>
      rcases flag_outcome hi ha f with ⟨_, e⟩ | ⟨_, _, _, e⟩ | ⟨_, _, _, e⟩ | ⟨_, _, _, e, _⟩
      · rw [e] at hok; cases hok
      · rw [e] at hok; cases hok
      · rw [e] at hok; cases hok
      · rw [e]; exact key
  · show (st.required r b).1.arguments.Pairwise _
    change (st.required r b).2 = _ at hok
    cases ha : st.atObj r with
    | none => unfold State.required at hok; rw [withRef_none ha] at hok; cases hok
    | some s => rw [(required_ok hi ha b).1]; exact key

/-! ### Validators -/

/-- Histories as in C53 (a validator is handed over at most once, and never also lent), in which `n` calls were
interrupted. -/
inductive HandedWith (scan : Str → Option D) : Nat → List Nat → List Nat → State D → Prop
  | init : HandedWith scan 0 [] [] State.init
  | step {n : Nat} {handed lent : List Nat} {st : State D} (op : Op) : HandedWith scan n handed lent st →
      (step scan st op).2.goesOn = true →
      (∀ v ∈ op.handsOver, v ∉ handed ∧ v ∉ lent) → (∀ v ∈ op.lends, v ∉ handed) →
      HandedWith scan n (handed ++ op.handsOver) (lent ++ op.lends) (BletArgs.step scan st op).1
  | abort {n : Nat} {handed lent : List Nat} {st st' : State D} (op : Op) : HandedWith scan n handed lent st →
      Aborts scan st op st' → HandedWith scan (n + 1) handed lent st'

theorem HandedWith.survives {n : Nat} {handed lent : List Nat} {st : State D} (h : HandedWith scan n handed lent st) :
    Survives scan Any n st := by
  induction h with
  | init => exact .init
  | step op _ hg _ _ ih => exact .step op ih trivial hg
  | abort op _ ha ih => exact .abort op ih trivial ha

theorem Op.handsOver_short (op : Op) : op.handsOver.Nodup ∧ ∀ v ∈ op.lends, v ∉ op.handsOver := by
  unfold Op.handsOver Op.lends
  split <;> simp

/-- What the deleted, owned and used validators are. -/
structure HandedInv (n : Nat) (handed lent : List Nat) (st : State D) : Prop where
  nodup : st.validBag.Nodup
  known : ∀ v ∈ st.validBag, v ∈ handed
  lost : handed.length ≤ st.validBag.length + n
  borrowed : ∀ s ∈ st.arguments, ∀ v ∈ s.arg.borrowed, v ∉ st.validBag ∧ (v ∈ lent ∨ v ∈ handed)
  apart : ∀ v ∈ lent, v ∉ handed

theorem HandedInv.same {n n' : Nat} {handed lent : List Nat} {st st' : State D} (hi : HandedInv n handed lent st) (h : SameValids st st')
    (hn : n ≤ n') : HandedInv n' handed lent st' := by
  refine ⟨h.bag.nodup_iff.2 hi.nodup, fun v hv => hi.known v (h.bag.mem_iff.1 hv), ?_, fun s hs v hv => ?_, hi.apart⟩
  · have := h.bag.length_eq
    have := hi.lost
    omega
  · obtain ⟨t, ht, hv⟩ := h.borrowed s hs v hv
    exact ⟨fun hb => (hi.borrowed t ht v hv).1 (h.bag.mem_iff.1 hb), (hi.borrowed t ht v hv).2⟩

theorem flatMap_modNode {st : State D} (hn : (st.arguments.map (·.node)).Nodup) {s : Slot D} (hs : s ∈ st.arguments) :
    (st.arguments.flatMap fun t => t.arg.ownedValid).Perm (s.arg.ownedValid ++
      (st.modNode s.node fun a => { a with validDeletable := false }).arguments.flatMap fun t => t.arg.ownedValid) := by
  have h1 := (perm_filter_out hn hs).flatMap_right fun t => t.arg.ownedValid
  have h2 := ((perm_filter_out hn hs).map fun t => if t.node == s.node then
      { t with arg := { t.arg with validDeletable := false } } else t).flatMap_right fun t => t.arg.ownedValid
  refine h1.trans ?_
  rw [List.flatMap_cons]
  refine List.Perm.append_left _ ?_
  refine List.Perm.trans ?_ h2.symm
  rw [List.map_cons, List.flatMap_cons, if_pos (by simp)]
  have e0 : ({ s.arg with validDeletable := false } : Argument D).ownedValid = [] := by
    unfold Argument.ownedValid
    cases s.arg.valid <;> rfl
  rw [e0, List.nil_append]
  refine List.Perm.of_eq ?_
  rw [List.flatMap_map]
  rw [List.flatMap_def, List.flatMap_def]
  congr 1
  refine List.map_congr_left fun t ht => ?_
  have := (List.mem_filter.1 ht).2
  have hne : (t.node == s.node) = false := by simpa using this
  rw [hne]; rfl

theorem HandedInv.letGo {n : Nat} {handed lent : List Nat} {st : State D} (hi : HandedInv n handed lent st)
    (hv : GInv False st) {s : Slot D} (hs : s ∈ st.arguments) :
    HandedInv (n + 1) handed lent (st.modNode s.node fun a => { a with validDeletable := false }) := by
  have hp := flatMap_modNode hv.nodes hs
  have hbag : st.validBag.Perm (s.arg.ownedValid ++ (st.modNode s.node fun a => { a with validDeletable := false }).validBag) := by
    refine (List.Perm.append_left st.freedValids hp).trans ?_
    rw [← List.append_assoc]
    refine (List.Perm.append_right _ List.perm_append_comm).trans ?_
    rw [List.append_assoc]
    exact List.Perm.refl _
  have hnd := hbag.nodup_iff.1 hi.nodup
  rw [List.nodup_append] at hnd
  have hsub : ∀ v, v ∈ (st.modNode s.node fun a => { a with validDeletable := false }).validBag → v ∈ st.validBag :=
    fun v hv => hbag.mem_iff.2 (List.mem_append_right _ hv)
  refine ⟨hnd.2.1, fun v hv => hi.known v (hsub v hv), ?_, ?_, hi.apart⟩
  · have h1 := hbag.length_eq
    rw [List.length_append] at h1
    have h2 : s.arg.ownedValid.length ≤ 1 := by
      unfold Argument.ownedValid
      split
      · split <;> simp
      · simp
    have := hi.lost
    omega
  · intro t' ht' v hb'
    obtain ⟨t, ht, rfl⟩ := List.mem_map.1 ht'
    split at hb'
    · rename_i e
      have e' : t = s := eq_of_node hv hs ht (by simpa using e)
      subst e'
      unfold Argument.borrowed at hb'
      cases hval : t.arg.valid with
      | none => simp only [hval] at hb'; cases hb'
      | some w =>
        simp only [hval, Bool.false_eq_true, if_false, List.mem_singleton] at hb'
        subst hb'
        cases hdel : t.arg.validDeletable with
        | true =>
          have ho : w.id ∈ t.arg.ownedValid := by unfold Argument.ownedValid; rw [hval]; simp [hdel]
          refine ⟨fun hb => hnd.2.2 _ ho _ hb rfl, .inr (hi.known _ (hbag.mem_iff.2 (List.mem_append_left _ ho)))⟩
        | false =>
          have hb : w.id ∈ t.arg.borrowed := by unfold Argument.borrowed; rw [hval]; simp [hdel]
          exact ⟨fun h => (hi.borrowed t ht _ hb).1 (hsub _ h), (hi.borrowed t ht _ hb).2⟩
    · exact ⟨fun h => (hi.borrowed t ht _ hb').1 (hsub _ h), (hi.borrowed t ht _ hb').2⟩

theorem HandedWith.inv {n : Nat} {handed lent : List Nat} {st : State D} (h : HandedWith scan n handed lent st) :
    HandedInv n handed lent st := by
  induction h with
  | init => exact ⟨List.nodup_nil, fun _ h => (nomatch h), Nat.le_refl _, fun _ h => (nomatch h), fun _ h => (nomatch h)⟩
  | step op h0 hg h1 h2 ih =>
    have hb := step_validBag h0.survives.inv op hg
    obtain ⟨k1, k2⟩ := op.handsOver_short
    refine ⟨?_, ?_, ?_, ?_, ?_⟩
    · rw [hb.nodup_iff, List.nodup_append]
      refine ⟨ih.nodup, k1, ?_⟩
      rintro a ha b hb rfl
      exact (h1 a hb).1 (ih.known a ha)
    · intro v hv
      rcases List.mem_append.1 (hb.mem_iff.1 hv) with hv | hv
      · exact List.mem_append_left _ (ih.known v hv)
      · exact List.mem_append_right _ hv
    · have := hb.length_eq
      rw [List.length_append] at this ⊢
      have := ih.lost
      omega
    · intro s' hs' v hv
      rcases step_borrowed h0.survives.inv op hg hs' hv with ⟨s, hs, h⟩ | h
      · obtain ⟨g1, g2⟩ := ih.borrowed s hs v h
        refine ⟨fun hbag => ?_, g2.imp (List.mem_append_left _) (List.mem_append_left _)⟩
        rcases List.mem_append.1 (hb.mem_iff.1 hbag) with hx | hx
        · exact g1 hx
        · rcases g2 with g2 | g2
          · exact (h1 v hx).2 g2
          · exact (h1 v hx).1 g2
      · refine ⟨fun hbag => ?_, .inl (List.mem_append_right _ h)⟩
        rcases List.mem_append.1 (hb.mem_iff.1 hbag) with hx | hx
        · exact h2 v h (ih.known v hx)
        · exact k2 v h hx
    · intro v hv hv'
      rcases List.mem_append.1 hv with hv | hv <;> rcases List.mem_append.1 hv' with hv' | hv'
      · exact ih.apart v hv hv'
      · exact (h1 v hv').2 hv
      · exact h2 v hv hv'
      · exact k2 v hv hv'
  | abort op h0 ha ih =>
    rcases aborts_valids h0.survives.inv ha with h | ⟨s, hs, rfl⟩
    · exact ih.same h (Nat.le_succ _)
    · exact ih.letGo h0.survives.inv hs

/-- C85, validators: none is deleted twice, also at the end by the destructor; only validators handed over are deleted; no
argument uses a deleted one; and the destructor leaves at most one validator per interrupted call. -/
theorem C85_validators {n : Nat} {handed lent : List Nat} {st : State D} (h : HandedWith scan n handed lent st) :
    st.deleteAll.freedValids.Nodup ∧ (∀ v ∈ st.deleteAll.freedValids, v ∈ handed ∧ v ∉ lent) ∧
    (∀ s ∈ st.arguments, ∀ v, s.arg.valid = some v → v.id ∉ st.freedValids) ∧
    handed.length ≤ st.deleteAll.freedValids.length + n := by
  have hi := h.inv
  refine ⟨hi.nodup, fun v hv => ⟨hi.known v hv, fun hl => hi.apart v hl (hi.known v hv)⟩, fun s hs v hv hf => ?_, hi.lost⟩
  have hnd := hi.nodup
  unfold State.validBag at hnd
  rw [List.nodup_append] at hnd
  cases hdel : s.arg.validDeletable with
  | true =>
    refine hnd.2.2 v.id hf v.id (List.mem_flatMap.2 ⟨s, hs, ?_⟩) rfl
    unfold Argument.ownedValid; rw [hv]; simp [hdel]
  | false =>
    refine (hi.borrowed s hs v.id ?_).1 (List.mem_append_left _ hf)
    unfold Argument.borrowed; rw [hv]; simp [hdel]

/-! ### Names -/

theorem thrown_names {full : Prop} {st : State D} (hi : GInv full st) {op : Op} {e : Exn} (ht : (step scan st op).2 = .throw e) {f : Str}
    (hf : (step scan st op).1.argumentExists f = true) :
    st.argumentExists f = true ∨ (∃ argv, op = .parse argv ∧ (f = "-h".toList ∨ f = "--help".toList)) := by
  have same : (step scan st op).1.byName = st.byName → st.argumentExists f = true := by
    intro e; unfold State.argumentExists at hf ⊢; rwa [e] at hf
  by_cases htw : op.isTweak = true
  · exact .inl (same (tweak_sameReg (scan := scan) hi op htw).byName)
  cases op with
  | parse argv =>
    rcases parse_sameReg (scan := scan) hi argv (by change (st.parseArguments scan argv).2 = _ at ht; rw [ht]; rfl) with h | ⟨_, _, h⟩
    · exact .inl (same h.byName)
    · have hf' : st.resetAll.withHelp.argumentExists f = true := by
        unfold State.argumentExists at hf ⊢
        rw [← h.byName]; exact hf
      unfold State.argumentExists at hf'
      change (lookupName (insertAll _ _ _) _).isSome = true at hf'
      rw [insertAll_lookup] at hf'
      by_cases hm : f ∈ helpFlags st.resetAll
      · right
        refine ⟨argv, rfl, ?_⟩
        unfold helpFlags at hm
        rw [List.mem_append] at hm
        rcases hm with hm | hm
        · split at hm
          · cases hm
          · exact .inl (List.mem_singleton.1 hm)
        · split at hm
          · cases hm
          · exact .inr (List.mem_singleton.1 hm)
      · left
        rw [if_neg hm, Option.or_none] at hf'
        exact hf'
  | add names =>
    left; refine same ?_
    show (st.addArgument names).1.byName = _
    have ho := addArgument_outcome hi names
    change (st.addArgument names).2.void = _ at ht
    generalize st.addArgument names = r at ho ht
    cases ho with
    | positional | option => cases ht
    | _ => rfl
  | remove ns =>
    left; refine same ?_
    show (st.removeArguments ns).1.byName = _
    change (st.removeArguments ns).2 = _ at ht
    rcases removeArguments_cases hi ns with ⟨_, e⟩ | ⟨_, _, e⟩ | ⟨_, _, hn, w, e⟩ | ⟨_, _, _, e⟩
    · rw [e]
    · rw [e]
    · rw [e] at ht; cases ht
    · rw [e] at ht; cases ht
  | flag r f =>
    left; refine same ?_
    show (st.flag r f).1.byName = _
    change (st.flag r f).2 = _ at ht
    cases ha : st.atObj r with
    | none => unfold State.flag; rw [withRef_none ha]
    | some s =>
      rcases flag_outcome hi ha f with ⟨_, e⟩ | ⟨_, _, _, e⟩ | ⟨_, _, _, e⟩ | ⟨_, _, _, e, _⟩
      · rw [e]
      · rw [e]
      · rw [e]
      · rw [e] at ht; cases ht
  | clear => cases ht
  | required r b =>
    left; refine same ?_
    show (st.required r b).1.byName = _
    cases ha : st.atObj r with
    | none => unfold State.required; rw [withRef_none ha]
    | some s => rw [(required_ok hi ha b).1]
  | dest r d =>
    change (st.setDest r d).2.void = _ at ht
    unfold State.setDest at ht
    cases ha : st.atObj r with
    | none => rw [withRef_none ha] at ht; cases ht
    | some s => rw [withRef_some ha] at ht; cases ht
  | _ => exact absurd rfl htw

/-- No name appears but those given to the interrupted `addArgument`, and those of the automatic help option in an
interrupted `parseArguments`. -/
theorem C85_new_names {n : Nat} {st st' : State D} (h : Survives scan Any n st) {op : Op} (ha : Aborts scan st op st') {f : Str}
    (hf : st'.argumentExists f = true) :
    st.argumentExists f = true ∨ (∃ ns, op = .add ns ∧ f ∈ ns) ∨
    (∃ argv, op = .parse argv ∧ (f = "-h".toList ∨ f = "--help".toList)) := by
  have hi := h.inv
  clear h
  have ofEq : ∀ {a b : State D}, b.byName = a.byName → b.argumentExists f = true → a.argumentExists f = true := by
    intro a b e hb; unfold State.argumentExists at hb ⊢; rwa [e] at hb
  have auto : ∀ st : State D, f ∈ st.autoFlags → f = "-h".toList ∨ f = "--help".toList := by
    intro st hm
    unfold State.autoFlags at hm
    rw [List.mem_append] at hm
    rcases hm with hm | hm
    · split at hm
      · cases hm
      · exact .inl (List.mem_singleton.1 hm)
    · split at hm
      · cases hm
      · exact .inr (List.mem_singleton.1 hm)
  have ofInsert : ∀ {m : List (Str × Nat)} {names : List Str} {v : Nat}, (lookupName (insertAll m names v) f).isSome = true →
      (lookupName m f).isSome = true ∨ f ∈ names := by
    intro m names v hl
    rw [insertAll_lookup] at hl
    by_cases hm : f ∈ names
    · exact .inr hm
    · rw [if_neg hm, Option.or_none] at hl; exact .inl hl
  induction ha with
  | unchanged => exact .inl hf
  | unthrown ht =>
    rcases thrown_names hi ht hf with h | h
    · exact .inl h
    · exact .inr (.inr h)
  | lost => exact .inl hf
  | @listed st names a k hb hk =>
    rcases ofInsert hf with h | h
    · exact .inl h
    · exact .inr (.inl ⟨_, rfl, (build_some hb).2.2.2.2 _ (List.mem_of_mem_take h)⟩)
  | flagged => exact .inl hf
  | @values st op ref s t d es hop hs =>
    left
    have ht : op.isTweak = true := by rcases hop with ⟨x, rfl⟩ | ⟨x, rfl⟩ | ⟨x, rfl⟩ <;> rfl
    exact ofEq (tweak_sameReg (scan := scan) hi op ht).byName hf
  | defaults => exact .inl hf
  | dest => exact .inl hf
  | parseReset e => exact .inl (ofEq (congrArg (fun x : State D => x.byName) e :) hf)
  | parseAdd e hc _ ih =>
    rcases ih hf (inv_of_config e hi) with h | ⟨ns, h, h'⟩ | ⟨_, h, _⟩
    · exact .inl (ofEq (congrArg (fun x : State D => x.byName) e :) h)
    · cases h
      exact .inr (.inr ⟨_, rfl, auto _ h'⟩)
    · cases h
  | parseText e hc =>
    rw [addHelp_eq (inv_of_config e hi) hc] at hf
    rcases ofInsert hf with h | h
    · exact .inl (ofEq (congrArg (fun x : State D => x.byName) e :) h)
    · exact .inr (.inr ⟨_, rfl, auto _ h⟩)
  | parseRun e h1 h2 _ =>
    have hf1 := ofEq (congrArg (fun x : State D => x.byName) h2 :) hf
    rcases autoHelp_cases (inv_of_config e hi) with ⟨_, e'⟩ | ⟨_, _, e'⟩ | ⟨_, _, e'⟩
    · have := congrArg Prod.fst (h1.symm.trans e'); simp only at this; rw [this] at hf1
      exact .inl (ofEq (congrArg (fun x : State D => x.byName) e :) hf1)
    · have := congrArg Prod.fst (h1.symm.trans e'); simp only at this; rw [this] at hf1
      exact .inl (ofEq (congrArg (fun x : State D => x.byName) e :) hf1)
    · have := congrArg Prod.fst (h1.symm.trans e'); simp only at this; rw [this] at hf1
      rcases ofInsert hf1 with h | h
      · exact .inl (ofEq (congrArg (fun x : State D => x.byName) e :) h)
      · exact .inr (.inr ⟨_, rfl, auto _ h⟩)

/-! ### Calling again -/

theorem build_of_ok {st st' : State D} {names : List Str} {ref : Nat} (h : st.addArgument names = (st', .ok ref)) :
    ∃ a, st.build names = some a := by
  unfold State.addArgument at h
  unfold State.build
  cases names with
  | nil => cases h
  | cons front rest =>
    simp only at h ⊢
    split at h
    · rename_i hc
      rw [if_pos hc]
      split at h
      · cases h
      · rename_i he
        rw [if_neg he]
        split at h
        · cases h
        · rename_i hl
          rw [if_neg hl]
          exact ⟨_, rfl⟩
    · rename_i hc
      rw [if_neg hc]
      split at h
      · rename_i he; cases h
      · rename_i fs he
        rw [he]
        exact ⟨_, rfl⟩

/-- Whatever the argument, memory can run out in `addArgument` in such a way that the same call, made again, returns but
lists a second argument with the same names, the first one being out of reach: no name leads to it any more. -/
theorem C85_called_again {n : Nat} {st st1 : State D} (h : Survives scan Any n st) {names : List Str} {ref : Nat}
    (hok : st.addArgument names = (st1, .ok ref)) :
    ∃ st', Aborts scan st (.add names) st' ∧ ∃ st2 ref2, st'.addArgument names = (st2, .ok ref2) ∧
      ∃ s ∈ st2.arguments, ∃ t ∈ st2.arguments, s.obj ≠ t.obj ∧ s.arg = t.arg ∧ t.obj = ref2 ∧
        ∀ f, st2.resolve f ≠ some s.obj := by
  obtain ⟨a, ha⟩ := build_of_ok hok
  have hi := h.inv
  obtain ⟨_, b1, b2, _⟩ := build_some ha
  have hne : 0 < a.names.length := by
    obtain ⟨m, hm, _⟩ := b2
    exact List.length_pos_of_mem hm
  have hi' : GInv False (st.linkPart a 0) := linkPart_inv hi ha 0
  have ha' : (st.linkPart a 0).build names = some a := ha
  obtain ⟨e', _⟩ := build_some ha'
  obtain ⟨hl, hinv⟩ := linkArgument_ok hi' b1 (st := st.linkPart a 0) b2
  refine ⟨st.linkPart a 0, .listed ha hne, _, _, e'.trans hl, ⟨st.nextNode, st.nextObj, a⟩, ?_,
    ⟨st.nextNode + 1, st.nextObj + 1, a⟩, ?_, ?_, rfl, rfl, ?_⟩
  · simp [mem_stableSort, State.linkPart, State.linked, State.newSlot]
  · simp [mem_stableSort, State.linkPart, State.linked, State.newSlot]
  · show st.nextObj ≠ st.nextObj + 1
    omega
  · intro f hr
    unfold State.resolve at hr
    split at hr
    · rename_i u hg
      obtain ⟨hlk, hu⟩ := entry_of_getArgument hg
      have hobj : u.obj = st.nextObj := Option.some.inj hr
      have hs : (⟨st.nextNode, st.nextObj, a⟩ : Slot D) ∈
          ({ (st.linkPart a 0).linked a with arguments := stableSort slotLt ((st.linkPart a 0).arguments ++ [(st.linkPart a 0).newSlot a]) } : State D).arguments := by
        simp [mem_stableSort, State.linkPart]
      have hu' := eq_of_obj hinv hs hu hobj
      rw [hu'] at hlk
      change lookupName (insertAll st.byName a.names (st.nextNode + 1)) f = some st.nextNode at hlk
      rw [insertAll_lookup] at hlk
      cases hold : lookupName st.byName f with
      | some v =>
        rw [hold] at hlk
        obtain ⟨w, hw, ew, _⟩ := hi.entries _ (lookupName_mem hold)
        have := hi.nodesLt w hw
        have hv : v = st.nextNode := Option.some.inj hlk
        simp only at ew
        omega
      | none =>
        rw [hold] at hlk
        split at hlk
        · have := Option.some.inj hlk; omega
        · cases hlk
    · cases hr

/-! ### Cases -/

/-- `addArgument("file")` interrupted before its name is registered. -/
def twice : State Unit := ((State.init : State Unit).linkPart { names := ["file".toList], nargs := 1, type := .pos } 0)

theorem twice_aborts : Aborts demoScan (State.init : State Unit) (.add ["file".toList]) twice :=
  .listed (k := 0) (a := { names := ["file".toList], nargs := 1, type := .pos }) rfl (by decide +kernel)

/-- The same call made again, then a parse of `prog a b`: the argument found by its name got the second word; the first
one went to the object left by the interrupted call. -/
theorem C85_first_word_lost :
    ∃ st : State Unit, Survives demoScan Proper 1 st ∧
      (match (step demoScan st (.parse (["prog", "a", "b"].map String.toList))).1.getArgument "file".toList with
        | .ok s => some s.arg.getString
        | _ => none) = some "b".toList ∧
      (step demoScan st (.parse (["prog", "a", "b"].map String.toList))).2 = .ok () := by
  refine ⟨(step demoScan twice (.add ["file".toList])).1, ?_, ?_⟩
  · have p : ∀ st : State Unit, Proper st (.add ["file".toList]) := fun st =>
      ⟨fun _ h => (nomatch h), fun _ h => (nomatch h), fun _ _ h => (nomatch h), fun _ h => (nomatch h)⟩
    exact .step _ (.abort _ .init (p _) twice_aborts) (p _) (by decide +kernel)
  · decide +kernel

/-- Flags given by an interrupted `flag` are shown, but not recognised: an argument with a name that does not exist. -/
theorem C85_flag_not_registered :
    ∃ st : State Unit, Survives demoScan Proper 1 st ∧ (∃ s ∈ st.arguments, "-x".toList ∈ s.arg.names) ∧
      st.argumentExists "-x".toList = false := by
  have p : ∀ (st : State Unit) (op : Op), (∀ r, op.ref = some r → st.atObj r ≠ none) → (∀ ns, op ≠ .remove ns) →
      (∀ r d, op ≠ .dest r d) → (∀ argv, op ≠ .parse argv) → Proper st op := fun st op h1 h2 h3 h4 =>
    ⟨h1, fun ns e => absurd e (h2 ns), fun r d e => absurd e (h3 r d), fun argv e => absurd e (h4 argv)⟩
  let st1 := (step demoScan (State.init : State Unit) (.add ["-a".toList])).1
  have hs : st1.atObj 0 = some ⟨0, 0, { names := ["-a".toList] }⟩ := rfl
  refine ⟨_, .abort (.flag 0 "-x".toList) (.step (.add ["-a".toList]) .init (p _ _ nofun nofun nofun nofun) rfl)
    (p _ _ ?_ nofun nofun nofun) (.flagged (s := ⟨0, 0, { names := ["-a".toList] }⟩) hs rfl (by decide +kernel) (by decide +kernel)), ?_, ?_⟩
  · intro r hr
    cases hr
    change st1.atObj 0 ≠ none
    rw [hs]; exact nofun
  · decide +kernel
  · decide +kernel

/-- The bounds are reached: after an interrupted `addArgument` and an interrupted `dest`, the destructor leaves one object and
one validator. -/
theorem C85_bounds_reached :
    ∃ st : State Unit, HandedWith demoScan 2 [5] [] st ∧ st.nextObj = 2 ∧ st.deleteAll.freedObjs = [0] ∧
      st.deleteAll.freedValids = [] := by
  let st1 := (step demoScan (State.init : State Unit) (.add ["-a".toList])).1
  let st2 := (step demoScan st1 (.valid 0 (some ⟨5, .accept⟩) true)).1
  have h1 : HandedWith demoScan 0 [] [] st1 := .step (.add ["-a".toList]) .init (by decide +kernel) (by simp [Op.handsOver]) (by simp [Op.lends])
  have h2 : HandedWith demoScan 0 [5] [] st2 :=
    .step (.valid 0 (some ⟨5, .accept⟩) true) h1 (by decide +kernel) (by simp [Op.handsOver]) (by simp [Op.lends])
  have h3 := HandedWith.abort (.add ["-b".toList]) h2 (.lost (a := { names := ["-b".toList] }) rfl)
  have h4 := HandedWith.abort (.dest 0 ⟨0, .scalar, false, true, fun _ => none⟩) h3
    (.dest (s := ⟨0, 0, { names := ["-a".toList], valid := some ⟨5, .accept⟩, validDeletable := true }⟩) rfl)
  exact ⟨_, h4, by decide +kernel, by decide +kernel, by decide +kernel⟩

/-- The hypotheses of the theorems are met by a history with two interrupted calls and calls that return. -/
example : ∃ st : State Unit, Survives demoScan Proper 2 st ∧ st.arguments.length = 3 ∧ (step demoScan st (.add ["-c".toList])).2 = .ok () := by
  have p : ∀ (st : State Unit) (ns : List Str), Proper st (.add ns) := fun st _ =>
    ⟨fun _ h => (nomatch h), fun _ h => (nomatch h), fun _ _ h => (nomatch h), fun _ h => (nomatch h)⟩
  have h1 : Survives demoScan Proper 1 twice := .abort _ .init (p _ _) twice_aborts
  have h2 : Survives demoScan Proper 1 _ := .step (.add ["-a".toList, "--all".toList]) h1 (p _ _) (by decide +kernel)
  have h3 : Survives demoScan Proper 2 _ := .abort (.add ["-b".toList, "--bee".toList]) h2 (p _ _)
    (.listed (a := { names := ["-b".toList, "--bee".toList] }) (k := 1) rfl (by decide +kernel))
  exact ⟨_, h3, by decide +kernel, by decide +kernel⟩

/-- An interrupted parse. -/
example : Aborts demoScan parser (.parse (parserLine)) parser := .parseReset rfl

end BletArgs
