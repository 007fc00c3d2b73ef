import Verif.Props.Total
import Verif.Props.Memory
/-
C19: no undefined behaviour. C58: references stay valid.
-/
namespace BletArgs
open Spec
variable {D : Type} {full : Prop}

/-! ### C58 -/

theorem ArgChange.node {st : State D} {op : Op} {s s' : Slot D} (h : ArgChange st op s s') : s'.node = s.node := by
  cases op with
  | action | nargs | defaults | required | help | metavar | behave | edit | valid | dest =>
    simp only [ArgChange] at h
    split at h <;> rw [h]
  | flag | remove => obtain ⟨_, rfl⟩ := h; rfl
  | parse => exact (congrArg Slot.node h :)
  | _ => simp only [ArgChange] at h; rw [h]

/-- Registered names are not redirected by calls other than `clear` and `removeArguments`. -/
theorem step_lookup {scan : Str → Option D} {st : State D} (hi : GInv full st) (op : Op)
    (hg : (step scan st op).2.goesOn = true) (hc : op ≠ .clear) (hr : ∀ ns, op ≠ .remove ns) {n : Str} {v : Nat}
    (h : lookupName st.byName n = some v) : lookupName (step scan st op).1.byName n = some v := by
  by_cases ht : op.isTweak = true
  · rw [(tweak_sameReg (scan := scan) hi op ht).byName]; exact h
  cases op with
  | add names =>
    have ho := addArgument_outcome hi names
    change lookupName (st.addArgument names).1.byName n = some v
    generalize st.addArgument names = r at ho
    cases ho with
    | positional n st' _ _ _ e _ =>
      subst e
      show lookupName (insertAll st.byName _ _) _ = _
      rw [insertAll_lookup, h]; rfl
    | option f rest fs st' _ _ _ _ _ e _ =>
      subst e
      show lookupName (insertAll st.byName _ _) _ = _
      rw [insertAll_lookup, h]; rfl
    | _ => exact h
  | remove names => exact absurd rfl (hr names)
  | clear => exact absurd rfl hc
  | flag ref f =>
    change lookupName (st.flag ref f).1.byName n = some v
    cases hs : st.atObj ref with
    | none => unfold State.flag; rw [withRef_dead hs]; exact h
    | some t =>
      rcases flag_outcome hi hs f with ⟨_, e⟩ | ⟨_, _, _, e⟩ | ⟨_, _, _, e⟩ | ⟨_, _, _, e, _⟩ <;> rw [e]
      · exact h
      · exact h
      · exact h
      · show lookupName (insertName st.byName _ _) _ = _
        rw [insertName_lookup, h]; rfl
  | required ref b =>
    change lookupName (st.required ref b).1.byName n = some v
    cases hs : st.atObj ref with
    | none => unfold State.required; rw [withRef_dead hs]; exact h
    | some t => rw [(required_ok hi hs b).1]; exact h
  | dest ref d =>
    change lookupName (st.setDest ref d).1.byName n = some v
    cases hs : st.atObj ref with
    | none => unfold State.setDest; rw [withRef_dead hs]; exact h
    | some t => rw [setDest_eq hs]; exact h
  | parse argv =>
    rcases parse_sameReg hi argv hg with e | ⟨_, _, e⟩
    · exact e.byName ▸ h
    · change lookupName (st.parseArguments scan argv).1.byName n = some v
      rw [e.byName]
      show lookupName (insertAll st.byName _ _) _ = _
      rw [insertAll_lookup, h]; rfl
  | _ => exact absurd rfl ht

/-- C58. A reference to an argument stays valid through every call (also one that throws) other than
`clear()`, `removeArguments()` and `dest()` on that very argument, and the names that led to it still do. -/
theorem C58_reference_stays {scan : Str → Option D} {st : State D} (hr : Reachable scan st) (op : Op)
    (hg : (step scan st op).2.goesOn = true) {ref : Nat} (h : st.atObj ref ≠ none)
    (hc : op ≠ .clear) (hrm : ∀ ns, op ≠ .remove ns) (hd : ∀ d, op ≠ .dest ref d) :
    (step scan st op).1.atObj ref ≠ none ∧
    ∀ n, st.resolve n = some ref → (step scan st op).1.resolve n = some ref := by
  obtain ⟨s, h⟩ := Option.ne_none_iff_exists'.1 h
  obtain ⟨hs, ho⟩ := State.atObj_some h
  have hi := hr.inv
  obtain ⟨s', hs', e, hch⟩ := step_stays hi op hg hs hc hrm (by rw [ho]; exact hd)
  have hi' : Inv (step scan st op).1 := step_inv hi op hg
  have hat : (step scan st op).1.atObj ref = some s' := by
    rw [← ho, ← e]; exact State.atObj_of_mem hi'.objs hs'
  refine ⟨by rw [hat]; simp, fun n hn => ?_⟩
  have hl : lookupName st.byName n = some s.node := by
    unfold State.resolve at hn
    cases hga : st.getArgument n with
    | ok t =>
      rw [hga] at hn
      have h1 := entry_of_getArgument hga
      have : t = s := eq_of_obj hi hs h1.2 ((Option.some.inj hn).trans ho.symm)
      rw [← this]; exact h1.1
    | _ => rw [hga] at hn; cases hn
  have := resolve_of_entry hi' hs' (by rw [hch.node]; exact step_lookup hi op hg hc hrm hl)
  rw [this, e, ho]

/-- The excluded calls do end the life of references. -/
theorem C58_reference_ends {scan : Str → Option D} {st : State D} (hr : Reachable scan st) {ref : Nat} :
    (step scan st .clear).1.atObj ref = none ∧
    (st.atObj ref ≠ none → ∀ d, (step scan st (.dest ref d)).1.atObj ref = none) := by
  refine ⟨rfl, fun h d => ?_⟩
  obtain ⟨s, h⟩ := Option.ne_none_iff_exists'.1 h
  obtain ⟨_, _, _, _, _, _, _, _, h8, _⟩ := C50_dest_keeps_configuration hr h d
  exact h8

example : parser.atObj 3 ≠ none ∧ parser.resolve "-n".toList = some 3 ∧
    (step demoScan parser (.add ["-o".toList])).2.goesOn = true := by decide +kernel

/-! ### C19 -/

/-- The misuses of the API: a call through the reference of an argument that was removed, replaced by
`dest()` or cleared; removing one name twice in a call; parsing when the help (version) option was replaced
by `dest()`; parsing an empty `argv` with no program name set. -/
def Misuse (st : State D) (op : Op) : Prop :=
  (∃ r, op.ref = some r ∧ st.atObj r = none) ∨
  (∃ ns, op = .remove ns ∧ ¬ns.Nodup) ∨
  (∃ argv, op = .parse argv ∧
    ((argv = [] ∧ st.binaryName = []) ∨
     (∃ o, st.helpOption = some o ∧ st.atObj o = none) ∨ (∃ o, st.versionOption = some o ∧ st.atObj o = none)))

theorem finish_noUb {scan : Str → Option D} (a : Argument D) : NoUb (a.finish scan).2.2 := by
  intro w
  unfold Argument.finish
  cases h : a.runValid with
  | mk a1 r =>
    have hr : ∀ w, r ≠ .ub w := by
      have e : r = a.runValid.2 := by rw [h]
      rw [e]
      unfold Argument.runValid
      intro w
      (repeat' split) <;> simp
    cases r with
    | ok u =>
      simp only
      rcases toDest_ends (a1.toNumber scan) with e | ⟨x, e⟩ <;> rw [e] <;> simp
    | ub w => exact absurd rfl (hr w)
    | _ => simp

theorem finishAll_noUb {scan : Str → Option D} (l : List (Slot D)) : NoUb (finishAll scan l).2.2 := by
  induction l with
  | nil => intro w; simp [finishAll]
  | cons s l ih =>
    intro w
    unfold finishAll
    have := finish_noUb (scan := scan) s.arg
    generalize s.arg.finish scan = r at this ⊢
    obtain ⟨a, ws, r⟩ := r
    cases r with
    | ok u => exact ih w
    | ub w => exact absurd rfl (this w)
    | _ => simp

theorem afterLoop_ub {scan : Str → Option D} {st : State D} {w : String} (h : (st.afterLoop scan).2 = .ub w) :
    (∃ o, st.helpOption = some o ∧ st.atObj o = none) ∨ (∃ o, st.versionOption = some o ∧ st.atObj o = none) := by
  have seen : ∀ p, st.optionSeen p = none → ∃ o, p = some o ∧ st.atObj o = none := by
    intro p hp
    unfold State.optionSeen at hp
    cases p with
    | none => cases hp
    | some o =>
      refine ⟨o, rfl, ?_⟩
      cases ho : st.atObj o with
      | none => rfl
      | some s => simp [ho] at hp
  unfold State.afterLoop at h
  split at h
  · next hh => exact .inl (seen _ hh)
  · split at h <;> cases h
  · split at h
    · next hv => exact .inr (seen _ hv)
    · split at h <;> cases h
    · unfold State.finishParse at h
      split at h
      · cases h
      · exact absurd h (finishAll_noUb _ w)

theorem parse_ub {scan : Str → Option D} {st : State D} (hi : GInv full st) {argv : List Str} {w : String}
    (h : (st.parseArguments scan argv).2 = .ub w) :
    (argv = [] ∧ st.binaryName = []) ∨
    (∃ o, st.helpOption = some o ∧ st.atObj o = none) ∨ (∃ o, st.versionOption = some o ∧ st.atObj o = none) := by
  have hr : GInv full st.resetAll := inv_of_config (resetAll_config st) hi
  have tail : ∀ st1 : State D, GInv full st1 → (match st1.setBinaryIfEmpty argv with
      | (st2, .ok ()) =>
        match State.mainLoop argv (endOptionIndex argv) (st2.loopBudget argv) 1 st2 with
        | (st3, .ok ()) => st3.afterLoop scan
        | (st3, r) => (st3, r)
      | (st2, r) => (st2, r)).2 = .ub w → (argv = [] ∧ st1.binaryName = []) ∨
      ∃ (st3 : State D) (b : Str), st3.config = { st1.config with binaryName := b } ∧
        ((∃ o, st3.helpOption = some o ∧ st3.atObj o = none) ∨ (∃ o, st3.versionOption = some o ∧ st3.atObj o = none)) := by
    intro st1 h1 h
    obtain ⟨b, hb⟩ := setBinaryIfEmpty_config st1 argv
    have hd : (∃ w, (st1.setBinaryIfEmpty argv).2 = .ub w) → argv = [] ∧ st1.binaryName = [] := by
      rintro ⟨w, hw⟩
      unfold State.setBinaryIfEmpty at hw
      split at hw
      · next he =>
        split at hw
        · next hn => exact ⟨by simpa using hn, by simpa using he⟩
        · cases hw
      · cases hw
    generalize st1.setBinaryIfEmpty argv = r at hb hd h
    obtain ⟨st2, r⟩ := r
    simp only at hb hd
    subst hb
    have h2 : GInv full { st1 with binaryName := b } := inv_of_eq h1 rfl rfl rfl rfl rfl
    cases r with
    | ok u =>
      right
      have hl := mainLoop_noUb (endOptionIndex_le argv) (State.loopBudget { st1 with binaryName := b } argv) 1 h2
      have hc := mainLoop_config argv (endOptionIndex argv)
        (State.loopBudget { st1 with binaryName := b } argv) 1 h2.nodes
      simp only at h
      generalize State.mainLoop argv (endOptionIndex argv)
        (State.loopBudget { st1 with binaryName := b } argv) 1 { st1 with binaryName := b } = r2 at hl hc h
      obtain ⟨st3, r2⟩ := r2
      cases r2 with
      | ok u => exact ⟨st3, b, hc, afterLoop_ub h⟩
      | ub w => exact absurd rfl (hl w)
      | _ => cases h
    | ub w => exact .inl (hd ⟨w, rfl⟩)
    | _ => cases h
  have back : ∀ (st1 st3 : State D) (b : Str), st3.config = { st1.config with binaryName := b } →
      ((∃ o, st3.helpOption = some o ∧ st3.atObj o = none) ∨ (∃ o, st3.versionOption = some o ∧ st3.atObj o = none)) →
      ((∃ o, st1.helpOption = some o ∧ ∀ s ∈ st1.arguments, s.obj ≠ o) ∨
        (∃ o, st1.versionOption = some o ∧ ∀ s ∈ st1.arguments, s.obj ≠ o)) := by
    intro st1 st3 b hc h
    have e0 : st3.arguments.map Slot.config = st1.arguments.map Slot.config :=
      (congrArg (fun x : State D => x.arguments) hc :)
    have e1 : st3.helpOption = st1.helpOption := (congrArg (fun x : State D => x.helpOption) hc :)
    have e2 : st3.versionOption = st1.versionOption := (congrArg (fun x : State D => x.versionOption) hc :)
    have dead : ∀ o, st3.atObj o = none → ∀ s ∈ st1.arguments, s.obj ≠ o := by
      intro o ho s hs e
      obtain ⟨t, ht, e'⟩ := slots_of_config e0.symm hs
      exact atObj_none ho t ht ((congrArg Slot.obj e'.symm :).trans e)
    rcases h with ⟨o, h1, h2⟩ | ⟨o, h1, h2⟩
    · exact .inl ⟨o, e1 ▸ h1, dead o h2⟩
    · exact .inr ⟨o, e2 ▸ h1, dead o h2⟩
  have none_of : ∀ o, (∀ s ∈ st.resetAll.arguments, s.obj ≠ o) → st.atObj o = none := by
    intro o h
    cases ho : st.atObj o with
    | none => rfl
    | some s =>
      obtain ⟨hs, e⟩ := State.atObj_some ho
      exact absurd e (h { s with arg := s.arg.reset } (List.mem_map.2 ⟨s, hs, rfl⟩))
  unfold State.parseArguments at h
  rcases autoHelp_cases hr with ⟨_, e⟩ | ⟨_, _, e⟩ | ⟨h1, h2, e⟩
  · rw [e] at h
    refine (tail _ hr h).imp id ?_
    rintro ⟨st3, b, hc, h3⟩
    exact (back _ _ _ hc h3).imp (fun ⟨o, g1, g2⟩ => ⟨o, g1, none_of o g2⟩) (fun ⟨o, g1, g2⟩ => ⟨o, g1, none_of o g2⟩)
  · rw [e] at h; cases h
  · rw [e] at h
    refine (tail _ (withHelp_inv hr h2 h1) h).imp id ?_
    rintro ⟨st3, b, hc, h3⟩
    have mem : ∀ s, s ∈ st.resetAll.arguments ∨ s = st.resetAll.newSlot (helpArgument (helpFlags st.resetAll)) →
        s ∈ st.resetAll.withHelp.arguments := by
      intro s hs
      unfold State.withHelp
      simp only
      rw [mem_stableSort, List.mem_append, List.mem_singleton]
      exact hs
    rcases back _ _ _ hc h3 with ⟨o, g1, g2⟩ | ⟨o, g1, g2⟩
    · exact absurd (Option.some.inj g1) (g2 _ (mem _ (.inr rfl)))
    · exact .inr ⟨o, g1, none_of o fun s hs => g2 s (mem s (.inl hs))⟩

/-- C19. In every reachable state, a call runs into undefined behaviour (reads outside `argv`, uses a
dangling pointer or an erased iterator, erases `end()`, calls `front()` on an empty vector) only by one of
the four misuses. -/
theorem C19_only_by_misuse {scan : Str → Option D} {st : State D} (hr : Reachable scan st) {op : Op} {w : String}
    (h : (step scan st op).2 = .ub w) : Misuse st op := by
  by_cases hp : ∃ argv, op = .parse argv
  · obtain ⟨argv, rfl⟩ := hp
    exact .inr (.inr ⟨argv, rfl, parse_ub hr.inv h⟩)
  · rcases call_outcome (scan := scan) hr.inv op (fun argv e => hp ⟨argv, e⟩) with e | ⟨_, e | e⟩
    · rw [h] at e; cases e
    · exact .inl e
    · exact .inr (.inl e)

/-- A correct use of the API: live references, no name removed twice in one call, no `dest()` on the current
help or version option, a program name when parsing an empty `argv`. -/
structure Proper (st : State D) (op : Op) : Prop where
  live : ∀ r, op.ref = some r → st.atObj r ≠ none
  once : ∀ ns, op = .remove ns → ns.Nodup
  keepsHelp : ∀ r d, op = .dest r d → st.helpOption ≠ some r ∧ st.versionOption ≠ some r
  program : ∀ argv, op = .parse argv → argv ≠ [] ∨ st.binaryName ≠ []

/-- C19. As long as every call is a correct use, the help and version pointers designate listed arguments,
and no call runs into undefined behaviour, whatever the names, values, command lines and exceptions. -/
theorem C19_no_undefined_behaviour {scan : Str → Option D} {st : State D}
    (h : ReachableBy scan (fun st op _ => Proper st op) st) :
    (∀ o, st.helpOption = some o ∨ st.versionOption = some o → st.atObj o ≠ none) ∧
    ∀ op, Proper st op → ∀ w, (step scan st op).2 ≠ .ub w := by
  have hp : st.Ptrs := (h.mono (Q := PtrSafe) fun st op r hp => hp.keepsHelp).ptrs
  have hi := h.reachable.inv
  have live : ∀ o, st.helpOption = some o ∨ st.versionOption = some o → st.atObj o ≠ none := by
    intro o ho hn
    rcases ho with ho | ho
    · obtain ⟨s, hs, e, _⟩ := hp.help o ho
      exact atObj_none hn s hs e
    · obtain ⟨s, hs, e, _⟩ := hp.version o ho
      exact atObj_none hn s hs e
  refine ⟨live, fun op hop w hw => ?_⟩
  rcases C19_only_by_misuse h.reachable hw with ⟨r, h1, h2⟩ | ⟨ns, h1, h2⟩ | ⟨argv, h1, ⟨h2, h3⟩ | ⟨o, h2, h3⟩ | ⟨o, h2, h3⟩⟩
  · exact hop.live r h1 h2
  · exact h2 (hop.once ns h1)
  · rcases hop.program argv h1 with h | h
    · exact h h2
    · exact h h3
  · exact live o (.inl h2) h3
  · exact live o (.inr h2) h3

/-- With the discipline of C18, every call of a correct history returns, throws or (for `parseArguments`, after
printing help or version) exits. -/
theorem C19_calls_conclude {scan : Str → Option D} {st : State D}
    (h : ReachableBy scan (fun st op r => Proper st op ∧ Disciplined st op r) st) (op : Op) (hop : Proper st op)
    (hlen : ∀ argv, op = .parse argv → argv.length < 2 ^ 31) :
    (step scan st op).2 = .ok () ∨ (∃ e, (step scan st op).2 = .throw e) ∨
    (∃ argv out, op = .parse argv ∧ (step scan st op).2 = .exit out) := by
  have h1 := C18_calls_terminate (h.mono fun _ _ _ h => h.2) op hlen
  have h2 := (C19_no_undefined_behaviour (h.mono fun _ _ _ h => h.1)).2 op hop
  cases hr : (step scan st op).2 with
  | ok u => exact .inl rfl
  | throw e => exact .inr (.inl ⟨e, rfl⟩)
  | exit o =>
    right; right
    by_cases hp : ∃ argv, op = .parse argv
    · obtain ⟨argv, rfl⟩ := hp; exact ⟨argv, o, rfl, rfl⟩
    · rcases call_outcome (scan := scan) h.reachable.inv op (fun argv e => hp ⟨argv, e⟩) with e | ⟨⟨w, e⟩, _⟩
      · rw [hr] at e; cases e
      · rw [hr] at e; cases e
  | ub w => exact absurd hr (h2 w)
  | diverge => exact absurd hr h1

/-- The misuses do lead to undefined behaviour: a dead reference always does, … -/
theorem C19_dead_reference {scan : Str → Option D} {st : State D} (op : Op) {r : Nat} (h : op.ref = some r)
    (hd : st.atObj r = none) : ∃ w, (step scan st op).2 = .ub w := by
  have key : ∀ {α : Type} (f : Slot D → State D × Res α), (st.withRef r f).2 = .ub "dangling Argument&" := by
    intro α f; rw [withRef_dead hd]
  refine ⟨"dangling Argument&", ?_⟩
  cases op <;> cases h <;> first
    | exact key _
    | (show (st.setDest r _).2.void = _
       unfold State.setDest
       rw [key]; rfl)

/-- …as do (on reachable states) a repeated registered name, an empty `argv`, and parsing after `dest()` on the
help option. -/
theorem C19_misuses_reach_ub :
    (∃ w, (step demoScan parser (.remove ["-o".toList, "-o".toList])).2 = .ub w) ∧
    (∃ w, (step demoScan parser (.parse [])).2 = .ub w) ∧
    (∃ w, (step demoScan (runOps demoScan parser [.dest 9 ⟨0, .scalar, false, true, fun _ => none⟩]) (.parse ["prog".toList])).2 = .ub w) :=
  ⟨⟨"use of an erased map iterator", by decide +kernel⟩, ⟨"std::string from NULL", by decide +kernel⟩,
    ⟨"dangling helpOption_", by decide +kernel⟩⟩

/-- Executable form of a correct use. -/
def properB (st : State D) (op : Op) : Bool :=
  (match op.ref with | some r => (st.atObj r).isSome | none => true) &&
  (match op with
    | .remove ns => decide ns.Nodup
    | .dest r _ => st.helpOption != some r && st.versionOption != some r
    | .parse argv => !argv.isEmpty || !st.binaryName.isEmpty
    | _ => true)

theorem properB_sound {st : State D} {op : Op} (h : properB st op = true) : Proper st op := by
  unfold properB at h
  rw [Bool.and_eq_true] at h
  obtain ⟨h1, h2⟩ := h
  constructor
  · intro r hr; rw [hr] at h1; simp only at h1; intro e; rw [e] at h1; cases h1
  · rintro ns rfl; simpa using h2
  · rintro r d rfl; simpa using h2
  · rintro argv rfl; simpa using h2

def opsProper (scan : Str → Option D) : State D → List Op → Bool
  | _, [] => true
  | st, op :: ops => properB st op && opsProper scan (step scan st op).1 ops

theorem proper_runOps {scan : Str → Option D} {st : State D}
    (h : ReachableBy scan (fun st op r => Proper st op ∧ Disciplined st op r) st) (ops : List Op)
    (h1 : opsDisciplined scan st ops = true) (h2 : opsProper scan st ops = true) :
    ReachableBy scan (fun st op r => Proper st op ∧ Disciplined st op r) (runOps scan st ops) := by
  induction ops generalizing st with
  | nil => exact h
  | cons op ops ih =>
    simp only [opsProper, Bool.and_eq_true] at h2
    obtain ⟨hg, hd⟩ := opsDisciplined_head h1
    exact ih (.step op h hg ⟨properB_sound h2.1, hd⟩) (opsDisciplined_tail h1) h2.2

/-- The reference parser is built by a correct and disciplined history, a parse that fails, a removal and a
replacement included. -/
theorem C19_reference : ReachableBy demoScan (fun st op r => Proper st op ∧ Disciplined st op r)
    (runOps demoScan State.init (parserOps ++ [.parse parserLine, .parse (["prog", "--what"].map String.toList),
      .remove ["-l".toList, "--list".toList], .dest 0 ⟨0, .scalar, false, true, fun _ => none⟩])) :=
  proper_runOps .init _ (by decide +kernel) (by decide +kernel)

end BletArgs
