import Verif.Spec.Calling
import Verif.Lemmas.ReentryOrder
import Verif.Props.Looking
import Verif.Props.Order
import Verif.Props.Memory
import Verif.Props.Edits
/-
User code that calls the parser it is called from, in the middle of a parse: C84.
-/
namespace BletArgs
open Spec Reentry
variable {D : Type} {U : Type}

/-- C84. A parse ends in one way at most; the bound the model puts on iterations and on the depth of parses plays no role. -/
theorem C84_one_end {scan : Str → Option D} {code : CallingCode D U} {st : State D} {u : U} {argv : List Str}
    {st' : State D} {r : Res Unit} {u' : U} {visited : List Nat} (h : ParseEnds scan code st u argv st' r u' visited) :
    (∃ n, ∀ fuel, n ≤ fuel → st.parseCalling scan code fuel u argv = (st', r, u', visited)) ∧
    ¬ParseEndless scan code st u argv ∧
    ∀ {st'' : State D} {r' : Res Unit} {u'' : U} {visited' : List Nat}, ParseEnds scan code st u argv st'' r' u'' visited' →
      st'' = st' ∧ r' = r ∧ u'' = u' ∧ visited' = visited := by
  obtain ⟨hd, n, e⟩ := h
  have up : ∀ fuel, n ≤ fuel → st.parseCalling scan code fuel u argv = (st', r, u', visited) := by
    intro fuel hf
    rcases parseCalling_le scan code hf st u argv with h | h
    · rw [e] at h; exact absurd h hd
    · rw [← h, e]
  refine ⟨⟨n, up⟩, fun h => hd (by have := h n; rwa [e] at this), ?_⟩
  rintro st'' r' u'' visited' ⟨hd', m, e'⟩
  rcases parseCalling_le scan code (Nat.le_max_right n m) st u argv with h | h
  · rw [e'] at h; exact absurd h hd'
  · rw [e', up _ (Nat.le_max_left n m)] at h
    cases h
    exact ⟨rfl, rfl, rfl, rfl⟩

/-- C84. Code that makes no calls: the parse is the one of C81, so that all that is proved of it holds. -/
theorem C84_no_calls {scan : Str → Option D} (code : LookingCode D U) {st : State D} (h : Reachable scan st) (u : U)
    (argv : List Str) :
    ∃ n, ∀ fuel, n ≤ fuel → ∃ visited, st.parseCalling scan (silentCode code) fuel u argv =
      ((st.parseLooking scan (fun v => code { v with destLog := [] }) u argv).1,
       (st.parseLooking scan (fun v => code { v with destLog := [] }) u argv).2.1,
       (st.parseLooking scan (fun v => code { v with destLog := [] }) u argv).2.2, visited) := by
  have after : ∀ {st : State D}, Inv st → ∀ fuel, st.arguments.length ≤ fuel → ∃ visited,
      st.afterLoopWith (fun st u => State.lastLoop scan (silentCode code) fuel st.firstNode st u) u =
      ((st.afterLoopLooking scan (fun v => code { v with destLog := [] }) u).1,
       (st.afterLoopLooking scan (fun v => code { v with destLog := [] }) u).2.1,
       (st.afterLoopLooking scan (fun v => code { v with destLog := [] }) u).2.2, visited) := by
    intro st hi fuel hf
    unfold State.afterLoopWith State.afterLoopLooking
    cases st.optionSeen st.helpOption with
    | none => exact ⟨[], rfl⟩
    | some b =>
      cases b with
      | true => simp only; split <;> exact ⟨[], rfl⟩
      | false =>
        simp only
        cases st.optionSeen st.versionOption with
        | none => exact ⟨[], rfl⟩
        | some b =>
          cases b with
          | true => simp only; split <;> exact ⟨[], rfl⟩
          | false =>
            simp only
            unfold State.finishParseLooking
            cases firstMissing st.arguments with
            | some e => exact ⟨[], rfl⟩
            | none =>
              obtain ⟨vis, e⟩ := lastLoop_silent scan code st st.arguments [] st.destLog u hi.nodes fuel hf
              exact ⟨vis, e⟩
  have hi := h.inv
  have hr : Inv st.resetAll := inv_of_config (resetAll_config st) hi
  have ha := autoHelp_inv hr
  unfold State.parseCalling State.parseWith State.parseLooking
  generalize st.resetAll.autoHelp = x at ha ⊢
  obtain ⟨st1, r⟩ := x
  cases r with
  | ok b =>
    cases b with
    | false => exact ⟨0, fun _ _ => ⟨[], rfl⟩⟩
    | true =>
      simp only
      have hi1 : Inv st1 := ha
      obtain ⟨bn, hb⟩ := setBinaryIfEmpty_config st1 argv
      generalize st1.setBinaryIfEmpty argv = y at hb ⊢
      obtain ⟨st2, r⟩ := y
      simp only at hb
      subst hb
      have hi2 : Inv { st1 with binaryName := bn } := inv_of_eq hi1 rfl rfl rfl rfl rfl
      cases r with
      | ok _ =>
        simp only
        have hm := mainLoop_config argv (endOptionIndex argv) (State.loopBudget { st1 with binaryName := bn } argv) 1 hi2.nodes
        generalize State.mainLoop argv _ _ 1 _ = z at hm ⊢
        obtain ⟨st3, r⟩ := z
        cases r with
        | ok _ => exact ⟨_, fun fuel hf => after (inv_of_config hm hi2) fuel hf⟩
        | _ => exact ⟨0, fun _ _ => ⟨[], rfl⟩⟩
      | _ => exact ⟨0, fun _ _ => ⟨[], rfl⟩⟩
  | _ => exact ⟨0, fun _ _ => ⟨[], rfl⟩⟩

/-- C84. Whatever the code of the user calls, from the top level or in the middle of a parse – adding, removing, renaming and
configuring arguments, parsing again, in any order and at any depth, as long as no call runs into undefined behaviour –, the
parser stays consistent: names resolve to the arguments that have them, once each (C04); the arguments are in the documented
order (C11); objects are deleted once and never while listed (C54). -/
theorem C84_consistent {scan : Str → Option D} {code : CallingCode D U} {st : State D} {u : U}
    (h : ReachableCalling scan code st u) :
    (∀ n, st.argumentExists n = true → ∃ s ∈ st.arguments, st.getArgument n = .ok s ∧ n ∈ s.arg.names) ∧
    (∀ s ∈ st.arguments, ∃ n ∈ s.arg.names, st.getArgument n = .ok s) ∧
    (st.byName.map (·.1)).Nodup ∧
    (st.arguments.Pairwise fun a b => ¬ListedBefore b.arg a.arg) ∧
    (∀ s ∈ st.arguments, s.arg.names.Pairwise fun f g => ¬FlagBefore g f) ∧
    st.freedObjs.Nodup ∧ (∀ s ∈ st.arguments, s.obj ∉ st.freedObjs) ∧
    st.deleteAll.freedObjs.Perm (List.range st.nextObj) := by
  obtain ⟨h1, h2, h3⟩ := registry_of_inv h.inv
  obtain ⟨h4, h5⟩ := listing_of_inv h.inv
  exact ⟨h1, h2, h3, h4, h5, objects_of_inv h.inv⟩

theorem parseWith_seen {st : State D} {argv : List Str} (hsn : Sane st argv.length) (hh : st.helpOption ≠ none)
    (hp : ∃ p, argv.head? = some p ∧ p ≠ ['-', '-']) {evs : List Event} (hl : Line st.sig st.places (argv.drop 1) evs none) (last : State D → U → State D × Res Unit × U × List Nat) (u : U) :
    st.parseWith last u argv = (st.seen argv evs).afterLoopWith last u := by
  obtain ⟨p, hp, hp'⟩ := hp
  have hne : argv ≠ [] := by rintro rfl; cases hp
  have hauto : st.resetAll.autoHelp = (st.resetAll, .ok true) := by
    unfold State.autoHelp
    have : st.resetAll.helpOption.isNone = false := by
      show st.helpOption.isNone = false
      cases hx : st.helpOption with
      | none => exact absurd hx hh
      | some _ => rfl
    rw [this]
    rfl
  have hc := begin_config st argv
  have hsane : Sane (st.begin argv) argv.length := Sane.of_config' hc hsn
  have hbudget : argv.length < (st.begin argv).loopBudget argv := by
    unfold State.loopBudget
    have : argv.length + 1 ≤ (argv.length + 1) * ((st.begin argv).arguments.length + 2) :=
      Nat.le_mul_of_pos_right _ (by omega)
    omega
  have h0 : argv[0]? ≠ some ['-', '-'] := by
    rw [← List.head?_eq_getElem?, hp]
    intro e; cases e; exact hp' rfl
  obtain ⟨evs', err', h1, h2, h3⟩ := tokens_agree hsane hbudget h0
  rw [sig_of_config' hc, begin_queue] at h1
  obtain ⟨rfl, rfl⟩ := line_unique (sane_sized hsn) (sane_places hsn) hl h1
  have := h3 rfl
  unfold State.parseWith
  rw [hauto]
  simp only
  rw [setBinary_eq hne]
  simp only
  rw [this, seen_eq]

/-- The end of the parse of an accepted line: help, version, a missing argument, or the last loop. -/
theorem after_cases {st : State D} (u : U)
    (hp : ∀ o, st.helpOption = some o ∨ st.versionOption = some o → st.atObj o ≠ none) :
    (∃ st' r, (∀ last', st.afterLoopWith last' u = (st', r, u, [])) ∧ ((r.goesOn = true ∧ r ≠ .ok () ∧ st' = st) ∨ ∃ out, r = .exit out)) ∨
    ∀ last', st.afterLoopWith last' u = last' st u := by
  have seen : ∀ p : Option Nat, (∀ o, p = some o → st.atObj o ≠ none) → ∃ b, st.optionSeen p = some b := by
    intro p h
    cases p with
    | none => exact ⟨false, rfl⟩
    | some o =>
      unfold State.optionSeen
      simp only
      cases hx : st.atObj o with
      | none => exact absurd hx (h o rfl)
      | some s => exact ⟨_, rfl⟩
  obtain ⟨b, hb⟩ := seen st.helpOption fun o h => hp o (.inl h)
  obtain ⟨b', hb'⟩ := seen st.versionOption fun o h => hp o (.inr h)
  unfold State.afterLoopWith
  rw [hb]
  cases b with
  | true =>
    simp only
    split
    · exact .inl ⟨_, _, fun _ => rfl, .inl ⟨rfl, nofun, rfl⟩⟩
    · exact .inl ⟨_, _, fun _ => rfl, .inr ⟨_, rfl⟩⟩
  | false =>
    simp only
    rw [hb']
    cases b' with
    | true =>
      simp only
      split
      · exact .inl ⟨_, _, fun _ => rfl, .inl ⟨rfl, nofun, rfl⟩⟩
      · exact .inl ⟨_, _, fun _ => rfl, .inr ⟨_, rfl⟩⟩
    | false =>
      simp only
      cases firstMissing st.arguments with
      | some e => exact .inl ⟨_, _, fun _ => rfl, .inl ⟨rfl, nofun, rfl⟩⟩
      | none => exact .inr fun _ => rfl

theorem seen_pointers {st : State D} {full : Prop} (hi : GInv full st) (argv : List Str) (evs : List Event)
    (hp : ∀ o, st.helpOption = some o ∨ st.versionOption = some o → st.atObj o ≠ none) :
    ∀ o, (st.seen argv evs).helpOption = some o ∨ (st.seen argv evs).versionOption = some o → (st.seen argv evs).atObj o ≠ none := by
  intro o ho
  have := hp o ho
  cases hx : st.atObj o with
  | none => exact absurd hx this
  | some s =>
    obtain ⟨h1, rfl⟩ := State.atObj_some hx
    rw [seen_atObj hi argv evs h1]
    nofun

theorem seen_inv' {st : State D} {full : Prop} (hi : GInv full st) (argv : List Str) (evs : List Event) : GInv full (st.seen argv evs) :=
  inv_of_config (st := { st with binaryName := (st.begin argv).binaryName }) (seen_config st argv evs)
    (inv_of_eq hi rfl rfl rfl rfl rfl)

/-- C84. Code whose calls leave the arguments where they are (`help()`, `action()`, `defaults()`, `dest()`, the settings of the
parser, …), in the parse of an accepted command line, the help and version options being in place: the parse returns, throws or
exits; the last loop goes through the arguments in the order in which they are listed, each of them once; all of them, if it returns. -/
theorem C84_in_place {scan : Str → Option D} {I : State D → Prop} {code : CallingCode D U} (hc : CallsOnly scan InPlace I code)
    {st : State D} {argv : List Str} (h : Ready scan st argv) (hI : I st) (u : U) {evs : List Event}
    (hl : Line st.sig st.places (argv.drop 1) evs none)
    (hp : ∀ o, st.helpOption = some o ∨ st.versionOption = some o → st.atObj o ≠ none) :
    ∃ st' r u' visited, ParseEnds scan code st u argv st' r u' visited ∧ (r.goesOn = true ∨ ∃ out, r = .exit out) ∧
      visited <+: st.arguments.map (·.node) ∧
      (r = .ok () → visited = st.arguments.map (·.node) ∧ st'.arguments.map (·.node) = st.arguments.map (·.node)) := by
  have hi := h.inv
  have hps := parseWith_seen (U := U) h.sane h.help h.program hl
  have hn : (st.seen argv evs).arguments.map (·.node) = st.arguments.map (·.node) := by
    unfold State.seen
    simp [Function.comp_def]
  rcases after_cases u (seen_pointers hi argv evs hp) with ⟨st', r, e, hr⟩ | e
  · refine ⟨st', r, u, [], ⟨?_, 0, ?_⟩, ?_, List.nil_prefix, ?_⟩
    · rintro rfl; rcases hr with ⟨h, _⟩ | ⟨_, h⟩ <;> cases h
    · unfold State.parseCalling; rw [hps, e]
    · exact hr.imp (·.1) id
    · rintro rfl; rcases hr with ⟨_, h, _⟩ | ⟨_, h⟩
      · exact absurd rfl h
      · cases h
  · have hI' : I (st.seen argv evs) := hc.values (seen_config st argv evs) hI
    obtain ⟨h1, h2, h3, h4⟩ := lastLoop_place hc ((st.seen argv evs).arguments.map (·.node)) [] (seen_inv' hi argv evs) hI' u rfl
      st.arguments.length (by rw [hn, List.length_map]; exact Nat.le_refl _)
    have ef : (st.seen argv evs).firstNode = ((st.seen argv evs).arguments.map (·.node)).head? := by
      unfold State.firstNode; rw [List.head?_map]
    have hx : st.parseCalling scan code st.arguments.length u argv = State.lastLoop scan code st.arguments.length
        ((st.seen argv evs).arguments.map (·.node)).head? (st.seen argv evs) u := by
      unfold State.parseCalling; rw [hps, e, ef]
    generalize State.lastLoop scan code st.arguments.length _ (st.seen argv evs) u = y at h1 h2 h3 h4 hx
    obtain ⟨st', r, u', visited⟩ := y
    rw [hn] at h1 h3 h4
    refine ⟨st', r, u', visited, ⟨?_, _, hx⟩, .inl h2, h3, fun hr => ⟨h4 hr, h1⟩⟩
    rintro rfl; cases h2

/-- C84. Code that removes no argument (it may add some, add flags, or make arguments required or optional, which moves them in
the list): no parse of an accepted command line runs into undefined behaviour; it returns, throws, exits or does not end, and
all arguments there were before, and all those visited by the last loop, are there at its end. -/
theorem C84_keeping_is_safe {scan : Str → Option D} {I : State D → Prop} {code : CallingCode D U} (hc : CallsOnly scan RemovesNone I code)
    {st : State D} {argv : List Str} (h : Ready scan st argv) (hI : I st) (u : U) {evs : List Event}
    (hl : Line st.sig st.places (argv.drop 1) evs none)
    (hp : ∀ o, st.helpOption = some o ∨ st.versionOption = some o → st.atObj o ≠ none) :
    ParseEndless scan code st u argv ∨ ∃ st' r u' visited, ParseEnds scan code st u argv st' r u' visited ∧
      ((∃ out, r = .exit out) ∨ r.goesOn = true ∧
        (∀ n ∈ st.arguments.map (·.node), n ∈ st'.arguments.map (·.node)) ∧
        ∀ n ∈ visited, n ∈ st'.arguments.map (·.node)) := by
  have hi := h.inv
  have hps := parseWith_seen (U := U) h.sane h.help h.program hl
  have hn : (st.seen argv evs).arguments.map (·.node) = st.arguments.map (·.node) := by
    unfold State.seen
    simp [Function.comp_def]
  rcases after_cases u (seen_pointers hi argv evs hp) with ⟨st', r, e, hr⟩ | e
  · refine .inr ⟨st', r, u, [], ⟨?_, 0, ?_⟩, ?_⟩
    · rintro rfl; rcases hr with ⟨h, _⟩ | ⟨_, h⟩ <;> cases h
    · unfold State.parseCalling; rw [hps, e]
    · rcases hr with ⟨h1, _, rfl⟩ | h2
      · exact .inr ⟨h1, fun n h => by rw [hn]; exact h, nofun⟩
      · exact .inl h2
  · have hI' : I (st.seen argv evs) := hc.values (seen_config st argv evs) hI
    by_cases hd : ∀ fuel, (st.parseCalling scan code fuel u argv).2.1 = .diverge
    · exact .inl hd
    · right
      rw [Classical.not_forall] at hd
      obtain ⟨fuel, hd⟩ := hd
      have hx : st.parseCalling scan code fuel u argv =
          State.lastLoop scan code fuel (st.seen argv evs).firstNode (st.seen argv evs) u := by
        unfold State.parseCalling; rw [hps, e]
      obtain ⟨h1, _, _, h4, h5⟩ := lastLoop_keeps (keeps_effect scan) hc fuel (st.seen argv evs).firstNode (seen_inv' hi argv evs) hI' u
        (fun n hn => by
          unfold State.firstNode at hn
          rw [← List.head?_map] at hn
          exact List.mem_of_head? hn)
      rw [hx] at hd
      generalize State.lastLoop scan code fuel _ (st.seen argv evs) u = y at h1 h4 h5 hx hd
      obtain ⟨st', r, u', visited⟩ := y
      rw [hn] at h1
      refine ⟨st', r, u', visited, ⟨hd, fuel, hx⟩, .inr ⟨?_, h1, h5⟩⟩
      exact h4.resolve_right hd

theorem after_reaches {st : State D} {full : Prop} (hi : GInv full st) {argv : List Str} {evs : List Event}
    (hl : Line st.sig st.places (argv.drop 1) evs none) (h : ReachesLastLoop st evs)
    (last : State D → U → State D × Res Unit × U × List Nat) (u : U) :
    (st.seen argv evs).afterLoopWith last u = last (st.seen argv evs) u := by
  have seen : ∀ p : Option Nat, (∀ o, p = some o → ∃ s ∈ st.arguments, s.obj = o ∧ ¬Occurs s.node evs) →
      (st.seen argv evs).optionSeen p = some false := by
    intro p hp
    cases p with
    | none => rfl
    | some o =>
      obtain ⟨s, hs, rfl, ho⟩ := hp o rfl
      rw [seen_optionSeen hi argv evs hs]
      congr 1
      cases hx : (s.arg.afterTokens s.node evs).isExist with
      | false => rfl
      | true => exact absurd ((occurs_iff hi hs hl).1 hx) ho
  have hm : firstMissing (st.seen argv evs).arguments = none := by
    unfold firstMissing
    rw [Option.map_eq_none_iff, List.find?_eq_none]
    intro x hx
    obtain ⟨s, hs, rfl⟩ := List.mem_map.1 hx
    have hc : (s.arg.afterTokens s.node evs).isRequired = s.arg.isRequired :=
      (congrArg (fun a : Argument D => a.isRequired) (afterTokens_config s.node evs s.arg) :)
    simp only [hc]
    cases hr : s.arg.isRequired with
    | false => simp
    | true => simp [(occurs_iff hi hs hl).2 (h.required s hs hr)]
  unfold State.afterLoopWith
  rw [show (st.seen argv evs).helpOption = st.helpOption from rfl, seen _ fun o e => h.pointers o (.inl e)]
  simp only
  rw [show (st.seen argv evs).versionOption = st.versionOption from rfl, seen _ fun o e => h.pointers o (.inr e)]
  simp only
  rw [hm]

theorem reaches_of_config {st st' : State D} {b : Str} (hc : st'.config = { st.config with binaryName := b }) {evs : List Event}
    (h : ReachesLastLoop st evs) : ReachesLastLoop st' evs := by
  have ea : st'.arguments.map Slot.config = st.arguments.map Slot.config := congrArg State.arguments hc
  have fwd : ∀ s ∈ st.arguments, ∃ s' ∈ st'.arguments, s'.config = s.config := by
    intro s hs
    have : s.config ∈ st'.arguments.map Slot.config := by rw [ea]; exact List.mem_map.2 ⟨s, hs, rfl⟩
    exact List.mem_map.1 this
  have bwd : ∀ s' ∈ st'.arguments, ∃ s ∈ st.arguments, s'.config = s.config := fun s' hs' => slots_of_config ea hs'
  constructor
  · intro o ho
    have e1 : st'.helpOption = st.helpOption := (congrArg State.helpOption hc :)
    have e2 : st'.versionOption = st.versionOption := (congrArg State.versionOption hc :)
    rw [e1, e2] at ho
    obtain ⟨s, hs, h1, h2⟩ := h.pointers o ho
    obtain ⟨s', hs', e⟩ := fwd s hs
    have e3 : s'.obj = s.obj := (congrArg Slot.obj e :)
    have e4 : s'.node = s.node := (congrArg Slot.node e :)
    exact ⟨s', hs', e3.trans h1, by rw [e4]; exact h2⟩
  · intro s' hs' hr
    obtain ⟨s, hs, e⟩ := bwd s' hs'
    have e4 : s'.node = s.node := (congrArg Slot.node e :)
    have e5 : s'.arg.isRequired = s.arg.isRequired := (congrArg (fun s : Slot D => s.arg.isRequired) e :)
    rw [e4]
    exact h.required s hs (by rw [← e5]; exact hr)

/-- C84. A validator that parses the command line it is called for again: the parse does not end (in the real program, the stack
overflows). -/
theorem C84_recursion {scan : Str → Option D} {code : CallingCode D U} {st : State D} {argv : List Str} (h : Ready scan st argv)
    {evs : List Event} (hl : Line st.sig st.places (argv.drop 1) evs none) (hr : ReachesLastLoop st evs)
    {s : Slot D} {rest : List (Slot D)} (hs : st.arguments = s :: rest) {v : Validator} (hv : s.arg.valid = some v)
    (ho : Occurs s.node evs) (hc : ∀ vs view u, ∃ u' next, code.check v.id vs view u = .call (.parse argv) u' next) (u : U) :
    ParseEndless scan code st u argv := by
  intro fuel
  have start : ∀ (st' : State D) (b : Str) (u : U), st'.config = { st.config with binaryName := b } → ∀ fuel,
      ∃ s', (st'.seen argv evs).atNode s'.node = some s' ∧ (s'.arg.valid = some v ∧ s'.arg.isExist = true) ∧
        st'.parseCalling scan code fuel u argv =
          State.lastLoop scan code fuel (some s'.node) (st'.seen argv evs) u := by
    intro st' b u hcf fuel
    have hsn : Sane st' argv.length := Sane.of_config' hcf h.sane
    have hsig := sig_of_config' hcf
    have ea : st'.arguments.map Slot.config = st.arguments.map Slot.config := congrArg State.arguments hcf
    have hpl := places_of_config ea
    have hl' : Line st'.sig st'.places (argv.drop 1) evs none := by rw [hsig, hpl]; exact hl
    have hh : st'.helpOption ≠ none := by rw [show st'.helpOption = st.helpOption from (congrArg State.helpOption hcf :)]; exact h.help
    rw [hs, List.map_cons] at ea
    obtain ⟨t, l, et, e1, _⟩ := List.map_eq_cons_iff.1 ea
    have hmem : t ∈ st'.arguments := by rw [et]; simp
    have hnode : t.node = s.node := (congrArg Slot.node e1 :)
    refine ⟨{ t with arg := t.arg.afterTokens t.node evs }, ?_, ⟨?_, ?_⟩, ?_⟩
    · exact State.atNode_of_mem (seen_inv' hsn.inv argv evs).nodes (List.mem_map.2 ⟨t, hmem, rfl⟩)
    · have h1 : (t.arg.afterTokens t.node evs).valid = t.arg.valid :=
        (congrArg (fun a : Argument D => a.valid) (afterTokens_config t.node evs t.arg) :)
      have h2 : t.arg.valid = s.arg.valid := (congrArg (fun s : Slot D => s.arg.valid) e1 :)
      exact h1.trans (h2.trans hv)
    · exact (occurs_iff hsn.inv hmem hl').2 (by rw [hnode]; exact ho)
    · unfold State.parseCalling
      rw [parseWith_seen hsn hh h.program hl', after_reaches hsn.inv hl' (reaches_of_config hcf hr)]
      congr 1
      unfold State.firstNode State.seen
      simp [et]
  have main : ∀ (fuel : Nat) (st' : State D) (b : Str) (u : U), st'.config = { st.config with binaryName := b } →
      (st'.parseCalling scan code fuel u argv).2.1 = .diverge := by
    intro fuel
    induction fuel with
    | zero =>
      intro st' b u hcf
      obtain ⟨s', hs', _, e⟩ := start st' b u hcf 0
      rw [e]
      rfl
    | succ f ih =>
      intro st' b u hcf
      obtain ⟨s', hs', ⟨hv', he'⟩, e⟩ := start st' b u hcf (f + 1)
      rw [e, lastLoop_succ]
      have hd : ((st'.seen argv evs).checkCalling scan code (inner scan code f) s'.node u).2.1 = .diverge := by
        unfold State.checkCalling
        rw [hs']
        simp only
        rw [hv']
        simp only [he', if_true]
        obtain ⟨u', next, ec⟩ := hc (s'.arg.toVector.getD []) (st'.seen argv evs).visible u
        rw [ec]
        unfold Script.run
        have hin : (stepWith scan (inner scan code f) (st'.seen argv evs) u' (.parse argv)).2.1 = .diverge :=
          ih (st'.seen argv evs) (st'.begin argv).binaryName u' (by rw [seen_config, hcf])
        generalize stepWith scan (inner scan code f) (st'.seen argv evs) u' (.parse argv) = y at hin
        obtain ⟨a, r, c⟩ := y
        simp only at hin
        subst hin
        rfl
      generalize State.checkCalling scan code (inner scan code f) s'.node (st'.seen argv evs) u = y at hd
      obtain ⟨a, r, c⟩ := y
      simp only at hd
      subst hd
      rfl
  exact main fuel st st.binaryName u rfl

/-! ### Concrete parsers -/

/-- The reference parser with validators for `-a` (listed first), `-e` (listed second) and `-o`, and a callback for `-v`. -/
def callOps : List Op :=
  [.valid 5 (some ⟨1, fun vs => .accept vs⟩) true, .valid 10 (some ⟨2, fun vs => .accept vs⟩) true,
   .valid 0 (some ⟨3, fun _ => .reject⟩) true, .dest 2 ⟨0, .scalar, true, true, fun _ => none⟩]

def callWords : List String := ["-a", "x", "-e", "y", "-o", "1", "-v", "f"]
def callLine : List Str := "prog".toList :: callWords.map String.toList
def callParser : State Unit := runOps demoScan parser callOps

theorem callParser_reachable : Reachable demoScan callParser :=
  reachable_runOps parser_history.reachable callOps (by decide +kernel)

theorem callParser_ready : Ready demoScan callParser callLine := ready_words callOps callWords (by decide +kernel)

def callSays : List Event := (Reader.line callParser.sig callParser.places (callLine.drop 1)).1

theorem callParser_says : Line callParser.sig callParser.places (callLine.drop 1) callSays none :=
  callParser_ready.says (by decide +kernel)

theorem callParser_pointers :
    ∀ o, callParser.helpOption = some o ∨ callParser.versionOption = some o → callParser.atObj o ≠ none := by
  have h : callParser.helpOption = some 9 ∧ callParser.versionOption = none ∧ (callParser.atObj 9).isSome = true := by decide +kernel
  rintro o (e | e)
  · rw [h.1] at e; cases e
    intro e'; rw [e'] at h; cases h.2.2
  · rw [h.2.1] at e; cases e

/-- Code that counts; its validators describe `--out` anew, its callbacks set the version. -/
def tidyCode : CallingCode Unit Nat where
  check id vs _ u := .call (.help 0 "checked".toList) u fun _ _ u => .answer (if id = 3 then .reject else .accept vs) (u + 1)
  call _ _ u := .call (.setVersion "2".toList) u fun _ _ u => .answer none (u + 1)
  assigned _ _ u := u

/-- It relies on the reference `0`. -/
def tidyInv (st : State Unit) : Prop := Inv st ∧ (st.atObj 0).isSome = true

theorem isSome_of_mem {st : State D} {o : Nat} (h : ∃ s ∈ st.arguments, s.obj = o) : (st.atObj o).isSome = true := by
  obtain ⟨s, hs, rfl⟩ := h
  cases hx : st.atObj s.obj with
  | some _ => rfl
  | none => exact absurd rfl (atObj_none hx s hs)

theorem tidyInv_step {st : State Unit} (h : tidyInv st) {op : Op} (hg : (step demoScan st op).2.goesOn = true) (h1 : op ≠ .clear)
    (h2 : ∀ ns, op ≠ .remove ns) (h3 : ∀ d, op ≠ .dest 0 d) : tidyInv (step demoScan st op).1 := by
  refine ⟨step_inv h.1 op hg, isSome_of_mem ?_⟩
  have h0 := h.2
  cases hx : st.atObj 0 with
  | none => rw [hx] at h0; cases h0
  | some s =>
    obtain ⟨hs, ho⟩ := State.atObj_some hx
    obtain ⟨s', hs', e⟩ := step_obj_stays h.1 op hg hs h1 h2 (by rw [ho]; exact h3)
    exact ⟨s', hs', e.trans ho⟩

theorem tidyInv_values {st st' : State Unit} {name : Str} (hc : st'.config = { st.config with binaryName := name }) (h : tidyInv st) :
    tidyInv st' := by
  refine ⟨inv_of_config (st := { st with binaryName := name }) hc (inv_of_eq h.1 rfl rfl rfl rfl rfl), isSome_of_mem ?_⟩
  have h0 := h.2
  cases hx : st.atObj 0 with
  | none => rw [hx] at h0; cases h0
  | some s =>
    obtain ⟨hs, ho⟩ := State.atObj_some hx
    have ea : st'.arguments.map Slot.config = st.arguments.map Slot.config := congrArg State.arguments hc
    obtain ⟨s', hs', e⟩ := slots_of_config ea.symm hs
    have e' : s.obj = s'.obj := (congrArg Slot.obj e :)
    exact ⟨s', hs', e'.symm.trans ho⟩

theorem tidyCode_inPlace : CallsOnly demoScan InPlace tidyInv tidyCode where
  values := tidyInv_values
  check id vs st u h := by
    have hp : InPlace st (.help 0 "checked".toList) := h.2
    exact ⟨⟨hp, tidyInv_step h (step_place hp).1 nofun nofun nofun⟩, fun _ => trivial⟩
  call w st u h := by
    have hp : InPlace st (.setVersion "2".toList) := trivial
    exact ⟨⟨hp, tidyInv_step h (step_place hp).1 nofun nofun nofun⟩, fun _ => trivial⟩

theorem tidyInv_callParser : tidyInv callParser := ⟨callParser_reachable.inv, by decide +kernel⟩

example := C84_in_place tidyCode_inPlace callParser_ready tidyInv_callParser 0 callParser_says callParser_pointers

/-- The validator of `-a` makes `-o` required, which moves `-o` to the front of the list. The validator of `-o` accepts nothing. -/
def hidingCode : CallingCode Unit Nat where
  check id vs _ u :=
    if id = 3 then .answer .reject u else .call (.required 0 true) u fun _ _ u => .answer (.accept vs) (u + 1)
  call _ _ u := .answer none u
  assigned _ _ u := u

theorem hidingCode_keeps : CallsOnly demoScan RemovesNone tidyInv hidingCode where
  values := tidyInv_values
  check id vs st u h := by
    have hp : RemovesNone st (.required 0 true) := h.2
    unfold hidingCode
    simp only
    split
    · trivial
    · exact ⟨⟨hp, tidyInv_step h (step_keeps h.1 hp).1 nofun nofun nofun⟩, fun _ => trivial⟩
  call w st u h := trivial

example := C84_keeping_is_safe hidingCode_keeps callParser_ready tidyInv_callParser 0 callParser_says callParser_pointers

/-- The validator of `-e` makes `-e` required. -/
def repeatingCode : CallingCode Unit Nat where
  check id vs _ u :=
    if id = 2 then .call (.required 10 true) u fun _ _ u => .answer (.accept vs) u else .answer (.accept vs) (u + 1)
  call _ _ u := .answer none u
  assigned _ _ u := u

/-- The validator of `-a` removes `-a`. -/
def removingCode : CallingCode Unit Nat where
  check _ vs _ u := .call (.remove ["-a".toList]) u fun _ _ u => .answer (.accept vs) u
  call _ _ u := .answer none u
  assigned _ _ u := u

/-- The validator of `-a` parses another command line, the first time it is called. -/
def nestedCode : CallingCode Unit Nat where
  check id vs _ u :=
    if id = 1 ∧ u = 0 then .call (.parse (["prog", "-a", "z", "g"].map String.toList)) 1 fun _ _ u => .answer (.accept vs) u
    else .answer (.accept vs) (u + 1)
  call _ _ u := .answer none u
  assigned _ _ u := u

/-- The validators parse the same command line again. -/
def loopingCode : CallingCode Unit Nat where
  check _ vs _ u := .call (.parse callLine) u fun _ _ u => .answer (.accept vs) u
  call _ _ u := .answer none u
  assigned _ _ u := u

attribute [local irreducible] callParser

/-- C84, what can go wrong, on a parser whose plain parse visits `-a`, `-e`, `-g`, … once each, in this order.
1. The validator of `-a` makes `-o` required: `parseArguments` returns although `-o` was given and its validator accepts
   nothing – the argument moves behind the iterator and is not visited (node 0).
2. The validator of `-e` makes `-e` required: `-a` (node 5), now behind `-e` (node 10), is visited and checked a second time.
3. The validator of `-a` removes `-a`: undefined behaviour.
4. The validator of `-a` parses another command line: `parseArguments` returns, and the parser shows that `-e` and `-v` were
   not given and that `file` is `g`, as the inner command line says, although the outer one was `-a x -e y -o 1 -v f`; `-a` has
   the value the outer validator answered with. -/
theorem C84_hazards :
    (∃ st' u' visited, ParseEnds demoScan hidingCode callParser 0 callLine st' (.ok ()) u' visited ∧ 0 ∉ visited ∧
      Occurs 0 callSays) ∧
    (∃ st' u' visited, ParseEnds demoScan repeatingCode callParser 0 callLine st' (.ok ()) u' visited ∧
      visited.take 4 = [5, 10, 5, 6]) ∧
    (∃ st' u' visited w, ParseEnds demoScan removingCode callParser 0 callLine st' (.ub w) u' visited) ∧
    (∃ st' u' visited, ParseEnds demoScan nestedCode callParser 0 callLine st' (.ok ()) u' visited ∧
      (st'.atObj 10).map (·.arg.isExist) = some false ∧ (st'.atObj 12).map (·.arg.isExist) = some false ∧
      (st'.atObj 1).map (·.arg.argument) = some "g".toList ∧
      (st'.atObj 5).map (·.arg.toVector) = some (some ["x".toList])) := by
  have ends : ∀ {code : CallingCode Unit Nat} {r : Res Unit}, r ≠ .diverge →
      (callParser.parseCalling demoScan code 100 0 callLine).2.1 = r →
      ParseEnds demoScan code callParser 0 callLine (callParser.parseCalling demoScan code 100 0 callLine).1 r
        (callParser.parseCalling demoScan code 100 0 callLine).2.2.1 (callParser.parseCalling demoScan code 100 0 callLine).2.2.2 := by
    rintro code r hd rfl
    exact ⟨hd, 100, rfl⟩
  refine ⟨⟨_, _, _, ends nofun ?_, ?_, ?_⟩, ⟨_, _, _, ends nofun ?_, ?_⟩, ⟨_, _, _, _, ends (r := .ub "iterator of an erased element") nofun ?_⟩,
    ⟨_, _, _, ends nofun ?_, ?_, ?_, ?_, ?_⟩⟩ <;> decide +kernel

/-- The callback of `-a` removes `-a`. -/
def erasingCode : CallingCode Unit Nat where
  check _ vs _ u := .answer (.accept vs) u
  call _ _ u := .call (.remove ["-a".toList]) u fun _ _ u => .answer none u
  assigned _ _ u := u

/-- Options `-a`, with a callback, and `-h`. -/
def erasedParser : State Unit := runOps demoScan State.init
  [.add ["-a".toList], .add ["-h".toList], .action 1 .help, .dest 0 ⟨0, .scalar, true, true, fun _ => none⟩]

/-- The callback of an option removes the option: undefined behaviour (the iterator of the loop is advanced from an erased
element). -/
theorem C84_removed_by_callback :
    ∃ st' u' visited w, ParseEnds demoScan erasingCode erasedParser 0 (["prog", "-a", "x"].map String.toList) st' (.ub w) u' visited := by
  have h : (erasedParser.parseCalling demoScan erasingCode 100 0 (["prog", "-a", "x"].map String.toList)).2.1 =
      .ub "++ of the iterator of an erased element" := by decide +kernel
  exact ⟨_, _, _, _, nofun, 100, Prod.ext rfl (Prod.ext h rfl)⟩

/-- C84_recursion: `-a` is listed first, has a validator and is given. -/
example : ParseEndless demoScan loopingCode callParser 0 callLine := by
  have hb : (callParser.arguments.head?.map fun s => (s.node, s.arg.valid.map (·.id))) = some (5, some 1) ∧
      (callParser.arguments.all fun s => (!s.arg.isRequired || decide (Occurs s.node callSays)) &&
        !(s.obj == 9 && decide (Occurs s.node callSays))) = true ∧ Occurs 5 callSays ∧
      callParser.helpOption = some 9 ∧ callParser.versionOption = none ∧ (callParser.atObj 9).isSome = true := by decide +kernel
  obtain ⟨h1, h2, h3, h4, h5, h6⟩ := hb
  rw [List.all_eq_true] at h2
  cases hc : callParser.arguments with
  | nil => rw [hc] at h1; cases h1
  | cons s rest =>
    rw [hc] at h1
    simp only [List.head?_cons, Option.map_some, Option.some.injEq, Prod.mk.injEq] at h1
    cases hv : s.arg.valid with
    | none => rw [hv] at h1; cases h1.2
    | some v =>
      refine C84_recursion callParser_ready callParser_says ⟨?_, ?_⟩ hc hv (by rw [h1.1]; exact h3) (fun _ _ u => ⟨u, _, rfl⟩) 0
      · rintro o (e | e)
        · rw [h4] at e
          cases e
          cases hx : callParser.atObj 9 with
          | none => rw [hx] at h6; cases h6
          | some t =>
            obtain ⟨ht, ho⟩ := State.atObj_some hx
            refine ⟨t, ht, ho, ?_⟩
            have := h2 t ht
            rw [Bool.and_eq_true] at this
            simpa [ho] using this.2
        · rw [h5] at e; cases e
      · intro t ht hr
        have := h2 t ht
        rw [Bool.and_eq_true] at this
        simpa [hr] using this.1

/-- C84_no_calls, C84_one_end and C84_consistent on these parsers. -/
example (code : LookingCode Unit Nat) := C84_no_calls code callParser_reachable 0 callLine

/-- The history of a parser, none of whose calls is a parse. -/
theorem reachableCalling_ops {scan : Str → Option D} {code : CallingCode D U} {st : State D} {u : U}
    (h : ReachableCalling scan code st u) (ops : List Op) (hg : opsGoOn scan st ops = true)
    (hp : (ops.all fun op => match op with | .parse _ => false | _ => true) = true) :
    ReachableCalling scan code (runOps scan st ops) u := by
  induction ops generalizing st with
  | nil => exact h
  | cons op ops ih =>
    rw [opsGoOn, Bool.and_eq_true] at hg
    rw [List.all_cons, Bool.and_eq_true] at hp
    exact ih (.step op h (fun argv e => by subst e; cases hp.1) hg.1) hg.2 hp.2

theorem callParser_calling (u : Nat) : ReachableCalling demoScan nestedCode callParser u := by
  have h := reachableCalling_ops (code := nestedCode) (.init u) (scan := demoScan) (parserOps ++ callOps) (by decide +kernel) (by decide +kernel)
  unfold callParser parser
  rw [runOps, List.foldl_append] at h
  exact h

/-- A parse inside a parse leaves a consistent parser. -/
example : ∃ st' u', ReachableCalling demoScan nestedCode st' u' ∧ st'.arguments.length = 12 ∧ (st'.byName.map (·.1)).Nodup := by
  have e : (callParser.parseCalling demoScan nestedCode 100 0 callLine).2.1 = .ok () ∧
    (callParser.parseCalling demoScan nestedCode 100 0 callLine).1.arguments.length = 12 := by decide +kernel
  have hp : ParseEnds demoScan nestedCode callParser 0 callLine (callParser.parseCalling demoScan nestedCode 100 0 callLine).1 (.ok ())
      (callParser.parseCalling demoScan nestedCode 100 0 callLine).2.2.1
      (callParser.parseCalling demoScan nestedCode 100 0 callLine).2.2.2 := ⟨nofun, 100, by rw [← e.1]⟩
  have hr := ReachableCalling.parse (callParser_calling 0) hp rfl
  exact ⟨_, _, hr, e.2, (C84_consistent hr).2.2.1⟩

/-- C84_one_end: the third parse of `C84_hazards` always ends in this one way. -/
example : ¬ParseEndless demoScan removingCode callParser 0 callLine := by
  obtain ⟨_, _, _, _, h⟩ := C84_hazards.2.2.1
  exact (C84_one_end h).2.1

end BletArgs
