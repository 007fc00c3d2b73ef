import Verif.Lemmas.Steps
import Verif.Props.Registry
/-
C07 (disciplined histories), C08, C09, C10.
-/
namespace BletArgs
open Spec
variable {D : Type} {full : Prop}

/-- The address of the argument a name resolves to. -/
def State.resolve (st : State D) (n : Str) : Option Nat :=
  match st.getArgument n with
  | .ok s => some s.obj
  | _ => none

theorem resolve_of_entry {st : State D} (hi : GInv full st) {n : Str} {s : Slot D} (hs : s ∈ st.arguments)
    (h : lookupName st.byName n = some s.node) : st.resolve n = some s.obj := by
  unfold State.resolve; rw [getArgument_of_entry hi hs h]

theorem resolve_none {st : State D} {n : Str} (h : lookupName st.byName n = none) : st.resolve n = none := by
  unfold State.resolve State.getArgument; rw [h]

theorem resolve_iff {st : State D} (hi : GInv full st) {n : Str} {s : Slot D} (hs : s ∈ st.arguments) :
    st.resolve n = some s.obj ↔ lookupName st.byName n = some s.node := by
  refine ⟨fun h => ?_, resolve_of_entry hi hs⟩
  cases hl : lookupName st.byName n with
  | none => rw [resolve_none hl] at h; cases h
  | some v =>
    obtain ⟨t, ht, e, _⟩ := hi.entries _ (lookupName_mem hl)
    simp only at e
    subst e
    rw [resolve_of_entry hi ht hl] at h
    rw [eq_of_obj hi hs ht (Option.some.inj h)]

/-! ### C07 -/

/-- Every listed flag resolves to the argument listing it, and an argument lists no flag twice. -/
structure Owned (st : State D) : Prop where
  nodup : ∀ s ∈ st.arguments, s.arg.names.Nodup
  own : ∀ s ∈ st.arguments, ∀ n ∈ s.arg.names, lookupName st.byName n = some s.node

theorem SameReg.owned {st st' : State D} (h : SameReg st st') (ho : Owned st) : Owned st' := by
  constructor
  · intro s hs
    obtain ⟨t, ht, e⟩ := sig_mem h.sig hs
    rw [← (sig_fields e).2.2.1]
    exact ho.nodup t ht
  · intro s hs n hn
    obtain ⟨t, ht, e⟩ := sig_mem h.sig hs
    have hf := sig_fields e
    rw [← hf.2.2.1] at hn
    rw [h.byName, ← hf.1]
    exact ho.own t ht n hn

theorem link_owned {st st' : State D} (ho : Owned st) {a : Argument D}
    (h1 : st'.arguments.Perm (st.newSlot a :: st.arguments))
    (h2 : st'.byName = insertAll st.byName a.names st.nextNode) (hnd : a.names.Nodup)
    (hf : ∀ n ∈ a.names, lookupName st.byName n = none) : Owned st' := by
  constructor
  · intro s hs
    rcases List.mem_cons.1 (h1.mem_iff.1 hs) with rfl | hs
    · exact hnd
    · exact ho.nodup s hs
  · intro s hs n hn
    rw [h2, insertAll_lookup]
    rcases List.mem_cons.1 (h1.mem_iff.1 hs) with rfl | hs
    · rw [hf n hn]; simp only [State.newSlot] at hn ⊢; simp [hn]
    · rw [ho.own s hs n hn]; rfl

theorem withHelp_perm (st : State D) :
    st.withHelp.arguments.Perm (st.newSlot (helpArgument (helpFlags st)) :: st.arguments) :=
  (stableSort_perm _).trans List.perm_append_comm

theorem withHelp_owned {st : State D} (hi : GInv full st) (ho : Owned st)
    (hb : (st.argumentExists "-h".toList && st.argumentExists "--help".toList) = false) : Owned st.withHelp := by
  obtain ⟨_, _, h1, _, h2⟩ := addArgument_helpFlags hi hb
  exact link_owned (a := helpArgument (helpFlags st)) ho (withHelp_perm st) rfl h2 h1

theorem mem_foldl_erase {l rm : List Str} (hl : l.Nodup) {n : Str} :
    n ∈ rm.foldl List.erase l ↔ n ∈ l ∧ n ∉ rm := by
  induction rm generalizing l with
  | nil => simp
  | cons r rm ih =>
    rw [List.foldl_cons, ih (hl.erase r), hl.mem_erase_iff]
    simp only [List.mem_cons, not_or]
    constructor
    · rintro ⟨⟨h1, h2⟩, h3⟩; exact ⟨h2, h1, h3⟩
    · rintro ⟨h2, h1, h3⟩; exact ⟨⟨h1, h2⟩, h3⟩

theorem foldl_erase_sublist (l rm : List Str) : (rm.foldl List.erase l).Sublist l := by
  induction rm generalizing l with
  | nil => exact List.Sublist.refl _
  | cons r rm ih => exact (ih _).trans List.erase_sublist

/-- A repeated or unknown name in the loop of `removeArguments` is undefined behaviour. -/
theorem removeLoop_ok_names (rm : List Str) {st : State D} (hi : GPre full st)
    (h : (State.removeLoop rm st).2 = .ok ()) :
    rm.Nodup ∧ ∀ n ∈ rm, (lookupName st.byName n).isSome = true := by
  induction rm generalizing st with
  | nil => exact ⟨List.nodup_nil, by simp⟩
  | cons n ns ih =>
    cases hl : lookupName st.byName n with
    | none => unfold State.removeLoop at h; rw [hl] at h; cases h
    | some v =>
      obtain ⟨s, hs, e, hm, hr⟩ := removeLoop_cons hi hl
      rw [hr] at h
      subst e
      obtain ⟨h1, h2⟩ := ih (removeStep_preInv hi hs hl) h
      rw [removeStep_byName] at h2
      have h3 : ∀ m ∈ ns, m ≠ n ∧ (lookupName st.byName m).isSome = true := by
        intro m hm
        have := h2 m hm
        rw [filter_lookup] at this
        split at this
        · cases this
        · exact ⟨‹_›, this⟩
      refine ⟨List.nodup_cons.2 ⟨fun hn => (h3 n hn).1 rfl, h1⟩, ?_⟩
      intro m hm
      rcases List.mem_cons.1 hm with rfl | hm
      · rw [hl]; rfl
      · exact (h3 m hm).2

theorem removeArguments_cases {st : State D} (hi : GInv full st) (names : List Str) :
    (names = [] ∧ st.removeArguments names = (st, .throw ⟨.argument, [], "invalid empty flag".toList⟩)) ∨
    (∃ n, names.find? (fun n => !st.argumentExists n) = some n ∧
      st.removeArguments names = (st, .throw ⟨.argument, n, "argument not found".toList⟩)) ∨
    (names ≠ [] ∧ (∀ n ∈ names, st.argumentExists n = true) ∧ ¬names.Nodup ∧
      ∃ w, (st.removeArguments names).2 = .ub w) ∨
    (names ≠ [] ∧ (∀ n ∈ names, st.argumentExists n = true) ∧ names.Nodup ∧
      (st.removeArguments names).2 = .ok ()) := by
  by_cases hne : names = []
  · subst hne; left; exact ⟨rfl, rfl⟩
  right
  cases hf : names.find? (fun n => !st.argumentExists n) with
  | some n =>
    left
    refine ⟨n, rfl, ?_⟩
    unfold State.removeArguments
    rw [if_neg (by simpa using hne)]
    have : State.firstUnknown st.byName names = some n := hf
    rw [this]
  | none =>
    right
    have hall : ∀ n ∈ names, st.argumentExists n = true := by
      intro n hn
      have := List.find?_eq_none.1 hf n hn
      simpa using this
    by_cases hnd : names.Nodup
    · right
      exact ⟨hne, hall, hnd, by rw [removeArguments_runs hi hne hnd hall]⟩
    · left
      refine ⟨hne, hall, hnd, ?_⟩
      unfold State.removeArguments
      rw [if_neg (by simpa using hne)]
      have : State.firstUnknown st.byName names = none := hf
      rw [this]
      simp only
      rcases removeLoop_inv names hi.toPreInv with ⟨w, h⟩ | ⟨h, _⟩
      · refine ⟨w, ?_⟩
        generalize State.removeLoop names st = r at h ⊢
        obtain ⟨st1, r⟩ := r
        simp only at h; subst h; rfl
      · exact absurd (removeLoop_ok_names names hi.toPreInv h).1 hnd

theorem remove_owned {st : State D} (hi : Inv st) (ho : Owned st) {names : List Str}
    (hg : (st.removeArguments names).2.goesOn = true) : Owned (st.removeArguments names).1 := by
  rcases removeArguments_cases hi names with ⟨_, h⟩ | ⟨n, _, h⟩ | ⟨_, _, _, w, h⟩ | ⟨h1, h2, h3, h⟩
  · rw [h]; exact ho
  · rw [h]; exact ho
  · rw [h] at hg; cases hg
  · obtain ⟨st', e, _, hb, ha⟩ := removeArguments_ok hi h1 h3 h2
    rw [e]
    have hmem : ∀ s ∈ st'.arguments, ∃ t ∈ st.arguments, s.node = t.node ∧
        s.arg.names = (names.filter fun n => lookupName st.byName n == some t.node).foldl List.erase t.arg.names := by
      intro s hs
      rw [ha, mem_stableSort, List.mem_filterMap] at hs
      obtain ⟨t, ht, e⟩ := hs
      unfold afterRemove at e
      split at e
      · cases e; exact ⟨t, ht, rfl, rfl⟩
      · cases e
    constructor
    · intro s hs
      obtain ⟨t, ht, _, en⟩ := hmem s hs
      rw [en]
      exact (ho.nodup t ht).sublist (foldl_erase_sublist _ _)
    · intro s hs n hn
      obtain ⟨t, ht, e1, en⟩ := hmem s hs
      rw [en, mem_foldl_erase (ho.nodup t ht)] at hn
      have hl := ho.own t ht n hn.1
      have hr : n ∉ names := by
        intro hm
        exact hn.2 (List.mem_filter.2 ⟨hm, by simp [hl]⟩)
      rw [e1]
      refine lookupName_of_mem ?_ ?_
      · rw [hb]; exact hi.keys.sublist (List.filter_sublist.map _)
      · rw [hb, List.mem_filter]
        exact ⟨lookupName_mem hl, by simpa using hr⟩

theorem flag_owned {st : State D} (hi : Inv st) (ho : Owned st) (ref : Nat) (f : Str) :
    Owned (st.flag ref f).1 := by
  cases h : st.atObj ref with
  | none => unfold State.flag State.withRef; rw [h]; exact ho
  | some s =>
    rcases flag_outcome hi h f with ⟨_, e⟩ | ⟨_, m, _, e⟩ | ⟨_, _, _, e⟩ | ⟨_, _, hn, e, _⟩
    · rw [e]; exact ho
    · rw [e]; exact ho
    · rw [e]; exact ho
    · rw [e]
      have hs := (State.atObj_some h).1
      have hfn : f ∉ s.arg.names := fun hm => by
        have := ho.own s hs f hm; rw [hn] at this; cases this
      have hmem : ∀ t ∈ (st.flagged s f).arguments,
          t = { s with arg := { s.arg with names := sortNames (s.arg.names ++ [f]) } } ∨ t ∈ st.arguments := by
        intro t ht
        unfold State.flagged updNode at ht
        simp only [List.mem_map] at ht
        obtain ⟨u, hu, rfl⟩ := ht
        by_cases e : u.node = s.node
        · obtain rfl := eq_of_node hi hs hu e
          left; simp
        · right; simpa [e] using hu
      have hlook : ∀ n, lookupName (st.flagged s f).byName n =
          (lookupName st.byName n).or (if n = f then some s.node else none) := fun n => insertName_lookup ..
      constructor
      · intro t ht
        rcases hmem t (mem_stableSort.1 ht) with rfl | ht
        · refine sortNames_nodup ?_
          rw [List.nodup_append]
          refine ⟨ho.nodup s hs, by simp, ?_⟩
          intro a ha b hb
          rw [List.mem_singleton] at hb
          subst hb
          exact fun e => hfn (e ▸ ha)
        · exact ho.nodup t ht
      · intro t ht n hm
        show lookupName (st.flagged s f).byName n = _
        rw [hlook]
        rcases hmem t (mem_stableSort.1 ht) with rfl | ht
        · simp only [mem_sortNames, List.mem_append, List.mem_singleton] at hm
          rcases hm with hm | rfl
          · rw [ho.own s hs n hm]; rfl
          · rw [hn]; simp
        · rw [ho.own t ht n hm]; rfl

theorem setDest_eq {st : State D} {ref : Nat} {s : Slot D} (h : st.atObj ref = some s) (d : Dest) :
    st.setDest ref d =
    ({ st with
        arguments := st.arguments.map fun t =>
          if t.node == s.node then
            { t with obj := st.nextObj, arg := { t.arg with defaults := [], dest := some d } }
          else t
        nextObj := st.nextObj + 1
        freedObjs := st.freedObjs ++ [s.obj] }, .ok st.nextObj) := by
  unfold State.setDest State.withRef; rw [h]

theorem step_owned {scan : Str → Option D} {st : State D} (hi : Inv st) (ho : Owned st) (op : Op)
    (hg : (step scan st op).2.goesOn = true) (hc : CleanAdds st op (step scan st op).2) :
    Owned (step scan st op).1 := by
  by_cases ht : op.isTweak = true
  · exact (tweak_sameReg hi op ht).owned ho
  cases op with
  | add names =>
    show Owned (st.addArgument names).1
    have h := addArgument_outcome hi names
    generalize st.addArgument names = r at h
    have key : ∀ n ∈ names, lookupName st.byName n = none := by
      intro n hn
      have := hc n hn
      unfold State.argumentExists at this
      simpa using this
    cases h with
    | positional n st' e h1 h2 hst _ =>
      subst hst
      exact link_owned (a := { names := [n], nargs := 1, type := .pos }) ho
        ((stableSort_perm _).trans List.perm_append_comm) rfl (by simp) (by simpa using h2)
    | option f rest fs st' e h1 h2 h3 h4 hst _ =>
      subst hst
      exact link_owned (a := { names := sortNames fs }) ho ((stableSort_perm _).trans List.perm_append_comm) rfl
        (sortNames_nodup h3) fun n hn => key n ((h4 n).1 (mem_sortNames.1 hn))
    | _ => exact ho
  | remove names => exact remove_owned hi ho hg
  | clear => exact ⟨by simp [step, State.clear], by simp [step, State.clear]⟩
  | flag ref f => exact flag_owned hi ho ref f
  | required ref b =>
    show Owned (st.required ref b).1
    cases h : st.atObj ref with
    | none => unfold State.required State.withRef; rw [h]; exact ho
    | some s =>
      rw [(required_ok hi h b).1]
      have hmem : ∀ t ∈ stableSort slotLt (updNode st.arguments s.node fun a => { a with isRequired := b }),
          ∃ u ∈ st.arguments, t.node = u.node ∧ t.arg.names = u.arg.names := by
        intro t ht
        rw [mem_stableSort] at ht
        unfold updNode at ht
        rw [List.mem_map] at ht
        obtain ⟨u, hu, rfl⟩ := ht
        exact ⟨u, hu, by split <;> rfl, by split <;> rfl⟩
      constructor
      · intro t ht
        obtain ⟨u, hu, _, e⟩ := hmem t ht
        rw [e]; exact ho.nodup u hu
      · intro t ht n hn
        obtain ⟨u, hu, e1, e⟩ := hmem t ht
        rw [e] at hn; rw [e1]; exact ho.own u hu n hn
  | dest ref d =>
    show Owned (st.setDest ref d).1
    cases h : st.atObj ref with
    | none => unfold State.setDest State.withRef; rw [h]; exact ho
    | some s =>
      rw [setDest_eq h]
      constructor
      · intro t ht
        rw [List.mem_map] at ht
        obtain ⟨u, hu, rfl⟩ := ht
        split
        · exact ho.nodup u hu
        · exact ho.nodup u hu
      · intro t ht n hn
        rw [List.mem_map] at ht
        obtain ⟨u, hu, rfl⟩ := ht
        split at hn <;> split <;> first | exact ho.own u hu n hn | contradiction
  | parse argv =>
    show Owned (st.parseArguments scan argv).1
    rcases parse_sameReg hi argv hg with h | ⟨_, h2, h3⟩
    · exact h.owned ho
    · exact h3.owned (withHelp_owned (inv_of_config (resetAll_config st) hi) ((resetAll_sameReg st).owned ho) h2)
  | _ => exact absurd rfl ht

theorem ReachableBy.owned {scan : Str → Option D} {st : State D} (h : ReachableBy scan CleanAdds st) : Owned st := by
  induction h with
  | init => exact ⟨by simp [State.init], by simp [State.init]⟩
  | step op hr hg hc ih => exact step_owned hr.reachable.inv ih op hg hc

/-- C07, for histories in which `addArgument` is never given a flag already in use (the code only checks
the first one): every flag an argument lists resolves to that argument, hence no flag is listed twice.
The restriction is necessary: `C07_reused_flag`, `C07_shared_flag`. -/
theorem C07_flag_unique {scan : Str → Option D} {st : State D} (h : ReachableBy scan CleanAdds st) :
    (∀ s ∈ st.arguments, ∀ n ∈ s.arg.names, st.getArgument n = .ok s) ∧
    (∀ s ∈ st.arguments, ∀ t ∈ st.arguments, ∀ n ∈ s.arg.names, n ∈ t.arg.names → s = t) ∧
    (∀ s ∈ st.arguments, s.arg.names.Nodup) := by
  have hi := h.reachable.inv
  have ho := h.owned
  have h1 : ∀ s ∈ st.arguments, ∀ n ∈ s.arg.names, st.getArgument n = .ok s :=
    fun s hs n hn => getArgument_of_entry hi hs (ho.own s hs n hn)
  refine ⟨h1, fun s hs t ht n hn hm => ?_, ho.nodup⟩
  have := (h1 s hs n hn).symm.trans (h1 t ht n hm)
  simpa using this

/-- Non-trivial histories satisfy the restriction. -/
example : ReachableBy demoScan CleanAdds
    (step demoScan (step demoScan (State.init (D := Unit)) (.add ["-a".toList, "--all".toList])).1 (.parse ["prog".toList, "-a".toList, "x".toList])).1 := by
  refine .step _ (.step _ .init rfl ?_) (by decide +kernel) trivial
  intro n hn; rfl

/-- C07, the other histories: whenever `addArgument` accepts a flag that is already in use, the new argument
lists that flag although looking it up still leads to the other argument. -/
theorem C07_reused_flag {scan : Str → Option D} {st st' : State D} (h : Reachable scan st) {nof : List Str}
    {ref : Nat} (hr : st.addArgument nof = (st', .ok ref)) {n : Str} (hn : n ∈ nof)
    (hu : st.argumentExists n = true) :
    ∃ s ∈ st'.arguments, s.obj = ref ∧ n ∈ s.arg.names ∧
      ∃ t ∈ st'.arguments, t.obj ≠ ref ∧ n ∈ t.arg.names ∧ st'.getArgument n = .ok t := by
  obtain ⟨s, names, h1, h2, _, h4, _, h6, h7, _, _, h10, _⟩ := C06_add_effect h hr
  refine ⟨s, h7.mem_iff.2 (List.mem_cons_self ..), h1, ?_, ?_⟩
  · rw [h4]
    have : n ∈ names := (h6 n).2 hn
    unfold freshArgument
    split <;> exact this
  · obtain ⟨t, ht, e, hm, _⟩ := getArgument_exists h.inv hu
    refine ⟨t, h7.mem_iff.2 (List.mem_cons_of_mem _ ht), h2 t ht, hm, ?_⟩
    rw [h10 n, if_pos hu, e]

example : (demo.addArgument ["--x".toList, "-o".toList]).2 = .ok 3 ∧ demo.argumentExists "-o".toList = true := by
  decide +kernel

/-! ### C08 -/

/-- C08, refusals: on a live argument, `flag` throws `ArgumentException` exactly for positionals, malformed
flags and flags in use, and then changes nothing; otherwise it returns. -/
theorem C08_flag_refused {scan : Str → Option D} {st : State D} (h : Reachable scan st) {s : Slot D}
    (hs : s ∈ st.arguments) (f : Str) :
    ((s.arg.isPositional = true ∨ ¬FlagForm f ∨ st.argumentExists f = true) ∧
      ∃ msg, st.flag s.obj f = (st, .throw ⟨.argument, f, msg⟩)) ∨
    (s.arg.isPositional = false ∧ FlagForm f ∧ st.argumentExists f = false ∧
      (st.flag s.obj f).2 = .ok ()) := by
  have hi := h.inv
  rcases flag_outcome hi (State.atObj_of_mem hi.objs hs) f with ⟨h1, e⟩ | ⟨_, m, h2, e⟩ | ⟨_, _, h3, e⟩ | ⟨h1, h2, h3, e, _⟩
  · exact .inl ⟨.inl h1, _, e⟩
  · refine .inl ⟨.inr (.inl fun hf => ?_), _, e⟩
    rw [(C03_flag_syntax f).2 hf] at h2; cases h2
  · exact .inl ⟨.inr (.inr h3), _, e⟩
  · exact .inr ⟨h1, h2, by unfold State.argumentExists; rw [h3]; rfl, by rw [e]⟩

/-- C08, effect: the argument gets the new flag (and keeps the others), which resolves to it; nothing else
changes, except possibly the place of the argument in the listing. -/
theorem C08_flag_effect {scan : Str → Option D} {st st' : State D} (h : Reachable scan st) {s : Slot D}
    (hs : s ∈ st.arguments) {f : Str} (hr : st.flag s.obj f = (st', .ok ())) :
    ∃ names : List Str, names.Perm (f :: s.arg.names) ∧
      st'.arguments.Perm (st.arguments.map fun t =>
        if t.obj = s.obj then { t with arg := { t.arg with names := names } } else t) ∧
      (∀ n, st'.argumentExists n = (st.argumentExists n || n == f)) ∧
      st'.resolve f = some s.obj ∧
      (∀ n, n ≠ f → st'.resolve n = st.resolve n) ∧
      st' = { st with arguments := st'.arguments, byName := st'.byName } := by
  have hi := h.inv
  rcases flag_outcome hi (State.atObj_of_mem hi.objs hs) f with ⟨h1, e⟩ | ⟨_, m, h2, e⟩ | ⟨_, _, h3, e⟩ | ⟨h1, h2, h3, e, hi'⟩
  · rw [hr] at e; cases e
  · rw [hr] at e; cases e
  · rw [hr] at e; cases e
  · rw [hr] at e hi'
    simp only [Prod.mk.injEq, and_true] at e
    simp only at hi'
    have hargs : st'.arguments.Perm (updNode st.arguments s.node fun a => { a with names := sortNames (a.names ++ [f]) }) := by
      rw [e]; exact stableSort_perm _
    have hby : ∀ n, lookupName st'.byName n = (lookupName st.byName n).or (if n = f then some s.node else none) := by
      intro n; rw [e]; exact insertName_lookup ..
    have hkeep : ∀ t ∈ st.arguments, ∃ t' ∈ st'.arguments, t'.node = t.node ∧ t'.obj = t.obj := by
      intro t ht
      refine ⟨_, hargs.mem_iff.2 (List.mem_map.2 ⟨t, ht, rfl⟩), ?_, ?_⟩ <;> split <;> rfl
    refine ⟨sortNames (s.arg.names ++ [f]), ?_, ?_, ?_, ?_, ?_, ?_⟩
    · exact (stableSort_perm _).trans List.perm_append_comm
    · refine hargs.trans (List.Perm.of_eq ?_)
      unfold updNode
      refine List.map_congr_left fun t ht => ?_
      by_cases hn : t.node = s.node
      · obtain rfl := eq_of_node hi hs ht hn
        simp
      · have : t.obj ≠ s.obj := fun ho => hn (by rw [eq_of_obj hi hs ht ho])
        simp [hn, this]
    · intro n
      unfold State.argumentExists
      rw [hby]
      by_cases hn : n = f
      · subst hn; simp
      · simp [hn]
    · obtain ⟨t', ht', en, eo⟩ := hkeep s hs
      rw [← eo]
      refine resolve_of_entry hi' ht' ?_
      rw [hby, h3, en]; simp
    · intro n hn
      cases hl : lookupName st.byName n with
      | none =>
        rw [resolve_none hl, resolve_none]
        rw [hby, hl]; simp [hn]
      | some v =>
        obtain ⟨t, ht, en, _⟩ := hi.entries _ (lookupName_mem hl)
        simp only at en
        subst en
        obtain ⟨t', ht', en', eo⟩ := hkeep t ht
        rw [resolve_of_entry hi ht hl, ← eo]
        refine resolve_of_entry hi' ht' ?_
        rw [hby, hl, en']; rfl
    · rw [e]; rfl

example : (demo.flag 0 "--more".toList).2 = .ok () := by decide +kernel

/-! ### C09, C10 -/

/-- C10. `removeArguments` throws on an empty list or on an unknown name (the first one is named) and then
changes nothing; on registered names it is undefined behaviour exactly when a name is repeated and
otherwise returns. -/
theorem C10_remove_outcome {scan : Str → Option D} {st : State D} (h : Reachable scan st) (names : List Str) :
    (names = [] ∧ st.removeArguments names = (st, .throw ⟨.argument, [], "invalid empty flag".toList⟩)) ∨
    (∃ before n after, names = before ++ n :: after ∧ (∀ m ∈ before, st.argumentExists m = true) ∧
      st.argumentExists n = false ∧
      st.removeArguments names = (st, .throw ⟨.argument, n, "argument not found".toList⟩)) ∨
    (names ≠ [] ∧ (∀ n ∈ names, st.argumentExists n = true) ∧ ¬names.Nodup ∧
      ∃ w, (st.removeArguments names).2 = .ub w) ∨
    (names ≠ [] ∧ (∀ n ∈ names, st.argumentExists n = true) ∧ names.Nodup ∧
      (st.removeArguments names).2 = .ok ()) := by
  rcases removeArguments_cases h.inv names with h1 | ⟨n, h1, h2⟩ | h1 | h1
  · exact .inl h1
  · refine .inr (.inl ?_)
    rw [List.find?_eq_some_iff_append] at h1
    obtain ⟨h3, as, bs, h4, h5⟩ := h1
    exact ⟨as, n, bs, h4, fun m hm => by simpa using h5 m hm, by simpa using h3, h2⟩
  · exact .inr (.inr (.inl h1))
  · exact .inr (.inr (.inr h1))

/-- All four outcomes occur. -/
example : (demo.removeArguments []).2.goesOn = true ∧
    (demo.removeArguments ["-o".toList, "-x".toList]).2.goesOn = true ∧
    (demo.removeArguments ["-o".toList, "-o".toList]).2.goesOn = false ∧
    (demo.removeArguments ["-o".toList, "file".toList]).2 = .ok () := by decide +kernel

/-- C09. After a successful `removeArguments`: exactly the given names have become unknown and the others
resolve as before; an argument has disappeared exactly when no name resolving to it is left; the surviving
arguments only lost, among their names, the removed names that resolved to them. -/
theorem C09_remove_effect {scan : Str → Option D} {st st' : State D} (h : Reachable scan st) {names : List Str}
    (hr : st.removeArguments names = (st', .ok ())) :
    (∀ n, st'.argumentExists n = (st.argumentExists n && !names.contains n)) ∧
    (∀ n, n ∉ names → st'.resolve n = st.resolve n) ∧
    (∀ s ∈ st.arguments, (∃ s' ∈ st'.arguments, s'.obj = s.obj) ↔ ∃ n, n ∉ names ∧ st.resolve n = some s.obj) ∧
    (∀ s' ∈ st'.arguments, ∃ s ∈ st.arguments, s'.obj = s.obj ∧
      s'.arg = { s.arg with names := s'.arg.names } ∧ s'.arg.names.Sublist s.arg.names ∧
      (∀ n ∈ s.arg.names, n ∉ s'.arg.names → n ∈ names ∧ st.resolve n = some s.obj) ∧
      (s.arg.names.Nodup → ∀ n ∈ names, st.resolve n = some s.obj → n ∉ s'.arg.names)) := by
  have hi := h.inv
  have hcase := removeArguments_cases hi names
  rw [hr] at hcase
  rcases hcase with ⟨_, h1⟩ | ⟨n, _, h1⟩ | ⟨_, _, _, w, h1⟩ | ⟨hne, hall, hnd, _⟩
  · cases h1
  · cases h1
  · cases h1
  obtain ⟨st'', e, hi', hb, ha⟩ := removeArguments_ok hi hne hnd hall
  rw [hr] at e
  obtain rfl : st' = st'' := by simpa using e
  have hlook : ∀ n, lookupName st'.byName n = if n ∈ names then none else lookupName st.byName n := by
    intro n
    rw [hb]
    by_cases hn : n ∈ names
    · rw [if_pos hn, lookupName_none]
      intro p hp e
      rw [List.mem_filter] at hp
      have := hp.2
      rw [e] at this
      simp [hn] at this
    · rw [if_neg hn]
      cases hl : lookupName st.byName n with
      | none =>
        rw [lookupName_none] at hl ⊢
        exact fun p hp => hl p (List.mem_filter.1 hp).1
      | some v =>
        refine lookupName_of_mem (hi.keys.sublist (List.filter_sublist.map _)) ?_
        rw [List.mem_filter]
        exact ⟨lookupName_mem hl, by simpa using hn⟩
  have hmem : ∀ s' ∈ st'.arguments, ∃ t ∈ st.arguments, s' = { t with arg := { t.arg with
      names := (names.filter fun n => lookupName st.byName n == some t.node).foldl List.erase t.arg.names } } ∧
      ∃ n, n ∉ names ∧ lookupName st.byName n = some t.node := by
    intro s' hs
    rw [ha, mem_stableSort, List.mem_filterMap] at hs
    obtain ⟨t, ht, e⟩ := hs
    unfold afterRemove at e
    split at e
    next hany =>
      cases e
      refine ⟨t, ht, rfl, ?_⟩
      rw [List.any_eq_true] at hany
      obtain ⟨p, hp, hp2⟩ := hany
      simp only [Bool.and_eq_true, beq_iff_eq, Bool.not_eq_true'] at hp2
      refine ⟨p.1, by simpa using hp2.2, ?_⟩
      rw [← hp2.1]
      exact lookupName_of_mem hi.keys hp
    · cases e
  have hsurv : ∀ t ∈ st.arguments, (∃ n, n ∉ names ∧ lookupName st.byName n = some t.node) →
      ∃ s' ∈ st'.arguments, s'.obj = t.obj ∧ s'.node = t.node := by
    rintro t ht ⟨n, hn, hl⟩
    have : afterRemove names st.byName t = some { t with arg := { t.arg with
      names := (names.filter fun n => lookupName st.byName n == some t.node).foldl List.erase t.arg.names } } := by
      unfold afterRemove
      rw [if_pos]
      rw [List.any_eq_true]
      exact ⟨_, lookupName_mem hl, by simpa using hn⟩
    have hm : ({ t with arg := { t.arg with
      names := (names.filter fun n => lookupName st.byName n == some t.node).foldl List.erase t.arg.names } } :
        Slot D) ∈ st'.arguments := by
      rw [ha, mem_stableSort, List.mem_filterMap]
      exact ⟨t, ht, this⟩
    exact ⟨_, hm, rfl, rfl⟩
  refine ⟨?_, ?_, ?_, ?_⟩
  · intro n
    unfold State.argumentExists
    rw [hlook]
    by_cases hn : n ∈ names <;> simp [hn]
  · intro n hn
    cases hl : lookupName st.byName n with
    | none => rw [resolve_none hl, resolve_none]; rw [hlook, if_neg hn, hl]
    | some v =>
      obtain ⟨t, ht, en, _⟩ := hi.entries _ (lookupName_mem hl)
      simp only at en
      subst en
      obtain ⟨s', hs', eo, en⟩ := hsurv t ht ⟨n, hn, hl⟩
      rw [resolve_of_entry hi ht hl, ← eo]
      refine resolve_of_entry hi' hs' ?_
      rw [hlook, if_neg hn, hl, en]
  · intro s hs
    constructor
    · rintro ⟨s', hs', eo⟩
      obtain ⟨t, ht, rfl, n, hn, hl⟩ := hmem s' hs'
      obtain rfl := eq_of_obj hi hs ht eo
      exact ⟨n, hn, resolve_of_entry hi hs hl⟩
    · rintro ⟨n, hn, hl⟩
      obtain ⟨s', hs', eo, _⟩ := hsurv s hs ⟨n, hn, (resolve_iff hi hs).1 hl⟩
      exact ⟨s', hs', eo⟩
  · intro s' hs'
    obtain ⟨t, ht, rfl, _⟩ := hmem s' hs'
    refine ⟨t, ht, rfl, rfl, foldl_erase_sublist _ _, ?_, ?_⟩
    · intro n hn hnot
      simp only at hnot
      have key : ∀ (l rm : List Str), n ∈ l → n ∉ rm → n ∈ rm.foldl List.erase l := by
        intro l rm
        induction rm generalizing l with
        | nil => intro h _; exact h
        | cons r rm ih =>
          intro h1 h2
          simp only [List.mem_cons, not_or] at h2
          exact ih _ ((List.mem_erase_of_ne h2.1).2 h1) h2.2
      by_cases hf : n ∈ names.filter fun n => lookupName st.byName n == some t.node
      · rw [List.mem_filter] at hf
        exact ⟨hf.1, (resolve_iff hi ht).2 (by simpa using hf.2)⟩
      · exact absurd (key _ _ hn hf) hnot
    · intro hnd' n hn hl
      simp only
      rw [mem_foldl_erase hnd']
      intro hx
      exact hx.2 (List.mem_filter.2 ⟨hn, by simpa using (resolve_iff hi ht).1 hl⟩)

end BletArgs
