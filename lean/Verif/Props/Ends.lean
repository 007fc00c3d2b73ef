import Verif.Lemmas.Removals
import Verif.Props.Safe
import Verif.Props.Writes
/-
C58: which references a removal ends. C67: the lists written before the culprit.
-/
namespace BletArgs
open Spec
variable {D : Type}

theorem argumentExists_lookup {st : State D} {n : Str} (h : st.argumentExists n = true) :
    (lookupName st.byName n).isSome = true := by
  unfold State.argumentExists at h
  exact h

theorem lookup_filter_other {rm : List Str} {m : List (Str × Nat)} {n : Str} (hn : n ∉ rm) :
    lookupName (m.filter (fun p => !rm.contains p.1)) n = lookupName m n := by
  induction m with
  | nil => rfl
  | cons p m ih =>
    have hlu : ∀ (m : List (Str × Nat)), lookupName (p :: m) n = if p.1 = n then some p.2 else lookupName m n := by
      intro m
      unfold lookupName
      rw [List.find?_cons]
      by_cases h : p.1 = n
      · simp [h]
      · have : (p.1 == n) = false := by simpa using h
        simp [h, this]
    rw [List.filter_cons, hlu]
    split
    · rw [hlu, ih]
    · rename_i hc
      have : p.1 ≠ n := by
        rintro rfl
        apply hc
        simpa using hn
      rw [if_neg this, ih]

/-- C58, removals. A call of `removeArguments` ends the life of a reference exactly when it returns and was given every
name that led to it; any name it was not given still leads where it did. -/
theorem C58_removal {scan : Str → Option D} {st : State D} (hr : Reachable scan st) (ns : List Str)
    (hg : (step scan st (.remove ns)).2.goesOn = true) {ref : Nat} (h : st.atObj ref ≠ none) :
    ((step scan st (.remove ns)).1.atObj ref ≠ none ↔
      (step scan st (.remove ns)).2 ≠ .ok () ∨ ∃ n, st.resolve n = some ref ∧ n ∉ ns) ∧
    ∀ n, n ∉ ns → (step scan st (.remove ns)).1.resolve n = st.resolve n := by
  have hi := hr.inv
  change (st.removeArguments ns).2.goesOn = true at hg
  change ((st.removeArguments ns).1.atObj ref ≠ none ↔
      (st.removeArguments ns).2 ≠ .ok () ∨ ∃ n, st.resolve n = some ref ∧ n ∉ ns) ∧
    ∀ n, n ∉ ns → (st.removeArguments ns).1.resolve n = st.resolve n
  rcases removeArguments_cases hi ns with ⟨-, e⟩ | ⟨n, -, e⟩ | ⟨-, -, -, w, e⟩ | ⟨hne, hex, hnd, e⟩
  · rw [e]
    exact ⟨⟨fun _ => .inl (by simp), fun _ => h⟩, fun _ _ => rfl⟩
  · rw [e]
    exact ⟨⟨fun _ => .inl (by simp), fun _ => h⟩, fun _ _ => rfl⟩
  · rw [e] at hg; cases hg
  · obtain ⟨-, hi', r, -⟩ := Removed.statement hi hne hnd (fun n hn => argumentExists_lookup (hex n hn))
    obtain ⟨s, hs'⟩ := Option.ne_none_iff_exists'.1 h
    obtain ⟨hs, rfl⟩ := State.atObj_some hs'
    have hlk : ∀ n, n ∉ ns → lookupName (st.removeArguments ns).1.byName n = lookupName st.byName n := by
      intro n hn
      rw [r.map]
      exact lookup_filter_other hn
    refine ⟨?_, ?_⟩
    · rw [e]
      constructor
      · intro h1
        right
        obtain ⟨x, hx'⟩ := Option.ne_none_iff_exists'.1 h1
        obtain ⟨hx, ho⟩ := State.atObj_some hx'
        obtain ⟨t, ht, e1⟩ := (r.mem x).1 hx
        have : t = s := inj_of_nodup Slot.obj hi.objs ht hs (by rw [← (afterRemove_some e1).2.1, ho])
        subst this
        obtain ⟨k, _, hk⟩ := hi'.named x hx
        have hk' := hk
        rw [r.map, List.mem_filter] at hk
        have hkn : k ∉ ns := by simpa using hk.2
        refine ⟨k, ?_, hkn⟩
        rw [resolve_iff hi ht]
        rw [(afterRemove_some e1).1] at hk
        exact lookupName_of_mem hi.keys hk.1
      · rintro (h1 | ⟨n, h1, h2⟩)
        · exact absurd rfl h1
        · rw [resolve_iff hi hs] at h1
          have hm : (n, s.node) ∈ (st.removeArguments ns).1.byName := by
            rw [r.map, List.mem_filter]
            exact ⟨lookupName_mem h1, by simpa using h2⟩
          obtain ⟨x, hx, e1, -⟩ := hi'.entries _ hm
          obtain ⟨t, ht, e2⟩ := (r.mem x).1 hx
          have : t = s := inj_of_nodup Slot.node hi.nodes ht hs (by rw [← (afterRemove_some e2).1]; simpa using e1)
          subst this
          rw [← (afterRemove_some e2).2.1, State.atObj_of_mem hi'.objs hx]
          simp
    · intro n hn
      cases hl : lookupName st.byName n with
      | none => rw [resolve_none hl, resolve_none ((hlk n hn).trans hl)]
      | some v =>
        obtain ⟨t, ht, e1, _⟩ := hi.entries _ (lookupName_mem hl)
        simp only at e1
        subst e1
        rw [resolve_of_entry hi ht hl]
        have hl' := (hlk n hn).trans hl
        obtain ⟨x, hx, e2, -⟩ := hi'.entries _ (lookupName_mem hl')
        simp only at e2
        rw [← e2] at hl'
        rw [resolve_of_entry hi' hx hl']
        obtain ⟨u, hu, e3⟩ := (r.mem x).1 hx
        have : u = t := inj_of_nodup Slot.node hi.nodes hu ht (by rw [← (afterRemove_some e3).1, e2])
        subst this
        rw [(afterRemove_some e3).2.1]

/-- Giving up one of two names keeps the reference, giving up both ends it; an unknown name refuses the call. -/
example :
    (step demoScan parser (.remove ["-o".toList])).2 = .ok () ∧ (step demoScan parser (.remove ["-o".toList])).1.atObj 0 ≠ none ∧
    (step demoScan parser (.remove ["-o".toList, "--out".toList])).2 = .ok () ∧
    (step demoScan parser (.remove ["-o".toList, "--out".toList])).1.atObj 0 = none ∧
    (step demoScan parser (.remove ["-o".toList, "--out".toList, "-zz".toList])).2 ≠ .ok () := by
  refine ⟨?_, ?_, ?_, ?_, ?_⟩ <;> decide +kernel

/-- What an interrupted call has written to the variable of an argument listed before the culprit. -/
theorem stopped_writes {scan : Str → Option D} {st : State D} {argv : List Str} (h : Ready scan st argv)
    {evs : List Event} (hl : Line st.sig st.places (argv.drop 1) evs none) (hq : Silent st evs) (hm : NoneMissing st evs)
    {l1 l2 : List (Slot D)} {s : Slot D} (hst : st.arguments = l1 ++ s :: l2)
    (hbefore : ∀ t ∈ l1, Passes t evs ∧ Returning t) (hbad : ¬Passes s evs)
    {t : Slot D} (ht : t ∈ l1) {d : Dest} (hd : t.arg.dest = some d) (hown : OwnSlot st t d) :
    ∃ t' log, (st.parseArguments scan argv).1.atObj t.obj = some t' ∧ t'.arg.type = t.arg.type ∧
      t'.arg.dest = some d ∧ t'.arg.nargs = t.arg.nargs ∧ (d.custom = true ∨ d.supported = true) ∧
      (st.parseArguments scan argv).1.destLog = st.destLog ++ log ∧ writesTo d.slot log = t'.arg.toDest.1 := by
  have hi := h.inv
  have hmem : ∀ t ∈ l1, t ∈ st.arguments := fun t ht => by rw [hst]; simp [ht]
  have hcfg : ∀ t : Slot D, ((t.arg.afterTokens t.node evs).finished scan).config = t.arg.config := fun t =>
    (Argument.finish_config scan _).trans (afterTokens_config t.node evs t.arg)
  have hfin : ∀ t ∈ l1, ((t.arg.afterTokens t.node evs).finish scan).2.1 =
      ((t.arg.afterTokens t.node evs).finished scan).toDest.1 := fun t ht =>
    finish_writes scan _ ((passes_iff hi (hmem t ht) scan hl (hbefore t ht).2).2 (hbefore t ht).1)
  have hslot : ∀ t ∈ l1, ∀ w ∈ ((t.arg.afterTokens t.node evs).finish scan).2.1, ∃ d, t.arg.dest = some d ∧ w.slot = d.slot := by
    intro t ht w hw
    rw [hfin t ht] at hw
    obtain ⟨d, e1, e2⟩ := toDest_slot _ w hw
    exact ⟨d, ((congrArg (fun x : Argument D => x.dest) (hcfg t) :).symm.trans e1), e2⟩
  obtain ⟨⟨rest, g1⟩, g2⟩ := parse_stopped h hl hq hm hst hbefore hbad
  have hat : (st.parseArguments scan argv).1.atObj t.obj =
      some { t with arg := (t.arg.afterTokens t.node evs).finished scan } := by
    have := State.atObj_of_mem hi.objs (hmem t ht)
    unfold State.atObj at this ⊢
    rw [hst, List.find?_append] at this
    have hin : l1.find? (fun x => x.obj == t.obj) = some t := by
      cases hf : l1.find? (fun x => x.obj == t.obj) with
      | some u => rw [hf] at this; exact this
      | none => rw [List.find?_eq_none] at hf; exact absurd (beq_self_eq_true t.obj) (hf t ht)
    rw [g1, List.find?_append, List.find?_map]
    rw [show ((fun x : Slot D => x.obj == t.obj) ∘ fun s : Slot D => { s with arg := (s.arg.afterTokens s.node evs).finished scan }) =
      fun x => x.obj == t.obj from rfl, hin]
    rfl
  have hde : ((t.arg.afterTokens t.node evs).finished scan).dest = some d :=
    ((congrArg (fun x : Argument D => x.dest) (hcfg t) :)).trans hd
  refine ⟨_, _, hat, (congrArg (fun x : Argument D => x.type) (hcfg t) :), hde,
    (congrArg (fun x : Argument D => x.nargs) (hcfg t) :), (hbefore t ht).1.dest d hd, g2, ?_⟩
  unfold writesTo
  rw [List.filter_flatMap]
  have hnd : (l1.map (·.node)).Nodup := by
    have := hi.nodes
    rw [hst, List.map_append] at this
    exact (List.nodup_append.1 this).1
  rw [flatMap_own ht hnd]
  · rw [hfin t ht]
    refine filter_all fun w hw => ?_
    obtain ⟨d', e1, e2⟩ := toDest_slot _ w hw
    rw [hde] at e1
    cases e1
    rw [e2]; simp
  · intro u hu hne
    refine filter_none fun w hw => ?_
    obtain ⟨d', e1, e2⟩ := hslot u hu w hw
    have := hown u (hmem u hu) hne d' e1
    rw [e2]
    simpa using this

/-- C67, the lists before the culprit. When the validator of an argument refuses, or its destination has no conversion,
the vectors of the arguments listed before it have been given exactly what a call that returns gives them (C49): the
strings, or the groups, of the argument, in order, or the one call of its own conversion with them. -/
theorem C67_lists_up_to_culprit {scan : Str → Option D} {st : State D} {argv : List Str} (h : Ready scan st argv)
    {evs : List Event} (hl : Line st.sig st.places (argv.drop 1) evs none) (hq : Silent st evs) (hm : NoneMissing st evs)
    {l1 l2 : List (Slot D)} {s : Slot D} (hst : st.arguments = l1 ++ s :: l2)
    (hbefore : ∀ t ∈ l1, Passes t evs ∧ Returning t) (hbad : ¬Passes s evs)
    {t : Slot D} (ht : t ∈ l1) {d : Dest} (hd : t.arg.dest = some d) (hown : OwnSlot st t d) :
    ∃ t' log, (st.parseArguments scan argv).1.atObj t.obj = some t' ∧
      (st.parseArguments scan argv).1.destLog = st.destLog ++ log ∧
      -- no list: the single value
      (t'.arg.elems = [] →
        (d.kind = .vector → writesTo d.slot log =
          if d.custom then [.callVector d.slot t'.arg.isExist [t'.arg.argument]] else [.append d.slot t'.arg.singleValue]) ∧
        (d.kind = .vecvec → writesTo d.slot log =
          if d.custom then [.callVecVec d.slot t'.arg.isExist [[t'.arg.argument]]] else [.appendVec d.slot [t'.arg.singleValue]])) ∧
      -- a list of strings
      (ListKind t.arg.type → Shaped t'.arg → ∀ vs, t'.arg.toVector = some vs → vs ≠ [] →
        (d.kind = .vector → writesTo d.slot log =
          if d.custom then [.callVector d.slot t'.arg.isExist vs] else vs.map fun v => .append d.slot (.temp v)) ∧
        (d.kind = .vecvec → writesTo d.slot log =
          if d.custom then [.callVecVec d.slot t'.arg.isExist (vs.map fun v => [v])]
          else vs.map fun v => .appendVec d.slot [.temp v])) ∧
      -- a list of groups
      (GroupKind t.arg.type → Shaped t'.arg → ∀ gs, t'.arg.toVecVec = some gs → gs ≠ [] →
        (d.kind = .vector → writesTo d.slot log =
          if d.custom then [.callVector d.slot t'.arg.isExist gs.flatten] else gs.flatten.map fun v => .append d.slot (.temp v)) ∧
        (d.kind = .vecvec → writesTo d.slot log =
          if d.custom then [.callVecVec d.slot t'.arg.isExist gs] else gs.map fun g => .appendVec d.slot (g.map .temp))) := by
  obtain ⟨t', log, h1, h2, h3, hn, h5, h6, h7⟩ := stopped_writes h hl hq hm hst hbefore hbad ht hd hown
  have hs : t ∈ st.arguments := by rw [hst]; simp [ht]
  refine ⟨t', log, h1, h6, ?_, ?_, ?_⟩
  · intro he
    rw [h7]
    unfold Argument.toDest
    rw [h3, ← scalarSrc_eq]
    cases hc : d.custom with
    | true => refine ⟨fun hk => ?_, fun hk => ?_⟩ <;> simp [hk, hc, he]
    | false =>
      have hsup : d.supported = true := by simpa [hc] using h5
      refine ⟨fun hk => ?_, fun hk => ?_⟩ <;> simp [hk, hc, hsup, he]
  · intro ht hsh vs hvs hne
    obtain ⟨e2, e3, hne'⟩ := list_strings h2 ht hsh hvs hne
    rw [h7]
    unfold Argument.toDest
    rw [h3]
    cases hc : d.custom with
    | true => refine ⟨fun hk => ?_, fun hk => ?_⟩ <;> simp [hk, hc, hne', e2, e3]
    | false =>
      have hsup : d.supported = true := by simpa [hc] using h5
      refine ⟨fun hk => ?_, fun hk => ?_⟩
      · simp only [hk, hc, hsup, hne', e3, if_true, Bool.false_eq_true, if_false]
      · simp only [hk, hc, hsup, hne', e2, if_true, Bool.false_eq_true, if_false, List.map_map]
        rfl
  · intro ht hsh gs hgs hne
    obtain ⟨e2, e3, hne'⟩ := group_strings (h.settled t hs) hn h2 ht hsh hgs hne
    rw [h7]
    unfold Argument.toDest
    rw [h3]
    cases hc : d.custom with
    | true => refine ⟨fun hk => ?_, fun hk => ?_⟩ <;> simp [hk, hc, hne', e2, e3]
    | false =>
      have hsup : d.supported = true := by simpa [hc] using h5
      refine ⟨fun hk => ?_, fun hk => ?_⟩
      · simp only [hk, hc, hsup, hne', e3, if_true, Bool.false_eq_true, if_false]
      · simp only [hk, hc, hsup, hne', e2, if_true, Bool.false_eq_true, if_false]

/-- A list and groups with vectors, then a validator that refuses: both vectors have been given their strings. -/
example :
    let ops : List Op := [.dest 4 ⟨0, .vector, false, true, fun _ => none⟩, .dest 6 ⟨1, .vecvec, false, true, fun _ => none⟩,
      .add ["-t".toList], .valid 14 (some ⟨0, fun vs => if vs = ["good".toList] then .accept vs else .reject⟩) true];
    let st := runOps demoScan parser ops;
    let argv := ["prog", "-t", "bad", "-g", "1", "2", "-l", "x", "y", "-g", "3", "4", "-o", "z", "IN"].map String.toList;
    (Ready demoScan st argv ∧ (st.parseArguments demoScan argv).2 ≠ .ok () ∧
    (st.parseArguments demoScan argv).1.destLog =
      [.appendVec 1 [.temp "1".toList, .temp "2".toList], .appendVec 1 [.temp "3".toList, .temp "4".toList],
        .append 0 (.temp "x".toList), .append 0 (.temp "y".toList)]) := by
  exact ⟨.of_history (reachableBy_runOps parser_history _ (by decide +kernel)) (by decide +kernel) (by decide)
    ⟨"prog".toList, rfl, by decide +kernel⟩, by decide +kernel, by decide +kernel⟩

end BletArgs
