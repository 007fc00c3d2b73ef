import Verif.Props.Writes
import Verif.Lemmas.Aim
/-
C73: callbacks that throw; C74: destinations have no influence on the parse.
-/
namespace BletArgs
open Spec
variable {D : Type}

theorem autoHelp_log (st : State D) : st.autoHelp.1.destLog = st.destLog := by
  unfold State.autoHelp
  split
  · split
    · rfl
    · have h1 := addArgument_log st ((if st.argumentExists "-h".toList then [] else ["-h".toList]) ++
        (if st.argumentExists "--help".toList then [] else ["--help".toList]))
      simp only
      generalize st.addArgument _ = x at h1 ⊢
      obtain ⟨u, res⟩ := x
      cases res with
      | ok ref =>
        simp only
        have h2 := action_log u ref .help
        generalize u.action ref .help = y at h2 ⊢
        obtain ⟨w, res⟩ := y
        cases res with
        | ok _ =>
          simp only
          have h3 := setHelp_log w ref "show this help message and exit".toList
          generalize w.setHelp ref _ = z at h3 ⊢
          obtain ⟨z, res⟩ := z
          cases res <;> exact h3.trans (h2.trans h1)
        | _ => exact h2.trans h1
      | _ => exact h1
  · rfl

theorem setBinary_log (st : State D) (argv : List Str) : (st.setBinaryIfEmpty argv).1.destLog = st.destLog := by
  unfold State.setBinaryIfEmpty
  split
  · split <;> rfl
  · rfl

/-- A parse does not look at the destinations before the last loop. -/
theorem Aim.parse {k0 : Option Dest → Option Dest} (h0 : k0 none = none) (scan : Str → Option D) (st : State D) (argv : List Str) :
    ((st.aim k0).parseArguments scan argv = Aim.out k0 (st.parseArguments scan argv) ∧
      (st.parseArguments scan argv).1.destLog = st.destLog) ∨
    ∃ st3 : State D, st3.destLog = st.destLog ∧ st.parseArguments scan argv = Aim.finishing scan st3 ∧
      (st.aim k0).parseArguments scan argv = Aim.finishing scan (st3.aim k0) := by
  unfold State.parseArguments
  rw [Aim.resetAll, Aim.autoHelp h0]
  have h1 := autoHelp_log st.resetAll
  generalize st.resetAll.autoHelp = x at h1 ⊢
  obtain ⟨st1, res⟩ := x
  have h1 : st1.destLog = st.destLog := h1
  cases res with
  | ok b =>
    cases b with
    | false => exact .inl ⟨rfl, h1⟩
    | true =>
      simp only [Aim.out]
      rw [Aim.setBinary]
      have h2 := (setBinary_log st1 argv).trans h1
      generalize st1.setBinaryIfEmpty argv = x at h2 ⊢
      obtain ⟨st2, res⟩ := x
      cases res with
      | ok u =>
        simp only [Aim.out]
        have el : (st2.aim k0).loopBudget argv = st2.loopBudget argv := by
          unfold State.loopBudget State.aim
          rw [List.length_map]
        rw [el, Aim.mainLoop]
        have h3 := (mainLoop_log argv (endOptionIndex argv) (st2.loopBudget argv) 1 st2).trans h2
        generalize State.mainLoop argv (endOptionIndex argv) (st2.loopBudget argv) 1 st2 = x at h3 ⊢
        obtain ⟨st3, res⟩ := x
        cases res with
        | ok u =>
          simp only [Aim.out]
          rcases Aim.afterLoop (k0 := k0) scan st3 with ⟨e1, e2⟩ | ⟨e1, e2⟩
          · exact .inl ⟨e1, e2.trans h3⟩
          · exact .inr ⟨st3, h3, e1, e2⟩
        | _ => exact .inl ⟨rfl, h3⟩
      | _ => exact .inl ⟨rfl, h2⟩
  | _ => exact .inl ⟨rfl, h1⟩

theorem Aim.finish {k0 : Option Dest → Option Dest} (scan : Str → Option D) (a : Argument D) :
    (a.runValid.2 = .ok () ∧ a.finish scan = (a.finished scan, (a.finished scan).toDest) ∧
      (a.aim k0).finish scan = ((a.finished scan).aim k0, ((a.finished scan).aim k0).toDest)) ∨
    (a.runValid.2 ≠ .ok () ∧ a.finish scan = (a.finished scan, [], a.runValid.2) ∧
      (a.aim k0).finish scan = ((a.finished scan).aim k0, [], a.runValid.2)) := by
  unfold Argument.finished Argument.finish
  rw [Aim.runValid]
  generalize a.runValid = x
  obtain ⟨b, res⟩ := x
  cases res with
  | ok u =>
    refine .inl ⟨rfl, rfl, ?_⟩
    show ((b.aim k0).toNumber scan, ((b.aim k0).toNumber scan).toDest) = _
    rw [Aim.toNumber]
  | _ => exact .inr ⟨(fun h => nomatch h), rfl, rfl⟩

theorem calm_destCall (a : Argument D) (d : Dest) : (a.aim calmly).destCall { d with refuses := fun _ => none } = a.destCall d := rfl

theorem calm_toDest (a : Argument D) :
    ((a.aim calmly).toDest = a.toDest ∧ ∀ d, a.dest = some d → d.custom = true → d.refuses (a.destCall d) = none) ∨
    ∃ d e, a.dest = some d ∧ d.custom = true ∧ d.refuses (a.destCall d) = some e ∧
      a.toDest = ([a.destCall d], .throw e) ∧ (a.aim calmly).toDest = ([a.destCall d], .ok ()) := by
  cases hd : a.dest with
  | none =>
    left
    rw [toDest_none hd, toDest_none (show (a.aim calmly).dest = none by show calmly a.dest = none; rw [hd]; rfl)]
    exact ⟨rfl, fun d e => nomatch e⟩
  | some d =>
    have hd' : (a.aim calmly).dest = some { d with refuses := fun _ => none } := by
      show calmly a.dest = _; rw [hd]; rfl
    cases hc : d.custom with
    | true =>
      rw [toDest_custom hd hc, toDest_custom hd' hc, calm_destCall]
      cases hr : d.refuses (a.destCall d) with
      | none =>
        left
        refine ⟨by unfold Dest.invoke; rw [hr], fun d' e _ => ?_⟩
        cases e; exact hr
      | some e =>
        right
        exact ⟨d, e, rfl, hc, hr, by unfold Dest.invoke; rw [hr], rfl⟩
    | false =>
      left
      refine ⟨?_, fun d' e hc' => ?_⟩
      · unfold Argument.toDest
        rw [hd, hd']
        simp only [hc, Bool.false_eq_true, if_false]
        rfl
      · cases e; rw [hc] at hc'; cases hc'

theorem destCall_slot (a : Argument D) (d : Dest) : (a.destCall d).slot = d.slot := by
  unfold Argument.destCall; split <;> rfl

theorem destCall_of (a : Argument D) (d : Dest) : CallOf a d (a.destCall d) := by
  have single : SingleKind a.type → a.toVector = some [a.argument] := by
    intro h
    unfold Argument.toVector
    rcases h with e | e <;> rw [e]
  have kinds : a.toVector ≠ none → SingleKind a.type ∨ ListKind a.type ∨ GroupKind a.type := by
    unfold SingleKind ListKind GroupKind Argument.toVector
    cases a.type <;> simp
  have flat : ∀ gs, a.toVecVec = some gs → a.toVector = some gs.flatten := by
    intro gs
    unfold Argument.toVector Argument.toVecVec
    cases a.type <;> simp <;> rintro rfl <;> rfl
  unfold CallOf Argument.destCall
  cases hk : d.kind with
  | scalar => exact ⟨_, rfl, single⟩
  | vector =>
    refine ⟨_, rfl, fun hset hsh vs hvs hne => ?_⟩
    rcases kinds (by rw [hvs]; simp) with h | h | h
    · rw [hsh.single h]
      rw [single h] at hvs
      simpa using hvs
    · obtain ⟨_, e2, e3⟩ := list_strings rfl h hsh hvs hne
      rw [e3, e2]
      rfl
    · cases hg : a.toVecVec with
      | none => unfold Argument.toVecVec at hg; rcases h with e | e | e <;> rw [e] at hg <;> cases hg
      | some gs =>
        have hf := flat gs hg
        rw [hvs] at hf
        cases hf
        have hne' : gs ≠ [] := by rintro rfl; exact hne rfl
        obtain ⟨_, e2, e3⟩ := group_strings hset rfl rfl h hsh hg hne'
        rw [e3, e2]
        rfl
  | vecvec =>
    refine ⟨_, rfl, fun hset hsh => ⟨fun h gs hg hne => ?_, fun h vs hvs hne => ?_⟩⟩
    · obtain ⟨e2, _, e3⟩ := group_strings hset rfl rfl h hsh hg hne
      rw [e3, e2]
      rfl
    · rcases kinds (by rw [hvs]; simp) with h' | h' | h'
      · rw [hsh.single h']
        rw [single h'] at hvs
        cases hvs
        rfl
      · obtain ⟨e2, _, e3⟩ := list_strings rfl h' hsh hvs hne
        rw [e3, e2]
        rfl
      · exact absurd h' h

/-- The writes of an argument whose destination does not throw. -/
theorem toDest_accepted {a : Argument D} (h : ∀ d, a.dest = some d → d.custom = true → d.refuses (a.destCall d) = none) :
    ∀ w ∈ a.toDest.1, ∃ d, a.dest = some d ∧ w.slot = d.slot ∧ (d.custom = true → d.refuses w = none ∧ CallOf a d w) := by
  intro w hw
  obtain ⟨d, hd, hs⟩ := toDest_slot a w hw
  refine ⟨d, hd, hs, fun hc => ?_⟩
  rw [toDest_custom hd hc, invoke_fst, List.mem_singleton] at hw
  rw [hw]
  exact ⟨h d hd hc, destCall_of a d⟩

theorem finishAll_slots {scan : Str → Option D} (l : List (Slot D)) :
    ∀ w ∈ (finishAll scan l).2.1, ∃ t ∈ l, ∃ d, t.arg.dest = some d ∧ w.slot = d.slot := by
  have one : ∀ a : Argument D, ∀ w ∈ (a.finish scan).2.1, ∃ d, a.dest = some d ∧ w.slot = d.slot := by
    intro a w hw
    rcases Aim.finish (k0 := id) scan a with ⟨_, e, _⟩ | ⟨_, e, _⟩
    · rw [e] at hw
      obtain ⟨d, hd, hs⟩ := toDest_slot _ w hw
      exact ⟨d, ((congrArg (fun x : Argument D => x.dest) (Argument.finish_config scan a) :)).symm.trans hd, hs⟩
    · rw [e] at hw; simp at hw
  induction l with
  | nil => simp [finishAll]
  | cons s l ih =>
    intro w hw
    unfold finishAll at hw
    have h1 := one s.arg
    generalize s.arg.finish scan = x at hw h1
    obtain ⟨a, ws, res⟩ := x
    cases res with
    | ok u =>
      simp only [List.mem_append] at hw
      rcases hw with hw | hw
      · exact ⟨s, by simp, h1 w hw⟩
      · obtain ⟨t, ht, h⟩ := ih w hw
        exact ⟨t, by simp [ht], h⟩
    | _ => exact ⟨s, by simp, h1 w hw⟩

/-- The last loop with and without throwing callbacks. -/
theorem finishAll_calm {scan : Str → Option D} (l : List (Slot D)) :
    (finishAll scan (l.map (Slot.aim calmly)) = ((finishAll scan l).1.map (Slot.aim calmly), (finishAll scan l).2) ∧
      ∀ w ∈ (finishAll scan l).2.1, ∃ t ∈ (finishAll scan l).1, ∃ d, t.arg.dest = some d ∧ w.slot = d.slot ∧
        (d.custom = true → d.refuses w = none ∧ CallOf t.arg d w)) ∨
    ∃ l1 s l2 d log w e rest, (finishAll scan l).1 = l1 ++ s :: l2 ∧ (finishAll scan l).2 = (log ++ [w], .throw e) ∧
      (s.arg.dest = some d ∧ d.custom = true ∧ w.slot = d.slot ∧ d.refuses w = some e ∧ CallOf s.arg d w) ∧
      (∀ v ∈ log, ∃ t ∈ l1, ∃ d, t.arg.dest = some d ∧ v.slot = d.slot ∧ (d.custom = true → d.refuses v = none ∧ CallOf t.arg d v)) ∧
      (finishAll scan (l.map (Slot.aim calmly))).1.take (l1.length + 1) = (l1 ++ [s]).map (Slot.aim calmly) ∧
      (finishAll scan (l.map (Slot.aim calmly))).2.1 = log ++ w :: rest ∧
      (∀ v ∈ rest, ∃ t ∈ l2, ∃ d, t.arg.dest = some d ∧ v.slot = d.slot) := by
  induction l with
  | nil => exact .inl ⟨rfl, fun w hw => nomatch hw⟩
  | cons s l ih =>
    rw [List.map_cons]
    unfold finishAll
    rw [show (s.aim calmly).arg = s.arg.aim calmly from rfl]
    rcases Aim.finish (k0 := calmly) scan s.arg with ⟨_, e1, e2⟩ | ⟨hne, e1, e2⟩
    · rw [e1, e2]
      rcases calm_toDest (s.arg.finished scan) with ⟨g1, g2⟩ | ⟨d, e, g1, g2, g3, g4, g5⟩
      · rw [g1]
        have hacc := toDest_accepted g2
        rcases toDest_ends (s.arg.finished scan) with hok | ⟨e, hok⟩
        · generalize (s.arg.finished scan).toDest = x at hok hacc
          obtain ⟨ws, res⟩ := x
          simp only at hok hacc
          subst hok
          simp only
          rcases ih with ⟨i1, i2⟩ | ⟨l1, t, l2, d, log, w, e, rest, i1, i2, i3, i4, i5, i6, i7⟩
          · left
            rw [i1]
            refine ⟨rfl, fun w hw => ?_⟩
            rcases List.mem_append.1 hw with hw | hw
            · exact ⟨_, List.mem_cons_self .., hacc w hw⟩
            · obtain ⟨t, ht, h⟩ := i2 w hw
              exact ⟨t, List.mem_cons_of_mem _ ht, h⟩
          · right
            refine ⟨{ s with arg := s.arg.finished scan } :: l1, t, l2, d, ws ++ log, w, e, rest, by rw [i1]; rfl,
              by rw [i2]; simp, i3, ?_, ?_, by rw [i6]; simp, i7⟩
            · intro v hv
              rcases List.mem_append.1 hv with hv | hv
              · exact ⟨_, List.mem_cons_self .., hacc v hv⟩
              · obtain ⟨t, ht, h⟩ := i4 v hv
                exact ⟨t, List.mem_cons_of_mem _ ht, h⟩
            · rw [List.length_cons, List.take_succ_cons, i5]
              rfl
        · generalize (s.arg.finished scan).toDest = x at hok hacc
          obtain ⟨ws, res⟩ := x
          simp only at hok hacc
          subst hok
          exact .inl ⟨rfl, fun w hw => ⟨_, List.mem_cons_self .., hacc w hw⟩⟩
      · rw [g4, g5]
        right
        refine ⟨[], { s with arg := s.arg.finished scan }, l, d, [], _, e, _, rfl, rfl, ⟨g1, g2, destCall_slot _ _, g3, destCall_of _ _⟩,
          fun v hv => (nomatch hv), rfl, rfl, fun v hv => ?_⟩
        obtain ⟨t, ht, d', hd', hs⟩ := finishAll_slots _ v hv
        obtain ⟨t, ht', rfl⟩ := List.mem_map.1 ht
        have : calmly t.arg.dest = some d' := hd'
        unfold calmly at this
        obtain ⟨d'', h1, rfl⟩ := Option.map_eq_some_iff.1 this
        exact ⟨t, ht', d'', h1, hs⟩
    · rw [e1, e2]
      left
      generalize s.arg.runValid.2 = r at hne
      cases r with
      | ok u => exact absurd rfl hne
      | _ => exact ⟨rfl, fun w hw => nomatch hw⟩

/-- C73. Callbacks that throw. Whatever the callbacks given with the destinations do, a call of `parseArguments` goes
exactly as it would if they all returned, up to the first one that throws. Either none throws, and everything is the
same; or one does, and then: its exception leaves `parseArguments` as it is; its own call was the last; the calls and
assignments before it are those of the arguments listed before, none of which threw, and the ones that would have
followed (those of the arguments listed after it) are not made; its argument and those listed before it have their
final values. Each callback gets the occurrence flag and the values of its argument. -/
theorem C73_callback (scan : Str → Option D) (st : State D) (argv : List Str) :
    let r := st.parseArguments scan argv
    let r' := st.calm.parseArguments scan argv
    (r'.2 = r.2 ∧ r'.1 = r.1.calm ∧
      ∃ log, r.1.destLog = st.destLog ++ log ∧
        ∀ v ∈ log, ∃ t ∈ r.1.arguments, ∃ d, t.arg.dest = some d ∧ v.slot = d.slot ∧ (d.custom = true → d.refuses v = none ∧ CallOf t.arg d v)) ∨
    (∃ l1 s l2 d log w e rest,
      r.1.arguments = l1 ++ s :: l2 ∧ s.arg.dest = some d ∧ d.custom = true ∧ w.slot = d.slot ∧ d.refuses w = some e ∧
      CallOf s.arg d w ∧ r.2 = .throw e ∧
      r.1.destLog = st.destLog ++ log ++ [w] ∧
      (∀ v ∈ log, ∃ t ∈ l1, ∃ d, t.arg.dest = some d ∧ v.slot = d.slot ∧ (d.custom = true → d.refuses v = none ∧ CallOf t.arg d v)) ∧
      r'.1.destLog = st.destLog ++ log ++ w :: rest ∧
      (∀ v ∈ rest, ∃ t ∈ l2, ∃ d, t.arg.dest = some d ∧ v.slot = d.slot) ∧
      r'.1.arguments.take (l1.length + 1) = (l1 ++ [s]).map (Slot.aim calmly)) := by
  intro r r'
  have key := Aim.parse (k0 := calmly) rfl scan st argv
  change (r' = Aim.out calmly r ∧ r.1.destLog = st.destLog) ∨
    ∃ st3 : State D, st3.destLog = st.destLog ∧ r = Aim.finishing scan st3 ∧ r' = Aim.finishing scan (st3.aim calmly) at key
  rcases key with ⟨e1, e2⟩ | ⟨st3, e0, e1, e2⟩
  · left
    rw [e1]
    exact ⟨rfl, rfl, [], by rw [e2, List.append_nil], fun v hv => nomatch hv⟩
  · rw [e1, e2]
    unfold Aim.finishing
    simp only
    rw [show (st3.aim calmly).arguments = st3.arguments.map (Slot.aim calmly) from rfl,
      show (st3.aim calmly).destLog = st3.destLog from rfl, e0]
    rcases finishAll_calm (scan := scan) st3.arguments with ⟨g1, g2⟩ | ⟨l1, s, l2, d, log, w, e, rest, g1, g2, g3, g4, g5, g6, g7⟩
    · left
      rw [g1]
      exact ⟨rfl, rfl, _, rfl, g2⟩
    · right
      exact ⟨l1, s, l2, d, log, w, e, rest, g1, g3.1, g3.2.1, g3.2.2.1, g3.2.2.2.1, g3.2.2.2.2, by rw [g2], by rw [g2, List.append_assoc], g4,
        by rw [g6, List.append_assoc], g7, g5⟩

/-- The last loop with and without destinations. -/
theorem finishAll_aimless {scan : Str → Option D} (l : List (Slot D)) :
    ((finishAll scan (l.map (Slot.aim aimlessly))).2.1 = []) ∧
    (((finishAll scan (l.map (Slot.aim aimlessly))).1 = (finishAll scan l).1.map (Slot.aim aimlessly) ∧
      (finishAll scan (l.map (Slot.aim aimlessly))).2.2 = (finishAll scan l).2.2) ∨
    ∃ l1 s l2 d e, (finishAll scan l).1 = l1 ++ s :: l2 ∧ (finishAll scan l).2.2 = .throw e ∧ s.arg.dest = some d ∧
      (d.custom = true ∧ (∃ w, w.slot = d.slot ∧ d.refuses w = some e) ∨
        d.custom = false ∧ d.supported = false ∧ e = noConversion) ∧
      (finishAll scan (l.map (Slot.aim aimlessly))).1.take (l1.length + 1) = (l1 ++ [s]).map (Slot.aim aimlessly)) := by
  induction l with
  | nil => exact ⟨rfl, .inl ⟨rfl, rfl⟩⟩
  | cons s l ih =>
    rw [List.map_cons]
    unfold finishAll
    rw [show (s.aim aimlessly).arg = s.arg.aim aimlessly from rfl]
    rcases Aim.finish (k0 := aimlessly) scan s.arg with ⟨_, e1, e2⟩ | ⟨hne, e1, e2⟩
    · rw [e1, e2, toDest_none (show ((s.arg.finished scan).aim aimlessly).dest = none from rfl)]
      have hthrow := @toDest_throw _ (s.arg.finished scan)
      rcases toDest_ends (s.arg.finished scan) with hok | ⟨e, hok⟩
      · generalize (s.arg.finished scan).toDest = x at hok
        obtain ⟨ws, res⟩ := x
        simp only at hok
        subst hok
        simp only
        obtain ⟨i0, ih⟩ := ih
        refine ⟨by rw [i0]; rfl, ?_⟩
        rcases ih with ⟨i1, i2⟩ | ⟨l1, t, l2, d, e, i1, i2, i3, i4, i5⟩
        · exact .inl ⟨by rw [i1]; rfl, i2⟩
        · refine .inr ⟨{ s with arg := s.arg.finished scan } :: l1, t, l2, d, e, by rw [i1]; rfl, i2, i3, i4, ?_⟩
          rw [List.length_cons, List.take_succ_cons, i5]
          rfl
      · obtain ⟨d, g1, g2⟩ := hthrow hok
        generalize (s.arg.finished scan).toDest = x at hok
        obtain ⟨ws, res⟩ := x
        simp only at hok
        subst hok
        refine ⟨by simp only; rw [ih.1]; rfl, .inr ⟨[], { s with arg := s.arg.finished scan }, l, d, e, rfl, rfl, g1, ?_, rfl⟩⟩
        exact g2.imp (fun h => ⟨h.1, _, destCall_slot _ _, h.2⟩) id
    · rw [e1, e2]
      generalize s.arg.runValid.2 = r at hne
      cases r with
      | ok u => exact absurd rfl hne
      | _ => exact ⟨rfl, .inl ⟨rfl, rfl⟩⟩

/-- C74. Destinations do not influence a parse. Whatever destinations are registered, `parseArguments` ends as it would
without any and leaves the parser as it would (apart from the destinations themselves, and with nothing written); or
one of the destinations throws: the callback of an argument, or the conversion of one with a type that has none, and
then this argument and those listed before it have the values they would have had. -/
theorem C74_no_influence (scan : Str → Option D) (st : State D) (argv : List Str) :
    let r := st.parseArguments scan argv
    let r' := st.aimless.parseArguments scan argv
    r'.1.destLog = st.destLog ∧
    ((r'.2 = r.2 ∧ r'.1 = { r.1.aimless with destLog := st.destLog }) ∨
    (∃ l1 s l2 d e, r.1.arguments = l1 ++ s :: l2 ∧ s.arg.dest = some d ∧ r.2 = .throw e ∧
      (d.custom = true ∧ (∃ w, w.slot = d.slot ∧ d.refuses w = some e) ∨
        d.custom = false ∧ d.supported = false ∧ e = ⟨.parse, [], "destination method not found for this type".toList⟩) ∧
      r'.1.arguments.take (l1.length + 1) = (l1 ++ [s]).map (Slot.aim aimlessly))) := by
  intro r r'
  have key := Aim.parse (k0 := aimlessly) rfl scan st argv
  change (r' = Aim.out aimlessly r ∧ r.1.destLog = st.destLog) ∨
    ∃ st3 : State D, st3.destLog = st.destLog ∧ r = Aim.finishing scan st3 ∧ r' = Aim.finishing scan (st3.aim aimlessly) at key
  rcases key with ⟨e1, e2⟩ | ⟨st3, e0, e1, e2⟩
  · rw [e1]
    refine ⟨e2, .inl ⟨rfl, ?_⟩⟩
    rw [← e2]
    rfl
  · rw [e1, e2]
    unfold Aim.finishing
    simp only
    rw [show (st3.aim aimlessly).arguments = st3.arguments.map (Slot.aim aimlessly) from rfl,
      show (st3.aim aimlessly).destLog = st3.destLog from rfl, e0]
    obtain ⟨g0, g⟩ := finishAll_aimless (scan := scan) st3.arguments
    refine ⟨by rw [g0, List.append_nil], ?_⟩
    rcases g with ⟨g1, g2⟩ | ⟨l1, s, l2, d, e, g1, g2, g3, g4, g5⟩
    · left
      rw [g1, g2, g0, List.append_nil]
      exact ⟨rfl, rfl⟩
    · exact .inr ⟨l1, s, l2, d, e, g1, g3, g2, g4, g5⟩

/-- A callback that refuses the strings `x`, `y`, between two others. -/
def refusing : State Unit :=
  runOps demoScan parser [.dest 0 ⟨0, .scalar, true, true, fun _ => none⟩,
    .dest 4 ⟨1, .vector, true, false, fun
      | .callVector _ true vs => if vs = ["x".toList, "y".toList] then some ⟨.foreign, [], "no".toList⟩ else none
      | _ => none⟩,
    .dest 6 ⟨2, .vecvec, true, true, fun _ => none⟩]

theorem refusing_ready : Ready demoScan refusing parserLine :=
  .of_history (reachableBy_runOps parser_history _ (by decide +kernel)) (by decide +kernel) (by decide)
    ⟨"prog".toList, rfl, by decide +kernel⟩

/-- It throws: the exception goes through, its own call is the last one made. -/
example :
    (refusing.parseArguments demoScan parserLine).2 = .throw ⟨.foreign, [], "no".toList⟩ ∧
    (refusing.parseArguments demoScan parserLine).1.destLog =
      [.callVecVec 2 true [["e".toList, "f".toList], ["i".toList, "j".toList]], .callVector 1 true ["x".toList, "y".toList]] ∧
    (refusing.calm.parseArguments demoScan parserLine).2 = .ok () ∧
    (refusing.calm.parseArguments demoScan parserLine).1.destLog =
      [.callVecVec 2 true [["e".toList, "f".toList], ["i".toList, "j".toList]], .callVector 1 true ["x".toList, "y".toList],
       .callScalar 0 true "2".toList] ∧
    (refusing.aimless.parseArguments demoScan parserLine).2 = .ok () := by decide +kernel

/-- With other values it does not. -/
example :
    (refusing.parseArguments demoScan (["prog", "-l", "x", "z", "--", "IN"].map String.toList)).2 = .ok () := by decide +kernel

end BletArgs
