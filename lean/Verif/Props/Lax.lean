import Verif.Lemmas.Lax
import Verif.Props.Callback
import Verif.Model.Valid
import Verif.Lemmas.FailInv
import Verif.Props.Registry2
/-
C87: validators check, and do nothing else.
-/
namespace BletArgs
open Spec
variable {D : Type}

/-- A parse does not look at the validators before the last loop. -/
theorem Lax.parse (scan : Str → Option D) {st : State D} (hi : GInv False st) (argv : List Str) :
    ((st.lax.parseArguments scan argv).2 = (st.parseArguments scan argv).2 ∧
      ((st.parseArguments scan argv).2.goesOn = true → (st.lax.parseArguments scan argv).1 = (st.parseArguments scan argv).1.lax)) ∨
    ∃ st3 : State D, st.parseArguments scan argv = Aim.finishing scan st3 ∧
      (∀ s ∈ st3.arguments, ∀ v, s.arg.valid = some v → ∃ t ∈ st.arguments, t.arg.valid = some v) ∧
      st.lax.parseArguments scan argv = Aim.finishing scan st3.lax := by
  have valids : ∀ {u w : State D}, u.config = w.config →
      ∀ s ∈ u.arguments, ∀ v, s.arg.valid = some v → ∃ t ∈ w.arguments, t.arg.valid = some v := by
    intro u w e s hs v hv
    have e' : u.arguments.map (fun s => s.arg.valid) = w.arguments.map (fun s => s.arg.valid) := by
      have := congrArg (fun x : State D => x.arguments.map fun s => s.arg.valid) e
      simp only [State.config, List.map_map] at this
      exact this
    have : s.arg.valid ∈ w.arguments.map (fun s => s.arg.valid) := e' ▸ List.mem_map_of_mem hs
    obtain ⟨t, ht, et⟩ := List.mem_map.1 this
    exact ⟨t, ht, et.trans hv⟩
  have hr : GInv False st.resetAll := inv_of_config (resetAll_config st) hi
  unfold State.parseArguments
  rw [Lax.resetAll, Lax.autoHelp]
  have h1 : (st.resetAll.autoHelp.1.arguments.map (·.node)).Nodup ∧
      ∀ s ∈ st.resetAll.autoHelp.1.arguments, ∀ v, s.arg.valid = some v → ∃ t ∈ st.arguments, t.arg.valid = some v := by
    have h0 := valids (resetAll_config st)
    rcases autoHelp_cases hr with ⟨_, e⟩ | ⟨_, _, e⟩ | ⟨h1, h2, e⟩
    · rw [e]; exact ⟨hr.nodes, h0⟩
    · rw [e]; exact ⟨hr.nodes, h0⟩
    · rw [e]
      refine ⟨(withHelp_inv hr h2 h1).nodes, fun s hs v hv => ?_⟩
      rcases List.mem_cons.1 ((withHelp_perm st.resetAll).subset hs) with rfl | hs
      · cases hv
      · exact h0 s hs v hv
  generalize st.resetAll.autoHelp = x at h1 ⊢
  obtain ⟨st1, res⟩ := x
  obtain ⟨hn1, hv1⟩ := h1
  cases res with
  | ok b =>
    cases b with
    | false => exact .inl ⟨rfl, fun _ => rfl⟩
    | true =>
      simp only [Lax.out]
      rw [Lax.setBinary]
      have h2 : (st1.setBinaryIfEmpty argv).1.arguments = st1.arguments := by
        unfold State.setBinaryIfEmpty
        split
        · split <;> rfl
        · rfl
      generalize st1.setBinaryIfEmpty argv = x at h2 ⊢
      obtain ⟨st2, res⟩ := x
      simp only at h2
      cases res with
      | ok u =>
        simp only [Lax.out]
        have el : st2.lax.loopBudget argv = st2.loopBudget argv := by
          unfold State.loopBudget State.lax
          rw [List.length_map]
        rw [el, Lax.mainLoop]
        have h3 := valids (mainLoop_config argv (endOptionIndex argv) (st2.loopBudget argv) 1 (st := st2) (h2 ▸ hn1))
        rw [h2] at h3
        generalize State.mainLoop argv (endOptionIndex argv) (st2.loopBudget argv) 1 st2 = x at h3 ⊢
        obtain ⟨st3, res⟩ := x
        cases res with
        | ok u =>
          simp only [Lax.out]
          rcases Lax.afterLoop scan st3 with ⟨e1, e2, _⟩ | ⟨e1, e2⟩
          · exact .inl ⟨e1, e2⟩
          · refine .inr ⟨st3, e1, fun s hs v hv => ?_, e2⟩
            obtain ⟨t, ht, hv⟩ := h3 s hs v hv
            exact hv1 t ht v hv
        | _ => exact .inl ⟨rfl, fun _ => rfl⟩
      | _ => exact .inl ⟨rfl, fun _ => rfl⟩
  | _ => exact .inl ⟨rfl, fun _ => rfl⟩

theorem writeElems_same (es : List (Elem D)) : writeElems es (es.map (·.argument)) = es := by
  induction es with
  | nil => rfl
  | cons e es ih => rw [List.map_cons, writeElems, ih]

theorem writeLeaves_same (ls : List (Leaf D)) (ss : List Str) :
    writeLeaves ls (ls.map (·.argument) ++ ss) = (ls, ss) := by
  induction ls with
  | nil => cases ss <;> rfl
  | cons l ls ih => rw [List.map_cons, List.cons_append, writeLeaves, ih]

theorem writeGroups_same (es : List (Elem D)) : writeGroups es (es.flatMap fun e => e.subs.map (·.argument)) = es := by
  induction es with
  | nil => rfl
  | cons e es ih => rw [List.flatMap_cons, writeGroups, writeLeaves_same]; simp only; rw [ih]

/-- The validator of an argument that only checks. -/
theorem runValid_checks {a : Argument D} (h : ∀ v, a.valid = some v → ChecksOnly v) :
    a.runValid = (a, .ok ()) ∨
    ∃ v e, a.valid = some v ∧ a.isExist = true ∧ a.runValid = (a, .throw e) ∧
      (RefusedWith v a.front (a.toVector.getD []) e ∨
        Valueless a.type ∧ v.check [] = .accept [] ∧ e = ⟨.valid, a.front, "invalid type option for use valid".toList⟩) := by
  obtain ⟨tx, df, nm, es, ns, ty, ex, rq, ct, na, hp, mv, va, vd, ac, ds, de⟩ := a
  simp only at h
  unfold Argument.runValid Argument.validExn
  simp only
  cases va with
  | none => exact .inl rfl
  | some v =>
    simp only
    cases ex with
    | false => exact .inl rfl
    | true =>
      simp only [if_true]
      unfold RefusedWith
      cases hc : v.check (Argument.toVector _ |>.getD []) with
      | accept ys =>
        have := h v rfl _ _ hc
        subst this
        unfold Argument.toVector at *
        cases ty <;> simp only [Option.getD_some, Option.getD_none] at hc ⊢
        all_goals first
          | exact .inl trivial
          | exact .inl rfl
          | exact .inl (by rw [writeElems_same])
          | exact .inl (by rw [writeGroups_same])
          | exact .inr ⟨v, _, rfl, by trivial, rfl, .inr ⟨by simp [Valueless], hc, rfl⟩⟩
      | reject => exact .inr ⟨v, _, rfl, by trivial, rfl, .inl (by rw [hc])⟩
      | throwValid m => exact .inr ⟨v, _, rfl, by trivial, rfl, .inl (by rw [hc])⟩
      | throwOther e => exact .inr ⟨v, _, rfl, by trivial, rfl, .inl (by rw [hc])⟩

theorem lax_toNumber (scan : Str → Option D) (a : Argument D) : a.lax.toNumber scan = (a.toNumber scan).lax :=
  Lax.toNumber scan a

theorem lax_toDest (a : Argument D) : a.lax.toDest = a.toDest := rfl

theorem lax_finish (scan : Str → Option D) (a : Argument D) :
    a.lax.finish scan = ((a.toNumber scan).lax, (a.toNumber scan).toDest) := by
  show (a.lax.toNumber scan, (a.lax.toNumber scan).toDest.1, (a.lax.toNumber scan).toDest.2) = _
  rw [lax_toNumber]
  rfl

/-- The last loop with and without validators. -/
theorem finishAll_lax {scan : Str → Option D} (l : List (Slot D))
    (h : ∀ s ∈ l, ∀ v, s.arg.valid = some v → ChecksOnly v) :
    finishAll scan (l.map Slot.lax) = ((finishAll scan l).1.map Slot.lax, (finishAll scan l).2) ∨
    ∃ l1 s l2 v e log rest, (finishAll scan l).1 = l1 ++ s :: l2 ∧ (finishAll scan l).2 = (log, .throw e) ∧
      s.arg.valid = some v ∧ s.arg.isExist = true ∧
      (RefusedWith v s.arg.front (s.arg.toVector.getD []) e ∨
        Valueless s.arg.type ∧ v.check [] = .accept [] ∧ e = ⟨.valid, s.arg.front, "invalid type option for use valid".toList⟩) ∧
      (finishAll scan (l.map Slot.lax)).1.take l1.length = l1.map Slot.lax ∧
      (finishAll scan (l.map Slot.lax)).2.1 = log ++ rest := by
  induction l with
  | nil => exact .inl rfl
  | cons s l ih =>
    have ih := ih fun t ht => h t (List.mem_cons_of_mem _ ht)
    rw [List.map_cons]
    unfold finishAll
    rw [show s.lax.arg = s.arg.lax from rfl, lax_finish]
    rcases runValid_checks (h s (List.mem_cons_self ..)) with e | ⟨v, e, hv, he, e1, e2⟩
    · rw [show s.arg.finish scan = (s.arg.toNumber scan, (s.arg.toNumber scan).toDest) by
        unfold Argument.finish; rw [e]]
      generalize (s.arg.toNumber scan).toDest = x
      obtain ⟨ws, res⟩ := x
      cases res with
      | ok u =>
        simp only
        rcases ih with i | ⟨l1, t, l2, v, e, log, rest, i1, i2, i3, i4, i5, i6, i7⟩
        · rw [i]; exact .inl rfl
        · refine .inr ⟨{ s with arg := s.arg.toNumber scan } :: l1, t, l2, v, e, ws ++ log, rest, by rw [i1]; rfl, by rw [i2], i3, i4, i5,
            ?_, by rw [i7, List.append_assoc]⟩
          rw [List.length_cons, List.take_succ_cons, i6]
          rfl
      | _ => exact .inl rfl
    · right
      rw [show s.arg.finish scan = (s.arg, [], .throw e) by unfold Argument.finish; rw [e1]]
      exact ⟨[], s, l, v, e, [], _, rfl, rfl, hv, he, e2, rfl, rfl⟩

/-- C87. Validators that leave the strings they accept as they are (those of the library do, `C87_library`) check, and do
nothing else. Whatever happened to the parser before, and whatever the command line, `parseArguments` ends as it would if no
argument had a validator and leaves the same parser behind, unless one of them refuses: then the call throws what the
validator of some occurring argument `s` refuses its values with (or the fixed exception for a validator on an argument
without values), the arguments listed before `s` have the values they would have had, and the destinations have been
written as they would have been, up to there. -/
theorem C87_checks_only {scan : Str → Option D} {n : Nat} {st : State D} (hr : Survives scan Any n st) (argv : List Str)
    (hc : ∀ s ∈ st.arguments, ∀ v, s.arg.valid = some v → ChecksOnly v) :
    let r := st.parseArguments scan argv
    let r' := st.lax.parseArguments scan argv
    (r'.2 = r.2 ∧ (r.2.goesOn = true → r'.1 = r.1.lax)) ∨
    (∃ l1 s l2 v e rest, r.1.arguments = l1 ++ s :: l2 ∧ s.arg.valid = some v ∧ s.arg.isExist = true ∧ r.2 = .throw e ∧
      (RefusedWith v s.arg.front (s.arg.toVector.getD []) e ∨
        Valueless s.arg.type ∧ v.check [] = .accept [] ∧ e = ⟨.valid, s.arg.front, "invalid type option for use valid".toList⟩) ∧
      r'.1.arguments.take l1.length = l1.map Slot.lax ∧ r'.1.destLog = r.1.destLog ++ rest) := by
  intro r r'
  have key : (r'.2 = r.2 ∧ (r.2.goesOn = true → r'.1 = r.1.lax)) ∨
    ∃ st3 : State D, r = Aim.finishing scan st3 ∧
      (∀ s ∈ st3.arguments, ∀ v, s.arg.valid = some v → ∃ t ∈ st.arguments, t.arg.valid = some v) ∧
      r' = Aim.finishing scan st3.lax := Lax.parse scan hr.inv argv
  rcases key with h | ⟨st3, e1, e2, e3⟩
  · exact .inl h
  · rw [e1, e3]
    unfold Aim.finishing
    simp only
    rw [show st3.lax.arguments = st3.arguments.map Slot.lax from rfl, show st3.lax.destLog = st3.destLog from rfl]
    rcases finishAll_lax (scan := scan) st3.arguments (fun s hs v hv => by
      obtain ⟨t, ht, hv⟩ := e2 s hs v hv
      exact hc t ht v hv) with h | ⟨l1, s, l2, v, e, log, rest, i1, i2, i3, i4, i5, i6, i7⟩
    · left
      rw [h]
      exact ⟨rfl, fun _ => rfl⟩
    · refine .inr ⟨l1, s, l2, v, e, rest, i1, i3, i4, by rw [i2], i5, i6, ?_⟩
      rw [i7, i2, List.append_assoc]

/-- C87, the call returns. If a parse with such validators returns, the parse without them returns too, leaves the same
parser and has written the same to the destinations. -/
theorem C87_returned {scan : Str → Option D} {n : Nat} {st : State D} (hr : Survives scan Any n st) (argv : List Str)
    (hc : ∀ s ∈ st.arguments, ∀ v, s.arg.valid = some v → ChecksOnly v)
    (hok : (st.parseArguments scan argv).2 = .ok ()) :
    st.lax.parseArguments scan argv = ((st.parseArguments scan argv).1.lax, .ok ()) := by
  rcases C87_checks_only hr argv hc with ⟨h1, h2⟩ | ⟨_, _, _, _, _, _, _, _, _, h, _⟩
  · exact Prod.ext (h2 (by rw [hok]; rfl)) (h1.trans hok)
  · rw [hok] at h; cases h

theorem checkEach_checks {bad : Str → Option Str} {xs ys : List Str} (h : checkEach bad xs = .accept ys) : ys = xs := by
  unfold checkEach at h
  split at h
  · cases h
  · cases h; rfl

/-- C87. The validators of the library never change the values they accept. -/
theorem C87_library (i : Nat) :
    (∀ strtodEnd, ChecksOnly ⟨i, validNumber strtodEnd⟩) ∧
    (∀ (lt : D → D → Bool) scan print min max, ChecksOnly ⟨i, validMinMax lt scan print min max⟩) ∧
    (∀ choises, ChecksOnly ⟨i, validChoise choises⟩) ∧
    (∀ stat mode, ChecksOnly ⟨i, validPath stat mode⟩) :=
  ⟨fun _ _ _ h => checkEach_checks h, fun _ _ _ _ _ _ _ h => checkEach_checks h, fun _ _ _ h => checkEach_checks h,
    fun _ _ _ _ h => checkEach_checks h⟩

/-- The parser `parser` with validators for `-o` and `-l`. -/
def checkedParser : State Unit :=
  runOps demoScan parser [.valid 0 (some ⟨1, validChoise ["2".toList, "3".toList]⟩) true,
    .valid 4 (some ⟨2, validChoise ["x".toList, "y".toList]⟩) true]

theorem checkedParser_survives : ∃ n, Survives demoScan Any n checkedParser :=
  Reachable.survives (reachable_runOps (parser_history.reachable) _ (by decide +kernel))

set_option maxRecDepth 20000 in
theorem checkedParser_only : ∀ s ∈ checkedParser.arguments, ∀ v, s.arg.valid = some v → ChecksOnly v := by
  have h : checkedParser.arguments.filterMap (fun s => s.arg.valid) =
      [⟨2, validChoise ["x".toList, "y".toList]⟩, ⟨1, validChoise ["2".toList, "3".toList]⟩] := by rfl
  intro s hs v hv
  have : v ∈ checkedParser.arguments.filterMap (fun s => s.arg.valid) := List.mem_filterMap.2 ⟨s, hs, hv⟩
  rw [h] at this
  simp only [List.mem_cons, List.not_mem_nil, or_false] at this
  rcases this with rfl | rfl <;> exact (C87_library (D := Unit) _).2.2.1 _

example : checkedParser.lax.parseArguments demoScan parserLine =
    ((checkedParser.parseArguments demoScan parserLine).1.lax, .ok ()) := by
  obtain ⟨n, h⟩ := checkedParser_survives
  exact C87_returned h parserLine checkedParser_only (by decide +kernel)

/-- A value that is refused. -/
example : (checkedParser.parseArguments demoScan (["prog", "-o", "4", "in"].map String.toList)).2 =
    .throw ⟨.valid, "-o".toList, "\"4\" is not a valid choise (\"2\", \"3\")".toList⟩ := by decide +kernel

end BletArgs
