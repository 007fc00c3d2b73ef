import Verif.Props.Same
import Verif.Props.Lines
/-
C36: what becomes of a list of values on a later command line that does not give it.
-/
namespace BletArgs
open Spec
variable {D : Type}

/-- All sub-elements have an empty default text. -/
def Elem.plain (e : Elem D) : Prop := e.dflt = [] ∧ ∀ l ∈ e.subs, l.dflt = []

theorem valElem_plain (v : Str) : (valElem v : Elem D).plain := ⟨rfl, fun l hl => by cases hl⟩

theorem valGroup_plain (g : List Str) : (valGroup g : Elem D).plain := by
  refine ⟨rfl, fun l hl => ?_⟩
  obtain ⟨v, _, rfl⟩ := List.mem_map.1 hl
  rfl

theorem newElems_plain (vals : Values) : ∀ e ∈ (newElems vals : List (Elem D)), e.plain := by
  intro e he
  cases vals with
  | nothing => cases he
  | single => cases he
  | list vs => obtain ⟨v, _, rfl⟩ := List.mem_map.1 he; exact valElem_plain v
  | groups gs => obtain ⟨g, _, rfl⟩ := List.mem_map.1 he; exact valGroup_plain g

theorem writeElems_plain (es : List (Elem D)) (ss : List Str) (h : ∀ e ∈ es, e.plain) : ∀ e ∈ writeElems es ss, e.plain := by
  induction es generalizing ss with
  | nil => cases ss <;> exact h
  | cons x es ih =>
    cases ss with
    | nil => exact h
    | cons s ss =>
      intro e he
      rcases List.mem_cons.1 he with rfl | he
      · exact h x (by simp)
      · exact ih ss (fun e he => h e (by simp [he])) e he

theorem writeLeaves_plain (ls : List (Leaf D)) (ss : List Str) (h : ∀ l ∈ ls, l.dflt = []) : ∀ l ∈ (writeLeaves ls ss).1, l.dflt = [] := by
  induction ls generalizing ss with
  | nil => cases ss <;> exact h
  | cons x ls ih =>
    cases ss with
    | nil => exact h
    | cons s ss =>
      intro e he
      rcases List.mem_cons.1 he with rfl | he
      · exact h x (by simp)
      · exact ih ss (fun e he => h e (by simp [he])) e he

theorem writeGroups_plain (es : List (Elem D)) (ss : List Str) (h : ∀ e ∈ es, e.plain) : ∀ e ∈ writeGroups es ss, e.plain := by
  induction es generalizing ss with
  | nil => intro e he; cases he
  | cons x es ih =>
    intro e he
    rcases List.mem_cons.1 he with rfl | he
    · exact ⟨(h x (by simp)).1, writeLeaves_plain _ _ (h x (by simp)).2⟩
    · exact ih _ (fun e he => h e (by simp [he])) e he

theorem finished_plain (scan : Str → Option D) {a : Argument D} (h : ∀ e ∈ a.elems, e.plain) :
    ∀ e ∈ (a.finished scan).elems, e.plain := by
  have hv : ∀ e ∈ a.runValid.1.elems, e.plain := by
    unfold Argument.runValid
    split
    · exact h
    · split
      · split
        · exact h
        · exact h
        · exact h
        · split
          · split <;> exact h
          · split <;> exact h
          all_goals first | exact writeElems_plain _ _ h | exact writeGroups_plain _ _ h | exact h
      · exact h
  have hn : ∀ b : Argument D, (∀ e ∈ b.elems, e.plain) → ∀ e ∈ (b.toNumber scan).elems, e.plain := by
    intro b hb
    unfold Argument.toNumber
    split
    · exact hb
    · split
      · exact hb
      · intro e he
        obtain ⟨x, hx, rfl⟩ := List.mem_map.1 he
        split
        · exact hb x hx
        · refine ⟨(hb x hx).1, fun l hl => ?_⟩
          obtain ⟨y, hy, rfl⟩ := List.mem_map.1 hl
          exact (hb x hx).2 y hy
  unfold Argument.finished Argument.finish
  generalize hr : a.runValid = r at hv
  obtain ⟨a1, r⟩ := r
  cases r with
  | ok u => exact hn _ hv
  | _ => exact hv

/-- Resetting a list of plain elements empties all its texts. -/
theorem reset_plain {a : Argument D} (h : ∀ e ∈ a.elems, e.plain) (ht : a.type ≠ .simple) (hp : a.isPositional = false) :
    a.reset.toVector = a.toVector.map (fun vs => vs.map fun _ => []) ∧
    a.reset.toVecVec = a.toVecVec.map (fun gs => gs.map fun g => g.map fun _ => []) := by
  have e0 : a.reset.type = a.type := rfl
  have e1 : a.reset.elems.map (·.argument) = (a.elems.map (·.argument)).map fun _ => [] := by
    unfold Argument.reset
    simp only [List.map_map]
    exact List.map_congr_left fun e he => (h e he).1
  have e2 : a.reset.elems.map (fun e => e.subs.map (·.argument)) =
      (a.elems.map fun e => e.subs.map (·.argument)).map fun g => g.map fun _ => [] := by
    unfold Argument.reset
    simp only [List.map_map]
    refine List.map_congr_left fun e he => ?_
    simp only [Function.comp_def, List.map_map]
    exact List.map_congr_left fun l hl => (h e he).2 l hl
  have e3 : (a.reset.elems.flatMap fun e => e.subs.map (·.argument)) =
      (a.elems.flatMap fun e => e.subs.map (·.argument)).map fun _ => [] := by
    rw [List.flatMap_def, List.flatMap_def, e2, List.map_flatten]
  have hpos : a.type ≠ .pos := by
    intro e; unfold Argument.isPositional at hp; rw [e] at hp; cases hp
  unfold Argument.toVector Argument.toVecVec
  rw [e0, e1, e2, e3]
  constructor
  · cases hk : a.type <;> first | rfl | exact absurd hk ht | exact absurd hk hpos
  · cases hk : a.type <;> rfl

/-- C36, what is left of a list. An option with a list or groups of values that was used on the first command line (not
first in the attached form) and is not on the second one, reads after the second parse as many values as after the first
one, all of them empty: neither the old values nor its defaults. -/
theorem C36_lists_emptied {scan : Str → Option D} {st : State D} {argv argv' : List Str}
    (h0 : Ready scan st argv) (h : Ready scan st argv')
    {evs0 evs : List Event} (hl0 : Line st.sig st.places (argv.drop 1) evs0 none)
    (hok0 : (st.parseArguments scan argv).2 = .ok ())
    (hl : Line st.sig st.places (argv'.drop 1) evs none)
    (hok : ((st.parseArguments scan argv).1.parseArguments scan argv').2 = .ok ()) {s : Slot D} (hs : s ∈ st.arguments)
    (hp : s.arg.isPositional = false) (hv : ¬Valueless s.arg.type) (hsim : s.arg.type ≠ .simple)
    (hocc : Occurs s.node evs0) (hatt : (uses s.node evs0).head?.map (fun u => u.1) ≠ some true)
    (habs : ¬Occurs s.node evs) :
    ∃ s1 s2, (st.parseArguments scan argv).1.atObj s.obj = some s1 ∧
      ((st.parseArguments scan argv).1.parseArguments scan argv').1.atObj s.obj = some s2 ∧
      s2.arg.isExist = false ∧
      s2.arg.toVector = s1.arg.toVector.map (fun vs => vs.map fun _ => []) ∧
      s2.arg.toVecVec = s1.arg.toVecVec.map (fun gs => gs.map fun g => g.map fun _ => []) := by
  have hg : (st.parseArguments scan argv).2.goesOn = true := by rw [hok0]; rfl
  obtain ⟨h1, _, _, _⟩ := ready_again h hg
  obtain ⟨hl', _⟩ := C36_same_reading h hg hl
  have a1 := parse_atObj h0 hl0 hok0 hs
  have hu := List.mem_of_find?_eq_some a1
  have a2 := absent_result h1 hl' hok hu habs
  refine ⟨_, _, a1, a2, ?_, ?_⟩
  · simp only
    exact (toNumber_marks scan _).1
  have hnum := toNumber_vectors scan ({ s with arg := (s.arg.afterTokens s.node evs0).finished scan } : Slot D).arg.reset
  simp only at hnum ⊢
  rw [hnum.1, hnum.2]
  have ht : (s.arg.afterTokens s.node evs0).type = s.arg.type :=
    (congrArg (fun x : Argument D => x.type) (afterTokens_config s.node evs0 s.arg) :)
  refine reset_plain (finished_plain scan ?_) (by rw [finished_type, ht]; exact hsim)
    (by unfold Argument.isPositional at *; rw [finished_type, ht]; exact hp)
  -- all elements come from the command line
  rw [afterTokens_option h.inv hs hp hl0]
  obtain ⟨hnf, hfit⟩ := option_uses h.inv hs hp hl0
  have hne : uses s.node evs0 ≠ [] := by
    rcases hocc with ho | ho
    · exact ho
    · intro hn
      cases hf : fills s.node evs0 with
      | nil => exact ho hf
      | cons v l => exact absurd rfl (hnf _ v (mem_fills.1 (by rw [hf]; simp)))
  revert hfit hne hatt
  generalize uses s.node evs0 = us
  intro hatt hfit hne
  by_cases hacc : Accumulates s.arg.type
  · cases us with
    | nil => exact absurd rfl hne
    | cons w us =>
      have hw : w.1 = false := by
        cases hb : w.1 with
        | false => rfl
        | true => exact absurd (by simp [hb]) hatt
      rw [occurs_accumulates (a := s.arg.reset) hacc rfl (fun v hv => (hfit v hv).1), hw]
      intro e he
      simp only [Bool.false_eq_true, if_false, List.nil_append] at he
      obtain ⟨x, _, hx⟩ := List.mem_flatMap.1 he
      exact newElems_plain _ e hx
  · obtain ⟨us', w, rfl⟩ : ∃ us' w, us = us' ++ [w] := ⟨us.dropLast, us.getLast hne, (List.dropLast_concat_getLast hne).symm⟩
    obtain ⟨att, vals⟩ := w
    have hf := (hfit (att, vals) (by simp)).1
    have hkind : s.arg.type = .number ∨ s.arg.type = .infinite := by
      unfold Argument.isPositional at hp
      unfold Accumulates at hacc
      unfold Valueless at hv
      revert hp hacc hv hsim
      generalize s.arg.type = k
      cases k <;> simp [Ty.isPositional]
    obtain ⟨vs, _, g2⟩ := occurs_list (a := s.arg.reset) (us := us') (att := att) (vals := vals) hkind hf
    rw [g2]
    intro e he
    obtain ⟨v, _, rfl⟩ := List.mem_map.1 he
    exact valElem_plain v

/-- C36, in general: on any successful parse an argument that does not occur reads its default texts: its own text and
those of its elements are the ones `getDefault()` tells for them. -/
theorem C36_absent_texts {scan : Str → Option D} {st : State D} {argv : List Str} (h : Ready scan st argv)
    {evs : List Event} (hl : Line st.sig st.places (argv.drop 1) evs none)
    (hok : (st.parseArguments scan argv).2 = .ok ()) {s : Slot D} (hs : s ∈ st.arguments) (habs : ¬Occurs s.node evs) :
    ∃ s', (st.parseArguments scan argv).1.atObj s.obj = some s' ∧ s'.arg.isExist = false ∧
      s'.arg.argument = s.arg.dflt ∧ s'.arg.dflt = s.arg.dflt ∧
      s'.arg.elems.map (fun e => (e.argument, e.dflt)) = s.arg.elems.map (fun e => (e.dflt, e.dflt)) ∧
      s'.arg.elems.map (fun e => e.subs.map fun l => (l.argument, l.dflt)) =
        s.arg.elems.map (fun e => e.subs.map fun l => (l.dflt, l.dflt)) := by
  refine ⟨_, absent_result h hl hok hs habs, (toNumber_marks scan _).1, ?_⟩
  simp only
  unfold Argument.toNumber
  split
  · simp [Argument.reset, Function.comp_def]
  · split
    · simp [Argument.reset, Function.comp_def]
    · refine ⟨rfl, rfl, ?_, ?_⟩
      · simp only [Argument.reset, List.map_map]
        refine List.map_congr_left fun e _ => ?_
        simp only [Function.comp_apply]
        split <;> rfl
      · simp only [Argument.reset, List.map_map]
        refine List.map_congr_left fun e _ => ?_
        simp only [Function.comp_apply]
        split <;> simp [Function.comp_def]

/-! ### Concrete cases -/

section
attribute [local irreducible] parser

/-- `-g` takes two values each time. After `in -g p q -g r s` and then `in`, it reads two groups of two empty texts. -/
example := C36_lists_emptied (parser_words ["in", "-g", "p", "q", "-g", "r", "s"] (by decide +kernel)) (parser_words ["in"] (by decide +kernel))
  (parser_says (ws := ["in", "-g", "p", "q", "-g", "r", "s"]) (evs := [.positional 1 (.single "in".toList),
      .option 6 false (.groups [["p".toList, "q".toList]]), .option 6 false (.groups [["r".toList, "s".toList]])])
    (by decide +kernel) (by decide +kernel)) (by decide +kernel)
  (parser_says (ws := ["in"]) (evs := [.positional 1 (.single "in".toList)]) (by decide +kernel) (by decide +kernel)) (by decide +kernel)
  (argOf_mem parser 6) (by decide +kernel) (by unfold Valueless; decide +kernel) (by decide +kernel) (by decide +kernel) (by decide +kernel)
  (by decide +kernel)

example :
    let st1 := (parser.parseArguments demoScan (["prog", "in", "-g", "p", "q", "-g", "r", "s"].map String.toList)).1
    (st1.atObj 6).map (·.arg.toVecVec) = some (some [["p".toList, "q".toList], ["r".toList, "s".toList]]) ∧
    ((st1.parseArguments demoScan (["prog", "in"].map String.toList)).1.atObj 6).map (·.arg.toVecVec) = some (some [[[], []], [[], []]]) := by
  decide +kernel

/-- The same for the general statement. -/
example := C36_absent_texts (parser_words ["in"] (by decide +kernel))
  (parser_says (ws := ["in"]) (evs := [.positional 1 (.single "in".toList)]) (by decide +kernel) (by decide +kernel)) (by decide +kernel)
  (argOf_mem parser 6) (by decide +kernel)

end

end BletArgs
