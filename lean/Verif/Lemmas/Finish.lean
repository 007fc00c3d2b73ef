import Verif.Lemmas.Occur
/-
What the last loop of a parse leaves alone.
-/
namespace BletArgs
open Spec
variable {D : Type}

theorem runValid_marks (a : Argument D) : a.runValid.1.isExist = a.isExist ∧ a.runValid.1.count = a.count := by
  unfold Argument.runValid
  split
  · exact ⟨rfl, rfl⟩
  · split
    · split
      · exact ⟨rfl, rfl⟩
      · exact ⟨rfl, rfl⟩
      · exact ⟨rfl, rfl⟩
      · split
        · simp only; split <;> exact ⟨rfl, rfl⟩
        · simp only; split <;> exact ⟨rfl, rfl⟩
        all_goals exact ⟨rfl, rfl⟩
    · exact ⟨rfl, rfl⟩

theorem runValid_dest (a : Argument D) : a.runValid.1.dest = a.dest :=
  (congrArg (fun x : Argument D => x.dest) (Argument.runValid_config a) :)

theorem toNumber_dest (scan : Str → Option D) (a : Argument D) : (a.toNumber scan).dest = a.dest :=
  (congrArg (fun x : Argument D => x.dest) (Argument.toNumber_config scan a) :)

theorem toNumber_marks (scan : Str → Option D) (a : Argument D) :
    (a.toNumber scan).isExist = a.isExist ∧ (a.toNumber scan).count = a.count ∧
    (a.toNumber scan).argument = a.argument ∧ (a.toNumber scan).type = a.type ∧
    (a.toNumber scan).elems.map (·.argument) = a.elems.map (·.argument) ∧
    (a.toNumber scan).elems.map (fun e => e.subs.map (·.argument)) = a.elems.map (fun e => e.subs.map (·.argument)) := by
  unfold Argument.toNumber
  split
  · exact ⟨rfl, rfl, rfl, rfl, rfl, rfl⟩
  · split
    · exact ⟨rfl, rfl, rfl, rfl, rfl, rfl⟩
    · refine ⟨rfl, rfl, rfl, rfl, ?_, ?_⟩
      · simp only [List.map_map]
        refine List.map_congr_left fun e _ => ?_
        simp only [Function.comp]
        split <;> rfl
      · simp only [List.map_map]
        refine List.map_congr_left fun e _ => ?_
        simp only [Function.comp]
        split
        · rfl
        · simp [Function.comp_def]

theorem finish_marks (scan : Str → Option D) (a : Argument D) :
    (a.finished scan).isExist = a.isExist ∧ (a.finished scan).count = a.count := by
  unfold Argument.finished Argument.finish
  have h := runValid_marks a
  generalize a.runValid = r at h
  obtain ⟨a1, r⟩ := r
  simp only at h
  cases r with
  | ok u =>
    have h2 := toNumber_marks scan a1
    exact ⟨h2.1.trans h.1, h2.2.1.trans h.2⟩
  | _ => exact h

theorem finished_type (scan : Str → Option D) (a : Argument D) : (a.finished scan).type = a.type :=
  (congrArg (fun x : Argument D => x.type) (Argument.finish_config scan a) :)

theorem finished_noValid {scan : Str → Option D} {a : Argument D} (h : a.valid = none) :
    a.finished scan = a.toNumber scan := by
  unfold Argument.finished Argument.finish Argument.runValid
  rw [h]

/-- The strings of an argument. -/
theorem toVector_of {a b : Argument D} (ht : b.type = a.type) (h1 : b.argument = a.argument)
    (h2 : b.elems.map (·.argument) = a.elems.map (·.argument))
    (h3 : b.elems.map (fun e => e.subs.map (·.argument)) = a.elems.map (fun e => e.subs.map (·.argument))) :
    b.toVector = a.toVector ∧ b.toVecVec = a.toVecVec := by
  have h4 : (b.elems.flatMap fun e => e.subs.map (·.argument)) = a.elems.flatMap fun e => e.subs.map (·.argument) := by
    rw [List.flatMap_def, List.flatMap_def, h3]
  unfold Argument.toVector Argument.toVecVec
  rw [ht]
  cases a.type <;> simp only [h1, h2, h3, h4, and_self]

theorem toNumber_vectors (scan : Str → Option D) (a : Argument D) :
    (a.toNumber scan).toVector = a.toVector ∧ (a.toNumber scan).toVecVec = a.toVecVec := by
  obtain ⟨_, _, h1, h2, h3, h4⟩ := toNumber_marks scan a
  exact toVector_of h2 h1 h3 h4

/-! ### Occurrence flags and counters after a parse -/

/-- Identity, kind, occurrence flag and counter. -/
def Slot.marks (s : Slot D) : Nat × Nat × Bool × Nat := (s.node, s.obj, s.arg.isExist, s.arg.count)

theorem finishAll_marks (scan : Str → Option D) (l : List (Slot D)) :
    (finishAll scan l).1.map Slot.marks = l.map Slot.marks := by
  induction l with
  | nil => rfl
  | cons s l ih =>
    unfold finishAll
    have h := finish_marks scan s.arg
    unfold Argument.finished at h
    generalize s.arg.finish scan = r at h
    obtain ⟨a1, w, r⟩ := r
    have e : Slot.marks { s with arg := a1 } = s.marks := by
      unfold Slot.marks; simp only at h ⊢; rw [h.1, h.2]
    cases r with
    | ok u => simp only [List.map_cons, ih, e]
    | _ => simp only [List.map_cons, e]

theorem afterLoop_marks {scan : Str → Option D} {st : State D} (h : (st.afterLoop scan).2.goesOn = true) :
    (st.afterLoop scan).1.arguments.map Slot.marks = st.arguments.map Slot.marks ∧
    (st.afterLoop scan).1.additional = st.additional := by
  unfold State.afterLoop at h ⊢
  split
  · exact ⟨rfl, rfl⟩
  · rename_i e
    rw [e] at h
    simp only at h
    split
    · exact ⟨rfl, rfl⟩
    · rename_i e2; rw [if_neg e2] at h; cases h
  · rename_i e
    rw [e] at h
    simp only at h
    split
    · exact ⟨rfl, rfl⟩
    · rename_i e
      rw [e] at h
      simp only at h
      split
      · exact ⟨rfl, rfl⟩
      · rename_i e2; rw [if_neg e2] at h; cases h
    · unfold State.finishParse
      split
      · exact ⟨rfl, rfl⟩
      · exact ⟨finishAll_marks scan st.arguments, rfl⟩

theorem afterTokens_option {st : State D} {full : Prop} (hi : GInv full st) {s : Slot D} (hs : s ∈ st.arguments)
    (hp : s.arg.isPositional = false) {ts : List Str} {evs : List Event} {err : Option Exn}
    (hl : Line st.sig st.places ts evs err) : s.arg.afterTokens s.node evs = s.arg.reset.occurs (uses s.node evs) :=
  see_uses (option_uses hi hs hp hl).1 _

theorem fill_count (vals : Values) (a : Argument D) : (a.fill vals).count = a.count := by cases vals <;> rfl

theorem afterTokens_positional {st : State D} {full : Prop} (hi : GInv full st) {s : Slot D} (hs : s ∈ st.arguments)
    (hp : s.arg.isPositional = true) {ts : List Str} {evs : List Event} {err : Option Exn}
    (hl : Line st.sig st.places ts evs err) :
    (fills s.node evs = [] ∧ s.arg.afterTokens s.node evs = s.arg.reset) ∨
    ∃ vals, fills s.node evs = [vals] ∧ ValuesFit s.arg.nargs s.arg.type vals ∧
      s.arg.afterTokens s.node evs = s.arg.reset.fill vals := by
  obtain ⟨h1, h2, h3⟩ := positional_fills hi hs hp hl
  have e : s.arg.afterTokens s.node evs = _ := see_fills h1 s.arg.reset
  rw [e]
  cases hf : fills s.node evs with
  | nil => exact .inl ⟨rfl, rfl⟩
  | cons v l =>
    rw [hf] at h2 h3
    cases l with
    | nil => exact .inr ⟨v, rfl, h3 v (by simp), rfl⟩
    | cons w l => simp at h2

/-- The occurrence flag and the counter of every argument after the tokens. -/
theorem afterTokens_marks {st : State D} {full : Prop} (hi : GInv full st) {s : Slot D} (hs : s ∈ st.arguments)
    {ts : List Str} {evs : List Event} {err : Option Exn} (hl : Line st.sig st.places ts evs err) :
    ((s.arg.afterTokens s.node evs).isExist = true ↔ uses s.node evs ≠ [] ∨ fills s.node evs ≠ []) ∧
    (s.arg.afterTokens s.node evs).count = ((uses s.node evs).map weight).sum := by
  cases hp : s.arg.isPositional with
  | false =>
    have hnf : fills s.node evs = [] := by
      cases hf : fills s.node evs with
      | nil => rfl
      | cons v l =>
        exfalso
        exact (option_uses hi hs hp hl).1 _ v (mem_fills.1 (by rw [hf]; simp)) rfl
    rw [afterTokens_option hi hs hp hl, hnf]
    obtain ⟨h1, h2⟩ := occurs_marks s.arg.reset (uses s.node evs)
    rw [h1, h2]
    have e1 : s.arg.reset.isExist = false := rfl
    have e2 : s.arg.reset.count = 0 := rfl
    rw [e1, e2]
    simp
  | true =>
    have hnu : uses s.node evs = [] := by
      cases hf : uses s.node evs with
      | nil => rfl
      | cons v l =>
        exfalso
        obtain ⟨a, v⟩ := v
        exact (positional_fills hi hs hp hl).1 _ a v (mem_uses.1 (by rw [hf]; simp)) rfl
    rw [hnu]
    rcases afterTokens_positional hi hs hp hl with ⟨h1, h2⟩ | ⟨vals, h1, _, h2⟩
    · rw [h1, h2]
      exact ⟨by simp [Argument.reset], rfl⟩
    · rw [h1, h2, fill_isExist, fill_count]
      exact ⟨by simp, rfl⟩

end BletArgs
