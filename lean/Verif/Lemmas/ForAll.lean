import Verif.Lemmas.Slots
import Verif.Lemmas.AutoHelp
import Verif.Lemmas.Scan
/-
Properties of single arguments that parsing preserves.
-/
namespace BletArgs
variable {D : Type} {full : Prop}

/-- `P` is preserved by everything `parseArguments` does to one argument. -/
structure Keeps (scan : Str → Option D) (argv : List Str) (P : Argument D → Prop) : Prop where
  reset : ∀ a, P a → P a.reset
  mark : ∀ a, P a → P a.mark
  arg : ∀ stop max index hasArg option arg a, max ≤ argv.length → index < argv.length → P a →
    P (a.parseArgument stop argv max index hasArg option arg).1
  pos : ∀ stop argc index a, argc ≤ argv.length → index < argv.length → P a →
    P (a.parsePositional stop argv argc index).1
  finish : ∀ a, P a → P (a.finish scan).1
  help : ∀ names, P (helpArgument names)

def All (P : Argument D → Prop) (st : State D) : Prop := ∀ s ∈ st.arguments, P s.arg

theorem endOptionIndex_le (argv : List Str) : endOptionIndex argv ≤ argv.length := by
  induction argv with
  | nil => exact Nat.le_refl _
  | cons a as ih =>
    unfold endOptionIndex
    split
    · exact Nat.zero_le _
    · simp only [List.length_cons]; omega

theorem All.modNode {P : Argument D → Prop} {st : State D} (h : All P st) {node : Nat} {f : Argument D → Argument D}
    (hf : ∀ s ∈ st.arguments, s.node = node → P (f s.arg)) : All P (st.modNode node f) := by
  intro s hs
  obtain ⟨t, ht, rfl⟩ := List.mem_map.1 hs
  by_cases e : t.node = node
  · simpa [e] using hf t ht e
  · simpa [e] using h t ht

section
variable {scan : Str → Option D} {argv : List Str} {P : Argument D → Prop} (K : Keeps scan argv P)
include K

theorem parseAt_all {st : State D} (h : All P st) {max index : Nat} (hm : max ≤ argv.length) (hx : index < argv.length)
    (hasArg : Bool) (option arg : Str) (node : Nat) :
    All P (st.parseAt argv max index hasArg option arg node).1 := by
  unfold State.parseAt
  cases e : st.atNode node with
  | none => exact h
  | some s => exact h.modNode fun _ _ _ => K.arg _ _ _ _ _ _ _ hm hx (h s (State.atNode_some e).1)

theorem parseCluster_all {max index : Nat} (hm : max ≤ argv.length) (hx : index < argv.length)
    (hasArg : Bool) (arg : Str) (cs : List Char) {st : State D} (h : All P st) :
    All P (State.parseCluster argv max index hasArg arg cs st).1 := by
  induction cs generalizing st with
  | nil =>
    unfold State.parseCluster
    split
    · exact h
    · exact parseAt_all K h hm hx _ _ _ _
  | cons c cs ih =>
    cases cs with
    | nil =>
      unfold State.parseCluster
      split
      · exact h
      · exact parseAt_all K h hm hx _ _ _ _
    | cons c2 rest =>
      unfold State.parseCluster
      split
      · exact h
      · split
        · exact h
        · next n _ _ _ _ =>
          have h' : All P (st.modNode n Argument.mark) := h.modNode fun s hs _ => K.mark _ (h s hs)
          split
          · exact parseAt_all K h' hm hx _ _ _ _
          · split
            · exact h
            · exact ih h'

theorem parseShort_all {st : State D} (h : All P st) {max index : Nat} (hm : max ≤ argv.length)
    (hx : index < argv.length) (tok : Str) : All P (st.parseShort argv max index tok).1 := by
  unfold State.parseShort
  split
  split
  · exact parseAt_all K h hm hx _ _ _ _
  · exact parseCluster_all K hm hx _ _ _ h

theorem parseLong_all {st : State D} (h : All P st) {max index : Nat} (hm : max ≤ argv.length)
    (hx : index < argv.length) (tok : Str) : All P (st.parseLong argv max index tok).1 := by
  unfold State.parseLong
  split
  split
  · exact h
  · exact parseAt_all K h hm hx _ _ _ _

theorem parsePositionalTok_all {st : State D} (h : All P st) {max index : Nat} (hm : max ≤ argv.length)
    (hx : index < argv.length) (e : Bool) : All P (st.parsePositionalTok argv max index e).1 := by
  unfold State.parsePositionalTok
  cases hs : st.nextPositional with
  | some s => exact h.modNode fun _ _ _ => K.pos _ _ _ _ hm hx (h s (List.mem_of_find?_eq_some hs))
  | none =>
    simp only
    split
    · exact h
    · split <;> exact h

theorem endLoop_all (f i : Nat) {st : State D} (h : All P st) : All P (State.endLoop argv f i st).1 := by
  induction f generalizing i st with
  | zero => exact h
  | succ f ih =>
    unfold State.endLoop
    split
    · next hx =>
      have hc := parsePositionalTok_all K h (Nat.le_refl _) hx true
      generalize st.parsePositionalTok argv argv.length i true = r at hc ⊢
      obtain ⟨st1, r⟩ := r
      cases r with
      | ok i1 => exact ih i1 hc
      | _ => exact hc
    · exact h

theorem mainLoop_all {e : Nat} (he : e ≤ argv.length) (f i : Nat) {st : State D} (h : All P st) :
    All P (State.mainLoop argv e f i st).1 := by
  induction f generalizing i st with
  | zero => exact h
  | succ f ih =>
    have key : ∀ r : State D × Res Nat, All P r.1 →
        All P (match r with
          | (st1, .ok i1) => State.mainLoop argv e f i1 st1
          | (st1, r) => (st1, r.cast)).1 := by
      intro r hc
      obtain ⟨st1, r⟩ := r
      cases r with
      | ok i1 => exact ih i1 hc
      | _ => exact hc
    unfold State.mainLoop
    split
    · next hx =>
      split
      · exact h
      · split
        · exact key _ (parseShort_all K h he hx _)
        · split
          · exact key _ (parseLong_all K h he hx _)
          · split
            · exact endLoop_all K _ _ h
            · exact key _ (parsePositionalTok_all K h he hx _)
    · exact h

theorem finishAll_each (l : List (Slot D)) (h : ∀ s ∈ l, P s.arg) : ∀ s ∈ (finishAll scan l).1, P s.arg := by
  induction l with
  | nil => exact h
  | cons s ss ih =>
    have hs := K.finish _ (h s (by simp))
    have hss := fun t ht => h t (List.mem_cons_of_mem _ ht)
    unfold finishAll
    generalize s.arg.finish scan = r at hs ⊢
    obtain ⟨a1, w, r⟩ := r
    intro t ht
    cases r with
    | ok u =>
      rcases List.mem_cons.1 ht with rfl | ht
      · exact hs
      · exact ih hss t ht
    | _ =>
      rcases List.mem_cons.1 ht with rfl | ht
      · exact hs
      · exact hss t ht

theorem afterLoop_all {st : State D} (h : All P st) : All P (st.afterLoop scan).1 := by
  unfold State.afterLoop
  split
  · exact h
  · split
    · exact h
    · intro s hs; cases hs
  · split
    · exact h
    · split
      · exact h
      · intro s hs; cases hs
    · unfold State.finishParse
      split
      · exact h
      · exact finishAll_each K _ h

/-- Whatever the outcome, every argument listed after a parse has the property. -/
theorem parse_all {st : State D} (hi : GInv full st) (h : All P st) : All P (st.parseArguments scan argv).1 := by
  have hr : GInv full st.resetAll := inv_of_config (resetAll_config st) hi
  have h0 : All P st.resetAll := by
    intro s hs
    obtain ⟨t, ht, rfl⟩ := List.mem_map.1 hs
    exact K.reset _ (h t ht)
  have tail : ∀ st1 : State D, All P st1 → All P (match st1.setBinaryIfEmpty argv with
      | (st2, .ok ()) =>
        match State.mainLoop argv (endOptionIndex argv) (st2.loopBudget argv) 1 st2 with
        | (st3, .ok ()) => st3.afterLoop scan
        | (st3, r) => (st3, r)
      | (st2, r) => (st2, r)).1 := by
    intro st1 h1
    obtain ⟨b, hb⟩ := setBinaryIfEmpty_config st1 argv
    generalize st1.setBinaryIfEmpty argv = r at hb ⊢
    obtain ⟨st2, r⟩ := r
    simp only at hb
    subst hb
    cases r with
    | ok u =>
      have hl := mainLoop_all K (endOptionIndex_le argv)
        (State.loopBudget { st1 with binaryName := b } argv) 1 (st := { st1 with binaryName := b }) h1
      simp only
      generalize State.mainLoop argv (endOptionIndex argv)
        (State.loopBudget { st1 with binaryName := b } argv) 1 { st1 with binaryName := b } = r2 at hl ⊢
      obtain ⟨st3, r2⟩ := r2
      cases r2 with
      | ok u => exact afterLoop_all K hl
      | _ => exact hl
    | _ => exact h1
  unfold State.parseArguments
  rcases autoHelp_cases hr with ⟨_, e⟩ | ⟨_, _, e⟩ | ⟨_, _, e⟩
  · rw [e]; exact tail _ h0
  · rw [e]; exact h0
  · rw [e]
    refine tail _ ?_
    intro s hs
    unfold State.withHelp at hs
    simp only at hs
    rw [mem_stableSort, List.mem_append, List.mem_singleton] at hs
    rcases hs with hs | rfl
    · exact h0 s hs
    · exact K.help _

end

end BletArgs
