import Verif.Lemmas.Calls
/-
Lemmas: the help and version pointers were addresses of objects created before.
-/
namespace BletArgs
open Spec
variable {D : Type}

/-- The pointers are addresses of created objects (possibly deleted since). -/
def State.PtrsOld (st : State D) : Prop :=
  ∀ o, st.helpOption = some o ∨ st.versionOption = some o → o < st.nextObj

theorem PtrsOld.of {st st' : State D} (h : st.PtrsOld) (hn : st.nextObj ≤ st'.nextObj)
    (h1 : ∀ o, st'.helpOption = some o → st.helpOption = some o ∨ o < st'.nextObj)
    (h2 : ∀ o, st'.versionOption = some o → st.versionOption = some o ∨ o < st'.nextObj) : st'.PtrsOld := by
  rintro o (e | e)
  · rcases h1 o e with e | e
    · exact Nat.lt_of_lt_of_le (h o (.inl e)) hn
    · exact e
  · rcases h2 o e with e | e
    · exact Nat.lt_of_lt_of_le (h o (.inr e)) hn
    · exact e

theorem withRef_next {α : Type} {st : State D} {ref : Nat} {f : Slot D → State D × Res α}
    (h : ∀ s, st.nextObj ≤ (f s).1.nextObj) : st.nextObj ≤ (st.withRef ref f).1.nextObj := by
  unfold State.withRef
  split
  · exact Nat.le_refl _
  · exact h _

theorem sortArguments_next (st : State D) : st.sortArguments.1.nextObj = st.nextObj := by
  unfold State.sortArguments; split <;> rfl

theorem retype_next (st : State D) (s : Slot D) (a : Argument D) : (st.retype s a).1.nextObj = st.nextObj := by
  rw [retype_eq]

theorem step_next {scan : Str → Option D} {st : State D} (hi : Inv st) (op : Op) (h : op.keepsPtrs = true) :
    st.nextObj ≤ (step scan st op).1.nextObj := by
  cases op with
  | action | nargs | remove | clear | parse => cases h
  | add names =>
    have h := addArgument_outcome hi names
    change st.nextObj ≤ (st.addArgument names).1.nextObj
    generalize st.addArgument names = r at h
    cases h with
    | positional n st' _ _ _ e _ => subst e; exact Nat.le_succ _
    | option f rest fs st' _ _ _ _ _ e _ => subst e; exact Nat.le_succ _
    | _ => exact Nat.le_refl _
  | flag ref f =>
    refine withRef_next fun s => ?_
    split
    · exact Nat.le_refl _
    · split
      · exact Nat.le_refl _
      · split
        · exact Nat.le_refl _
        · rw [sortArguments_next]; exact Nat.le_refl _
  | required ref b => exact withRef_next fun s => (by rw [sortArguments_next]; exact Nat.le_refl _)
  | dest ref _ => exact withRef_next fun s => Nat.le_succ _
  | defaults ref _ | help ref _ | metavar ref _ | behave ref _ _ | edit ref _ | valid ref _ _ => exact withRef_next fun s => Nat.le_refl _
  | _ => exact Nat.le_refl _

theorem removeLoop_old (rm : List Str) {st : State D} (hi : PreInvS st) :
    (State.removeLoop rm st).1.nextObj = st.nextObj ∧
    (∀ o, (State.removeLoop rm st).1.helpOption = some o → st.helpOption = some o) ∧
    (∀ o, (State.removeLoop rm st).1.versionOption = some o → st.versionOption = some o) := by
  induction rm generalizing st with
  | nil => exact ⟨rfl, fun _ h => h, fun _ h => h⟩
  | cons n ns ih =>
    cases hl : lookupName st.byName n with
    | none =>
      unfold State.removeLoop
      rw [hl]
      exact ⟨rfl, fun _ h => h, fun _ h => h⟩
    | some v =>
      obtain ⟨s, hs, e, hm, hr⟩ := removeLoop_cons hi hl
      rw [hr]
      subst e
      obtain ⟨a1, a2, a3⟩ := ih (removeStep_preInv hi hs hl)
      have h1 : (st.removeStep n s).nextObj = st.nextObj := by unfold State.removeStep; simp only; split <;> rfl
      have h2 : ∀ o, (st.removeStep n s).helpOption = some o → st.helpOption = some o := by
        unfold State.removeStep; simp only; intro o
        split
        · exact fun h => h
        · simp only; split
          · exact fun h => by cases h
          · exact fun h => h
      have h3 : ∀ o, (st.removeStep n s).versionOption = some o → st.versionOption = some o := by
        unfold State.removeStep; simp only; intro o
        split
        · exact fun h => h
        · simp only; split
          · exact fun h => h
          · split
            · exact fun h => by cases h
            · exact fun h => h
      exact ⟨a1.trans h1, fun o h => h2 o (a2 o h), fun o h => h3 o (a3 o h)⟩

theorem step_ptrsOld {scan : Str → Option D} {st : State D} (hi : Inv st) (hp : st.PtrsOld) (op : Op)
    (hg : (step scan st op).2.goesOn = true) : (step scan st op).1.PtrsOld := by
  by_cases hk : op.keepsPtrs = true
  · obtain ⟨e1, e2⟩ := step_keepsPtrs (scan := scan) hi op hk
    exact PtrsOld.of hp (step_next hi op hk) (fun o h => .inl (e1 ▸ h)) (fun o h => .inl (e2 ▸ h))
  · have typed : ∀ {u : State D} {s : Slot D} (a : Argument D), u.PtrsOld → s.obj < u.nextObj → (u.retype s a).1.PtrsOld := by
      intro u s a hu hs
      refine PtrsOld.of hu (Nat.le_of_eq (retype_next u s a).symm) ?_ ?_
      · intro o ho
        rw [retype_eq] at ho ⊢
        simp only at ho ⊢
        rcases tc_help s.obj u.helpOption u.versionOption a with e | ⟨e, _⟩
        · rw [e] at ho; exact .inl ho
        · rw [e] at ho; cases ho; exact .inr hs
      · intro o ho
        rw [retype_eq] at ho ⊢
        simp only at ho ⊢
        rcases tc_version s.obj u.helpOption u.versionOption a with e | ⟨e, _⟩
        · rw [e] at ho; exact .inl ho
        · rw [e] at ho; cases ho; exact .inr hs
    cases op with
    | clear => rintro o (h | h) <;> cases h
    | remove names =>
      change (st.removeArguments names).2.goesOn = true at hg
      change (st.removeArguments names).1.PtrsOld
      unfold State.removeArguments at hg ⊢
      split
      · exact hp
      · rename_i hne
        rw [if_neg hne] at hg
        split
        · exact hp
        · rename_i hf
          rw [hf] at hg
          obtain ⟨h1, h2, h3⟩ := removeLoop_old names hi.toPreInv
          have hl : (State.removeLoop names st).1.PtrsOld :=
            PtrsOld.of hp (Nat.le_of_eq h1.symm) (fun o h => .inl (h2 o h)) (fun o h => .inl (h3 o h))
          generalize State.removeLoop names st = r at hl hg ⊢
          obtain ⟨st1, r⟩ := r
          cases r with
          | ok u =>
            simp only at hl ⊢
            intro o
            rw [(sortArguments_ptrs st1).1, (sortArguments_ptrs st1).2, sortArguments_next]
            exact hl o
          | _ => exact hl
    | action ref act =>
      change (st.action ref act).1.PtrsOld
      cases h : st.atObj ref with
      | none => unfold State.action; rw [withRef_dead h]; exact hp
      | some s =>
        obtain ⟨hs, ho⟩ := State.atObj_some h
        rw [action_eq h]
        refine typed _ ?_ (hi.objsLt s hs)
        refine PtrsOld.of hp (Nat.le_refl _) ?_ ?_
        · intro o ho
          simp only [State.helpBut] at ho
          split at ho
          · cases ho
          · exact .inl ho
        · intro o ho
          simp only [State.versionBut] at ho
          split at ho
          · cases ho
          · exact .inl ho
    | nargs ref n =>
      change (st.nargs ref n).1.PtrsOld
      cases h : st.atObj ref with
      | none => unfold State.nargs; rw [withRef_dead h]; exact hp
      | some s =>
        obtain ⟨hs, ho⟩ := State.atObj_some h
        unfold State.nargs
        rw [withRef_live h]
        exact typed _ hp (hi.objsLt s hs)
    | parse argv =>
      change (st.parseArguments scan argv).1.PtrsOld
      change (st.parseArguments scan argv).2.goesOn = true at hg
      rcases parse_config (scan := scan) hi argv with ⟨o, h⟩ | ⟨b, h | ⟨h1, h2, h3⟩⟩
      · rw [h] at hg; cases hg
      · have e0 : (st.parseArguments scan argv).1.nextObj = st.nextObj := (congrArg (fun x : State D => x.nextObj) h :)
        have e1 : (st.parseArguments scan argv).1.helpOption = st.helpOption := (congrArg (fun x : State D => x.helpOption) h :)
        have e2 : (st.parseArguments scan argv).1.versionOption = st.versionOption :=
          (congrArg (fun x : State D => x.versionOption) h :)
        exact PtrsOld.of hp (Nat.le_of_eq e0.symm) (fun o h => .inl (e1 ▸ h)) (fun o h => .inl (e2 ▸ h))
      · have e0 : (st.parseArguments scan argv).1.nextObj = st.nextObj + 1 := (congrArg (fun x : State D => x.nextObj) h3 :)
        have e1 : (st.parseArguments scan argv).1.helpOption = some st.nextObj := (congrArg (fun x : State D => x.helpOption) h3 :)
        have e2 : (st.parseArguments scan argv).1.versionOption = st.versionOption :=
          (congrArg (fun x : State D => x.versionOption) h3 :)
        refine PtrsOld.of hp (by omega) (fun o h => .inr ?_) (fun o h => .inl (e2 ▸ h))
        rw [e1] at h; cases h; omega
    | _ => exact absurd rfl hk

theorem Reachable.ptrsOld {scan : Str → Option D} {st : State D} (h : Reachable scan st) : st.PtrsOld := by
  induction h with
  | init => rintro o (h | h) <;> cases h
  | step op hr hg ih => exact step_ptrsOld hr.inv ih op hg

end BletArgs
