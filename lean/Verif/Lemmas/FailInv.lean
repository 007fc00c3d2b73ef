import Verif.Spec.Failing
import Verif.Lemmas.AutoHelp
/-
Lemmas: the registry after interrupted calls.
-/
namespace BletArgs
open Spec
variable {D : Type} {full : Prop} {scan : Str → Option D}

/-- The invariant of a parser after failed allocations. -/
theorem PreInv.weaken {l : List (Slot D)} {m : List (Str × Nat)} {nn no : Nat} {freed : List Nat}
    (h : PreInv full l m nn no freed) : PreInv False l m nn no freed :=
  ⟨h.nodes, h.nodesLt, h.objs, h.objsLt, h.keys, h.entries, False.elim, h.forms, h.freedNodup, h.freedLt, h.freedDead,
    False.elim⟩

theorem PreInv.fewer {l : List (Slot D)} {m m' : List (Str × Nat)} {nn no : Nat} {freed : List Nat}
    (h : PreInv full l m nn no freed) (hk : (m'.map (·.1)).Nodup) (hs : ∀ p ∈ m', p ∈ m) : PreInv False l m' nn no freed :=
  ⟨h.nodes, h.nodesLt, h.objs, h.objsLt, hk, fun p hp => h.entries p (hs p hp), False.elim, h.forms, h.freedNodup, h.freedLt,
    h.freedDead, False.elim⟩

theorem PreInv.lose {l : List (Slot D)} {m : List (Str × Nat)} {nn no : Nat} {freed : List Nat}
    (h : PreInv full l m nn no freed) : PreInv False l m nn (no + 1) freed :=
  ⟨h.nodes, h.nodesLt, h.objs, fun s hs => Nat.lt_succ_of_lt (h.objsLt s hs), h.keys, h.entries, False.elim, h.forms,
    h.freedNodup, fun o ho => Nat.lt_succ_of_lt (h.freedLt o ho), h.freedDead, False.elim⟩

theorem GPre.inv {st : State D} (h : GPre full st) : GInv False st := ⟨PreInv.weaken h, False.elim⟩

theorem GInv.weaken {st : State D} (h : GInv full st) : GInv False st := GPre.inv h.toPreInv

theorem build_some {st : State D} {names : List Str} {a : Argument D} (h : st.build names = some a) :
    st.addArgument names = st.linkArgument a ∧ ArgForm a ∧ (∃ n ∈ a.names, lookupName st.byName n = none) ∧
    a = { names := a.names, nargs := 1, type := a.type } ∧ ∀ n ∈ a.names, n ∈ names := by
  unfold State.build at h
  unfold State.addArgument
  cases names with
  | nil => cases h
  | cons front rest =>
    simp only at h ⊢
    split at h
    · rename_i hc
      rw [if_pos hc]
      simp only [Bool.and_eq_true, List.isEmpty_iff, bne_iff_ne, ne_eq] at hc
      obtain ⟨rfl, hc⟩ := hc
      split at h
      · cases h
      · rename_i he
        rw [if_neg he]
        split at h
        · cases h
        · rename_i hl
          rw [if_neg hl]
          cases h
          have hl : lookupName st.byName front = none := by simpa using hl
          exact ⟨rfl, newPositional_form hc (by simpa using he), ⟨front, by simp, hl⟩, rfl, by simp⟩
    · rename_i hc
      rw [if_neg hc]
      split at h
      · cases h
      · rename_i fs he
        cases h
        obtain ⟨h1, h2, h3, h4⟩ := checkFlags_ok he (by simp)
        rw [he]
        have hm : ∀ g, g ∈ fs ↔ g ∈ front :: rest := by intro g; rw [h2]; simp
        have hne : fs ≠ [] := List.ne_nil_of_mem ((hm front).2 (by simp))
        have hv : ∀ f ∈ fs, validFormatFlag f = none := fun f hf => h3 f ((hm f).1 hf)
        exact ⟨rfl, newOption_form hne hv, ⟨front, mem_sortNames.2 ((hm front).2 (by simp)), h4 (by simp)⟩, rfl,
          fun n hn => (hm n).1 (mem_sortNames.1 hn)⟩

/-! ### The registry -/

theorem insertAll_mem_take {m : List (Str × Nat)} (hk : (m.map (·.1)).Nodup) {names : List Str} {node k : Nat} {p : Str × Nat}
    (h : p ∈ insertAll m (names.take k) node) : p ∈ insertAll m names node := by
  obtain ⟨n, v⟩ := p
  have h1 := lookupName_of_mem (insertAll_keys hk _ node) h
  refine lookupName_mem ?_
  rw [insertAll_lookup] at h1 ⊢
  cases hl : lookupName m n with
  | some w => rw [hl] at h1; exact h1
  | none =>
    rw [hl] at h1
    by_cases hn : n ∈ names.take k
    · simpa [hn, List.mem_of_mem_take hn] using h1
    · simp [hn] at h1

theorem linkPart_inv {st : State D} (hi : GInv full st) {names : List Str} {a : Argument D} (h : st.build names = some a) (k : Nat) :
    GInv False (st.linkPart a k) := by
  obtain ⟨_, h1, h2, _⟩ := build_some h
  refine ⟨?_, False.elim⟩
  exact (linked_preInv hi h1 h2).fewer (insertAll_keys hi.keys _ _) fun p hp => insertAll_mem_take hi.keys hp

theorem flagPart_inv {st : State D} (hi : GInv full st) {s : Slot D} (hs : s ∈ st.arguments) {f : Str}
    (hp : s.arg.isPositional = false) (hv : FlagForm f) :
    GInv False (st.modNode s.node fun a => { a with names := sortNames (a.names ++ [f]) }) := by
  refine ⟨?_, False.elim⟩
  refine (flagged_preInv hi hs hp hv).fewer hi.keys fun p h => ?_
  show p ∈ insertName st.byName f s.node
  unfold insertName
  split
  · exact h
  · exact List.mem_append_left _ h

/-- The state in which the automatic help option has no help text yet. -/
theorem addHelp_eq {st : State D} (hi : GInv full st) (hh : st.createsHelp = true) :
    ((st.addArgument st.autoFlags).1.action st.nextObj .help).1 =
      { st.linked { names := helpFlags st } with
          helpOption := some st.nextObj
          arguments := stableSort slotLt (st.arguments ++
            [st.newSlot { names := helpFlags st, type := .help, nargs := 0, action := .help }]) } := by
  unfold State.createsHelp at hh
  simp only [Bool.and_eq_true, Bool.not_eq_true', Option.isNone_iff_eq_none] at hh
  obtain ⟨hh, hb⟩ := hh
  obtain ⟨hadd, haf, hnone, hne, hnd⟩ := addArgument_helpFlags hi hb
  have hi1 : GInv full ({ st.linked { names := helpFlags st } with
      arguments := stableSort slotLt (st.arguments ++ [st.newSlot { names := helpFlags st }]) } : State D) :=
    (linkArgument_ok hi haf ⟨_, List.head_mem hne, hnone _ (List.head_mem hne)⟩).2
  have e : st.autoFlags = helpFlags st := rfl
  rw [e, hadd]
  simp only
  generalize hst1 : ({ st.linked { names := helpFlags st } with
      arguments := stableSort slotLt (st.arguments ++ [st.newSlot { names := helpFlags st }]) } : State D) = st1 at hi1 ⊢
  have hmem : st.newSlot { names := helpFlags st } ∈ st1.arguments := by
    rw [← hst1]; simp
  have hat : st1.atObj st.nextObj = some (st.newSlot { names := helpFlags st }) :=
    State.atObj_of_mem hi1.objs hmem
  have hh1 : st1.helpOption = none := by rw [← hst1]; exact hh
  rw [action_help_fresh hat rfl hh1]
  have : updNode st1.arguments (st.newSlot ({ names := helpFlags st } : Argument D)).node
      (fun _ => { names := helpFlags st, type := .help, nargs := 0, action := .help }) =
      stableSort slotLt (st.arguments ++
        [st.newSlot { names := helpFlags st, type := .help, nargs := 0, action := .help }]) := by
    rw [← hst1]
    simp only
    rw [updNode_sort, show (st.newSlot ({ names := helpFlags st } : Argument D)).node = st.nextNode from rfl,
      updNode_new hi]
    intro s hs hn
    rw [List.mem_append] at hs
    rcases hs with hs | hs
    · have := hi.nodesLt s hs; simp only [State.newSlot] at hn; omega
    · rw [List.mem_singleton] at hs; subst hs; rfl
  rw [this, ← hst1]
  rfl

theorem inv_of_config' {st st' : State D} {b : Str} (h : st'.config = { st.config with binaryName := b }) (hi : GInv full st) :
    GInv full st' :=
  inv_of_config (st := { st with binaryName := b }) h (inv_of_eq hi rfl rfl rfl rfl rfl)

theorem aborts_inv {st st' : State D} {op : Op} (hi : GInv False st) (h : Aborts scan st op st') : GInv False st' := by
  induction h with
  | unchanged => exact hi
  | unthrown h => exact step_inv hi _ (by rw [h]; rfl)
  | lost h => exact ⟨hi.toPreInv.lose, False.elim⟩
  | listed h _ => exact linkPart_inv hi h _
  | flagged h hp hv _ => exact flagPart_inv hi (State.atObj_some h).1 hp ((C03_flag_syntax _).1 hv)
  | values hop h =>
    refine modNode_inv ?_ fun _ _ _ => ⟨rfl, rfl, rfl⟩
    rcases hop with ⟨x, rfl⟩ | ⟨x, rfl⟩ | ⟨x, rfl⟩
    · exact action_inv hi ..
    · exact nargs_inv hi ..
    · exact setDefaults_inv hi ..
  | defaults _ => exact modNode_inv hi fun _ _ _ => ⟨rfl, rfl, rfl⟩
  | dest _ => exact modNode_inv hi fun _ _ _ => ⟨rfl, rfl, rfl⟩
  | parseReset h => exact inv_of_config h hi
  | parseAdd h _ _ ih => exact ih (inv_of_config h hi)
  | parseText h _ => exact action_inv (addArgument_inv (inv_of_config h hi) _) _ _
  | parseRun h1 h2 h3 _ =>
    have := autoHelp_inv (inv_of_config h1 hi)
    rw [h2] at this
    exact inv_of_config' h3 this

theorem Spec.Survives.inv {P : State D → Op → Prop} {n : Nat} {st : State D} (h : Survives scan P n st) : GInv False st := by
  induction h with
  | init => exact GInv.weaken inv_init
  | step op _ _ hg ih => exact step_inv ih op hg
  | abort op _ _ ha ih => exact aborts_inv ih ha


theorem Reachable.survives {st : State D} (h : Reachable scan st) : ∃ n, Survives scan Any n st := by
  refine ⟨0, ?_⟩
  induction h with
  | init => exact .init
  | step op _ hg ih => exact .step op ih trivial hg

theorem survives_step {st : State D} (h : ∃ n, Survives scan Any n st) (op : Op) (hg : (step scan st op).2.goesOn = true) :
    ∃ n, Survives scan Any n (step scan st op).1 := by
  obtain ⟨n, hn⟩ := h
  exact ⟨n, .step op hn trivial hg⟩

end BletArgs
