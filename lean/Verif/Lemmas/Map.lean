import Verif.Model.State
import Verif.Lemmas.Compare
/-
Lemmas: the name map, slots by address, sorting of names.
-/
namespace BletArgs
variable {D : Type}

theorem lookupName_mem {m : List (Str × Nat)} {n : Str} {v : Nat} (h : lookupName m n = some v) :
    (n, v) ∈ m := by
  unfold lookupName at h
  cases hf : m.find? (fun p => p.1 == n) with
  | none => simp [hf] at h
  | some p =>
    simp only [hf, Option.map_some, Option.some.injEq] at h
    have h1 := List.find?_some hf
    have h2 := List.mem_of_find?_eq_some hf
    simp only [beq_iff_eq] at h1
    rw [← h, ← h1]; exact h2

theorem lookupName_none {m : List (Str × Nat)} {n : Str} :
    lookupName m n = none ↔ ∀ p ∈ m, p.1 ≠ n := by
  unfold lookupName
  simp [List.find?_eq_none]

theorem lookupName_isSome {m : List (Str × Nat)} {n : Str} :
    (lookupName m n).isSome = true ↔ ∃ v, (n, v) ∈ m := by
  constructor
  · intro h
    obtain ⟨v, hv⟩ := Option.isSome_iff_exists.1 h
    exact ⟨v, lookupName_mem hv⟩
  · rintro ⟨v, hv⟩
    cases h : lookupName m n with
    | none => exact absurd rfl (lookupName_none.1 h _ hv)
    | some _ => rfl

theorem lookupName_of_mem {m : List (Str × Nat)} (hk : (m.map (·.1)).Nodup) {n : Str} {v : Nat}
    (h : (n, v) ∈ m) : lookupName m n = some v := by
  induction m with
  | nil => cases h
  | cons p m ih =>
    simp only [List.map_cons, List.nodup_cons] at hk
    unfold lookupName
    rcases List.mem_cons.1 h with rfl | h
    · simp
    · have : p.1 ≠ n := fun e => hk.1 (e ▸ List.mem_map.2 ⟨(n, v), h, rfl⟩)
      have hb : (p.1 == n) = false := by simpa using this
      rw [List.find?_cons, hb]
      exact ih hk.2 h

theorem lookupName_append {m₁ m₂ : List (Str × Nat)} {n : Str} :
    lookupName (m₁ ++ m₂) n = (lookupName m₁ n).or (lookupName m₂ n) := by
  unfold lookupName
  rw [List.find?_append]
  cases m₁.find? (fun p => p.1 == n) <;> simp

theorem insertName_lookup (m : List (Str × Nat)) (n n' : Str) (v : Nat) :
    lookupName (insertName m n v) n' =
      (lookupName m n').or (if n' = n then some v else none) := by
  unfold insertName
  split
  · rename_i h
    by_cases e : n' = n
    · subst e; obtain ⟨w, hw⟩ := Option.isSome_iff_exists.1 h; simp [hw]
    · simp [e]
  · rw [lookupName_append]
    congr 1
    unfold lookupName
    by_cases e : n' = n
    · subst e; simp
    · simp [e, Ne.symm e]

theorem insertName_keys {m : List (Str × Nat)} (hk : (m.map (·.1)).Nodup) (n : Str) (v : Nat) :
    ((insertName m n v).map (·.1)).Nodup := by
  unfold insertName
  split
  · exact hk
  · rename_i h
    rw [List.map_append, List.nodup_append]
    refine ⟨hk, by simp, ?_⟩
    intro a ha b hb
    simp only [List.map_cons, List.map_nil, List.mem_singleton] at hb
    subst hb
    rintro rfl
    obtain ⟨p, hp, rfl⟩ := List.mem_map.1 ha
    exact h (lookupName_isSome.2 ⟨p.2, hp⟩)

theorem mem_insertName {m : List (Str × Nat)} {n : Str} {v : Nat} {p : Str × Nat} :
    p ∈ insertName m n v ↔ p ∈ m ∨ (p = (n, v) ∧ lookupName m n = none) := by
  unfold insertName
  split
  · rename_i h
    obtain ⟨w, hw⟩ := Option.isSome_iff_exists.1 h
    simp [hw]
  · rename_i h
    have : lookupName m n = none := by simpa using h
    simp [this]

/-- Registering several names for one argument. -/
def insertAll (m : List (Str × Nat)) (names : List Str) (v : Nat) : List (Str × Nat) :=
  names.foldl (fun m n => insertName m n v) m

theorem insertAll_keys {m : List (Str × Nat)} (hk : (m.map (·.1)).Nodup) (names : List Str) (v : Nat) :
    ((insertAll m names v).map (·.1)).Nodup := by
  unfold insertAll
  induction names generalizing m with
  | nil => exact hk
  | cons n ns ih => exact ih (insertName_keys hk n v)

theorem insertAll_lookup (m : List (Str × Nat)) (names : List Str) (v : Nat) (n' : Str) :
    lookupName (insertAll m names v) n' =
      (lookupName m n').or (if n' ∈ names then some v else none) := by
  unfold insertAll
  induction names generalizing m with
  | nil => simp
  | cons n ns ih =>
    rw [List.foldl_cons, ih, insertName_lookup]
    cases h : lookupName m n' with
    | some w => simp
    | none =>
      by_cases e : n' = n <;> by_cases e2 : n' ∈ ns <;> simp [e, e2]
      all_goals (subst e; simp_all)

theorem filter_lookup {m : List (Str × Nat)} (n n' : Str) :
    lookupName (m.filter (fun p => !(p.1 == n))) n' = if n' = n then none else lookupName m n' := by
  by_cases e : n' = n
  · subst e
    rw [if_pos rfl, lookupName_none]
    intro p hp
    simpa using (List.mem_filter.1 hp).2
  · rw [if_neg e]
    unfold lookupName
    rw [List.find?_filter]
    congr 2
    funext p
    by_cases h : p.1 = n'
    · simp [h, e]
    · simp [h]

/-! ### Slots by address -/

theorem State.atNode_some {st : State D} {n : Nat} {s : Slot D} (h : st.atNode n = some s) :
    s ∈ st.arguments ∧ s.node = n := by
  unfold State.atNode at h
  exact ⟨List.mem_of_find?_eq_some h, by simpa using List.find?_some h⟩

theorem State.atObj_some {st : State D} {n : Nat} {s : Slot D} (h : st.atObj n = some s) :
    s ∈ st.arguments ∧ s.obj = n := by
  unfold State.atObj at h
  exact ⟨List.mem_of_find?_eq_some h, by simpa using List.find?_some h⟩

theorem find?_of_nodup {α : Type} (f : α → Nat) {l : List α} (hn : (l.map f).Nodup) {s : α} (h : s ∈ l) :
    l.find? (fun t => f t == f s) = some s := by
  induction l with
  | nil => cases h
  | cons t l ih =>
    simp only [List.map_cons, List.nodup_cons] at hn
    rcases List.mem_cons.1 h with rfl | h
    · simp
    · have : f t ≠ f s := fun e => hn.1 (e ▸ List.mem_map.2 ⟨s, h, rfl⟩)
      have hb : (f t == f s) = false := by simpa using this
      rw [List.find?_cons, hb]
      exact ih hn.2 h

theorem State.atNode_of_mem {st : State D} (hn : (st.arguments.map (·.node)).Nodup) {s : Slot D}
    (h : s ∈ st.arguments) : st.atNode s.node = some s := find?_of_nodup Slot.node hn h

theorem State.atObj_of_mem {st : State D} (hn : (st.arguments.map (·.obj)).Nodup) {s : Slot D}
    (h : s ∈ st.arguments) : st.atObj s.obj = some s := find?_of_nodup Slot.obj hn h

theorem inj_of_nodup {α : Type} (f : α → Nat) {l : List α} (hn : (l.map f).Nodup) {s t : α}
    (hs : s ∈ l) (ht : t ∈ l) (h : f s = f t) : s = t := by
  have h1 := find?_of_nodup f hn hs
  have h2 := find?_of_nodup f hn ht
  rw [h] at h1
  rw [h1] at h2
  exact Option.some.inj h2

/-! ### Names -/

@[simp] theorem mem_sortNames {n : Str} {l : List Str} : n ∈ sortNames l ↔ n ∈ l := mem_stableSort

theorem sortNames_sorted (l : List Str) : SortedBy compareFlag (sortNames l) :=
  stableSort_sorted compareFlag_strictWeak l

theorem sortNames_nodup {l : List Str} (h : l.Nodup) : (sortNames l).Nodup :=
  (stableSort_perm l).nodup_iff.2 h

theorem sortNames_ne_nil {l : List Str} (h : l ≠ []) : sortNames l ≠ [] := by
  intro e
  have := (stableSort_perm (lt := compareFlag) l).length_eq
  unfold sortNames at e
  rw [e] at this
  exact h (List.length_eq_zero_iff.1 this.symm)

/-- The flags kept by `addArgument`: all those given, once each. -/
theorem checkFlags_ok {m : List (Str × Nat)} {front : Str} {fs acc out : List Str}
    (h : checkFlags m front fs acc = .ok out) (ha : acc.Nodup) :
    out.Nodup ∧ (∀ f, f ∈ out ↔ f ∈ acc ∨ f ∈ fs) ∧ (∀ f ∈ fs, validFormatFlag f = none) ∧
      (fs ≠ [] → lookupName m front = none) := by
  induction fs generalizing acc with
  | nil => simp only [checkFlags, Except.ok.injEq] at h; subst h; simp [ha]
  | cons f fs ih =>
    unfold checkFlags at h
    split at h
    · cases h
    · rename_i hv
      split at h
      · cases h
      · rename_i hl
        have hl : lookupName m front = none := by simpa using hl
        have ha' : (if acc.contains f then acc else acc ++ [f]).Nodup := by
          split
          · exact ha
          · rename_i hc
            rw [List.nodup_append]
            refine ⟨ha, by simp, ?_⟩
            intro a haa b hb
            rw [List.mem_singleton.1 hb]
            rintro rfl
            exact hc (by simpa using haa)
        obtain ⟨h1, h2, h3, _⟩ := ih h ha'
        refine ⟨h1, fun g => ?_, fun g hg => ?_, fun _ => hl⟩
        · rw [h2]
          by_cases hc : acc.contains f
          · simp only [hc, if_true, List.mem_cons]
            constructor
            · rintro (h | h)
              · exact .inl h
              · exact .inr (.inr h)
            · rintro (h | rfl | h)
              · exact .inl h
              · exact .inl (by simpa using hc)
              · exact .inr h
          · simp only [hc, List.mem_append, List.mem_cons, Bool.false_eq_true, if_false]
            grind
        · rcases List.mem_cons.1 hg with rfl | hg
          · exact hv
          · exact h3 g hg

theorem checkFlags_error {m : List (Str × Nat)} {front : Str} {fs acc : List Str} {e : Exn}
    (h : checkFlags m front fs acc = .error e) :
    e.kind = .argument ∧
    ((∃ f ∈ fs, validFormatFlag f = some e.what ∧ e.argument = f) ∨
     (fs ≠ [] ∧ (lookupName m front).isSome = true ∧ e.argument = front ∧
        e.what = "invalid flag already exist".toList)) := by
  induction fs generalizing acc with
  | nil => simp [checkFlags] at h
  | cons f fs ih =>
    unfold checkFlags at h
    split at h
    · rename_i msg hv
      cases h
      exact ⟨rfl, .inl ⟨f, by simp, hv, rfl⟩⟩
    · split at h
      · rename_i hl
        cases h
        exact ⟨rfl, .inr ⟨by simp, hl, rfl, rfl⟩⟩
      · obtain ⟨h1, h2 | h2⟩ := ih h
        · obtain ⟨g, hg, h3⟩ := h2
          exact ⟨h1, .inl ⟨g, by simp [hg], h3⟩⟩
        · exact ⟨h1, .inr ⟨by simp, h2.2⟩⟩

end BletArgs
