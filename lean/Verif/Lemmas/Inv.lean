import Verif.Lemmas.Map
import Verif.Spec.Api
/-
Lemmas: the registry invariant and its preservation by every mutator.
-/
namespace BletArgs
open Spec
variable {D : Type} {full : Prop}

/-- Shape of the names of one argument. -/
structure ArgForm (a : Argument D) : Prop where
  sorted : SortedBy compareFlag a.names
  positional : a.isPositional = true → ∃ n, a.names = [n] ∧ NameForm n
  option : a.isPositional = false → a.names ≠ [] ∧ ∀ f ∈ a.names, FlagForm f

theorem ArgForm.ne_nil {a : Argument D} (h : ArgForm a) : a.names ≠ [] := by
  cases hp : a.isPositional with
  | true => obtain ⟨n, hn, _⟩ := h.positional hp; simp [hn]
  | false => exact (h.option hp).1

/-- The order of the argument list. -/
def slotLt (a b : Slot D) : Bool := a.arg.compareOption b.arg

theorem slotLt_strictWeak : StrictWeak (slotLt (D := D)) where
  irrefl a := compareOption_strictWeak.irrefl a.arg
  trans a b c := compareOption_strictWeak.trans a.arg b.arg c.arg
  negTrans a b c := compareOption_strictWeak.negTrans a.arg b.arg c.arg

/-- Registry invariant, without the order of the list. `full` is false for histories in which memory ran out (`Props/Failing`):
then arguments without registered name and objects that are not listed may exist. -/
structure PreInv (full : Prop) (l : List (Slot D)) (m : List (Str × Nat)) (nn no : Nat) (freed : List Nat) : Prop where
  nodes : (l.map (·.node)).Nodup
  nodesLt : ∀ s ∈ l, s.node < nn
  objs : (l.map (·.obj)).Nodup
  objsLt : ∀ s ∈ l, s.obj < no
  keys : (m.map (·.1)).Nodup
  entries : ∀ p ∈ m, ∃ s ∈ l, s.node = p.2 ∧ p.1 ∈ s.arg.names
  namedIf : full → ∀ s ∈ l, ∃ n ∈ s.arg.names, (n, s.node) ∈ m
  forms : ∀ s ∈ l, ArgForm s.arg
  freedNodup : freed.Nodup
  freedLt : ∀ o ∈ freed, o < no
  freedDead : ∀ s ∈ l, s.obj ∉ freed
  noLeakIf : full → ∀ o, o < no → o ∈ freed ∨ ∃ s ∈ l, s.obj = o

/-- Registry invariant. -/
structure RegInv (full : Prop) (l : List (Slot D)) (m : List (Str × Nat)) (nn no : Nat) (freed : List Nat) : Prop
    extends PreInv full l m nn no freed where
  sortedIf : full → SortedBy slotLt l

section
variable {l : List (Slot D)} {m : List (Str × Nat)} {nn no : Nat} {freed : List Nat}

theorem PreInv.named (h : PreInv True l m nn no freed) : ∀ s ∈ l, ∃ n ∈ s.arg.names, (n, s.node) ∈ m := h.namedIf trivial

theorem PreInv.noLeak (h : PreInv True l m nn no freed) : ∀ o, o < no → o ∈ freed ∨ ∃ s ∈ l, s.obj = o := h.noLeakIf trivial

theorem RegInv.sorted (h : RegInv True l m nn no freed) : SortedBy slotLt l := h.sortedIf trivial

end

/-- The part of a slot the registry invariant depends on. -/
def Slot.sig (s : Slot D) : Slot D :=
  { s with arg := { names := s.arg.names, isRequired := s.arg.isRequired,
                    type := if s.arg.isPositional then .pos else .simple } }

@[simp] theorem Slot.sig_node (s : Slot D) : s.sig.node = s.node := rfl
@[simp] theorem Slot.sig_obj (s : Slot D) : s.sig.obj = s.obj := rfl
@[simp] theorem Slot.sig_names (s : Slot D) : s.sig.arg.names = s.arg.names := rfl
@[simp] theorem Slot.sig_required (s : Slot D) : s.sig.arg.isRequired = s.arg.isRequired := rfl
@[simp] theorem Slot.sig_positional (s : Slot D) : s.sig.arg.isPositional = s.arg.isPositional := by
  unfold Slot.sig Argument.isPositional
  cases h : s.arg.type.isPositional <;> simp [Ty.isPositional]

theorem slotLt_sig (a b : Slot D) : slotLt a.sig b.sig = slotLt a b := by
  unfold slotLt
  rw [compareOption_eq, compareOption_eq]
  simp [Argument.front]

theorem ArgForm.of_sig {a b : Slot D} (h : a.sig = b.sig) (hf : ArgForm a.arg) : ArgForm b.arg := by
  have hn : b.arg.names = a.arg.names := by rw [← Slot.sig_names b, ← Slot.sig_names a, h]
  have hp : b.arg.isPositional = a.arg.isPositional := by
    rw [← Slot.sig_positional b, ← Slot.sig_positional a, h]
  exact ⟨hn ▸ hf.sorted, fun h' => hn ▸ hf.positional (hp ▸ h'),
    fun h' => hn ▸ hf.option (hp ▸ h')⟩

theorem sig_mem {l l' : List (Slot D)} (h : l'.map Slot.sig = l.map Slot.sig) {s : Slot D} (hs : s ∈ l') :
    ∃ t ∈ l, t.sig = s.sig := by
  have : s.sig ∈ l.map Slot.sig := h ▸ List.mem_map.2 ⟨s, hs, rfl⟩
  obtain ⟨t, ht, e⟩ := List.mem_map.1 this
  exact ⟨t, ht, e⟩

theorem sig_fields {s t : Slot D} (h : t.sig = s.sig) :
    t.node = s.node ∧ t.obj = s.obj ∧ t.arg.names = s.arg.names ∧ t.arg.isRequired = s.arg.isRequired ∧
    t.arg.isPositional = s.arg.isPositional :=
  ⟨by rw [← Slot.sig_node t, h, Slot.sig_node], by rw [← Slot.sig_obj t, h, Slot.sig_obj],
   by rw [← Slot.sig_names t, h, Slot.sig_names], by rw [← Slot.sig_required t, h, Slot.sig_required],
   by rw [← Slot.sig_positional t, h, Slot.sig_positional]⟩

/-- The invariant only depends on the signatures. -/
theorem PreInv.congr {l l' : List (Slot D)} {m : List (Str × Nat)} {nn no : Nat} {freed : List Nat}
    (h : l'.map Slot.sig = l.map Slot.sig) (hi : PreInv full l m nn no freed) : PreInv full l' m nn no freed := by
  have hnode : l'.map (·.node) = l.map (·.node) := by
    have := congrArg (List.map Slot.node) h
    simpa [List.map_map, Function.comp_def] using this
  have hobj : l'.map (·.obj) = l.map (·.obj) := by
    have := congrArg (List.map Slot.obj) h
    simpa [List.map_map, Function.comp_def] using this
  refine ⟨hnode ▸ hi.nodes, ?_, hobj ▸ hi.objs, ?_, hi.keys, ?_, ?_, ?_, hi.freedNodup, hi.freedLt, ?_, ?_⟩
  · intro s hs
    obtain ⟨t, ht, e⟩ := sig_mem h hs
    have := sig_fields e
    rw [← this.1]; exact hi.nodesLt t ht
  · intro s hs
    obtain ⟨t, ht, e⟩ := sig_mem h hs
    rw [← (sig_fields e).2.1]; exact hi.objsLt t ht
  · intro p hp
    obtain ⟨s, hs, h1, h2⟩ := hi.entries p hp
    obtain ⟨t, ht, e⟩ := sig_mem h.symm hs
    have := sig_fields e
    exact ⟨t, ht, this.1.trans h1, this.2.2.1 ▸ h2⟩
  · intro hf s hs
    obtain ⟨t, ht, e⟩ := sig_mem h hs
    have := sig_fields e
    obtain ⟨n, h1, h2⟩ := hi.namedIf hf t ht
    exact ⟨n, this.2.2.1 ▸ h1, this.1 ▸ h2⟩
  · intro s hs
    obtain ⟨t, ht, e⟩ := sig_mem h hs
    exact (hi.forms t ht).of_sig e
  · intro s hs
    obtain ⟨t, ht, e⟩ := sig_mem h hs
    rw [← (sig_fields e).2.1]; exact hi.freedDead t ht
  · intro hf o ho
    rcases hi.noLeakIf hf o ho with h1 | ⟨s, hs, h1⟩
    · exact .inl h1
    · obtain ⟨t, ht, e⟩ := sig_mem h.symm hs
      exact .inr ⟨t, ht, (sig_fields e).2.1.trans h1⟩

theorem sorted_congr {l l' : List (Slot D)} (h : l'.map Slot.sig = l.map Slot.sig)
    (hs : SortedBy slotLt l) : SortedBy slotLt l' := by
  have key : ∀ l : List (Slot D), SortedBy slotLt l ↔ SortedBy slotLt (l.map Slot.sig) := by
    intro l
    unfold SortedBy
    rw [List.pairwise_map]
    simp only [slotLt_sig]
  rw [key, h, ← key]; exact hs

theorem RegInv.congr {l l' : List (Slot D)} {m : List (Str × Nat)} {nn no : Nat} {freed : List Nat}
    (h : l'.map Slot.sig = l.map Slot.sig) (hi : RegInv full l m nn no freed) : RegInv full l' m nn no freed :=
  ⟨hi.toPreInv.congr h, fun hf => sorted_congr h (hi.sortedIf hf)⟩

/-- The invariant without the order is stable under permutation. -/
theorem PreInv.perm {l l' : List (Slot D)} {m : List (Str × Nat)} {nn no : Nat} {freed : List Nat}
    (h : l'.Perm l) (hi : PreInv full l m nn no freed) : PreInv full l' m nn no freed := by
  have hm : ∀ s, s ∈ l' ↔ s ∈ l := fun s => h.mem_iff
  refine ⟨(h.map _).nodup_iff.2 hi.nodes, ?_, (h.map _).nodup_iff.2 hi.objs, ?_, hi.keys, ?_, ?_, ?_,
    hi.freedNodup, hi.freedLt, ?_, ?_⟩
  · simpa only [hm] using hi.nodesLt
  · simpa only [hm] using hi.objsLt
  · simpa only [hm] using hi.entries
  · simpa only [hm] using hi.namedIf
  · simpa only [hm] using hi.forms
  · simpa only [hm] using hi.freedDead
  · simpa only [hm] using hi.noLeakIf

/-- The invariant of a state. -/
def GInv (full : Prop) (st : State D) : Prop := RegInv full st.arguments st.byName st.nextNode st.nextObj st.freedObjs

/-- The invariant of a state in histories in which memory does not run out. -/
def Inv (st : State D) : Prop := GInv True st

/-- The invariant of a state during a call, before its final sort. -/
def GPre (full : Prop) (st : State D) : Prop := PreInv full st.arguments st.byName st.nextNode st.nextObj st.freedObjs

def PreInvS (st : State D) : Prop := GPre True st

theorem PreInv.no_empty {l : List (Slot D)} {m : List (Str × Nat)} {nn no : Nat} {freed : List Nat}
    (hi : PreInv full l m nn no freed) : l.any (fun s => s.arg.names.isEmpty) = false := by
  rw [List.any_eq_false]
  intro s hs
  have := (hi.forms s hs).ne_nil
  simpa using this

/-- `arguments_.sort` in a state whose names are in order: no UB, and the invariant is restored. -/
theorem sortArguments_ok {st : State D} (hi : GPre full st) :
    st.sortArguments = ({ st with arguments := stableSort slotLt st.arguments }, .ok ()) ∧
    GInv full { st with arguments := stableSort slotLt st.arguments } := by
  refine ⟨?_, ?_⟩
  · unfold State.sortArguments
    rw [hi.no_empty]; rfl
  · exact ⟨hi.perm (stableSort_perm _), fun _ => stableSort_sorted slotLt_strictWeak _⟩

/-- In a sorted state sorting does nothing. -/
theorem sortArguments_id {st : State D} (hi : Inv st) : st.sortArguments = (st, .ok ()) := by
  rw [(sortArguments_ok hi.toPreInv).1, stableSort_of_sorted _ hi.sorted]

theorem inv_init : Inv (State.init : State D) := by
  refine ⟨⟨?_, ?_, ?_, ?_, ?_, ?_, ?_, ?_, ?_, ?_, ?_, ?_⟩, ?_⟩ <;> simp [State.init, SortedBy]

/-! ### addArgument -/

/-- The slot created by `addArgument`. -/
def State.newSlot (st : State D) (a : Argument D) : Slot D := ⟨st.nextNode, st.nextObj, a⟩

/-- The state after `linkArgument`, before sorting. -/
def State.linked (st : State D) (a : Argument D) : State D :=
  { st with
    arguments := st.arguments ++ [st.newSlot a]
    byName := insertAll st.byName a.names st.nextNode
    nextNode := st.nextNode + 1
    nextObj := st.nextObj + 1 }

theorem linked_preInv {st : State D} (hi : GInv full st) {a : Argument D} (hf : ArgForm a)
    (hnew : ∃ n ∈ a.names, lookupName st.byName n = none) : GPre full (st.linked a) := by
  have hlook : ∀ n v, (n, v) ∈ insertAll st.byName a.names st.nextNode ↔
      (n, v) ∈ st.byName ∨ (lookupName st.byName n = none ∧ n ∈ a.names ∧ v = st.nextNode) := by
    intro n v
    have hk := insertAll_keys hi.keys a.names st.nextNode
    constructor
    · intro h
      have := lookupName_of_mem hk h
      rw [insertAll_lookup] at this
      cases hl : lookupName st.byName n with
      | some w => rw [hl] at this; simp at this; exact .inl (this ▸ lookupName_mem hl)
      | none =>
        rw [hl] at this
        by_cases hm : n ∈ a.names <;> simp [hm] at this
        exact .inr ⟨rfl, hm, this.symm⟩
    · rintro (h | ⟨h1, h2, h3⟩)
      · refine lookupName_mem ?_
        rw [insertAll_lookup, lookupName_of_mem hi.keys h]; rfl
      · refine lookupName_mem ?_
        rw [insertAll_lookup, h1, h3]; simp [h2]
  refine ⟨?_, ?_, ?_, ?_, insertAll_keys hi.keys _ _, ?_, ?_, ?_, hi.freedNodup, ?_, ?_, ?_⟩
  · simp only [State.linked, List.map_append, List.map_cons, List.map_nil, List.nodup_append]
    refine ⟨hi.nodes, by simp, ?_⟩
    rintro n hn n' hn' rfl
    obtain ⟨s, hs, rfl⟩ := List.mem_map.1 hn
    have := hi.nodesLt s hs
    simp only [State.newSlot, List.mem_singleton] at hn'
    omega
  · intro s hs
    simp only [State.linked, List.mem_append, List.mem_singleton] at hs ⊢
    rcases hs with hs | rfl
    · have := hi.nodesLt s hs; omega
    · simp [State.newSlot]
  · simp only [State.linked, List.map_append, List.map_cons, List.map_nil, List.nodup_append]
    refine ⟨hi.objs, by simp, ?_⟩
    rintro n hn n' hn' rfl
    obtain ⟨s, hs, rfl⟩ := List.mem_map.1 hn
    have := hi.objsLt s hs
    simp only [State.newSlot, List.mem_singleton] at hn'
    omega
  · intro s hs
    simp only [State.linked, List.mem_append, List.mem_singleton] at hs ⊢
    rcases hs with hs | rfl
    · have := hi.objsLt s hs; omega
    · simp [State.newSlot]
  · rintro ⟨n, v⟩ hp
    rcases (hlook n v).1 hp with h | ⟨_, h2, h3⟩
    · obtain ⟨s, hs, h1⟩ := hi.entries _ h
      exact ⟨s, by simp [State.linked, hs], h1⟩
    · exact ⟨st.newSlot a, by simp [State.linked], h3.symm, h2⟩
  · intro hfull s hs
    simp only [State.linked, List.mem_append, List.mem_singleton] at hs
    rcases hs with hs | rfl
    · obtain ⟨n, h1, h2⟩ := hi.namedIf hfull s hs
      exact ⟨n, h1, (hlook n _).2 (.inl h2)⟩
    · obtain ⟨n, h1, h2⟩ := hnew
      exact ⟨n, h1, (hlook n _).2 (.inr ⟨h2, h1, rfl⟩)⟩
  · intro s hs
    simp only [State.linked, List.mem_append, List.mem_singleton] at hs
    rcases hs with hs | rfl
    · exact hi.forms s hs
    · exact hf
  · intro o ho
    have := hi.freedLt o ho
    simp only [State.linked]; omega
  · intro s hs
    simp only [State.linked, List.mem_append, List.mem_singleton] at hs
    rcases hs with hs | rfl
    · exact hi.freedDead s hs
    · intro hc
      have := hi.freedLt _ hc
      simp [State.newSlot] at this
  · intro hfull o ho
    simp only [State.linked] at ho ⊢
    by_cases e : o = st.nextObj
    · exact .inr ⟨st.newSlot a, by simp, e.symm⟩
    · rcases hi.noLeakIf hfull o (by omega) with h | ⟨s, hs, h⟩
      · exact .inl h
      · exact .inr ⟨s, by simp [hs], h⟩

theorem linkArgument_ok {st : State D} (hi : GInv full st) {a : Argument D} (hf : ArgForm a)
    (hnew : ∃ n ∈ a.names, lookupName st.byName n = none) :
    st.linkArgument a =
      ({ st.linked a with arguments := stableSort slotLt (st.arguments ++ [st.newSlot a]) }, .ok st.nextObj) ∧
    GInv full { st.linked a with arguments := stableSort slotLt (st.arguments ++ [st.newSlot a]) } := by
  have hp := linked_preInv hi hf hnew
  have := sortArguments_ok hp
  refine ⟨?_, this.2⟩
  unfold State.linkArgument
  have e : ({ st with
      arguments := st.arguments ++ [{ node := st.nextNode, obj := st.nextObj, arg := a }]
      byName := a.names.foldl (fun m n => insertName m n st.nextNode) st.byName
      nextNode := st.nextNode + 1
      nextObj := st.nextObj + 1 } : State D) = st.linked a := rfl
  simp only [e, this.1]
  rfl

/-- The form of what `addArgument` creates. -/
theorem newPositional_form {n : Str} (h1 : n[0]? ≠ some '-') (h2 : n ≠ []) :
    ArgForm ({ names := [n], nargs := 1, type := .pos } : Argument D) where
  sorted := List.pairwise_singleton _ _
  positional _ := by
    refine ⟨n, rfl, ?_⟩
    cases n with
    | nil => exact absurd rfl h2
    | cons c r => exact ⟨c, r, rfl, by simpa using h1⟩
  option h := by simp [Argument.isPositional, Ty.isPositional] at h

theorem newOption_form {fs : List Str} (h2 : fs ≠ []) (h3 : ∀ f ∈ fs, validFormatFlag f = none) :
    ArgForm ({ names := sortNames fs } : Argument D) where
  sorted := sortNames_sorted fs
  positional h := by simp [Argument.isPositional, Ty.isPositional] at h
  option _ := ⟨sortNames_ne_nil h2, fun f hf => (C03_flag_syntax f).1 (h3 f (mem_sortNames.1 hf))⟩

/-- What `addArgument` does: refuse and leave the state alone, or link a fresh argument. -/
inductive AddOutcome (full : Prop) (st : State D) (nof : List Str) : State D × Res Nat → Prop
  | empty : nof = [] → AddOutcome full st nof (st, .throw ⟨.argument, [], "invalid empty flag".toList⟩)
  | emptyName : nof = [[]] → AddOutcome full st nof (st, .throw ⟨.argument, [], "bad name argument".toList⟩)
  | usedName (n : Str) : nof = [n] → NameForm n → (lookupName st.byName n).isSome = true →
      AddOutcome full st nof (st, .throw ⟨.argument, n, "bad name argument already exist".toList⟩)
  | positional (n : Str) (st' : State D) : nof = [n] → NameForm n → lookupName st.byName n = none →
      st' = { st.linked { names := [n], nargs := 1, type := .pos } with
        arguments := stableSort slotLt (st.arguments ++ [st.newSlot { names := [n], nargs := 1, type := .pos }]) } →
      GInv full st' → AddOutcome full st nof (st', .ok st.nextObj)
  | badFlag (f : Str) (msg : Str) : f ∈ nof → validFormatFlag f = some msg →
      (∀ n, nof = [n] → ¬NameForm n ∧ n ≠ []) → AddOutcome full st nof (st, .throw ⟨.argument, f, msg⟩)
  | usedFlag (f : Str) (rest : List Str) : nof = f :: rest → (lookupName st.byName f).isSome = true →
      FlagForm f → (∀ n, nof = [n] → ¬NameForm n ∧ n ≠ []) →
      AddOutcome full st nof (st, .throw ⟨.argument, f, "invalid flag already exist".toList⟩)
  | option (f : Str) (rest fs : List Str) (st' : State D) : nof = f :: rest → (∀ g ∈ nof, FlagForm g) →
      lookupName st.byName f = none → fs.Nodup → (∀ g, g ∈ fs ↔ g ∈ nof) →
      st' = { st.linked { names := sortNames fs } with
        arguments := stableSort slotLt (st.arguments ++ [st.newSlot { names := sortNames fs }]) } →
      GInv full st' → AddOutcome full st nof (st', .ok st.nextObj)

theorem nameForm_iff (n : Str) : NameForm n ↔ n ≠ [] ∧ n[0]? ≠ some '-' := by
  unfold NameForm
  cases n with
  | nil => simp
  | cons c r => simp

theorem addArgument_outcome {st : State D} (hi : GInv full st) (nof : List Str) :
    AddOutcome full st nof (st.addArgument nof) := by
  unfold State.addArgument
  cases nof with
  | nil => exact .empty rfl
  | cons front rest =>
    simp only
    split
    · rename_i hc
      simp only [Bool.and_eq_true, List.isEmpty_iff, bne_iff_ne, ne_eq] at hc
      obtain ⟨rfl, hc⟩ := hc
      split
      · rename_i he
        simp only [List.isEmpty_iff] at he
        subst he
        exact .emptyName rfl
      · rename_i he
        simp only [List.isEmpty_iff] at he
        split
        · rename_i hl
          exact .usedName front rfl ((nameForm_iff _).2 ⟨he, hc⟩) hl
        · rename_i hl
          have hl : lookupName st.byName front = none := by simpa using hl
          have := linkArgument_ok hi (newPositional_form (D := D) hc he) ⟨front, by simp, hl⟩
          rw [this.1]
          exact .positional front _ rfl ((nameForm_iff _).2 ⟨he, hc⟩) hl rfl this.2
    · rename_i hc
      have hnn : ∀ n, front :: rest = [n] → ¬NameForm n ∧ n ≠ [] := by
        intro n hn
        cases hn
        simp only [List.isEmpty_nil, Bool.true_and, bne_iff_ne, ne_eq, Classical.not_not] at hc
        refine ⟨fun h => ((nameForm_iff _).1 h).2 hc, ?_⟩
        rintro rfl; simp at hc
      split
      · rename_i e he
        obtain ⟨hk, h | h⟩ := checkFlags_error he
        · obtain ⟨f, hf, hv, ha⟩ := h
          have : e = ⟨.argument, f, e.what⟩ := by cases e; simp_all
          rw [this]
          exact .badFlag f e.what hf hv hnn
        · have : e = ⟨.argument, front, "invalid flag already exist".toList⟩ := by cases e; simp_all
          rw [this]
          refine .usedFlag front rest rfl h.2.1 ?_ hnn
          -- the first flag was checked before the lookup
          rw [← C03_flag_syntax]
          unfold checkFlags at he
          split at he
          · rename_i msg hv
            cases he
            exfalso
            have := h.2.2.2
            simp only at this
            subst this
            unfold validFormatFlag at hv
            split at hv
            · exact absurd (Option.some.inj hv) (by decide)
            · split at hv
              · exact absurd (Option.some.inj hv) (by decide)
              · split at hv
                · exact absurd (Option.some.inj hv) (by decide)
                · split at hv
                  · exact absurd (Option.some.inj hv) (by decide)
                  · cases hv
          · assumption
      · rename_i fs he
        obtain ⟨h1, h2, h3, h4⟩ := checkFlags_ok he (by simp)
        have h2' : ∀ g, g ∈ fs ↔ g ∈ front :: rest := by intro g; rw [h2]; simp
        have hl := h4 (by simp)
        have hne : fs ≠ [] := by
          intro e; have := (h2' front).2 (by simp); rw [e] at this; cases this
        have hv : ∀ f ∈ fs, validFormatFlag f = none := fun f hf => h3 f ((h2' f).1 hf)
        have := linkArgument_ok hi (newOption_form (D := D) hne hv)
          ⟨front, mem_sortNames.2 ((h2' front).2 (by simp)), hl⟩
        rw [this.1]
        exact .option front rest fs _ rfl (fun g hg => (C03_flag_syntax g).1 (h3 g hg)) hl h1 h2' rfl this.2

theorem addArgument_inv {st : State D} (hi : GInv full st) (nof : List Str) : GInv full (st.addArgument nof).1 := by
  generalize h : st.addArgument nof = r
  have := addArgument_outcome hi nof
  rw [h] at this
  cases this <;> first | exact hi | assumption

end BletArgs
