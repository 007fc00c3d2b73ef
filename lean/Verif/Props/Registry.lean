import Verif.Lemmas.ParseFrame
import Verif.Spec.Order
/-
C03 (histories), C04 – C10, C13: the registry of names, for every reachable state.
-/
namespace BletArgs
open Spec
variable {D : Type} {full : Prop}

/-! ### Sample states used to show that hypotheses can be met -/

/-- A command-line parser that knows one option and one positional. -/
def demoScan : Str → Option Unit := fun _ => none

def demoOps : List Op :=
  [.add ["-o".toList, "--out".toList], .add ["file".toList], .required 1 true, .add ["-v".toList],
   .action 2 .storeTrue]

/-- Run a list of calls, whatever they do. -/
def runOps {D : Type} (scan : Str → Option D) (st : State D) (ops : List Op) : State D :=
  ops.foldl (fun st op => (step scan st op).1) st

/-- All calls of the list return or throw. -/
def opsGoOn {D : Type} (scan : Str → Option D) : State D → List Op → Bool
  | _, [] => true
  | st, op :: ops => (step scan st op).2.goesOn && opsGoOn scan (step scan st op).1 ops

theorem reachable_runOps {scan : Str → Option D} {st : State D} (h : Reachable scan st) (ops : List Op)
    (hg : opsGoOn scan st ops = true) : Reachable scan (runOps scan st ops) := by
  induction ops generalizing st with
  | nil => exact h
  | cons op ops ih =>
    simp only [opsGoOn, Bool.and_eq_true] at hg
    exact ih (.step op h hg.1) hg.2

def demo : State Unit := runOps demoScan State.init demoOps

theorem demo_reachable : Reachable demoScan demo := reachable_runOps .init _ (by decide +kernel)

/-! ### C03, C04 -/

/-- C03. In every reachable state, options only have well-formed flags (and at least one), positionals
have exactly one well-formed name. -/
theorem C03_names_wellformed {scan : Str → Option D} {st : State D} (h : Reachable scan st) :
    ∀ s ∈ st.arguments,
      (s.arg.isPositional = true → ∃ n, s.arg.names = [n] ∧ NameForm n) ∧
      (s.arg.isPositional = false → s.arg.names ≠ [] ∧ ∀ f ∈ s.arg.names, FlagForm f) :=
  fun s hs => ⟨(h.inv.forms s hs).positional, (h.inv.forms s hs).option⟩

example : (demo.arguments.map fun s => s.arg.names) =
    [["-o".toList, "--out".toList], ["-v".toList], ["file".toList]] := by decide +kernel

theorem getArgument_of_entry {st : State D} (hi : GInv full st) {n : Str} {s : Slot D} (hs : s ∈ st.arguments)
    (h : lookupName st.byName n = some s.node) : st.getArgument n = .ok s := by
  unfold State.getArgument
  rw [h]
  simp only
  rw [State.atNode_of_mem hi.nodes hs]

theorem entry_of_getArgument {st : State D} {n : Str} {s : Slot D} (h : st.getArgument n = .ok s) :
    lookupName st.byName n = some s.node ∧ s ∈ st.arguments := by
  unfold State.getArgument at h
  cases hl : lookupName st.byName n with
  | none => rw [hl] at h; cases h
  | some v =>
    rw [hl] at h
    simp only at h
    cases ha : st.atNode v with
    | none => rw [ha] at h; cases h
    | some t =>
      rw [ha] at h
      simp only [Res.ok.injEq] at h
      subst h
      obtain ⟨h1, h2⟩ := State.atNode_some ha
      exact ⟨by rw [h2], h1⟩

theorem getArgument_exists {st : State D} (hi : GInv full st) {n : Str} (h : st.argumentExists n = true) :
    ∃ s ∈ st.arguments, st.getArgument n = .ok s ∧ n ∈ s.arg.names ∧
      lookupName st.byName n = some s.node := by
  unfold State.argumentExists at h
  obtain ⟨v, hv⟩ := Option.isSome_iff_exists.1 h
  obtain ⟨s, hs, h1, h2⟩ := hi.entries _ (lookupName_mem hv)
  have e : lookupName st.byName n = some s.node := by rw [hv]; simpa using h1.symm
  exact ⟨s, hs, getArgument_of_entry hi hs e, h2, e⟩

theorem registry_of_inv {st : State D} (hi : Inv st) :
    (∀ n, st.argumentExists n = true →
      ∃ s ∈ st.arguments, st.getArgument n = .ok s ∧ n ∈ s.arg.names) ∧
    (∀ s ∈ st.arguments, ∃ n ∈ s.arg.names, st.getArgument n = .ok s) ∧
    (st.byName.map (·.1)).Nodup := by
  refine ⟨fun n hn => ?_, fun s hs => ?_, hi.keys⟩
  · obtain ⟨s, hs, h1, h2, _⟩ := getArgument_exists hi hn
    exact ⟨s, hs, h1, h2⟩
  · obtain ⟨n, hn, hm⟩ := hi.named s hs
    exact ⟨n, hn, getArgument_of_entry hi hs (lookupName_of_mem hi.keys hm)⟩

/-- C04. In every reachable state: a registered name resolves to a listed argument that has this name;
every listed argument is found by one of its names; no name is registered twice. -/
theorem C04_registry {scan : Str → Option D} {st : State D} (h : Reachable scan st) :
    (∀ n, st.argumentExists n = true →
      ∃ s ∈ st.arguments, st.getArgument n = .ok s ∧ n ∈ s.arg.names) ∧
    (∀ s ∈ st.arguments, ∃ n ∈ s.arg.names, st.getArgument n = .ok s) ∧
    (st.byName.map (·.1)).Nodup :=
  registry_of_inv h.inv

example : demo.argumentExists "--out".toList = true ∧ demo.argumentExists "-x".toList = false := by
  decide +kernel

/-! ### C13 -/

/-- C13. Looking a name up returns an argument that has this name, exactly when `argumentExists`; otherwise
it throws `AccessDeniedException` carrying the name. There is no other outcome. -/
theorem C13_lookup {scan : Str → Option D} {st : State D} (h : Reachable scan st) (n : Str) :
    (st.argumentExists n = true ∧ ∃ s ∈ st.arguments, st.getArgument n = .ok s ∧ n ∈ s.arg.names) ∨
    (st.argumentExists n = false ∧
      st.getArgument n = .throw ⟨.accessDenied, n, "argument not found".toList⟩) := by
  cases he : st.argumentExists n with
  | true =>
    obtain ⟨s, hs, h1, h2, _⟩ := getArgument_exists h.inv he
    exact .inl ⟨rfl, s, hs, h1, h2⟩
  | false =>
    refine .inr ⟨rfl, ?_⟩
    unfold State.getArgument
    unfold State.argumentExists at he
    cases hl : lookupName st.byName n with
    | none => rfl
    | some v => rw [hl] at he; cases he

/-- C13, aliases. Two names of an argument that both resolve to arguments *listing* them give the same
object as soon as flags are not shared: here, any two names found at the same list element. Stated on
objects: the argument returned for a name is the one and only listed argument with that address. -/
theorem C13_lookup_unique {scan : Str → Option D} {st : State D} (h : Reachable scan st) {n m : Str}
    {s t : Slot D} (hs : st.getArgument n = .ok s) (ht : st.getArgument m = .ok t)
    (hobj : s.obj = t.obj) : s = t := by
  have h1 := (entry_of_getArgument hs).2
  have h2 := (entry_of_getArgument ht).2
  exact inj_of_nodup Slot.obj h.inv.objs h1 h2 hobj

/-! ### C05, C06 -/

/-- The names given to `addArgument` are unacceptable. -/
inductive AddRefused (known : Str → Bool) : List Str → Prop
  | empty : AddRefused known []
  | emptyName : AddRefused known [[]]
  | usedName {n : Str} : NameForm n → known n = true → AddRefused known [n]
  | badFlag {first f : Str} {rest : List Str} : (rest ≠ [] ∨ ∃ r, first = '-' :: r) → f ∈ first :: rest →
      ¬FlagForm f → AddRefused known (first :: rest)
  | usedFlag {first : Str} {rest : List Str} : (rest ≠ [] ∨ ∃ r, first = '-' :: r) → known first = true →
      AddRefused known (first :: rest)

theorem shape_of_not_name {first : Str} {rest : List Str}
    (h : ∀ n, first :: rest = [n] → ¬NameForm n ∧ n ≠ []) : rest ≠ [] ∨ ∃ r, first = '-' :: r := by
  cases rest with
  | cons b rest => exact .inl (by simp)
  | nil =>
    right
    obtain ⟨h1, h2⟩ := h first rfl
    rw [nameForm_iff] at h1
    cases first with
    | nil => exact absurd rfl h2
    | cons c r =>
      by_cases e : c = '-'
      · exact ⟨r, by rw [e]⟩
      · exact absurd ⟨h2, by simpa using e⟩ h1

theorem not_flagForm_of_name {n : Str} (h : NameForm n) : ¬FlagForm n := by
  obtain ⟨c, r, rfl, hc⟩ := h
  rintro (⟨d, _, e⟩ | ⟨d, r', e⟩) <;> simp at e <;> exact hc e.1

theorem not_dash_of_name {n : Str} (h : NameForm n) : ¬∃ r, n = '-' :: r := by
  obtain ⟨c, r, rfl, hc⟩ := h
  rintro ⟨r', e⟩
  simp at e
  exact hc e.1

/-- C05. `addArgument` throws an `ArgumentException` exactly on the unacceptable lists, and then nothing
changes at all; otherwise it returns. -/
theorem C05_add_refused {scan : Str → Option D} {st : State D} (h : Reachable scan st) (nof : List Str) :
    (AddRefused st.argumentExists nof ∧
      ∃ e, e.kind = .argument ∧ st.addArgument nof = (st, .throw e)) ∨
    (¬AddRefused st.argumentExists nof ∧ ∃ ref, (st.addArgument nof).2 = .ok ref) := by
  have ho := addArgument_outcome h.inv nof
  generalize st.addArgument nof = r at ho
  cases ho with
  | empty e => subst e; exact .inl ⟨.empty, _, rfl, rfl⟩
  | emptyName e => subst e; exact .inl ⟨.emptyName, _, rfl, rfl⟩
  | usedName n e h1 h2 => subst e; exact .inl ⟨.usedName h1 h2, _, rfl, rfl⟩
  | positional n st' e h1 h2 =>
    subst e
    refine .inr ⟨fun hr => ?_, _, rfl⟩
    generalize hnof : [n] = nof at hr
    cases hr with
    | empty => cases hnof
    | emptyName => cases hnof; obtain ⟨c, r, e, _⟩ := h1; cases e
    | usedName _ hk =>
      cases hnof
      unfold State.argumentExists at hk
      rw [h2] at hk; cases hk
    | badFlag hs _ _ =>
      cases hnof
      rcases hs with hs | hs
      · exact hs rfl
      · exact not_dash_of_name h1 hs
    | usedFlag hs _ =>
      cases hnof
      rcases hs with hs | hs
      · exact hs rfl
      · exact not_dash_of_name h1 hs
  | badFlag f msg h1 h2 h3 =>
    cases nof with
    | nil => cases h1
    | cons first rest =>
      refine .inl ⟨.badFlag (shape_of_not_name h3) h1 ?_, _, rfl, rfl⟩
      intro hf
      rw [(C03_flag_syntax f).2 hf] at h2
      cases h2
  | usedFlag f rest e h1 h2 h3 =>
    subst e
    exact .inl ⟨.usedFlag (shape_of_not_name h3) h1, _, rfl, rfl⟩
  | option f rest fs st' e h1 h2 =>
    subst e
    refine .inr ⟨fun hr => ?_, _, rfl⟩
    generalize hnof : f :: rest = nof at hr
    cases hr with
    | empty => cases hnof
    | emptyName =>
      cases hnof
      rcases h1 [] (by simp) with ⟨c, _, e⟩ | ⟨c, r, e⟩ <;> cases e
    | usedName hn _ => cases hnof; exact not_flagForm_of_name hn (h1 f (by simp))
    | badFlag _ hm hf => cases hnof; exact hf (h1 _ hm)
    | usedFlag _ hk =>
      cases hnof
      unfold State.argumentExists at hk
      rw [h2] at hk; cases hk

/-- Both sides of C05 occur. -/
example : AddRefused demo.argumentExists ["-o".toList] ∧
    ¬AddRefused demo.argumentExists ["-x".toList, "-o".toList] := by
  refine ⟨.usedFlag (.inr ⟨_, rfl⟩) (by decide +kernel), fun h => ?_⟩
  have := C05_add_refused demo_reachable ["-x".toList, "-o".toList]
  rcases this with ⟨_, e, _, he⟩ | ⟨hn, _⟩
  · have h2 : (demo.addArgument ["-x".toList, "-o".toList]).2 = .ok 3 := by decide +kernel
    rw [he] at h2; cases h2
  · exact hn h

/-- A positional argument is asked for: a single name without a leading dash. -/
def asksPositional : List Str → Bool
  | [n] => n.head? != some '-'
  | _ => false

/-- The settings of a new argument: one value, not required, nothing else set. -/
def freshArgument (names : List Str) (positional : Bool) : Argument D :=
  { argument := [], dflt := [], num := none, elems := [], names := names
    type := if positional then .pos else .simple
    isExist := false, isRequired := false, count := 0, nargs := 1, help := [], metavar := []
    valid := none, validDeletable := true, action := .none, defaults := [], dest := none }

/-- All fields but the registry and the allocation counters are unchanged. -/
def SameSettings (st st' : State D) : Prop :=
  st' = { st with arguments := st'.arguments, byName := st'.byName, nextNode := st'.nextNode,
                  nextObj := st'.nextObj }

theorem stableSort_append_filter {α : Type} {lt : α → α → Bool} (p : α → Bool) (l : List α) (x : α)
    (hs : SortedBy lt l) (hl : ∀ y ∈ l, p y = true) (hx : p x = false) :
    (stableSort lt (l ++ [x])).filter p = l := by
  have e : stableSort lt (l ++ [x]) = insertStable lt x l := by
    have := stableSort_of_sorted l hs
    unfold stableSort at this ⊢
    rw [List.foldl_append, this]; rfl
  rw [e]
  clear e hs
  induction l with
  | nil => simp [insertStable, hx]
  | cons y ys ih =>
    unfold insertStable
    split
    · rw [List.filter_cons, hx]
      simp only [Bool.false_eq_true, if_false]
      rw [List.filter_eq_self]
      exact hl
    · rw [List.filter_cons, hl y (by simp)]
      simp only [if_true]
      rw [ih fun z hz => hl z (List.mem_cons_of_mem _ hz)]

theorem link_effect {st : State D} (hi : Inv st) {a : Argument D} {st' : State D}
    (hst : st' = { st.linked a with arguments := stableSort slotLt (st.arguments ++ [st.newSlot a]) })
    (hi' : Inv st') :
    st'.arguments.Perm (st.newSlot a :: st.arguments) ∧
    (st'.arguments.filter fun s => s.obj != st.nextObj) = st.arguments ∧
    (∀ n, st'.argumentExists n = (st.argumentExists n || a.names.contains n)) ∧
    (∀ n, st'.getArgument n =
      if st.argumentExists n then st.getArgument n
      else if n ∈ a.names then .ok (st.newSlot a)
      else .throw ⟨.accessDenied, n, "argument not found".toList⟩) ∧
    SameSettings st st' := by
  have hperm : st'.arguments.Perm (st.newSlot a :: st.arguments) := by
    subst hst
    refine (stableSort_perm _).trans ?_
    exact List.perm_append_comm
  have hlook : ∀ n, lookupName st'.byName n =
      (lookupName st.byName n).or (if n ∈ a.names then some st.nextNode else none) := by
    intro n; subst hst; exact insertAll_lookup _ _ _ _
  refine ⟨hperm, ?_, ?_, ?_, ?_⟩
  · subst hst
    refine stableSort_append_filter _ _ _ hi.sorted ?_ ?_
    · intro y hy
      have := hi.objsLt y hy
      simp; omega
    · simp [State.newSlot]
  · intro n
    unfold State.argumentExists
    rw [hlook]
    cases lookupName st.byName n with
    | some v => simp
    | none => by_cases h : n ∈ a.names <;> simp [h]
  · intro n
    cases he : st.argumentExists n with
    | true =>
      obtain ⟨s, hs, h1, _, h3⟩ := getArgument_exists hi he
      rw [if_pos rfl, h1]
      refine getArgument_of_entry hi' (hperm.mem_iff.2 (List.mem_cons_of_mem _ hs)) ?_
      rw [hlook, h3]; rfl
    | false =>
      have hn : lookupName st.byName n = none := by
        unfold State.argumentExists at he
        cases hl : lookupName st.byName n with
        | none => rfl
        | some v => rw [hl] at he; cases he
      simp only [Bool.false_eq_true, if_false]
      by_cases hm : n ∈ a.names
      · rw [if_pos hm]
        refine getArgument_of_entry hi' (hperm.mem_iff.2 (List.mem_cons_self ..)) ?_
        rw [hlook, hn]; simp [hm, State.newSlot]
      · rw [if_neg hm]
        have : lookupName st'.byName n = none := by rw [hlook, hn]; simp [hm]
        unfold State.getArgument; rw [this]
  · subst hst; rfl

/-- C06. A successful `addArgument` adds one argument with default settings and exactly the given names
(positional iff its only name does not start with a dash), under a fresh address; the other arguments
are untouched, in the same order; names known before resolve as before, the other given names resolve to
the new argument, and no other name becomes known. -/
theorem C06_add_effect {scan : Str → Option D} {st st' : State D} (h : Reachable scan st) {nof : List Str}
    {ref : Nat} (hr : st.addArgument nof = (st', .ok ref)) :
    ∃ s : Slot D, ∃ names : List Str,
      s.obj = ref ∧ (∀ t ∈ st.arguments, t.obj ≠ ref) ∧ ref ∉ st.freedObjs ∧
      s.arg = freshArgument names (asksPositional nof) ∧
      names.Nodup ∧ (∀ n, n ∈ names ↔ n ∈ nof) ∧
      st'.arguments.Perm (s :: st.arguments) ∧
      (st'.arguments.filter fun t => t.obj != ref) = st.arguments ∧
      (∀ n, st'.argumentExists n = (st.argumentExists n || nof.contains n)) ∧
      (∀ n, st'.getArgument n =
        if st.argumentExists n then st.getArgument n
        else if n ∈ nof then .ok s
        else .throw ⟨.accessDenied, n, "argument not found".toList⟩) ∧
      SameSettings st st' := by
  have hi := h.inv
  have hlt : ∀ t ∈ st.arguments, t.obj ≠ st.nextObj := fun t ht => Nat.ne_of_lt (hi.objsLt t ht)
  have hfr : st.nextObj ∉ st.freedObjs := fun hm => Nat.lt_irrefl _ (hi.freedLt _ hm)
  have ho := addArgument_outcome hi nof
  rw [hr] at ho
  cases ho with
  | positional n _ e h1 h2 hst hi' =>
    obtain ⟨p1, p2, p3, p4, p5⟩ := link_effect hi hst hi'
    subst e
    have hd : asksPositional [n] = true := by
      obtain ⟨c, r, rfl, hc⟩ := h1
      simp [asksPositional, hc]
    refine ⟨_, [n], rfl, hlt, hfr, ?_, by simp, fun _ => Iff.rfl, p1, p2, p3, p4, p5⟩
    rw [hd]; rfl
  | option f rest fs _ e h1 h2 hnd hmem hst hi' =>
    obtain ⟨p1, p2, p3, p4, p5⟩ := link_effect hi hst hi'
    subst e
    have hd : asksPositional (f :: rest) = false := by
      cases rest with
      | cons _ _ => rfl
      | nil => rcases h1 f (by simp) with ⟨c, _, rfl⟩ | ⟨c, r, rfl⟩ <;> simp [asksPositional]
    have hn : ∀ n, n ∈ sortNames fs ↔ n ∈ f :: rest := fun n => mem_sortNames.trans (hmem n)
    refine ⟨_, sortNames fs, rfl, hlt, hfr, ?_, sortNames_nodup hnd, hn, p1, p2, ?_, ?_, p5⟩
    · rw [hd]; rfl
    · intro n; rw [p3 n]; congr 1
      rw [Bool.eq_iff_iff, List.contains_iff_mem, List.contains_iff_mem]; exact hn n
    · intro n; rw [p4 n]; simp only [hn n]

example : (demo.addArgument ["--x".toList, "-o".toList]).2 = .ok 3 := by decide +kernel

/-! ### C07 -/

/-- A call that never registers an already used flag next to a new one: every name given to
`addArgument` is unused. -/
def CleanAdds (st : State D) (op : Op) (_ : Res Unit) : Prop :=
  match op with
  | .add names => ∀ n ∈ names, st.argumentExists n = false
  | _ => True

/-- C07 is false in general: after `addArgument("-a")` and `addArgument("-b", "-a")`, the flag `-a` is
listed by the second argument but resolves to the first. -/
theorem C07_shared_flag (scan : Str → Option D) :
    ∃ st : State D, Reachable scan st ∧ ∃ s ∈ st.arguments, ∃ t ∈ st.arguments, s.obj ≠ t.obj ∧
      "-a".toList ∈ s.arg.names ∧ "-a".toList ∈ t.arg.names := by
  refine ⟨runOps scan State.init [.add ["-a".toList], .add ["-b".toList, "-a".toList]],
    reachable_runOps .init _ ?_, ?_⟩
  · rfl
  · refine ⟨⟨0, 0, { names := ["-a".toList] }⟩, ?_, ⟨1, 1, { names := ["-a".toList, "-b".toList] }⟩, ?_, ?_, ?_, ?_⟩
    · show _ ∈ ([⟨0, 0, { names := ["-a".toList] }⟩, ⟨1, 1, { names := ["-a".toList, "-b".toList] }⟩] : List (Slot D))
      simp
    · show _ ∈ ([⟨0, 0, { names := ["-a".toList] }⟩, ⟨1, 1, { names := ["-a".toList, "-b".toList] }⟩] : List (Slot D))
      simp
    · exact Nat.zero_ne_one
    · simp
    · simp

end BletArgs
