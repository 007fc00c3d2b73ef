import Verif.Lemmas.ParseFrame
/-
Closed form of the automatic registration of the help option.
-/
namespace BletArgs
open Spec
variable {D : Type} {full : Prop}

theorem insertStable_map {α : Type} {lt : α → α → Bool} (g : α → α) (x : α) (l : List α)
    (h : ∀ y ∈ l, lt (g x) (g y) = lt x y) :
    insertStable lt (g x) (l.map g) = (insertStable lt x l).map g := by
  induction l with
  | nil => rfl
  | cons y ys ih =>
    simp only [List.map_cons, insertStable]
    rw [h y (by simp)]
    split
    · rfl
    · rw [ih fun z hz => h z (List.mem_cons_of_mem _ hz)]; rfl

theorem stableSort_map {α : Type} {lt : α → α → Bool} (g : α → α) (l : List α)
    (h : ∀ x ∈ l, ∀ y ∈ l, lt (g x) (g y) = lt x y) : stableSort lt (l.map g) = (stableSort lt l).map g := by
  unfold stableSort
  suffices ∀ (l acc : List α), (∀ x ∈ acc ++ l, ∀ y ∈ acc ++ l, lt (g x) (g y) = lt x y) →
      (l.map g).foldl (fun acc x => insertStable lt x acc) (acc.map g) =
        (l.foldl (fun acc x => insertStable lt x acc) acc).map g by
    simpa using this l [] (by simpa using h)
  clear h l
  intro l
  induction l with
  | nil => intro acc _; rfl
  | cons x l ih =>
    intro acc h
    simp only [List.map_cons, List.foldl_cons]
    rw [insertStable_map g x acc fun y hy => h x (by simp) y (by simp [hy])]
    refine ih _ fun a ha b hb => ?_
    have hm : ∀ a, a ∈ insertStable lt x acc ++ l → a ∈ acc ++ x :: l := by
      intro a ha
      rw [List.mem_append, (insertStable_perm x acc).mem_iff] at ha
      simp only [List.mem_append, List.mem_cons] at ha ⊢
      rcases ha with (h | h) | h <;> simp [h]
    exact h a (hm a ha) b (hm b hb)

theorem updNode_sort {l : List (Slot D)} {node : Nat} {f : Argument D → Argument D}
    (h : ∀ s ∈ l, s.node = node → ({ s with arg := f s.arg } : Slot D).sig = s.sig) :
    updNode (stableSort slotLt l) node f = stableSort slotLt (updNode l node f) := by
  unfold updNode
  rw [stableSort_map]
  intro x hx y hy
  have key : ∀ x ∈ l, (if (x.node == node) = true then { x with arg := f x.arg } else x).sig = x.sig := by
    intro x hx
    by_cases e : x.node = node
    · simp only [e, beq_self_eq_true, if_true]; rw [← e]; exact h x hx e
    · simp [e]
  rw [← slotLt_sig, key x hx, key y hy, slotLt_sig]

/-- The flags `parseArguments` gives to the automatic help option. -/
def helpFlags (st : State D) : List Str :=
  (if st.argumentExists "-h".toList then [] else ["-h".toList]) ++
  (if st.argumentExists "--help".toList then [] else ["--help".toList])

def helpText : Str := "show this help message and exit".toList

/-- The argument `parseArguments` creates. -/
def helpArgument (flags : List Str) : Argument D :=
  { names := flags, type := .help, nargs := 0, action := .help, help := helpText }

/-- The state after the automatic registration. -/
def State.withHelp (st : State D) : State D :=
  { st with
    arguments := stableSort slotLt (st.arguments ++ [st.newSlot (helpArgument (helpFlags st))])
    byName := insertAll st.byName (helpFlags st) st.nextNode
    nextNode := st.nextNode + 1
    nextObj := st.nextObj + 1
    helpOption := some st.nextObj }

theorem sortNames_helpFlags (st : State D) : sortNames (helpFlags st) = helpFlags st := by
  unfold helpFlags
  cases st.argumentExists "-h".toList <;> cases st.argumentExists "--help".toList <;> decide +kernel

theorem addArgument_helpFlags {st : State D} (hi : GInv full st)
    (hb : (st.argumentExists "-h".toList && st.argumentExists "--help".toList) = false) :
    st.addArgument (helpFlags st) =
      ({ st.linked { names := helpFlags st } with
          arguments := stableSort slotLt (st.arguments ++ [st.newSlot { names := helpFlags st }]) },
        .ok st.nextObj) ∧
    ArgForm ({ names := helpFlags st } : Argument D) ∧ (∀ n ∈ helpFlags st, lookupName st.byName n = none) ∧
    helpFlags st ≠ [] ∧ (helpFlags st).Nodup := by
  have hvh : validFormatFlag "-h".toList = none := by decide +kernel
  have hvl : validFormatFlag "--help".toList = none := by decide +kernel
  have hform : ∀ f ∈ helpFlags st, validFormatFlag f = none := by
    intro f hf
    unfold helpFlags at hf
    rw [List.mem_append] at hf
    rcases hf with hf | hf
    · split at hf
      · cases hf
      · rw [List.mem_singleton] at hf; subst hf; exact hvh
    · split at hf
      · cases hf
      · rw [List.mem_singleton] at hf; subst hf; exact hvl
  have hnone : ∀ n ∈ helpFlags st, lookupName st.byName n = none := by
    intro n hn
    have key : ∀ n, st.argumentExists n = false → lookupName st.byName n = none := by
      intro n h; unfold State.argumentExists at h
      simpa [Option.isSome_eq_false_iff] using h
    unfold helpFlags at hn
    rw [List.mem_append] at hn
    rcases hn with hn | hn <;> split at hn
    · cases hn
    · rw [List.mem_singleton] at hn; subst hn; exact key _ (Bool.eq_false_iff.2 ‹_›)
    · cases hn
    · rw [List.mem_singleton] at hn; subst hn; exact key _ (Bool.eq_false_iff.2 ‹_›)
  have hne : helpFlags st ≠ [] := by
    unfold helpFlags
    revert hb
    cases st.argumentExists "-h".toList <;> cases st.argumentExists "--help".toList <;> intro hb <;>
      first | exact absurd hb (by decide) | (intro e; cases e)
  have hnd : (helpFlags st).Nodup := by
    unfold helpFlags
    cases st.argumentExists "-h".toList <;> cases st.argumentExists "--help".toList <;> decide +kernel
  have haf : ArgForm ({ names := helpFlags st } : Argument D) := by
    have := newOption_form (D := D) hne hform
    rw [sortNames_helpFlags] at this
    exact this
  refine ⟨?_, haf, hnone, hne, hnd⟩
  have hl := (linkArgument_ok hi haf ⟨_, List.head_mem hne, hnone _ (List.head_mem hne)⟩).1
  rw [← hl]
  unfold State.addArgument
  cases hf : helpFlags st with
  | nil => exact absurd hf hne
  | cons front rest =>
    have hdash : front[0]? = some '-' := by
      have := hform front (by rw [hf]; simp)
      rcases (C03_flag_syntax front).1 this with ⟨c, _, e⟩ | ⟨c, r, e⟩ <;> rw [e] <;> rfl
    simp only
    rw [if_neg (by rw [hdash]; simp)]
    have hall : ∀ f ∈ front :: rest, validFormatFlag f = none := by rw [← hf]; exact hform
    have hfn : lookupName st.byName front = none := hnone front (by rw [hf]; simp)
    have : ∀ (fs acc : List Str), (∀ f ∈ fs, validFormatFlag f = none) → (acc ++ fs).Nodup →
        checkFlags st.byName front fs acc = .ok (acc ++ fs) := by
      intro fs
      induction fs with
      | nil => intro acc _ _; simp [checkFlags]
      | cons f fs ih =>
        intro acc h1 h2
        unfold checkFlags
        rw [h1 f (by simp)]
        simp only [hfn, Option.isSome_none, Bool.false_eq_true, if_false]
        have hn : acc.contains f = false := by
          have := List.nodup_append.1 h2
          cases hc : acc.contains f with
          | false => rfl
          | true => exact absurd rfl (this.2.2 f (by simpa using hc) f (by simp))
        rw [hn]
        simp only [Bool.false_eq_true, if_false]
        rw [ih (acc ++ [f]) (fun g hg => h1 g (List.mem_cons_of_mem _ hg)) (by simpa using h2)]
        simp
    rw [this (front :: rest) [] hall (by rw [← hf]; simpa using hnd)]
    simp only [List.nil_append]
    rw [← hf, sortNames_helpFlags]

theorem updNode_new {st : State D} (hi : GInv full st) (a b : Argument D) :
    updNode (st.arguments ++ [st.newSlot a]) st.nextNode (fun _ => b) =
      st.arguments ++ [st.newSlot b] := by
  unfold updNode
  rw [List.map_append]
  congr 1
  · conv => rhs; rw [← List.map_id st.arguments]
    refine List.map_congr_left fun t ht => ?_
    have := hi.nodesLt t ht
    rw [if_neg (by simp; omega)]
    rfl
  · simp [State.newSlot]

theorem action_help_fresh {st : State D} {ref : Nat} {s : Slot D} (h : st.atObj ref = some s)
    {names : List Str} (hs : s.arg = { names := names }) (hh : st.helpOption = none) :
    st.action ref .help =
      ({ st with
          helpOption := some s.obj
          arguments := updNode st.arguments s.node
            (fun _ => { names := names, type := .help, nargs := 0, action := .help }) }, .ok ()) := by
  unfold State.action State.withRef
  rw [h]
  obtain ⟨node, obj, arg⟩ := s
  simp only at hs
  subst hs
  obtain ⟨_, _, _, ho⟩ := st
  simp only at hh
  subst hh
  rfl

theorem autoHelp_ok {st : State D} (hi : GInv full st) (hh : st.helpOption = none)
    (hb : (st.argumentExists "-h".toList && st.argumentExists "--help".toList) = false) :
    st.autoHelp = (st.withHelp, .ok true) := by
  obtain ⟨hadd, haf, hnone, hne, hnd⟩ := addArgument_helpFlags hi hb
  have hi1 : GInv full ({ st.linked { names := helpFlags st } with
      arguments := stableSort slotLt (st.arguments ++ [st.newSlot { names := helpFlags st }]) } : State D) :=
    (linkArgument_ok hi haf ⟨_, List.head_mem hne, hnone _ (List.head_mem hne)⟩).2
  unfold State.autoHelp
  rw [if_pos (by rw [hh]; rfl), if_neg (by rw [hb]; simp)]
  simp only
  have e : (if st.argumentExists "-h".toList = true then [] else ["-h".toList]) ++
      (if st.argumentExists "--help".toList = true then [] else ["--help".toList]) = helpFlags st := rfl
  rw [e, hadd]
  simp only
  generalize hst1 : ({ st.linked { names := helpFlags st } with
      arguments := stableSort slotLt (st.arguments ++ [st.newSlot { names := helpFlags st }]) } : State D) = st1 at hi1 ⊢
  have hmem : st.newSlot { names := helpFlags st } ∈ st1.arguments := by
    rw [← hst1]; simp
  have hat : st1.atObj st.nextObj = some (st.newSlot { names := helpFlags st }) :=
    State.atObj_of_mem hi1.objs hmem
  have hh1 : st1.helpOption = none := by rw [← hst1]; exact hh
  have hact : st1.action st.nextObj .help =
      ({ st1 with
          helpOption := some st.nextObj
          arguments := stableSort slotLt (st.arguments ++
            [st.newSlot { names := helpFlags st, type := .help, nargs := 0, action := .help }]) }, .ok ()) := by
    rw [action_help_fresh hat rfl hh1]
    have : updNode st1.arguments (st.newSlot ({ names := helpFlags st } : Argument D)).node
        (fun _ => { names := helpFlags st, type := .help, nargs := 0, action := .help }) =
        stableSort slotLt (st.arguments ++
          [st.newSlot { names := helpFlags st, type := .help, nargs := 0, action := .help }]) := by
      rw [← hst1]
      simp only
      rw [updNode_sort, show (st.newSlot ({ names := helpFlags st } : Argument D)).node = st.nextNode from rfl,
        updNode_new hi]
      intro s hs hn
      rw [List.mem_append] at hs
      rcases hs with hs | hs
      · have := hi.nodesLt s hs; simp only [State.newSlot] at hn; omega
      · rw [List.mem_singleton] at hs; subst hs; rfl
    rw [this]
    rfl
  rw [hact]
  simp only
  have hat2 : State.atObj { st1 with
          helpOption := some st.nextObj
          arguments := stableSort slotLt (st.arguments ++
            [st.newSlot { names := helpFlags st, type := .help, nargs := 0, action := .help }]) } st.nextObj =
      some (st.newSlot { names := helpFlags st, type := .help, nargs := 0, action := .help }) := by
    have := action_inv hi1 st.nextObj .help
    rw [hact] at this
    exact State.atObj_of_mem (st := { st1 with
          helpOption := some st.nextObj
          arguments := stableSort slotLt (st.arguments ++
            [st.newSlot { names := helpFlags st, type := .help, nargs := 0, action := .help }]) })
      (s := st.newSlot { names := helpFlags st, type := .help, nargs := 0, action := .help }) this.objs (by simp)
  unfold State.setHelp State.withRef
  rw [hat2]
  simp only [modNode_eq, State.newSlot]
  have : updNode (stableSort slotLt (st.arguments ++
      [⟨st.nextNode, st.nextObj, { names := helpFlags st, type := .help, nargs := 0, action := .help }⟩]))
        st.nextNode (fun a => { a with help := "show this help message and exit".toList }) =
      stableSort slotLt (st.arguments ++ [st.newSlot (helpArgument (helpFlags st))]) := by
    rw [updNode_sort]
    · congr 1
      have h2 := updNode_congr (l := st.arguments ++
        [⟨st.nextNode, st.nextObj, { names := helpFlags st, type := .help, nargs := 0, action := .help }⟩])
        (node := st.nextNode) (f := fun a => { a with help := "show this help message and exit".toList })
        (g := fun _ => helpArgument (helpFlags st)) ?_
      · rw [h2]; exact updNode_new hi _ _
      · intro t ht e
        rw [List.mem_append] at ht
        rcases ht with ht | ht
        · have := hi.nodesLt t ht; omega
        · rw [List.mem_singleton] at ht; subst ht; rfl
    · intro s _ _; rfl
  rw [this, ← hst1]
  rfl

/-- The three cases of the start of `parseArguments`. -/
theorem autoHelp_cases {st : State D} (hi : GInv full st) :
    (st.helpOption ≠ none ∧ st.autoHelp = (st, .ok true)) ∨
    (st.helpOption = none ∧ (st.argumentExists "-h".toList && st.argumentExists "--help".toList) = true ∧
      st.autoHelp = (st, .ok false)) ∨
    (st.helpOption = none ∧ (st.argumentExists "-h".toList && st.argumentExists "--help".toList) = false ∧
      st.autoHelp = (st.withHelp, .ok true)) := by
  cases hh : st.helpOption with
  | some o => left; refine ⟨by simp, ?_⟩; unfold State.autoHelp; rw [hh]; rfl
  | none =>
    right
    cases hb : (st.argumentExists "-h".toList && st.argumentExists "--help".toList) with
    | true =>
      left; refine ⟨rfl, rfl, ?_⟩; unfold State.autoHelp; rw [if_pos (by rw [hh]; rfl), if_pos hb]
    | false => right; exact ⟨rfl, rfl, autoHelp_ok hi hh hb⟩

theorem withHelp_inv {st : State D} (hi : GInv full st)
    (hb : (st.argumentExists "-h".toList && st.argumentExists "--help".toList) = false)
    (hh : st.helpOption = none) : GInv full st.withHelp := by
  have := autoHelp_inv hi
  rw [autoHelp_ok hi hh hb] at this
  exact this

/-- What a call of `parseArguments` that does not exit leaves: the configuration it found, possibly with
the automatic help option, and the binary name. -/
theorem parse_config {scan : Str → Option D} {st : State D} (hi : GInv full st) (argv : List Str) :
    (∃ o, (st.parseArguments scan argv).2 = .exit o) ∨
    ∃ b, (st.parseArguments scan argv).1.config = { st.config with binaryName := b } ∨
      (st.helpOption = none ∧
        (st.argumentExists "-h".toList && st.argumentExists "--help".toList) = false ∧
        (st.parseArguments scan argv).1.config = { st.resetAll.withHelp.config with binaryName := b }) := by
  rcases parseArguments_config (scan := scan) hi argv with h | ⟨b, h⟩
  · exact .inl h
  · right
    refine ⟨b, ?_⟩
    have hr : GInv full st.resetAll := inv_of_config (resetAll_config st) hi
    rcases autoHelp_cases hr with ⟨_, e⟩ | ⟨_, _, e⟩ | ⟨h1, h2, e⟩
    · rw [e] at h; simp only [resetAll_config] at h; exact .inl h
    · rw [e] at h; simp only [resetAll_config] at h; exact .inl h
    · rw [e] at h
      exact .inr ⟨h1, h2, h⟩

end BletArgs
