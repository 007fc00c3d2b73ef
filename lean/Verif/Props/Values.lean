import Verif.Lemmas.After
import Verif.Props.Parse
/-
The arguments after a parse: C20 (recorded occurrences), C24, C25, C26, C27, C28, C36 and part of C22.

In all these statements `evs` is the unique list of events of the command line (`C20_unique_derivation`),
`s` is an argument before the parse (its address is `s.obj`, its identity in the events is `s.node`), and the
conclusion is about what is read through a reference to it after the parse.
-/
namespace BletArgs
open Spec
variable {D : Type}

/-- C20, records. When the tokens are accepted and `parseArguments` does not exit, the arguments that
`isExists()` are exactly those with an event, and the additional arguments grew by exactly the surplus
words. -/
theorem C20_records {scan : Str → Option D} {st : State D} {argv : List Str} (h : Ready scan st argv)
    {evs : List Event} (hl : Line st.sig st.places (argv.drop 1) evs none)
    (hg : (st.parseArguments scan argv).2.goesOn = true) :
    (∀ s ∈ st.arguments, ∃ s', (st.parseArguments scan argv).1.atObj s.obj = some s' ∧ s'.arg.type = s.arg.type ∧
      (s'.arg.isExist = true ↔ uses s.node evs ≠ [] ∨ fills s.node evs ≠ []) ∧
      s'.arg.count = ((uses s.node evs).map fun u => if u.1 then 2 else 1).sum) ∧
    (st.parseArguments scan argv).1.additional = st.additional ++ extras evs := by
  have e := (parse_of_line h hl).2 rfl
  have hi := h.inv
  have hinv := parseArguments_inv (scan := scan) hi argv hg
  have hne : ∀ o, (st.parseArguments scan argv).2 ≠ .exit o := by
    intro o e; rw [e] at hg; cases hg
  have hcfg : ∃ b, (st.parseArguments scan argv).1.config = { st.config with binaryName := b } := by
    rcases parse_config (scan := scan) hi argv with ⟨o, ho⟩ | ⟨b, hb | ⟨hh, _⟩⟩
    · exact absurd ho (hne o)
    · exact ⟨b, hb⟩
    · exact absurd hh h.help
  rw [e] at hg
  obtain ⟨m1, m2⟩ := afterLoop_marks hg
  rw [← e] at m1 m2
  rw [recordAll_additional] at m2
  refine ⟨?_, m2⟩
  intro s hs
  have hmarks : (st.parseArguments scan argv).1.arguments.map Slot.marks =
      st.arguments.map fun s => (s.node, s.obj, (s.arg.afterTokens s.node evs).isExist, (s.arg.afterTokens s.node evs).count) := by
    rw [m1, recordAll_arguments]
    unfold State.begin State.resetAll
    simp only [List.map_map]
    rfl
  have hmem : (s.node, s.obj, (s.arg.afterTokens s.node evs).isExist, (s.arg.afterTokens s.node evs).count) ∈
      (st.parseArguments scan argv).1.arguments.map Slot.marks := by
    rw [hmarks]; exact List.mem_map.2 ⟨s, hs, rfl⟩
  obtain ⟨s', hs', em⟩ := List.mem_map.1 hmem
  unfold Slot.marks at em
  simp only [Prod.mk.injEq] at em
  obtain ⟨e1, e2, e3, e4⟩ := em
  obtain ⟨k1, k2⟩ := afterTokens_marks hi hs hl
  refine ⟨s', ?_, ?_, ?_, ?_⟩
  · rw [← e2]; exact State.atObj_of_mem hinv.objs hs'
  · obtain ⟨b, hb⟩ := hcfg
    have hc : (st.parseArguments scan argv).1.arguments.map Slot.config = st.arguments.map Slot.config :=
      (congrArg (fun x : State D => x.arguments) hb :)
    obtain ⟨u, hu, eu⟩ := slots_of_config hc hs'
    have g1 : s'.node = u.node := (congrArg (fun x : Slot D => x.node) eu :)
    have : u = s := eq_of_node hi hs hu (g1.symm.trans e1)
    subst this
    exact (congrArg (fun x : Slot D => x.arg.type) eu :)
  · rw [e3]; exact k1
  · rw [e4, k2]; rfl

/-- The hypotheses are met by the reference parser and its long command line. -/
theorem parserLine_events : ∃ evs, Line parser.sig parser.places (parserLine.drop 1) evs none ∧
    (parser.parseArguments demoScan parserLine).2 = .ok () :=
  let ⟨evs, h, _⟩ := parse_ok parserLine_ready parserLine_ok
  ⟨evs, h, parserLine_ok⟩

/-- C24. After a parse that returns, a STORE_TRUE option reads true iff it occurred and a STORE_FALSE option
reads false iff it occurred. -/
theorem C24_booleans {scan : Str → Option D} {st : State D} {argv : List Str} (h : Ready scan st argv)
    {evs : List Event} (hl : Line st.sig st.places (argv.drop 1) evs none)
    (hok : (st.parseArguments scan argv).2 = .ok ()) {s : Slot D} (hs : s ∈ st.arguments) :
    ∃ s', (st.parseArguments scan argv).1.atObj s.obj = some s' ∧
      (s.arg.type = .boolean → (s'.arg.toBool = true ↔ uses s.node evs ≠ []) ∧
        s'.arg.getString = if uses s.node evs ≠ [] then "true".toList else "false".toList) ∧
      (s.arg.type = .reverse → (s'.arg.toBool = false ↔ uses s.node evs ≠ []) ∧
        s'.arg.getString = if uses s.node evs ≠ [] then "false".toList else "true".toList) := by
  obtain ⟨s', h1, h2, h3, _⟩ := (C20_records h hl (by rw [hok]; rfl)).1 s hs
  have hnf : s.arg.isPositional = false → fills s.node evs = [] := by
    intro hp
    cases hf : fills s.node evs with
    | nil => rfl
    | cons v l =>
      exfalso
      exact (option_uses h.inv hs hp hl).1 _ v (mem_fills.1 (by rw [hf]; simp)) rfl
  refine ⟨s', h1, ?_, ?_⟩
  · intro ht
    have hp : s.arg.isPositional = false := by unfold Argument.isPositional; rw [ht]; rfl
    rw [hnf hp] at h3
    simp only [ne_eq, not_true_eq_false, or_false] at h3
    unfold Argument.toBool Argument.getString
    rw [h2, ht]
    refine ⟨by simpa using h3, ?_⟩
    by_cases hx : s'.arg.isExist = true
    · simp only [if_pos hx, if_pos (h3.1 hx)]
    · simp only [if_neg hx, if_neg fun e => hx (h3.2 e)]
  · intro ht
    have hp : s.arg.isPositional = false := by unfold Argument.isPositional; rw [ht]; rfl
    rw [hnf hp] at h3
    simp only [ne_eq, not_true_eq_false, or_false] at h3
    unfold Argument.toBool Argument.getString
    rw [h2, ht]
    refine ⟨by simpa using h3, ?_⟩
    by_cases hx : s'.arg.isExist = true
    · simp only [if_pos hx, if_pos (h3.1 hx)]
    · simp only [if_neg hx, if_neg fun e => hx (h3.2 e)]

example : (parser.arguments.map fun s => s.arg.type).contains .boolean = true ∧
    (parser.arguments.map fun s => s.arg.type).contains .reverse = true := by decide +kernel

/-- C28. `count()` is the number of occurrences, those in the form `-oVALUE` counting twice; it is 0 for a
positional argument. -/
theorem C28_count {scan : Str → Option D} {st : State D} {argv : List Str} (h : Ready scan st argv)
    {evs : List Event} (hl : Line st.sig st.places (argv.drop 1) evs none)
    (hok : (st.parseArguments scan argv).2 = .ok ()) {s : Slot D} (hs : s ∈ st.arguments) :
    ∃ s', (st.parseArguments scan argv).1.atObj s.obj = some s' ∧
      s'.arg.count = (uses s.node evs).length + ((uses s.node evs).filter fun u => u.1).length ∧
      (s.arg.isPositional = true → s'.arg.count = 0) := by
  obtain ⟨s', h1, _, _, h4⟩ := (C20_records h hl (by rw [hok]; rfl)).1 s hs
  refine ⟨s', h1, ?_, ?_⟩
  · rw [h4]
    generalize uses s.node evs = us
    induction us with
    | nil => rfl
    | cons u us ih =>
      rw [List.map_cons, List.sum_cons, ih]
      obtain ⟨att, v⟩ := u
      cases att <;> simp <;> omega
  · intro hp
    have : uses s.node evs = [] := by
      cases hf : uses s.node evs with
      | nil => rfl
      | cons v l =>
        exfalso
        obtain ⟨a, v⟩ := v
        exact (positional_fills h.inv hs hp hl).1 _ a v (mem_uses.1 (by rw [hf]; simp)) rfl
    rw [h4, this]; rfl

/-- The doubled count is real: `-o2` after `--out=1` counts three. -/
example : ((parser.parseArguments demoScan parserLine).1.atObj 0).map (fun s => s.arg.count) = some 3 := by
  decide +kernel

/-- C20, values. When the call returns, the parser shows what the accepted command line says. -/
theorem C20_shows {scan : Str → Option D} {st : State D} {argv : List Str} (h : Ready scan st argv)
    {evs : List Event} (hl : Line st.sig st.places (argv.drop 1) evs none)
    (hok : (st.parseArguments scan argv).2 = .ok ()) : Shows st evs (st.parseArguments scan argv).1 := by
  obtain ⟨h1, h2⟩ := C20_records h hl (by rw [hok]; rfl)
  refine ⟨fun s hs => ?_, h2⟩
  obtain ⟨s', a, b, c, d⟩ := h1 s hs
  refine ⟨s', a, b, c, d, fun ho hk => ?_⟩
  obtain ⟨s2, a', _, c', d'⟩ := parse_vector h hl hok hs ho hk
  rw [a] at a'
  cases a'
  exact ⟨c', d'⟩

theorem shows_of_line {scan : Str → Option D} {st : State D} {argv : List Str} (h : Ready scan st argv)
    {evs : List Event} {err : Option Exn} (hl : Line st.sig st.places (argv.drop 1) evs err)
    (hok : (st.parseArguments scan argv).2 = .ok ()) : Shows st evs (st.parseArguments scan argv).1 := by
  cases err with
  | none => exact C20_shows h hl hok
  | some x => rw [(parse_of_line h hl).1 x rfl] at hok; cases hok

/-- C27. Every occurrence of an argument has the values its kind and `nargs` call for: exactly `nargs` for a
fixed-arity argument, groups of exactly `nargs` for a grouped one; and the parser shows these values. -/
theorem C27_arity {scan : Str → Option D} {st : State D} {argv : List Str} (h : Ready scan st argv)
    {evs : List Event} {err : Option Exn} (hl : Line st.sig st.places (argv.drop 1) evs err) {s : Slot D} (hs : s ∈ st.arguments) :
    (∀ u ∈ uses s.node evs, ValuesFit s.arg.nargs s.arg.type u.2) ∧
    (∀ v ∈ fills s.node evs, ValuesFit s.arg.nargs s.arg.type v) ∧ (fills s.node evs).length ≤ 1 ∧
    ((st.parseArguments scan argv).2 = .ok () → Shows st evs (st.parseArguments scan argv).1) := by
  have hi := h.inv
  have hshow := shows_of_line h hl
  cases hp : s.arg.isPositional with
  | false =>
    have ho := option_uses hi hs hp hl
    have hnf : fills s.node evs = [] := by
      cases hf : fills s.node evs with
      | nil => rfl
      | cons v l =>
        exfalso
        exact ho.1 _ v (mem_fills.1 (by rw [hf]; simp)) rfl
    rw [hnf]
    exact ⟨fun u hu => (ho.2 u hu).1, by simp, by simp, hshow⟩
  | true =>
    obtain ⟨h1, h2, h3⟩ := positional_fills hi hs hp hl
    refine ⟨?_, h3, h2, hshow⟩
    intro u hu
    exact absurd rfl (h1 _ u.1 u.2 (mem_uses.1 hu))

/-- C25. A single-value, fixed-arity or plain infinite option reads the values of its last occurrence (as
accepted and possibly rewritten by its validator, if it has one). -/
theorem C25_last_wins {scan : Str → Option D} {st : State D} {argv : List Str} (h : Ready scan st argv)
    {evs : List Event} (hl : Line st.sig st.places (argv.drop 1) evs none)
    (hok : (st.parseArguments scan argv).2 = .ok ()) {s : Slot D} (hs : s ∈ st.arguments)
    (ht : s.arg.type = .simple ∨ s.arg.type = .number ∨ s.arg.type = .infinite)
    {us : List (Bool × Values)} {att : Bool} {vals : Values} (hu : uses s.node evs = us ++ [(att, vals)]) :
    ∃ s', (st.parseArguments scan argv).1.atObj s.obj = some s' ∧ Validated s.arg.valid vals.flat s'.arg.toVector ∧
      (s.arg.type = .number → vals.flat.length = s.arg.nargs) := by
  have hfit := (C27_arity h hl hs).1 (att, vals) (by rw [hu]; simp)
  obtain ⟨s', h1, _, h2, _⟩ := parse_vector h hl hok hs (.inl (by rw [hu]; simp))
    (by unfold Valueless; rcases ht with e | e | e <;> rw [e] <;> simp)
  refine ⟨s', h1, ?_, ?_⟩
  · have : s.arg.given (uses s.node evs) (fills s.node evs) = vals.flat := by
      unfold Argument.given
      rw [hu]
      rcases ht with e | e | e <;> rw [e] <;> simp
    rwa [this] at h2
  · intro e
    rw [e] at hfit
    generalize hk : Ty.number = k at hfit
    cases hfit with
    | fixed vs _ hl => exact hl
    | nothing h => subst hk; simp [Valueless] at h
    | many vs h => subst hk; simp at h
    | single v h => subst hk; simp at h
    | groups gs h => subst hk; simp at h
    | _ => cases hk

/-- The last occurrence of `--out`, `-n` and `-l` on the long command line. -/
example :
    (let st' := (parser.parseArguments demoScan parserLine).1;
      (st'.atObj 0).bind (fun s => s.arg.toVector) = some ["2".toList] ∧
      (st'.atObj 3).bind (fun s => s.arg.toVector) = some ["a".toList, "b".toList] ∧
      (st'.atObj 4).bind (fun s => s.arg.toVector) = some ["x".toList, "y".toList]) := by decide +kernel

/-- C26. An APPEND or EXTEND option that occurred reads the values of all its occurrences in command-line order
(as accepted and possibly rewritten by its validator, if it has one); what it held before (its default
values) stays in front exactly when the first occurrence has the attached form `-oVALUE`. Grouped options
keep their groups, all of `nargs` values. -/
theorem C26_accumulates {scan : Str → Option D} {st : State D} {argv : List Str} (h : Ready scan st argv)
    {evs : List Event} (hl : Line st.sig st.places (argv.drop 1) evs none)
    (hok : (st.parseArguments scan argv).2 = .ok ()) {s : Slot D} (hs : s ∈ st.arguments)
    {att : Bool} {vals : Values} {us : List (Bool × Values)} (hu : uses s.node evs = (att, vals) :: us) :
    ∃ s', (st.parseArguments scan argv).1.atObj s.obj = some s' ∧
      (s.arg.type = .multi ∨ s.arg.type = .multiInfinite →
        Validated s.arg.valid ((if att then s.arg.oldStrings else []) ++ (uses s.node evs).flatMap fun u => u.2.flat)
          s'.arg.toVector) ∧
      (s.arg.type = .multiNumber ∨ s.arg.type = .multiNumberInfinite →
        ValidatedGroups s.arg.valid ((uses s.node evs).flatMap fun u => u.2.groupList) s'.arg.toVecVec ∧
        ∀ g ∈ (uses s.node evs).flatMap (fun u => u.2.groupList), g.length = s.arg.nargs) := by
  by_cases hk : Accumulates s.arg.type
  · obtain ⟨s', h1, _, h2, h3⟩ := parse_vector h hl hok hs (.inl (by rw [hu]; simp))
      (by unfold Valueless; rcases hk with e | e | e | e <;> rw [e] <;> simp)
    refine ⟨s', h1, ?_, ?_⟩
    · intro ht
      have : s.arg.given (uses s.node evs) (fills s.node evs) =
          (if att then s.arg.oldStrings else []) ++ (uses s.node evs).flatMap fun u => u.2.flat := by
        unfold Argument.given
        rw [hu]
        rcases ht with e | e <;> rw [e] <;> cases att <;> simp
      rwa [this] at h2
    · intro ht
      refine ⟨?_, ?_⟩
      · have h3 := h3 (by rcases ht with e | e <;> simp [e])
        have : s.arg.givenGroups (uses s.node evs) (fills s.node evs) =
            (uses s.node evs).flatMap fun u => u.2.groupList := by
          unfold Argument.givenGroups
          rcases ht with e | e <;> rw [e]
        rwa [this] at h3
      · intro g hg
        obtain ⟨u, hm, hg⟩ := List.mem_flatMap.1 hg
        obtain ⟨gs, e, hlen⟩ := groups_flat (by rcases ht with e | e <;> simp [e]) ((C27_arity h hl hs).1 u hm)
        rw [e] at hg
        exact hlen g hg
  · refine ⟨_, parse_atObj h hl hok hs, ?_, ?_⟩
    · rintro (e | e)
      · exact absurd (.inl e) hk
      · exact absurd (.inr (.inl e)) hk
    · rintro (e | e)
      · exact absurd (.inr (.inr (.inl e))) hk
      · exact absurd (.inr (.inr (.inr e))) hk

example :
    (let st' := (parser.parseArguments demoScan parserLine).1;
      (st'.atObj 5).bind (fun s => s.arg.toVector) = some ["c".toList, "d".toList] ∧
      (st'.atObj 10).bind (fun s => s.arg.toVector) = some ["p".toList, "q".toList, "r".toList] ∧
      (st'.atObj 6).bind (fun s => s.arg.toVecVec) =
        some [["e".toList, "f".toList], ["i".toList, "j".toList]] ∧
      (st'.atObj 11).bind (fun s => s.arg.toVecVec) =
        some [["1".toList, "2".toList], ["3".toList, "4".toList]]) := by decide +kernel

/-- The attached form keeps the defaults, the other forms do not. -/
example :
    (let st := runOps demoScan parser [.defaults 5 ["z".toList]];
      ((st.parseArguments demoScan (["p", "-ax", "f"].map String.toList)).1.atObj 5).bind (fun s => s.arg.toVector) =
        some ["z".toList, "x".toList] ∧
      ((st.parseArguments demoScan (["p", "-a", "x", "f"].map String.toList)).1.atObj 5).bind (fun s => s.arg.toVector) =
        some ["x".toList]) := by decide +kernel

/-- C27 for positional arguments, values read (as accepted and possibly rewritten by the validator): one value
replaces the default; lists and groups are put after what the argument held (its default values). -/
theorem C27_positional_values {scan : Str → Option D} {st : State D} {argv : List Str} (h : Ready scan st argv)
    {evs : List Event} (hl : Line st.sig st.places (argv.drop 1) evs none)
    (hok : (st.parseArguments scan argv).2 = .ok ()) {s : Slot D} (hs : s ∈ st.arguments)
    {vals : Values} (hf : fills s.node evs = [vals]) :
    ∃ s', (st.parseArguments scan argv).1.atObj s.obj = some s' ∧
      (s.arg.type = .pos → Validated s.arg.valid vals.flat s'.arg.toVector ∧ vals.flat.length = 1) ∧
      (s.arg.type = .numberPos → Validated s.arg.valid (s.arg.oldStrings ++ vals.flat) s'.arg.toVector ∧
        vals.flat.length = s.arg.nargs) ∧
      (s.arg.type = .infinitePos → Validated s.arg.valid (s.arg.oldStrings ++ vals.flat) s'.arg.toVector) ∧
      (s.arg.type = .infiniteNumberPos →
        ValidatedGroups s.arg.valid (s.arg.oldGroups ++ vals.groupList) s'.arg.toVecVec ∧
        ∀ g ∈ vals.groupList, g.length = s.arg.nargs) := by
  have hfit := (C27_arity h hl hs).2.1 vals (by rw [hf]; simp)
  by_cases hk : s.arg.type = .pos ∨ s.arg.type = .numberPos ∨ s.arg.type = .infinitePos ∨ s.arg.type = .infiniteNumberPos
  · obtain ⟨s', h1, _, h2, h3⟩ := parse_vector h hl hok hs (.inr (by rw [hf]; simp))
      (by unfold Valueless; rcases hk with e | e | e | e <;> rw [e] <;> simp)
    refine ⟨s', h1, ?_, ?_, ?_, ?_⟩
    · intro e
      rw [hf] at h2
      unfold Argument.given at h2
      rw [e] at h2 hfit
      refine ⟨by simpa using h2, ?_⟩
      generalize hk' : Ty.pos = k at hfit
      cases hfit <;> first | rfl | (exfalso; grind [Valueless])
    · intro e
      rw [hf] at h2
      unfold Argument.given at h2
      rw [e] at h2 hfit
      refine ⟨by simpa using h2, ?_⟩
      generalize hk' : Ty.numberPos = k at hfit
      cases hfit <;> first | assumption | (exfalso; grind [Valueless])
    · intro e
      rw [hf] at h2
      unfold Argument.given at h2
      rw [e] at h2
      simpa using h2
    · intro e
      have h3 := h3 (by simp [e])
      rw [hf] at h3
      unfold Argument.givenGroups at h3
      rw [e] at h3
      refine ⟨by simpa using h3, ?_⟩
      obtain ⟨gs, e', hlen⟩ := groups_flat (by simp [e]) hfit
      rw [e']
      exact hlen
  · refine ⟨_, parse_atObj h hl hok hs, ?_, ?_, ?_, ?_⟩ <;> intro e <;> exfalso <;> apply hk <;> simp [e]

/-- Non-trivial case: a positional list with default values. -/
example : (let st := runOps demoScan parser [.defaults 8 ["z".toList]];
      ((st.parseArguments demoScan parserLine).1.atObj 8).bind (fun s => s.arg.toVector) =
        some ["z".toList, "k".toList, "l".toList] ∧
      ((st.parseArguments demoScan parserLine).1.atObj 1).bind (fun s => s.arg.toVector) = some ["in".toList]) := by
  decide +kernel

/-! ### Concrete cases: the long line of the reference parser -/

section
attribute [local irreducible] parser parserLine

example := C20_shows parserLine_ready parserLine_says parserLine_ok
/-- `-v` occurs twice, `-q` once; `-v` is STORE_TRUE, `-q` is STORE_FALSE. -/
example := C24_booleans parserLine_ready parserLine_says parserLine_ok (argOf_mem parser 2)
example := C24_booleans parserLine_ready parserLine_says parserLine_ok (argOf_mem parser 7)
example := C28_count parserLine_ready parserLine_says parserLine_ok (argOf_mem parser 0)
example := C27_arity parserLine_ready parserLine_says (argOf_mem parser 11)
example := C25_last_wins parserLine_ready parserLine_says parserLine_ok (argOf_mem parser 0) (by decide +kernel)
  (us := [(false, .single "1".toList)]) (att := true) (vals := .single "2".toList) (by decide +kernel)
example := C26_accumulates parserLine_ready parserLine_says parserLine_ok (argOf_mem parser 6)
  (att := false) (vals := .groups [["e".toList, "f".toList]]) (us := [(false, .groups [["i".toList, "j".toList]])]) (by decide +kernel)
example := C27_positional_values parserLine_ready parserLine_says parserLine_ok (argOf_mem parser 8)
  (vals := .list ["k".toList, "l".toList]) (by decide +kernel)

end

end BletArgs
