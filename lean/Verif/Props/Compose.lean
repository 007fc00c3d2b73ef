import Verif.Lemmas.Compose
import Verif.Lemmas.Required
import Verif.Props.Given
/-
C92: one command line after another.
-/
namespace BletArgs
open Spec
variable {D : Type}

/-! ### Preliminaries -/

theorem openIds (st : State D) : OpenIds st.sig st.places fun i => ∃ s ∈ st.arguments, s.node = i ∧ Unlimited s.arg.type := by
  constructor
  · intro name e hf hu
    unfold State.sig at hf
    simp only [Option.bind_eq_some_iff, Option.map_eq_some_iff] at hf
    obtain ⟨n, _, s, hs, rfl⟩ := hf
    exact ⟨s, (State.atNode_some hs).1, rfl, hu⟩
  · intro p hp hu
    unfold State.places at hp
    rw [List.mem_map] at hp
    obtain ⟨s, hs, rfl⟩ := hp
    exact ⟨s, (List.mem_filter.1 hs).1, rfl, hu⟩

theorem tight_of {st : State D} {evs : List Event} (h : ¬LeavesOpen st evs) :
    Tight (fun i => ∃ s ∈ st.arguments, s.node = i ∧ Unlimited s.arg.type) evs := by
  rintro ev he i hi ⟨s, hs, rfl, hu⟩
  exact h ⟨ev, s, he, hs, hi, hu⟩

theorem places_nodup {st : State D} {full : Prop} (hi : GInv full st) : (st.places.map (·.id)).Nodup := by
  unfold State.places
  rw [List.map_map]
  exact hi.nodes.sublist (List.Sublist.map _ List.filter_sublist)

theorem Ready.front {scan : Str → Option D} {st : State D} {p : Str} {ws1 ws2 : List Str} (h : Ready scan st (p :: (ws1 ++ ws2))) :
    Ready scan st (p :: ws1) := by
  refine ⟨h.history, h.settled, fun s hs => ?_, h.help, ?_⟩
  · have := h.small s hs
    simp only [List.length_cons, List.length_append] at this ⊢
    omega
  · obtain ⟨x, hx, hn⟩ := h.program
    exact ⟨x, by simpa using hx, hn⟩

theorem uses_append (id : Nat) (a b : List Event) : uses id (a ++ b) = uses id a ++ uses id b := List.filterMap_append
theorem extras_append (a b : List Event) : extras (a ++ b) = extras a ++ extras b := List.filterMap_append

theorem occurs_append {n : Nat} {a b : List Event} : Occurs n (a ++ b) ↔ Occurs n a ∨ Occurs n b := by
  unfold Occurs
  rw [uses_append, fills_append]
  simp only [ne_eq, List.append_eq_nil_iff]
  by_cases h1 : uses n a = [] <;> by_cases h2 : uses n b = [] <;> by_cases h3 : fills n a = [] <;> by_cases h4 : fills n b = [] <;>
    simp [h1, h2, h3, h4]

/-- Events that do not concern an argument do nothing to it. -/
theorem afterTokens_append_absent {n : Nat} {e1 e2 : List Event} (h : ¬Occurs n e2) (a : Argument D) :
    a.afterTokens n (e1 ++ e2) = a.afterTokens n e1 := by
  unfold Argument.afterTokens
  rw [List.foldl_append]
  generalize e1.foldl (Argument.see n) a.reset = b
  induction e2 with
  | nil => rfl
  | cons ev e2 ih =>
    have h' : ¬Occurs n [ev] ∧ ¬Occurs n e2 := by
      rw [show ev :: e2 = [ev] ++ e2 from rfl, occurs_append, not_or] at h
      exact h
    rw [List.foldl_cons]
    have : b.see n ev = b := by
      have := h'.1
      unfold Occurs uses fills at this
      cases ev with
      | option i att v => by_cases hi : i = n <;> simp [Argument.see, hi] at this ⊢
      | positional i v => by_cases hi : i = n <;> simp [Argument.see, hi] at this ⊢
      | extra w => rfl
    rw [this]
    exact ih h'.2

/-! ### C92 -/

/-- C92, the words. When the words `ws1` can be read (and have no `--` among them), and the words `ws2` begin with an option or
`--`, or `ws1` does not end in a list that would go on, then the whole line `ws1 ws2` says what `ws1` says and then what `ws2`
says to a parser that has the positional arguments left by `ws1` to fill; the error, if there is one, is the one of `ws2`. -/
theorem C92_reading {scan : Str → Option D} {st : State D} {p : Str} {ws1 ws2 : List Str} (h : Ready scan st (p :: (ws1 ++ ws2)))
    (hend : ∀ t ∈ ws1, ¬EndTok t) {evs1 : List Event} (h1 : Line st.sig st.places ws1 evs1 none)
    (hb : Fresh st.sig ws2 ∨ ¬LeavesOpen st evs1) (evs : List Event) (err : Option Exn) :
    Line st.sig st.places (ws1 ++ ws2) evs err ↔
      ∃ evs2, evs = evs1 ++ evs2 ∧ Line st.sig (unfilled evs1 st.places) ws2 evs2 err :=
  line_append h.sized h.placesSized (places_nodup h.inv) (openIds st) hend h1 (hb.imp id tight_of) evs err

/-- C92, after `--`. When there is a `--` among the words `ws1`, what follows them is read as if it came after a `--` itself. -/
theorem C92_after_end {scan : Str → Option D} {st : State D} {p : Str} {ws1 ws2 : List Str} (h : Ready scan st (p :: (ws1 ++ ws2)))
    (hend : ∃ t ∈ ws1, EndTok t) {evs1 : List Event} (h1 : Line st.sig st.places ws1 evs1 none)
    (hb : ¬LeavesOpen st evs1) (evs : List Event) (err : Option Exn) :
    Line st.sig st.places (ws1 ++ ws2) evs err ↔
      ∃ evs2, evs = evs1 ++ evs2 ∧ Line st.sig (unfilled evs1 st.places) (['-', '-'] :: ws2) evs2 err :=
  line_append_words h.placesSized (places_nodup h.inv) (openIds st).2 hend h.sized h1 (tight_of hb) evs err

/-- C92, errors. When the words `ws1` cannot be read, for another reason than that words are missing at their end, no words
behind them help: the call throws the same exception. -/
theorem C92_errors {scan : Str → Option D} {st : State D} {p : Str} {ws1 ws2 : List Str} (h : Ready scan st (p :: (ws1 ++ ws2)))
    {evs1 : List Event} {x : Exn} (h1 : Line st.sig st.places ws1 evs1 (some x))
    (hx : x.what ≠ "bad number of argument".toList) :
    Line st.sig st.places (ws1 ++ ws2) evs1 (some x) ∧
    (st.parseArguments scan (p :: (ws1 ++ ws2))).2 = .throw x ∧ (st.parseArguments scan (p :: ws1)).2 = .throw x := by
  have hl := lineErr_more h1 hx ws2
  exact ⟨hl, (parse_of_line h hl).1 x rfl, (parse_of_line h.front h1).1 x rfl⟩

/-- C92, the effect. When the line `ws1` is parsed, and so is the line `ws1 ws2` that says `evs2` in addition, then every argument
not concerned by `evs2` ends as after `ws1` alone, the surplus words of `evs2` come behind those of `ws1`, and every variable
that no argument concerned by `evs2` writes to is written the same. -/
theorem C92_kept {scan : Str → Option D} {st : State D} {p : Str} {ws1 ws2 : List Str} (h : Ready scan st (p :: (ws1 ++ ws2)))
    {evs1 evs2 : List Event} (h1 : Line st.sig st.places ws1 evs1 none)
    (h2 : Line st.sig st.places (ws1 ++ ws2) (evs1 ++ evs2) none)
    (hok1 : (st.parseArguments scan (p :: ws1)).2 = .ok ())
    (hok : (st.parseArguments scan (p :: (ws1 ++ ws2))).2 = .ok ()) :
    let r1 := (st.parseArguments scan (p :: ws1)).1
    let r := (st.parseArguments scan (p :: (ws1 ++ ws2))).1
    (∀ s ∈ st.arguments, ¬Occurs s.node evs2 → r.atObj s.obj = r1.atObj s.obj) ∧
    r.additional = r1.additional ++ extras evs2 ∧
    (∀ k, (∀ s ∈ st.arguments, Occurs s.node evs2 → ∀ d, s.arg.dest = some d → d.slot ≠ k) →
      writesTo k r.destLog = writesTo k r1.destLog) := by
  intro r1 r
  have f1 := h.front
  refine ⟨fun s hs ho => ?_, ?_, fun k hk => ?_⟩
  · show (State.parseArguments ..).1.atObj _ = (State.parseArguments ..).1.atObj _
    rw [parse_atObj h h2 hok hs, parse_atObj f1 h1 hok1 hs, afterTokens_append_absent ho]
  · show (State.parseArguments ..).1.additional = (State.parseArguments ..).1.additional ++ _
    rw [(parse_result h h2 hok).2.2, (parse_result f1 h1 hok1).2.2]
    simp only [extras_append, List.append_assoc]
  · show writesTo k (State.parseArguments ..).1.destLog = writesTo k (State.parseArguments ..).1.destLog
    rw [(parse_result h h2 hok).2.2, (parse_result f1 h1 hok1).2.2]
    unfold writesTo
    simp only [List.filter_append, List.filter_flatMap]
    congr 1
    refine congrArg List.flatten (List.map_congr_left fun t ht => ?_)
    by_cases ho : Occurs t.node evs2
    · have none_of : ∀ evs : List Event,
          ((t.arg.afterTokens t.node evs).finish scan).2.1.filter (fun w => w.slot == k) = [] := by
        intro evs
        rw [List.filter_eq_nil_iff]
        intro w hw
        unfold Argument.finish at hw
        have hd1 := runValid_dest (t.arg.afterTokens t.node evs)
        generalize (t.arg.afterTokens t.node evs).runValid = x at hw hd1
        obtain ⟨b, x⟩ := x
        cases x with
        | ok u =>
          simp only at hw hd1
          obtain ⟨d, e1, e2⟩ := toDest_slot _ w hw
          rw [toNumber_dest, hd1, show (t.arg.afterTokens t.node evs).dest = t.arg.dest from
            (congrArg (fun x : Argument D => x.dest) (afterTokens_config t.node evs t.arg) :)] at e1
          have := hk t ht ho d e1
          rw [e2]
          simpa using this
        | _ => cases hw
      exact (none_of _).trans (none_of _).symm
    · rw [afterTokens_append_absent ho]

/-- C92, the outcome. When the line `ws1` is parsed, the line `ws1 ws2` that says `evs2` in addition is parsed too if and only if
`evs2` does not ask for help or version and nothing is held against the arguments concerned by `evs2`: no other argument needs to
be looked at, and none is missing. -/
theorem C92_accepts {scan : Str → Option D} {st : State D} {p : Str} {ws1 ws2 : List Str} (h : Ready scan st (p :: (ws1 ++ ws2)))
    {evs1 evs2 : List Event} (h1 : Line st.sig st.places ws1 evs1 none)
    (h2 : Line st.sig st.places (ws1 ++ ws2) (evs1 ++ evs2) none)
    (hok1 : (st.parseArguments scan (p :: ws1)).2 = .ok ())
    (hret : ∀ s ∈ st.arguments, Occurs s.node evs2 → Returning s) :
    (st.parseArguments scan (p :: (ws1 ++ ws2))).2 = .ok () ↔
      Silent st evs2 ∧ ∀ s ∈ st.arguments, Occurs s.node evs2 → Passes s (evs1 ++ evs2) := by
  have hi := h.inv
  obtain ⟨g1, g2, g3⟩ := (parse_ok_iff h.front h1).1 hok1
  rw [parse_ok_iff h h2]
  constructor
  · rintro ⟨k1, _, k3⟩
    refine ⟨⟨?_, ?_⟩, fun s hs _ => passes_of hi hs h2 (k3 s hs)⟩
    · obtain ⟨t, ht, e, ho⟩ := k1.help
      exact ⟨t, ht, e, fun x => ho (occurs_append.2 (.inr x))⟩
    · intro o e
      obtain ⟨t, ht, e, ho⟩ := k1.version o e
      exact ⟨t, ht, e, fun x => ho (occurs_append.2 (.inr x))⟩
  · rintro ⟨k1, k2⟩
    refine ⟨⟨?_, ?_⟩, fun s hs hr => occurs_append.2 (.inl (g2 s hs hr)), fun s hs => ?_⟩
    · obtain ⟨t, ht, e, ho⟩ := k1.help
      obtain ⟨t', ht', e', ho'⟩ := g1.help
      have et : t' = t := eq_of_obj hi ht ht' (by rw [e] at e'; exact (Option.some.inj e').symm)
      subst et
      exact ⟨t', ht, e, fun x => (occurs_append.1 x).elim ho' ho⟩
    · intro o e
      obtain ⟨t, ht, e1, ho⟩ := k1.version o e
      obtain ⟨t', ht', e2, ho'⟩ := g1.version o e
      have et : t' = t := eq_of_obj hi ht ht' (by rw [e1, e2])
      subst et
      exact ⟨t', ht, e1, fun x => (occurs_append.1 x).elim ho' ho⟩
    · by_cases ho : Occurs s.node evs2
      · exact (passes_iff hi hs scan h2 (hret s hs ho)).2 (k2 s hs ho)
      · rw [afterTokens_append_absent ho]
        exact g3 s hs

/-! ### Examples -/

theorem leavesOpen_iff {st : State D} {evs : List Event} : LeavesOpen st evs ↔
    ∃ s ∈ st.arguments, (evs.getLast?.bind Event.about) = some s.node ∧ Unlimited s.arg.type := by
  constructor
  · rintro ⟨ev, s, he, hs, ha, hu⟩
    exact ⟨s, hs, by rw [he]; exact ha, hu⟩
  · rintro ⟨s, hs, ha, hu⟩
    rw [Option.bind_eq_some_iff] at ha
    obtain ⟨ev, he, ha⟩ := ha
    exact ⟨ev, s, he, hs, ha, hu⟩

instance (k : Ty) : Decidable (Unlimited k) := by unfold Unlimited; exact inferInstance
instance (st : State D) (evs : List Event) : Decidable (LeavesOpen st evs) := decidable_of_iff' _ leavesOpen_iff

section
attribute [local irreducible] parser

/-- What `-o x k` says to the parser that has `file` filled already. -/
def moreSays : List Event := [.option 0 false (.single "x".toList), .positional 8 (.list ["k".toList])]

/-- `-v f` and then `-o x k`: `file` is filled, so `k` goes to `rest`. -/
theorem both_say : Line parser.sig parser.places (["-v".toList, "f".toList] ++ ["-o".toList, "x".toList, "k".toList])
    ([.option 2 false .nothing, .positional 1 (.single "f".toList)] ++ moreSays) none :=
  parser_says (ws := ["-v", "f", "-o", "x", "k"]) (by decide +kernel) (by decide +kernel)
example := C92_reading (ws1 := ["-v".toList, "f".toList]) (ws2 := ["-o".toList, "x".toList, "k".toList])
  (parser_words ["-v", "f", "-o", "x", "k"] (by decide +kernel)) (by decide +kernel) shortLine_says (.inr (by decide +kernel))
example := C92_kept (ws1 := ["-v".toList, "f".toList]) (ws2 := ["-o".toList, "x".toList, "k".toList])
  (parser_words ["-v", "f", "-o", "x", "k"] (by decide +kernel)) shortLine_says both_say (by decide +kernel) (by decide +kernel)
example := (C92_accepts (ws1 := ["-v".toList, "f".toList]) (ws2 := ["-o".toList, "x".toList, "k".toList])
  (parser_words ["-v", "f", "-o", "x", "k"] (by decide +kernel)) shortLine_says both_say (by decide +kernel)
  (fun s hs _ => returning_of_plain ((by decide +kernel : ∀ s ∈ parser.arguments, plainDestB s = true) s hs))).1 (by decide +kernel)
/-- `rest` (an unlimited list) is open behind `-v f k`, but `-q` ends it. -/
example := C92_reading (ws1 := ["-v".toList, "f".toList, "k".toList]) (ws2 := ["-q".toList, "l".toList])
  (parser_words ["-v", "f", "k", "-q", "l"] (by decide +kernel)) (by decide +kernel)
  (parser_says (ws := ["-v", "f", "k"]) (evs := [.option 2 false .nothing, .positional 1 (.single "f".toList), .positional 8 (.list ["k".toList])])
    (by decide +kernel) (by decide +kernel))
  (.inl (by rintro t ⟨⟩; exact .inl (.cluster (cs := ['q']) (eq := none) ⟨'q', [], rfl, by decide⟩ (.bare (by decide +kernel))
    (.last (e := ⟨7, .reverse, 0⟩) (by decide +kernel)))))
/-- Without that condition it is not so: behind `-v f k` the word `l` is one more value of `rest`, not a surplus word. -/
example : Reader.line parser.sig parser.places (["-v", "f", "k", "l"].map String.toList) =
    ([.option 2 false .nothing, .positional 1 (.single "f".toList), .positional 8 (.list ["k".toList, "l".toList])], none) := by
  decide +kernel
/-- `-v f --` and then `-o`, a word. -/
example := C92_after_end (ws1 := ["-v".toList, "f".toList, ['-', '-']]) (ws2 := ["-o".toList])
  (parser_words ["-v", "f", "--", "-o"] (by decide +kernel)) (by decide +kernel)
  (parser_says (ws := ["-v", "f", "--"]) (evs := [.option 2 false .nothing, .positional 1 (.single "f".toList)])
    (by decide +kernel) (by decide +kernel)) (by decide +kernel)
/-- `-v --nope`, whatever comes behind. -/
example := C92_errors (ws1 := ["-v".toList, "--nope".toList]) (ws2 := ["-o".toList, "x".toList])
  (parser_words ["-v", "--nope", "-o", "x"] (by decide +kernel))
  (parser_says (ws := ["-v", "--nope"]) (evs := [.option 2 false .nothing])
    (err := some ⟨.parse, "nope".toList, "invalid option".toList⟩) (by decide +kernel) (by decide +kernel)) (by decide +kernel)
/-- Its condition is needed: `-n x` has one value less than `-n` wants. -/
example : (parser.parseArguments demoScan (["prog", "f", "-n", "x"].map String.toList)).2 =
      .throw ⟨.parse, "n".toList, "bad number of argument".toList⟩ ∧
    (parser.parseArguments demoScan (["prog", "f", "-n", "x", "y"].map String.toList)).2 = .ok () := by decide +kernel
end

end BletArgs
