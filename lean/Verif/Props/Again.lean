import Verif.Props.Values
/-
Parsing again: C36.
-/
namespace BletArgs
open Spec
variable {D : Type}

/-- A parser that is ready stays so if only values and the program name change, and reads command lines in the same way. -/
theorem ready_config {scan : Str → Option D} {st st1 : State D} {argv' : List Str} (h : Ready scan st argv')
    (hist : ∃ n, Survives scan Any n st1) {b : Str} (hb : st1.config = { st.config with binaryName := b }) :
    Ready scan st1 argv' ∧ st1.sig = st.sig ∧ st1.places = st.places ∧
    ∀ s ∈ st.arguments, ∃ s1 ∈ st1.arguments, s1.obj = s.obj ∧ s1.node = s.node ∧ s1.arg.config = s.arg.config := by
  have hc : st1.arguments.map Slot.config = st.arguments.map Slot.config :=
    (congrArg (fun x : State D => x.arguments) hb :)
  have hh : st1.helpOption = st.helpOption := (congrArg (fun x : State D => x.helpOption) hb :)
  refine ⟨⟨hist, ?_, ?_, by rw [hh]; exact h.help, h.program⟩, sig_of_config' hb, ?_, ?_⟩
  · intro s hs
    obtain ⟨u, hu, e⟩ := slots_of_config hc hs
    have e1 : s.arg.type = u.arg.type := (congrArg (fun x : Slot D => x.arg.type) e :)
    have e2 : s.arg.nargs = u.arg.nargs := (congrArg (fun x : Slot D => x.arg.nargs) e :)
    have := h.settled u hu
    unfold Settled Argument.isPositional at this ⊢
    rw [e1, e2]; exact this
  · intro s hs
    obtain ⟨u, hu, e⟩ := slots_of_config hc hs
    have e2 : s.arg.nargs = u.arg.nargs := (congrArg (fun x : Slot D => x.arg.nargs) e :)
    rw [e2]; exact h.small u hu
  · have key : ∀ l : List (Slot D), (l.filter fun s => s.arg.isPositional).map Slot.place =
        ((l.map Slot.config).filter fun s => s.arg.isPositional).map Slot.place := by
      intro l
      rw [List.filter_map, List.map_map]
      rfl
    unfold State.places
    rw [key, hc, ← key]
  · intro s hs
    obtain ⟨u, hu, e⟩ := slots_of_config hc.symm hs
    exact ⟨u, hu, (congrArg (fun x : Slot D => x.obj) e.symm :), (congrArg (fun x : Slot D => x.node) e.symm :),
      (congrArg (fun x : Slot D => x.arg) e.symm :)⟩

/-- A parser that is ready stays so over a parse, and reads command lines in the same way. -/
theorem ready_again {scan : Str → Option D} {st : State D} {argv argv' : List Str} (h : Ready scan st argv')
    (hg : (st.parseArguments scan argv).2.goesOn = true) :
    Ready scan (st.parseArguments scan argv).1 argv' ∧ (st.parseArguments scan argv).1.sig = st.sig ∧
    (st.parseArguments scan argv).1.places = st.places ∧
    ∀ s ∈ st.arguments, ∃ s1 ∈ (st.parseArguments scan argv).1.arguments, s1.obj = s.obj ∧ s1.node = s.node ∧
      s1.arg.config = s.arg.config := by
  have hi := h.inv
  have hne : ∀ o, (st.parseArguments scan argv).2 ≠ .exit o := by
    intro o e; rw [e] at hg; cases hg
  obtain ⟨b, hb⟩ : ∃ b, (st.parseArguments scan argv).1.config = { st.config with binaryName := b } := by
    rcases parse_config (scan := scan) hi argv with ⟨o, ho⟩ | ⟨b, hb | ⟨hh, _⟩⟩
    · exact absurd ho (hne o)
    · exact ⟨b, hb⟩
    · exact absurd hh h.help
  exact ready_config h (survives_step h.history (.parse argv) hg) hb

/-- C36, tokens. After any parse that returned or threw, a command line has the same events and errors as it
would have had before that parse. -/
theorem C36_same_reading {scan : Str → Option D} {st : State D} {argv argv' : List Str} (h : Ready scan st argv')
    (hg : (st.parseArguments scan argv).2.goesOn = true) {evs : List Event} {err : Option Exn}
    (hl : Line st.sig st.places (argv'.drop 1) evs err) :
    Line (st.parseArguments scan argv).1.sig (st.parseArguments scan argv).1.places (argv'.drop 1) evs err ∧
    ∀ x, err = some x → ((st.parseArguments scan argv).1.parseArguments scan argv').2 = .throw x := by
  obtain ⟨h1, h2, h3, _⟩ := ready_again h hg
  have hl' : Line (st.parseArguments scan argv).1.sig (st.parseArguments scan argv).1.places (argv'.drop 1) evs err := by
    rw [h2, h3]; exact hl
  exact ⟨hl', (parse_of_line h1 hl').1⟩

/-- C36. A second parse does not see occurrences of the first: `isExists()`, `count()` and the boolean value of
every argument after it are the same as if it were the first. -/
theorem C36_fresh_marks {scan : Str → Option D} {st : State D} {argv argv' : List Str} (h : Ready scan st argv')
    (hg : (st.parseArguments scan argv).2.goesOn = true)
    (hacc : ∃ evs, Line st.sig st.places (argv'.drop 1) evs none)
    (hg1 : ((st.parseArguments scan argv).1.parseArguments scan argv').2.goesOn = true)
    (hg2 : (st.parseArguments scan argv').2.goesOn = true) {s : Slot D} (hs : s ∈ st.arguments) :
    ∃ s1 s2, ((st.parseArguments scan argv).1.parseArguments scan argv').1.atObj s.obj = some s1 ∧
      (st.parseArguments scan argv').1.atObj s.obj = some s2 ∧
      s1.arg.isExist = s2.arg.isExist ∧ s1.arg.count = s2.arg.count ∧ s1.arg.toBool = s2.arg.toBool := by
  obtain ⟨evs, hl⟩ := hacc
  obtain ⟨h1, _, _, h4⟩ := ready_again h hg
  obtain ⟨u, hu, e1, e2, e3⟩ := h4 s hs
  obtain ⟨hl', _⟩ := C36_same_reading h hg hl
  obtain ⟨s1, a1, a2, a3, a4⟩ := (C20_records h1 hl' hg1).1 u hu
  obtain ⟨s2, b1, b2, b3, b4⟩ := (C20_records h hl hg2).1 s hs
  rw [e1] at a1
  rw [e2] at a3 a4
  have hx : s1.arg.isExist = s2.arg.isExist := by
    rw [Bool.eq_iff_iff, a3, b3]
  have ht : u.arg.type = s.arg.type := (congrArg (fun x : Argument D => x.type) e3 :)
  refine ⟨s1, s2, a1, b1, hx, by rw [a4, b4], ?_⟩
  unfold Argument.toBool
  rw [a2, b2, ht, hx]

/-- The long command line, then a short one. -/
example : Ready demoScan parser (["prog", "-v", "f"].map String.toList) ∧
    (parser.parseArguments demoScan parserLine).2.goesOn = true ∧
    ((parser.parseArguments demoScan parserLine).1.parseArguments demoScan (["prog", "-v", "f"].map String.toList)).2 = .ok () ∧
    (parser.parseArguments demoScan (["prog", "-v", "f"].map String.toList)).2 = .ok () :=
  ⟨parser_ready (by decide +kernel) ⟨"prog".toList, rfl, by decide +kernel⟩, by decide +kernel, by decide +kernel, by decide +kernel⟩

/-- The limit of C36: lists and additional arguments of a previous parse are not forgotten. After `-l x y` a
second parse without `-l` finds two empty values in it, and the additional arguments pile up. -/
theorem C36_lists_not_restored : ∃ st : State Unit, Reachable demoScan st ∧
    (let st1 := (st.parseArguments demoScan (["prog", "a", "-l", "x", "y"].map String.toList)).1;
     let st2 := (st1.parseArguments demoScan (["prog", "b"].map String.toList)).1;
     (st.parseArguments demoScan (["prog", "a", "-l", "x", "y"].map String.toList)).2 = .ok () ∧
     (st1.parseArguments demoScan (["prog", "b"].map String.toList)).2 = .ok () ∧
     (st2.atObj 0).map (fun s => (s.arg.isExist, s.arg.toVector)) = some (false, some [[], []]) ∧
     st2.additional = ["a".toList, "b".toList]) :=
  ⟨runOps demoScan State.init [.add ["-l".toList], .nargs 0 43], reachable_runOps .init _ (by decide +kernel),
    by decide +kernel⟩

end BletArgs
