import Verif.Lemmas.Respell
import Verif.Props.Write
import Verif.Props.Lines
import Verif.Props.Extend
/-
C97: a new flag is one more spelling of an option, and nothing else.
-/
namespace BletArgs
open Spec
variable {D : Type}

section
variable {scan : Str → Option D} {st st' : State D} {ref : Nat} {s : Slot D} {f : Str}

/-- The names after `flag(f)` on the argument `s`. -/
def withFlag (s : Slot D) (f : Str) (t : Slot D) : List Str := if t.node = s.node then sortNames (t.arg.names ++ [f]) else t.arg.names

theorem flag_respelled (hr : Reachable scan st) (hs : st.atObj ref = some s) (hok : st.flag ref f = (st', .ok ())) :
    Respelled st st' (· = f) (withFlag s f) ∧ lookupName st'.byName f = some s.node ∧ s.arg.isPositional = false := by
  have hi : GInv True st := hr.inv
  rcases flag_outcome hi hs f with ⟨h1, e⟩ | ⟨_, m, h2, e⟩ | ⟨_, _, h3, e⟩ | ⟨h1, h2, h3, e, hi'⟩
  · rw [hok] at e; cases e
  · rw [hok] at e; cases e
  · rw [hok] at e; cases e
  · rw [hok] at e hi'
    have e : st' = _ := congrArg Prod.fst e
    have hm := State.atObj_some hs
    refine ⟨⟨?_, hi', ?_, ?_⟩, ?_, h1⟩
    · rw [e]
      unfold State.flagged
      simp only
      congr 1
      congr 1
      unfold updNode
      refine List.map_congr_left fun t ht => ?_
      unfold respell withFlag
      by_cases hn : t.node = s.node
      · simp [hn, Argument.called]
      · simp [hn, Argument.called]
    · intro n hn
      rw [e]
      show lookupName (insertName st.byName f s.node) n = _
      rw [insertName_lookup, if_neg hn, Option.or_none]
    · intro t ht hp
      unfold withFlag
      rw [if_neg]
      intro hn
      obtain rfl := eq_of_node hi hm.1 ht hn
      rw [h1] at hp; cases hp
    · rw [e]
      show lookupName (insertName st.byName f s.node) f = _
      rw [insertName_lookup, if_pos rfl, h3]
      rfl

theorem flag_ready {argv : List Str} (hp : Respelled st st' (· = f) (withFlag s f)) (h : Ready scan st argv)
    (hok : st.flag ref f = (st', .ok ())) : Ready scan st' argv :=
  hp.ready h (op := .flag ref f) hok

/-- C97, the words. After an accepted `flag(f)` every command line that does not use `f` before `--` is read as before: the same
occurrences, values and surplus words; a line that could not be read throws the same exception. -/
theorem C97_reading {argv : List Str} (hr : Reachable scan st) (h : Ready scan st argv)
    (hs : st.atObj ref = some s) (hok : st.flag ref f = (st', .ok ())) (hsil : Silences (· = f) (argv.drop 1)) :
    Ready scan st' argv ∧
    (∀ evs err, Line st'.sig st'.places (argv.drop 1) evs err ↔ Line st.sig st.places (argv.drop 1) evs err) ∧
    ∀ evs x, Line st.sig st.places (argv.drop 1) evs (some x) →
      (st'.parseArguments scan argv).2 = .throw x ∧ (st.parseArguments scan argv).2 = .throw x := by
  have hp := (flag_respelled hr hs hok).1
  have h1 := flag_ready hp h hok
  exact ⟨h1, hp.reading hr.inv h h1 hsil⟩

/-- C97, the outcome. Such a line is parsed after `flag(f)` if and only if it was before. -/
theorem C97_accepts {argv : List Str} (hr : Reachable scan st) (h : Ready scan st argv)
    (hs : st.atObj ref = some s) (hok : st.flag ref f = (st', .ok ())) (hsil : Silences (· = f) (argv.drop 1)) :
    (st'.parseArguments scan argv).2 = .ok () ↔ (st.parseArguments scan argv).2 = .ok () := by
  have hp := (flag_respelled hr hs hok).1
  exact hp.accepts hr.inv h (flag_ready hp h hok) hsil

/-- C97, the effect. When such a line is parsed, every argument ends as it would have without the new flag, the option itself but
for its names, and so do the additional arguments, the program name and every variable to which at most one argument writes; all
in all the same writes are made to destinations, though the option may come earlier or later among them, as in the listing. -/
theorem C97_effect {argv : List Str} (hr : Reachable scan st) (h : Ready scan st argv)
    (hs : st.atObj ref = some s) (hflag : st.flag ref f = (st', .ok ())) (hsil : Silences (· = f) (argv.drop 1))
    (hok : (st.parseArguments scan argv).2 = .ok ()) :
    let r := (st.parseArguments scan argv).1
    let r' := (st'.parseArguments scan argv).1
    (∀ o, o ≠ ref → r'.atObj o = r.atObj o) ∧
    (∃ ns, ns.Perm (f :: s.arg.names) ∧
      r'.atObj ref = (r.atObj ref).map fun t => { t with arg := { t.arg with names := ns } }) ∧
    r'.additional = r.additional ∧ r'.binaryName = r.binaryName ∧
    r'.destLog.Perm r.destLog ∧
    ∀ k, (∀ t ∈ st.arguments, ∀ u ∈ st.arguments, ∀ d e, t.arg.dest = some d → u.arg.dest = some e →
      d.slot = k → e.slot = k → t = u) → writesTo k r'.destLog = writesTo k r.destLog := by
  have hp := (flag_respelled hr hs hflag).1
  have hm := State.atObj_some hs
  have hi : GInv True st := hr.inv
  obtain ⟨e1, e2, e3⟩ := hp.effect hi h (flag_ready hp h hflag) hsil hok
  refine ⟨fun o hne => ?_, ⟨withFlag s f s, ?_, ?_⟩, e3⟩
  · by_cases hex : ∃ t ∈ st.arguments, t.obj = o
    · obtain ⟨t, ht, rfl⟩ := hex
      rw [e1 t ht]
      have hn : ¬t.node = s.node := fun e => hne (by rw [eq_of_node hi hm.1 ht e]; exact hm.2)
      have hnames : ∀ u, (st.parseArguments scan argv).1.atObj t.obj = some u → u.arg.names = t.arg.names := by
        intro u hu
        obtain ⟨evs, hl, _⟩ := parse_ok h hok
        rw [parse_atObj h hl hok ht] at hu
        cases hu
        have := (Argument.finish_config scan _).trans (afterTokens_config t.node evs t.arg)
        exact (congrArg (fun x : Argument D => x.names) this :)
      cases hc : (st.parseArguments scan argv).1.atObj t.obj with
      | none => rfl
      | some u =>
        rw [Option.map_some]
        unfold withFlag
        rw [if_neg hn, ← hnames u hc]
    · have := e2 o fun t ht e => hex ⟨t, ht, e⟩
      rw [this.1, this.2]
  · unfold withFlag
    rw [if_pos rfl]
    exact (stableSort_perm _).trans List.perm_append_comm
  · rw [← hm.2]
    exact e1 s hm.1

/-- The new spelling `f` or `f=value` of an option. -/
def withEq (f : Str) : Option Str → Str
  | none => f
  | some v => f ++ '=' :: v

/-- C97, the new spelling. On a line that can be read and does not use `f`, replace a token that writes the option with another of
its flags, bare or with `=value`, by `f` or `f=value`: nothing changes. -/
theorem C97_spelling {prog : Str} {pre post : List Str} {tok : Str} {eq : Option Str} (hr : Reachable scan st)
    (h : Ready scan st (prog :: (pre ++ tok :: post)))
    (hs : st.atObj ref = some s) (hok : st.flag ref f = (st', .ok ())) (hsil : Silences (· = f) (pre ++ tok :: post))
    (hm : MetAt st.sig st.places pre tok post) (hw : Writes st.sig s.entry tok eq) (heq : '=' ∉ f)
    (hshort : ∀ c, f = ['-', c] → st.isAlternative = true → ∀ t, st.getArgument ['-', '-', c] ≠ .ok t)
    {evs : List Event} (hl : Line st.sig st.places (pre ++ tok :: post) evs none) :
    st'.parseArguments scan (prog :: (pre ++ withEq f eq :: post)) = st'.parseArguments scan (prog :: (pre ++ tok :: post)) := by
  obtain ⟨hp, hnew, hopt⟩ := flag_respelled hr hs hok
  have hmem := State.atObj_some hs
  have h1 : Ready scan st' (prog :: (pre ++ tok :: post)) := flag_ready hp h hok
  have h2 : Ready scan st' (prog :: (pre ++ withEq f eq :: post)) := by
    refine ⟨h1.history, h1.settled, fun x hx => ?_, h1.help, h1.program⟩
    have := h1.small x hx
    simpa using this
  have ha : st'.sig.alternative = st.sig.alternative := by rw [hp.eq]; rfl
  have hst : st'.sig.strict = st.sig.strict := by rw [hp.eq]; rfl
  have hl' : Line st'.sig st'.places (pre ++ tok :: post) evs none := (hp.line_iff hr.inv hsil).2 hl
  have htok : ¬EndTok tok := by
    cases hw with
    | long ht _ _ => exact noEnd_long ht
    | alternative ht _ _ _ => exact noEnd_short ht
    | short ht _ _ _ => exact noEnd_short ht
  obtain ⟨X, es, q', hpre, hX, hre⟩ := hm
  have hfront : Front (pre ++ tok :: post) (pre ++ tok :: X) := by
    have := Front.append (A := pre ++ [tok]) (fun t ht => by
      rcases List.mem_append.1 ht with ht | ht
      · exact hpre t ht
      · obtain rfl := List.mem_singleton.1 ht; exact htok) hX
    simpa using this
  have hag : Agree st.sig st'.sig (pre ++ tok :: X) := fun t ht g hg => hp.sig_flag hr.inv (hsil _ hfront t ht g hg)
  have hm' : MetAt st'.sig st'.places pre tok post := by
    rw [hp.places_eq hr.inv]
    exact ⟨X, es, q', hpre, hX, reaches_agree ha hst hag hre⟩
  have hmt : ∀ {g : Str}, Mentions tok g → st'.sig.flag g = st.sig.flag g := fun hg => hag tok (by simp) _ hg
  have hw1 : Writes st'.sig s.entry tok eq := by
    cases hw with
    | long ht hsp hf => exact .long ht hsp (by rw [hmt (.long ht hsp)]; exact hf)
    | alternative ht hsp hal hf => exact .alternative ht hsp (ha.trans hal) (by rw [hmt (.alternative ht hsp)]; exact hf)
    | short ht hsp hn hf =>
      refine .short ht hsp ?_ (by rw [hmt (.letter ht hsp (by simp))]; exact hf)
      rw [ha, hmt (.alternative ht hsp)]
      exact hn
  have hr' : Reachable scan st' := by
    have := hr.step (.flag ref f) (by show Res.goesOn (st.flag ref f).2 = true; rw [hok]; rfl)
    have e : (step scan st (.flag ref f)).1 = st' := by show (st.flag ref f).1 = _; rw [hok]
    rw [e] at this
    exact this
  obtain ⟨x, hx, g1, g2, g3⟩ := getArgument_exists hp.inv (n := f) (by unfold State.argumentExists; rw [hnew]; rfl)
  have hxe : x = respell (withFlag s f) s := by
    rw [hnew] at g3
    exact eq_of_node hp.inv (hp.mem.2 ⟨s, hmem.1, rfl⟩) hx ((Option.some.inj g3).symm)
  have hent : x.entry = s.entry := by
    rw [hxe]
    rfl
  have hw2 : Writes st'.sig s.entry f none := by
    rw [← hent]
    refine C69_flags hr' g1 ?_ heq ?_
    · rw [hxe]
      exact hopt
    · intro c hc hal t ht
      rw [show st'.isAlternative = st.isAlternative from ha] at hal
      have hne : ['-', '-', c] ≠ f := by rw [hc]; intro e; cases e
      have e1 := (entry_of_getArgument ht).1
      rw [hp.by_ _ hne] at e1
      have hex : st.argumentExists ['-', '-', c] = true := by unfold State.argumentExists; rw [e1]; rfl
      obtain ⟨y, _, g, _⟩ := getArgument_exists hr.inv hex
      exact hshort c hc hal y g
  refine C29_other_flag h1 h2 rfl (pre := pre) (post := post) rfl rfl hm' hw1 ?_ hl'
  cases eq with
  | none => exact hw2
  | some v => exact hw2.equals v

end

/-! ### The hypotheses are met by concrete cases -/

section
attribute [local irreducible] parser parserLine parserSays

theorem parser_flag : parser.flag 4 "--zed".toList = ((parser.flag 4 "--zed".toList).1, .ok ()) := pair_of (by decide +kernel)
theorem parser_flag' : parser.flag 0 "-z".toList = ((parser.flag 0 "-z".toList).1, .ok ()) := pair_of (by decide +kernel)
theorem Spec.Silences.of_one {f : Str} {line : List Str} (c : Char) (hc : c ≠ '-') (h : c ∈ f) (hl : ∀ t ∈ line, c ∉ t) :
    Silences (· = f) line := by
  have := Spec.Silences.of_char (flags := [f]) c hc (by simpa using h) hl
  simpa [Silences] using this

example := C97_reading parser_history.reachable parserLine_ready (argOf_at parser 4 (by decide +kernel)) parser_flag
  (.of_one 'z' (by decide) (by decide) (by decide +kernel))
example := (C97_reading parser_history.reachable (parser_words ["-v", "--nope"] (by decide +kernel))
  (argOf_at parser 4 (by decide +kernel)) parser_flag (.of_one 'z' (by decide) (by decide) (by decide +kernel))).2.2
  _ _ (parser_says (ws := ["-v", "--nope"]) (evs := [.option 2 false .nothing])
    (err := some ⟨.parse, "nope".toList, "invalid option".toList⟩) (by decide +kernel) (by decide +kernel))
example := (C97_accepts parser_history.reachable parserLine_ready (argOf_at parser 4 (by decide +kernel)) parser_flag
  (.of_one 'z' (by decide) (by decide) (by decide +kernel))).2 parserLine_ok
example := C97_effect parser_history.reachable parserLine_ready (argOf_at parser 4 (by decide +kernel)) parser_flag
  (.of_one 'z' (by decide) (by decide) (by decide +kernel)) parserLine_ok
/-- `-v -o=1 f` and `-v -z=1 f`. -/
example : (parser.flag 0 "-z".toList).1.parseArguments demoScan ("prog".toList :: ["-v", "-z=1", "f"].map String.toList) =
    (parser.flag 0 "-z".toList).1.parseArguments demoScan ("prog".toList :: ["-v", "-o=1", "f"].map String.toList) := by
  obtain ⟨evs, hl, _⟩ := parse_ok (parser_ready' (["-v", "-o=1", "f"].map String.toList) (by decide)) (by decide +kernel)
  have hrd := parser_ready' (["-v", "-o=1", "f"].map String.toList) (by decide)
  have e1 : ["-v", "-o=1", "f"].map String.toList = [['-', 'v']] ++ "-o=1".toList :: ["f".toList] := by decide +kernel
  have e2 : ["-v", "-z=1", "f"].map String.toList = [['-', 'v']] ++ withEq "-z".toList (some "1".toList) :: ["f".toList] := by
    decide +kernel
  rw [List.drop_one, List.tail_cons] at hl
  rw [e1] at hl hrd
  rw [e1, e2]
  refine C97_spelling parser_history.reachable hrd (argOf_at parser 0 (by decide +kernel)) parser_flag'
    (.of_one 'z' (by decide) (by decide) (by decide +kernel)) (parser_met _ _) ?_ (by decide)
    (fun _ _ h => absurd h (by decide +kernel)) hl
  have e3 : (argOf parser 0).entry = ⟨0, .simple, 1⟩ := by decide +kernel
  rw [e3]
  exact (parser_writes_o (some "1".toList)).1
/-- Without the new flag it is an unknown option, with it the value of `-o`. -/
example : (parser.parseArguments demoScan ("prog".toList :: ["-v", "-z=1", "f"].map String.toList)).2 ≠ .ok () ∧
    ((parser.flag 0 "-z".toList).1.parseArguments demoScan ("prog".toList :: ["-v", "-z=1", "f"].map String.toList)).2 = .ok () := by
  decide +kernel
/-- The silence is needed: before `flag("--zed")` a word `--zed` ends the line with an exception. -/
example : (parser.parseArguments demoScan ("prog".toList :: ["-v", "--zed", "1", "f"].map String.toList)).2 =
      .throw ⟨.parse, "zed".toList, "invalid option".toList⟩ := by
  decide +kernel

end

end BletArgs
