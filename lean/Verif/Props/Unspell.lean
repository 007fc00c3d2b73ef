import Verif.Props.Alias
/-
C99: taking some of their flags away from options takes those spellings away, and nothing else.
-/
namespace BletArgs
open Spec
variable {D : Type}

/-- The loop of `removeArguments` when every argument keeps a name. -/
theorem removeLoop_respelled (rm : List Str) {st st' : State D} (hi : PreInvS st) (hok : State.removeLoop rm st = (st', .ok ()))
    (hleft : ∀ s ∈ st.arguments, ∃ n, n ∉ rm ∧ lookupName st.byName n = some s.node) :
    ∃ ns : Slot D → List Str, st' = { st with arguments := st.arguments.map (respell ns), byName := st'.byName } ∧
      (∀ n, n ∉ rm → lookupName st'.byName n = lookupName st.byName n) ∧
      (∀ t ∈ st.arguments, t.arg.isPositional = true → ns t = t.arg.names) := by
  induction rm generalizing st with
  | nil =>
    cases hok
    refine ⟨fun t => t.arg.names, ?_, fun _ _ => rfl, fun _ _ _ => rfl⟩
    have : st'.arguments.map (respell fun t => t.arg.names) = st'.arguments := List.map_id _
    rw [this]
  | cons n rest ih =>
    have hnames := removeLoop_ok_names (n :: rest) hi (by rw [hok])
    obtain ⟨node, hl⟩ := Option.isSome_iff_exists.1 (hnames.2 n (by simp))
    obtain ⟨s, hs, h1, hmem, h3⟩ := removeLoop_cons hi hl
    have hl' : lookupName st.byName n = some s.node := h1 ▸ hl
    rw [h3] at hok
    obtain ⟨k, hk, hks⟩ := hleft s hs
    have hkn : k ≠ n := fun e => hk (by simp [e])
    have hany : (st.byName.filter (fun p => !(p.1 == n))).any (fun p => p.2 == s.node) = true := by
      refine List.any_eq_true.2 ⟨(k, s.node), List.mem_filter.2 ⟨lookupName_mem hks, by simpa using hkn⟩, by simp⟩
    let f : Slot D → List Str := fun t => if t.node = s.node then t.arg.names.erase n else t.arg.names
    have hstep : st.removeStep n s = { st with
        arguments := st.arguments.map (respell f), byName := st.byName.filter (fun p => !(p.1 == n)) } := by
      unfold State.removeStep
      simp only
      rw [if_pos hany]
      congr 1
      unfold updNode
      refine List.map_congr_left fun t _ => ?_
      unfold respell
      simp only [f]
      by_cases e : t.node = s.node
      · simp [e, Argument.called]
      · simp [e, Argument.called]
    have hp := removeStep_preInv hi hs hl'
    obtain ⟨g, e1, e2, e3⟩ := ih hp hok (by
      rw [hstep]
      intro x hx
      obtain ⟨t, ht, rfl⟩ := List.mem_map.1 hx
      obtain ⟨m, hm, hmt⟩ := hleft t ht
      refine ⟨m, fun h => hm (by simp [h]), ?_⟩
      show lookupName (st.byName.filter _) m = some t.node
      rw [filter_lookup, if_neg (fun e => hm (by simp [e]))]
      exact hmt)
    refine ⟨fun t => g (respell f t), ?_, fun m hm => ?_, fun t ht hpos => ?_⟩
    · rw [e1]
      rw [hstep]
      simp only [List.map_map]
      congr 1
    · rw [e2 m (fun h => hm (by simp [h])), removeStep_byName, filter_lookup, if_neg (fun e => hm (by simp [e]))]
    · have hne : t.node ≠ s.node := by
        intro e
        have : t = s := inj_of_nodup Slot.node hi.nodes ht hs e
        subst this
        obtain ⟨q, hq, _⟩ := (hi.forms t ht).positional hpos
        have k1 : n = q := by rw [hq] at hmem; simpa using hmem
        obtain ⟨u, hu, g1, g2⟩ := hi.entries _ (lookupName_mem hks)
        have : u = t := inj_of_nodup Slot.node hi.nodes hu ht g1
        subst this
        simp only at g2
        rw [hq] at g2
        exact hkn ((by simpa using g2 : k = q).trans k1.symm)
      have hf : f t = t.arg.names := if_neg hne
      show g (respell f t) = _
      rw [e3 (respell f t) (by rw [hstep]; exact List.mem_map_of_mem ht) hpos]
      exact hf

section
variable {scan : Str → Option D} {st st' : State D} {rm : List Str}

theorem remove_respelled (hr : Reachable scan st) (hok : st.removeArguments rm = (st', .ok ()))
    (hleft : ∀ s ∈ st.arguments, ∃ n, n ∉ rm ∧ st.resolve n = some s.obj) :
    ∃ ns, Respelled st st' (· ∈ rm) ns := by
  have hi : GInv True st := hr.inv
  have hleft' : ∀ s ∈ st.arguments, ∃ n, n ∉ rm ∧ lookupName st.byName n = some s.node := by
    intro s hs
    obtain ⟨n, h1, h2⟩ := hleft s hs
    exact ⟨n, h1, (resolve_iff hi hs).1 h2⟩
  have hr' : Reachable scan st' := by
    have := hr.step (.remove rm) (by show Res.goesOn (st.removeArguments rm).2 = true; rw [hok]; rfl)
    have e : (step scan st (.remove rm)).1 = st' := by show (st.removeArguments rm).1 = _; rw [hok]
    rw [e] at this
    exact this
  obtain ⟨hne, hnd, hreg⟩ : rm ≠ [] ∧ rm.Nodup ∧ ∀ n ∈ rm, st.argumentExists n = true := by
    rcases removeArguments_cases hi rm with ⟨_, e⟩ | ⟨n, _, e⟩ | ⟨_, _, _, w, e⟩ | ⟨h1, h2, h3, _⟩
    · rw [hok] at e; cases e
    · rw [hok] at e; cases e
    · rw [hok] at e; cases e
    · exact ⟨h1, h3, h2⟩
  have hruns := removeArguments_runs hi hne hnd hreg
  obtain ⟨e1, _, _⟩ := removeLoop_runs rm hi.toPreInv hnd hreg
  generalize hloop : State.removeLoop rm st = x at hruns e1
  obtain ⟨st1, res⟩ := x
  simp only at hruns e1
  subst e1
  obtain ⟨ns, g1, g2, g3⟩ := removeLoop_respelled rm hi.toPreInv hloop hleft'
  rw [hok] at hruns
  have e : st' = _ := congrArg Prod.fst hruns
  refine ⟨ns, ?_, hr'.inv, ?_, g3⟩
  · rw [e]
    simp only
    rw [g1]
  · intro n hn
    rw [e]
    exact g2 n hn

/-- C99, the words. An accepted `removeArguments` that leaves every argument a name does not change how a command line is read that
uses none of the removed names before `--`: the same occurrences, values and surplus words; a line that could not be read throws the
same exception. -/
theorem C99_reading {argv : List Str} (hr : Reachable scan st) (h : Ready scan st argv)
    (hok : st.removeArguments rm = (st', .ok ())) (hleft : ∀ s ∈ st.arguments, ∃ n, n ∉ rm ∧ st.resolve n = some s.obj)
    (hsil : Silences (· ∈ rm) (argv.drop 1)) :
    Ready scan st' argv ∧
    (∀ evs err, Line st'.sig st'.places (argv.drop 1) evs err ↔ Line st.sig st.places (argv.drop 1) evs err) ∧
    ∀ evs x, Line st.sig st.places (argv.drop 1) evs (some x) →
      (st'.parseArguments scan argv).2 = .throw x ∧ (st.parseArguments scan argv).2 = .throw x := by
  obtain ⟨ns, hp⟩ := remove_respelled hr hok hleft
  have h1 := hp.ready h (op := .remove rm) hok
  exact ⟨h1, hp.reading hr.inv h h1 hsil⟩

/-- C99, the outcome. Such a line is parsed after the removal if and only if it was before. -/
theorem C99_accepts {argv : List Str} (hr : Reachable scan st) (h : Ready scan st argv)
    (hok : st.removeArguments rm = (st', .ok ())) (hleft : ∀ s ∈ st.arguments, ∃ n, n ∉ rm ∧ st.resolve n = some s.obj)
    (hsil : Silences (· ∈ rm) (argv.drop 1)) :
    (st'.parseArguments scan argv).2 = .ok () ↔ (st.parseArguments scan argv).2 = .ok () := by
  obtain ⟨ns, hp⟩ := remove_respelled hr hok hleft
  exact hp.accepts hr.inv h (hp.ready h (op := .remove rm) hok) hsil

/-- C99, the effect. When such a line is parsed, every argument ends as it would have without the removal, but for its names, and
so do the additional arguments, the program name and every variable to which at most one argument writes; all in all the same
writes are made to destinations. -/
theorem C99_effect {argv : List Str} (hr : Reachable scan st) (h : Ready scan st argv)
    (hrm : st.removeArguments rm = (st', .ok ())) (hleft : ∀ s ∈ st.arguments, ∃ n, n ∉ rm ∧ st.resolve n = some s.obj)
    (hsil : Silences (· ∈ rm) (argv.drop 1)) (hok : (st.parseArguments scan argv).2 = .ok ()) :
    let r := (st.parseArguments scan argv).1
    let r' := (st'.parseArguments scan argv).1
    (∀ o s', st'.atObj o = some s' →
      r'.atObj o = (r.atObj o).map fun t => { t with arg := { t.arg with names := s'.arg.names } }) ∧
    (∀ o, st'.atObj o = none → st.atObj o = none ∧ r'.atObj o = none ∧ r.atObj o = none) ∧
    r'.additional = r.additional ∧ r'.binaryName = r.binaryName ∧
    r'.destLog.Perm r.destLog ∧
    ∀ k, (∀ t ∈ st.arguments, ∀ u ∈ st.arguments, ∀ d e, t.arg.dest = some d → u.arg.dest = some e →
      d.slot = k → e.slot = k → t = u) → writesTo k r'.destLog = writesTo k r.destLog := by
  obtain ⟨ns, hp⟩ := remove_respelled hr hrm hleft
  obtain ⟨e1, e2, e3⟩ := hp.effect hr.inv h (hp.ready h (op := .remove rm) hrm) hsil hok
  refine ⟨fun o s' hs' => ?_, fun o hno => ?_, e3⟩
  · obtain ⟨hm, ho⟩ := State.atObj_some hs'
    obtain ⟨t, ht, rfl⟩ := hp.mem.1 hm
    rw [← ho]
    exact e1 t ht
  · have hnone : ∀ t ∈ st.arguments, t.obj ≠ o := by
      intro t ht e
      unfold State.atObj at hno
      rw [List.find?_eq_none] at hno
      exact hno (respell ns t) (hp.mem.2 ⟨t, ht, rfl⟩) (by simpa [respell] using e)
    refine ⟨?_, e2 o hnone⟩
    unfold State.atObj
    rw [List.find?_eq_none]
    intro t ht
    simpa using hnone t ht

/-- C99, renaming. Give an option a new flag `f` and take the flag `old` away: a line that writes the option once as `old`, bare or with
`=value`, can now be written with `f` in its place, and everything ends the same but for the names. -/
theorem C99_rename {st1 st2 : State D} {ref : Nat} {s : Slot D} {f old : Str} {prog : Str} {pre post : List Str} {tok : Str}
    {eq : Option Str} (hr : Reachable scan st)
    (h : Ready scan st (prog :: (pre ++ tok :: post)))
    (hs : st.atObj ref = some s) (hflag : st.flag ref f = (st1, .ok ())) (hrm : st1.removeArguments [old] = (st2, .ok ()))
    (hsil : Silences (· = f) (pre ++ tok :: post)) (hsil' : Silences (· = old) (pre ++ withEq f eq :: post))
    (hleft : ∀ s ∈ st1.arguments, ∃ n, n ≠ old ∧ st1.resolve n = some s.obj)
    (hm : MetAt st.sig st.places pre tok post) (hw : Writes st.sig s.entry tok eq) (heq : '=' ∉ f)
    (hshort : ∀ c, f = ['-', c] → st.isAlternative = true → ∀ t, st.getArgument ['-', '-', c] ≠ .ok t)
    (hok : (st.parseArguments scan (prog :: (pre ++ tok :: post))).2 = .ok ()) :
    let r := (st.parseArguments scan (prog :: (pre ++ tok :: post))).1
    let r' := (st2.parseArguments scan (prog :: (pre ++ withEq f eq :: post))).1
    (st2.parseArguments scan (prog :: (pre ++ withEq f eq :: post))).2 = .ok () ∧
    (∀ o s', st2.atObj o = some s' →
      r'.atObj o = (r.atObj o).map fun t => { t with arg := { t.arg with names := s'.arg.names } }) ∧
    (∀ o, st2.atObj o = none ↔ st.atObj o = none) ∧
    r'.additional = r.additional ∧ r'.binaryName = r.binaryName ∧ r'.destLog.Perm r.destLog := by
  have hi : GInv True st := hr.inv
  obtain ⟨p1, _, _⟩ := flag_respelled hr hs hflag
  have r1 : Reachable scan st1 := by
    have := hr.step (.flag ref f) (by show Res.goesOn (st.flag ref f).2 = true; rw [hflag]; rfl)
    rw [show (step scan st (.flag ref f)).1 = st1 by show (st.flag ref f).1 = _; rw [hflag]] at this
    exact this
  have h1 := flag_ready p1 h hflag
  have hleft' : ∀ s ∈ st1.arguments, ∃ n, n ∉ [old] ∧ st1.resolve n = some s.obj := fun s hs => by
    obtain ⟨n, h1, h2⟩ := hleft s hs
    exact ⟨n, by simpa using h1, h2⟩
  obtain ⟨ns, p2⟩ := remove_respelled r1 hrm hleft'
  obtain ⟨evs, hl, _⟩ := parse_ok h hok
  have same := C97_spelling hr h hs hflag hsil hm hw heq hshort hl
  have h1' : Ready scan st1 (prog :: (pre ++ withEq f eq :: post)) := by
    refine ⟨h1.history, h1.settled, fun x hx => ?_, h1.help, h1.program⟩
    have := h1.small x hx
    simpa using this
  have h2' := p2.ready h1' (op := .remove [old]) hrm
  have hsil2 : Silences (· ∈ [old]) ((prog :: (pre ++ withEq f eq :: post)).drop 1) := fun X hX t ht g hg hc =>
    hsil' X hX t ht g hg (by simpa using hc)
  have ok1 := (p1.accepts hi h h1 hsil).2 hok
  have ok1' : (st1.parseArguments scan (prog :: (pre ++ withEq f eq :: post))).2 = .ok () := by rw [same]; exact ok1
  have ok2 := (p2.accepts r1.inv h1' h2' hsil2).2 ok1'
  obtain ⟨a1, a2, a3, a4, a5, _⟩ := p1.effect hi h h1 hsil hok
  obtain ⟨b1, b2, b3, b4, b5, _⟩ := p2.effect r1.inv h1' h2' hsil2 ok1'
  have hobj : ∀ o, (∃ x ∈ st2.arguments, x.obj = o) ↔ ∃ t ∈ st.arguments, t.obj = o := by
    intro o
    constructor
    · rintro ⟨x, hx, rfl⟩
      obtain ⟨y, hy, rfl⟩ := p2.mem.1 hx
      obtain ⟨t, ht, rfl⟩ := p1.mem.1 hy
      exact ⟨t, ht, rfl⟩
    · rintro ⟨t, ht, rfl⟩
      exact ⟨_, p2.mem.2 ⟨_, p1.mem.2 ⟨t, ht, rfl⟩, rfl⟩, rfl⟩
  have hnone : ∀ (z : State D) o, z.atObj o = none ↔ ¬∃ t ∈ z.arguments, t.obj = o := by
    intro z o
    unfold State.atObj
    rw [List.find?_eq_none]
    simp
  refine ⟨ok2, fun o s' hs' => ?_, fun o => ?_, ?_, ?_, ?_⟩
  · obtain ⟨hx, ho⟩ := State.atObj_some hs'
    obtain ⟨y, hy, rfl⟩ := p2.mem.1 hx
    obtain ⟨t, ht, rfl⟩ := p1.mem.1 hy
    rw [← ho]
    have c1 := b1 _ hy
    have c2 := a1 _ ht
    have c1 : (State.parseArguments scan st2 (prog :: (pre ++ withEq f eq :: post))).1.atObj t.obj = _ := c1
    rw [same] at c1
    show (State.parseArguments scan st2 (prog :: (pre ++ withEq f eq :: post))).1.atObj t.obj = _
    have c3 : (State.parseArguments scan st1 (prog :: (pre ++ tok :: post))).1.atObj
      (respell (withFlag s f) t).obj = _ := c2
    rw [c1, c3, Option.map_map]
    rfl
  · rw [hnone, hnone, hobj]
  · rw [b3, same, a3]
  · rw [b4, same, a4]
  · refine b5.trans ?_
    rw [same]
    exact a5

end

/-! ### The hypotheses are met by concrete cases -/

section
attribute [local irreducible] parser parserLine parserSays

/-- `-o` stays, `--out` goes; `--list` stays, `-l` goes. -/
theorem parser_unflag : parser.removeArguments ["--out".toList, "-l".toList] =
    ((parser.removeArguments ["--out".toList, "-l".toList]).1, .ok ()) := pair_of (by decide +kernel)
theorem unflag_named : ∀ s ∈ parser.arguments, ∃ n, n ∉ ["--out".toList, "-l".toList] ∧ parser.resolve n = some s.obj := by
  have : parser.arguments.all (fun s => s.arg.names.any fun n =>
      !["--out".toList, "-l".toList].contains n && parser.resolve n == some s.obj) = true := by decide +kernel
  intro s hs
  obtain ⟨n, _, hn⟩ := List.any_eq_true.1 (List.all_eq_true.1 this s hs)
  simp only [Bool.and_eq_true, Bool.not_eq_true', beq_iff_eq] at hn
  exact ⟨n, fun hc => by rw [List.contains_iff_mem.2 hc] at hn; exact absurd hn.1 (by decide), hn.2⟩
/-- A line free of the two names. -/
theorem unflag_silent {line : List Str} (h1 : ∀ t ∈ line, 'u' ∉ t) (h2 : ∀ t ∈ line, 'l' ∉ t) :
    Silences (· ∈ ["--out".toList, "-l".toList]) line := by
  have a := Spec.Silences.of_char (flags := ["--out".toList]) (line := line) 'u' (by decide) (by decide) h1
  have b := Spec.Silences.of_char (flags := ["-l".toList]) (line := line) 'l' (by decide) (by decide) h2
  intro X hX t ht g hg hm
  rcases List.mem_cons.1 hm with e | e
  · exact a X hX t ht g hg (by simp [e])
  · exact b X hX t ht g hg e

theorem unflag_ready : Ready demoScan parser ("prog".toList :: ["-v", "-o=1", "f"].map String.toList) :=
  parser_ready' (["-v", "-o=1", "f"].map String.toList) (by decide)
theorem unflag_silent' : Silences (· ∈ ["--out".toList, "-l".toList])
    (("prog".toList :: ["-v", "-o=1", "f"].map String.toList).drop 1) :=
  unflag_silent (by decide +kernel) (by decide +kernel)

example := C99_reading parser_history.reachable unflag_ready parser_unflag unflag_named unflag_silent'
example := (C99_reading parser_history.reachable (parser_words ["-v", "--nope"] (by decide +kernel))
  parser_unflag unflag_named (unflag_silent (by decide +kernel) (by decide +kernel))).2.2
  _ _ (parser_says (ws := ["-v", "--nope"]) (evs := [.option 2 false .nothing])
    (err := some ⟨.parse, "nope".toList, "invalid option".toList⟩) (by decide +kernel) (by decide +kernel))
example := (C99_accepts parser_history.reachable unflag_ready parser_unflag unflag_named unflag_silent').2 (by decide +kernel)
example := C99_effect parser_history.reachable unflag_ready parser_unflag unflag_named unflag_silent' (by decide +kernel)
/-- The silence is needed: `--out` was an option, and is none any more. -/
example : (parser.parseArguments demoScan ("prog".toList :: ["--out=1", "f"].map String.toList)).2 = .ok () ∧
    ((parser.removeArguments ["--out".toList, "-l".toList]).1.parseArguments demoScan
      ("prog".toList :: ["--out=1", "f"].map String.toList)).2 ≠ .ok () := by
  decide +kernel
/-- That a name is left is needed: without `-o` and `--out` there is no option any more, and the parser may want one less. -/
example : (parser.removeArguments ["--out".toList, "-o".toList]).2 = .ok () ∧
    (parser.removeArguments ["--out".toList, "-o".toList]).1.atObj 0 = none ∧ parser.atObj 0 ≠ none := by
  decide +kernel

/-- `-v -o=1 f` with `-o`, and `-v -z=1 f` with `-z` in its place. -/
example : let st2 := ((parser.flag 0 "-z".toList).1.removeArguments ["-o".toList]).1
    (st2.parseArguments demoScan ("prog".toList :: ["-v", "-z=1", "f"].map String.toList)).2 = .ok () ∧
    st2.resolve "-o".toList = none ∧ st2.resolve "-z".toList = some 0 := by
  decide +kernel
theorem parser_rename : (parser.flag 0 "-z".toList).1.removeArguments ["-o".toList] =
    (((parser.flag 0 "-z".toList).1.removeArguments ["-o".toList]).1, .ok ()) := pair_of (by decide +kernel)
theorem rename_named : ∀ s ∈ (parser.flag 0 "-z".toList).1.arguments,
    ∃ n, n ≠ "-o".toList ∧ (parser.flag 0 "-z".toList).1.resolve n = some s.obj := by
  have : (parser.flag 0 "-z".toList).1.arguments.all (fun s => s.arg.names.any fun n =>
      n != "-o".toList && (parser.flag 0 "-z".toList).1.resolve n == some s.obj) = true := by decide +kernel
  intro s hs
  obtain ⟨n, _, hn⟩ := List.any_eq_true.1 (List.all_eq_true.1 this s hs)
  simp only [Bool.and_eq_true, bne_iff_ne, beq_iff_eq] at hn
  exact ⟨n, hn.1, hn.2⟩
example : ((((parser.flag 0 "-z".toList).1.removeArguments ["-o".toList]).1).parseArguments demoScan
      ("prog".toList :: ([['-', 'v']] ++ withEq "-z".toList (some "1".toList) :: ["f".toList]))).2 = .ok () := by
  have hrd := parser_ready' (["-v", "-o=1", "f"].map String.toList) (by decide)
  have hok : (parser.parseArguments demoScan ("prog".toList :: ["-v", "-o=1", "f"].map String.toList)).2 = .ok () := by decide +kernel
  have e1 : ["-v", "-o=1", "f"].map String.toList = [['-', 'v']] ++ "-o=1".toList :: ["f".toList] := by decide +kernel
  rw [e1] at hrd hok
  have e3 : (argOf parser 0).entry = ⟨0, .simple, 1⟩ := by decide +kernel
  refine (C99_rename parser_history.reachable hrd (argOf_at parser 0 (by decide +kernel)) parser_flag' parser_rename
    (.of_one 'z' (by decide) (by decide) (by decide +kernel)) (.of_one 'o' (by decide) (by decide) (by decide +kernel))
    rename_named (parser_met _ _) ?_ (by decide) (fun _ _ h => absurd h (by decide +kernel)) hok).1
  rw [e3]
  exact (parser_writes_o (some "1".toList)).1

end

end BletArgs
