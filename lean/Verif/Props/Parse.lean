import Verif.Lemmas.Reader
import Verif.Lemmas.Occur
import Verif.Lemmas.Callback
import Verif.Props.ParseConfig
import Verif.Props.Kinds
/-
C20 (grammar) and the properties of a parse that returns: C24, C25, C26, C27, C28, C36.
-/
namespace BletArgs
open Spec
variable {D : Type}

/-! ### Which parsers are ready -/

/-- The discipline of a history: no exception of `action()` or `nargs()` was ignored, and the values given
to `nargs()` are below `2^64 - 2^31`. -/
def Disciplined (_ : State D) (op : Op) (r : Res Unit) : Prop :=
  match op with
  | .action _ _ => r = .ok ()
  | .nargs _ n => r = .ok () ∧ n < 2 ^ 64 - 2 ^ 31
  | _ => True

theorem ReachableBy.mono {scan : Str → Option D} {P Q : State D → Op → Res Unit → Prop}
    (hPQ : ∀ st op r, P st op r → Q st op r) {st : State D} (h : ReachableBy scan P st) : ReachableBy scan Q st := by
  induction h with
  | init => exact .init
  | step op _ hg hp ih => exact .step op ih hg (hPQ _ _ _ hp)

theorem kindOf_nargs {p : Bool} {act : Action} {n : Nat} {k : Ty} {m : Nat} (h : kindOf p act n = some (k, m)) :
    m = 0 ∨ m = 1 ∨ m = n := by
  unfold kindOf at h
  cases p <;> cases act <;> simp only [Bool.false_eq_true, if_false, if_true] at h <;> grind

theorem step_small {scan : Str → Option D} {st : State D} {full : Prop} (hi : GInv full st)
    (hs : ∀ s ∈ st.arguments, s.arg.nargs < 2 ^ 64 - 2 ^ 31)
    (op : Op) (hg : (step scan st op).2.goesOn = true) (hc : Disciplined st op (step scan st op).2) :
    ∀ s ∈ (step scan st op).1.arguments, s.arg.nargs < 2 ^ 64 - 2 ^ 31 := by
  intro s' hs'
  rcases step_slots hi op hg hs' with ⟨s, hm, h⟩ | h
  · have h0 := hs s hm
    cases op with
    | action ref act =>
      simp only [ArgChange] at h
      split at h
      · rename_i e
        have hat : st.atObj ref = some s := e ▸ State.atObj_of_mem hi.objs hm
        simp only [Disciplined, step] at hc
        rw [action_eq hat] at hc
        rw [h]
        obtain ⟨k, n, g0, _, g2, _⟩ := retype_ok hc
        rcases kindOf_nargs g0 with e | e | e <;> simp only at g2 e ⊢ <;> rw [g2, e] <;> first | omega | exact h0
      · rw [h]; exact h0
    | nargs ref n =>
      simp only [ArgChange] at h
      split at h
      · rename_i e
        have hat : st.atObj ref = some s := e ▸ State.atObj_of_mem hi.objs hm
        simp only [Disciplined, step] at hc
        obtain ⟨hc, hn⟩ := hc
        unfold State.nargs State.withRef at hc
        rw [hat] at hc
        rw [h]
        obtain ⟨k, m, g0, _, g2, _⟩ := retype_ok hc
        rcases kindOf_nargs g0 with e | e | e <;> simp only at g2 e ⊢ <;> rw [g2, e] <;> omega
      · rw [h]; exact h0
    | defaults ref ds =>
      simp only [ArgChange] at h
      split at h
      · have hf := defaultsConstructor_frame ({ s.arg with defaults := ds } : Argument D)
        rw [h]
        exact Nat.lt_of_le_of_lt (Nat.le_of_eq hf.2.2.2.2.1) h0
      · rw [h]; exact h0
    | flag ref f | remove ns =>
      simp only [ArgChange] at h
      obtain ⟨ms, rfl⟩ := h
      exact h0
    | parse argv =>
      simp only [ArgChange] at h
      have : s'.arg.nargs = s.arg.nargs := (congrArg (fun x : Slot D => x.arg.nargs) h :)
      omega
    | required ref _ | help ref _ | metavar ref _ | behave ref _ _ | edit ref _ | valid ref _ _ | dest ref _ =>
      simp only [ArgChange] at h
      split at h <;> (rw [h]; exact h0)
    | _ => simp only [ArgChange] at h; rw [h]; exact h0
  · cases op with
    | add names =>
      simp only [ArgFresh] at h
      rcases h.2.2 with ⟨n, e⟩ | ⟨fs, e⟩ <;> rw [e] <;> simp
    | parse argv =>
      simp only [ArgFresh] at h
      have : s'.arg.nargs = 0 := (congrArg (fun x : Argument D => x.nargs) h.2.2.2 :)
      omega
    | _ => exact h.elim

theorem Disciplined.kinds {st : State D} {op : Op} {r : Res Unit} (h : Disciplined st op r) : KindsAccepted st op r := by
  cases op with
  | action => exact h
  | nargs => exact h.1
  | _ => trivial

theorem ReachableBy.small {scan : Str → Option D} {st : State D} (h : ReachableBy scan Disciplined st) :
    ∀ s ∈ st.arguments, s.arg.nargs < 2 ^ 64 - 2 ^ 31 := by
  induction h with
  | init => intro s hs; cases hs
  | step op hr hg hc ih => exact step_small hr.reachable.inv ih op hg hc

/-- Every disciplined history ends in a parser that is ready for every command line of less than `2^31`
tokens, once it has a help option. -/
theorem Ready.of_history {scan : Str → Option D} {st : State D} (h : ReachableBy scan Disciplined st)
    (hh : st.helpOption ≠ none) {argv : List Str} (hlen : argv.length < 2 ^ 31)
    (hp : ∃ p, argv.head? = some p ∧ p ≠ ['-', '-']) : Ready scan st argv where
  history := h.reachable.survives
  settled := (h.mono fun _ _ _ => Disciplined.kinds).settled
  small s hs := by
    have h1 := h.small s hs
    have h2 : two64 = 2 ^ 64 := rfl
    rw [h2]
    omega
  help := hh
  program := hp

/-- Executable form of a disciplined history. -/
def opsDisciplined (scan : Str → Option D) : State D → List Op → Bool
  | _, [] => true
  | st, op :: ops =>
    (match op with
      | .action _ _ => match (step scan st op).2 with | .ok () => true | _ => false
      | .nargs _ n => decide (n < 2 ^ 64 - 2 ^ 31) && match (step scan st op).2 with | .ok () => true | _ => false
      | _ => (step scan st op).2.goesOn) && opsDisciplined scan (step scan st op).1 ops

theorem opsDisciplined_head {scan : Str → Option D} {st : State D} {op : Op} {ops : List Op}
    (hg : opsDisciplined scan st (op :: ops) = true) :
    (step scan st op).2.goesOn = true ∧ Disciplined st op (step scan st op).2 := by
  simp only [opsDisciplined, Bool.and_eq_true] at hg
  have hg := hg.1
  cases op with
  | action ref a =>
    simp only at hg
    split at hg
    · rename_i e; rw [e]; exact ⟨rfl, rfl⟩
    · cases hg
  | nargs ref n =>
    simp only [Bool.and_eq_true, decide_eq_true_eq] at hg
    obtain ⟨hn, hg⟩ := hg
    split at hg
    · rename_i e; rw [e]; exact ⟨rfl, rfl, hn⟩
    · cases hg
  | _ => exact ⟨hg, trivial⟩

theorem opsDisciplined_tail {scan : Str → Option D} {st : State D} {op : Op} {ops : List Op}
    (hg : opsDisciplined scan st (op :: ops) = true) : opsDisciplined scan (step scan st op).1 ops = true := by
  simp only [opsDisciplined, Bool.and_eq_true] at hg
  exact hg.2

theorem reachableBy_runOps {scan : Str → Option D} {st : State D} (h : ReachableBy scan Disciplined st)
    (ops : List Op) (hg : opsDisciplined scan st ops = true) : ReachableBy scan Disciplined (runOps scan st ops) := by
  induction ops generalizing st with
  | nil => exact h
  | cons op ops ih =>
    obtain ⟨h1, h2⟩ := opsDisciplined_head hg
    exact ih (.step op h h1 h2) (opsDisciplined_tail hg)

/-- The reference parser of the parsing properties: an option of each kind, two positional arguments and
help. -/
def parserOps : List Op :=
  [.add ["-o".toList, "--out".toList],                        -- 0: one value
   .add ["file".toList], .required 1 true,                    -- 1: positional
   .add ["-v".toList], .action 2 .storeTrue,                  -- 2: boolean
   .add ["-n".toList], .nargs 3 2,                            -- 3: two values
   .add ["-l".toList, "--list".toList], .nargs 4 43,          -- 4: list
   .add ["-a".toList], .action 5 .append,                     -- 5: one value, accumulating
   .add ["-g".toList], .nargs 6 2, .action 6 .append,         -- 6: groups of two, accumulating
   .add ["-q".toList], .action 7 .storeFalse,                 -- 7: reversed boolean
   .add ["rest".toList], .nargs 8 43,                         -- 8: positional list
   .add ["-h".toList, "--help".toList], .action 9 .help,
   .add ["-e".toList], .action 10 .extend,                    -- 10: lists, accumulating
   .add ["-x".toList], .nargs 11 2, .action 11 .extend]       -- 11: groups, accumulating

def parser : State Unit := runOps demoScan State.init parserOps

theorem parser_history : ReachableBy demoScan Disciplined parser := reachableBy_runOps .init _ (by decide +kernel)

theorem parser_ready {argv : List Str} (hlen : argv.length < 2 ^ 31)
    (hp : ∃ p, argv.head? = some p ∧ p ≠ ['-', '-']) : Ready demoScan parser argv :=
  .of_history parser_history (by decide +kernel) hlen hp

/-- A long command line the reference parser accepts. -/
def parserLine : List Str :=
  ["prog", "-vv", "--out=1", "-o2", "-n", "a", "b", "-l", "x", "y", "-a", "c", "in", "-ad", "-g", "e", "f", "-q",
    "-g", "i", "j", "-e", "p", "q", "-er", "-x", "1", "2", "3", "4", "--", "k", "l"].map String.toList

theorem parserLine_ready : Ready demoScan parser parserLine :=
  parser_ready (by decide +kernel) ⟨"prog".toList, rfl, by decide +kernel⟩

theorem parserLine_ok : (parser.parseArguments demoScan parserLine).2 = .ok () := by decide +kernel

/-- C20, computed. What a command line says is computed by the reference parser of `Spec/Reader.lean`: it gives exactly the
events and the error the grammar derives; and if there is an error then `parseArguments` throws it. -/
theorem C20_reference {scan : Str → Option D} {st : State D} {argv : List Str} (h : Ready scan st argv) :
    (∀ evs err, Line st.sig st.places (argv.drop 1) evs err ↔ Reader.line st.sig st.places (argv.drop 1) = (evs, err)) ∧
    ∀ x, (Reader.line st.sig st.places (argv.drop 1)).2 = some x → (st.parseArguments scan argv).2 = .throw x := by
  have key : ∀ evs err, Line st.sig st.places (argv.drop 1) evs err ↔ Spec.Reader.line st.sig st.places (argv.drop 1) = (evs, err) := by
    intro evs err
    refine ⟨Reader.line_of (sane_sized h.sane) (sane_places h.sane), fun e => ?_⟩
    obtain ⟨evs', err', h1, _⟩ := parse_tokens h
    have := Reader.line_of (sane_sized h.sane) (sane_places h.sane) h1
    rw [e] at this
    cases this
    exact h1
  refine ⟨key, fun x hx => (parse_of_line h ((key (Spec.Reader.line st.sig st.places (argv.drop 1)).1 (some x)).2 ?_)).1 x rfl⟩
  rw [← hx]

/-- The events of a concrete command line. -/
theorem Ready.says {scan : Str → Option D} {st : State D} {argv : List Str} (h : Ready scan st argv) {evs : List Event}
    {err : Option Exn} (e : Reader.line st.sig st.places (argv.drop 1) = (evs, err)) :
    Line st.sig st.places (argv.drop 1) evs err := ((C20_reference h).1 _ _).2 e

/-- The reference parser, after some more calls. -/
theorem ready_ops (ops : List Op) (hd : opsDisciplined demoScan parser ops = true)
    (hh : (runOps demoScan parser ops).helpOption ≠ none) {argv : List Str} (hl : argv.length < 1000)
    (hp : ∃ p, argv.head? = some p ∧ p ≠ ['-', '-']) : Ready demoScan (runOps demoScan parser ops) argv :=
  .of_history (reachableBy_runOps parser_history ops hd) hh (by omega) hp

/-- The reference parser after some more calls, run on the words `ws`. -/
theorem ready_words (ops : List Op) (ws : List String)
    (h : (opsDisciplined demoScan parser ops && (runOps demoScan parser ops).helpOption.isSome && decide (ws.length < 1000)) = true) :
    Ready demoScan (runOps demoScan parser ops) ("prog".toList :: ws.map String.toList) := by
  rw [Bool.and_eq_true, Bool.and_eq_true, decide_eq_true_eq] at h
  refine .of_history (reachableBy_runOps parser_history ops h.1.1) ?_ ?_ ⟨"prog".toList, rfl, by decide +kernel⟩
  · intro e
    have := h.1.2
    rw [e] at this
    cases this
  · simp only [List.length_cons, List.length_map]
    omega

theorem parser_words (ws : List String) (h : decide (ws.length < 1000) = true) :
    Ready demoScan parser ("prog".toList :: ws.map String.toList) := by
  refine parser_ready ?_ ⟨"prog".toList, rfl, by decide +kernel⟩
  simp only [decide_eq_true_eq] at h
  simp only [List.length_cons, List.length_map]
  omega

/-- The argument designated by a reference, in a concrete parser. -/
def argOf (st : State Unit) (ref : Nat) (h : (st.atObj ref).isSome = true := by decide +kernel) : Slot Unit := (st.atObj ref).get h

theorem argOf_at (st : State Unit) (ref : Nat) (h : (st.atObj ref).isSome = true) : st.atObj ref = some (argOf st ref h) :=
  (Option.some_get h).symm

theorem argOf_mem (st : State Unit) (ref : Nat) (h : (st.atObj ref).isSome = true := by decide +kernel) :
    argOf st ref h ∈ st.arguments := (State.atObj_some (argOf_at st ref h)).1

/-- What the long command line says. -/
def parserSays : List Event :=
  let l (vs : List String) : Values := .list (vs.map String.toList)
  let g (gs : List (List String)) : Values := .groups (gs.map (·.map String.toList))
  [.option 2 false .nothing, .option 2 false .nothing, .option 0 false (.single "1".toList), .option 0 true (.single "2".toList),
   .option 3 false (l ["a", "b"]), .option 4 false (l ["x", "y"]), .option 5 false (l ["c"]), .positional 1 (.single "in".toList),
   .option 5 true (l ["d"]), .option 6 false (g [["e", "f"]]), .option 7 false .nothing, .option 6 false (g [["i", "j"]]),
   .option 10 false (l ["p", "q"]), .option 10 true (l ["r"]), .option 11 false (g [["1", "2"], ["3", "4"]]),
   .positional 8 (l ["k", "l"])]

theorem parserLine_says : Line parser.sig parser.places (parserLine.drop 1) parserSays none :=
  ((C20_reference parserLine_ready).1 _ _).2 (by decide +kernel)

example : Reader.line parser.sig parser.places (["-v", "-n", "a"].map String.toList) =
    ([.option 2 false .nothing], some ⟨.parse, "n".toList, "bad number of argument".toList⟩) := by decide +kernel

/-! ### C55 again -/

theorem withHelp_reset {st : State D} : st.withHelp.resetAll = st.resetAll.withHelp := by
  unfold State.withHelp State.resetAll
  simp only
  rw [show (st.arguments.map fun s => ({ s with arg := s.arg.reset } : Slot D)) ++
        [State.newSlot { st with arguments := st.arguments.map fun s => ({ s with arg := s.arg.reset } : Slot D) }
          (helpArgument (helpFlags { st with arguments := st.arguments.map fun s => ({ s with arg := s.arg.reset } : Slot D) }))] =
      (st.arguments ++ [st.newSlot (helpArgument (helpFlags st))]).map fun s => ({ s with arg := s.arg.reset } : Slot D) by
    rw [List.map_append]; rfl]
  rw [stableSort_map]
  · rfl
  · intro x _ y _; rfl

/-- C55, meaning: a parser without help option (and with `-h` or `--help` free) parses exactly as the parser
obtained by registering the free flags with `addArgument`, `action(HELP)` and `help(…)`. So the parsing
properties below, stated for parsers with a help option, cover all parsers but those of
`C55_early_return`. -/
theorem C55_as_if_added {scan : Str → Option D} {st : State D} (h : Reachable scan st)
    (hh : st.helpOption = none) (hb : ¬BothTaken st) :
    ∃ flags, (∀ n, n ∈ flags ↔ (n = "-h".toList ∨ n = "--help".toList) ∧ st.argumentExists n = false) ∧
      opsDisciplined scan st [.add flags, .action st.nextObj .help,
        .help st.nextObj "show this help message and exit".toList] = true ∧
      (runOps scan st [.add flags, .action st.nextObj .help,
        .help st.nextObj "show this help message and exit".toList]).helpOption ≠ none ∧
      ∀ argv, st.parseArguments scan argv = (runOps scan st [.add flags, .action st.nextObj .help,
        .help st.nextObj "show this help message and exit".toList]).parseArguments scan argv := by
  have hi := h.inv
  have hbf : (st.argumentExists "-h".toList && st.argumentExists "--help".toList) = false := by
    rw [← Bool.not_eq_true, bothTaken_iff]; exact hb
  have hauto := autoHelp_ok hi hh hbf
  have hadd := (addArgument_helpFlags hi hbf).1
  have key : opsDisciplined scan st [.add (helpFlags st), .action st.nextObj .help,
        .help st.nextObj "show this help message and exit".toList] = true ∧
      runOps scan st [.add (helpFlags st), .action st.nextObj .help,
        .help st.nextObj "show this help message and exit".toList] = st.withHelp := by
    unfold State.autoHelp at hauto
    rw [if_pos (by rw [hh]; rfl), if_neg (by rw [hbf]; simp)] at hauto
    simp only at hauto
    rw [show (if st.argumentExists "-h".toList = true then [] else ["-h".toList]) ++
      (if st.argumentExists "--help".toList = true then [] else ["--help".toList]) = helpFlags st from rfl] at hauto
    unfold runOps
    simp only [opsDisciplined, List.foldl_cons, List.foldl_nil, step]
    rw [hadd] at hauto ⊢
    simp only at hauto ⊢
    generalize hr1 : State.action _ st.nextObj Action.help = r1 at hauto ⊢
    obtain ⟨st2, r1⟩ := r1
    cases r1 with
    | ok u =>
      simp only at hauto ⊢
      generalize hr2 : State.setHelp _ _ _ = r2 at hauto ⊢
      obtain ⟨st3, r2⟩ := r2
      cases r2 with
      | ok u =>
        simp only [Prod.mk.injEq, and_true] at hauto
        exact ⟨rfl, hauto⟩
      | _ => simp only [Prod.mk.injEq] at hauto; cases hauto.2
    | _ => simp only [Prod.mk.injEq] at hauto; cases hauto.2
  refine ⟨helpFlags st, ?_, key.1, ?_, ?_⟩
  · intro n
    unfold helpFlags
    rw [List.mem_append]
    constructor
    · rintro (hn | hn) <;> split at hn
      · cases hn
      · rw [List.mem_singleton] at hn; subst hn; exact ⟨.inl rfl, Bool.eq_false_iff.2 ‹_›⟩
      · cases hn
      · rw [List.mem_singleton] at hn; subst hn; exact ⟨.inr rfl, Bool.eq_false_iff.2 ‹_›⟩
    · rintro ⟨rfl | rfl, hn⟩
      · left; rw [if_neg (by rw [hn]; exact Bool.false_ne_true)]; exact List.mem_singleton.2 rfl
      · right; rw [if_neg (by rw [hn]; exact Bool.false_ne_true)]; exact List.mem_singleton.2 rfl
  · rw [key.2]; exact fun e => by cases e
  · intro argv
    rw [key.2]
    unfold State.parseArguments
    have hr : Inv st.resetAll := inv_of_config (resetAll_config st) hi
    have e1 : st.resetAll.autoHelp = (st.resetAll.withHelp, .ok true) := autoHelp_ok hr hh hbf
    have e2 : st.withHelp.resetAll.autoHelp = (st.resetAll.withHelp, .ok true) := by
      rw [withHelp_reset]
      rfl
    rw [e1, e2]

/-- `demo` has no help option and both flags free. -/
example : Reachable demoScan demo ∧ demo.helpOption = none ∧ ¬BothTaken demo :=
  ⟨demo_reachable, by decide +kernel, fun h => absurd h.1 (by decide +kernel)⟩

/-! ### C20 -/

/-- C20, tokens. A ready parser and a command line: there is exactly one list of events and error derivable
for the tokens in the grammar, and if there is an error then `parseArguments` throws it. -/
theorem C20_unique_derivation {scan : Str → Option D} {st : State D} {argv : List Str} (h : Ready scan st argv) :
    ∃ evs err, Line st.sig st.places (argv.drop 1) evs err ∧
      (∀ evs' err', Line st.sig st.places (argv.drop 1) evs' err' → evs' = evs ∧ err' = err) ∧
      ∀ x, err = some x → (st.parseArguments scan argv).2 = .throw x := by
  obtain ⟨evs, err, h1, h2, _⟩ := parse_tokens h
  exact ⟨evs, err, h1, fun evs' err' hl => line_unique (sane_sized h.sane) (sane_places h.sane) hl h1, h2⟩

/-- Validators and destinations that cannot throw exceptions which look like those of the tokens. -/
def OwnErrors (a : Argument D) : Prop :=
  (∀ v, a.valid = some v → ∀ l e, v.check l ≠ .throwOther e) ∧
  (∀ d, a.dest = some d → d.custom = true ∧ (∀ w e, d.refuses w = some e → e.kind ≠ .parse) ∨
    d.custom = false ∧ d.supported = true)

theorem runValid_errors {a : Argument D} (h : OwnErrors a) {e : Exn} (he : a.runValid.2 = .throw e) : e.kind = .valid := by
  unfold Argument.runValid at he
  cases hv : a.valid with
  | none => rw [hv] at he; cases he
  | some v =>
    rw [hv] at he
    simp only at he
    split at he
    · generalize hc : v.check (a.toVector.getD []) = r at he
      cases r with
      | throwValid msg => cases he; rfl
      | throwOther x => exact absurd hc (h.1 v hv _ x)
      | reject => cases he; rfl
      | accept args =>
        simp only at he
        cases ht : a.type <;> rw [ht] at he <;> simp only at he <;> cases he <;> rfl
    · cases he

theorem finish_errors {scan : Str → Option D} {a : Argument D} (h : OwnErrors a) {e : Exn}
    (he : (a.finish scan).2.2 = .throw e) : e.kind ≠ .parse := by
  unfold Argument.finish at he
  generalize hr : a.runValid = r at he
  obtain ⟨a1, r⟩ := r
  cases r with
  | ok u =>
    simp only at he
    have hc1 : a1.config = a.config := by
      have := a.runValid_config; rw [hr] at this; exact this
    have hc2 := Argument.toNumber_config scan a1
    have hd : (a1.toNumber scan).dest = a.dest :=
      (congrArg (fun x : Argument D => x.dest) (hc2.trans hc1) :)
    obtain ⟨d, g1, g2⟩ := toDest_throw he
    rw [hd] at g1
    rcases h.2 d g1 with ⟨k1, k2⟩ | ⟨k1, k2⟩
    · rcases g2 with ⟨_, g2⟩ | ⟨g2, _⟩
      · exact k2 _ _ g2
      · rw [k1] at g2; cases g2
    · rcases g2 with ⟨g2, _⟩ | ⟨_, g2, _⟩
      · rw [k1] at g2; cases g2
      · rw [k2] at g2; cases g2
  | throw x =>
    simp only [Res.throw.injEq] at he
    subst he
    rw [runValid_errors h (e := x) (by rw [hr])]
    exact fun e => nomatch e
  | _ => cases he

theorem finishAll_errors {scan : Str → Option D} {l : List (Slot D)} (h : ∀ s ∈ l, OwnErrors s.arg) {e : Exn}
    (he : (finishAll scan l).2.2 = .throw e) : e.kind ≠ .parse := by
  induction l with
  | nil => cases he
  | cons s l ih =>
    unfold finishAll at he
    generalize hr : s.arg.finish scan = r at he
    obtain ⟨a1, w, r⟩ := r
    cases r with
    | ok u => exact ih (fun s hs => h s (List.mem_cons_of_mem _ hs)) he
    | throw x =>
      simp only [Res.throw.injEq] at he
      subst he
      exact finish_errors (scan := scan) (h s List.mem_cons_self) (by rw [hr])
    | _ => cases he

theorem parseError_kind (c : Str) (m : String) : (parseError c m).kind = .parse := rfl

theorem optionReads_kind {stop : Str → Prop} {name : Str} {e : Entry} {att : Bool} {eq : Option Str} {ts : List Str}
    {evs : List Event} {x : Exn} (h : OptionReads stop name e att eq ts evs (.error x)) : x.kind = .parse := by
  cases h <;> rfl

theorem clusterReads_kind {sig : Sig} {stop : Str → Prop} {eq : Option Str} {ts : List Str} {cs : List Char}
    {evs : List Event} {out : Out} (h : ClusterReads sig stop eq ts cs evs out) : ∀ x, out = .error x → x.kind = .parse := by
  induction h with
  | none | unknown | notLast => intro x e; cases e; rfl
  | last hf h | attached _ hf _ _ h => rintro x rfl; exact optionReads_kind h
  | switch _ _ _ _ ih => exact ih

theorem tokenReads_kind {sig : Sig} {stop : Str → Prop} {tok : Str} {ts : List Str}
    {evs : List Event} {x : Exn} (h : TokenReads sig stop tok ts evs (.error x)) : x.kind = .parse := by
  cases h with
  | long _ _ _ h => exact optionReads_kind h
  | unknownLong => rfl
  | alternative _ _ _ _ h => exact optionReads_kind h
  | cluster _ _ _ h => exact clusterReads_kind h x rfl

theorem wordFails_kind {stop : Str → Prop} {strict : Bool} {q : List Place} {ts : List Str} {x : Exn}
    (h : WordFails stop strict q ts x) : x.kind = .parse := by
  cases h <;> rfl

theorem line_kind {sig : Sig} {q : List Place} {ts : List Str} {evs : List Event} {x : Exn}
    (h : Line sig q ts evs (some x)) : x.kind = .parse := by
  have reads : ∀ {sig : Sig} {q q' : List Place} {ts evs err}, Reads sig q ts evs q' err → ∀ x, err = some x → x.kind = .parse := by
    intro sig q q' ts evs err h
    induction h with
    | nil => intro x e; cases e
    | option _ _ ih => exact ih
    | badOption h => intro x e; cases e; exact tokenReads_kind h
    | word _ _ _ ih => exact ih
    | badWord _ h => intro x e; cases e; exact wordFails_kind h
  have words : ∀ {strict : Bool} {q q' : List Place} {ts evs err}, ReadsWords strict q ts evs q' err → ∀ x, err = some x → x.kind = .parse := by
    intro strict q q' ts evs err h
    induction h with
    | nil => intro x e; cases e
    | word _ _ ih => exact ih
    | badWord h => intro x e; cases e; exact wordFails_kind h
  cases h with
  | whole _ h => exact reads h x rfl
  | split _ _ h => exact words h x rfl
  | splitBad _ h => exact reads h x rfl

/-- C20, acceptance. The tokens are refused (by a `ParseArgumentException`) exactly when the grammar gives
them an error, provided validators and conversions do not throw such exceptions themselves. -/
theorem C20_accepts_iff {scan : Str → Option D} {st : State D} {argv : List Str} (h : Ready scan st argv)
    (hown : ∀ s ∈ st.arguments, OwnErrors s.arg) :
    (∃ evs, Line st.sig st.places (argv.drop 1) evs none) ↔
      ¬∃ x : Exn, (st.parseArguments scan argv).2 = .throw x ∧ x.kind = .parse := by
  constructor
  · rintro ⟨evs, hl⟩ ⟨x, hx, hk⟩
    rw [(parse_of_line h hl).2 rfl] at hx
    have hown' : ∀ s ∈ ((st.begin argv).recordAll evs).arguments, OwnErrors s.arg := by
      intro s hs
      have hc : ((st.begin argv).recordAll evs).arguments.map Slot.config = st.arguments.map Slot.config := by
        have h1 := recordAll_config evs (st.begin argv)
        have h2 := begin_config st argv
        exact (congrArg (fun x : State D => x.arguments) (h1.trans h2) :)
      obtain ⟨u, hu, e⟩ := slots_of_config hc hs
      have hv : s.arg.valid = u.arg.valid := (congrArg (fun x : Slot D => x.arg.valid) e :)
      have hd : s.arg.dest = u.arg.dest := (congrArg (fun x : Slot D => x.arg.dest) e :)
      have := hown u hu
      unfold OwnErrors at this ⊢
      rw [hv, hd]
      exact this
    unfold State.afterLoop at hx
    split at hx
    · cases hx
    · split at hx
      · cases hx; cases hk
      · cases hx
    · split at hx
      · cases hx
      · split at hx
        · cases hx; cases hk
        · cases hx
      · unfold State.finishParse at hx
        split at hx
        · rename_i e he
          simp only [Res.throw.injEq] at hx
          subst hx
          unfold firstMissing at he
          rw [Option.map_eq_some_iff] at he
          obtain ⟨s, _, e⟩ := he
          split at e <;> (subst e; cases hk)
        · simp only at hx
          exact finishAll_errors hown' hx hk
  · intro hn
    obtain ⟨evs, err, h1, h2, _⟩ := parse_tokens h
    cases err with
    | none => exact ⟨evs, h1⟩
    | some x => exact absurd ⟨x, h2 x rfl, line_kind h1⟩ hn

example : ∀ s ∈ parser.arguments, OwnErrors s.arg := by
  have h : ∀ s ∈ parser.arguments, s.arg.valid.isNone = true ∧ s.arg.dest = none := by decide +kernel
  intro s hs
  obtain ⟨h1, h2⟩ := h s hs
  refine ⟨fun v hv => ?_, fun d hd => ?_⟩
  · rw [hv] at h1; cases h1
  · rw [hd] at h2; cases h2

/-! ### Concrete cases: instances -/

section
attribute [local irreducible] parser parserLine

/-- No validator and no destination. -/
def plainB (s : Slot Unit) : Bool := s.arg.valid.isNone && s.arg.dest.isNone

theorem ownErrors_of_plain {s : Slot Unit} (h : plainB s = true) : OwnErrors s.arg := by
  simp only [plainB, Bool.and_eq_true, Option.isNone_iff_eq_none] at h
  exact ⟨fun v hv => (Option.some_ne_none v (hv.symm.trans h.1)).elim, fun d hd => (Option.some_ne_none d (hd.symm.trans h.2)).elim⟩

theorem parser_ownErrors : ∀ s ∈ parser.arguments, OwnErrors s.arg := fun s hs =>
  ownErrors_of_plain (List.all_eq_true.1 (by decide +kernel) s hs)

example := C20_unique_derivation parserLine_ready
/-- The long line is accepted, `-v --nope` is not. -/
example : ∃ evs, Line parser.sig parser.places (parserLine.drop 1) evs none :=
  (C20_accepts_iff parserLine_ready parser_ownErrors).2 (by
    rintro ⟨x, hx, _⟩
    rw [parserLine_ok] at hx
    cases hx)
example := C20_accepts_iff (parser_words ["-v", "--nope"] (by decide +kernel)) parser_ownErrors
example := (C20_reference (parser_words ["-v", "--nope"] (by decide +kernel))).2
  ⟨.parse, "nope".toList, "invalid option".toList⟩ (by decide +kernel)

end

end BletArgs
