import Verif.Spec.Edits
import Verif.Props.Same
import Verif.Props.Writes
import Verif.Props.Lines
/-
C83: what becomes of elements the user puts into an argument through the `std::vector` it inherits from.
-/
namespace BletArgs
open Spec
variable {D : Type}

theorem edit_eq {scan : Str → Option D} {st : State D} {ref : Nat} {s : Slot D} (h : st.atObj ref = some s) (items : List NewElem) :
    step scan st (.edit ref items) =
      (st.modNode s.node fun a => a.withElems (items.map (NewElem.elem scan)), .ok ()) := by
  show st.edit scan ref items = _
  unfold State.edit State.withRef
  rw [h]
  rfl

theorem edit_config (scan : Str → Option D) (st : State D) (ref : Nat) (items : List NewElem) :
    (step scan st (.edit ref items)).1.config = st.config := by
  show (st.edit scan ref items).1.config = _
  unfold State.edit State.withRef
  split
  · rfl
  · unfold State.config State.modNode
    simp only [List.map_map]
    congr 1
    refine List.map_congr_left fun t _ => ?_
    simp only [Function.comp_apply]
    split <;> rfl

theorem places_of_config {st st' : State D} (hc : st'.arguments.map Slot.config = st.arguments.map Slot.config) :
    st'.places = st.places := by
  have key : ∀ l : List (Slot D), (l.filter fun s => s.arg.isPositional).map Slot.place =
      ((l.map Slot.config).filter fun s => s.arg.isPositional).map Slot.place := by
    intro l
    rw [List.filter_map, List.map_map]
    rfl
  unfold State.places
  rw [key, hc, ← key]

/-- C83, the words. Whatever the elements the user puts into an argument, the parser stays ready, and reads every command
line in the same way: the same occurrences, values and surplus words, the same error if there is one. -/
theorem C83_reading {scan : Str → Option D} {st : State D} {argv : List Str} (h : Ready scan st argv) {ref : Nat} {s : Slot D}
    (hs : st.atObj ref = some s) (items : List NewElem) :
    (step scan st (.edit ref items)).2 = .ok () ∧
    Ready scan (step scan st (.edit ref items)).1 argv ∧
    (∀ evs err, Line (step scan st (.edit ref items)).1.sig (step scan st (.edit ref items)).1.places (argv.drop 1) evs err ↔
      Line st.sig st.places (argv.drop 1) evs err) ∧
    ∀ evs x, Line st.sig st.places (argv.drop 1) evs (some x) →
      ((step scan st (.edit ref items)).1.parseArguments scan argv).2 = .throw x ∧
      (st.parseArguments scan argv).2 = .throw x := by
  have hok : (step scan st (.edit ref items)).2 = .ok () := by rw [edit_eq hs]
  have hcfg := edit_config scan st ref items
  have hr : ∃ n, Survives scan Any n (step scan st (.edit ref items)).1 := survives_step h.history _ (by rw [hok]; rfl)
  generalize step scan st (.edit ref items) = r at *
  have hc : r.1.arguments.map Slot.config = st.arguments.map Slot.config := (congrArg (fun x : State D => x.arguments) hcfg :)
  have hh : r.1.helpOption = st.helpOption := (congrArg (fun x : State D => x.helpOption) hcfg :)
  have h1 : Ready scan r.1 argv := by
    refine ⟨hr, ?_, ?_, by rw [hh]; exact h.help, h.program⟩
    · intro t ht
      obtain ⟨u, hu, e⟩ := slots_of_config hc ht
      have e1 : t.arg.type = u.arg.type := (congrArg (fun x : Slot D => x.arg.type) e :)
      have e2 : t.arg.nargs = u.arg.nargs := (congrArg (fun x : Slot D => x.arg.nargs) e :)
      have := h.settled u hu
      unfold Settled Argument.isPositional at this ⊢
      rw [e1, e2]; exact this
    · intro t ht
      obtain ⟨u, hu, e⟩ := slots_of_config hc ht
      have e2 : t.arg.nargs = u.arg.nargs := (congrArg (fun x : Slot D => x.arg.nargs) e :)
      rw [e2]; exact h.small u hu
  have e1 := sig_of_config hcfg
  have e2 := places_of_config hc
  refine ⟨hok, h1, fun evs err => by rw [e1, e2], fun evs x hl => ⟨?_, (parse_of_line h hl).1 x rfl⟩⟩
  exact (parse_of_line h1 (by rw [e1, e2]; exact hl)).1 x rfl

/-- The edited parser: the other arguments are the same. -/
theorem edit_arguments {scan : Str → Option D} {st : State D} {ref : Nat} {s : Slot D} (hs : st.atObj ref = some s)
    (items : List NewElem) :
    (step scan st (.edit ref items)).1 = { st with
      arguments := st.arguments.map fun t =>
        if t.node == s.node then { t with arg := t.arg.withElems (items.map (NewElem.elem scan)) } else t } := by
  rw [edit_eq hs]; rfl

theorem edit_mem {scan : Str → Option D} {st : State D} {full : Prop} (hi : GInv full st) {ref : Nat} {s : Slot D} (hs : st.atObj ref = some s)
    (items : List NewElem) :
    { s with arg := s.arg.withElems (items.map (NewElem.elem scan)) } ∈ (step scan st (.edit ref items)).1.arguments ∧
    ∀ t ∈ st.arguments, t.obj ≠ ref → t ∈ (step scan st (.edit ref items)).1.arguments := by
  have hm := State.atObj_some hs
  rw [edit_arguments hs]
  refine ⟨List.mem_map.2 ⟨s, hm.1, by simp⟩, fun t ht hne => List.mem_map.2 ⟨t, ht, ?_⟩⟩
  rw [if_neg]
  intro e
  obtain rfl := eq_of_node hi hm.1 ht (by simpa using e)
  exact hne hm.2

/-- C83, the rest of the parser. When a command line is parsed after the user put elements into an argument, and would have
been parsed without, every other argument ends as it would have without them, as do the additional arguments and the
variables this argument does not write to. -/
theorem C83_others {scan : Str → Option D} {st : State D} {argv : List Str} (h : Ready scan st argv) {ref : Nat} {s : Slot D}
    (hs : st.atObj ref = some s) (items : List NewElem)
    (hok : (st.parseArguments scan argv).2 = .ok ())
    (hok' : ((step scan st (.edit ref items)).1.parseArguments scan argv).2 = .ok ()) :
    let r := (st.parseArguments scan argv).1
    let r' := ((step scan st (.edit ref items)).1.parseArguments scan argv).1
    (∀ t ∈ st.arguments, t.obj ≠ ref → r'.atObj t.obj = r.atObj t.obj) ∧
    r'.additional = r.additional ∧
    (∀ k, (∀ d, s.arg.dest = some d → d.slot ≠ k) → writesTo k r'.destLog = writesTo k r.destLog) := by
  obtain ⟨_, h1, h2, _⟩ := C83_reading h hs items
  obtain ⟨evs, hl, _⟩ := parse_ok h hok
  have hl' := (h2 evs none).2 hl
  have hm := State.atObj_some hs
  have hi := h.inv
  intro r r'
  refine ⟨fun t ht hne => ?_, ?_, fun k hk => ?_⟩
  · rw [parse_atObj h hl hok ht, parse_atObj h1 hl' hok' ((edit_mem hi hs items).2 t ht hne)]
  · show (State.parseArguments ..).1.additional = (State.parseArguments ..).1.additional
    rw [(parse_result h hl hok).2.2, (parse_result h1 hl' hok').2.2, edit_arguments hs]
  · show writesTo k (State.parseArguments ..).1.destLog = writesTo k (State.parseArguments ..).1.destLog
    rw [(parse_result h hl hok).2.2, (parse_result h1 hl' hok').2.2, edit_arguments hs]
    unfold writesTo
    simp only [List.filter_append, List.flatMap_map, List.filter_flatMap]
    congr 1
    refine congrArg List.flatten (List.map_congr_left fun t ht => ?_)
    split
    · rename_i e
      obtain rfl := eq_of_node hi hm.1 ht (by simpa using e)
      have none_of : ∀ a : Argument D, a.dest = t.arg.dest →
          ((a.afterTokens t.node evs).finish scan).2.1.filter (fun w => w.slot == k) = [] := by
        intro a ha
        rw [List.filter_eq_nil_iff]
        intro w hw
        unfold Argument.finish at hw
        have hd1 := runValid_dest (a.afterTokens t.node evs)
        generalize (a.afterTokens t.node evs).runValid = x at hw hd1
        obtain ⟨b, x⟩ := x
        cases x with
        | ok u =>
          simp only at hw hd1
          obtain ⟨d, e1, e2⟩ := toDest_slot _ w hw
          rw [toNumber_dest, hd1, show (a.afterTokens t.node evs).dest = a.dest from
            (congrArg (fun x : Argument D => x.dest) (afterTokens_config t.node evs a) :), ha] at e1
          have := hk d e1
          rw [e2]
          simpa using this
        | _ => cases hw
      exact (none_of (t.arg.withElems (items.map (NewElem.elem scan))) rfl).trans (none_of t.arg rfl).symm
    · rfl

theorem replaced_elems {a b : Argument D} (ht : b.type = a.type) (hn : b.nargs = a.nargs) (ha : a.isExist = false)
    (hb : b.isExist = false) {us : List (Bool × Values)} (hr : Replaced a.type us)
    (hf : ∀ u ∈ us, ValuesFit a.nargs a.type u.2) : (b.occurs us).elems = (a.occurs us).elems := by
  obtain ⟨hne, hr⟩ := hr
  rcases hr with hr | hr | ⟨hr, hu⟩
  rotate_left 2
  · have hacc : Accumulates a.type := hr
    cases us with
    | nil => exact absurd rfl hne
    | cons u us =>
      rw [occurs_accumulates hacc ha hf, occurs_accumulates (by rw [ht]; exact hacc) hb (by rw [ht, hn]; exact hf)]
      simp only [List.head?_cons, Option.map_some, Option.some.injEq] at hu
      rw [hu]
      rfl
  all_goals
    obtain ⟨us, u, rfl⟩ : ∃ l x, us = l ++ [x] := ⟨us.dropLast, us.getLast hne, (List.dropLast_concat_getLast hne).symm⟩
    obtain ⟨att, vals⟩ := u
    have hv := hf (att, vals) (by simp)
    obtain ⟨vs, e1, e2⟩ := occurs_list (a := a) (us := us) (att := att) (by first | exact .inl hr | exact .inr hr) hv
    obtain ⟨vs', e3, e4⟩ := occurs_list (a := b) (us := us) (att := att) (by rw [ht]; first | exact .inl hr | exact .inr hr)
      (by rw [ht, hn]; exact hv)
    rw [e1] at e3
    cases e3
    rw [e2, e4]

/-- C83, forgotten elements. When the option occurs on the command line in a form that replaces its elements, the elements
the user put into it make no difference at all: the call ends in the same way and leaves exactly the same parser. -/
theorem C83_forgotten {scan : Str → Option D} {st : State D} {argv : List Str} (h : Ready scan st argv) {ref : Nat} {s : Slot D}
    (hs : st.atObj ref = some s) (items : List NewElem) {evs : List Event}
    (hl : Line st.sig st.places (argv.drop 1) evs none) (hr : Replaced s.arg.type (uses s.node evs)) :
    (step scan st (.edit ref items)).1.parseArguments scan argv = st.parseArguments scan argv := by
  obtain ⟨_, h1, h2, _⟩ := C83_reading h hs items
  have hm := State.atObj_some hs
  have hi := h.inv
  have hl' := (h2 evs none).2 hl
  have hp : s.arg.isPositional = false := by
    obtain ⟨_, hr⟩ := hr
    unfold Argument.isPositional
    rcases hr with e | e | ⟨e | e | e | e, _⟩ <;> rw [e] <;> rfl
  rw [parse_seen h hl, parse_seen h1 hl']
  congr 1
  rw [edit_arguments hs]
  unfold State.seen State.begin State.resetAll
  simp only [List.map_map]
  congr 1
  refine List.map_congr_left fun t ht => ?_
  simp only [Function.comp_apply]
  split
  · rename_i e
    obtain rfl := eq_of_node hi hm.1 ht (by simpa using e)
    have b1 := afterTokens_option hi ht hp hl
    have b2 := afterTokens_option h1.inv (edit_mem (scan := scan) hi hs items).1 hp hl'
    simp only at b2
    rw [b1, b2]
    obtain ⟨_, hfit⟩ := option_uses hi ht hp hl
    have e1 := replaced_elems (a := t.arg.reset) (b := (t.arg.withElems (items.map (NewElem.elem scan))).reset)
      rfl rfl rfl rfl hr (fun u hu => (hfit u hu).1)
    obtain ⟨fs, e2⟩ := occurs_withElems t.arg.reset (t.arg.withElems (items.map (NewElem.elem scan))).reset.elems (uses t.node evs)
    have e3 : (t.arg.withElems (items.map (NewElem.elem scan))).reset =
      t.arg.reset.withElems (t.arg.withElems (items.map (NewElem.elem scan))).reset.elems := rfl
    rw [← e3] at e2
    rw [e2] at e1 ⊢
    have : fs = (t.arg.reset.occurs (uses t.node evs)).elems := e1
    rw [this]
    rfl
  · rfl

/-- C83, kept elements. When the argument does not occur on the command line, it holds after the call the elements the user
put into it, each with its default text. -/
theorem C83_kept {scan : Str → Option D} {st : State D} {argv : List Str} (h : Ready scan st argv) {ref : Nat} {s : Slot D}
    (hs : st.atObj ref = some s) (items : List NewElem) {evs : List Event}
    (hl : Line st.sig st.places (argv.drop 1) evs none) (habs : ¬Occurs s.node evs)
    (hok : ((step scan st (.edit ref items)).1.parseArguments scan argv).2 = .ok ()) :
    ∃ s', ((step scan st (.edit ref items)).1.parseArguments scan argv).1.atObj ref = some s' ∧ s'.arg.isExist = false ∧
      s'.arg.elems.map (fun e => (e.argument, e.subs.map (·.argument))) = items.map (fun i => (i.dflt, i.subs.map (·.2.1))) ∧
      (ListKind s.arg.type → s'.arg.toVector = some (items.map (·.dflt))) ∧
      (GroupKind s.arg.type → s'.arg.toVecVec = some (items.map fun i => i.subs.map (·.2.1))) := by
  obtain ⟨_, h1, h2, _⟩ := C83_reading h hs items
  have hm := State.atObj_some hs
  have hi := h.inv
  have hl' := (h2 evs none).2 hl
  have e := absent_result h1 hl' hok (edit_mem (scan := scan) hi hs items).1 habs
  simp only at e
  rw [hm.2] at e
  refine ⟨_, e, ?_, ?_, ?_, ?_⟩
  · rw [(toNumber_marks scan _).1]; rfl
  · unfold Argument.toNumber
    split
    · simp [Argument.reset, Argument.withElems, NewElem.elem, Function.comp_def]
    · split
      · simp [Argument.reset, Argument.withElems, NewElem.elem, Function.comp_def]
      · simp only [Argument.reset, Argument.withElems, List.map_map]
        refine List.map_congr_left fun i _ => ?_
        simp only [Function.comp_apply, NewElem.elem]
        by_cases hsub : i.subs = [] <;> simp [hsub, Function.comp_def]
  · intro hk
    simp only
    rw [(toNumber_vectors scan _).1]
    unfold Argument.toVector
    rw [show ((s.arg.withElems (items.map (NewElem.elem scan))).reset).type = s.arg.type from rfl]
    rcases hk with e | e | e | e | e | e <;> rw [e] <;>
      simp [Argument.reset, Argument.withElems, NewElem.elem, Function.comp_def]
  · intro hk
    simp only
    rw [(toNumber_vectors scan _).2]
    unfold Argument.toVecVec
    rw [show ((s.arg.withElems (items.map (NewElem.elem scan))).reset).type = s.arg.type from rfl]
    rcases hk with e | e | e <;> rw [e] <;>
      simp [Argument.reset, Argument.withElems, NewElem.elem, Function.comp_def]

/-- C83, values behind the elements. A positional list, or an accumulating list option whose first occurrence has the form
`-oVALUE`, holds after the call the default texts of the elements the user put into it, and then the values given (in the
order of the command line; if there is no validator). -/
theorem C83_behind {scan : Str → Option D} {st : State D} {argv : List Str} (h : Ready scan st argv) {ref : Nat} {s : Slot D}
    (hs : st.atObj ref = some s) (items : List NewElem) {evs : List Event}
    (hl : Line st.sig st.places (argv.drop 1) evs none) (ho : Occurs s.node evs) (hb : Behind s.arg.type (uses s.node evs))
    (hv : s.arg.valid = none)
    (hok : ((step scan st (.edit ref items)).1.parseArguments scan argv).2 = .ok ()) :
    ∃ s', ((step scan st (.edit ref items)).1.parseArguments scan argv).1.atObj ref = some s' ∧ s'.arg.isExist = true ∧
      s'.arg.toVector = some (items.map (·.dflt) ++
        ((uses s.node evs).flatMap (fun u => u.2.flat) ++ (fills s.node evs).flatMap Values.flat)) := by
  obtain ⟨_, h1, h2, _⟩ := C83_reading h hs items
  have hm := State.atObj_some hs
  have hi := h.inv
  have hl' := (h2 evs none).2 hl
  obtain ⟨s', g1, g2, g3, _, g5⟩ := (C20_shows h1 hl' hok).1 _ (edit_mem (scan := scan) hi hs items).1
  simp only at g1 g2 g3 g5
  rw [hm.2] at g1
  refine ⟨s', g1, g3.2 ho, ?_⟩
  have hk : ¬Valueless s.arg.type := by
    unfold Behind at hb
    rcases hb with e | e | ⟨e | e, _⟩ <;> rw [e] <;> simp [Valueless]
  have g6 := (g5 ho hk).1
  simp only [Argument.withElems] at g6
  rw [hv] at g6
  have g7 : s'.arg.toVector = _ := g6
  rw [g7]
  congr 1
  have hold : ∀ b : Argument D, b.elems = items.map (NewElem.elem scan) → b.oldStrings = items.map (·.dflt) := by
    intro b hb'
    simp [Argument.oldStrings, hb', NewElem.elem, Function.comp_def]
  unfold Argument.given
  rcases hb with e | e | ⟨e, hu⟩
  rotate_left 2
  · have hp : s.arg.isPositional = false := by
      unfold Argument.isPositional
      rcases e with e | e <;> rw [e] <;> rfl
    have hnf : fills s.node evs = [] := by
      cases hf : fills s.node evs with
      | nil => rfl
      | cons v l => exact absurd rfl ((option_uses hi hm.1 hp hl).1 _ v (mem_fills.1 (by rw [hf]; simp)))
    rcases e with e | e <;> simp only [e] <;> rw [if_pos hu, hold _ rfl, hnf] <;> simp
  all_goals
    have hp : s.arg.isPositional = true := by unfold Argument.isPositional; rw [e]; rfl
    have hnu : uses s.node evs = [] := by
      cases hf : uses s.node evs with
      | nil => rfl
      | cons u l => exact absurd rfl ((positional_fills hi hm.1 hp hl).1 _ u.1 u.2 (mem_uses.1 (by rw [hf]; simp)))
    simp only [e]
    rw [hold _ rfl, hnu]
    simp

/-! ### The hypotheses are met by concrete cases -/

section
attribute [local irreducible] parser parserLine parserSays

/-- Two elements, the second never copied through its string conversion: its text and its default differ. -/
def someItems : List NewElem := [⟨"u".toList, "u".toList, true, []⟩, ⟨"w".toList, "dw".toList, false, [("1".toList, "d1".toList, false)]⟩]

example := C83_reading parserLine_ready (argOf_at parser 4 (by decide +kernel)) someItems
example := (C83_reading (parser_words ["-v", "--nope"] (by decide +kernel)) (argOf_at parser 4 (by decide +kernel)) someItems).2.2.2
  _ _ (parser_says (ws := ["-v", "--nope"]) (evs := [.option 2 false .nothing])
    (err := some ⟨.parse, "nope".toList, "invalid option".toList⟩) (by decide +kernel) (by decide +kernel))
example := C83_others parserLine_ready (argOf_at parser 8 (by decide +kernel)) someItems parserLine_ok (by decide +kernel)
/-- `-l x y`; `-a c … -ad`. -/
example := C83_forgotten parserLine_ready (argOf_at parser 4 (by decide +kernel)) someItems parserLine_says (by decide +kernel)
example := C83_forgotten parserLine_ready (argOf_at parser 5 (by decide +kernel)) someItems parserLine_says (by decide +kernel)
/-- `-v f`: neither the list `-l` nor the groups of `-g` occur. -/
theorem shortLine_says : Line parser.sig parser.places (("prog".toList :: ["-v", "f"].map String.toList).drop 1)
    [.option 2 false .nothing, .positional 1 (.single "f".toList)] none := parser_says (by decide +kernel) (by decide +kernel)
example := C83_kept (parser_words ["-v", "f"] (by decide +kernel)) (argOf_at parser 4 (by decide +kernel)) someItems shortLine_says
  (by decide +kernel) (by decide +kernel)
example := C83_kept (parser_words ["-v", "f"] (by decide +kernel)) (argOf_at parser 6 (by decide +kernel)) someItems shortLine_says
  (by decide +kernel) (by decide +kernel)
/-- `k l` goes behind; so does `x` of `-ax`. -/
example := C83_behind parserLine_ready (argOf_at parser 8 (by decide +kernel)) someItems parserLine_says (by decide +kernel)
  (by decide +kernel) (by decide +kernel) (by decide +kernel)
example := C83_behind (parser_words ["-ax", "f"] (by decide +kernel)) (argOf_at parser 5 (by decide +kernel)) someItems
  (evs := [.option 5 true (.list ["x".toList]), .positional 1 (.single "f".toList)]) (parser_says (by decide +kernel) (by decide +kernel))
  (by decide +kernel) (by decide +kernel) (by decide +kernel) (by decide +kernel)
example :
    (let st := runOps demoScan parser [.edit 5 someItems];
      ((st.parseArguments demoScan (["p", "-ax", "f"].map String.toList)).1.atObj 5).bind (fun s => s.arg.toVector) =
        some ["u".toList, "dw".toList, "x".toList] ∧
      ((st.parseArguments demoScan (["p", "-a", "x", "f"].map String.toList)).1.atObj 5).bind (fun s => s.arg.toVector) =
        some ["x".toList] ∧
      ((st.parseArguments demoScan (["p", "f"].map String.toList)).1.atObj 5).bind (fun s => s.arg.toVector) =
        some ["u".toList, "dw".toList]) := by decide +kernel
end

end BletArgs
