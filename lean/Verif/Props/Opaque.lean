import Verif.Lemmas.Opaque
import Verif.Props.Blocks
import Verif.Props.Compose
/-
C93: a use of an option touches nothing else; values are never taken for anything else.
-/
namespace BletArgs
open Spec
variable {D : Type}

/-! ### Preliminaries -/

theorem fresh_front {sig : Sig} {post X : List Str} (hf : Front post X) (h : Fresh sig post) : ∀ t, X.head? = some t → OptionForm sig t := by
  intro t ht
  have hm : t ∈ X := List.mem_of_mem_head? ht
  have : post.head? = some t := by
    rcases hf.2 with rfl | ⟨b, rfl⟩
    · exact ht
    · rw [List.head?_append, ht]; rfl
  exact (h t this).resolve_right (hf.1 t hm)

/-- The part of the line before a place in option position, whatever is there. -/
theorem met_reaches {scan : Str → Option D} {st : State D} {argv : List Str} (h : Ready scan st argv)
    {pre post : List Str} {tok : Str} (hm : MetAt st.sig st.places pre tok post) :
    ∃ before q, (∀ t ∈ pre, ¬EndTok t) ∧ PlacesSized q ∧
      ∀ Y, (∀ t, Y.head? = some t → OptionForm st.sig t) → Reaches st.sig st.places (pre ++ Y) before q Y := by
  obtain ⟨X, e0, q0, hpre, hf, hr⟩ := hm
  obtain ⟨p, ep, hs⟩ := hr.swapAny h.placesTake
  obtain rfl : pre = p := List.append_cancel_right ep
  exact ⟨e0, q0, hpre, hr.sized h.placesSized, hs⟩

theorem use_line {scan : Str → Option D} {st : State D} {argv : List Str} (h : Ready scan st argv) {pre : List Str} {before : List Event}
    {q : List Place} (hpre : ∀ t ∈ pre, ¬EndTok t)
    (hr : ∀ Y, (∀ t, Y.head? = some t → OptionForm st.sig t) → Reaches st.sig st.places (pre ++ Y) before q Y)
    {A post : List Str} {e : Entry} {att l : Bool} {vals : Values} (hA : UseBlock st.sig e A att vals l)
    (hlist : l = true → Fresh st.sig post) (evs : List Event) (err : Option Exn) :
    Line st.sig st.places (pre ++ (A ++ post)) evs err ↔
      ∃ after, evs = before ++ .option e.id att vals :: after ∧ Line st.sig q post after err := by
  have := line_through h.sized h.placesSized (ws1 := pre ++ A) (ws2 := post) (q1 := q) (evs1 := before ++ [.option e.id att vals]) ?_ ?_ evs err
  · rw [List.append_assoc] at this
    simpa using this
  · intro t ht
    rcases List.mem_append.1 ht with ht | ht
    · exact hpre t ht
    · exact hA.noEnd t ht
  · intro X hf
    obtain ⟨tok, vs, rfl, hform, hread⟩ := hA.reads X fun hl => fresh_front hf (hlist hl)
    have h1 := hr ((tok :: vs) ++ X) (by rintro t ⟨⟩; exact hform)
    rw [List.append_assoc]
    exact h1.trans (.option hread (.here _ _))

theorem uses_other {n i : Nat} {att : Bool} {vals : Values} (h : n ≠ i) (a b : List Event) :
    uses n (a ++ .option i att vals :: b) = uses n (a ++ b) := by
  have : i ≠ n := fun e => h e.symm
  simp [uses, this]

theorem fills_option {n i : Nat} {att : Bool} {vals : Values} (a b : List Event) :
    fills n (a ++ .option i att vals :: b) = fills n (a ++ b) := by
  simp [fills]

theorem extras_option {i : Nat} {att : Bool} {vals : Values} (a b : List Event) :
    extras (a ++ .option i att vals :: b) = extras (a ++ b) := by
  simp [extras]

/-- The writes of an argument to a variable that is not its own. -/
theorem writes_elsewhere {scan : Str → Option D} {s : Slot D} {k : Nat} (hk : ∀ d, s.arg.dest = some d → d.slot ≠ k) (evs : List Event) :
    ((s.arg.afterTokens s.node evs).finish scan).2.1.filter (fun w => w.slot == k) = [] := by
  rw [List.filter_eq_nil_iff]
  intro w hw
  unfold Argument.finish at hw
  have hd1 := runValid_dest (s.arg.afterTokens s.node evs)
  generalize (s.arg.afterTokens s.node evs).runValid = x at hw hd1
  obtain ⟨b, x⟩ := x
  cases x with
  | ok u =>
    simp only at hw hd1
    obtain ⟨d, e1, e2⟩ := toDest_slot _ w hw
    rw [toNumber_dest, hd1, show (s.arg.afterTokens s.node evs).dest = s.arg.dest from
      (congrArg (fun x : Argument D => x.dest) (afterTokens_config s.node evs s.arg) :)] at e1
    have := hk d e1
    rw [e2]
    simpa using this
  | _ => cases hw

/-- Two lines with the same surplus words, and the same values for all arguments not marked. -/
theorem others_same {scan : Str → Option D} {st : State D} {argv argv' : List Str} (h : Ready scan st argv) (h' : Ready scan st argv')
    {evs evs' : List Event} (hl : Line st.sig st.places (argv.drop 1) evs none) (hl' : Line st.sig st.places (argv'.drop 1) evs' none)
    (M : Nat → Prop) (hu : ∀ n, ¬M n → uses n evs' = uses n evs) (hf : ∀ n, ¬M n → fills n evs' = fills n evs)
    (hx : extras evs' = extras evs) (hok : (st.parseArguments scan argv).2 = .ok ()) (hok' : (st.parseArguments scan argv').2 = .ok ()) :
    let r := (st.parseArguments scan argv).1
    let r' := (st.parseArguments scan argv').1
    (∀ s ∈ st.arguments, ¬M s.node → r'.atObj s.obj = r.atObj s.obj) ∧ r'.additional = r.additional ∧
    (∀ k, (∀ s ∈ st.arguments, M s.node → ∀ d, s.arg.dest = some d → d.slot ≠ k) →
      writesTo k r'.destLog = writesTo k r.destLog) := by
  intro r r'
  have hi := h.inv
  refine ⟨fun s hs hm => ?_, ?_, fun k hk => ?_⟩
  · show (State.parseArguments ..).1.atObj _ = (State.parseArguments ..).1.atObj _
    rw [parse_atObj h hl hok hs, parse_atObj h' hl' hok' hs, see_uses_fills hi hs hl hl' (hu _ hm) (hf _ hm)]
  · show (State.parseArguments ..).1.additional = (State.parseArguments ..).1.additional
    rw [(parse_result h hl hok).2.2, (parse_result h' hl' hok').2.2]
    simp only [hx]
  · show writesTo k (State.parseArguments ..).1.destLog = writesTo k (State.parseArguments ..).1.destLog
    rw [(parse_result h hl hok).2.2, (parse_result h' hl' hok').2.2]
    unfold writesTo
    simp only [List.filter_append, List.filter_flatMap]
    congr 1
    refine congrArg List.flatten (List.map_congr_left fun t ht => ?_)
    by_cases hm : M t.node
    · rw [writes_elsewhere (hk t ht hm), writes_elsewhere (hk t ht hm)]
    · rw [see_uses_fills hi ht hl hl' (hu _ hm) (hf _ hm)]

/-! ### C93 -/

/-- C93, the reading. Wherever one use of an option stands on a command line, another use – of the same option with other values,
whatever these look like, or of another option – can stand in its place: everything else is read the same, before and behind, and
so is the error, if there is one. (A list of values of unlimited length must be followed by an option or `--`.) -/
theorem C93_replaced {scan : Str → Option D} {st : State D} {argv : List Str} (h : Ready scan st argv)
    {pre vs post : List Str} {tok : Str} (hargv : argv.drop 1 = pre ++ ((tok :: vs) ++ post))
    (hm : MetAt st.sig st.places pre tok (vs ++ post)) {e : Entry} {att l : Bool} {vals : Values}
    (hA : UseBlock st.sig e (tok :: vs) att vals l) (hlist : l = true → Fresh st.sig post)
    {evs : List Event} {err : Option Exn} (hl : Line st.sig st.places (argv.drop 1) evs err) :
    ∃ before after, evs = before ++ .option e.id att vals :: after ∧
      (∀ B e' att' vals' l', UseBlock st.sig e' B att' vals' l' → (l' = true → Fresh st.sig post) →
        Line st.sig st.places (pre ++ (B ++ post)) (before ++ .option e'.id att' vals' :: after) err) ∧
      (Fresh st.sig post → Line st.sig st.places (pre ++ post) (before ++ after) err) := by
  obtain ⟨before, q, hpre, hq, hr⟩ := met_reaches h hm
  rw [hargv] at hl
  obtain ⟨after, rfl, hpost⟩ := (use_line h hpre hr hA hlist _ _).1 hl
  refine ⟨before, after, rfl, fun B e' att' vals' l' hB hl' => (use_line h hpre hr hB hl' _ _).2 ⟨after, rfl, hpost⟩, fun hf => ?_⟩
  exact (line_through h.sized h.placesSized hpre (fun X hX => hr X (fresh_front hX hf)) _ _).2 ⟨after, rfl, hpost⟩

/-- C93, the effect. When both lines are parsed, every argument but the two options ends the same, and so do the surplus words
and the variables to which neither of the two writes. -/
theorem C93_others {scan : Str → Option D} {st : State D} {prog : Str} {pre vs post B : List Str} {tok : Str}
    (h : Ready scan st (prog :: (pre ++ ((tok :: vs) ++ post)))) (h' : Ready scan st (prog :: (pre ++ (B ++ post))))
    (hm : MetAt st.sig st.places pre tok (vs ++ post)) {e e' : Entry} {att att' l l' : Bool} {vals vals' : Values}
    (hA : UseBlock st.sig e (tok :: vs) att vals l) (hlist : l = true → Fresh st.sig post)
    (hB : UseBlock st.sig e' B att' vals' l') (hlist' : l' = true → Fresh st.sig post)
    (hok : (st.parseArguments scan (prog :: (pre ++ ((tok :: vs) ++ post)))).2 = .ok ())
    (hok' : (st.parseArguments scan (prog :: (pre ++ (B ++ post)))).2 = .ok ()) :
    let r := (st.parseArguments scan (prog :: (pre ++ ((tok :: vs) ++ post)))).1
    let r' := (st.parseArguments scan (prog :: (pre ++ (B ++ post)))).1
    (∀ s ∈ st.arguments, s.node ≠ e.id → s.node ≠ e'.id → r'.atObj s.obj = r.atObj s.obj) ∧
    r'.additional = r.additional ∧
    (∀ k, (∀ s ∈ st.arguments, s.node = e.id ∨ s.node = e'.id → ∀ d, s.arg.dest = some d → d.slot ≠ k) →
      writesTo k r'.destLog = writesTo k r.destLog) := by
  obtain ⟨evs, hl, _⟩ := parse_ok h hok
  obtain ⟨b, a, rfl, hrep, _⟩ := C93_replaced h rfl hm hA hlist hl
  have hl' := hrep B e' att' vals' l' hB hlist'
  have := others_same h h' hl hl' (fun n => n = e.id ∨ n = e'.id)
    (fun n hn => by rw [not_or] at hn; rw [uses_other hn.2, uses_other hn.1])
    (fun n _ => by rw [fills_option, fills_option]) (by rw [extras_option, extras_option]) hok hok'
  exact ⟨fun s hs h1 h2 => this.1 s hs (by rw [not_or]; exact ⟨h1, h2⟩), this.2⟩

/-- C93, the outcome. When the option has no validator and its destination, if any, refuses nothing, other values for it make no
difference to whether the call returns, nor to the exception when the line cannot be read. In particular a value cannot act as an
option, whatever its text. -/
theorem C93_outcome {scan : Str → Option D} {st : State D} {prog : Str} {pre vs post B : List Str} {tok : Str}
    (h : Ready scan st (prog :: (pre ++ ((tok :: vs) ++ post)))) (h' : Ready scan st (prog :: (pre ++ (B ++ post))))
    (hm : MetAt st.sig st.places pre tok (vs ++ post)) {e : Entry} {att att' l l' : Bool} {vals vals' : Values}
    (hA : UseBlock st.sig e (tok :: vs) att vals l) (hlist : l = true → Fresh st.sig post)
    (hB : UseBlock st.sig e B att' vals' l') (hlist' : l' = true → Fresh st.sig post)
    {s : Slot D} (hs : s ∈ st.arguments) (he : s.node = e.id) (hv : s.arg.valid = none) (hret : Returning s) :
    ((st.parseArguments scan (prog :: (pre ++ (B ++ post)))).2 = .ok () ↔
      (st.parseArguments scan (prog :: (pre ++ ((tok :: vs) ++ post)))).2 = .ok ()) ∧
    ∀ evs x, Line st.sig st.places (pre ++ ((tok :: vs) ++ post)) evs (some x) →
      (st.parseArguments scan (prog :: (pre ++ (B ++ post)))).2 = .throw x ∧
      (st.parseArguments scan (prog :: (pre ++ ((tok :: vs) ++ post)))).2 = .throw x := by
  have hi := h.inv
  obtain ⟨evs, err, hl, _⟩ := parse_tokens h
  obtain ⟨b, a, rfl, hrep, _⟩ := C93_replaced h rfl hm hA hlist hl
  have hl' := hrep B e att' vals' l' hB hlist'
  have uniq : ∀ evs x, Line st.sig st.places (pre ++ ((tok :: vs) ++ post)) evs (some x) → err = some x := by
    intro evs x hx
    exact (line_unique (sane_sized h.sane) (sane_places h.sane) hl hx).2
  refine ⟨?_, fun evs x hx => ?_⟩
  · cases err with
    | some x => rw [(parse_of_line h hl).1 x rfl, (parse_of_line h' hl').1 x rfl]
    | none =>
      have hocc : ∀ n, Occurs n (b ++ .option e.id att' vals' :: a) ↔ Occurs n (b ++ .option e.id att vals :: a) := by
        intro n
        unfold Occurs
        rw [fills_option, fills_option]
        by_cases hn : n = e.id
        · subst hn
          simp [uses]
        · rw [uses_other hn, uses_other hn]
      have hpass : ∀ t ∈ st.arguments, (((t.arg.afterTokens t.node (b ++ .option e.id att' vals' :: a)).finish scan).2.2 = .ok () ↔
          ((t.arg.afterTokens t.node (b ++ .option e.id att vals :: a)).finish scan).2.2 = .ok ()) := by
        intro t ht
        by_cases hn : t.node = e.id
        · obtain rfl := eq_of_node hi hs ht (hn.trans he.symm)
          rw [passes_iff hi hs scan hl' hret, passes_iff hi hs scan hl hret]
          have : ∀ evs, Passes t evs ↔ ∀ d, t.arg.dest = some d → d.custom = true ∨ d.supported = true :=
            fun evs => ⟨fun p => p.dest, fun p => ⟨fun v hv' => absurd (hv.symm.trans hv') (by simp), p⟩⟩
          rw [this, this]
        · rw [see_uses_fills hi ht hl hl' (by rw [uses_other hn, uses_other hn]) (by rw [fills_option, fills_option])]
      rw [parse_ok_iff h' hl', parse_ok_iff h hl]
      have hsil : Silent st (b ++ .option e.id att' vals' :: a) ↔ Silent st (b ++ .option e.id att vals :: a) := by
        constructor
        · rintro ⟨⟨t, ht, e1, e2⟩, k⟩
          refine ⟨⟨t, ht, e1, by rwa [← hocc]⟩, fun o ho => ?_⟩
          obtain ⟨t, ht, e1, e2⟩ := k o ho
          exact ⟨t, ht, e1, by rwa [← hocc]⟩
        · rintro ⟨⟨t, ht, e1, e2⟩, k⟩
          refine ⟨⟨t, ht, e1, by rwa [hocc]⟩, fun o ho => ?_⟩
          obtain ⟨t, ht, e1, e2⟩ := k o ho
          exact ⟨t, ht, e1, by rwa [hocc]⟩
      have hmis : NoneMissing st (b ++ .option e.id att' vals' :: a) ↔ NoneMissing st (b ++ .option e.id att vals :: a) := by
        unfold NoneMissing
        constructor
        · exact fun k t ht hr => (hocc _).1 (k t ht hr)
        · exact fun k t ht hr => (hocc _).2 (k t ht hr)
      rw [hsil, hmis]
      constructor
      · rintro ⟨k1, k2, k3⟩; exact ⟨k1, k2, fun t ht => (hpass t ht).1 (k3 t ht)⟩
      · rintro ⟨k1, k2, k3⟩; exact ⟨k1, k2, fun t ht => (hpass t ht).2 (k3 t ht)⟩
  · have e := uniq evs x hx
    subst e
    exact ⟨(parse_of_line h' hl').1 x rfl, (parse_of_line h hl).1 x rfl⟩

/-- C93, words after `--`. As many other words after `--`, whatever they look like, are read in the same way: each is given to the
same argument, or is a surplus word, as the one in its place was; and when both lines are parsed the options end the same. -/
theorem C93_words {scan : Str → Option D} {st : State D} {prog : Str} {ts back back' : List Str}
    (h : Ready scan st (prog :: (ts ++ ['-', '-'] :: back))) (h' : Ready scan st (prog :: (ts ++ ['-', '-'] :: back')))
    (hts : ∀ t ∈ ts, ¬EndTok t) (hlen : back'.length = back.length) {evs : List Event}
    (hl : Line st.sig st.places (ts ++ ['-', '-'] :: back) evs none) :
    ∃ before after after', evs = before ++ after ∧ Line st.sig st.places (ts ++ ['-', '-'] :: back') (before ++ after') none ∧
      Line st.sig st.places ts before none ∧
      after'.map Event.blank = after.map Event.blank ∧ after.flatMap Event.words = back ∧ after'.flatMap Event.words = back' ∧
      ((st.parseArguments scan (prog :: (ts ++ ['-', '-'] :: back))).2 = .ok () →
        (st.parseArguments scan (prog :: (ts ++ ['-', '-'] :: back'))).2 = .ok () →
        ∀ s ∈ st.arguments, s.arg.isPositional = false →
          (st.parseArguments scan (prog :: (ts ++ ['-', '-'] :: back'))).1.atObj s.obj =
            (st.parseArguments scan (prog :: (ts ++ ['-', '-'] :: back))).1.atObj s.obj) := by
  have hf : Front (ts ++ ['-', '-'] :: back) ts := ⟨hts, .inr ⟨back, rfl⟩⟩
  obtain ⟨e1, e2, q1, x1, h1, rfl, ⟨rfl, rfl, hx⟩ | ⟨rfl, b, q2, e, h2⟩⟩ := Line.front hf hl
  · exfalso
    rcases hx with hx | ⟨x, hx⟩
    · have := congrArg List.length hx; simp at this
    · cases hx
  · have := List.append_cancel_left e
    cases this
    obtain ⟨evs', g1, g2⟩ := readsWords_blank h2 rfl back' hlen
    have w1 := readsWords_words h2 rfl
    have w2 := readsWords_words g1 rfl
    have hl' : Line st.sig st.places (ts ++ ['-', '-'] :: back') (e1 ++ evs') none := .split hts h1 g1
    refine ⟨e1, e2, evs', rfl, hl', .whole hts h1, g2, w1.1, w2.1, fun hok hok' s hs hp => ?_⟩
    rw [parse_atObj h hl hok hs, parse_atObj h' hl' hok' hs, afterTokens_append_words h.sane.inv hs hp hl w1.2,
      afterTokens_append_words h.sane.inv hs hp hl' w2.2]

/-! ### Examples -/

section
attribute [local irreducible] parser

/-- `-o v`, for any text `v` but `--`. -/
theorem block_o (v : Str) (h : ¬EndTok v) : UseBlock parser.sig ⟨0, .simple, 1⟩ ["-o".toList, v] false (.single v) false :=
  .one (parser_writes_o none).1 rfl h
/-- `-o=v`, for any text `v`. -/
theorem block_oeq (v : Str) : UseBlock parser.sig ⟨0, .simple, 1⟩ ['-' :: 'o' :: '=' :: v] false (.single v) false :=
  .equals (parser_writes_o (some v)).1 (.simple v)

theorem line_o_says : Line parser.sig parser.places (["-v", "-o", "x", "f"].map String.toList)
    [.option 2 false .nothing, .option 0 false (.single "x".toList), .positional 1 (.single "f".toList)] none :=
  parser_says (ws := ["-v", "-o", "x", "f"]) (by decide +kernel) (by decide +kernel)

/-- `-v -o x f`: in place of `-o x` any `-o v`, even `-o --help`, and any `-o=v`, even `-o=--`. -/
example := C93_replaced (parser_words ["-v", "-o", "x", "f"] (by decide +kernel)) (pre := [['-', 'v']]) (tok := "-o".toList)
  (vs := ["x".toList]) (post := ["f".toList]) rfl (parser_met _ _) (block_o _ (by decide +kernel)) (fun h => by cases h) line_o_says
example := C93_others (parser_words ["-v", "-o", "x", "f"] (by decide +kernel)) (parser_words ["-v", "-o", "--help", "f"] (by decide +kernel))
  (pre := [['-', 'v']]) (tok := "-o".toList) (vs := ["x".toList]) (post := ["f".toList]) (parser_met _ _)
  (block_o _ (by decide +kernel)) (fun h => by cases h) (block_o _ (by decide +kernel)) (fun h => by cases h)
  (by decide +kernel) (by decide +kernel)
example := C93_outcome (parser_words ["-v", "-o", "x", "f"] (by decide +kernel)) (parser_words ["-v", "-o=--", "f"] (by decide +kernel))
  (pre := [['-', 'v']]) (tok := "-o".toList) (vs := ["x".toList]) (post := ["f".toList]) (parser_met _ _)
  (block_o _ (by decide +kernel)) (fun h => by cases h) (block_oeq "--".toList) (fun h => by cases h)
  (argOf_mem parser 0 (by decide +kernel)) (by decide +kernel) (by decide +kernel) (returning_of_plain (by decide +kernel))
/-- `-v -- f k` and `-v -- -v --help`. -/
example := C93_words (parser_words ["-v", "--", "f", "k"] (by decide +kernel)) (parser_words ["-v", "--", "-v", "--help"] (by decide +kernel))
  (ts := ["-v".toList]) (back := ["f".toList, "k".toList]) (back' := ["-v".toList, "--help".toList]) (by decide +kernel) rfl
  (parser_says (ws := ["-v", "--", "f", "k"]) (evs := [.option 2 false .nothing, .positional 1 (.single "f".toList), .positional 8 (.list ["k".toList])])
    (by decide +kernel) (by decide +kernel))
/-- What the conditions leave out: the value `--` in a word of its own ends the options instead (`-o` has no value then), and a
value of a list of unlimited length that looks like an option is one. -/
example :
    (parser.parseArguments demoScan (["prog", "-v", "-o", "--", "f"].map String.toList)).2 =
      .throw ⟨.parse, "o".toList, "bad number of argument".toList⟩ ∧
    Reader.line parser.sig parser.places (["f", "-l", "a", "-v"].map String.toList) =
      ([.positional 1 (.single "f".toList), .option 4 false (.list ["a".toList]), .option 2 false .nothing], none) := by decide +kernel
end

end BletArgs
