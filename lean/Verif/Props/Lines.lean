import Verif.Lemmas.Spell
import Verif.Props.Values
/-
Properties of command lines: C21 (`--`), C22 (surplus words), C23 (unknown options), C27 (too few values),
C29 (spellings), C30 (clusters), C31 (alternative mode), C37 (positional order), C38 (infinite lists) and
C56 (errors).
-/
namespace BletArgs
open Spec
variable {D : Type}

/-! ### Preliminaries -/

theorem Ready.sized {scan : Str → Option D} {st : State D} {argv : List Str} (h : Ready scan st argv) :
    Sig.Sized st.sig := sane_sized h.sane

theorem Ready.placesSized {scan : Str → Option D} {st : State D} {argv : List Str} (h : Ready scan st argv) :
    PlacesSized st.places := sane_places h.sane

theorem Ready.placesTake {scan : Str → Option D} {st : State D} {argv : List Str} (h : Ready scan st argv) :
    PlacesTake st.places := by
  intro p hp
  unfold State.places at hp
  rw [List.mem_map] at hp
  obtain ⟨s, hs, rfl⟩ := hp
  rw [List.mem_filter] at hs
  exact ⟨hs.2, fun hk => h.sane.groups s hs.1 (.inr (.inr hk))⟩

theorem Ready.noDash {scan : Str → Option D} {st : State D} {argv : List Str} (h : Ready scan st argv) :
    st.sig.flag ['-', '-'] = none := by
  show (lookupName st.byName ['-', '-']).bind _ = none
  rw [no_double_dash h.sane.inv]
  rfl

/-- Two command lines with the same derivation parse in the same way. -/
theorem same_result {scan : Str → Option D} {st : State D} {argv argv' : List Str} (h : Ready scan st argv)
    (h' : Ready scan st argv') (hh : argv'.head? = argv.head?) {evs : List Event} {err : Option Exn}
    (hl : Line st.sig st.places (argv.drop 1) evs err) (hl' : Line st.sig st.places (argv'.drop 1) evs err) :
    (st.parseArguments scan argv').2 = (st.parseArguments scan argv).2 ∧
    (err = none → st.parseArguments scan argv' = st.parseArguments scan argv) := by
  have h1 := parse_of_line h hl
  have h2 := parse_of_line h' hl'
  have hb : st.begin argv' = st.begin argv := by
    unfold State.begin
    rw [show argv'.headD [] = argv.headD [] by cases argv <;> cases argv' <;> simp_all]
  cases err with
  | some x => exact ⟨by rw [h1.1 x rfl, h2.1 x rfl], fun e => by cases e⟩
  | none =>
    have e : st.parseArguments scan argv' = st.parseArguments scan argv := by rw [h1.2 rfl, h2.2 rfl, hb]
    exact ⟨by rw [e], fun _ => e⟩

theorem longest_exists (stop : Str → Prop) (X : List Str) : ∃ vs rest, X = vs ++ rest ∧ Longest stop vs rest := by
  induction X with
  | nil => exact ⟨[], [], rfl, by simp [Longest]⟩
  | cons t X ih =>
    by_cases ht : stop t
    · exact ⟨[], t :: X, rfl, by simp, fun t' h => by cases h; exact ht⟩
    · obtain ⟨vs, rest, rfl, h1, h2⟩ := ih
      refine ⟨t :: vs, rest, rfl, ?_, h2⟩
      intro v hv
      rcases List.mem_cons.1 hv with rfl | hv
      · exact ht
      · exact h1 v hv

/-! ### Concrete cases -/

instance (t : Str) : Decidable (EndTok t) := inferInstanceAs (Decidable (t = ['-', '-']))

theorem parser_v {ts : List Str} {stop : Str → Prop} :
    TokenReads parser.sig stop ['-', 'v'] ts [.option 2 false .nothing] (.rest ts) :=
  .cluster ⟨'v', [], rfl, by decide⟩ (.bare (by decide)) (by rintro ⟨h, _⟩; revert h; decide +kernel)
    (.last (e := ⟨2, .boolean, 0⟩) (by decide +kernel) (.following (.nothing _ (by simp [Valueless]))))

/-- On any command line of the reference parser beginning with `-v`, the second token is met in option position. -/
theorem parser_met (tok : Str) (post : List Str) : MetAt parser.sig parser.places [['-', 'v']] tok post := by
  obtain ⟨X, hf⟩ := Front.exists post
  refine ⟨X, _, _, ?_, hf, .option parser_v (.here _ _)⟩
  intro t ht
  rw [List.mem_singleton.1 ht]
  intro h; cases h

theorem parser_ready' (ts : List Str) (h : ts.length < 1000) : Ready demoScan parser ("prog".toList :: ts) :=
  parser_ready (by rw [List.length_cons]; omega) ⟨_, rfl, by decide +kernel⟩

/-! ### C23, C56: errors -/

/-- C56, throws. If something is wrong with the command line then `parseArguments` throws the
`ParseArgumentException` with this culprit and this message. -/
theorem C56_fault_throws {scan : Str → Option D} {st : State D} {argv : List Str} (h : Ready scan st argv)
    {culprit : Str} {message : String} (hf : Fault st.sig st.places (argv.drop 1) culprit message) :
    (st.parseArguments scan argv).2 = .throw ⟨.parse, culprit, message.toList⟩ := by
  obtain ⟨evs, hl⟩ := fault_line hf
  exact (parse_of_line h hl).1 _ rfl

/-- C56. A `ParseArgumentException` (not one of its subclasses) says what is wrong with the command line: its
culprit and message are those of the first fault. (Validators and unsupported destinations could throw such
exceptions themselves.) -/
theorem C56_names_culprit {scan : Str → Option D} {st : State D} {argv : List Str} (h : Ready scan st argv)
    (hown : ∀ s ∈ st.arguments, OwnErrors s.arg) {x : Exn} (hx : (st.parseArguments scan argv).2 = .throw x)
    (hk : x.kind = .parse) :
    ∃ culprit message, Fault st.sig st.places (argv.drop 1) culprit message ∧ x = ⟨.parse, culprit, message.toList⟩ := by
  obtain ⟨evs, err, hl, _, he⟩ := C20_unique_derivation h
  cases err with
  | none => exact absurd ⟨x, hx, hk⟩ ((C20_accepts_iff h hown).1 ⟨evs, hl⟩)
  | some y =>
    have : (Res.throw y : Res Unit) = Res.throw x := by rw [← he y rfl, hx]
    cases this
    obtain ⟨c, m, hf, rfl⟩ := line_fault hl
    exact ⟨c, m, hf, rfl⟩

/-- A positional argument without enough words: the fault is found, and thrown. -/
example : Fault parser.sig parser.places (["-v", "-n", "x"].map String.toList) "n".toList "bad number of argument" :=
  .option (ts := ["-v", "-n", "x"].map String.toList) ⟨by decide +kernel, .inl rfl⟩
    (.option parser_v (.here _ _))
    (.missing (.letter (ss := []) (c := 'n') ⟨'n', [], rfl, by decide⟩ (.bare (by decide))
        (by rintro ⟨h, _⟩; revert h; decide +kernel) (by simp) (e := ⟨3, .number, 2⟩) (by decide +kernel))
      (.fixed _ (.inl rfl) (by decide)))
example : ∃ x, (parser.parseArguments demoScan (["prog", "-v", "-n", "x"].map String.toList)).2 = .throw x ∧ x.kind = .parse :=
  ⟨⟨.parse, "n".toList, "bad number of argument".toList⟩, by decide +kernel, rfl⟩

/-- C23. An unregistered option met in option position: the exception names it. -/
theorem C23_unknown_option {scan : Str → Option D} {st : State D} {argv : List Str} (h : Ready scan st argv)
    {pre post : List Str} {tok name : Str} (hargv : argv.drop 1 = pre ++ tok :: post)
    (hm : MetAt st.sig st.places pre tok post) (hu : Unknown st.sig tok name) :
    (st.parseArguments scan argv).2 = .throw ⟨.parse, name, "invalid option".toList⟩ := by
  obtain ⟨X, evs, q, hpre, hf, hr⟩ := hm
  have ht : ¬EndTok tok := by
    cases hu with
    | long ht => exact noEnd_long ht
    | letter ht => exact noEnd_short ht
    | noLetter ht => exact noEnd_short ht
  refine C56_fault_throws h (.option (ts := pre ++ tok :: X) ?_ hr (.unknown hu))
  rw [hargv]
  have := hf.append (A := pre ++ [tok]) (by
    intro t hm
    rcases List.mem_append.1 hm with hm | hm
    · exact hpre t hm
    · rw [List.mem_singleton.1 hm]; exact ht)
  simpa using this

/-- `prog -v --nope=1 x`. -/
example : (parser.parseArguments demoScan ("prog".toList :: ["-v", "--nope=1", "x"].map String.toList)).2 =
    .throw ⟨.parse, "nope".toList, "invalid option".toList⟩ :=
  C23_unknown_option (parser_ready' _ (by decide)) (pre := [['-', 'v']]) (tok := "--nope=1".toList) (post := ["x".toList])
    (by decide +kernel) (parser_met _ _)
    (.long ⟨'n', "ope=1".toList, by decide +kernel⟩ (.eq "--nope".toList "1".toList ⟨by decide +kernel, by decide +kernel⟩) (by decide +kernel))

/-- C27, rejection. An option (or the last letter of a cluster) without enough tokens before the end of the
line or `--`. -/
theorem C27_too_few {scan : Str → Option D} {st : State D} {argv : List Str} (h : Ready scan st argv)
    {pre post X : List Str} {tok name : Str} {e : Entry} (hargv : argv.drop 1 = pre ++ tok :: post)
    (hm : MetAt st.sig st.places pre tok post) (hu : Uses st.sig tok e name none)
    (hX : Front post X)
    (hk : ((e.kind = .simple ∨ e.kind = .multi) ∧ X = []) ∨ ((e.kind = .number ∨ e.kind = .multiNumber) ∧ X.length < e.arity)) :
    (st.parseArguments scan argv).2 = .throw ⟨.parse, name, "bad number of argument".toList⟩ := by
  obtain ⟨X', evs, q, hpre, hf, hr⟩ := hm
  obtain rfl := hX.unique hf
  have ht : ¬EndTok tok := by
    cases hu with
    | long ht => exact noEnd_long ht
    | alternative ht => exact noEnd_short ht
    | letter ht => exact noEnd_short ht
  refine C56_fault_throws h (.option (ts := pre ++ tok :: X) ?_ hr (.missing hu ?_))
  · rw [hargv]
    have := hf.append (A := pre ++ [tok]) (by
      intro t hm
      rcases List.mem_append.1 hm with hm | hm
      · exact hpre t hm
      · rw [List.mem_singleton.1 hm]; exact ht)
    simpa using this
  · rcases hk with ⟨hk, rfl⟩ | ⟨hk, hl⟩
    · exact .one (by rcases hk with hk | hk; exact .inl hk; exact .inr (.inl hk))
    · exact .fixed X (by rcases hk with hk | hk; exact .inl hk; exact .inr (.inr hk)) hl

/-- `prog -v -n x -- y`: `-n` wants two values and cannot take one after the marker. -/
example : (parser.parseArguments demoScan ("prog".toList :: ["-v", "-n", "x", "--", "y"].map String.toList)).2 =
    .throw ⟨.parse, "n".toList, "bad number of argument".toList⟩ :=
  C27_too_few (parser_ready' _ (by decide)) (pre := [['-', 'v']]) (tok := "-n".toList) (X := ["x".toList])
    (post := ["x", "--", "y"].map String.toList) (e := ⟨3, .number, 2⟩) (by decide +kernel) (parser_met _ _)
    (.letter (ss := []) (c := 'n') ⟨'n', [], rfl, by decide⟩ (.bare (by decide))
      (by rintro ⟨h, _⟩; revert h; decide +kernel) (by simp) (by decide +kernel))
    ⟨by decide +kernel, .inr ⟨["y".toList], by decide +kernel⟩⟩ (.inr ⟨.inl rfl, by decide⟩)

/-! ### C21: the end marker -/

theorem afterTokens_append_words {st : State D} {full : Prop} (hi : GInv full st) {s : Slot D} (hs : s ∈ st.arguments)
    (hp : s.arg.isPositional = false) {ts : List Str} {e1 e2 : List Event} {err : Option Exn}
    (hl : Line st.sig st.places ts (e1 ++ e2) err) (hw : ∀ ev ∈ e2, ∀ i a v, ev ≠ .option i a v) :
    s.arg.afterTokens s.node (e1 ++ e2) = s.arg.afterTokens s.node e1 := by
  have ho := (option_uses hi hs hp hl).1
  unfold Argument.afterTokens
  rw [List.foldl_append]
  generalize e1.foldl (Argument.see s.node) s.arg.reset = a
  have : ∀ e2 : List Event, (∀ ev ∈ e2, ∀ i a v, ev ≠ .option i a v) → (∀ i v, .positional i v ∈ e2 → i ≠ s.node) →
      e2.foldl (Argument.see s.node) a = a := by
    intro e2
    induction e2 with
    | nil => intros; rfl
    | cons ev e2 ih =>
      intro h1 h2
      rw [List.foldl_cons]
      have : a.see s.node ev = a := by
        cases ev with
        | option i at_ v => exact absurd rfl (h1 _ List.mem_cons_self i at_ v)
        | positional i v => simp [Argument.see, h2 i v List.mem_cons_self]
        | extra w => rfl
      rw [this]
      exact ih (fun ev hev => h1 ev (List.mem_cons_of_mem _ hev)) (fun i v hm => h2 i v (List.mem_cons_of_mem _ hm))
  exact this e2 hw fun i v hm => ho i v (List.mem_append_right _ hm)

/-- C21. On an accepted command line with `--`, what is before the marker means what it would mean as a line
of its own, and all the tokens after it are given, in order, to positional arguments or become additional
arguments. When the call returns, the parser shows this. -/
theorem C21_end_marker {scan : Str → Option D} {st : State D} {p : Str} {ts back : List Str}
    (h : Ready scan st (p :: (ts ++ ['-', '-'] :: back))) (hts : ∀ t ∈ ts, ¬EndTok t) {evs : List Event}
    (hl : Line st.sig st.places (ts ++ ['-', '-'] :: back) evs none) :
    (∃ before after, evs = before ++ after ∧ Line st.sig st.places ts before none ∧
      (∀ ev ∈ after, ∀ i a v, ev ≠ .option i a v) ∧ after.flatMap Event.words = back) ∧
    ((st.parseArguments scan (p :: (ts ++ ['-', '-'] :: back))).2 = .ok () →
      Shows st evs (st.parseArguments scan (p :: (ts ++ ['-', '-'] :: back))).1) := by
  refine ⟨?_, fun hok => C20_shows h hl hok⟩
  have hf : Front (ts ++ ['-', '-'] :: back) ts := ⟨hts, .inr ⟨back, rfl⟩⟩
  obtain ⟨e1, e2, q1, x1, h1, rfl, ⟨rfl, rfl, hx⟩ | ⟨rfl, b, q2, e, h2⟩⟩ := Line.front hf hl
  · exfalso
    rcases hx with hx | ⟨x, hx⟩
    · have := congrArg List.length hx; simp at this
    · cases hx
  · have := List.append_cancel_left e
    cases this
    obtain ⟨k1, k2⟩ := readsWords_words h2 rfl
    exact ⟨e1, e2, rfl, .whole hts h1, k2, k1⟩

/-- C21, options. The options read the same with or without `--` and what follows it. -/
theorem C21_options_unaffected {scan : Str → Option D} {st : State D} {p : Str} {ts back : List Str}
    (h : Ready scan st (p :: (ts ++ ['-', '-'] :: back))) (h0 : Ready scan st (p :: ts)) (hts : ∀ t ∈ ts, ¬EndTok t)
    (hok : (st.parseArguments scan (p :: (ts ++ ['-', '-'] :: back))).2 = .ok ())
    (hok0 : (st.parseArguments scan (p :: ts)).2 = .ok ()) {s : Slot D} (hs : s ∈ st.arguments)
    (hp : s.arg.isPositional = false) :
    (st.parseArguments scan (p :: (ts ++ ['-', '-'] :: back))).1.atObj s.obj =
      (st.parseArguments scan (p :: ts)).1.atObj s.obj := by
  obtain ⟨evs, hl, _⟩ := parse_ok h hok
  obtain ⟨⟨e1, e2, rfl, hl1, hw, _⟩, _⟩ := C21_end_marker h hts hl
  rw [parse_atObj h hl hok hs, parse_atObj h0 hl1 hok0 hs]
  rw [afterTokens_append_words h.sane.inv hs hp hl hw]

/-- The long command line, with and without its marker and what follows. -/
example : ∃ ts back, parserLine = "prog".toList :: (ts ++ ['-', '-'] :: back) ∧ (∀ t ∈ ts, ¬EndTok t) ∧ back.length = 2 ∧
    (parser.parseArguments demoScan ("prog".toList :: ts)).2 = .ok () :=
  ⟨(parserLine.drop 1).take 29, ["k", "l"].map String.toList, by decide +kernel, by decide +kernel, rfl, by decide +kernel⟩

/-! ### C22: surplus words -/

/-- C22. The words left when all positional arguments are filled become the additional arguments, in the
order of the command line; in strict mode there are none. -/
theorem C22_surplus {scan : Str → Option D} {st : State D} {argv : List Str} (h : Ready scan st argv)
    {evs : List Event} (hl : Line st.sig st.places (argv.drop 1) evs none)
    (hg : (st.parseArguments scan argv).2.goesOn = true) :
    (st.parseArguments scan argv).1.additional = st.additional ++ extras evs ∧
    (extras evs).Sublist (argv.drop 1) ∧
    (extras evs ≠ [] → ∀ s ∈ st.arguments, s.arg.isPositional = true → fills s.node evs ≠ []) ∧
    (st.isStrict = true → extras evs = []) := by
  refine ⟨(C20_records h hl hg).2, ?_, ?_, ?_⟩
  · have hsub : ∀ evs : List Event, (extras evs).Sublist (evs.flatMap Event.words) := by
      intro evs
      induction evs with
      | nil => exact .refl _
      | cons ev evs ih =>
        rw [List.flatMap_cons]
        unfold extras at ih ⊢
        rw [List.filterMap_cons]
        cases ev with
        | extra w => exact .cons_cons w ih
        | option => exact ih.trans (List.sublist_append_right _ _)
        | positional => exact ih.trans (List.sublist_append_right _ _)
    refine (hsub evs).trans ?_
    clear hg h
    generalize argv.drop 1 = line at hl
    cases hl with
    | whole _ hr => exact (reads_words hr).1
    | split _ hr hw =>
      rw [List.flatMap_append]
      have := (readsWords_words hw rfl).1
      rw [this]
      exact (reads_words hr).1.append (List.sublist_cons_self _ _)
  · intro hne s hs hp
    obtain ⟨q1, hq⟩ := line_filled hl
    have key : q1 = [] ∨ extras evs = [] := by
      have reads : ∀ {q q1 : List Place} {ts evs err}, Reads st.sig q ts evs q1 err → q1 ≠ [] → extras evs = [] := by
        intro q q1 ts evs err hr
        induction hr with
        | nil => intro _; rfl
        | option h _ ih =>
          intro hq
          unfold extras at ih ⊢
          rw [List.filterMap_append, ih hq, List.append_nil, List.filterMap_eq_nil_iff]
          intro ev hev
          obtain ⟨_, e, a, v, _, h⟩ := tokenReads_events h ev hev
          rw [h]
        | badOption h =>
          intro hq
          unfold extras
          rw [List.filterMap_eq_nil_iff]
          intro ev hev
          obtain ⟨_, e, a, v, _, h⟩ := tokenReads_events h ev hev
          rw [h]
        | word hw h _ ih =>
          intro hq
          cases h with
          | fill h => exact ih hq
          | surplus w r hs' =>
            exfalso
            have : ∀ {q q1 : List Place} {ts evs err}, Reads st.sig q ts evs q1 err → q = [] → q1 = [] := by
              intro q q1 ts evs err hr
              induction hr with
              | nil => exact id
              | option _ _ ih => exact ih
              | badOption => exact id
              | word _ h _ ih => intro e; subst e; cases h; exact ih rfl
              | badWord => exact id
            exact hq (this ‹_› rfl)
        | badWord => intro _; rfl
      have empty : ∀ {b : Bool} {q q1 : List Place} {ts evs err}, ReadsWords b q ts evs q1 err → q = [] → q1 = [] := by
        intro b q q1 ts evs err hr
        induction hr with
        | nil => exact id
        | word h _ ih => intro e; subst e; cases h; exact ih rfl
        | badWord => exact id
      have words : ∀ {b : Bool} {q q1 : List Place} {ts evs err}, ReadsWords b q ts evs q1 err → q1 ≠ [] → extras evs = [] := by
        intro b q q1 ts evs err hr
        induction hr with
        | nil => intro _; rfl
        | word h _ ih =>
          intro hq
          cases h with
          | fill h => exact ih hq
          | surplus w r hs' => exact absurd (empty ‹_› rfl) hq
        | badWord => intro _; rfl
      have conclude : ∀ (q2 : List Place), filled evs ++ q2.map (·.id) = st.places.map (·.id) → (q2 ≠ [] → extras evs = []) →
          q1 = [] ∨ extras evs = [] := by
        intro q2 e hx
        by_cases h2 : q2 = []
        · left
          rw [← e, h2] at hq
          have := List.append_cancel_left hq
          simpa using this
        · exact .inr (hx h2)
      clear hg h
      generalize argv.drop 1 = line at hl
      cases hl with
      | whole _ hr => exact conclude _ (reads_filled hr) (reads hr)
      | @split _ _ _ _ _ qq _ _ hr hw =>
        refine conclude qq ?_ ?_
        · rw [filled_append, List.append_assoc, readsWords_filled hw, reads_filled hr]
        · intro hq
          unfold extras
          rw [List.filterMap_append, List.append_eq_nil_iff]
          refine ⟨reads hr ?_, words hw hq⟩
          intro e
          exact hq (empty hw e)
    rcases key with rfl | hx
    · rw [List.map_nil, List.append_nil] at hq
      have hmem : s.node ∈ filled evs := by
        rw [hq, List.mem_map]
        exact ⟨s.place, by unfold State.places; exact List.mem_map.2 ⟨s, List.mem_filter.2 ⟨hs, hp⟩, rfl⟩, rfl⟩
      unfold filled at hmem
      rw [List.mem_filterMap] at hmem
      obtain ⟨ev, hev, e⟩ := hmem
      cases ev with
      | positional i v =>
        cases e
        exact List.ne_nil_of_mem (mem_fills.2 hev)
      | _ => cases e
    · exact absurd hx hne
  · intro hs
    unfold extras
    rw [List.filterMap_eq_nil_iff]
    intro ev hev
    have := line_fit hl ev hev
    cases ev with
    | extra w => simp only [EventFits] at this; rw [show st.sig.strict = st.isStrict from rfl, hs] at this; cases this
    | _ => rfl

theorem extras_eq (evs : List Event) : extras evs = evs.filterMap extraOf := by
  unfold extras
  congr 1

/-- C22, strict mode. The first word that would be surplus for the same parser not in strict mode is
rejected. -/
theorem C22_strict {scan : Str → Option D} {st : State D} {argv : List Str} (h : Ready scan st argv)
    (hs : st.isStrict = true) {evs : List Event} {err : Option Exn}
    (hl : Line ({ st with isStrict := false } : State D).sig st.places (argv.drop 1) evs err)
    {w : Str} {ws : List Str} (hw : extras evs = w :: ws) :
    (st.parseArguments scan argv).2 = .throw ⟨.parse, w, "invalid additional argument".toList⟩ := by
  rw [extras_eq] at hw
  obtain ⟨evs', hl'⟩ := (line_strict (s := ({ st with isStrict := false } : State D).sig) (s' := st.sig) rfl rfl rfl hs hl).2 w ws hw
  exact (parse_of_line h hl').1 _ rfl

/-- A parser with one positional argument: additional words, and the same in strict mode. -/
example : (let ops : List Op := [.add ["file".toList], .add ["-h".toList], .action 1 .help]
    let argv := ["prog", "a", "b", "c"].map String.toList
    ((runOps demoScan (State.init : State Unit) ops).parseArguments demoScan argv).1.additional = ["b".toList, "c".toList] ∧
    ((runOps demoScan (State.init : State Unit) (ops ++ [.setStrict true])).parseArguments demoScan argv).2 =
      .throw ⟨.parse, "b".toList, "invalid additional argument".toList⟩) := by decide +kernel

/-- C22, nothing lost. A command line of plain words (or of anything after `--`) is distributed whole over
the positional and the additional arguments, which show it when the call returns. -/
theorem C22_nothing_lost {scan : Str → Option D} {st : State D} {argv : List Str} (h : Ready scan st argv)
    (hw : ∀ t ∈ argv.drop 1, WordTok t) {evs : List Event} (hl : Line st.sig st.places (argv.drop 1) evs none) :
    evs.flatMap Event.words = argv.drop 1 ∧
    ((st.parseArguments scan argv).2 = .ok () → Shows st evs (st.parseArguments scan argv).1) := by
  refine ⟨?_, fun hok => C20_shows h hl hok⟩
  clear h
  generalize argv.drop 1 = line at hw hl
  cases hl with
  | whole _ hr => exact (reads_words hr).2 rfl hw
  | split =>
    have := hw ['-', '-'] (by simp)
    rcases this with h | h | ⟨c, r, h, hc⟩
    · cases h
    · cases h
    · cases h; exact absurd rfl hc

/-! ### C29, C30, C31: spellings -/

/-- C29, flags. Writing an option with another of its flags (long, short or alternative form; bare or with the
same `=value`) changes nothing on an accepted command line. -/
theorem C29_other_flag {scan : Str → Option D} {st : State D} {argv argv' : List Str} (h : Ready scan st argv)
    (h' : Ready scan st argv') (hh : argv'.head? = argv.head?) {pre post : List Str} {tok tok' : Str} {e : Entry} {eq : Option Str}
    (hargv : argv.drop 1 = pre ++ tok :: post) (hargv' : argv'.drop 1 = pre ++ tok' :: post)
    (hm : MetAt st.sig st.places pre tok post) (hw : Writes st.sig e tok eq) (hw' : Writes st.sig e tok' eq)
    {evs : List Event} (hl : Line st.sig st.places (argv.drop 1) evs none) :
    st.parseArguments scan argv' = st.parseArguments scan argv := by
  have hl' : Line st.sig st.places (argv'.drop 1) evs none := by
    rw [hargv']
    rw [hargv] at hl
    exact line_replace h.sized h.placesTake h.placesSized (A := []) (A' := []) hm
      (by simpa using hw.notWord.2) (by simpa using hw'.notWord.2) (fun _ => hw'.form)
      (fun q1 X evs q2 x hx hr => by
        have : x = none := by rcases hx with hx | hx <;> exact hx
        subst this
        exact reads_same hw hw' hr) hl
  exact (same_result h h' hh hl hl').2 rfl

/-- `-o` and `--out` are two ways to write the same option. -/
theorem parser_writes_o (eq : Option Str) : Writes parser.sig ⟨0, .simple, 1⟩ (['-', 'o'] ++ (match eq with | none => [] | some v => '=' :: v)) eq ∧
    Writes parser.sig ⟨0, .simple, 1⟩ (['-', '-', 'o', 'u', 't'] ++ (match eq with | none => [] | some v => '=' :: v)) eq := by
  have sp : ∀ n : Str, '=' ∉ n → Splits (n ++ (match eq with | none => [] | some v => '=' :: v)) n eq := by
    intro n hn
    cases eq with
    | none => simpa using Splits.bare (tok := n) hn
    | some v => exact .eq n v ⟨rfl, hn⟩
  exact ⟨.short (c := 'o') ⟨'o', _, rfl, by decide⟩ (sp _ (by decide)) (by rintro ⟨h, _⟩; revert h; decide +kernel) (by decide +kernel),
    .long ⟨'o', _, rfl⟩ (sp _ (by decide)) (by decide +kernel)⟩

/-- `prog -v -o=1 f` and `prog -v --out=1 f`. -/
example : parser.parseArguments demoScan ("prog".toList :: ["-v", "--out=1", "f"].map String.toList) =
    parser.parseArguments demoScan ("prog".toList :: ["-v", "-o=1", "f"].map String.toList) := by
  obtain ⟨evs, hl, _⟩ := parse_ok (parser_ready' (["-v", "-o=1", "f"].map String.toList) (by decide)) (by decide +kernel)
  exact C29_other_flag (parser_ready' _ (by decide)) (parser_ready' _ (by decide)) rfl (pre := [['-', 'v']]) (post := ["f".toList])
    (by decide +kernel) (by decide +kernel) (parser_met _ _) (parser_writes_o (some "1".toList)).1 (parser_writes_o (some "1".toList)).2 hl

/-- C29, values. For an option with one value, `--name value` and `--name=value` (or `-o value` and `-o=value`)
are the same on an accepted command line, in both directions. -/
theorem C29_value_in_token {scan : Str → Option D} {st : State D} {argv argv' : List Str} (h : Ready scan st argv)
    (h' : Ready scan st argv') (hh : argv'.head? = argv.head?) {pre post : List Str} {tok tok' v : Str} {e : Entry}
    (hargv : argv.drop 1 = pre ++ tok :: v :: post) (hargv' : argv'.drop 1 = pre ++ tok' :: post)
    (hw : Writes st.sig e tok none) (hw' : Writes st.sig e tok' (some v)) (hk : e.kind = .simple ∨ e.kind = .multi)
    (hv : ¬EndTok v) (hm : MetAt st.sig st.places pre tok (v :: post) ∨ MetAt st.sig st.places pre tok' post)
    (hacc : ∃ evs, Line st.sig st.places (argv.drop 1) evs none ∨ Line st.sig st.places (argv'.drop 1) evs none) :
    st.parseArguments scan argv' = st.parseArguments scan argv := by
  have e1 : ∀ t ∈ tok :: [v], ¬EndTok t := by
    intro t ht
    simp only [List.mem_cons, List.not_mem_nil, or_false] at ht
    rcases ht with rfl | rfl
    · exact hw.notWord.2
    · exact hv
  have e2 : ∀ t ∈ [tok'], ¬EndTok t := by simpa using hw'.notWord.2
  have hmm : MetAt st.sig st.places pre tok (v :: post) ∧ MetAt st.sig st.places pre tok' post := by
    rcases hm with hm | hm
    · refine ⟨hm, ?_⟩
      obtain ⟨X0, ev0, q0, hpre, hf0, hr⟩ := hm
      obtain ⟨X, hf⟩ := Front.exists post
      obtain rfl := hf0.unique (Front.append (A := [v]) (by simpa using hv) hf)
      obtain ⟨p, ep, hsw⟩ := hr.swap h.placesTake
      obtain rfl : pre = p := List.append_cancel_right ep
      exact ⟨X, ev0, q0, hpre, hf, hsw tok' X fun _ => hw'.form⟩
    · refine ⟨?_, hm⟩
      obtain ⟨X, ev0, q0, hpre, hf, hr⟩ := hm
      obtain ⟨p, ep, hsw⟩ := hr.swap h.placesTake
      obtain rfl : pre = p := List.append_cancel_right ep
      exact ⟨v :: X, ev0, q0, hpre, Front.append (A := [v]) (by simpa using hv) hf, hsw tok (v :: X) fun _ => hw.form⟩
  have key : ∃ evs, Line st.sig st.places (argv.drop 1) evs none ∧ Line st.sig st.places (argv'.drop 1) evs none := by
    rw [hargv, hargv'] at *
    obtain ⟨evs, hl | hl⟩ := hacc
    · refine ⟨evs, hl, ?_⟩
      exact line_replace h.sized h.placesTake h.placesSized (A := [v]) (A' := []) hmm.1 e1 e2 (fun _ => hw'.form)
        (fun q1 X evs q2 x hx hr => by
          have : x = none := by rcases hx with hx | hx <;> exact hx
          subst this
          exact (reads_value hk hw hw').1 hr) hl
    · refine ⟨evs, ?_, hl⟩
      exact line_replace h.sized h.placesTake h.placesSized (A := []) (A' := [v]) hmm.2 e2 e1 (fun _ => hw.form)
        (fun q1 X evs q2 x hx hr => by
          have : x = none := by rcases hx with hx | hx <;> exact hx
          subst this
          exact (reads_value hk hw hw').2 hr) hl
  obtain ⟨evs, hl, hl'⟩ := key
  exact (same_result h h' hh hl hl').2 rfl

/-- `prog -v -o 1 f` and `prog -v --out=1 f`. -/
example : parser.parseArguments demoScan ("prog".toList :: ["-v", "--out=1", "f"].map String.toList) =
    parser.parseArguments demoScan ("prog".toList :: ["-v", "-o", "1", "f"].map String.toList) := by
  obtain ⟨evs, hl, _⟩ := parse_ok (parser_ready' (["-v", "-o", "1", "f"].map String.toList) (by decide)) (by decide +kernel)
  exact C29_value_in_token (parser_ready' _ (by decide)) (parser_ready' _ (by decide)) rfl (pre := [['-', 'v']]) (post := ["f".toList])
    (by decide +kernel) (by decide +kernel) (parser_writes_o none).1 (parser_writes_o (some "1".toList)).2 (.inl rfl)
    (by decide +kernel) (.inl (parser_met _ _)) ⟨evs, .inl hl⟩

/-- C30. A cluster of switches, possibly ended by any other option, is the same as these options one by one:
`-abc` as `-a -b -c`, `-abo=1` as `-a -b -o=1`. Exceptions are the same too. -/
theorem C30_cluster {scan : Str → Option D} {st : State D} {argv argv' : List Str} (h : Ready scan st argv)
    (h' : Ready scan st argv') (hh : argv'.head? = argv.head?) {pre post : List Str} {tok tokc : Str} {ss : List Char} {c : Char}
    {eq : Option Str} (hargv : argv.drop 1 = pre ++ tok :: post)
    (hargv' : argv'.drop 1 = pre ++ (ss.map (fun s => ['-', s]) ++ tokc :: post))
    (hm : MetAt st.sig st.places pre tok post) (ht : ShortTok tok) (hsp : Splits tok ('-' :: (ss ++ [c])) eq)
    (htc : ShortTok tokc) (hspc : Splits tokc ['-', c] eq)
    (hss : ∀ s ∈ ss, ∃ e, st.sig.flag ['-', s] = some e ∧ Switch e.kind)
    (hc : (st.sig.flag ['-', c]).isSome)
    (halt : st.isAlternative = true → st.sig.flag ('-' :: '-' :: (ss ++ [c])) = none ∧ ∀ s ∈ ss ++ [c], st.sig.flag ['-', '-', s] = none) :
    (st.parseArguments scan argv').2 = (st.parseArguments scan argv).2 ∧
    ((∃ evs, Line st.sig st.places (argv.drop 1) evs none) → st.parseArguments scan argv' = st.parseArguments scan argv) := by
  obtain ⟨evs, err, hl, _, _⟩ := C20_unique_derivation h
  have hn : ¬(st.sig.alternative = true ∧ (st.sig.flag ('-' :: '-' :: (ss ++ [c]))).isSome) := by
    rintro ⟨ha, hx⟩
    rw [(halt ha).1] at hx
    cases hx
  have hn' : ∀ s ∈ ss ++ [c], ¬(st.sig.alternative = true ∧ (st.sig.flag ['-', '-', s]).isSome) := by
    rintro s hs ⟨ha, hx⟩
    rw [(halt ha).2 s hs] at hx
    cases hx
  have heq : '=' ∉ ss := by
    have hname : '=' ∉ ('-' :: (ss ++ [c])) := by
      cases hsp with
      | eq _ _ hs => exact hs.2
      | bare hs => exact hs
    intro hx
    exact hname (List.mem_cons_of_mem _ (List.mem_append_left _ hx))
  have hforms : ∀ s ∈ ss, ShortTok ['-', s] ∧ OptionForm st.sig ['-', s] := by
    intro s hs
    obtain ⟨e, hf, _⟩ := hss s hs
    have h1 : s ≠ '-' := by rintro rfl; rw [h.noDash] at hf; cases hf
    have h2 : s ≠ '=' := by rintro rfl; exact heq hs
    exact ⟨⟨s, [], rfl, h1⟩, (writes_switch h1 h2 hf (hn' s (List.mem_append_left _ hs))).form⟩
  have hl' : Line st.sig st.places (argv'.drop 1) evs err := by
    rw [hargv']
    rw [hargv] at hl
    obtain ⟨ec, hec⟩ := Option.isSome_iff_exists.1 hc
    have hfc : OptionForm st.sig tokc := .cluster htc hspc (.last hec)
    cases ss with
    | nil =>
      refine line_replace h.sized h.placesTake h.placesSized (A := []) (A' := []) hm
        (by simpa using noEnd_short ht) (by simpa using noEnd_short htc) (fun _ => hfc) ?_ hl
      intro q1 X evs q2 x _ hr
      exact (reads_cluster [] ht hsp hn hss htc hspc h.noDash heq hn').1 hr
    | cons s ss =>
      have := line_replace h.sized h.placesTake h.placesSized (A := []) (tok' := ['-', s])
        (A' := ss.map (fun s => ['-', s]) ++ [tokc]) (post := post) hm (by simpa using noEnd_short ht) ?_
        (fun _ => (hforms s List.mem_cons_self).2) ?_ hl
      · simpa using this
      · intro t hm'
        simp only [List.mem_cons, List.mem_append, List.mem_map, List.not_mem_nil, or_false] at hm'
        rcases hm' with rfl | ⟨s', hs', rfl⟩ | rfl
        · exact noEnd_short (hforms s List.mem_cons_self).1
        · exact noEnd_short (hforms s' (List.mem_cons_of_mem _ hs')).1
        · exact noEnd_short htc
      · intro q1 X evs q2 x _ hr
        have := (reads_cluster (s :: ss) ht hsp hn hss htc hspc h.noDash heq hn').1 hr
        simpa using this
  obtain ⟨r1, r2⟩ := same_result h h' hh hl hl'
  refine ⟨r1, ?_⟩
  rintro ⟨evs0, h0⟩
  obtain ⟨_, rfl⟩ := line_unique h.sized h.placesSized hl h0
  exact r2 rfl

/-- `prog -v -vqo=1 f` and `prog -v -v -q -o=1 f`. -/
example : (parser.parseArguments demoScan ("prog".toList :: ["-v", "-v", "-q", "-o=1", "f"].map String.toList)).2 =
    (parser.parseArguments demoScan ("prog".toList :: ["-v", "-vqo=1", "f"].map String.toList)).2 :=
  (C30_cluster (parser_ready' (["-v", "-vqo=1", "f"].map String.toList) (by decide))
    (parser_ready' (["-v", "-v", "-q", "-o=1", "f"].map String.toList) (by decide)) rfl (pre := [['-', 'v']]) (post := ["f".toList])
    (tok := "-vqo=1".toList) (tokc := "-o=1".toList) (ss := ['v', 'q']) (c := 'o') (eq := some "1".toList)
    (by decide +kernel) (by decide +kernel) (parser_met _ _) ⟨'v', "qo=1".toList, by decide +kernel, by decide⟩
    (.eq _ _ ⟨by decide +kernel, by decide +kernel⟩) ⟨'o', "=1".toList, by decide +kernel, by decide⟩ (.eq _ _ ⟨by decide +kernel, by decide +kernel⟩)
    (by
      intro s hs
      simp only [List.mem_cons, List.not_mem_nil, or_false] at hs
      rcases hs with rfl | rfl
      · exact ⟨⟨2, .boolean, 0⟩, by decide +kernel, .inl rfl⟩
      · exact ⟨⟨7, .reverse, 0⟩, by decide +kernel, .inr rfl⟩)
    (by decide +kernel) (by intro h; revert h; decide +kernel)).1

/-- C31. In alternative mode `-name` (bare or with `=value`) is the same as `--name` when the latter is
registered; exceptions are the same too. -/
theorem C31_alternative {scan : Str → Option D} {st : State D} {argv argv' : List Str} (h : Ready scan st argv)
    (h' : Ready scan st argv') (hh : argv'.head? = argv.head?) (ha : st.isAlternative = true) {pre post : List Str} {tok name : Str}
    {eq : Option Str} (hargv : argv.drop 1 = pre ++ tok :: post) (hargv' : argv'.drop 1 = pre ++ ('-' :: tok) :: post)
    (hm : MetAt st.sig st.places pre tok post) (ht : ShortTok tok) (hsp : Splits tok ('-' :: name) eq)
    (hf : (st.sig.flag ('-' :: '-' :: name)).isSome) :
    (st.parseArguments scan argv').2 = (st.parseArguments scan argv).2 ∧
    ((∃ evs, Line st.sig st.places (argv.drop 1) evs none) → st.parseArguments scan argv' = st.parseArguments scan argv) := by
  obtain ⟨evs, err, hl, _, _⟩ := C20_unique_derivation h
  obtain ⟨e, hf⟩ := Option.isSome_iff_exists.1 hf
  have ht' : LongTok ('-' :: tok) := by
    obtain ⟨c, r, rfl, _⟩ := ht
    exact ⟨c, r, rfl⟩
  have hsp' : Splits ('-' :: tok) ('-' :: '-' :: name) eq := by
    cases hsp with
    | eq _ v hs => exact .eq _ v ⟨by rw [hs.1]; rfl, by simpa using hs.2⟩
    | bare hs => exact .bare (by simpa using hs)
  have hread : ∀ stop ts evs out, TokenReads st.sig stop tok ts evs out → TokenReads st.sig stop ('-' :: tok) ts evs out := by
    intro stop ts evs out hr
    cases hr with
    | long hx => exact (long_not_short hx ht).elim
    | unknownLong hx => exact (long_not_short hx ht).elim
    | alternative _ hs2 _ hf2 hr =>
      obtain ⟨rfl, rfl⟩ := splits_unique hs2 hsp
      rw [hf] at hf2; cases hf2
      exact .long ht' hsp' hf hr
    | cluster _ hs2 hn =>
      obtain ⟨e', rfl⟩ := splits_unique hs2 hsp
      cases e'
      exact absurd ⟨ha, by rw [hf]; rfl⟩ hn
  have hw : ¬WordTok tok := fun hw => (C01_token_classes tok).2.2.2.2.2.2.1 ⟨ht, hw⟩
  have hl' : Line st.sig st.places (argv'.drop 1) evs err := by
    rw [hargv']
    rw [hargv] at hl
    refine line_replace h.sized h.placesTake h.placesSized (A := []) (A' := []) hm
      (by simpa using noEnd_short ht) (by simpa using noEnd_long ht') (fun _ => .long ht' hsp' hf) ?_ hl
    intro q1 X evs q2 x _ hr
    cases hr with
    | option g g' => exact .option (hread _ _ _ _ g) g'
    | badOption g => exact .badOption (hread _ _ _ _ g)
    | word hx => exact absurd hx hw
    | badWord hx => exact absurd hx hw
  obtain ⟨r1, r2⟩ := same_result h h' hh hl hl'
  refine ⟨r1, ?_⟩
  rintro ⟨evs0, h0⟩
  obtain ⟨_, rfl⟩ := line_unique h.sized h.placesSized hl h0
  exact r2 rfl

/-- `prog -out=1 f` in alternative mode. -/
example : (let st := runOps demoScan parser [.setAlternative true]
    (st.parseArguments demoScan (["prog", "-out=1", "f"].map String.toList)).2 = .ok () ∧
    st.isAlternative = true ∧ (st.sig.flag "--out".toList).isSome = true ∧
    MetAt st.sig st.places [] "-out=1".toList ["f".toList]) := by
  refine ⟨by decide +kernel, by decide +kernel, by decide +kernel, ["f".toList], [], _, by simp, ⟨by decide +kernel, .inl rfl⟩, .here _ _⟩

theorem afterLoop_noAlt (scan : Str → Option D) (s : State D) :
    ({ s with isAlternative := false } : State D).afterLoop scan =
      ({ (s.afterLoop scan).1 with isAlternative := false }, (s.afterLoop scan).2) := by
  have hu : ({ s with isAlternative := false } : State D).getUsage = s.getUsage := rfl
  have ho : ∀ p, ({ s with isAlternative := false } : State D).optionSeen p = s.optionSeen p := fun p => rfl
  unfold State.afterLoop
  rw [hu, ho, ho]
  simp only
  cases s.optionSeen s.helpOption with
  | none => rfl
  | some b =>
    cases b with
    | true => simp only; split <;> rfl
    | false =>
      simp only
      cases s.optionSeen s.versionOption with
      | none => rfl
      | some b =>
        cases b with
        | true => simp only; split <;> rfl
        | false =>
          simp only
          unfold State.finishParse
          simp only
          split <;> rfl

/-- C31, otherwise. When no token (before `--`) is the alternative spelling of a registered long option, alternative
mode changes nothing. -/
theorem C31_otherwise {scan : Str → Option D} {st : State D} {argv : List Str} (h : Ready scan st argv)
    (hna : ∀ X, Front (argv.drop 1) X → NoAlternative st.sig X) :
    (({ st with isAlternative := false } : State D).parseArguments scan argv).2 = (st.parseArguments scan argv).2 ∧
    ((∃ evs, Line st.sig st.places (argv.drop 1) evs none) →
      (({ st with isAlternative := false } : State D).parseArguments scan argv).1 =
        { (st.parseArguments scan argv).1 with isAlternative := false }) := by
  have h' : Ready scan ({ st with isAlternative := false } : State D) argv :=
    ⟨survives_step h.history (.setAlternative false) rfl, h.settled, h.small, h.help, h.program⟩
  obtain ⟨evs, err, hl, hu, _⟩ := C20_unique_derivation h
  have hl' : Line ({ st with isAlternative := false } : State D).sig ({ st with isAlternative := false } : State D).places
      (argv.drop 1) evs err := line_noAlt (s := st.sig) (s' := ({ st with isAlternative := false } : State D).sig) rfl rfl hna hl
  have h1 := parse_of_line h hl
  have h2 := parse_of_line h' hl'
  cases err with
  | some x =>
    refine ⟨by rw [h1.1 x rfl, h2.1 x rfl], ?_⟩
    rintro ⟨evs', hl2⟩
    cases (hu _ _ hl2).2
  | none =>
    have e : (({ st with isAlternative := false } : State D).begin argv).recordAll evs =
        { (st.begin argv).recordAll evs with isAlternative := false } := by
      rw [seen_eq, seen_eq]
      rfl
    rw [h1.2 rfl, h2.2 rfl, e, afterLoop_noAlt]
    exact ⟨rfl, fun _ => rfl⟩

/-- `prog -vq f` in alternative mode. -/
example : (let st := runOps demoScan parser [.setAlternative true]
    (st.parseArguments demoScan (["prog", "-vq", "f"].map String.toList)).2 = .ok () ∧
    ∀ X, Front (["-vq", "f"].map String.toList) X → NoAlternative st.sig X) := by
  refine ⟨by decide +kernel, ?_⟩
  intro X hX t ht hs name eq hsp
  obtain rfl := hX.unique (f2 := ["-vq", "f"].map String.toList) ⟨by decide +kernel, .inl rfl⟩
  simp only [List.map_cons, List.map_nil, List.mem_cons, List.not_mem_nil, or_false] at ht
  rcases ht with rfl | rfl
  · obtain ⟨rfl, rfl⟩ := splits_unique hsp (.bare (by decide +kernel))
    decide +kernel
  · obtain ⟨c, r, e, _⟩ := hs
    revert e
    have : "f".toList = ['f'] := by decide +kernel
    rw [this]
    intro e; cases e

/-! ### C37: positional arguments -/

/-- C37. On an accepted command line the positional arguments are filled in listing order: the first `k` ones,
each with all the values its kind and `nargs` call for, by words in the order of the line. -/
theorem C37_positional_order {scan : Str → Option D} {st : State D} {argv : List Str} (h : Ready scan st argv)
    {evs : List Event} (hl : Line st.sig st.places (argv.drop 1) evs none) :
    ∃ k, (evs.filterMap fun | .positional i _ => some i | _ => none) =
        ((st.arguments.filter fun s => s.arg.isPositional).take k).map (·.node) ∧
      (∀ s ∈ st.arguments, ∀ v ∈ fills s.node evs, ValuesFit s.arg.nargs s.arg.type v) ∧
      (evs.flatMap Event.words).Sublist (argv.drop 1) ∧
      ((st.parseArguments scan argv).2.goesOn = true →
        ∀ i s, (st.arguments.filter fun s => s.arg.isPositional)[i]? = some s →
          ∃ s', (st.parseArguments scan argv).1.atObj s.obj = some s' ∧ (s'.arg.isExist = true ↔ i < k)) ∧
      ((st.parseArguments scan argv).2 = .ok () → Shows st evs (st.parseArguments scan argv).1) := by
  obtain ⟨q1, hq⟩ := line_filled hl
  have hids : st.places.map (·.id) = (st.arguments.filter fun s => s.arg.isPositional).map (·.node) := by
    unfold State.places; rw [List.map_map]; rfl
  rw [hids] at hq
  have hk : filled evs = ((st.arguments.filter fun s => s.arg.isPositional).take (filled evs).length).map (·.node) := by
    rw [List.map_take, ← hq]
    simp
  refine ⟨(filled evs).length, hk, fun s hs v hv => (C27_arity h hl hs).2.1 v hv, ?_, ?_, C20_shows h hl⟩
  · have hl2 := hl
    clear hids hk hq hl h
    generalize argv.drop 1 = line at hl2
    cases hl2 with
    | whole _ hr => exact (reads_words hr).1
    | split _ hr hw =>
      rw [List.flatMap_append, (readsWords_words hw rfl).1]
      exact (reads_words hr).1.append (List.sublist_cons_self _ _)
  · intro hg i s hi
    have hm : s ∈ st.arguments.filter fun s => s.arg.isPositional := List.mem_of_getElem? hi
    obtain ⟨hs, hp⟩ := List.mem_filter.1 hm
    obtain ⟨s', h1, _, h2, _⟩ := (C20_records h hl hg).1 s hs
    refine ⟨s', h1, ?_⟩
    rw [h2]
    have hnu : uses s.node evs = [] := by
      cases hf : uses s.node evs with
      | nil => rfl
      | cons v l =>
        obtain ⟨a, v⟩ := v
        exact absurd rfl ((positional_fills h.inv hs hp hl).1 _ a v (mem_uses.1 (by rw [hf]; simp)))
    simp only [hnu, ne_eq, not_true_eq_false, false_or]
    have hfl : (¬fills s.node evs = []) ↔ s.node ∈ filled evs := by
      constructor
      · intro hne
        cases hf : fills s.node evs with
        | nil => exact absurd hf hne
        | cons v l =>
          have := mem_fills.1 (show v ∈ fills s.node evs by rw [hf]; simp)
          exact List.mem_filterMap.2 ⟨_, this, rfl⟩
      · intro hm
        obtain ⟨ev, hev, e⟩ := List.mem_filterMap.1 hm
        cases ev with
        | positional i v => cases e; exact List.ne_nil_of_mem (mem_fills.2 hev)
        | _ => cases e
    rw [hfl]
    have hnd : ((st.arguments.filter fun s => s.arg.isPositional).map (·.node)).Nodup :=
      (h.inv.nodes.sublist ((List.filter_sublist).map _))
    generalize (st.arguments.filter fun s => s.arg.isPositional) = ps at *
    have hgi : (ps.map (·.node))[i]? = some s.node := by rw [List.getElem?_map, hi]; rfl
    rw [← hq] at hgi hnd
    constructor
    · intro hm
      obtain ⟨j, hj⟩ := List.mem_iff_getElem?.1 hm
      have hjl : j < (filled evs).length := (List.getElem?_eq_some_iff.1 hj).1
      have hj' : (filled evs ++ q1.map (·.id))[j]? = some s.node := by rw [List.getElem?_append_left hjl]; exact hj
      have : i = j := by
        have hil := (List.getElem?_eq_some_iff.1 hgi).1
        exact (List.getElem?_inj hil hnd).1 (hgi.trans hj'.symm)
      omega
    · intro hlt
      rw [List.getElem?_append_left hlt] at hgi
      exact List.mem_of_getElem? hgi

/-- Both positional arguments of the long command line are filled; on `prog x` only the first. -/
example : (let ids := fun argv => (parser.parseArguments demoScan argv).1.arguments.filterMap fun s =>
      if s.arg.isPositional then some (s.node, s.arg.isExist) else none
    ids parserLine = [(1, true), (8, true)] ∧ ids (["prog", "x"].map String.toList) = [(1, true), (8, false)]) := by
  decide +kernel

/-! ### C38: infinite lists -/

/-- C38, options. An infinite option takes the longest run of following tokens (before `--`) none of which has
the form of a registered option, reading goes on after it, and the parser shows these values. -/
theorem C38_option_list {scan : Str → Option D} {st : State D} {argv : List Str} (h : Ready scan st argv)
    {pre post X : List Str} {tok name : Str} {e : Entry} (hargv : argv.drop 1 = pre ++ tok :: post)
    (hm : MetAt st.sig st.places pre tok post) (hX : Front post X) (hu : Uses st.sig tok e name none)
    (hk : e.kind = .infinite ∨ e.kind = .multiInfinite) {evs : List Event} {err : Option Exn}
    (hl : Line st.sig st.places (argv.drop 1) evs err) :
    ∃ vs rest before after q, X = vs ++ rest ∧ Longest (OptionForm st.sig) vs rest ∧
      evs = before ++ .option e.id false (.list vs) :: after ∧
      Reaches st.sig st.places (pre ++ tok :: X) (before ++ [.option e.id false (.list vs)]) q rest ∧
      ((st.parseArguments scan argv).2 = .ok () → Shows st evs (st.parseArguments scan argv).1) := by
  have hshow := shows_of_line h hl
  obtain ⟨X', e0, q, hpre, hf, hr⟩ := hm
  obtain rfl := hX.unique hf
  have ht : ¬EndTok tok := by
    cases hu with
    | long ht => exact noEnd_long ht
    | alternative ht => exact noEnd_short ht
    | letter ht => exact noEnd_short ht
  obtain ⟨vs, rest, rfl, hlong⟩ := longest_exists (OptionForm st.sig) X
  obtain ⟨att, ep, ha, hread⟩ := uses_reads' (stop := OptionForm st.sig) (ts := vs ++ rest) hu
  obtain rfl := ha rfl
  have hto := hread _ _ (.following (.many vs rest (by rcases hk with hk | hk; exact .inl hk; exact .inr (.inl hk)) hlong))
  have hfront : Front (argv.drop 1) (pre ++ tok :: (vs ++ rest)) := by
    rw [hargv]
    have := hf.append (A := pre ++ [tok]) (by
      intro t hm
      rcases List.mem_append.1 hm with hm | hm
      · exact hpre t hm
      · rw [List.mem_singleton.1 hm]; exact ht)
    simpa using this
  have hreach : Reaches st.sig st.places (pre ++ tok :: (vs ++ rest))
      (e0 ++ ((ep ++ [.option e.id false (.list vs)]) ++ [])) q rest := hr.trans (.option hto (.here _ _))
  obtain ⟨e1, e2, q1, x1, h1, rfl, _⟩ := Line.front hfront hl
  obtain ⟨e3, rfl, _⟩ := hreach.continues h.sized h.placesSized h1
  refine ⟨vs, rest, e0 ++ ep, e3 ++ e2, q, rfl, hlong, by simp, ?_, hshow⟩
  simpa using hreach

/-- `prog -v -l x -y -o 1 f`: `-y` is no registered option, so it belongs to the list of `-l`; `-o` ends it. -/
example : ((parser.parseArguments demoScan ("prog".toList :: ["-v", "-l", "x", "-y", "-o", "1", "f"].map String.toList)).1.atObj 4).bind
      (fun s => s.arg.toVector) = some ["x".toList, "-y".toList] ∧
    MetAt parser.sig parser.places [['-', 'v']] "-l".toList (["x", "-y", "-o", "1", "f"].map String.toList) ∧
    Uses parser.sig "-l".toList ⟨4, .infinite, 1⟩ ['l'] none :=
  ⟨by decide +kernel, parser_met _ _, .letter (ss := []) (c := 'l') ⟨'l', [], rfl, by decide⟩ (.bare (by decide))
      (by rintro ⟨h, _⟩; revert h; decide +kernel) (by simp) (by decide +kernel)⟩

/-- C38, positional lists. A positional list before `--` takes the longest run of tokens from its first word on
none of which has the form of a registered option, reading goes on after it, and the parser shows these values. -/
theorem C38_positional_list {scan : Str → Option D} {st : State D} {argv : List Str} (h : Ready scan st argv)
    {ts X : List Str} {tok : Str} {p : Place} {q : List Place} {e0 : List Event} (hf : Front (argv.drop 1) ts)
    (hr : Reaches st.sig st.places ts e0 (p :: q) (tok :: X)) (hw : WordTok tok) (hk : p.kind = .infinitePos)
    {evs : List Event} {err : Option Exn} (hl : Line st.sig st.places (argv.drop 1) evs err) :
    ∃ vs rest after, tok :: X = vs ++ rest ∧ Longest (OptionForm st.sig) vs rest ∧
      evs = e0 ++ .positional p.id (.list vs) :: after ∧
      Reaches st.sig st.places ts (e0 ++ [.positional p.id (.list vs)]) q rest ∧
      ((st.parseArguments scan argv).2 = .ok () → Shows st evs (st.parseArguments scan argv).1) := by
  have hshow := shows_of_line h hl
  obtain ⟨vs, rest, e, hlong⟩ := longest_exists (OptionForm st.sig) (tok :: X)
  have hreach := hr.trans (.word hw (.fill (by rw [e]; exact .many vs rest (.inr (.inr hk)) hlong)) (.here _ _))
  obtain ⟨e1, e2, q1, x1, h1, rfl, _⟩ := Line.front hf hl
  obtain ⟨e3, rfl, _⟩ := hreach.continues h.sized h.placesSized h1
  exact ⟨vs, rest, e3 ++ e2, e, hlong, by simp, hreach, hshow⟩

/-- C38, after `--`. A positional list takes all the tokens, and shows them. -/
theorem C38_list_after_end {scan : Str → Option D} {st : State D} {argv : List Str} (h : Ready scan st argv)
    {ts back X : List Str} {tok : Str} {p : Place} {q0 q : List Place} {e0 e1 : List Event} (hts : ∀ t ∈ ts, ¬EndTok t)
    (hargv : argv.drop 1 = ts ++ ['-', '-'] :: back) (hr : Reads st.sig st.places ts e0 q0 none)
    (hw : ReachesWords st.isStrict q0 back e1 (p :: q) (tok :: X)) (hk : p.kind = .infinitePos) :
    Line st.sig st.places (argv.drop 1) (e0 ++ (e1 ++ [.positional p.id (.list (tok :: X))])) none ∧
    ((st.parseArguments scan argv).2 = .ok () →
      Shows st (e0 ++ (e1 ++ [.positional p.id (.list (tok :: X))])) (st.parseArguments scan argv).1) := by
  suffices hl : Line st.sig st.places (argv.drop 1) (e0 ++ (e1 ++ [.positional p.id (.list (tok :: X))])) none from
    ⟨hl, C20_shows h hl⟩
  rw [hargv]
  refine .split hts hr (hw.reads (q2 := q) ?_)
  have : Takes (fun _ => False) p.arity p.kind ((tok :: X) ++ []) (.list (tok :: X)) [] :=
    .many _ _ (.inr (.inr hk)) ⟨fun _ _ h => h, fun t ht => by cases ht⟩
  rw [List.append_nil] at this
  exact .word (.fill this) (.nil _)

/-- `prog f -- x -o`: `rest` takes both tokens. -/
example : ((parser.parseArguments demoScan (["prog", "f", "--", "x", "-o"].map String.toList)).1.atObj 8).bind
      (fun s => s.arg.toVector) = some ["x".toList, "-o".toList] := by decide +kernel

/-! ### Concrete cases: instances -/

section
attribute [local irreducible] parser

theorem parser_says {ws : List String} (hw : decide (ws.length < 1000) = true) {evs : List Event} {err : Option Exn}
    (h : Reader.line parser.sig parser.places (ws.map String.toList) = (evs, err)) :
    Line parser.sig parser.places (("prog".toList :: ws.map String.toList).drop 1) evs err := (parser_words ws hw).says h

/-- C56: `-v --nope`. -/
example := C56_names_culprit (parser_words ["-v", "--nope"] (by decide +kernel)) parser_ownErrors
  (x := ⟨.parse, "nope".toList, "invalid option".toList⟩) (by decide +kernel) rfl

/-- C21: `-v f -- -q x`. -/
example := C21_end_marker (ts := ["-v".toList, "f".toList]) (back := ["-q".toList, "x".toList])
  (parser_words ["-v", "f", "--", "-q", "x"] (by decide +kernel)) (by decide +kernel)
  (parser_says (ws := ["-v", "f", "--", "-q", "x"]) (evs := [.option 2 false .nothing, .positional 1 (.single "f".toList),
    .positional 8 (.list ["-q".toList, "x".toList])]) (by decide +kernel) (by decide +kernel))
example := C21_options_unaffected (ts := ["-v".toList, "f".toList]) (back := ["-q".toList, "x".toList])
  (parser_words ["-v", "f", "--", "-q", "x"] (by decide +kernel)) (parser_words ["-v", "f"] (by decide +kernel)) (by decide +kernel)
  (by decide +kernel) (by decide +kernel) (argOf_mem parser 7) (by decide +kernel)

/-- C22: without the list `rest`, of `f -v x y` two words are surplus. -/
def noRest : State Unit := runOps demoScan parser [.remove ["rest".toList]]

theorem noRest_ready : Ready demoScan noRest ("prog".toList :: ["f", "-v", "x", "y"].map String.toList) :=
  ready_words _ ["f", "-v", "x", "y"] (by decide +kernel)

attribute [local irreducible] noRest

example := C22_surplus noRest_ready (noRest_ready.says (evs := [.positional 1 (.single "f".toList), .option 2 false .nothing,
  .extra "x".toList, .extra "y".toList]) (by decide +kernel)) (by decide +kernel)
/-- C22, C37: `f x y`. -/
example := C22_nothing_lost (parser_words ["f", "x", "y"] (by decide +kernel))
  (by
    intro t ht
    simp only [List.drop_succ_cons, List.drop_zero, List.map_cons, List.map_nil, List.mem_cons, List.not_mem_nil, or_false] at ht
    rcases ht with rfl | rfl | rfl <;> exact .inr (.inr ⟨_, [], rfl, by decide⟩))
  (parser_says (ws := ["f", "x", "y"]) (evs := [.positional 1 (.single "f".toList), .positional 8 (.list ["x".toList, "y".toList])])
    (by decide +kernel) (by decide +kernel))
example := C37_positional_order parserLine_ready parserLine_says

/-- C38: `-v -l x -y -o 1 f`. -/
example := C38_option_list (parser_words ["-v", "-l", "x", "-y", "-o", "1", "f"] (by decide +kernel)) (pre := [['-', 'v']])
  (tok := "-l".toList) (post := ["x", "-y", "-o", "1", "f"].map String.toList) (X := ["x", "-y", "-o", "1", "f"].map String.toList)
  (e := ⟨4, .infinite, 1⟩) (by decide +kernel) (parser_met _ _) ⟨by decide +kernel, .inl rfl⟩
  (.letter (ss := []) (c := 'l') ⟨'l', [], rfl, by decide⟩ (.bare (by decide))
      (by rintro ⟨h, _⟩; revert h; decide +kernel) (by simp) (by decide +kernel)) (.inl rfl)
  (parser_says (ws := ["-v", "-l", "x", "-y", "-o", "1", "f"]) (err := none) (evs := [.option 2 false .nothing,
    .option 4 false (.list ["x".toList, "-y".toList]), .option 0 false (.single "1".toList), .positional 1 (.single "f".toList)])
    (by decide +kernel) (by decide +kernel))

end

end BletArgs
