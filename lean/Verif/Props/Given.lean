import Verif.Lemmas.Given
/-
C91: the defaults of an argument matter only when the command line does not give its values.
-/
namespace BletArgs
open Spec
variable {D : Type}

theorem setDefaults_arguments {scan : Str → Option D} {st : State D} {ref : Nat} {s : Slot D} (hs : st.atObj ref = some s)
    (ds : List Str) :
    ∃ d t es, (step scan st (.defaults ref ds)).1 = { st with arguments := st.arguments.map fun u =>
        if u.node == s.node then { u with arg := s.arg.rebase d t ds es } else u } ∧
      (s.arg.nargs = 0 ∨ ds = [] → d = s.arg.dflt ∧ t = s.arg.argument ∧ es = s.arg.elems) ∧
      (SingleKind s.arg.type → s.arg.elems = [] → es = []) := by
  obtain ⟨d, t, es, e, h1, h2⟩ := defaults_rebase s.arg ds
  refine ⟨d, t, es, ?_, h1, h2⟩
  show (st.setDefaults ref ds).1 = _
  rw [setDefaults_eq hs, e]
  rfl

theorem rebased_mem {st : State D} {full : Prop} (hi : GInv full st) {ref : Nat} {s : Slot D} (hs : st.atObj ref = some s)
    (a : Argument D) :
    { s with arg := a } ∈ (st.arguments.map fun u => if u.node == s.node then ({ u with arg := a } : Slot D) else u) ∧
    ∀ u ∈ st.arguments, u.obj ≠ ref → u ∈ (st.arguments.map fun u => if u.node == s.node then { u with arg := a } else u) := by
  have hm := State.atObj_some hs
  refine ⟨List.mem_map.2 ⟨s, hm.1, by simp⟩, fun u hu hne => List.mem_map.2 ⟨u, hu, ?_⟩⟩
  rw [if_neg]
  intro e
  obtain rfl := eq_of_node hi hm.1 hu (by simpa using e)
  exact hne hm.2

/-- C91, the words. After `defaults(…)`, whatever the values, the parser stays ready, and reads every command line in the
same way: the same occurrences, values and surplus words, the same error if there is one. -/
theorem C91_reading {scan : Str → Option D} {st : State D} {argv : List Str} (h : Ready scan st argv) {ref : Nat} {s : Slot D}
    (hs : st.atObj ref = some s) {ds : List Str} (hd : (step scan st (.defaults ref ds)).2 = .ok ()) :
    Ready scan (step scan st (.defaults ref ds)).1 argv ∧
    (∀ evs err, Line (step scan st (.defaults ref ds)).1.sig (step scan st (.defaults ref ds)).1.places (argv.drop 1) evs err ↔
      Line st.sig st.places (argv.drop 1) evs err) ∧
    ∀ evs x, Line st.sig st.places (argv.drop 1) evs (some x) →
      ((step scan st (.defaults ref ds)).1.parseArguments scan argv).2 = .throw x ∧
      (st.parseArguments scan argv).2 = .throw x := by
  have hr : ∃ n, Survives scan Any n (step scan st (.defaults ref ds)).1 := survives_step h.history _ (by rw [hd]; rfl)
  obtain ⟨d, t, es, e, _⟩ := setDefaults_arguments (scan := scan) hs ds
  have hm := State.atObj_some hs
  have hi := h.inv
  generalize (step scan st (.defaults ref ds)).1 = r at *
  subst e
  have hall : ∀ u ∈ st.arguments.map (fun u => if u.node == s.node then ({ u with arg := s.arg.rebase d t ds es } : Slot D) else u),
      ∃ v ∈ st.arguments, u.arg.type = v.arg.type ∧ u.arg.nargs = v.arg.nargs := by
    intro u hu
    obtain ⟨v, hv, rfl⟩ := List.mem_map.1 hu
    split
    · exact ⟨s, hm.1, rfl, rfl⟩
    · exact ⟨v, hv, rfl, rfl⟩
  have h1 : Ready scan ({ st with arguments := st.arguments.map fun u =>
        if u.node == s.node then { u with arg := s.arg.rebase d t ds es } else u } : State D) argv := by
    refine ⟨hr, ?_, ?_, h.help, h.program⟩
    · intro u hu
      obtain ⟨v, hv, e1, e2⟩ := hall u hu
      have := h.settled v hv
      unfold Settled Argument.isPositional at this ⊢
      rw [e1, e2]; exact this
    · intro u hu
      obtain ⟨v, hv, _, e2⟩ := hall u hu
      rw [e2]; exact h.small v hv
  have same : ∀ u ∈ st.arguments,
      ((if u.node == s.node then ({ u with arg := s.arg.rebase d t ds es } : Slot D) else u).entry = u.entry ∧
       (if u.node == s.node then ({ u with arg := s.arg.rebase d t ds es } : Slot D) else u).place = u.place ∧
       (if u.node == s.node then ({ u with arg := s.arg.rebase d t ds es } : Slot D) else u).arg.isPositional =
          u.arg.isPositional) ∧
       (if u.node == s.node then ({ u with arg := s.arg.rebase d t ds es } : Slot D) else u).node = u.node := by
    intro u hu
    split
    · rename_i e
      obtain rfl := eq_of_node hi hm.1 hu (by simpa using e)
      exact ⟨⟨rfl, rfl, rfl⟩, rfl⟩
    · exact ⟨⟨rfl, rfl, rfl⟩, rfl⟩
  have e1 : ({ st with arguments := st.arguments.map fun u =>
        if u.node == s.node then { u with arg := s.arg.rebase d t ds es } else u } : State D).sig = st.sig := by
    unfold State.sig
    congr 1
    funext name
    congr 1
    funext n
    unfold State.atNode
    simp only
    generalize st.arguments = l at same
    induction l with
    | nil => rfl
    | cons u l ih =>
      obtain ⟨⟨g1, _, _⟩, g4⟩ := same u (by simp)
      have ih := ih fun v hv => same v (by simp [hv])
      simp only [List.map_cons, List.find?_cons, g4]
      split
      · simp only [Option.map_some, g1]
      · exact ih
  have e2 : ({ st with arguments := st.arguments.map fun u =>
        if u.node == s.node then { u with arg := s.arg.rebase d t ds es } else u } : State D).places = st.places := by
    unfold State.places
    simp only
    generalize st.arguments = l at same
    induction l with
    | nil => rfl
    | cons u l ih =>
      obtain ⟨⟨_, g2, g3⟩, _⟩ := same u (by simp)
      have ih := ih fun v hv => same v (by simp [hv])
      simp only [List.map_cons, List.filter_cons, g3]
      split
      · simp only [List.map_cons, g2, ih]
      · exact ih
  refine ⟨h1, fun evs err => by rw [e1, e2], fun evs x hl => ⟨?_, (parse_of_line h hl).1 x rfl⟩⟩
  exact (parse_of_line h1 (by rw [e1, e2]; exact hl)).1 x rfl

/-- C91, the rest of the parser. When a command line is parsed after `defaults(…)`, and would have been parsed without, every
other argument ends as it would have without, as do the additional arguments and the variables this argument does not write
to. -/
theorem C91_others {scan : Str → Option D} {st : State D} {argv : List Str} (h : Ready scan st argv) {ref : Nat} {s : Slot D}
    (hs : st.atObj ref = some s) {ds : List Str} (hd : (step scan st (.defaults ref ds)).2 = .ok ())
    (hok : (st.parseArguments scan argv).2 = .ok ())
    (hok' : ((step scan st (.defaults ref ds)).1.parseArguments scan argv).2 = .ok ()) :
    let r := (st.parseArguments scan argv).1
    let r' := ((step scan st (.defaults ref ds)).1.parseArguments scan argv).1
    (∀ t ∈ st.arguments, t.obj ≠ ref → r'.atObj t.obj = r.atObj t.obj) ∧
    r'.additional = r.additional ∧
    (∀ k, (∀ d, s.arg.dest = some d → d.slot ≠ k) → writesTo k r'.destLog = writesTo k r.destLog) := by
  obtain ⟨h1, h2, _⟩ := C91_reading h hs hd
  obtain ⟨evs, hl, _⟩ := parse_ok h hok
  have hl' := (h2 evs none).2 hl
  have hm := State.atObj_some hs
  have hi := h.inv
  obtain ⟨d, x, es, e, _⟩ := setDefaults_arguments (scan := scan) hs ds
  intro r r'
  refine ⟨fun t ht hne => ?_, ?_, fun k hk => ?_⟩
  · rw [parse_atObj h hl hok ht, parse_atObj h1 hl' hok' (by rw [e]; exact (rebased_mem hi hs _).2 t ht hne)]
  · show (State.parseArguments ..).1.additional = (State.parseArguments ..).1.additional
    rw [(parse_result h hl hok).2.2, (parse_result h1 hl' hok').2.2, e]
  · show writesTo k (State.parseArguments ..).1.destLog = writesTo k (State.parseArguments ..).1.destLog
    rw [(parse_result h hl hok).2.2, (parse_result h1 hl' hok').2.2, e]
    unfold writesTo
    simp only [List.filter_append, List.flatMap_map, List.filter_flatMap]
    congr 1
    refine congrArg List.flatten (List.map_congr_left fun t ht => ?_)
    split
    · rename_i e
      obtain rfl := eq_of_node hi hm.1 ht (by simpa using e)
      have none_of : ∀ a : Argument D, a.dest = t.arg.dest →
          ((a.afterTokens t.node evs).finish scan).2.1.filter (fun w => w.slot == k) = [] := by
        intro a ha
        rw [List.filter_eq_nil_iff]
        intro w hw
        unfold Argument.finish at hw
        have hd1 := runValid_dest (a.afterTokens t.node evs)
        generalize (a.afterTokens t.node evs).runValid = x at hw hd1
        obtain ⟨b, x⟩ := x
        cases x with
        | ok u =>
          simp only at hw hd1
          obtain ⟨d, e1, e2⟩ := toDest_slot _ w hw
          rw [toNumber_dest, hd1, show (a.afterTokens t.node evs).dest = a.dest from
            (congrArg (fun x : Argument D => x.dest) (afterTokens_config t.node evs a) :), ha] at e1
          have := hk d e1
          rw [e2]
          simpa using this
        | _ => cases hw
      exact (none_of (t.arg.rebase d x ds es) rfl).trans (none_of t.arg rfl).symm
    · rfl

theorem supplied_near {st st' : State D} {full : Prop} (hi : GInv full st) (hi' : GInv full st') {s : Slot D} (hs : s ∈ st.arguments)
    {d t : Str} {ds : List Str} {es : List (Elem D)} (hs' : { s with arg := s.arg.rebase d t ds es } ∈ st'.arguments)
    (h0 : s.arg.nargs = 0 ∨ ds = [] → d = s.arg.dflt ∧ t = s.arg.argument ∧ es = s.arg.elems)
    (h1 : SingleKind s.arg.type → es = [])
    {ts : List Str} {evs : List Event} {err : Option Exn} (hl : Line st.sig st.places ts evs err)
    (hl' : Line st'.sig st'.places ts evs err)
    (hsup : Supplied s.arg.type s.arg.nargs (uses s.node evs) (fills s.node evs))
    (hplain : SingleKind s.arg.type → s.arg.elems = [])
    (hdest : ¬SingleKind s.arg.type → 0 < s.arg.nargs → ∀ x, s.arg.dest = some x → x.kind ≠ .scalar) :
    Near (s.arg.afterTokens s.node evs) ((s.arg.rebase d t ds es).afterTokens s.node evs) := by
  by_cases hz : s.arg.nargs = 0 ∨ ds = []
  · obtain ⟨rfl, rfl, rfl⟩ := h0 hz
    rw [show s.arg.rebase s.arg.dflt s.arg.argument ds s.arg.elems = s.arg.relist ds from rfl, afterTokens_relist]
    exact ⟨_, ds, _, rfl, .inl rfl⟩
  rw [not_or] at hz
  rcases hsup with hsup | ⟨hk, hne⟩ | ⟨hk, hne⟩ | ⟨hr, hkept⟩
  · exact absurd hsup hz.1
  · -- one value
    have hp : s.arg.isPositional = false := by unfold Argument.isPositional; rw [hk]; rfl
    rw [afterTokens_option hi hs hp hl, afterTokens_option hi' hs' hp hl', reset_rebase]
    obtain ⟨_, hfit⟩ := option_uses hi hs hp hl
    have hf : ∀ u ∈ uses s.node evs, ValuesFit s.arg.reset.nargs s.arg.reset.type u.2 := fun u hu => (hfit u hu).1
    have x1 := h1 (.inl hk)
    have x2 := hplain (.inl hk)
    subst x1
    generalize uses s.node evs = us at *
    obtain ⟨t', es', e⟩ := occurs_rebase s.arg.reset d d ds (s.arg.rebase d t ds []).reset.elems us
    have y1 := occurs_single_elems (a := s.arg.reset) hk hf
    have y2 := occurs_single_elems (a := s.arg.reset.rebase d d ds (s.arg.rebase d t ds []).reset.elems) hk hf
    have z : t' = (s.arg.reset.occurs us).argument := by
      obtain ⟨us, u, rfl⟩ : ∃ l x, us = l ++ [x] := ⟨us.dropLast, us.getLast hne, (List.dropLast_concat_getLast hne).symm⟩
      obtain ⟨att, vals⟩ := u
      have hv := hf (att, vals) (by simp)
      obtain ⟨v, g1, g2⟩ := occurs_simple (a := s.arg.reset) (us := us) (att := att) hk hv
      obtain ⟨w, g3, g4⟩ := occurs_simple (a := s.arg.reset.rebase d d ds (s.arg.rebase d t ds []).reset.elems) (us := us)
        (att := att) hk hv
      rw [g1] at g3
      cases g3
      rw [g2, ← g4, e]
      rfl
    rw [e] at y2
    rw [e]
    refine ⟨d, ds, t', ?_, .inl z⟩
    have w1 : es' = [] := y2
    have w2 : (s.arg.reset.occurs us).elems = [] := by rw [y1]; simp [Argument.reset, x2]
    unfold Argument.rebase
    rw [w1, ← w2]
  · -- one word
    have hp : s.arg.isPositional = true := by unfold Argument.isPositional; rw [hk]; rfl
    have x1 := h1 (.inr hk)
    have x2 := hplain (.inr hk)
    subst x1
    rcases afterTokens_positional hi hs hp hl with ⟨e, _⟩ | ⟨vals, e, hv, g1⟩
    · exact absurd e hne
    rcases afterTokens_positional hi' hs' hp hl' with ⟨e', _⟩ | ⟨vals', e', _, g2⟩
    · exact absurd e' hne
    simp only at e' g2
    rw [e] at e'
    cases e'
    rw [g1, g2]
    have : ∃ v, vals = .single v := by
      rw [hk] at hv
      generalize hk' : Ty.pos = k at hv
      cases hv with
      | single v => exact ⟨v, rfl⟩
      | nothing h => subst hk'; simp [Valueless] at h
      | _ => exfalso; grind
    obtain ⟨v, rfl⟩ := this
    refine ⟨d, ds, v, ?_, .inl rfl⟩
    simp [Argument.fill, Argument.reset, Argument.rebase, x2]
  · -- values that replace the elements
    have hp : s.arg.isPositional = false := by
      obtain ⟨_, hr⟩ := hr
      unfold Argument.isPositional
      rcases hr with e | e | ⟨e | e | e | e, _⟩ <;> rw [e] <;> rfl
    have hsk : ¬SingleKind s.arg.type := by
      obtain ⟨_, hr⟩ := hr
      unfold SingleKind
      rcases hr with e | e | ⟨e | e | e | e, _⟩ <;> rw [e] <;> simp
    rw [afterTokens_option hi hs hp hl, afterTokens_option hi' hs' hp hl', reset_rebase]
    obtain ⟨_, hfit⟩ := option_uses hi hs hp hl
    have hf : ∀ u ∈ uses s.node evs, ValuesFit s.arg.reset.nargs s.arg.reset.type u.2 := fun u hu => (hfit u hu).1
    generalize uses s.node evs = us at *
    obtain ⟨t', es', e⟩ := occurs_rebase s.arg.reset d d ds (s.arg.rebase d t ds es).reset.elems us
    have y := replaced_elems (a := s.arg.reset) (b := s.arg.reset.rebase d d ds (s.arg.rebase d t ds es).reset.elems)
      rfl rfl rfl rfl hr hf
    have ys := replaced_some (a := s.arg.reset) rfl hr hf hkept
    have yc := occurs_config s.arg.reset us
    rw [e] at y ⊢
    have y : es' = (s.arg.reset.occurs us).elems := y
    subst y
    refine ⟨d, ds, t', rfl, .inr ⟨ys, ?_, ?_⟩⟩
    · rw [occurs_type]; exact hsk
    · intro x hx
      rw [show (s.arg.reset.occurs us).dest = s.arg.dest from (congrArg (fun x : Argument D => x.dest) yc :)] at hx
      exact hdest hsk (Nat.pos_of_ne_zero hz.1) x hx

/-- C91, values given. When the command line gives the values of the argument (it takes no value; it takes one and occurs; it
is a list option that occurs with a value, in a form that replaces what was there), its defaults make no difference: the call
ends in the same way – with the same exception, if any, with the same calls of validators and callbacks – and leaves the same
parser, except for the default texts of this argument themselves. (Provided the help option does not occur: the usage shows
default texts. And provided no stale elements are left in an argument with one value, and no variable for a single value is the
destination of a list, as it would be written the text of the argument as a whole, its default text.) -/
theorem C91_given {scan : Str → Option D} {st : State D} {argv : List Str} (h : Ready scan st argv) {ref : Nat} {s : Slot D}
    (hs : st.atObj ref = some s) {ds : List Str} (hd : (step scan st (.defaults ref ds)).2 = .ok ())
    {evs : List Event} (hl : Line st.sig st.places (argv.drop 1) evs none)
    (hhelp : ∃ t ∈ st.arguments, st.helpOption = some t.obj ∧ ¬Occurs t.node evs)
    (hsup : Supplied s.arg.type s.arg.nargs (uses s.node evs) (fills s.node evs))
    (hplain : SingleKind s.arg.type → s.arg.elems = [])
    (hdest : ¬SingleKind s.arg.type → 0 < s.arg.nargs → ∀ x, s.arg.dest = some x → x.kind ≠ .scalar) :
    let r := st.parseArguments scan argv
    let r' := (step scan st (.defaults ref ds)).1.parseArguments scan argv
    r'.2 = r.2 ∧ r'.1.destLog = r.1.destLog ∧ r'.1.undefaulted ref = r.1.undefaulted ref := by
  obtain ⟨h1, h2, _⟩ := C91_reading h hs hd
  have hl' := (h2 evs none).2 hl
  have hm := State.atObj_some hs
  have hi := h.inv
  obtain ⟨d, t, es, e, e0, e1⟩ := setDefaults_arguments (scan := scan) hs ds
  intro r r'
  show (State.parseArguments ..).2 = (State.parseArguments ..).2 ∧ (State.parseArguments ..).1.destLog = (State.parseArguments ..).1.destLog ∧
    (State.parseArguments ..).1.undefaulted ref = (State.parseArguments ..).1.undefaulted ref
  rw [parse_seen h hl, parse_seen h1 hl']
  have hs' := (rebased_mem hi hs (s.arg.rebase d t ds es)).1
  have hnear := supplied_near (st' := (step scan st (.defaults ref ds)).1) hi h1.inv hm.1 (by rw [e]; exact hs') e0
    (fun hk => e1 hk (hplain hk)) hl hl' hsup hplain hdest
  have tw : Twins ref (st.seen argv evs).arguments ((step scan st (.defaults ref ds)).1.seen argv evs).arguments := by
    rw [e]
    unfold State.seen
    simp only [List.map_map]
    refine twins_map fun u hu => ?_
    simp only [Function.comp_apply]
    split
    · rename_i eq
      obtain rfl := eq_of_node hi hm.1 hu (by simpa using eq)
      exact ⟨rfl, rfl, hnear, fun hne => absurd hm.2 hne⟩
    · exact ⟨rfl, rfl, near_refl _, fun _ => rfl⟩
  have hrest : (step scan st (.defaults ref ds)).1.seen argv evs = { st.seen argv evs with
      arguments := ((step scan st (.defaults ref ds)).1.seen argv evs).arguments } := by
    rw [e]
    rfl
  obtain ⟨hb, hbm, hbo, hbn⟩ := hhelp
  have hoff : (st.seen argv evs).optionSeen (st.seen argv evs).helpOption = some false := by
    rw [show (st.seen argv evs).helpOption = some hb.obj from hbo, seen_optionSeen hi argv evs hbm]
    congr 1
    rw [← Bool.not_eq_true]; exact fun e => hbn ((occurs_iff hi hbm hl).1 e)
  generalize (step scan st (.defaults ref ds)).1.seen argv evs = y at tw hrest ⊢
  generalize st.seen argv evs = x at tw hrest hoff ⊢
  have q := twins_seen tw
  generalize y.arguments = l' at tw hrest
  subst hrest
  unfold State.afterLoop
  rw [q, q, hoff]
  simp only
  cases hv : x.optionSeen x.versionOption with
  | none => exact ⟨rfl, rfl, by unfold State.undefaulted; simp only; rw [twins_undefaulted tw]⟩
  | some b =>
    cases b with
    | true =>
      simp only
      split
      · exact ⟨rfl, rfl, by unfold State.undefaulted; simp only; rw [twins_undefaulted tw]⟩
      · have hobj : ∀ {l l' : List (Slot D)}, Twins ref l l' → l'.map (·.obj) = l.map (·.obj) ∧
            l'.flatMap (fun s => s.arg.ownedValid) = l.flatMap (fun s => s.arg.ownedValid) := by
          intro l l' h
          induction h with
          | nil => exact ⟨rfl, rfl⟩
          | cons _ ho near _ _ ih =>
            obtain ⟨_, _, _, en, _⟩ := near
            simp only [List.map_cons, List.flatMap_cons, ih, ho]
            rw [en]
            exact ⟨trivial, rfl⟩
        obtain ⟨o1, o2⟩ := hobj tw
        have : ({ x with arguments := l' } : State D).clear = x.clear := by
          unfold State.clear State.deleteAll
          simp only [o1, o2]
        rw [this]
        simp only [and_self]
    | false =>
      simp only
      unfold State.finishParse
      simp only
      rw [twins_missing tw]
      obtain ⟨t1, t2⟩ := twins_finishAll scan tw
      split
      · exact ⟨rfl, rfl, by unfold State.undefaulted; simp only; rw [twins_undefaulted tw]⟩
      · simp only
        rw [t2]
        exact ⟨rfl, rfl, by unfold State.undefaulted; simp only; rw [twins_undefaulted t1]⟩

theorem defaults_reset (a : Argument D) (hok : a.defaultsConstructor.2 = .ok ()) (hn : 0 < a.nargs) (hd : a.defaults ≠ [])
    (ht : TakesValues a.type) (h1 : (a.type = .pos ∨ a.type = .simple) → a.nargs = 1) :
    a.defaultsConstructor.1.reset.toVector = some a.defaults ∧
    (Grouped a.type → ∃ gs, a.defaultsConstructor.1.reset.toVecVec = some gs ∧ gs.flatten = a.defaults ∧
      ∀ g ∈ gs, g.length = a.nargs) ∧ (SingleKind a.type → a.defaultsConstructor.1.reset.elems = []) := by
  unfold Argument.defaultsConstructor at hok ⊢
  have hc : (decide (a.nargs > 0) && decide (a.defaults.length > 0)) = true := by
    have := List.length_pos_iff.2 hd
    simp; omega
  rw [if_pos hc] at hok ⊢
  obtain ⟨argument, dflt, num, elems, names, type, isExist, isRequired, count, nargs, help, metavar, valid, vd, action,
    defaults, dest⟩ := a
  simp only at hd hn h1 ht
  have hlist : ∀ l : List Str, (l.map dfltElem : List (Elem D)).map (fun e =>
      ({ e with argument := e.dflt, num := none, subs := e.subs.map fun x => { x with argument := x.dflt, num := none } } : Elem D)) =
      l.map dfltElem := by
    intro l
    rw [List.map_map]
    rfl
  have hgroup : ∀ l : List (List Str), ((l.map dfltGroup : List (Elem D)).map (fun e =>
      ({ e with argument := e.dflt, num := none, subs := e.subs.map fun x => { x with argument := x.dflt, num := none } } : Elem D))).map
        (fun e => e.subs.map (·.argument)) = l := by
    intro l
    rw [List.map_map, List.map_map]
    conv => rhs; rw [← List.map_id l]
    refine List.map_congr_left fun g _ => ?_
    simp [dfltGroup, Function.comp_def]
  cases type <;> simp only at hok ⊢
  case pos | simple =>
    have h1 : nargs = 1 := h1 (by simp)
    subst h1
    split at hok
    · cases hok
    · rename_i hlen
      rw [if_neg hlen]
      have hlen : defaults.length = 1 := by simpa using hlen
      obtain ⟨x, rfl⟩ := List.length_eq_one_iff.1 hlen
      exact ⟨rfl, by simp [Grouped], fun _ => rfl⟩
  case numberPos | number =>
    split at hok
    · cases hok
    · rename_i hlen
      rw [if_neg hlen]
      refine ⟨?_, by simp [Grouped], by simp [SingleKind]⟩
      unfold Argument.toVector Argument.reset
      simp only [hlist]
      simp [dfltElem, Function.comp_def]
  case infinitePos | multi | infinite | multiInfinite =>
    refine ⟨?_, by simp [Grouped], by simp [SingleKind]⟩
    unfold Argument.toVector Argument.reset
    simp only [hlist]
    simp [dfltElem, Function.comp_def]
  case infiniteNumberPos | multiNumber | multiNumberInfinite =>
    split at hok
    · cases hok
    · rename_i hlen
      rw [if_neg hlen]
      have hdv : nargs ∣ defaults.length := Nat.dvd_of_mod_eq_zero (by simpa using hlen)
      have hfl := groupsOf_flatten hn defaults hdv
      have hg := hgroup (groupsOf nargs defaults)
      refine ⟨?_, fun _ => ⟨_, ?_, hfl⟩, by simp [SingleKind]⟩
      · unfold Argument.toVector Argument.reset
        simp only
        rw [List.flatMap_def, hg, hfl.1]
      · unfold Argument.toVecVec Argument.reset
        simp only
        rw [hg]
  all_goals simp [TakesValues] at ht

/-- C91, values not given. An argument that does not occur reads, after a parse that returns, the values of the last
`defaults(…)` – whatever it held before: as a list; in groups of `nargs` if it takes groups; and as a string if it takes one
value. -/
theorem C91_absent {scan : Str → Option D} {st : State D} {argv : List Str} (h : Ready scan st argv) {ref : Nat} {s : Slot D}
    (hs : st.atObj ref = some s) {ds : List Str} (hd : (step scan st (.defaults ref ds)).2 = .ok ())
    (hn : 0 < s.arg.nargs) (hne : ds ≠ [])
    {evs : List Event} (hl : Line st.sig st.places (argv.drop 1) evs none) (habs : ¬Occurs s.node evs)
    (hok : ((step scan st (.defaults ref ds)).1.parseArguments scan argv).2 = .ok ()) :
    ∃ s', ((step scan st (.defaults ref ds)).1.parseArguments scan argv).1.atObj ref = some s' ∧ s'.arg.isExist = false ∧
      s'.arg.toVector = some ds ∧ (GroupKind s.arg.type → ∃ gs, s'.arg.toVecVec = some gs ∧ gs.flatten = ds ∧ ∀ g ∈ gs, g.length = s.arg.nargs) ∧
      (SingleKind s.arg.type → ds = [s'.arg.getString]) := by
  obtain ⟨h1, h2, _⟩ := C91_reading h hs hd
  have hm := State.atObj_some hs
  have hi := h.inv
  have hl' := (h2 evs none).2 hl
  have hset := h.settled s hm.1
  obtain ⟨ht, hone⟩ := hset.takes hn
  have e : (step scan st (.defaults ref ds)).1 = { st with arguments := st.arguments.map fun u => if u.node == s.node then
      { u with arg := ({ s.arg with defaults := ds } : Argument D).defaultsConstructor.1 } else u } := by
    show (st.setDefaults ref ds).1 = _
    rw [setDefaults_eq hs]
    rfl
  have hd' : ({ s.arg with defaults := ds } : Argument D).defaultsConstructor.2 = .ok () := by
    have : (st.setDefaults ref ds).2 = .ok () := hd
    rwa [setDefaults_eq hs] at this
  have key := defaults_reset _ hd' hn hne ht hone
  have hty : ({ s.arg with defaults := ds } : Argument D).defaultsConstructor.1.type = s.arg.type :=
    (defaultsConstructor_frame _).2.1
  have hmem := (rebased_mem hi hs ({ s.arg with defaults := ds } : Argument D).defaultsConstructor.1).1
  have r := absent_result h1 hl' hok (s := { s with arg := ({ s.arg with defaults := ds } : Argument D).defaultsConstructor.1 })
    (by rw [e]; exact hmem) habs
  simp only at r
  rw [hm.2] at r
  generalize ({ s.arg with defaults := ds } : Argument D).defaultsConstructor.1 = a at *
  have hv := toNumber_vectors scan a.reset
  refine ⟨_, r, ?_, ?_, ?_, ?_⟩
  · simp only; rw [(toNumber_marks scan _).1]; rfl
  · simp only; rw [hv.1]; exact key.1
  · intro hg
    simp only
    rw [hv.2]
    exact key.2.1 (by unfold GroupKind at hg; unfold Grouped; grind)
  · intro hk
    simp only
    rw [toNumber_getString]
    have := key.1
    have hel := key.2.2 hk
    unfold Argument.toVector at this
    unfold Argument.getString
    rw [show a.reset.type = s.arg.type from hty] at this ⊢
    rcases hk with hk | hk <;> rw [hk] at this ⊢ <;> simp only [Option.some.injEq, hel, List.isEmpty_nil, if_true] at this ⊢ <;>
      exact this.symm

theorem defaults_list (a : Argument D) (hok : a.defaultsConstructor.2 = .ok ()) (hn : 0 < a.nargs) (hd : a.defaults ≠ [])
    (ht : ListKind a.type) : a.defaultsConstructor.1.elems = a.defaults.map dfltElem := by
  unfold Argument.defaultsConstructor at hok ⊢
  have hc : (decide (a.nargs > 0) && decide (a.defaults.length > 0)) = true := by
    have := List.length_pos_iff.2 hd
    simp; omega
  rw [if_pos hc] at hok ⊢
  rcases ht with ht | ht | ht | ht | ht | ht <;> simp only [ht] at hok ⊢ <;> split at hok <;> first | cases hok | skip
  all_goals
    rename_i hlen
    rw [if_neg hlen]

/-- C91, values behind the defaults. A positional list, or an accumulating list option whose first occurrence has the form
`-oVALUE`, holds after the call the values of the last `defaults(…)`, and then the values given (in the order of the command
line; if there is no validator). -/
theorem C91_behind {scan : Str → Option D} {st : State D} {argv : List Str} (h : Ready scan st argv) {ref : Nat} {s : Slot D}
    (hs : st.atObj ref = some s) {ds : List Str} (hd : (step scan st (.defaults ref ds)).2 = .ok ())
    (hn : 0 < s.arg.nargs) (hne : ds ≠ [])
    {evs : List Event} (hl : Line st.sig st.places (argv.drop 1) evs none) (ho : Occurs s.node evs)
    (hb : Behind s.arg.type (uses s.node evs)) (hv : s.arg.valid = none)
    (hok : ((step scan st (.defaults ref ds)).1.parseArguments scan argv).2 = .ok ()) :
    ∃ s', ((step scan st (.defaults ref ds)).1.parseArguments scan argv).1.atObj ref = some s' ∧ s'.arg.isExist = true ∧
      s'.arg.toVector = some (ds ++
        ((uses s.node evs).flatMap (fun u => u.2.flat) ++ (fills s.node evs).flatMap Values.flat)) := by
  obtain ⟨h1, h2, _⟩ := C91_reading h hs hd
  have hm := State.atObj_some hs
  have hi := h.inv
  have hl' := (h2 evs none).2 hl
  have hlk : ListKind s.arg.type := by
    unfold Behind at hb
    unfold ListKind
    rcases hb with e | e | ⟨e | e, _⟩ <;> rw [e] <;> simp
  have e : (step scan st (.defaults ref ds)).1 = { st with arguments := st.arguments.map fun u => if u.node == s.node then
      { u with arg := ({ s.arg with defaults := ds } : Argument D).defaultsConstructor.1 } else u } := by
    show (st.setDefaults ref ds).1 = _
    rw [setDefaults_eq hs]
    rfl
  have hd' : ({ s.arg with defaults := ds } : Argument D).defaultsConstructor.2 = .ok () := by
    have : (st.setDefaults ref ds).2 = .ok () := hd
    rwa [setDefaults_eq hs] at this
  have hold := defaults_list _ hd' hn hne hlk
  obtain ⟨hnm, hty, _, _, _, hvv, _⟩ := defaultsConstructor_frame ({ s.arg with defaults := ds } : Argument D)
  have hmem := (rebased_mem hi hs ({ s.arg with defaults := ds } : Argument D).defaultsConstructor.1).1
  obtain ⟨s', g1, g2, g3, _, g5⟩ := (C20_shows h1 hl' hok).1
    ({ s with arg := ({ s.arg with defaults := ds } : Argument D).defaultsConstructor.1 } : Slot D) (by rw [e]; exact hmem)
  simp only at g1 g2 g3 g5
  rw [hm.2] at g1
  refine ⟨s', g1, g3.2 ho, ?_⟩
  simp only at hty hvv hold
  generalize ({ s.arg with defaults := ds } : Argument D).defaultsConstructor.1 = a at *
  have hk : ¬Valueless a.type := by
    rw [hty]
    unfold Behind at hb
    rcases hb with e | e | ⟨e | e, _⟩ <;> rw [e] <;> simp [Valueless]
  have g6 := (g5 ho hk).1
  rw [hvv, hv] at g6
  have g7 : s'.arg.toVector = _ := g6
  rw [g7]
  congr 1
  have hold : ∀ b : Argument D, b.elems = a.elems → b.oldStrings = ds := by
    intro b hb'
    simp [Argument.oldStrings, hb', hold, dfltElem, Function.comp_def]
  unfold Argument.given
  rcases hb with e | e | ⟨e, hu⟩
  rotate_left 2
  · have hp : s.arg.isPositional = false := by
      unfold Argument.isPositional
      rcases e with e | e <;> rw [e] <;> rfl
    have hnf : fills s.node evs = [] := by
      cases hf : fills s.node evs with
      | nil => rfl
      | cons v l => exact absurd rfl ((option_uses hi hm.1 hp hl).1 _ v (mem_fills.1 (by rw [hf]; simp)))
    rcases e with e | e <;> simp only [hty, e] <;> rw [if_pos hu, hold _ rfl, hnf] <;> simp
  all_goals
    have hp : s.arg.isPositional = true := by unfold Argument.isPositional; rw [e]; rfl
    have hnu : uses s.node evs = [] := by
      cases hf : uses s.node evs with
      | nil => rfl
      | cons u l => exact absurd rfl ((positional_fills hi hm.1 hp hl).1 _ u.1 u.2 (mem_uses.1 (by rw [hf]; simp)))
    simp only [hty, e]
    rw [hold _ rfl, hnu]
    simp

/-! ### The hypotheses are met by concrete cases -/

section
attribute [local irreducible] parser parserLine parserSays

def dflts (l : List String) : List Str := l.map String.toList

example := C91_reading parserLine_ready (argOf_at parser 4 (by decide +kernel)) (ds := dflts ["p", "q"]) (by decide +kernel)
example := (C91_reading (parser_words ["-v", "--nope"] (by decide +kernel)) (argOf_at parser 4 (by decide +kernel))
  (ds := dflts ["p", "q"]) (by decide +kernel)).2.2
  _ _ (parser_says (ws := ["-v", "--nope"]) (evs := [.option 2 false .nothing])
    (err := some ⟨.parse, "nope".toList, "invalid option".toList⟩) (by decide +kernel) (by decide +kernel))
example := C91_others parserLine_ready (argOf_at parser 8 (by decide +kernel)) (ds := dflts ["p", "q"]) (by decide +kernel)
  parserLine_ok (by decide +kernel)
instance (k : Ty) : Decidable (SingleKind k) := by unfold SingleKind; exact inferInstance

theorem notScalar {o : Option Dest} (h : o.map (·.kind) ≠ some .scalar) : ∀ x, o = some x → x.kind ≠ .scalar := by
  rintro x rfl e
  exact h (by simp [e])

theorem parser_no_help : ∃ t ∈ parser.arguments, parser.helpOption = some t.obj ∧ ¬Occurs t.node parserSays :=
  ⟨_, (State.atObj_some (argOf_at parser 9 (by decide +kernel))).1, by decide +kernel, by decide +kernel⟩
/-- `-l x y`; `-a c … -ad`; the single positional `file`; the single option `-o`; `-v`, which takes no value. -/
example := C91_given parserLine_ready (argOf_at parser 4 (by decide +kernel)) (ds := dflts ["p", "q"]) (by decide +kernel)
  parserLine_says parser_no_help (by decide +kernel) (by decide +kernel) (fun _ _ => notScalar (by decide +kernel))
example := C91_given parserLine_ready (argOf_at parser 5 (by decide +kernel)) (ds := dflts ["p", "q"]) (by decide +kernel)
  parserLine_says parser_no_help (by decide +kernel) (by decide +kernel) (fun _ _ => notScalar (by decide +kernel))
example := C91_given parserLine_ready (argOf_at parser 1 (by decide +kernel)) (ds := dflts ["p"]) (by decide +kernel)
  parserLine_says parser_no_help (by decide +kernel) (by decide +kernel) (fun _ _ => notScalar (by decide +kernel))
example := C91_given parserLine_ready (argOf_at parser 0 (by decide +kernel)) (ds := dflts ["p"]) (by decide +kernel)
  parserLine_says parser_no_help (by decide +kernel) (by decide +kernel) (fun _ _ => notScalar (by decide +kernel))
example := C91_given parserLine_ready (argOf_at parser 2 (by decide +kernel)) (ds := dflts ["p", "q"]) (by decide +kernel)
  parserLine_says parser_no_help (by decide +kernel) (by decide +kernel) (fun _ _ => notScalar (by decide +kernel))
/-- `-v f`: neither `-l`, nor the groups of `-g`, nor `-o` occur. -/
example := C91_absent (parser_words ["-v", "f"] (by decide +kernel)) (argOf_at parser 4 (by decide +kernel)) (ds := dflts ["p", "q"])
  (by decide +kernel) (by decide +kernel) (by decide +kernel) shortLine_says (by decide +kernel) (by decide +kernel)
example := C91_absent (parser_words ["-v", "f"] (by decide +kernel)) (argOf_at parser 6 (by decide +kernel)) (ds := dflts ["p", "q"])
  (by decide +kernel) (by decide +kernel) (by decide +kernel) shortLine_says (by decide +kernel) (by decide +kernel)
example := C91_absent (parser_words ["-v", "f"] (by decide +kernel)) (argOf_at parser 0 (by decide +kernel)) (ds := dflts ["p"])
  (by decide +kernel) (by decide +kernel) (by decide +kernel) shortLine_says (by decide +kernel) (by decide +kernel)
/-- `k l` goes behind; so does `x` of `-ax`. -/
example := C91_behind parserLine_ready (argOf_at parser 8 (by decide +kernel)) (ds := dflts ["p", "q"]) (by decide +kernel)
  (by decide +kernel) (by decide +kernel) parserLine_says (by decide +kernel) (by decide +kernel) (by decide +kernel) (by decide +kernel)
example := C91_behind (parser_words ["-ax", "f"] (by decide +kernel)) (argOf_at parser 5 (by decide +kernel)) (ds := dflts ["p", "q"])
  (by decide +kernel) (by decide +kernel) (by decide +kernel)
  (evs := [.option 5 true (.list ["x".toList]), .positional 1 (.single "f".toList)]) (parser_says (by decide +kernel) (by decide +kernel))
  (by decide +kernel) (by decide +kernel) (by decide +kernel) (by decide +kernel)
/-- The conditions of `C91_given` are needed: a list option given without a value is written to its destination with its
default text, as is a variable for a single value that is the destination of a list. -/
example :
    (let st := runOps demoScan State.init [.add ["-l".toList], .nargs 0 43, .defaults 0 (dflts ["p", "q"]),
        .dest 0 ⟨7, .vector, false, true, fun _ => none⟩, .add ["-m".toList], .nargs 2 43, .defaults 2 (dflts ["r", "s"]),
        .dest 2 ⟨8, .scalar, false, true, fun _ => none⟩];
      (st.parseArguments demoScan (["p", "-l", "-m", "a"].map String.toList)).1.destLog =
        [.append 7 (.str "p, q".toList), .set 8 (.str "r, s".toList)]) := by decide +kernel
end

end BletArgs
