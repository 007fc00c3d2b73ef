import Verif.Spec.Looking
import Verif.Lemmas.Looking
import Verif.Props.Stateful
/-
User code that consults the parser: C81 (no new behaviour; what it sees).
-/
namespace BletArgs
open Spec
variable {D : Type} {U : Type}

/-- C81, one parse. Validators and callbacks that consult the parser they are called from, besides reading and writing any
variables, make a parse end as it does with some code that does neither. -/
theorem C81_one_parse {scan : Str → Option D} (code : LookingCode D U) (u : U) {st : State D} (h : Reachable scan st)
    (argv : List Str) :
    ∃ st', Reachable scan st' ∧ SameButCode st st' ∧
      (st'.parseArguments scan argv).2 = (st.parseLooking scan code u argv).2.1 ∧
      SameButCode (st.parseLooking scan code u argv).1 (st'.parseArguments scan argv).1 := by
  obtain ⟨k, hk⟩ := Tune.parseLooking_same scan code u h.inv argv
  refine ⟨st.tune k, Tune.reachable_tune h.inv h k, Tune.mute_tune k st, by rw [hk], ?_⟩
  rw [hk]
  exact Tune.mute_tune k _

theorem parseLooking_sameButCode {scan : Str → Option D} (code : LookingCode D U) (u : U) {st st' : State D} (h : SameButCode st st')
    (argv : List Str) :
    SameButCode (st.parseLooking scan code u argv).1 (st'.parseLooking scan code u argv).1 ∧
    (st'.parseLooking scan code u argv).2 = (st.parseLooking scan code u argv).2 := by
  have e1 := Tune.parseLooking_tune scan code (fun _ => Tune.silent) u st argv
  have e2 := Tune.parseLooking_tune scan code (fun _ => Tune.silent) u st' argv
  have h' : st'.tune (fun _ => Tune.silent) = st.tune (fun _ => Tune.silent) := h
  rw [h', e1] at e2
  exact ⟨(congrArg Prod.fst e2).symm, (congrArg Prod.snd e2).symm⟩

/-- C81. The same for histories: whatever a program did whose validators and callbacks consult the parser, there is a program
with plain validators and callbacks that has the same parser, and whose same next call ends in the same way. -/
theorem C81_no_new_behaviour {scan : Str → Option D} {code : LookingCode D U} {st : State D} {u : U}
    (h : ReachableLooking scan code st u) (op : Op) :
    ∃ st' op', Reachable scan st' ∧ SameButCode st st' ∧
      ((∃ r c x, op = .behave r c x) ∨ op' = op) ∧
      (step scan st' op').2 = (stepLooking scan code u st op).2.1 ∧
      SameButCode (stepLooking scan code u st op).1 (step scan st' op').1 := by
  have next : ∀ {st : State D} {u : U} {st' : State D}, Reachable scan st' → SameButCode st st' → ∀ op : Op,
      ∃ st' op', Reachable scan st' ∧ SameButCode st st' ∧ ((∃ r c x, op = .behave r c x) ∨ op' = op) ∧
        (step scan st' op').2 = (stepLooking scan code u st op).2.1 ∧
        SameButCode (stepLooking scan code u st op).1 (step scan st' op').1 := by
    intro st u st' hr hs op
    by_cases hp : ∃ argv, op = .parse argv
    · obtain ⟨argv, rfl⟩ := hp
      obtain ⟨st'', h1, h2, h3, h4⟩ := C81_one_parse code u hr argv
      obtain ⟨h5, h6⟩ := parseLooking_sameButCode (scan := scan) code u hs argv
      refine ⟨st'', .parse argv, h1, h2.trans hs, .inr rfl, ?_, ?_⟩
      · show (st''.parseArguments scan argv).2 = (st.parseLooking scan code u argv).2.1
        rw [h3, h6]
      · show SameButCode (st.parseLooking scan code u argv).1 (st''.parseArguments scan argv).1
        exact h4.trans h5
    · by_cases hb : ∃ r c x, op = .behave r c x
      · obtain ⟨r, c, x, rfl⟩ := hb
        exact ⟨st', .setVersion st'.version, hr, hs, .inl ⟨r, c, x, rfl⟩, rfl, hs⟩
      · have hp' : ∀ argv, op ≠ .parse argv := fun argv e => hp ⟨argv, e⟩
        have hb' : ∀ r c x, op ≠ .behave r c x := fun r c x e => hb ⟨r, c, x, e⟩
        obtain ⟨h1, h2⟩ := Tune.step scan op hp' hb' hs
        have e : stepLooking scan code u st op = ((step scan st op).1, (step scan st op).2, u) := by
          cases op <;> first | rfl | exact absurd rfl (hp' _) | exact absurd rfl (hb' _ _ _)
        rw [e]
        exact ⟨st', op, hr, hs, .inr rfl, h2, h1⟩
  have main : ∃ st', Reachable scan st' ∧ SameButCode st st' := by
    induction h with
    | init u => exact ⟨State.init, .init, rfl⟩
    | elsewhere u' _ ih => exact ih
    | @step st u op _ hg ih =>
      obtain ⟨st', hr, hs⟩ := ih
      obtain ⟨st'', op', h1, h2, h3, h4, h5⟩ := next (u := u) hr hs op
      exact ⟨_, .step op' h1 (by rw [h4]; exact hg), h5⟩
  obtain ⟨st', hr, hs⟩ := main
  exact next hr hs op

/-! ### What is seen -/

/-- A call made for the argument `a`, and the parser it sees: a check before the argument changes, a write after. -/
def SeenFor (a final : Argument D) (view : Argument D → State D) (e : UserCall × State D) : Prop :=
  (e.1 ∈ a.checks ∧ e.2 = view a) ∨
  (∃ w d, e.1 = .write w ∧ a.dest = some d ∧ w.slot = d.slot ∧ e.2 = view final)

theorem runValidIn_watched (v : State D) (code : UserCode U) (u : U) (t : List (UserCall × State D)) (a : Argument D) :
    (a.runValidIn (watchedAt v code) (u, t)).2.2.2 = t ++ a.checks.map (·, v) ∧
    (a.runValidIn (watchedAt v code) (u, t)).1.dest = a.dest := by
  rw [Tune.runValidIn_eq]
  unfold Argument.checks
  cases a.valid with
  | none => exact ⟨(List.append_nil _).symm, rfl⟩
  | some val =>
    cases a.isExist with
    | false => exact ⟨(List.append_nil _).symm, rfl⟩
    | true => exact ⟨rfl, react_dest a _⟩

theorem invoke_watched (v : State D) (code : UserCode U) (u : U) (t : List (UserCall × State D)) (w : DestWrite) :
    ((watchedAt v code).invoke (u, t) w).2.2.2 = t ++ [(.write w, v)] := by
  unfold UserCode.invoke
  simp only [watchedAt]
  generalize code.call w u = x
  obtain ⟨r, u1⟩ := x
  cases r <;> rfl

theorem assign_watched (v : State D) (code : UserCode U) (u : U) (t : List (UserCall × State D)) (ws : List DestWrite) :
    ((watchedAt v code).assign (u, t) ws).2.2.2 = t ++ ws.map (fun w => (.write w, v)) := by
  show (ws.foldl (fun u w => (watchedAt v code).assigned w u) (u, t)).2 = _
  induction ws generalizing u t with
  | nil => simp
  | cons w ws ih => rw [List.foldl_cons]; show (ws.foldl _ (code.assigned w u, t ++ _)).2 = _; rw [ih]; simp

theorem toDestIn_watched (v : State D) (code : UserCode U) (u : U) (t : List (UserCall × State D)) (a : Argument D) :
    ∃ ws : List DestWrite, (a.toDestIn (watchedAt v code) (u, t)).2.2.2 = t ++ ws.map (fun w => (.write w, v)) ∧
      ∀ w ∈ ws, ∃ d, a.dest = some d ∧ w.slot = d.slot := by
  unfold Argument.toDestIn
  cases hd : a.dest with
  | none => exact ⟨[], (List.append_nil _).symm, nofun⟩
  | some d =>
    have inv : ∀ w : DestWrite, w.slot = d.slot → ∃ ws : List DestWrite,
        ((watchedAt v code).invoke (u, t) w).2.2.2 = t ++ ws.map (fun w => (.write w, v)) ∧
        ∀ w ∈ ws, ∃ d', some d = some d' ∧ w.slot = d'.slot := fun w h =>
      ⟨[w], invoke_watched v code u t w, fun w' hw => by rw [List.mem_singleton] at hw; subst hw; exact ⟨d, rfl, h⟩⟩
    have asg : ∀ ws : List DestWrite, (∀ w ∈ ws, w.slot = d.slot) → ∃ ws' : List DestWrite,
        ((watchedAt v code).assign (u, t) ws).2.2.2 = t ++ ws'.map (fun w => (.write w, v)) ∧
        ∀ w ∈ ws', ∃ d', some d = some d' ∧ w.slot = d'.slot := fun ws h =>
      ⟨ws, assign_watched v code u t ws, fun w' hw => ⟨d, rfl, h w' hw⟩⟩
    have thr : ∃ ws : List DestWrite, t = t ++ ws.map (fun w => (UserCall.write w, v)) ∧
        ∀ w ∈ ws, ∃ d', some d = some d' ∧ w.slot = d'.slot := ⟨[], (List.append_nil _).symm, nofun⟩
    simp only
    cases d.kind with
    | scalar =>
      simp only
      cases d.custom with
      | true => exact inv _ rfl
      | false =>
        cases d.supported with
        | true => exact asg _ fun w hw => by rw [List.mem_singleton] at hw; subst hw; rfl
        | false => exact thr
    | vector =>
      simp only
      cases d.custom with
      | true => exact inv _ rfl
      | false =>
        cases d.supported with
        | true =>
          refine asg _ fun w hw => ?_
          split at hw
          · rw [List.mem_singleton] at hw; subst hw; rfl
          · obtain ⟨s, _, rfl⟩ := List.mem_map.1 hw; rfl
        | false => exact thr
    | vecvec =>
      simp only
      cases d.custom with
      | true => exact inv _ rfl
      | false =>
        cases d.supported with
        | true =>
          refine asg _ fun w hw => ?_
          split at hw
          · rw [List.mem_singleton] at hw; subst hw; rfl
          · obtain ⟨s, _, rfl⟩ := List.mem_map.1 hw; rfl
        | false => exact thr

theorem finishLooking_watched (scan : Str → Option D) (code : LookingCode D U) (view : Argument D → State D) (u : U)
    (t : List (UserCall × State D)) (a : Argument D) :
    ∃ tr, (a.finishLooking scan (watched code) view (u, t)).2.2.2.2 = t ++ tr ∧
      ∀ e ∈ tr, SeenFor a (a.finishLooking scan (watched code) view (u, t)).1 view e := by
  have h := runValidIn_watched (view a) (code (view a)) u t a
  have e : watched code (view a) = watchedAt (view a) (code (view a)) := rfl
  unfold Argument.finishLooking
  rw [e]
  generalize a.runValidIn (watchedAt (view a) (code (view a))) (u, t) = x at h
  obtain ⟨a1, res, u1, t1⟩ := x
  obtain ⟨rfl, hd⟩ : t1 = _ ∧ _ := h
  have chk : ∀ {final : Argument D}, ∀ e ∈ a.checks.map (·, view a), SeenFor a final view e := by
    intro final e he
    obtain ⟨c, hc, rfl⟩ := List.mem_map.1 he
    exact .inl ⟨hc, rfl⟩
  cases res with
  | ok _ =>
    simp only
    have e2 : watched code (view (a1.toNumber scan)) = watchedAt (view (a1.toNumber scan)) (code (view (a1.toNumber scan))) := rfl
    obtain ⟨ws, h1, h2⟩ := toDestIn_watched (view (a1.toNumber scan)) (code (view (a1.toNumber scan))) u1
      (t ++ a.checks.map (·, view a)) (a1.toNumber scan)
    rw [e2, h1]
    refine ⟨_, List.append_assoc .., fun e he => ?_⟩
    rcases List.mem_append.1 he with he | he
    · exact chk e he
    · obtain ⟨w, hw, rfl⟩ := List.mem_map.1 he
      obtain ⟨d, hd1, hd2⟩ := h2 w hw
      refine .inr ⟨w, d, rfl, ?_, hd2, rfl⟩
      rw [← hd1, toNumber_dest]
      exact hd.symm
  | _ => exact ⟨_, rfl, chk⟩

/-- The whole loop: each call is made for one argument; those before are finished, those after untouched. -/
theorem finishAllLooking_watched (scan : Str → Option D) (code : LookingCode D U) (view : List (Slot D) → State D) (u : U)
    (t : List (UserCall × State D)) (done l : List (Slot D)) :
    ∃ tr, (finishAllLooking scan (watched code) view (u, t) done l).2.2.2.2 = t ++ tr ∧
      ∀ e ∈ tr, ∃ pre s post pre' s' post', l = pre ++ s :: post ∧
        (finishAllLooking scan (watched code) view (u, t) done l).1 = pre' ++ s' :: post' ∧ pre'.length = pre.length ∧
        s'.node = s.node ∧ s'.obj = s.obj ∧
        SeenFor s.arg s'.arg (fun a => view (done ++ pre' ++ { s with arg := a } :: post)) e := by
  induction l generalizing u t done with
  | nil => exact ⟨[], (List.append_nil _).symm, nofun⟩
  | cons s l ih =>
    obtain ⟨tr, h1, h2⟩ := finishLooking_watched scan code (fun a => view (done ++ { s with arg := a } :: l)) u t s.arg
    unfold finishAllLooking
    generalize s.arg.finishLooking scan (watched code) _ (u, t) = x at h1 h2
    obtain ⟨a1, w, res, u1, t1⟩ := x
    obtain rfl : t1 = _ := h1
    have first : ∀ rest : List (Slot D), ∀ e ∈ tr, ∃ pre x post pre' x' post', s :: l = pre ++ x :: post ∧
        ({ s with arg := a1 } :: rest : List (Slot D)) = pre' ++ x' :: post' ∧ pre'.length = pre.length ∧
        x'.node = x.node ∧ x'.obj = x.obj ∧
        SeenFor x.arg x'.arg (fun a => view (done ++ pre' ++ { x with arg := a } :: post)) e := by
      intro rest e he
      refine ⟨[], s, l, [], { s with arg := a1 }, rest, rfl, rfl, rfl, rfl, rfl, ?_⟩
      rw [List.append_nil]
      exact h2 e he
    cases res with
    | ok _ =>
      simp only
      obtain ⟨tr', h3, h4⟩ := ih u1 (t ++ tr) (done ++ [{ s with arg := a1 }])
      rw [h3]
      refine ⟨tr ++ tr', List.append_assoc .., fun e he => ?_⟩
      rcases List.mem_append.1 he with he | he
      · exact first _ e he
      · obtain ⟨pre, x, post, pre', x', post', e1, e2, e3, e4, e5, e6⟩ := h4 e he
        refine ⟨s :: pre, x, post, { s with arg := a1 } :: pre', x', post', by rw [e1]; rfl, by rw [e2]; rfl,
          by simp [e3], e4, e5, ?_⟩
        have : done ++ [{ s with arg := a1 }] ++ pre' = done ++ { s with arg := a1 } :: pre' := by simp
        rw [this] at e6
        exact e6
    | _ => exact ⟨tr, rfl, first l⟩

theorem parseLooking_seen {scan : Str → Option D} (code : LookingCode D U) (u : U) {st : State D} {argv : List Str} (h : Ready scan st argv)
    {evs : List Event} {err : Option Exn} (hl : Line st.sig st.places (argv.drop 1) evs err) :
    (∀ x, err = some x → (st.parseLooking scan code u argv).2 = (.throw x, u)) ∧
    (err = none → st.parseLooking scan code u argv = (st.seen argv evs).afterLoopLooking scan code u) := by
  obtain ⟨p, hp, hp'⟩ := h.program
  have hne : argv ≠ [] := by rintro rfl; cases hp
  have hauto : st.resetAll.autoHelp = (st.resetAll, .ok true) := by
    unfold State.autoHelp
    have : st.resetAll.helpOption.isNone = false := by
      show st.helpOption.isNone = false
      cases hh : st.helpOption with
      | none => exact absurd hh h.help
      | some _ => rfl
    rw [this]
    rfl
  have hc := begin_config st argv
  have hsane : Sane (st.begin argv) argv.length := Sane.of_config' hc h.sane
  have hbudget : argv.length < (st.begin argv).loopBudget argv := by
    unfold State.loopBudget
    have : argv.length + 1 ≤ (argv.length + 1) * ((st.begin argv).arguments.length + 2) :=
      Nat.le_mul_of_pos_right _ (by omega)
    omega
  have h0 : argv[0]? ≠ some ['-', '-'] := by
    rw [← List.head?_eq_getElem?, hp]
    intro e; cases e; exact hp' rfl
  obtain ⟨evs', err', h1, h2, h3⟩ := tokens_agree hsane hbudget h0
  rw [sig_of_config' hc, begin_queue] at h1
  obtain ⟨rfl, rfl⟩ := line_unique (sane_sized h.sane) (sane_places h.sane) hl h1
  constructor
  · intro x hx
    have := h2 x hx
    unfold State.parseLooking
    rw [hauto]
    simp only
    rw [setBinary_eq hne]
    simp only
    generalize State.mainLoop argv (endOptionIndex argv) ((st.begin argv).loopBudget argv) 1 (st.begin argv) = r at this ⊢
    obtain ⟨st1, r⟩ := r
    simp only at this
    subst this
    rfl
  · intro hn
    have := h3 hn
    unfold State.parseLooking
    rw [hauto]
    simp only
    rw [setBinary_eq hne]
    simp only
    rw [this, seen_eq]

/-- An argument after the words of the line, as it can be read. -/
theorem asGiven {st : State D} {full : Prop} (hi : GInv full st) {ts : List Str} {evs : List Event} {err : Option Exn}
    (hl : Line st.sig st.places ts evs err) {x : Slot D} (hx : x ∈ st.arguments) :
    AsGiven evs x (Slot.mute { x with arg := x.arg.afterTokens x.node evs }) where
  node := rfl
  obj := rfl
  names := (congrArg (fun a : Argument D => a.names) (afterTokens_config x.node evs x.arg) :)
  present := occurs_iff hi hx hl
  values := fun ho hk => (tokens_vector hi hx hl ho hk).1
  absent := by
    intro ho
    have e : x.arg.afterTokens x.node evs = x.arg.reset := by
      have hu : uses x.node evs = [] := by
        cases h : uses x.node evs with
        | nil => rfl
        | cons _ _ => exact (ho (.inl (by rw [h]; simp))).elim
      have hf : fills x.node evs = [] := by
        cases h : fills x.node evs with
        | nil => rfl
        | cons _ _ => exact (ho (.inr (by rw [h]; simp))).elim
      cases hp : x.arg.isPositional with
      | false => rw [afterTokens_option hi hx hp hl, hu]; rfl
      | true =>
        rcases afterTokens_positional hi hx hp hl with ⟨_, h⟩ | ⟨v, h, _⟩
        · exact h
        · rw [hf] at h; cases h
    show (x.arg.afterTokens x.node evs).argument = _ ∧ (x.arg.afterTokens x.node evs).count = 0 ∧
      ∀ e ∈ (x.arg.afterTokens x.node evs).elems, e.argument = e.dflt
    rw [e]
    refine ⟨rfl, rfl, fun e he => ?_⟩
    obtain ⟨y, _, rfl⟩ := List.mem_map.1 he
    rfl

/-- C81. What user code sees that consults the parser, in one parse of an accepted command line. Each call is made for one
argument. The arguments listed before it are as the parse leaves them – checked, rewritten by their validators, converted to
numbers. Those listed after it are as given on the command line: present or absent for good, with the texts given, none
checked yet. The argument itself is as given when its validator is called, and final when its callback is called or its
variable written. All the rest – settings, additional arguments, references – is as the parse leaves it. -/
theorem C81_seen {scan : Str → Option D} (code : LookingCode D U) (u : U) {st : State D} {argv : List Str} (h : Ready scan st argv)
    {evs : List Event} (hl : Line st.sig st.places (argv.drop 1) evs none) {st' : State D} {res : Res Unit} {u' : U}
    {trace : List (UserCall × State D)} (hp : st.parseLooking scan (watched code) (u, []) argv = (st', res, u', trace))
    {c : UserCall} {v : State D} (hc : (c, v) ∈ trace) :
    v = { st'.mute with arguments := v.arguments, destLog := st.destLog } ∧ v.additional = st.additional ++ extras evs ∧
    v.arguments.length = st.arguments.length ∧
    ∃ pre s post, st.arguments = pre ++ s :: post ∧
      (∀ i, i < pre.length → v.arguments[i]? = st'.mute.arguments[i]?) ∧
      (∀ i x t, pre.length < i → st.arguments[i]? = some x → v.arguments[i]? = some t → AsGiven evs x t) ∧
      ((c ∈ checkDue evs s ∧ ∃ t, v.arguments[pre.length]? = some t ∧ AsGiven evs s t) ∨
       (∃ w d, c = .write w ∧ s.arg.dest = some d ∧ w.slot = d.slot ∧ 
        v.arguments[pre.length]? = st'.mute.arguments[pre.length]?)) := by
  have hi := h.inv
  have e := (parseLooking_seen (watched code) (u, []) h hl).2 rfl
  rw [hp] at e
  have quiet : ∀ {x : State D × Res Unit × U × List (UserCall × State D)}, (st', res, u', trace) = x → x.2.2.2 ≠ [] := by
    rintro x rfl hx
    rw [show trace = [] from hx] at hc
    cases hc
  unfold State.afterLoopLooking at e
  cases hho : (st.seen argv evs).optionSeen (st.seen argv evs).helpOption with
  | none => rw [hho] at e; exact (quiet e rfl).elim
  | some b =>
    rw [hho] at e
    cases b with
    | true => simp only at e; split at e <;> exact (quiet e rfl).elim
    | false =>
      simp only at e
      cases hvo : (st.seen argv evs).optionSeen (st.seen argv evs).versionOption with
      | none => rw [hvo] at e; exact (quiet e rfl).elim
      | some b =>
        rw [hvo] at e
        cases b with
        | true => simp only at e; split at e <;> exact (quiet e rfl).elim
        | false =>
          simp only at e
          unfold State.finishParseLooking at e
          cases hm : firstMissing (st.seen argv evs).arguments with
          | some x => rw [hm] at e; exact (quiet e rfl).elim
          | none =>
            rw [hm] at e
            simp only at e
            obtain ⟨tr, h1, h2⟩ := finishAllLooking_watched scan code (st.seen argv evs).readable u [] [] (st.seen argv evs).arguments
            generalize finishAllLooking scan (watched code) (st.seen argv evs).readable (u, []) [] (st.seen argv evs).arguments = r at e h1 h2
            obtain ⟨out, ws, res', u1, tr'⟩ := r
            simp only [List.nil_append] at e h1 h2
            cases e
            subst h1
            obtain ⟨pre, s, post, pre', s', post', e1, e2, e3, e4, e5, e6⟩ := h2 (c, v) hc
            subst e2
            have ha : (st.seen argv evs).arguments = st.arguments.map fun s => { s with arg := s.arg.afterTokens s.node evs } := rfl
            rw [ha] at e1
            obtain ⟨pre0, rest0, hst, rfl, e7⟩ := List.map_eq_append_iff.1 e1
            obtain ⟨x, post0, rfl, rfl, rfl⟩ := List.map_eq_cons_iff.1 e7
            have hx : x ∈ st.arguments := by rw [hst]; simp
            have hpost : ∀ y ∈ post0, y ∈ st.arguments := fun y hy => by rw [hst]; simp [hy]
            rw [List.length_map] at e3
            have hv : ∃ a, v = (st.seen argv evs).readable (pre' ++ { x with arg := a } ::
                post0.map fun s => { s with arg := s.arg.afterTokens s.node evs }) ∧
                ((c ∈ (x.arg.afterTokens x.node evs).checks ∧ a = x.arg.afterTokens x.node evs) ∨
                 (a = s'.arg ∧ ∃ w d, c = .write w ∧ x.arg.dest = some d ∧ w.slot = d.slot)) := by
              rcases e6 with ⟨h5, h6⟩ | ⟨w, d, h5, h6, h7, h8⟩
              · exact ⟨_, h6, .inl ⟨h5, rfl⟩⟩
              · refine ⟨_, h8, .inr ⟨rfl, w, d, h5, ?_, h7⟩⟩
                rw [← h6]
                exact (congrArg (fun a : Argument D => a.dest) (afterTokens_config x.node evs x.arg) :).symm
            obtain ⟨a, rfl, hcase⟩ := hv
            have hargs : ((st.seen argv evs).readable (pre' ++ { x with arg := a } ::
                post0.map fun s => { s with arg := s.arg.afterTokens s.node evs })).arguments =
                pre'.map Slot.mute ++ Slot.mute { x with arg := a } ::
                  post0.map (fun s => Slot.mute { s with arg := s.arg.afterTokens s.node evs }) := by
              show List.map Slot.mute _ = _
              rw [List.map_append, List.map_cons, List.map_map]
              rfl
            have hout : ∀ (dl : List DestWrite), (State.mute { st.seen argv evs with arguments := pre' ++ s' :: post', destLog := dl }).arguments =
                pre'.map Slot.mute ++ s'.mute :: post'.map Slot.mute := fun dl => by
              show List.map Slot.mute _ = _
              rw [List.map_append, List.map_cons]
            have hlen : (pre'.map Slot.mute).length = pre0.length := by rw [List.length_map, e3]
            refine ⟨rfl, rfl, ?_, pre0, x, post0, hst, ?_, ?_, ?_⟩
            · rw [hargs, hst]; simp [e3]
            · intro i hi'
              rw [hargs, hout, List.getElem?_append_left (by omega), List.getElem?_append_left (by omega)]
            · intro i y t hi' hy ht
              rw [hargs, List.getElem?_append_right (by omega), hlen] at ht
              rw [hst, List.getElem?_append_right (by omega)] at hy
              obtain ⟨j, hj⟩ : ∃ j, i - pre0.length = j + 1 := ⟨i - pre0.length - 1, by omega⟩
              rw [hj, List.getElem?_cons_succ] at hy ht
              rw [List.getElem?_map, hy] at ht
              cases ht
              exact asGiven hi hl (hpost y (List.mem_of_getElem? hy))
            · rcases hcase with ⟨h5, rfl⟩ | ⟨rfl, h5⟩
              · refine .inl ⟨by rw [← checks_due hi hl hx]; exact h5, _, ?_, asGiven hi hl hx⟩
                rw [hargs, List.getElem?_append_right (by omega), hlen, Nat.sub_self, List.getElem?_cons_zero]
              · obtain ⟨w, d, h6, h7, h8⟩ := h5
                refine .inr ⟨w, d, h6, h7, h8, ?_⟩
                rw [hargs, hout, List.getElem?_append_right (by omega), List.getElem?_append_right (by omega), hlen, Nat.sub_self,
                  List.getElem?_cons_zero, List.getElem?_cons_zero]
                obtain ⟨n', o', a'⟩ := s'
                obtain rfl : n' = x.node := e4
                obtain rfl : o' = x.obj := e5
                rfl

/-- The values an argument of the view holds. -/
def lookedUp (v : State Unit) (n : Nat) : Option (List Str) := (v.arguments.find? (·.node == n)).bind (·.arg.toVector)

/-- A program whose validator of `-l` reverses its values and notes those of `-o`, which is listed later; and whose validator of
`-o` notes those of `-l`. -/
def lookingCode : LookingCode Unit (List (Option (List Str))) := fun v =>
  { check := fun id vs u => if id = 7 then (.accept vs.reverse, u ++ [lookedUp v 0]) else (.accept ["z".toList], u ++ [lookedUp v 4])
    call := fun _ u => (none, u ++ [lookedUp v 4])
    assigned := fun _ u => u }

/-- On `… -l x y … -o 2 …`: the validator of `-l` sees the `2` of `-o`; its callback and the validator of `-o` see `-l` reversed. -/
example :
    let r := counting.parseLooking demoScan lookingCode [] parserLine
    r.2.1 = .ok () ∧ r.2.2 = [some ["2".toList], some ["y".toList, "x".toList], some ["y".toList, "x".toList]] ∧
    lookedUp r.1 0 = some ["z".toList] := by decide +kernel

theorem counting_line : Line counting.sig counting.places (parserLine.drop 1) parserSays none :=
  counting_ready.says (by decide +kernel)

/-- The hypotheses of `C81_seen` are met, and calls are made. -/
example {st' : State Unit} {res : Res Unit} {u' : List (Option (List Str))} {trace : List (UserCall × State Unit)}
    (hp : counting.parseLooking demoScan (watched lookingCode) ([], []) parserLine = (st', res, u', trace)) {c : UserCall}
    {v : State Unit} (hc : (c, v) ∈ trace) := C81_seen lookingCode [] counting_ready counting_line hp hc
example : (counting.parseLooking demoScan (watched lookingCode) ([], []) parserLine).2.2.2.map (·.1) =
    [.check 7 ["x".toList, "y".toList], .write (.callVector 1 true ["y".toList, "x".toList]),
     .write (.append 0 (.temp "a".toList)), .write (.append 0 (.temp "b".toList)), .check 8 ["2".toList]] := by decide +kernel
example := C81_one_parse lookingCode [] counting_history.reachable parserLine
example (op : Op) := C81_no_new_behaviour (scan := demoScan) (code := lookingCode) (.init []) op

end BletArgs
