import Verif.Lemmas.Replay
/-
C96: a parse can be saved and repeated.
-/
namespace BletArgs
open Spec
variable {D : Type}

/-! ### What the saved line says -/

theorem uses_said (n : Nat) (q : List Place) (us : List Use) (fs : List Values) (ws : List Str) :
    uses n (said q us fs ws) = us.filterMap fun u => if u.option.id = n then some (false, u.vals) else none := by
  have h2 : uses n (List.zipWith (fun p vals => Event.positional p.id vals) q fs) = [] := by
    induction q generalizing fs with
    | nil => rfl
    | cons p q ih => cases fs with
      | nil => rfl
      | cons v fs => rw [List.zipWith_cons_cons]; unfold uses; rw [List.filterMap_cons]; exact ih fs
  have h3 : uses n (ws.map .extra) = [] := by
    induction ws with
    | nil => rfl
    | cons w ws ih => rw [List.map_cons]; unfold uses; rw [List.filterMap_cons]; exact ih
  unfold said
  unfold uses at h2 h3 ⊢
  rw [List.filterMap_append, List.filterMap_append, h2, h3, List.append_nil, List.append_nil, List.filterMap_map]
  rfl

theorem fills_said (n : Nat) (q : List Place) (us : List Use) (fs : List Values) (ws : List Str) :
    fills n (said q us fs ws) = fills n (List.zipWith (fun p vals => Event.positional p.id vals) q fs) := by
  have h1 : fills n (us.map Use.event) = [] := by
    induction us with
    | nil => rfl
    | cons p q ih => rw [List.map_cons]; unfold fills; rw [List.filterMap_cons]; exact ih
  have h3 : fills n (ws.map .extra) = [] := by
    induction ws with
    | nil => rfl
    | cons w ws ih => rw [List.map_cons]; unfold fills; rw [List.filterMap_cons]; exact ih
  unfold said
  unfold fills at h1 h3 ⊢
  rw [List.filterMap_append, List.filterMap_append, h1, h3, List.append_nil, List.nil_append]

theorem extras_said (q : List Place) (us : List Use) (fs : List Values) (ws : List Str) :
    extras (said q us fs ws) = ws := by
  have h1 : extras (us.map Use.event) = [] := by
    induction us with
    | nil => rfl
    | cons p q ih => rw [List.map_cons]; unfold extras; rw [List.filterMap_cons]; exact ih
  have h2 : extras (List.zipWith (fun p vals => Event.positional p.id vals) q fs) = [] := by
    induction q generalizing fs with
    | nil => rfl
    | cons p q ih => cases fs with
      | nil => rfl
      | cons v fs => rw [List.zipWith_cons_cons]; unfold extras; rw [List.filterMap_cons]; exact ih fs
  have h3 : extras (ws.map .extra) = ws := by
    induction ws with
    | nil => rfl
    | cons w ws ih => rw [List.map_cons]; unfold extras at ih ⊢; rw [List.filterMap_cons]; simp only; rw [ih]
  unfold said
  unfold extras at h1 h2 h3 ⊢
  rw [List.filterMap_append, List.filterMap_append, h1, h2, h3, List.nil_append, List.nil_append]

/-- The uses of one argument among the uses of all. -/
theorem uses_of_one {l : List (Slot D)} (hn : (l.map (·.node)).Nodup) {g : Slot D → List Use}
    (hg : ∀ s ∈ l, ∀ u ∈ g s, u.option.id = s.node) {s : Slot D} (hs : s ∈ l) :
    ((l.flatMap g).filterMap fun u => if u.option.id = s.node then some (false, u.vals) else none) =
      plainly ((g s).map (·.vals)) := by
  have mine : ∀ us : List Use, (∀ u ∈ us, u.option.id = s.node) →
      (us.filterMap fun u => if u.option.id = s.node then some (false, u.vals) else none) = plainly (us.map (·.vals)) := by
    intro us
    induction us with
    | nil => intro _; rfl
    | cons u us ih =>
      intro h
      rw [List.filterMap_cons, if_pos (h u List.mem_cons_self)]
      exact congrArg (_ :: ·) (ih fun v hv => h v (List.mem_cons_of_mem _ hv))
  have others : ∀ l : List (Slot D), (∀ t ∈ l, t.node ≠ s.node ∧ ∀ u ∈ g t, u.option.id = t.node) →
      ((l.flatMap g).filterMap fun u => if u.option.id = s.node then some (false, u.vals) else none) = [] := by
    intro l h
    rw [List.filterMap_eq_nil_iff]
    intro u hu
    obtain ⟨t, ht, hu⟩ := List.mem_flatMap.1 hu
    rw [if_neg]
    rw [(h t ht).2 u hu]
    exact (h t ht).1
  induction l with
  | nil => cases hs
  | cons t l ih =>
    rw [List.map_cons, List.nodup_cons] at hn
    rw [List.flatMap_cons, List.filterMap_append]
    rcases List.mem_cons.1 hs with rfl | hs'
    · rw [mine _ (hg s List.mem_cons_self), others l, List.append_nil]
      intro t ht
      exact ⟨fun e => hn.1 (e ▸ List.mem_map_of_mem ht), hg t (List.mem_cons_of_mem _ ht)⟩
    · have h0 : ((g t).filterMap fun u => if u.option.id = s.node then some (false, u.vals) else none) = [] := by
        rw [List.filterMap_eq_nil_iff]
        intro u hu
        rw [if_neg]
        rw [hg t List.mem_cons_self u hu]
        exact fun e => hn.1 (e ▸ List.mem_map_of_mem hs')
      rw [h0, List.nil_append]
      exact ih hn.2 (fun t ht => hg t (List.mem_cons_of_mem _ ht)) hs'

theorem fills_at {q q1 q2 : List Place} {p : Place} (e : q = q1 ++ p :: q2) {fs : List Values} (h : q1.length < fs.length) :
    fills p.id (List.zipWith (fun p vals => Event.positional p.id vals) q fs) ≠ [] := by
  subst e
  induction q1 generalizing fs with
  | nil =>
    cases fs with
    | nil => cases h
    | cons v fs =>
      rw [List.nil_append, List.zipWith_cons_cons]
      unfold fills
      rw [List.filterMap_cons]
      simp
  | cons r q1 ih =>
    cases fs with
    | nil => cases h
    | cons v fs =>
      have := ih (fs := fs) (by simpa using h)
      rw [List.cons_append, List.zipWith_cons_cons]
      unfold fills at this ⊢
      rw [List.filterMap_cons]
      by_cases hr : r.id = p.id
      · simp [hr]
      · simpa [hr] using this

/-! ### The parser after the call -/

/-- What the call leaves of an argument, when validators only check. -/
theorem after_checks {scan : Str → Option D} {st : State D} {argv : List Str} (h : Ready scan st argv)
    {evs : List Event} (hl : Line st.sig st.places (argv.drop 1) evs none) (hok : (st.parseArguments scan argv).2 = .ok ())
    (hc : ∀ s ∈ st.arguments, ∀ v, s.arg.valid = some v → ChecksOnly v) :
    (st.parseArguments scan argv).1.arguments =
      st.arguments.map fun s => { s with arg := (s.arg.afterTokens s.node evs).toNumber scan } := by
  obtain ⟨h1, _, h3⟩ := parse_result h hl hok
  rw [h3]
  refine List.map_congr_left fun s hs => ?_
  rw [finished_checks _ (h1 s hs)]
  intro v hv
  refine hc s hs v ?_
  rw [← hv]
  exact (congrArg (fun x : Argument D => x.valid) (afterTokens_config s.node evs s.arg) :).symm

theorem toNumber_same (scan : Str → Option D) (a : Argument D) :
    (a.toNumber scan).isExist = a.isExist ∧ (a.toNumber scan).type = a.type ∧ (a.toNumber scan).nargs = a.nargs ∧
    (a.toNumber scan).isPositional = a.isPositional := by
  have hc := Argument.toNumber_config scan a
  have h1 : (a.toNumber scan).type = a.type := (congrArg (fun x : Argument D => x.type) hc :)
  exact ⟨(toNumber_marks scan a).1, h1, (congrArg (fun x : Argument D => x.nargs) hc :), congrArg Ty.isPositional h1⟩

theorem tokens_same (n : Nat) (evs : List Event) (a : Argument D) :
    (a.afterTokens n evs).type = a.type ∧ (a.afterTokens n evs).nargs = a.nargs ∧ (a.afterTokens n evs).isPositional = a.isPositional ∧
    (a.afterTokens n evs).valid = a.valid := by
  have hc := afterTokens_config n evs a
  have h1 : (a.afterTokens n evs).type = a.type := (congrArg (fun x : Argument D => x.type) hc :)
  exact ⟨h1, (congrArg (fun x : Argument D => x.nargs) hc :), congrArg Ty.isPositional h1, (congrArg (fun x : Argument D => x.valid) hc :)⟩

/-- The uses saved for an argument. -/
theorem saved_uses {scan : Str → Option D} {st : State D} {full : Prop} (hi : GInv full st) {s : Slot D} (hs : s ∈ st.arguments)
    {ts : List Str} {evs : List Event} {err : Option Exn} (hl : Line st.sig st.places ts evs err) (flag : Nat → Str) :
    Slot.savedUses flag { s with arg := (s.arg.afterTokens s.node evs).toNumber scan } =
      if s.arg.isPositional = false ∧ uses s.node evs ≠ [] then
        (usesFor s.arg.type ((s.arg.reset.occurs (uses s.node evs)).toVector.getD [])
          ((s.arg.reset.occurs (uses s.node evs)).toVecVec.getD [])).map fun vals => ⟨s.entry, flag s.obj, vals⟩
      else [] := by
  unfold Slot.savedUses
  obtain ⟨n1, n2, n3, n4⟩ := toNumber_same scan (s.arg.afterTokens s.node evs)
  obtain ⟨t1, t2, t3, _⟩ := tokens_same s.node evs s.arg
  obtain ⟨v1, v2⟩ := toNumber_vectors scan (s.arg.afterTokens s.node evs)
  simp only [n1, n2, n4, t1, t3, v1, v2]
  have he : Slot.entry { s with arg := (s.arg.afterTokens s.node evs).toNumber scan } = s.entry := by
    unfold Slot.entry
    simp only [n2, n3, t1, t2]
  rw [he]
  cases hp : s.arg.isPositional with
  | true => simp
  | false =>
    have hx := (afterTokens_marks hi hs hl).1
    have hnf : fills s.node evs = [] := by
      cases hf : fills s.node evs with
      | nil => rfl
      | cons v l =>
        exfalso
        exact (option_uses hi hs hp hl).1 _ v (mem_fills.1 (by rw [hf]; simp)) rfl
    rw [hnf] at hx
    by_cases hu : uses s.node evs = []
    · rw [if_neg, if_neg]
      · simp [hu]
      · rw [hx]; simp [hu]
    · rw [if_pos ⟨rfl, hx.2 (.inl hu)⟩, if_pos ⟨rfl, hu⟩, afterTokens_option hi hs hp hl]

theorem reset_elems (a : Argument D) : a.reset.elems.length = a.elems.length := by simp [Argument.reset]

/-- What is saved for the positional arguments. -/
theorem saved_fills {scan : Str → Option D} {st : State D} {full : Prop} (hi : GInv full st)
    {ts : List Str} {evs : List Event} {err : Option Exn} (hl : Line st.sig st.places ts evs err) :
    (((st.arguments.map fun s : Slot D => { s with arg := (s.arg.afterTokens s.node evs).toNumber scan }).filter
        fun s => s.arg.isPositional && s.arg.isExist).map fun s => s.arg.received (st.sizeOf s.obj)) =
      st.places.filterMap fun p => (fills p.id evs).head? := by
  unfold State.places
  have : ∀ l : List (Slot D), (∀ s ∈ l, s ∈ st.arguments) →
      (((l.map fun s : Slot D => { s with arg := (s.arg.afterTokens s.node evs).toNumber scan }).filter
        fun s => s.arg.isPositional && s.arg.isExist).map fun s => s.arg.received (st.sizeOf s.obj)) =
      ((l.filter fun s => s.arg.isPositional).map Slot.place).filterMap fun p => (fills p.id evs).head? := by
    intro l
    induction l with
    | nil => intro _; rfl
    | cons s l ih =>
      intro hm
      have hs := hm s List.mem_cons_self
      have ih := ih fun t ht => hm t (List.mem_cons_of_mem _ ht)
      obtain ⟨n1, n2, n3, n4⟩ := toNumber_same scan (s.arg.afterTokens s.node evs)
      obtain ⟨t1, t2, t3, _⟩ := tokens_same s.node evs s.arg
      rw [List.map_cons, List.filter_cons, List.filter_cons]
      simp only [n1, n4, t3]
      cases hp : s.arg.isPositional with
      | false => simp only [Bool.false_and, Bool.false_eq_true, if_false]; exact ih
      | true =>
        simp only [Bool.true_and, if_true, List.map_cons, List.filterMap_cons]
        rw [show s.place.id = s.node from rfl]
        rcases afterTokens_positional hi hs hp hl with ⟨h1, h2⟩ | ⟨vals, h1, h3, h2⟩
        · rw [h2, h1]
          rw [show s.arg.reset.isExist = false from rfl]
          simpa using ih
        · rw [h2, h1]
          have hx : (s.arg.reset.fill vals).isExist = true := by cases vals <;> rfl
          rw [hx]
          simp only [if_true, List.map_cons, List.head?_cons]
          rw [ih]
          congr 1
          have hsz : st.sizeOf s.obj = s.arg.reset.elems.length := by
            unfold State.sizeOf
            rw [State.atObj_of_mem hi.objs hs, reset_elems]
            rfl
          rw [hsz]
          exact received_fill hp h3
  exact this _ fun _ h => h

/-- The parser after a saved and repeated parse: every argument is as it was, but for its counter. -/
theorem again_tokens {st : State D} {full : Prop} (hi : GInv full st) {s : Slot D} (hs : s ∈ st.arguments)
    {ts ts' : List Str} {evs evs' : List Event} {err err' : Option Exn} (hl : Line st.sig st.places ts evs err)
    (hl' : Line st.sig st.places ts' evs' err') (hk : NoneKept st evs)
    (hu : uses s.node evs' = if s.arg.isPositional = false ∧ uses s.node evs ≠ [] then
      plainly (usesFor s.arg.type ((s.arg.reset.occurs (uses s.node evs)).toVector.getD [])
        ((s.arg.reset.occurs (uses s.node evs)).toVecVec.getD [])) else [])
    (hf : fills s.node evs' = fills s.node evs) :
    ∃ n, s.arg.afterTokens s.node evs' = (s.arg.afterTokens s.node evs).recount n := by
  cases hp : s.arg.isPositional with
  | true =>
    refine ⟨(s.arg.afterTokens s.node evs).count, ?_⟩
    rw [see_uses_fills hi hs hl hl' _ hf]
    · rfl
    · rw [hu, if_neg (by simp [hp])]
      cases hx : uses s.node evs with
      | nil => rfl
      | cons u l =>
        exfalso
        obtain ⟨a, v⟩ := u
        exact (positional_fills hi hs hp hl).1 _ a v (mem_uses.1 (by rw [hx]; simp)) rfl
  | false =>
    rw [afterTokens_option hi hs hp hl, afterTokens_option hi hs hp hl', hu]
    by_cases hne : uses s.node evs = []
    · rw [if_neg (by simp [hne]), hne]
      exact ⟨0, rfl⟩
    · rw [if_pos ⟨hp, hne⟩]
      refine again_option (c := s.arg.reset) rfl hne hp (option_uses hi hs hp hl).2 ?_
      intro u hu h1 hty
      by_cases he : s.arg.elems = []
      · unfold Argument.reset; simp [he]
      · have := hk s hs hty he u hu
        rw [h1] at this
        cases this

/-- The decomposition of the places. -/
theorem places_split {l : List (Slot D)} {q1 q2 : List Place} {p : Place}
    (h : (l.filter fun s => s.arg.isPositional).map Slot.place = q1 ++ p :: q2) :
    ∃ l1 s l2, l = l1 ++ s :: l2 ∧ s.arg.isPositional = true ∧ s.place = p ∧
      (l1.filter fun s => s.arg.isPositional).map Slot.place = q1 ∧ (l2.filter fun s => s.arg.isPositional).map Slot.place = q2 := by
  induction l generalizing q1 with
  | nil => simp at h
  | cons s l ih =>
    rw [List.filter_cons] at h
    cases hp : s.arg.isPositional with
    | false =>
      simp only [hp, Bool.false_eq_true, if_false] at h
      obtain ⟨l1, t, l2, rfl, h1, h2, h3, h4⟩ := ih h
      exact ⟨s :: l1, t, l2, rfl, h1, h2, by simpa [List.filter_cons, hp] using h3, h4⟩
    | true =>
      simp only [hp, if_true, List.map_cons] at h
      cases q1 with
      | nil =>
        rw [List.nil_append] at h
        injection h with h1 h2
        exact ⟨[], s, l, rfl, hp, h1, rfl, h2⟩
      | cons r q1 =>
        rw [List.cons_append] at h
        injection h with h1 h2
        obtain ⟨l1, t, l2, rfl, h3, h4, h5, h6⟩ := ih h2
        exact ⟨s :: l1, t, l2, rfl, h3, h4, by simp [List.filter_cons, hp, h1, h5], h6⟩

/-! ### The theorem -/

theorem uncounted_recount {D : Type} {l : List (Slot D)} {f g : Slot D → Argument D} (h : ∀ s ∈ l, ∃ n, f s = (g s).recount n) :
    ((l.map fun s : Slot D => { s with arg := f s }).map fun s : Slot D => { s with arg := { s.arg with count := 0 } }) =
    (l.map fun s : Slot D => { s with arg := g s }).map fun s : Slot D => { s with arg := { s.arg with count := 0 } } := by
  rw [List.map_map, List.map_map]
  refine List.map_congr_left fun s hs => ?_
  obtain ⟨n, e⟩ := h s hs
  simp only [Function.comp_def, e, Argument.recount]

theorem flatMap_same {α β : Type} {l : List α} {f g : α → List β} (h : ∀ x ∈ l, f x = g x) : l.flatMap f = l.flatMap g := by
  induction l with
  | nil => rfl
  | cons x l ih => rw [List.flatMap_cons, List.flatMap_cons, h x List.mem_cons_self, ih fun y hy => h y (List.mem_cons_of_mem _ hy)]

theorem places_nodup {st : State D} {full : Prop} (hi : GInv full st) : (st.places.map (·.id)).Nodup := by
  unfold State.places
  rw [List.map_map]
  exact (List.filter_sublist.map (fun s : Slot D => s.node)).nodup hi.nodes

/-- The saved line does not depend on the counters. -/
theorem saved_uncounted (flag : Nat → Str) {st now again : State D} (h : again.uncounted = now.uncounted) :
    savedLine flag st again = savedLine flag st now := by
  have key : ∀ x : State D, savedLine flag st x = savedLine flag st x.uncounted := by
    intro x
    unfold savedLine State.uncounted
    simp only [List.flatMap_map, List.filter_map, List.map_map]
    rfl
  rw [key, h, ← key]

/-- C96. For every parser and every command line it accepts: the line written from what the parser then holds -- each option that
occurs, in listing order, with its values, then `--`, what the positional arguments received, and the surplus words -- is
accepted by the same parser, and leaves it exactly as the first did: values, texts, numbers, defaults, destinations, program
name, surplus words, calls made; all but the counters; so that saving again writes the same line. Conditions: validators that only check, flags that can be typed (C69),
no word behind a positional list, no use that keeps earlier values. -/
theorem C96_replay {scan : Str → Option D} {st now : State D} {prog : Str} {line : List Str} {evs : List Event} {flag : Nat → Str}
    (h : Ready scan st (prog :: line)) (hl : Line st.sig st.places line evs none)
    (hok : st.parseArguments scan (prog :: line) = (now, .ok ()))
    (hc : ∀ s ∈ st.arguments, ∀ v, s.arg.valid = some v → ChecksOnly v)
    (hflag : ∀ s ∈ now.arguments, s.arg.isPositional = false → s.arg.isExist = true → Writes st.sig s.entry (flag s.obj) none)
    (hlast : ListLast st now) (hk : NoneKept st evs) (h' : Ready scan st (prog :: savedLine flag st now)) :
    ∃ again, st.parseArguments scan (prog :: savedLine flag st now) = (again, .ok ()) ∧ again.uncounted = now.uncounted ∧
      savedLine flag st again = savedLine flag st now := by
  suffices hmain : ∃ again, st.parseArguments scan (prog :: savedLine flag st now) = (again, .ok ()) ∧ again.uncounted = now.uncounted by
    obtain ⟨again, h1, h2⟩ := hmain
    exact ⟨again, h1, h2, saved_uncounted flag h2⟩
  have hok1 : (st.parseArguments scan (prog :: line)).1 = now := congrArg Prod.fst hok
  have hok2 : (st.parseArguments scan (prog :: line)).2 = .ok () := congrArg Prod.snd hok
  have hl1 : Line st.sig st.places ((prog :: line).drop 1) evs none := hl
  have hi : GInv False st := h.inv
  have hargs := after_checks h hl1 hok2 hc
  obtain ⟨r1, r2, r3⟩ := parse_result h hl1 hok2
  rw [hok1] at hargs r3
  have hadd : now.additional = st.additional ++ extras evs := by rw [r3]
  obtain ⟨s1, s2, s3⟩ := (parse_ok_iff h hl1).1 hok2
  -- what the line says
  let us : List Use := now.arguments.flatMap (Slot.savedUses flag)
  have hws : now.additional.drop st.additional.length = extras evs := by rw [hadd, List.drop_left]
  have hfs0 := saved_fills (scan := scan) hi hl
  rw [← hargs] at hfs0
  have hgrp : PlacesGrouped st.places := by
    intro p hp hkd
    exact sane_places h.sane p hp (.inr hkd)
  obtain ⟨fs, f1, f2, f3, f4⟩ := (line_places hl hgrp).zip
  have hfs : (((now.arguments.filter fun s => s.arg.isPositional && s.arg.isExist).map fun s => s.arg.received (st.sizeOf s.obj)) = fs) := by
    rw [hfs0]
    have := fills_zip (places_nodup hi) f1
    rw [← this]
    congr 1
    funext p
    rw [f2]
  have hline : savedLine flag st now = written us fs (extras evs) := by
    unfold savedLine
    rw [hws, hfs]
  have hsaved : ∀ s ∈ st.arguments, Slot.savedUses flag { s with arg := (s.arg.afterTokens s.node evs).toNumber scan } = _ :=
    fun s hs => saved_uses (scan := scan) hi hs hl flag
  have hus : us = st.arguments.flatMap fun s => if s.arg.isPositional = false ∧ uses s.node evs ≠ [] then
        (usesFor s.arg.type ((s.arg.reset.occurs (uses s.node evs)).toVector.getD [])
          ((s.arg.reset.occurs (uses s.node evs)).toVecVec.getD [])).map fun vals => (⟨s.entry, flag s.obj, vals⟩ : Use)
      else [] := by
    show now.arguments.flatMap (Slot.savedUses flag) = _
    rw [hargs, List.flatMap_map]
    exact flatMap_same fun s hs => hsaved s hs
  have hkept : ∀ s ∈ st.arguments, NothingKept s.arg.reset (uses s.node evs) := by
    intro s hs u hu h1 hty
    by_cases he : s.arg.elems = []
    · unfold Argument.reset; simp [he]
    · have := hk s hs hty he u hu
      rw [h1] at this
      cases this
  have husok : ∀ u ∈ us, u.Ok st.sig := by
    intro u hu
    rw [hus] at hu
    obtain ⟨s, hs, hu⟩ := List.mem_flatMap.1 hu
    split at hu
    next hcond =>
      obtain ⟨vals, hv, rfl⟩ := List.mem_map.1 hu
      refine ⟨?_, ?_⟩
      · have hm : ({ s with arg := (s.arg.afterTokens s.node evs).toNumber scan } : Slot D) ∈ now.arguments := by
          rw [hargs]; exact List.mem_map.2 ⟨s, hs, rfl⟩
        obtain ⟨n1, n2, n3, n4⟩ := toNumber_same scan (s.arg.afterTokens s.node evs)
        obtain ⟨t1, t2, t3, _⟩ := tokens_same s.node evs s.arg
        have := hflag _ hm (by simp only [n4, t3]; exact hcond.1)
          (by simp only [n1]; exact (afterTokens_marks hi hs hl).1.2 (.inl hcond.2))
        have he : Slot.entry { s with arg := (s.arg.afterTokens s.node evs).toNumber scan } = s.entry := by
          unfold Slot.entry
          simp only [n2, n3, t1, t2]
        rw [he] at this
        exact this
      · exact again_sayable (sig := st.sig) (e := s.entry) (c := s.arg.reset) rfl rfl hcond.2 (option_uses hi hs hcond.1 hl).2 (hkept s hs)
          (C69_sayable h hl1 hs) vals hv
    · cases hu
  have hfill : Filled st.isStrict st.places fs (extras evs) := by
    refine filled_of f1 f3 ?_ f4 ?_
    · intro p hp
      unfold State.places at hp
      obtain ⟨s, hs, rfl⟩ := List.mem_map.1 hp
      have := (List.mem_filter.1 hs).2
      have hp' : s.arg.type.isPositional = true := this
      show s.arg.type = _ ∨ s.arg.type = _ ∨ s.arg.type = _ ∨ s.arg.type = _
      cases hkd : s.arg.type <;> simp_all [Ty.isPositional]
    · intro q1 p q2 e hkd hlt
      obtain ⟨l1, s, l2, el, hp, rfl, e1, e2⟩ := places_split (l := st.arguments) e
      have hs : s ∈ st.arguments := by rw [el]; simp
      have hx : (s.arg.afterTokens s.node evs).isExist = true := by
        refine (afterTokens_marks hi hs hl).1.2 (.inr ?_)
        have := f2 s.place.id
        rw [show s.place.id = s.node from rfl] at this
        rw [this]
        exact fills_at e hlt
      obtain ⟨n1, n2, n3, n4⟩ := toNumber_same scan (s.arg.afterTokens s.node evs)
      obtain ⟨t1, t2, t3, _⟩ := tokens_same s.node evs s.arg
      rw [el, List.map_append, List.map_cons] at hargs
      obtain ⟨k1, k2⟩ := hlast _ _ _ hargs (by simp only [n2, t1]; exact hkd) (by simp only [n1]; exact hx)
      constructor
      · rcases Nat.lt_or_ge (q1.length + 1) fs.length with hlt' | hge
        · exfalso
          cases q2 with
          | nil =>
            have : st.places.length = q1.length + 1 := by rw [show st.places = _ from e]; simp
            omega
          | cons p2 q2 =>
            have e' : st.places = (q1 ++ [s.place]) ++ p2 :: q2 := by rw [show st.places = _ from e]; simp
            have hne := fills_at e' (fs := fs) (by simpa using hlt')
            have hm : p2 ∈ (l2.filter fun s => s.arg.isPositional).map Slot.place := by rw [e2]; simp
            obtain ⟨t, ht, rfl⟩ := List.mem_map.1 hm
            obtain ⟨ht, htp⟩ := List.mem_filter.1 ht
            have hts : t ∈ st.arguments := by rw [el]; simp [ht]
            obtain ⟨n1', _, _, n4'⟩ := toNumber_same scan (t.arg.afterTokens t.node evs)
            obtain ⟨_, _, t3', _⟩ := tokens_same t.node evs t.arg
            have := k1 _ (List.mem_map.2 ⟨t, ht, rfl⟩) (by simp only [n4', t3']; exact htp)
            simp only [n1'] at this
            rw [(afterTokens_marks hi hts hl).1.2 (.inr (by rw [f2]; exact hne))] at this
            cases this
        · omega
      · rw [hadd] at k2
        simpa using k2
  rw [hline] at h' ⊢
  obtain ⟨hl', -⟩ := C69_written h' husok hfill
  generalize hevs : said st.places us fs (extras evs) = evs' at hl'
  have hl1' : Line st.sig st.places ((prog :: written us fs (extras evs)).drop 1) evs' none := hl'
  -- each argument gets the same
  have huses : ∀ s ∈ st.arguments, uses s.node evs' = if s.arg.isPositional = false ∧ uses s.node evs ≠ [] then
      plainly (usesFor s.arg.type ((s.arg.reset.occurs (uses s.node evs)).toVector.getD [])
        ((s.arg.reset.occurs (uses s.node evs)).toVecVec.getD [])) else [] := by
    intro s hs
    rw [← hevs, uses_said, hus]
    rw [uses_of_one hi.nodes _ hs]
    · split
      · rw [List.map_map]; congr 1; exact List.map_id _
      · rfl
    · intro t ht u hu
      split at hu
      · obtain ⟨vals, _, rfl⟩ := List.mem_map.1 hu
        rfl
      · cases hu
  have hfills : ∀ n, fills n evs' = fills n evs := by
    intro n
    rw [← hevs, fills_said, f2]
  have hextra : extras evs' = extras evs := by rw [← hevs, extras_said]
  have hsame : ∀ s ∈ st.arguments, ∃ n, s.arg.afterTokens s.node evs' = (s.arg.afterTokens s.node evs).recount n :=
    fun s hs => again_tokens hi hs hl hl' hk (huses s hs) (hfills _)
  have hocc : ∀ s ∈ st.arguments, Occurs s.node evs' ↔ Occurs s.node evs := by
    intro s hs
    rw [← occurs_iff hi hs hl, ← occurs_iff hi hs hl']
    obtain ⟨n, e⟩ := hsame s hs
    rw [e]
    rfl
  have hfin : ∀ s ∈ st.arguments, ((s.arg.afterTokens s.node evs').finish scan).2 = ((s.arg.afterTokens s.node evs).finish scan).2 ∧
      ∃ n, (s.arg.afterTokens s.node evs').finished scan = ((s.arg.afterTokens s.node evs).finished scan).recount n := by
    intro s hs
    obtain ⟨n, e⟩ := hsame s hs
    unfold Argument.finished
    rw [e, Argument.recount_finish]
    exact ⟨rfl, n, rfl⟩
  have hok' : (st.parseArguments scan (prog :: written us fs (extras evs))).2 = .ok () := by
    refine (parse_ok_iff h' hl1').2 ⟨?_, ?_, ?_⟩
    · obtain ⟨t, ht, e, hn⟩ := s1.help
      refine ⟨⟨t, ht, e, fun ho => hn ((hocc t ht).1 ho)⟩, fun o ho => ?_⟩
      obtain ⟨t, ht, e, hn⟩ := s1.version o ho
      exact ⟨t, ht, e, fun ho => hn ((hocc t ht).1 ho)⟩
    · intro s hs hr
      exact (hocc s hs).2 (s2 s hs hr)
    · intro s hs
      rw [(hfin s hs).1]
      exact s3 s hs
  obtain ⟨-, -, r3'⟩ := parse_result h' hl1' hok'
  refine ⟨_, Prod.ext r3' hok', ?_⟩
  rw [r3, hextra]
  unfold State.uncounted
  have hlog : (st.arguments.flatMap fun s => ((s.arg.afterTokens s.node evs').finish scan).2.1) =
      st.arguments.flatMap fun s => ((s.arg.afterTokens s.node evs).finish scan).2.1 :=
    flatMap_same fun s hs => by rw [(hfin s hs).1]
  rw [hlog]
  have hm := uncounted_recount (l := st.arguments) (f := fun s => (s.arg.afterTokens s.node evs').finished scan)
    (g := fun s => (s.arg.afterTokens s.node evs).finished scan) fun s hs => (hfin s hs).2
  simp only [hm]
  rfl

/-! ### Examples -/

/-- Flags of the options of the reference parser. -/
def parserFlags (ref : Nat) : Str :=
  ((["--out", "", "-v", "-n", "--list", "-a", "-g", "-q", "", "-h", "-e", "-x"][ref]?).getD "").toList

def parserNow : State Unit := (parser.parseArguments demoScan parserLine).1

/-- What is saved of the long command line. -/
theorem parserLine_saved : savedLine parserFlags parser parserNow =
    ["-a=c", "-a=d", "-e=p", "-e=q", "-e=r", "-g", "e", "f", "-g", "i", "j", "--list", "x", "y", "-n", "a", "b",
      "--out=2", "-q", "-v", "-x", "1", "2", "-x", "3", "4", "--", "in", "k", "l"].map String.toList := by
  decide +kernel

theorem parserFlags_write : ∀ s ∈ parserNow.arguments, s.arg.isPositional = false → s.arg.isExist = true →
    Writes parser.sig s.entry (parserFlags s.obj) none := by
  have hd : parserNow.arguments.all (fun s => s.arg.isPositional || !s.arg.isExist || (!(parserFlags s.obj).contains '=' &&
      match parser.getArgument (parserFlags s.obj) with
      | .ok t => decide (t.arg.isPositional = false ∧ t.entry = s.entry)
      | _ => false)) = true := by decide +kernel
  intro s hs hp hx
  have := List.all_eq_true.1 hd s hs
  rw [hp, hx] at this
  simp only [Bool.not_true, Bool.or_self, Bool.false_or, Bool.and_eq_true, Bool.not_eq_true', List.contains_eq_mem, decide_eq_false_iff_not] at this
  obtain ⟨h1, h2⟩ := this
  obtain ⟨t, g1, g2, g3⟩ : ∃ t, parser.getArgument (parserFlags s.obj) = .ok t ∧ t.arg.isPositional = false ∧ t.entry = s.entry := by
    revert h2
    cases parser.getArgument (parserFlags s.obj) with
    | ok t => intro h; exact ⟨t, rfl, by simpa using h⟩
    | _ => intro h; cases h
  rw [← g3]
  refine C69_flags (scan := demoScan) parser_history.reachable g1 g2 h1 fun c _ ha => ?_
  exact absurd ha (by decide +kernel)

theorem listLast_of {st now : State D} (ha : now.additional = st.additional)
    (h : ∀ k s, now.arguments[k]? = some s → s.arg.type = .infinitePos ∨ s.arg.type = .infiniteNumberPos →
      s.arg.isExist = true → ∀ t ∈ now.arguments.drop (k + 1), t.arg.isPositional = true → t.arg.isExist = false) : ListLast st now := by
  intro l1 s l2 e hty hx
  refine ⟨fun t ht hp => h l1.length s (by rw [e]; simp) hty hx t (by rw [e]; simp [List.drop_append, ht]) hp, ha⟩

theorem parserNow_last : ListLast parser parserNow := by
  refine listLast_of (by decide +kernel) ?_
  have hd : (List.range parserNow.arguments.length).all (fun k => match parserNow.arguments[k]? with
      | some s => (s.arg.type != .infinitePos && s.arg.type != .infiniteNumberPos) || !s.arg.isExist ||
          (parserNow.arguments.drop (k + 1)).all fun t => !t.arg.isPositional || !t.arg.isExist
      | none => true) = true := by decide +kernel
  intro k s hk hty hx t ht hp
  have hlt : k < parserNow.arguments.length := (List.getElem?_eq_some_iff.1 hk).1
  have := List.all_eq_true.1 hd k (List.mem_range.2 hlt)
  rw [hk] at this
  simp only [hx, Bool.not_true, Bool.or_false, Bool.or_eq_true] at this
  rcases this with h | h
  · rcases hty with e | e <;> rw [e] at h <;> simp at h
  · have := List.all_eq_true.1 h t ht
    rw [hp] at this
    simpa using this

theorem parser_plain : ∀ s ∈ parser.arguments, s.arg.valid = none ∧ s.arg.elems = [] := by
  have : parser.arguments.all (fun s => s.arg.valid.isNone && s.arg.elems.isEmpty) = true := by decide +kernel
  intro s hs
  simpa using List.all_eq_true.1 this s hs

theorem parserLine_split : parserLine = "prog".toList :: parserLine.drop 1 := rfl

theorem parserNow_is : parser.parseArguments demoScan ("prog".toList :: parserLine.drop 1) = (parserNow, .ok ()) := by
  have h := parserLine_ok
  rw [← parserLine_split]
  unfold parserNow
  generalize parser.parseArguments demoScan parserLine = r at h
  exact Prod.ext rfl h

theorem parserSaved_ready : Ready demoScan parser ("prog".toList :: savedLine parserFlags parser parserNow) := by
  rw [parserLine_saved]
  exact parser_words _ (by decide +kernel)

attribute [local irreducible] parser parserLine parserNow parserSays in
/-- The long command line, saved and repeated. -/
example : ∃ again, parser.parseArguments demoScan ("prog".toList :: savedLine parserFlags parser parserNow) = (again, .ok ()) ∧
    again.uncounted = parserNow.uncounted ∧ savedLine parserFlags parser again = savedLine parserFlags parser parserNow :=
  C96_replay (line := parserLine.drop 1) (prog := "prog".toList) (parserLine_split ▸ parserLine_ready) parserLine_says parserNow_is
    (fun s hs v hv => by rw [(parser_plain s hs).1] at hv; cases hv) parserFlags_write parserNow_last
    (fun s hs _ he => absurd (parser_plain s hs).2 he) parserSaved_ready

def spreadNow : State Unit := (parser.parseArguments demoScan (["prog", "in", "k", "-v", "l"].map String.toList)).1

/-- With a word behind a list and an option in between, the saved line says something else: the list takes all. -/
example : savedLine parserFlags parser spreadNow = ["-v", "--", "in", "k", "l"].map String.toList ∧
    (parser.parseArguments demoScan ("prog".toList :: savedLine parserFlags parser spreadNow)).1.additional ≠ spreadNow.additional := by
  exact ⟨by decide +kernel, by decide +kernel⟩

def keepsDefault : State Unit := runOps demoScan parser [.defaults 5 ["d".toList]]
def keptNow : State Unit := (keepsDefault.parseArguments demoScan (["prog", "-ax", "in"].map String.toList)).1

/-- A use `-aVALUE` that keeps the default: the saved line has the default as a value given. -/
example : savedLine parserFlags keepsDefault keptNow = ["-a=d", "-a=x", "--", "in"].map String.toList ∧
    ((keepsDefault.parseArguments demoScan ("prog".toList :: savedLine parserFlags keepsDefault keptNow)).1.atObj 5).map (·.arg.elems.map (·.dflt)) ≠
      (keptNow.atObj 5).map (·.arg.elems.map (·.dflt)) :=
  ⟨by decide +kernel, by decide +kernel⟩

end BletArgs
