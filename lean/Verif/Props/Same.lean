import Verif.Props.Again
import Verif.Props.Defaults
/-
C36, the values: which arguments are, after a second parse, the same as if it were the first.
-/
namespace BletArgs
open Spec
variable {D : Type}

/-- The same argument with other sub-elements. -/
def Argument.withElems (a : Argument D) (es : List (Elem D)) : Argument D := { a with elems := es }

theorem withElems_twice (a : Argument D) (es fs : List (Elem D)) : (a.withElems es).withElems fs = a.withElems fs := rfl

theorem take_withElems (a : Argument D) (es : List (Elem D)) (vals : Values) :
    ∃ fs, (a.withElems es).take vals = (a.take vals).withElems fs := by
  have hc : ∀ gs : List (Elem D), ∃ fs, (a.withElems es).clearIfFirst.push gs = (a.clearIfFirst.push gs).withElems fs := by
    intro gs
    unfold Argument.clearIfFirst Argument.push Argument.withElems
    cases hx : a.isExist with
    | true => exact ⟨es ++ gs, by simp [hx]⟩
    | false => exact ⟨gs, by simp [hx]⟩
  cases vals with
  | nothing => exact ⟨es, rfl⟩
  | single v => exact ⟨es, rfl⟩
  | groups gs => exact hc _
  | list vs =>
    obtain ⟨fs, h⟩ := hc (vs.map valElem)
    have ht : (a.withElems es).type = a.type := rfl
    unfold Argument.take
    simp only
    rw [ht]
    split
    · exact ⟨fs, h⟩
    · exact ⟨fs, h⟩
    · exact ⟨vs.map valElem, rfl⟩

theorem occurs_withElems (a : Argument D) (es : List (Elem D)) (us : List (Bool × Values)) :
    ∃ fs, (a.withElems es).occurs us = (a.occurs us).withElems fs := by
  induction us using list_snoc_induction with
  | hn => exact ⟨es, rfl⟩
  | hs us u ih =>
    obtain ⟨fs, h⟩ := ih
    rw [occurs_concat, occurs_concat, h]
    obtain ⟨att, vals⟩ := u
    unfold Argument.occur
    cases att with
    | true =>
      obtain ⟨gs, h'⟩ := take_withElems (a.occurs us).mark fs vals
      exact ⟨gs, (congrArg Argument.mark h' :)⟩
    | false =>
      obtain ⟨gs, h'⟩ := take_withElems (a.occurs us) fs vals
      exact ⟨gs, (congrArg Argument.mark h' :)⟩

/-- Two arguments of the same configuration differ, once reset, in their sub-elements only. -/
theorem reset_withElems {a b : Argument D} (h : b.config = a.config) : b.reset = a.reset.withElems b.reset.elems := by
  cases a; cases b
  simp only [Argument.config, Argument.mk.injEq] at h
  simp only [Argument.reset, Argument.withElems, Argument.mk.injEq]
  grind

/-- Resetting forgets a reset and the conversion to numbers. -/
theorem reset_toNumber_reset (scan : Str → Option D) (a : Argument D) : (a.reset.toNumber scan).reset = a.reset := by
  unfold Argument.toNumber
  split
  · simp [Argument.reset, Function.comp_def]
  · split
    · rename_i h
      have h : a.elems = [] := by simpa [Argument.reset] using h
      simp [Argument.reset, h]
    · simp only [Argument.reset, List.map_map, Argument.mk.injEq, true_and]
      refine ⟨List.map_congr_left fun e _ => ?_, trivial⟩
      simp only [Function.comp_apply]
      split <;> simp [Function.comp_def]

/-- C36, the values. After a parse that returned or threw, a second accepted parse leaves the following
arguments exactly as it would have if it had been the first (every accessor answers the same): arguments with one
value, options with a list or groups of values that occur on the second command line (unless the first occurrence
is the attached form of an accumulating option, which keeps what was there). -/
theorem C36_same_values {scan : Str → Option D} {st : State D} (hc : ReachableBy scan Careful st) {argv argv' : List Str}
    (h : Ready scan st argv') (hshort : argv.length < 2 ^ 31)
    (hg : (st.parseArguments scan argv).2.goesOn = true) {evs : List Event}
    (hl : Line st.sig st.places (argv'.drop 1) evs none)
    (hok1 : ((st.parseArguments scan argv).1.parseArguments scan argv').2 = .ok ())
    (hok2 : (st.parseArguments scan argv').2 = .ok ()) {s : Slot D} (hs : s ∈ st.arguments)
    (hcase : SingleKind s.arg.type ∨
      (s.arg.isPositional = false ∧ ¬Valueless s.arg.type ∧ Occurs s.node evs ∧
        (uses s.node evs).head?.map (fun u => u.1) ≠ some true)) :
    ∃ s1 s2, ((st.parseArguments scan argv).1.parseArguments scan argv').1.atObj s.obj = some s1 ∧
      (st.parseArguments scan argv').1.atObj s.obj = some s2 ∧ s1.arg = s2.arg := by
  obtain ⟨h1, _, _, h4⟩ := ready_again h hg
  obtain ⟨u, hu, e1, e2, e3⟩ := h4 s hs
  obtain ⟨hl', _⟩ := C36_same_reading h hg hl
  have hshape := hc.shaped
  have hshape1 := (ReachableBy.step (.parse argv) hc hg hshort : ReachableBy scan Careful (st.parseArguments scan argv).1).shaped
  have a1 := parse_atObj h1 hl' hok1 hu
  have a2 := parse_atObj h hl hok2 hs
  rw [e1] at a1
  refine ⟨_, _, a1, a2, ?_⟩
  show (u.arg.afterTokens u.node evs).finished scan = (s.arg.afterTokens s.node evs).finished scan
  congr 1
  rw [e2]
  have ht : u.arg.type = s.arg.type := (congrArg (fun x : Argument D => x.type) e3 :)
  have hn : u.arg.nargs = s.arg.nargs := (congrArg (fun x : Argument D => x.nargs) e3 :)
  have hr := reset_withElems e3
  rcases hcase with hk | ⟨hp, hv, ho, hatt⟩
  · have x1 := (hshape s hs).single hk
    have x2 := (hshape1 u hu).single (by rw [ht]; exact hk)
    have : u.arg.reset = s.arg.reset := by
      rw [hr]
      have y1 : u.arg.reset.elems = [] := by simp [Argument.reset, x2]
      have y2 : s.arg.reset.elems = [] := by simp [Argument.reset, x1]
      rw [y1, ← y2]; rfl
    unfold Argument.afterTokens
    rw [this]
  · have hp' : u.arg.isPositional = false := by
      unfold Argument.isPositional at *; rw [ht]; exact hp
    have b1 := afterTokens_option h1.inv hu hp' hl'
    have b2 := afterTokens_option h.inv hs hp hl
    rw [e2] at b1
    rw [b1, b2]
    obtain ⟨hnf, hfit⟩ := option_uses h.inv hs hp hl
    have hne : uses s.node evs ≠ [] := by
      rcases ho with ho | ho
      · exact ho
      · intro hn
        cases hf : fills s.node evs with
        | nil => exact ho hf
        | cons v l => exact absurd rfl (hnf _ v (mem_fills.1 (by rw [hf]; simp)))
    obtain ⟨fs, hfs⟩ := occurs_withElems s.arg.reset u.arg.reset.elems (uses s.node evs)
    rw [← hr] at hfs
    have hel : (u.arg.reset.occurs (uses s.node evs)).elems = (s.arg.reset.occurs (uses s.node evs)).elems →
        u.arg.reset.occurs (uses s.node evs) = s.arg.reset.occurs (uses s.node evs) := by
      intro he
      rw [hfs] at he ⊢
      have : fs = (s.arg.reset.occurs (uses s.node evs)).elems := he
      rw [this]; rfl
    by_cases hsim : s.arg.type = .simple
    · -- a single value: as above
      have x1 := (hshape s hs).single (.inl hsim)
      have x2 := (hshape1 u hu).single (by rw [ht]; exact .inl hsim)
      rw [hr]
      have y1 : u.arg.reset.elems = [] := by simp [Argument.reset, x2]
      have y2 : s.arg.reset.elems = [] := by simp [Argument.reset, x1]
      rw [y1, ← y2]; rfl
    apply hel
    revert hfit hne hatt
    generalize uses s.node evs = us
    intro hatt hfit hne
    have ty1 : u.arg.reset.type = s.arg.type := ht
    have na1 : u.arg.reset.nargs = s.arg.nargs := hn
    by_cases hacc : Accumulates s.arg.type
    · cases us with
      | nil => exact absurd rfl hne
      | cons w us =>
        have hw : w.1 = false := by
          cases hb : w.1 with
          | false => rfl
          | true => exact absurd (by simp [hb]) hatt
        rw [occurs_accumulates (a := u.arg.reset) (by rw [ty1]; exact hacc) rfl
            (fun v hv => by rw [ty1, na1]; exact (hfit v hv).1),
          occurs_accumulates (a := s.arg.reset) hacc rfl (fun v hv => (hfit v hv).1), hw]
        rfl
    · obtain ⟨us', w, rfl⟩ : ∃ us' w, us = us' ++ [w] := ⟨us.dropLast, us.getLast hne, (List.dropLast_concat_getLast hne).symm⟩
      obtain ⟨att, vals⟩ := w
      have hf := (hfit (att, vals) (by simp)).1
      have hkind : s.arg.type = .number ∨ s.arg.type = .infinite := by
        unfold Argument.isPositional at hp
        unfold Accumulates at hacc
        unfold Valueless at hv
        revert hp hacc hv hsim
        generalize s.arg.type = k
        cases k <;> simp [Ty.isPositional]
      obtain ⟨vs, q1, g1⟩ := occurs_list (a := u.arg.reset) (us := us') (att := att) (vals := vals)
        (by rw [ty1]; exact hkind) (by rw [ty1, na1]; exact hf)
      obtain ⟨vs', q2, g2⟩ := occurs_list (a := s.arg.reset) (us := us') (att := att) (vals := vals) hkind hf
      rw [q1] at q2
      cases q2
      rw [g1, g2]

/-- C36, what was not touched. An argument of any kind that does not occur on a first command line that was
accepted is, after a second accepted parse, exactly as if that had been the first, whether it occurs there or
not. -/
theorem C36_same_untouched {scan : Str → Option D} {st : State D} {argv argv' : List Str}
    (h0 : Ready scan st argv) (h : Ready scan st argv')
    {evs0 evs : List Event} (hl0 : Line st.sig st.places (argv.drop 1) evs0 none)
    (hok0 : (st.parseArguments scan argv).2 = .ok ())
    (hl : Line st.sig st.places (argv'.drop 1) evs none)
    (hok1 : ((st.parseArguments scan argv).1.parseArguments scan argv').2 = .ok ())
    (hok2 : (st.parseArguments scan argv').2 = .ok ()) {s : Slot D} (hs : s ∈ st.arguments)
    (habs : ¬Occurs s.node evs0) :
    ∃ s1 s2, ((st.parseArguments scan argv).1.parseArguments scan argv').1.atObj s.obj = some s1 ∧
      (st.parseArguments scan argv').1.atObj s.obj = some s2 ∧ s1.arg = s2.arg := by
  have hg : (st.parseArguments scan argv).2.goesOn = true := by rw [hok0]; rfl
  obtain ⟨h1, _, _, h4⟩ := ready_again h hg
  obtain ⟨hl', _⟩ := C36_same_reading h hg hl
  have habs' := absent_result h0 hl0 hok0 hs habs
  have hu := List.mem_of_find?_eq_some habs'
  have a1 := parse_atObj h1 hl' hok1 hu
  have a2 := parse_atObj h hl hok2 hs
  refine ⟨_, _, a1, a2, ?_⟩
  show ((s.arg.reset.toNumber scan).afterTokens s.node evs).finished scan = _
  unfold Argument.afterTokens
  rw [reset_toNumber_reset]

/-- The hypotheses of both theorems are met: the option `-g` of `defaultsParser` (two values each time, with
defaults) is used on a first and on a second command line, `-o` on the first only, the positional list on the
second only. -/
example :
    let argv := ["prog", "-o", "1", "-g", "p", "q"].map String.toList
    let argv' := ["prog", "-g", "r", "s", "t"].map String.toList
    ReachableBy demoScan Careful defaultsParser ∧ Ready demoScan defaultsParser argv ∧
    Ready demoScan defaultsParser argv' ∧ (defaultsParser.parseArguments demoScan argv).2 = .ok () ∧
    (defaultsParser.parseArguments demoScan argv').2 = .ok () ∧
    ((defaultsParser.parseArguments demoScan argv).1.parseArguments demoScan argv').2 = .ok () ∧
    (∃ evs, Line defaultsParser.sig defaultsParser.places (argv'.drop 1) evs none ∧
      ∃ s ∈ defaultsParser.arguments, s.obj = 1 ∧ s.arg.isPositional = false ∧ ¬Valueless s.arg.type ∧
        Occurs s.node evs ∧ (uses s.node evs).head?.map (fun u => u.1) ≠ some true) ∧
    ∃ evs, Line defaultsParser.sig defaultsParser.places (argv.drop 1) evs none ∧
      ∃ s ∈ defaultsParser.arguments, s.obj = 4 ∧ ¬Occurs s.node evs := by
  intro argv argv'
  have hc : ReachableBy demoScan Careful defaultsParser := defaultsParser_careful.mono fun _ _ _ h => h.1
  have hr : ∀ l : List Str, l.length < 100 → l.head? = some "prog".toList → Ready demoScan defaultsParser l := fun l h1 h2 =>
    .of_history (defaultsParser_careful.mono fun _ _ _ h => h.1.disciplined) (by decide +kernel) (by omega)
      ⟨"prog".toList, h2, by decide +kernel⟩
  have r1 := hr argv (by decide) rfl
  have r2 := hr argv' (by decide) rfl
  have o1 : (defaultsParser.parseArguments demoScan argv).2 = .ok () := by decide +kernel
  have o2 : (defaultsParser.parseArguments demoScan argv').2 = .ok () := by decide +kernel
  refine ⟨hc, r1, r2, o1, o2, by decide +kernel, ?_, ?_⟩
  · obtain ⟨evs, hl, _⟩ := parse_ok r2 o2
    refine ⟨evs, hl, ?_⟩
    obtain ⟨s, hs, e, hp, hv⟩ : ∃ s ∈ defaultsParser.arguments, s.obj = 1 ∧ s.arg.isPositional = false ∧ s.arg.type = .multiNumber :=
      ⟨(defaultsParser.atObj 1).get (by decide +kernel), List.mem_of_find?_eq_some (Option.some_get _).symm,
        by decide +kernel, by decide +kernel, by decide +kernel⟩
    obtain ⟨s', a1, _, a2, a3⟩ := (C20_records r2 hl (by rw [o2]; rfl)).1 s hs
    rw [e] at a1
    have hcount : ((defaultsParser.parseArguments demoScan argv').1.atObj 1).map (fun s => (s.arg.isExist, s.arg.count)) =
      some (true, 1) := by decide +kernel
    rw [a1] at hcount
    simp only [Option.map_some, Option.some.injEq, Prod.mk.injEq] at hcount
    refine ⟨s, hs, e, hp, by rw [hv]; simp [Valueless], a2.1 hcount.1, ?_⟩
    rw [hcount.2] at a3
    cases hu : uses s.node evs with
    | nil => simp
    | cons u us =>
      rw [hu] at a3
      cases hb : u.1 with
      | false => simp [hb]
      | true => exfalso; simp [hb] at a3; omega
  · obtain ⟨evs, hl, _⟩ := parse_ok r1 o1
    refine ⟨evs, hl, ?_⟩
    obtain ⟨s, hs, e⟩ : ∃ s ∈ defaultsParser.arguments, s.obj = 4 :=
      ⟨(defaultsParser.atObj 4).get (by decide +kernel), List.mem_of_find?_eq_some (Option.some_get _).symm,
        by decide +kernel⟩
    obtain ⟨s', a1, _, a2, _⟩ := (C20_records r1 hl (by rw [o1]; rfl)).1 s hs
    rw [e] at a1
    have hx : ((defaultsParser.parseArguments demoScan argv).1.atObj 4).map (fun s => s.arg.isExist) = some false := by
      decide +kernel
    rw [a1] at hx
    simp only [Option.map_some, Option.some.injEq] at hx
    refine ⟨s, hs, e, fun ho => ?_⟩
    have := a2.2 ho
    rw [hx] at this
    cases this

end BletArgs
