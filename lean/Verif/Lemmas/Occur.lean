import Verif.Lemmas.Outcome
/-
The value of an argument after a list of occurrences, and after the last loop of the parse.
-/
namespace BletArgs
open Spec
variable {D : Type}

/-- An option after its occurrences. -/
def Argument.occurs (a : Argument D) (us : List (Bool × Values)) : Argument D :=
  us.foldl (fun a u => a.occur u.1 u.2) a

theorem occurs_concat (a : Argument D) (us : List (Bool × Values)) (u : Bool × Values) :
    a.occurs (us ++ [u]) = (a.occurs us).occur u.1 u.2 := by
  unfold Argument.occurs; rw [List.foldl_append]; rfl

theorem list_snoc_induction {α : Type} {P : List α → Prop} (hn : P []) (hs : ∀ l x, P l → P (l ++ [x])) (l : List α) :
    P l := by
  have : ∀ l : List α, P l.reverse := by
    intro l
    induction l with
    | nil => exact hn
    | cons x l ih => rw [List.reverse_cons]; exact hs _ _ ih
  have := this l.reverse
  rwa [List.reverse_reverse] at this

theorem occurs_config (a : Argument D) (us : List (Bool × Values)) : (a.occurs us).config = a.config := by
  induction us using list_snoc_induction with
  | hn => rfl
  | hs us u ih => rw [occurs_concat, occur_config, ih]

theorem occurs_type (a : Argument D) (us : List (Bool × Values)) : (a.occurs us).type = a.type :=
  (congrArg (fun x : Argument D => x.type) (occurs_config a us) :)

/-- How often an occurrence is counted. -/
def weight (u : Bool × Values) : Nat := if u.1 then 2 else 1

theorem take_marks (vals : Values) (a : Argument D) : (a.take vals).isExist = a.isExist ∧ (a.take vals).count = a.count := by
  have hc : a.clearIfFirst.isExist = a.isExist ∧ a.clearIfFirst.count = a.count := by
    unfold Argument.clearIfFirst; split <;> exact ⟨rfl, rfl⟩
  cases vals with
  | nothing => exact ⟨rfl, rfl⟩
  | single v => exact ⟨rfl, rfl⟩
  | list vs =>
    unfold Argument.take
    simp only
    split
    · exact hc
    · exact hc
    · exact ⟨rfl, rfl⟩
  | groups gs => exact hc

theorem occurs_marks (a : Argument D) (us : List (Bool × Values)) :
    (a.occurs us).isExist = (a.isExist || !us.isEmpty) ∧ (a.occurs us).count = a.count + (us.map weight).sum := by
  induction us using list_snoc_induction with
  | hn => simp [Argument.occurs]
  | hs us u ih =>
    rw [occurs_concat]
    obtain ⟨att, vals⟩ := u
    unfold Argument.occur
    have h := take_marks vals (if att = true then (a.occurs us).mark else a.occurs us)
    constructor
    · show true = _
      simp
    · show (Argument.take vals _).count + 1 = _
      rw [h.2]
      cases att with
      | true =>
        show (a.occurs us).count + 1 + 1 = _
        rw [ih.2]
        simp [weight]; omega
      | false =>
        show (a.occurs us).count + 1 = _
        rw [ih.2]
        simp [weight]; omega

theorem occur_take (att : Bool) (vals : Values) (a : Argument D) :
    (a.occur att vals).argument = ((if att = true then a.mark else a).take vals).argument ∧
    (a.occur att vals).elems = ((if att = true then a.mark else a).take vals).elems := ⟨rfl, rfl⟩

/-- Single-value options keep the value of the last occurrence. -/
theorem occurs_simple {a : Argument D} (ht : a.type = .simple) {us : List (Bool × Values)} {att : Bool} {vals : Values}
    (hf : ValuesFit a.nargs a.type vals) :
    ∃ v, vals = .single v ∧ (a.occurs (us ++ [(att, vals)])).argument = v := by
  rw [ht] at hf
  generalize hk : Ty.simple = k at hf
  cases hf with
  | single v => exact ⟨v, rfl, by rw [occurs_concat]; exact (occur_take att _ _).1⟩
  | nothing h => subst hk; simp [Valueless] at h
  | _ => exfalso; grind

theorem mark_type (b : Bool) (a : Argument D) : (if b = true then a.mark else a).type = a.type := by
  cases b <;> rfl

/-- Fixed-arity and plain infinite options keep the values of the last occurrence. -/
theorem occurs_list {a : Argument D} (ht : a.type = .number ∨ a.type = .infinite) {us : List (Bool × Values)} {att : Bool}
    {vals : Values} (hf : ValuesFit a.nargs a.type vals) :
    ∃ vs, vals = .list vs ∧ (a.occurs (us ++ [(att, vals)])).elems = vs.map valElem := by
  have hv : ∃ vs, vals = .list vs := by
    generalize a.type = k at *
    cases hf with
    | nothing h => rcases ht with h' | h' <;> subst h' <;> simp [Valueless] at h
    | one v => exact ⟨_, rfl⟩
    | fixed vs => exact ⟨_, rfl⟩
    | many vs => exact ⟨_, rfl⟩
    | _ => exfalso; grind
  obtain ⟨vs, rfl⟩ := hv
  refine ⟨vs, rfl, ?_⟩
  rw [occurs_concat, (occur_take att _ _).2]
  unfold Argument.take
  simp only
  rw [mark_type, occurs_type]
  rcases ht with ht | ht <;> rw [ht]

/-- What an occurrence pushes. -/
def newElems : Values → List (Elem D)
  | .nothing => []
  | .single _ => []
  | .list vs => vs.map valElem
  | .groups gs => gs.map valGroup

/-- Accumulating kinds. -/
def Accumulates (k : Ty) : Prop := k = .multi ∨ k = .multiInfinite ∨ k = .multiNumber ∨ k = .multiNumberInfinite

theorem take_accumulates {a : Argument D} (ht : Accumulates a.type) {n : Nat} {vals : Values} (hf : ValuesFit n a.type vals) :
    a.take vals = a.clearIfFirst.push (newElems vals) := by
  have ht' := ht
  unfold Accumulates at ht
  revert hf
  generalize hk : a.type = k at ht
  intro hf
  cases hf with
  | nothing h => rcases ht with h' | h' | h' | h' <;> subst h' <;> simp [Valueless] at h
  | single v h => rcases ht with h' | h' | h' | h' <;> subst h' <;> simp at h
  | one v => unfold Argument.take; simp only [hk]; rfl
  | fixed vs h => rcases ht with h' | h' | h' | h' <;> subst h' <;> simp at h
  | many vs h =>
    unfold Argument.take
    simp only
    rcases ht with h' | h' | h' | h' <;> subst h' <;> simp at h
    simp only [hk]
    rfl
  | group g => rfl
  | groups gs => rfl

/-- Accumulating options keep everything; what was there before stays if the first occurrence is attached. -/
theorem occurs_accumulates {a : Argument D} (ht : Accumulates a.type) (he : a.isExist = false)
    {u : Bool × Values} {us : List (Bool × Values)} (hf : ∀ v ∈ u :: us, ValuesFit a.nargs a.type v.2) :
    (a.occurs (u :: us)).elems = (if u.1 then a.elems else []) ++ (u :: us).flatMap (fun v => newElems v.2) := by
  induction us using list_snoc_induction with
  | hn =>
    obtain ⟨att, vals⟩ := u
    show (a.occur att vals).elems = _
    have h0 := hf _ List.mem_cons_self
    rw [(occur_take att vals a).2]
    rw [take_accumulates (n := a.nargs) (by rw [mark_type]; exact ht) (by rw [mark_type]; exact h0)]
    cases att with
    | true => simp [Argument.clearIfFirst, Argument.push, Argument.mark]
    | false => simp [Argument.clearIfFirst, Argument.push, he]
  | hs us w ih =>
    have ih := ih fun v hv => hf v (by rcases List.mem_cons.1 hv with rfl | hv <;> simp_all)
    have e : u :: (us ++ [w]) = (u :: us) ++ [w] := rfl
    rw [e, occurs_concat]
    obtain ⟨att, vals⟩ := w
    rw [(occur_take att vals _).2]
    have h0 := hf (att, vals) (by simp)
    rw [take_accumulates (n := a.nargs) (by rw [mark_type, occurs_type]; exact ht) (by rw [mark_type, occurs_type]; exact h0)]
    have hx : (if att = true then (a.occurs (u :: us)).mark else a.occurs (u :: us)).isExist = true := by
      have := (occurs_marks a (u :: us)).1
      cases att with
      | true => rfl
      | false => simpa using this
    have hel : (if att = true then (a.occurs (u :: us)).mark else a.occurs (u :: us)).elems = (a.occurs (u :: us)).elems := by
      cases att <;> rfl
    simp only [Argument.clearIfFirst, hx, if_true, Argument.push, hel, ih, List.flatMap_append]
    simp

/-! ### Reading the strings -/

theorem flat_newElems {n : Nat} {k : Ty} (ht : k = .multi ∨ k = .multiInfinite) {vals : Values} (hf : ValuesFit n k vals) :
    (newElems vals : List (Elem D)).map (·.argument) = vals.flat := by
  cases hf with
  | nothing h => rfl
  | single v h => rcases ht with h' | h' <;> subst h' <;> simp at h
  | one v => rfl
  | fixed vs => simp [newElems, Values.flat, valElem, Function.comp_def]
  | many vs => simp [newElems, Values.flat, valElem, Function.comp_def]
  | group => rcases ht with h' | h' <;> cases h'
  | groups gs h => rcases ht with h' | h' <;> subst h' <;> simp at h

theorem group_newElems (vals : Values) (h : ∃ gs, vals = .groups gs) :
    (newElems vals : List (Elem D)).map (fun e => e.subs.map (·.argument)) = vals.groupList := by
  obtain ⟨gs, rfl⟩ := h
  simp [newElems, Values.groupList, valGroup, Function.comp_def]

/-! ### The last loop -/

/-- What the last loop makes of an argument. -/
def Argument.finished (scan : Str → Option D) (a : Argument D) : Argument D := (a.finish scan).1

theorem finishAll_ok {scan : Str → Option D} {l : List (Slot D)} (h : (finishAll scan l).2.2 = .ok ()) :
    (∀ s ∈ l, (s.arg.finish scan).2.2 = .ok ()) ∧
    (finishAll scan l).1 = l.map (fun s => { s with arg := s.arg.finished scan }) ∧
    (finishAll scan l).2.1 = l.flatMap (fun s => (s.arg.finish scan).2.1) := by
  induction l with
  | nil => simp [finishAll]
  | cons s l ih =>
    unfold finishAll at h ⊢
    unfold Argument.finished
    generalize hr : s.arg.finish scan = r at h
    obtain ⟨a1, w, r⟩ := r
    cases r with
    | ok u =>
      simp only at h ⊢
      obtain ⟨i1, i2, i3⟩ := ih h
      refine ⟨?_, ?_, ?_⟩
      · intro t ht
        rcases List.mem_cons.1 ht with rfl | ht
        · rw [hr]
        · exact i1 t ht
      · rw [i2, List.map_cons, hr]; rfl
      · rw [i3, List.flatMap_cons, hr]
    | throw e => simp only at h; cases h
    | ub e => simp only at h; cases h
    | exit e => simp only at h; cases h
    | diverge => simp only at h; cases h

/-- A parse that returns: what happened after the tokens. -/
theorem afterLoop_ok {scan : Str → Option D} {st : State D} (h : (st.afterLoop scan).2 = .ok ()) :
    st.optionSeen st.helpOption = some false ∧ st.optionSeen st.versionOption = some false ∧
    firstMissing st.arguments = none ∧ (finishAll scan st.arguments).2.2 = .ok () ∧
    (st.afterLoop scan).1 = { st with
      arguments := st.arguments.map fun s => { s with arg := s.arg.finished scan }
      destLog := st.destLog ++ st.arguments.flatMap fun s => (s.arg.finish scan).2.1 } := by
  unfold State.afterLoop at h ⊢
  cases h1 : st.optionSeen st.helpOption with
  | none => rw [h1] at h; cases h
  | some b =>
    rw [h1] at h
    cases b with
    | true =>
      simp only at h
      split at h <;> cases h
    | false =>
      simp only at h ⊢
      cases h2 : st.optionSeen st.versionOption with
      | none => rw [h2] at h; cases h
      | some b =>
        rw [h2] at h
        cases b with
        | true =>
          simp only at h
          split at h <;> cases h
        | false =>
          simp only at h ⊢
          unfold State.finishParse at h ⊢
          cases h3 : firstMissing st.arguments with
          | some e => rw [h3] at h; cases h
          | none =>
            rw [h3] at h
            simp only at h ⊢
            obtain ⟨_, i2, i3⟩ := finishAll_ok h
            refine ⟨trivial, trivial, trivial, h, ?_⟩
            rw [i2, i3]

/-- The arguments, additional arguments and destinations after a parse that returns. -/
theorem parse_ok {scan : Str → Option D} {st : State D} {argv : List Str} (h : Ready scan st argv)
    (hok : (st.parseArguments scan argv).2 = .ok ()) :
    ∃ evs, Line st.sig st.places (argv.drop 1) evs none ∧
      ∀ evs', Line st.sig st.places (argv.drop 1) evs' none → evs' = evs := by
  obtain ⟨evs, err, h1, h2, h3⟩ := parse_tokens h
  cases err with
  | some x => rw [h2 x rfl] at hok; cases hok
  | none => exact ⟨evs, h1, fun evs' hl => (line_unique (sane_sized h.sane) (sane_places h.sane) hl h1).1⟩

/-- An argument after the tokens of a command line. -/
def Argument.afterTokens (n : Nat) (evs : List Event) (a : Argument D) : Argument D :=
  evs.foldl (Argument.see n) a.reset

theorem parse_result {scan : Str → Option D} {st : State D} {argv : List Str} (h : Ready scan st argv)
    {evs : List Event} (hl : Line st.sig st.places (argv.drop 1) evs none)
    (hok : (st.parseArguments scan argv).2 = .ok ()) :
    (∀ s ∈ st.arguments, ((s.arg.afterTokens s.node evs).finish scan).2.2 = .ok ()) ∧
    firstMissing ((st.begin argv).recordAll evs).arguments = none ∧
    (st.parseArguments scan argv).1 = { st.begin argv with
      arguments := st.arguments.map fun s => { s with arg := (s.arg.afterTokens s.node evs).finished scan }
      additional := st.additional ++ extras evs
      destLog := st.destLog ++ st.arguments.flatMap fun s => ((s.arg.afterTokens s.node evs).finish scan).2.1 } := by
  have e := (parse_of_line h hl).2 rfl
  rw [e] at hok ⊢
  obtain ⟨_, _, h3, h4, h5⟩ := afterLoop_ok hok
  have ha : ((st.begin argv).recordAll evs).arguments =
      st.arguments.map fun s => { s with arg := s.arg.afterTokens s.node evs } := by
    rw [recordAll_arguments]
    unfold State.begin State.resetAll
    simp only [List.map_map]
    rfl
  have hadd := recordAll_additional (st.begin argv) evs
  refine ⟨?_, h3, ?_⟩
  · have := (finishAll_ok h4).1
    rw [ha] at this
    intro s hs
    exact this { s with arg := s.arg.afterTokens s.node evs } (List.mem_map.2 ⟨s, hs, rfl⟩)
  · rw [h5]
    have hrest : ∀ (evs : List Event) (s0 : State D), s0.recordAll evs = { s0 with
        arguments := (s0.recordAll evs).arguments, additional := (s0.recordAll evs).additional } := by
      intro evs
      induction evs with
      | nil => intro s0; rfl
      | cons ev evs ih =>
        intro s0
        show (s0.record ev).recordAll evs = _
        rw [ih]
        cases ev <;> rfl
    rw [hrest, ha, hadd]
    simp only [List.map_map, List.flatMap_map]
    rfl

/-- The user's reference still designates the argument. -/
theorem parse_atObj {scan : Str → Option D} {st : State D} {argv : List Str} (h : Ready scan st argv)
    {evs : List Event} (hl : Line st.sig st.places (argv.drop 1) evs none)
    (hok : (st.parseArguments scan argv).2 = .ok ()) {s : Slot D} (hs : s ∈ st.arguments) :
    (st.parseArguments scan argv).1.atObj s.obj =
      some { s with arg := (s.arg.afterTokens s.node evs).finished scan } := by
  rw [(parse_result h hl hok).2.2]
  have := State.atObj_of_mem h.inv.objs hs
  unfold State.atObj at this ⊢
  simp only
  rw [List.find?_map]
  rw [show ((fun x : Slot D => x.obj == s.obj) ∘ fun s : Slot D => { s with arg := (s.arg.afterTokens s.node evs).finished scan }) =
    fun x => x.obj == s.obj from rfl, this]
  rfl

end BletArgs
