import Verif.Props.After
/-
C59: reading values as numbers (`isNumber()`, `getNumber()`, `operator T`).

`scan` is the extraction of a `double` from a stream holding the text; `num` is what `getNumber()` returns, `none` when
`isNumber()` is false and `getNumber()` throws.
-/
namespace BletArgs
open Spec
variable {D : Type}

/-- No number has been computed yet. -/
def Argument.Blank (a : Argument D) : Prop :=
  a.num = none ∧ ∀ e ∈ a.elems, e.num = none ∧ ∀ l ∈ e.subs, l.num = none

theorem blank_reset (a : Argument D) : a.reset.Blank := by
  refine ⟨rfl, fun e he => ?_⟩
  obtain ⟨e0, _, rfl⟩ := List.mem_map.1 he
  refine ⟨rfl, fun l hl => ?_⟩
  obtain ⟨l0, _, rfl⟩ := List.mem_map.1 hl
  rfl

theorem blank_valElems (vs : List Str) : ∀ e ∈ (vs.map valElem : List (Elem D)), e.num = none ∧ ∀ l ∈ e.subs, l.num = none := by
  intro e he
  obtain ⟨v, _, rfl⟩ := List.mem_map.1 he
  exact ⟨rfl, fun l hl => by cases hl⟩

theorem blank_valGroups (gs : List (List Str)) :
    ∀ e ∈ (gs.map valGroup : List (Elem D)), e.num = none ∧ ∀ l ∈ e.subs, l.num = none := by
  intro e he
  obtain ⟨v, _, rfl⟩ := List.mem_map.1 he
  refine ⟨rfl, fun l hl => ?_⟩
  obtain ⟨x, _, rfl⟩ := List.mem_map.1 hl
  rfl

theorem Argument.Blank.push {a : Argument D} (h : a.Blank) {es : List (Elem D)}
    (he : ∀ e ∈ es, e.num = none ∧ ∀ l ∈ e.subs, l.num = none) : (a.push es).Blank := by
  refine ⟨h.1, fun e hm => ?_⟩
  rcases List.mem_append.1 hm with hm | hm
  · exact h.2 e hm
  · exact he e hm

theorem Argument.Blank.clearIfFirst {a : Argument D} (h : a.Blank) : a.clearIfFirst.Blank := by
  unfold Argument.clearIfFirst
  split
  · exact h
  · exact ⟨h.1, fun e he => by cases he⟩

theorem Argument.Blank.take {a : Argument D} (h : a.Blank) (vals : Values) : (a.take vals).Blank := by
  cases vals with
  | nothing => exact h
  | single v => exact h
  | list vs =>
    unfold Argument.take
    simp only
    split
    · exact h.clearIfFirst.push (blank_valElems vs)
    · exact h.clearIfFirst.push (blank_valElems vs)
    · exact ⟨h.1, blank_valElems vs⟩
  | groups gs => exact h.clearIfFirst.push (blank_valGroups gs)

theorem Argument.Blank.see {a : Argument D} (h : a.Blank) (n : Nat) (ev : Event) : (a.see n ev).Blank := by
  cases ev with
  | option i att vals =>
    unfold Argument.see
    simp only
    split
    · unfold Argument.occur
      cases att with
      | true => exact Argument.Blank.take (a := a.mark) h vals
      | false => exact Argument.Blank.take (a := a) h vals
    · exact h
  | positional i vals =>
    unfold Argument.see
    simp only
    split
    · cases vals with
      | nothing => exact h
      | single v => exact h
      | list vs => exact Argument.Blank.push h (blank_valElems vs)
      | groups gs => exact Argument.Blank.push h (blank_valGroups gs)
    · exact h
  | extra w => exact h

theorem blank_afterTokens (n : Nat) (evs : List Event) (a : Argument D) : (a.afterTokens n evs).Blank := by
  unfold Argument.afterTokens
  have h := blank_reset a
  generalize a.reset = b at h
  induction evs generalizing b with
  | nil => exact h
  | cons ev evs ih => exact ih _ (h.see n ev)

theorem blank_writeElems {es : List (Elem D)} (h : ∀ e ∈ es, e.num = none ∧ ∀ l ∈ e.subs, l.num = none) (out : List Str) :
    ∀ e ∈ writeElems es out, e.num = none ∧ ∀ l ∈ e.subs, l.num = none := by
  induction es generalizing out with
  | nil => cases out <;> (intro e he; cases he)
  | cons x es ih =>
    cases out with
    | nil => exact h
    | cons s ss =>
      intro e he
      rcases List.mem_cons.1 he with rfl | he
      · exact h x (by simp)
      · exact ih (fun e he => h e (by simp [he])) ss e he

theorem blank_writeLeaves {ls : List (Leaf D)} (h : ∀ l ∈ ls, l.num = none) (out : List Str) :
    ∀ l ∈ (writeLeaves ls out).1, l.num = none := by
  induction ls generalizing out with
  | nil => cases out <;> (intro e he; cases he)
  | cons x ls ih =>
    cases out with
    | nil => exact h
    | cons s ss =>
      intro l hl
      rcases List.mem_cons.1 hl with rfl | hl
      · exact h x (by simp)
      · exact ih (fun l hl => h l (by simp [hl])) ss l hl

theorem blank_writeGroups {es : List (Elem D)} (h : ∀ e ∈ es, e.num = none ∧ ∀ l ∈ e.subs, l.num = none) (out : List Str) :
    ∀ e ∈ writeGroups es out, e.num = none ∧ ∀ l ∈ e.subs, l.num = none := by
  induction es generalizing out with
  | nil => intro e he; cases he
  | cons x es ih =>
    intro e he
    rcases List.mem_cons.1 he with rfl | he
    · exact ⟨(h x (by simp)).1, blank_writeLeaves (h x (by simp)).2 out⟩
    · exact ih (fun e he => h e (by simp [he])) _ e he

theorem Argument.Blank.runValid {a : Argument D} (h : a.Blank) : a.runValid.1.Blank := by
  unfold Argument.runValid
  cases a.valid with
  | none => exact h
  | some v =>
    simp only
    split
    · split
      · exact h
      · exact h
      · exact h
      · split
        · simp only; split <;> exact h
        · simp only; split <;> exact h
        all_goals first | exact h | exact ⟨h.1, blank_writeElems h.2 _⟩ | exact ⟨h.1, blank_writeGroups h.2 _⟩
    · exact h

/-- The numbers of an argument are those of its texts. -/
structure NumbersRead (scan : Str → Option D) (a : Argument D) : Prop where
  /-- A value that is not a list: the number its text begins with. -/
  single : a.elems = [] → a.num = scan a.argument
  /-- A list has no number of its own; -/
  list : a.elems ≠ [] → a.num = none
  /-- its values have the number their text begins with; -/
  values : ∀ e ∈ a.elems, e.subs = [] → e.num = scan e.argument
  /-- a group has no number of its own, -/
  group : ∀ e ∈ a.elems, e.subs ≠ [] → e.num = none
  /-- its values have the number their text begins with. -/
  members : ∀ e ∈ a.elems, ∀ l ∈ e.subs, l.num = scan l.argument

theorem toNumber_reads {scan : Str → Option D} {a : Argument D} (h : a.Blank)
    (hk : a.type ≠ .boolean ∧ a.type ≠ .reverse) : NumbersRead scan (a.toNumber scan) := by
  unfold Argument.toNumber
  rw [if_neg (by simp [hk])]
  cases he : a.elems with
  | nil =>
    simp only [List.isEmpty_nil, if_true]
    exact ⟨fun _ => rfl, fun c => absurd rfl c, fun e hm => (by cases hm), fun e hm => (by cases hm), fun e hm => (by cases hm)⟩
  | cons x xs =>
    rw [if_neg (by simp), ← he]
    refine ⟨fun c => absurd c (by simp [he]), fun _ => h.1, ?_, ?_, ?_⟩ <;>
      (intro e hm; obtain ⟨e0, hm0, rfl⟩ := List.mem_map.1 hm)
    · intro hs
      split
      · rfl
      · rename_i hne
        rw [if_neg hne] at hs
        exact absurd (List.isEmpty_iff.2 (List.map_eq_nil_iff.1 hs)) hne
    · intro hs
      split
      · rename_i hem
        rw [if_pos hem] at hs
        exact absurd (List.isEmpty_iff.1 hem) hs
      · exact (h.2 e0 hm0).1
    · intro l hl
      split at hl
      · rename_i hem
        rw [List.isEmpty_iff.1 hem] at hl; cases hl
      · obtain ⟨l0, _, rfl⟩ := List.mem_map.1 hl
        rfl

/-- C59. After a call that returns: a boolean option is never a number; every other argument without list of values is a
number exactly when its text (as given or by default, and as rewritten by its validator) begins with one, which is the
number read; the values of a list and of groups likewise, while a list or a group as a whole is not a number. -/
theorem C59_numbers {scan : Str → Option D} {st : State D} {argv : List Str} (h : Ready scan st argv)
    (hok : (st.parseArguments scan argv).2 = .ok ()) {s : Slot D} (hs : s ∈ (st.parseArguments scan argv).1.arguments) :
    (s.arg.type = .boolean ∨ s.arg.type = .reverse → s.arg.getNumber = none) ∧
    (s.arg.type ≠ .boolean → s.arg.type ≠ .reverse → NumbersRead scan s.arg) := by
  obtain ⟨evs, err, hl, _, he⟩ := C20_unique_derivation h
  have herr : err = none := by
    cases err with
    | none => rfl
    | some x => have := he x rfl; rw [hok] at this; cases this
  subst herr
  obtain ⟨h1, _, h3⟩ := parse_result h hl hok
  rw [h3] at hs
  obtain ⟨s0, hs0, rfl⟩ := List.mem_map.1 hs
  have hb := (blank_afterTokens s0.node evs s0.arg).runValid
  have hf : (s0.arg.afterTokens s0.node evs).finished scan = (s0.arg.afterTokens s0.node evs).runValid.1.toNumber scan := by
    have := h1 s0 hs0
    unfold Argument.finished
    unfold Argument.finish at this ⊢
    generalize (s0.arg.afterTokens s0.node evs).runValid = r at this
    obtain ⟨a1, r⟩ := r
    cases r with
    | ok u => rfl
    | _ => cases this
  simp only [hf]
  generalize (s0.arg.afterTokens s0.node evs).runValid.1 = a at hb
  have ht := (toNumber_marks scan a).2.2.2.1
  rw [ht]
  refine ⟨fun hk => ?_, fun k1 k2 => toNumber_reads hb ⟨k1, k2⟩⟩
  unfold Argument.toNumber Argument.getNumber
  rw [if_pos (by simpa using hk)]
  exact hb.1

/-- A scanner for the example: the decimal digits a text begins with. -/
def digits (s : Str) : Option Nat :=
  match s.takeWhile Char.isDigit with
  | [] => none
  | ds => some (ds.foldl (fun n c => n * 10 + (c.toNat - 48)) 0)

/-- A parser with numbers of all shapes. -/
def numberOps : List Op :=
  [.add ["-h".toList], .action 0 .help, .add ["-n".toList], .defaults 1 ["12".toList],
   .add ["-g".toList], .nargs 2 2, .action 2 .append, .add ["-v".toList], .action 3 .storeTrue,
   .add ["rest".toList], .nargs 4 43]

def numberLine : List Str := ["prog", "-v", "-g", "1", "x", "7", "8kg"].map String.toList

example :
    let st : State Nat := runOps digits State.init numberOps;
    (Ready digits st numberLine ∧ (st.parseArguments digits numberLine).2 = .ok () ∧
    ((st.parseArguments digits numberLine).1.arguments.map fun s =>
      (s.arg.front, s.arg.getNumber, s.arg.elems.map fun e => (e.num, e.subs.map fun l => l.num))) =
      [("-g".toList, none, [(none, [some 1, none])]), ("-h".toList, none, []), ("-n".toList, some 12, []),
       ("-v".toList, none, []), ("rest".toList, none, [(some 7, []), (some 8, [])])]) :=
  ⟨.of_history (reachableBy_runOps .init _ (by decide +kernel)) (by decide +kernel) (by decide)
    ⟨"prog".toList, rfl, by decide +kernel⟩, by decide +kernel, by decide +kernel⟩

/-- Outside a parse, the numbers are not kept up to date: after `defaults()` the text has changed, the number has
not. -/
theorem C59_stale_number :
    let st : State Nat := runOps digits State.init (numberOps ++ [.parse numberLine, .defaults 1 ["34".toList]]);
    (st.atObj 1).map (fun s => (s.arg.argument, s.arg.getNumber)) = some ("34".toList, some 12) := by
  decide +kernel

end BletArgs
