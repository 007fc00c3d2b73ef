import Verif.Spec.Given
import Verif.Props.Edits
/-
Lemmas for C91: arguments that differ in their default texts.
-/
namespace BletArgs
open Spec
variable {D : Type}

/-- The argument with other default texts and elements. -/
def Argument.rebase (a : Argument D) (d t : Str) (ds : List Str) (es : List (Elem D)) : Argument D :=
  { a with dflt := d, defaults := ds, argument := t, elems := es }

theorem defaults_rebase (a : Argument D) (ds : List Str) :
    ∃ d t es, ({ a with defaults := ds } : Argument D).defaultsConstructor.1 = a.rebase d t ds es ∧
      (a.nargs = 0 ∨ ds = [] → d = a.dflt ∧ t = a.argument ∧ es = a.elems) ∧ (SingleKind a.type → a.elems = [] → es = []) := by
  unfold Argument.defaultsConstructor
  simp only
  by_cases h : a.nargs = 0 ∨ ds = []
  · rw [if_neg (by rcases h with h | h <;> simp [h])]
    exact ⟨a.dflt, a.argument, a.elems, rfl, fun _ => ⟨rfl, rfl, rfl⟩, fun _ e => e⟩
  · have hc : (decide (a.nargs > 0) && decide (ds.length > 0)) = true := by
      rw [not_or] at h
      have := List.length_pos_iff.2 h.2
      simp; omega
    rw [if_pos hc]
    obtain ⟨argument, dflt, num, elems, names, type, isExist, isRequired, count, nargs, help, metavar, valid, vd, action,
      defaults, dest⟩ := a
    cases type <;> simp only
    case pos | simple | numberPos | number | infiniteNumberPos | multiNumber | multiNumberInfinite =>
      split
      · exact ⟨_, _, _, rfl, fun h' => absurd h' h, fun _ _ => rfl⟩
      · refine ⟨_, _, _, rfl, fun h' => absurd h' h, ?_⟩
        simp [SingleKind]
    all_goals
      refine ⟨_, _, _, rfl, fun h' => absurd h' h, ?_⟩
      simp [SingleKind]

theorem take_rebase (a : Argument D) (d t : Str) (ds : List Str) (es : List (Elem D)) (vals : Values) :
    ∃ t' es', (a.rebase d t ds es).take vals = (a.take vals).rebase d t' ds es' ∧
      ((∀ v, vals ≠ .single v) → t' = t ∧ (a.take vals).argument = a.argument) ∧
      (a.type = .simple → (∃ v, vals = .single v) → t' = (a.take vals).argument ∧ es' = es ∧ (a.take vals).elems = a.elems) := by
  have hc : ∀ gs : List (Elem D), ∃ fs, (a.rebase d t ds es).clearIfFirst.push gs = (a.clearIfFirst.push gs).rebase d t ds fs ∧
      (a.clearIfFirst.push gs).argument = a.argument := by
    intro gs
    unfold Argument.clearIfFirst Argument.push Argument.rebase
    cases hx : a.isExist with
    | true => exact ⟨es ++ gs, by simp [hx]⟩
    | false => exact ⟨gs, by simp [hx]⟩
  cases vals with
  | nothing => exact ⟨t, es, rfl, fun _ => ⟨rfl, rfl⟩, fun _ ⟨_, e⟩ => by cases e⟩
  | single v => exact ⟨v, es, rfl, fun h => absurd rfl (h v), fun _ _ => ⟨rfl, rfl, rfl⟩⟩
  | groups gs =>
    obtain ⟨fs, h1, h2⟩ := hc (gs.map valGroup)
    exact ⟨t, fs, h1, fun _ => ⟨rfl, h2⟩, fun _ ⟨_, e⟩ => by cases e⟩
  | list vs =>
    obtain ⟨fs, h1, h2⟩ := hc (vs.map valElem)
    have ht : (a.rebase d t ds es).type = a.type := rfl
    unfold Argument.take
    simp only
    rw [ht]
    split
    · exact ⟨t, fs, h1, fun _ => ⟨rfl, h2⟩, fun _ ⟨_, e⟩ => by cases e⟩
    · exact ⟨t, fs, h1, fun _ => ⟨rfl, h2⟩, fun _ ⟨_, e⟩ => by cases e⟩
    · exact ⟨t, vs.map valElem, rfl, fun _ => ⟨rfl, rfl⟩, fun _ ⟨_, e⟩ => by cases e⟩

theorem occur_rebase (a : Argument D) (d t : Str) (ds : List Str) (es : List (Elem D)) (att : Bool) (vals : Values) :
    ∃ t' es', (a.rebase d t ds es).occur att vals = (a.occur att vals).rebase d t' ds es' := by
  unfold Argument.occur
  cases att with
  | true =>
    obtain ⟨t', gs, h', _⟩ := take_rebase a.mark d t ds es vals
    exact ⟨t', gs, (congrArg Argument.mark h' :)⟩
  | false =>
    obtain ⟨t', gs, h', _⟩ := take_rebase a d t ds es vals
    exact ⟨t', gs, (congrArg Argument.mark h' :)⟩

theorem occurs_rebase (a : Argument D) (d t : Str) (ds : List Str) (es : List (Elem D)) (us : List (Bool × Values)) :
    ∃ t' es', (a.rebase d t ds es).occurs us = (a.occurs us).rebase d t' ds es' := by
  induction us using list_snoc_induction with
  | hn => exact ⟨t, es, rfl⟩
  | hs us u ih =>
    obtain ⟨t1, e1, h⟩ := ih
    rw [occurs_concat, occurs_concat, h]
    exact occur_rebase _ _ _ _ _ _ _

theorem reset_rebase (a : Argument D) (d t : Str) (ds : List Str) (es : List (Elem D)) :
    (a.rebase d t ds es).reset = a.reset.rebase d d ds (a.rebase d t ds es).reset.elems := rfl

/-- The two arguments differ in default texts only, and in the text as a whole if it does not matter. -/
def Near (a b : Argument D) : Prop :=
  ∃ d ds t, b = { a with dflt := d, defaults := ds, argument := t } ∧
    (t = a.argument ∨ (a.elems ≠ [] ∧ ¬SingleKind a.type ∧ ∀ x, a.dest = some x → x.kind ≠ .scalar))

theorem near_refl (a : Argument D) : Near a a := ⟨a.dflt, a.defaults, a.argument, rfl, .inl rfl⟩

theorem near_undefaulted {a b : Argument D} (h : Near a b) : b.undefaulted = a.undefaulted := by
  obtain ⟨d, ds, t, rfl, h⟩ := h
  unfold Argument.undefaulted
  simp only
  rcases h with rfl | ⟨h, _⟩
  · rfl
  · rw [if_neg (by simpa using h), if_neg (by simpa using h)]

theorem writeElems_ne {es : List (Elem D)} (h : es ≠ []) (xs : List Str) : writeElems es xs ≠ [] := by
  cases es with
  | nil => exact absurd rfl h
  | cons e es => cases xs <;> simp [writeElems]

theorem writeGroups_ne {es : List (Elem D)} (h : es ≠ []) (xs : List Str) : writeGroups es xs ≠ [] := by
  cases es with
  | nil => exact absurd rfl h
  | cons e es => simp [writeGroups]

theorem near_toVector {a b : Argument D} (h : Near a b) :
    b.toVector = a.toVector := by
  obtain ⟨d, ds, t, rfl, h⟩ := h
  rcases h with rfl | ⟨_, h, _⟩
  · rfl
  · unfold Argument.toVector
    simp only
    unfold SingleKind at h
    cases ht : a.type <;> simp_all

theorem near_runValid {a b : Argument D} (h : Near a b) : Near a.runValid.1 b.runValid.1 ∧ b.runValid.2 = a.runValid.2 := by
  have hv := near_toVector h
  have h0 := h
  obtain ⟨d, ds, t, rfl, h⟩ := h
  obtain ⟨argument, dflt, num, elems, names, type, isExist, isRequired, count, nargs, help, metavar, valid, vd, action,
    defaults, dest⟩ := a
  simp only at hv h h0
  unfold Argument.runValid
  cases valid with
  | none => exact ⟨h0, rfl⟩
  | some v =>
    simp only
    rw [hv]
    cases isExist with
    | false => exact ⟨h0, rfl⟩
    | true =>
      simp only [if_true]
      generalize (Argument.toVector _).getD [] = xs0
      cases hx : v.check xs0 with
      | accept xs =>
        cases type <;> simp only
        case pos | simple =>
          cases xs with
          | nil => exact ⟨h0, trivial⟩
          | cons x xs => exact ⟨⟨d, ds, x, rfl, .inl rfl⟩, trivial⟩
        case number | multi | infinite | multiInfinite | numberPos | infinitePos =>
          refine ⟨⟨d, ds, t, rfl, ?_⟩, trivial⟩
          rcases h with h | ⟨h1, h2, h3⟩
          · exact .inl h
          · exact .inr ⟨writeElems_ne h1 _, h2, h3⟩
        case multiNumber | multiNumberInfinite | infiniteNumberPos =>
          refine ⟨⟨d, ds, t, rfl, ?_⟩, trivial⟩
          rcases h with h | ⟨h1, h2, h3⟩
          · exact .inl h
          · exact .inr ⟨writeGroups_ne h1 _, h2, h3⟩
        all_goals exact ⟨h0, rfl⟩
      | _ => exact ⟨h0, rfl⟩

theorem near_toNumber (scan : Str → Option D) {a b : Argument D} (h : Near a b) :
    Near (a.toNumber scan) (b.toNumber scan) := by
  have h0 := h
  obtain ⟨d, ds, t, rfl, h⟩ := h
  unfold Argument.toNumber
  simp only
  by_cases hb : (a.type == .boolean || a.type == .reverse) = true
  · rw [if_pos hb, if_pos hb]; exact h0
  · rw [if_neg hb, if_neg hb]
    by_cases he : a.elems.isEmpty = true
    · rw [if_pos he, if_pos he]
      rcases h with rfl | ⟨h1, _⟩
      · exact ⟨d, ds, a.argument, rfl, .inl rfl⟩
      · exact absurd (by simpa using he) h1
    · rw [if_neg he, if_neg he]
      refine ⟨d, ds, t, rfl, ?_⟩
      rcases h with h | ⟨h1, h2, h3⟩
      · exact .inl h
      · exact .inr ⟨by simpa using h1, h2, h3⟩

theorem near_toDest {a b : Argument D} (h : Near a b) : b.toDest = a.toDest := by
  obtain ⟨d, ds, t, rfl, h⟩ := h
  rcases h with rfl | ⟨h1, _, h3⟩
  · rfl
  · unfold Argument.toDest
    simp only
    cases hd : a.dest with
    | none => rfl
    | some x =>
      have h3 := h3 x hd
      have he : a.elems.isEmpty = false := by simpa using h1
      simp only
      cases hk : x.kind with
      | scalar => exact absurd hk h3
      | vector =>
        simp only [he, Bool.false_eq_true, if_false]
        rfl
      | vecvec =>
        simp only [he, Bool.false_eq_true, if_false]
        rfl

theorem near_finish (scan : Str → Option D) {a b : Argument D} (h : Near a b) :
    Near (a.finish scan).1 (b.finish scan).1 ∧ (b.finish scan).2 = (a.finish scan).2 := by
  obtain ⟨h1, h2⟩ := near_runValid h
  unfold Argument.finish
  generalize a.runValid = x at *
  generalize b.runValid = y at *
  obtain ⟨a1, x⟩ := x
  obtain ⟨b1, y⟩ := y
  simp only at h1 h2
  subst h2
  cases y with
  | ok u =>
    have := near_toNumber scan h1
    exact ⟨this, by simp only; rw [near_toDest this]⟩
  | _ => exact ⟨h1, rfl⟩

/-- Lists of arguments that differ in the default texts of one argument. -/
inductive Twins (ref : Nat) : List (Slot D) → List (Slot D) → Prop where
  | nil : Twins ref [] []
  | cons {s t : Slot D} {l l' : List (Slot D)} (node : t.node = s.node) (obj : t.obj = s.obj) (near : Near s.arg t.arg)
      (same : s.obj ≠ ref → t.arg = s.arg) (rest : Twins ref l l') : Twins ref (s :: l) (t :: l')

theorem twins_finishAll (scan : Str → Option D) {ref : Nat} {l l' : List (Slot D)} (h : Twins ref l l') :
    Twins ref (finishAll scan l).1 (finishAll scan l').1 ∧ (finishAll scan l').2 = (finishAll scan l).2 := by
  induction h with
  | nil => exact ⟨.nil, rfl⟩
  | @cons s t l l' node obj near same rest ih =>
    obtain ⟨h1, h2⟩ := near_finish scan near
    have h3 : s.obj ≠ ref → (t.arg.finish scan).1 = (s.arg.finish scan).1 := fun e => by rw [same e]
    unfold finishAll
    generalize s.arg.finish scan = x at *
    generalize t.arg.finish scan = y at *
    obtain ⟨a1, w, x⟩ := x
    obtain ⟨b1, z⟩ := y
    simp only at h1 h2 h3
    subst h2
    cases x with
    | ok u => exact ⟨.cons node obj h1 h3 ih.1, by simp only; rw [ih.2]⟩
    | _ => exact ⟨.cons node obj h1 h3 rest, rfl⟩

theorem twins_missing {ref : Nat} {l l' : List (Slot D)} (h : Twins ref l l') : firstMissing l' = firstMissing l := by
  unfold firstMissing
  induction h with
  | nil => rfl
  | @cons s t l l' node obj near same rest ih =>
    obtain ⟨d, ds, x, e, _⟩ := near
    simp only [List.find?_cons]
    rw [e]
    simp only
    split
    · simp only [Option.map_some]
      rw [e]
      rfl
    · exact ih

theorem twins_undefaulted {ref : Nat} {l l' : List (Slot D)} (h : Twins ref l l') :
    (l'.map fun s => if s.obj = ref then { s with arg := s.arg.undefaulted } else s) =
      l.map fun s => if s.obj = ref then { s with arg := s.arg.undefaulted } else s := by
  induction h with
  | nil => rfl
  | @cons s t l l' node obj near same rest ih =>
    simp only [List.map_cons, ih]
    congr 1
    obtain ⟨n, o, a⟩ := s
    obtain ⟨n', o', a'⟩ := t
    simp only at node obj near same
    subst node obj
    split
    · rw [near_undefaulted near]
    · rename_i e
      rw [same e]

theorem twins_seen {ref : Nat} {st st' : State D} (h : Twins ref st.arguments st'.arguments) (p : Option Nat) :
    st'.optionSeen p = st.optionSeen p := by
  unfold State.optionSeen
  cases p with
  | none => rfl
  | some o =>
    simp only
    unfold State.atObj
    generalize st.arguments = l at h
    generalize st'.arguments = l' at h
    induction h with
    | nil => rfl
    | @cons s t l l' node obj near same rest ih =>
      obtain ⟨d, ds, x, e, _⟩ := near
      simp only [List.find?_cons, obj]
      split
      · simp only [Option.map_some]
        rw [e]
      · exact ih

theorem twins_map {ref : Nat} {l : List (Slot D)} {f g : Slot D → Slot D}
    (h : ∀ s ∈ l, (g s).node = (f s).node ∧ (g s).obj = (f s).obj ∧ Near (f s).arg (g s).arg ∧
      ((f s).obj ≠ ref → (g s).arg = (f s).arg)) :
    Twins ref (l.map f) (l.map g) := by
  induction l with
  | nil => exact .nil
  | cons s l ih =>
    obtain ⟨h1, h2, h3, h4⟩ := h s (by simp)
    exact .cons h1 h2 h3 h4 (ih fun t ht => h t (by simp [ht]))

/-! ### The tokens -/

/-- Another list given to `defaults()`, without any other effect. -/
def Argument.relist (a : Argument D) (ds : List Str) : Argument D := { a with defaults := ds }

theorem take_relist (a : Argument D) (ds : List Str) (vals : Values) : (a.relist ds).take vals = (a.take vals).relist ds := by
  have hc : ∀ gs : List (Elem D), (a.relist ds).clearIfFirst.push gs = (a.clearIfFirst.push gs).relist ds := by
    intro gs
    unfold Argument.clearIfFirst Argument.push Argument.relist
    cases hx : a.isExist <;> simp [hx]
  cases vals with
  | nothing => rfl
  | single v => rfl
  | groups gs => exact hc _
  | list vs =>
    have ht : (a.relist ds).type = a.type := rfl
    unfold Argument.take
    simp only
    rw [ht]
    split
    · exact hc _
    · exact hc _
    · rfl

theorem see_relist (n : Nat) (ev : Event) (a : Argument D) (ds : List Str) :
    (a.relist ds).see n ev = (a.see n ev).relist ds := by
  unfold Argument.see
  split
  · split
    · rename_i att vals _
      unfold Argument.occur
      cases att with
      | true => exact (congrArg Argument.mark (take_relist a.mark ds vals) :)
      | false => exact (congrArg Argument.mark (take_relist a ds vals) :)
    · rfl
  · split
    · rename_i vals _
      cases vals <;> rfl
    · rfl
  · rfl

theorem afterTokens_relist (n : Nat) (evs : List Event) (a : Argument D) (ds : List Str) :
    (a.relist ds).afterTokens n evs = (a.afterTokens n evs).relist ds := by
  unfold Argument.afterTokens
  have : ∀ b : Argument D, evs.foldl (Argument.see n) (b.relist ds) = (evs.foldl (Argument.see n) b).relist ds := by
    induction evs with
    | nil => intro b; rfl
    | cons ev evs ih => intro b; rw [List.foldl_cons, see_relist, ih]; rfl
  exact this a.reset

theorem occurs_single_elems {a : Argument D} (ht : a.type = .simple) {us : List (Bool × Values)}
    (hf : ∀ u ∈ us, ValuesFit a.nargs a.type u.2) : (a.occurs us).elems = a.elems := by
  induction us using list_snoc_induction with
  | hn => rfl
  | hs us u ih =>
    obtain ⟨att, vals⟩ := u
    obtain ⟨v, rfl, _⟩ := occurs_simple (us := us) (att := att) ht (hf (att, vals) (by simp))
    rw [occurs_concat, (occur_take att _ _).2]
    rw [show ∀ b : Argument D, (b.take (.single v)).elems = b.elems from fun _ => rfl]
    rw [← ih fun u hu => hf u (by simp [hu])]
    cases att <;> rfl

theorem replaced_some {a : Argument D} (ha : a.isExist = false) {us : List (Bool × Values)} (hr : Replaced a.type us)
    (hf : ∀ u ∈ us, ValuesFit a.nargs a.type u.2) (hk : KeptWords a.type us ≠ []) : (a.occurs us).elems ≠ [] := by
  obtain ⟨hne, hr⟩ := hr
  unfold KeptWords at hk
  by_cases hl : a.type = .number ∨ a.type = .infinite
  · rw [if_pos hl] at hk
    obtain ⟨us, u, rfl⟩ : ∃ l x, us = l ++ [x] := ⟨us.dropLast, us.getLast hne, (List.dropLast_concat_getLast hne).symm⟩
    obtain ⟨att, vals⟩ := u
    obtain ⟨vs, rfl, e⟩ := occurs_list (us := us) (att := att) hl (hf (att, vals) (by simp))
    rw [e]
    simpa [Values.flat] using hk
  · rw [if_neg hl] at hk
    rw [not_or] at hl
    rcases hr with hr | hr | ⟨hr, hu⟩
    · exact absurd hr hl.1
    · exact absurd hr hl.2
    have hacc : Accumulates a.type := hr
    cases us with
    | nil => exact absurd rfl hne
    | cons u us =>
      rw [occurs_accumulates hacc ha hf]
      intro hnil
      have hnil := (List.append_eq_nil_iff.1 hnil).2
      apply hk
      rw [List.flatMap_eq_nil_iff] at hnil ⊢
      intro w hw
      have h1 := hnil w hw
      have h2 := hf w hw
      revert h1
      generalize w.2 = vals at *
      cases vals with
      | nothing => intro _; rfl
      | single v =>
        intro _
        exfalso
        generalize a.type = k at *
        unfold Accumulates at hacc
        cases h2 with
        | single v h => rcases hacc with h' | h' | h' | h' <;> subst h' <;> simp at h
      | list vs => simp [newElems, Values.flat]
      | groups gs =>
        intro h1
        have : gs = [] := by simpa [newElems] using h1
        rw [this]
        rfl

end BletArgs
