import Verif.Spec.Faults
import Verif.Props.Registry2
import Verif.Props.Parse
/-
C05 and C08, the exceptions; C63: which calls can throw what.
-/
namespace BletArgs
open Spec
variable {D : Type}

/-! ### C05, C08: the exceptions -/

theorem validFormatFlag_fault {f : Str} {msg : Str} (h : validFormatFlag f = some msg) :
    ∃ m : String, msg = m.toList ∧ FlagFault f m := by
  unfold validFormatFlag at h
  match f, h with
  | [], h => cases h; exact ⟨_, rfl, .noDash (by simp)⟩
  | [c], h =>
    by_cases hc : c = '-'
    · subst hc; cases h; exact ⟨_, rfl, .dash⟩
    · rw [if_pos (by simpa using hc)] at h
      cases h; exact ⟨_, rfl, .noDash (by simpa using hc)⟩
  | [c, d], h =>
    by_cases hc : c = '-'
    · subst hc
      by_cases hd : d = '-'
      · subst hd; cases h; exact ⟨_, rfl, .twoDashes⟩
      · simp [hd] at h
    · rw [if_pos (by simpa using hc)] at h
      cases h; exact ⟨_, rfl, .noDash (by simpa using hc)⟩
  | c :: d :: e :: r, h =>
    by_cases hc : c = '-'
    · subst hc
      by_cases hd : d = '-'
      · subst hd; simp at h
      · rw [if_neg (by simp), if_neg (by simp), if_neg (by simp), if_pos (by simp [hd])] at h
        cases h
        exact ⟨_, rfl, .longShort d e r hd⟩
    · rw [if_pos (by simpa using hc)] at h
      cases h; exact ⟨_, rfl, .noDash (by simpa using hc)⟩

theorem FlagFault.format {f : Str} {m : String} (h : FlagFault f m) : validFormatFlag f = some m.toList := by
  cases h with
  | noDash h =>
    unfold validFormatFlag
    rw [if_pos]
    cases f with
    | nil => rfl
    | cons c r => simp only [List.getElem?_cons_zero, bne_iff_ne, ne_eq, Option.some.injEq]; rintro rfl; exact h r rfl
  | dash => decide +kernel
  | twoDashes => decide +kernel
  | longShort c d r hc => unfold validFormatFlag; simp [hc]

theorem checkFlags_rest {m : List (Str × Nat)} {front : Str} (hf : lookupName m front = none) :
    ∀ {fs : List Str} {acc : List Str} {e : Exn}, checkFlags m front fs acc = .error e →
      ∃ between g after msg, fs = between ++ g :: after ∧ (∀ b ∈ between, FlagForm b) ∧ FlagFault g msg ∧
        e = ⟨.argument, g, msg.toList⟩ := by
  intro fs
  induction fs with
  | nil => intro acc e h; cases h
  | cons f fs ih =>
    intro acc e h
    unfold checkFlags at h
    split at h
    · rename_i msg hv
      obtain ⟨w, rfl, hw⟩ := validFormatFlag_fault hv
      cases h
      exact ⟨[], f, fs, w, rfl, by simp, hw, rfl⟩
    · rename_i hv
      rw [hf] at h
      simp only [Option.isSome_none, Bool.false_eq_true, if_false] at h
      obtain ⟨bt, g, af, w, rfl, h2, h3, h4⟩ := ih h
      refine ⟨f :: bt, g, af, w, rfl, ?_, h3, h4⟩
      intro b hb
      rcases List.mem_cons.1 hb with rfl | hb
      · exact (C03_flag_syntax _).1 hv
      · exact h2 b hb

/-- What `addArgument` throws is the first fault of the names. -/
theorem addArgument_fault (st : State D) {nof : List Str} {st' : State D} {e : Exn}
    {full : Prop} (hi : GInv full st) (h : st.addArgument nof = (st', .throw e)) :
    st' = st ∧ ∃ msg : String, AddFault (fun n => st.argumentExists n = true) nof e.argument msg ∧
      e = ⟨.argument, e.argument, msg.toList⟩ := by
  have ho := addArgument_outcome hi nof
  rw [h] at ho
  have hst : st' = st := by cases ho <;> rfl
  refine ⟨hst, ?_⟩
  subst hst
  cases nof with
  | nil => cases h; exact ⟨_, .nothing, rfl⟩
  | cons front rest =>
    unfold State.addArgument at h
    simp only at h
    split at h
    · rename_i hc
      simp only [Bool.and_eq_true, List.isEmpty_iff, bne_iff_ne, ne_eq] at hc
      obtain ⟨rfl, hc⟩ := hc
      split at h
      · rename_i he
        simp only [List.isEmpty_iff] at he
        subst he
        cases h; exact ⟨_, .emptyName, rfl⟩
      · rename_i he
        simp only [List.isEmpty_iff] at he
        split at h
        · rename_i hl
          cases h; exact ⟨_, .usedName ((nameForm_iff _).2 ⟨he, hc⟩) hl, rfl⟩
        · rename_i hl
          have hl : lookupName st'.byName front = none := by simpa using hl
          have := linkArgument_ok hi (newPositional_form (D := D) hc he) ⟨front, by simp, hl⟩
          rw [this.1] at h
          have h := congrArg Prod.snd h
          cases h
    · rename_i hc
      have hnn : rest = [] → ∃ r, front = '-' :: r := by
        rintro rfl
        simp only [List.isEmpty_nil, Bool.true_and, bne_iff_ne, ne_eq, Classical.not_not] at hc
        cases front with
        | nil => cases hc
        | cons c r => simp only [List.getElem?_cons_zero, Option.some.injEq] at hc; subst hc; exact ⟨r, rfl⟩
      split at h
      · rename_i x hx
        simp only [Prod.mk.injEq, Res.throw.injEq, true_and] at h
        subst h
        unfold checkFlags at hx
        split at hx
        · rename_i msg hv
          obtain ⟨w, rfl, hw⟩ := validFormatFlag_fault hv
          cases hx
          exact ⟨w, .badFirst hnn hw, rfl⟩
        · rename_i hv
          have hv := (C03_flag_syntax _).1 hv
          split at hx
          · rename_i hl
            cases hx
            exact ⟨_, .usedFirst hv hl, rfl⟩
          · rename_i hl
            have hn : lookupName st'.byName front = none := by simpa using hl
            obtain ⟨bt, g, af, w, rfl, h2, h3, rfl⟩ := checkFlags_rest hn hx
            exact ⟨w, .badLater hv hl h2 h3, rfl⟩
      · rename_i fs hx
        obtain ⟨h1, h2, h3, h4⟩ := checkFlags_ok hx (by simp)
        have h2' : ∀ g, g ∈ fs ↔ g ∈ front :: rest := by intro g; rw [h2]; simp
        have hl := h4 (by simp)
        have hne : fs ≠ [] := by
          intro e; have := (h2' front).2 (by simp); rw [e] at this; cases this
        have hv : ∀ f ∈ fs, validFormatFlag f = none := fun f hf => h3 f ((h2' f).1 hf)
        have := linkArgument_ok hi (newOption_form (D := D) hne hv)
          ⟨front, mem_sortNames.2 ((h2' front).2 (by simp)), hl⟩
        rw [this.1] at h
        have h := congrArg Prod.snd h
        cases h

theorem not_flagForm_of_fault {f : Str} {m : String} (h : FlagFault f m) : ¬FlagForm f := by
  intro hf
  rw [← C03_flag_syntax, FlagFault.format h] at hf
  cases hf

theorem flagFault_unique {f : Str} {m m' : String} (h : FlagFault f m) (h' : FlagFault f m') : m = m' := by
  have := (FlagFault.format h).symm.trans (FlagFault.format h')
  exact String.toList_inj.1 (Option.some.inj this)

theorem AddFault.refused {used : Str → Bool} {nof : List Str} {c : Str} {m : String}
    (h : AddFault (fun n => used n = true) nof c m) : AddRefused used nof := by
  cases h with
  | nothing => exact .empty
  | emptyName => exact .emptyName
  | usedName h1 h2 => exact .usedName h1 h2
  | @badFirst f rest msg h1 h2 =>
    refine .badFlag ?_ (List.mem_cons_self ..) (not_flagForm_of_fault h2)
    cases rest with
    | nil => exact .inr (h1 rfl)
    | cons => exact .inl (by simp)
  | @usedFirst f rest h1 h2 =>
    refine .usedFlag (.inr ?_) h2
    rcases h1 with ⟨d, _, e⟩ | ⟨d, r', e⟩ <;> exact ⟨_, e⟩
  | badLater h1 h2 h3 h4 => exact .badFlag (.inl (by simp)) (by simp) (not_flagForm_of_fault h4)

/-- The first fault is unique. -/
theorem AddFault.unique {used : Str → Prop} {nof : List Str} {c c' : Str} {m m' : String}
    (h : AddFault used nof c m) (h' : AddFault used nof c' m') : c = c' ∧ m = m' := by
  have dashed : ∀ {f : Str}, FlagForm f → ∃ r, f = '-' :: r := by
    rintro f (⟨d, _, e⟩ | ⟨d, r', e⟩) <;> exact ⟨_, e⟩
  have nameDash : ∀ {n : Str}, NameForm n → ¬∃ r, n = '-' :: r := fun h => not_dash_of_name h
  have later : ∀ {b b' : List Str} {g g' : Str} {a a' : List Str} {m m' : String}, b ++ g :: a = b' ++ g' :: a' →
      (∀ x ∈ b, FlagForm x) → (∀ x ∈ b', FlagForm x) → FlagFault g m → FlagFault g' m' → g = g' := by
    intro b
    induction b with
    | nil =>
      intro b' g g' a a' m m' e _ h2 h3 _
      cases b' with
      | nil => simp at e; exact e.1
      | cons y b' =>
        simp only [List.nil_append, List.cons_append, List.cons.injEq] at e
        exact absurd (h2 y (List.mem_cons_self ..)) (by rw [← e.1]; exact not_flagForm_of_fault h3)
    | cons x b ih =>
      intro b' g g' a a' m m' e h1 h2 h3 h4
      cases b' with
      | nil =>
        simp only [List.nil_append, List.cons_append, List.cons.injEq] at e
        exact absurd (h1 x (List.mem_cons_self ..)) (by rw [e.1]; exact not_flagForm_of_fault h4)
      | cons y b' =>
        simp only [List.cons_append, List.cons.injEq] at e
        exact ih e.2 (fun z hz => h1 z (List.mem_cons_of_mem _ hz)) (fun z hz => h2 z (List.mem_cons_of_mem _ hz)) h3 h4
  have one : ∀ {x y : Str} {b a : List Str} {g : Str}, [x] = y :: (b ++ g :: a) → False := by
    intro x y b a g e; simp at e
  cases h with
  | nothing => cases h'; exact ⟨rfl, rfl⟩
  | emptyName =>
    generalize hl : [[]] = l at h'
    cases h' with
    | nothing => cases hl
    | emptyName => exact ⟨rfl, rfl⟩
    | usedName h1 => cases hl; obtain ⟨_, _, e, _⟩ := h1; cases e
    | badFirst h1 => cases hl; obtain ⟨_, e⟩ := h1 rfl; cases e
    | usedFirst h1 => cases hl; obtain ⟨_, e⟩ := dashed h1; cases e
    | badLater => exact (one hl).elim
  | usedName h1 h2 =>
    generalize hl : [c] = l at h'
    cases h' with
    | nothing => cases hl
    | emptyName => cases hl; obtain ⟨_, _, e, _⟩ := h1; cases e
    | usedName => cases hl; exact ⟨rfl, rfl⟩
    | badFirst h3 => cases hl; exact absurd (h3 rfl) (nameDash h1)
    | usedFirst h3 => cases hl; exact absurd (dashed h3) (nameDash h1)
    | badLater => exact (one hl).elim
  | badFirst h1 h2 =>
    cases h' with
    | emptyName => obtain ⟨_, e⟩ := h1 rfl; cases e
    | usedName h3 => exact absurd (h1 rfl) (nameDash h3)
    | badFirst h3 h4 => exact ⟨rfl, flagFault_unique h2 h4⟩
    | usedFirst h3 => exact absurd h3 (not_flagForm_of_fault h2)
    | badLater h3 => exact absurd h3 (not_flagForm_of_fault h2)
  | usedFirst h1 h2 =>
    cases h' with
    | emptyName => obtain ⟨_, e⟩ := dashed h1; cases e
    | usedName h3 => exact absurd (dashed h1) (nameDash h3)
    | badFirst h3 h4 => exact absurd h1 (not_flagForm_of_fault h4)
    | usedFirst => exact ⟨rfl, rfl⟩
    | badLater _ h4 => exact absurd h2 h4
  | @badLater f _ b a _ h1 h2 h3 h4 =>
    generalize hl : f :: (b ++ c :: a) = l at h'
    cases h' with
    | nothing => cases hl
    | emptyName => exact (one hl.symm).elim
    | usedName => exact (one hl.symm).elim
    | badFirst _ h6 =>
      simp only [List.cons.injEq] at hl
      exact absurd h1 (by rw [hl.1]; exact not_flagForm_of_fault h6)
    | usedFirst _ h6 => simp only [List.cons.injEq] at hl; exact absurd h6 (by rw [← hl.1]; exact h2)
    | badLater h5 h6 h7 h8 =>
      simp only [List.cons.injEq] at hl
      have e := later hl.2 h3 h7 h4 h8
      subst e
      exact ⟨rfl, flagFault_unique h4 h8⟩

/-- C05, the exception. `addArgument` throws exactly when something is wrong with the names, and the
`ArgumentException` names the first faulty name and tells what is wrong with it; nothing has changed. -/
theorem C05_exception {scan : Str → Option D} {st : State D} (h : Reachable scan st) (nof : List Str)
    (culprit : Str) (msg : String) :
    AddFault (fun n => st.argumentExists n = true) nof culprit msg ↔
      st.addArgument nof = (st, .throw ⟨.argument, culprit, msg.toList⟩) := by
  constructor
  · intro hf
    rcases C05_add_refused h nof with ⟨_, e, _, he⟩ | ⟨hn, _⟩
    · obtain ⟨_, w, hw, hx⟩ := addArgument_fault st h.inv he
      obtain ⟨e1, e2⟩ := AddFault.unique hf hw
      rw [he, hx, ← e1, ← e2]
    · exact absurd (AddFault.refused hf) hn
  · intro he
    obtain ⟨_, w, hw, hx⟩ := addArgument_fault st h.inv he
    simp only [Exn.mk.injEq, true_and] at hx
    rw [String.toList_inj.1 hx]
    exact hw

/-- The faults of `C05_exception` occur: a malformed flag after a good one is named; a used first flag is
named before a malformed second one; a used second flag is not a fault. -/
example : demo.addArgument ["-x".toList, "--y".toList, "-long".toList, "zz".toList] =
      (demo, .throw ⟨.argument, "-long".toList, "invalid short flag has not only one character".toList⟩) ∧
    demo.addArgument ["-o".toList, "zz".toList] =
      (demo, .throw ⟨.argument, "-o".toList, "invalid flag already exist".toList⟩) := by
  refine ⟨(C05_exception demo_reachable _ _ _).1 ?_, (C05_exception demo_reachable _ _ _).1 ?_⟩
  · exact .badLater (between := ["--y".toList]) (.inl ⟨'x', by decide, rfl⟩) (by decide +kernel)
      (by simp only [List.mem_singleton, forall_eq]; exact .inr ⟨'y', [], rfl⟩) (.longShort 'l' 'o' "ng".toList (by decide))
  · exact .usedFirst (.inl ⟨'o', by decide, rfl⟩) (by decide +kernel)

/-- C08, the exception. On a live argument, `flag` throws exactly when the argument is positional, the flag is
malformed or the flag is in use – looked for in this order – and the `ArgumentException` names the flag. -/
theorem C08_exception {scan : Str → Option D} {st : State D} (h : Reachable scan st) {s : Slot D}
    (hs : s ∈ st.arguments) (f : Str) :
    (s.arg.isPositional = true →
      st.flag s.obj f = (st, .throw ⟨.argument, f, "can't add flag in positionnal argument".toList⟩)) ∧
    (s.arg.isPositional = false → ∀ msg, FlagFault f msg → st.flag s.obj f = (st, .throw ⟨.argument, f, msg.toList⟩)) ∧
    (s.arg.isPositional = false → FlagForm f → st.argumentExists f = true →
      st.flag s.obj f = (st, .throw ⟨.argument, f, "invalid flag already exist".toList⟩)) ∧
    (s.arg.isPositional = false → FlagForm f → st.argumentExists f = false → (st.flag s.obj f).2 = .ok ()) := by
  have ha := State.atObj_of_mem h.inv.objs hs
  refine ⟨fun h1 => ?_, fun h1 msg hf => ?_, fun h1 hf hu => ?_, fun h1 hf hu => ?_⟩
  · unfold State.flag State.withRef; rw [ha]; simp only; rw [if_pos h1]
  · unfold State.flag State.withRef; rw [ha]; simp only; rw [if_neg (by simp [h1]), FlagFault.format hf]
  · unfold State.flag State.withRef; rw [ha]; simp only
    rw [if_neg (by simp [h1]), (C03_flag_syntax f).2 hf]; simp only; rw [if_pos hu]
  · rcases C08_flag_refused h hs f with ⟨h3, _⟩ | ⟨_, _, _, h3⟩
    · rcases h3 with h3 | h3 | h3
      · rw [h1] at h3; cases h3
      · exact absurd hf h3
      · rw [hu] at h3; cases h3
    · exact h3

example : (∃ s ∈ demo.arguments, s.obj = 0 ∧ s.arg.isPositional = false) ∧
    (∃ s ∈ demo.arguments, s.obj = 1 ∧ s.arg.isPositional = true) := by decide +kernel

end BletArgs
