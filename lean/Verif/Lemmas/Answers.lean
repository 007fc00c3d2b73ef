import Verif.Lemmas.Aside
/-
How help and version are answered, and strict mode: what they change in a parse.
-/
namespace BletArgs
open Spec
variable {D : Type}

/-! ### Answers -/

/-- The parser with another version text and other modes of help and version. -/
def State.give (s : State D) (v : Str) (h x : Bool) : State D :=
  { s with version := v, isHelpException := h, isVersionException := x }

namespace Answers

variable (v : Str) (h x : Bool)

/-- The corresponding outcome. -/
def out {α : Type} (y : State D × Res α) : State D × Res α := (y.1.give v h x, y.2)

theorem of {α : Type} {f : State D → State D × Res α} (hf : ∀ s c, f (s.put c) = Aside.out c (f s)) (s : State D) :
    f (s.give v h x) = out v h x (f s) := by
  have e := hf s ⟨v, h, x, s.isStrict, s.additional⟩
  have k := Aside.kept hf s
  rw [show s.give v h x = s.put ⟨v, h, x, s.isStrict, s.additional⟩ from rfl, e]
  refine Prod.ext ?_ rfl
  have k1 : (f s).1.isStrict = s.isStrict := congrArg Aside.strict k
  have k2 : (f s).1.additional = s.additional := congrArg Aside.extra k
  show (f s).1.put ⟨v, h, x, s.isStrict, s.additional⟩ = _
  rw [← k1, ← k2]
  rfl

theorem word (s : State D) (argv : List Str) (argc index : Nat) (b : Bool) :
    (s.give v h x).parsePositionalTok argv argc index b = out v h x (s.parsePositionalTok argv argc index b) := by
  unfold State.parsePositionalTok
  rw [show (s.give v h x).endOfInfinite = s.endOfInfinite from Aside.endOfInfinite s ⟨v, h, x, s.isStrict, s.additional⟩,
    show (s.give v h x).nextPositional = s.nextPositional from rfl]
  cases s.nextPositional with
  | some t => rfl
  | none =>
    simp only
    cases argv[index]? with
    | none => rfl
    | some w =>
      simp only
      rw [show (s.give v h x).isStrict = s.isStrict from rfl]
      split <;> rfl

theorem endLoop (argv : List Str) (f i : Nat) (s : State D) :
    State.endLoop argv f i (s.give v h x) = out v h x (State.endLoop argv f i s) := by
  induction f generalizing i s with
  | zero => rfl
  | succ f ih =>
    unfold State.endLoop
    rw [word]
    split
    · generalize s.parsePositionalTok argv argv.length i true = y
      obtain ⟨u, res⟩ := y
      cases res with
      | ok i1 => exact ih i1 u
      | _ => rfl
    · rfl

theorem mainLoop (argv : List Str) (e f i : Nat) (s : State D) :
    State.mainLoop argv e f i (s.give v h x) = out v h x (State.mainLoop argv e f i s) := by
  induction f generalizing i s with
  | zero => rfl
  | succ f ih =>
    have next : ∀ y : State D × Res Nat,
        (match out v h x y with
          | (st1, .ok i1) => State.mainLoop argv e f i1 st1
          | (st1, r) => (st1, r.cast)) =
        out v h x (match y with
          | (st1, .ok i1) => State.mainLoop argv e f i1 st1
          | (st1, r) => (st1, r.cast)) := by
      rintro ⟨u, res⟩
      cases res with
      | ok i1 => exact ih i1 u
      | _ => rfl
    unfold State.mainLoop
    split
    · cases argv[i]? with
      | none => rfl
      | some tok =>
        simp only
        rw [of v h x (f := fun s => s.parseShort argv e i tok) (fun s c => Aside.parseShort s c ..),
          of v h x (f := fun s => s.parseLong argv e i tok) (fun s c => Aside.parseLong s c ..), word, endLoop]
        split
        · exact next _
        · split
          · exact next _
          · split
            · rfl
            · exact next _
    · rfl

/-- The end of a parse: the same, except for the answers – and `clear()` is called if the program exits. -/
theorem afterLoop (scan : Str → Option D) (s : State D) :
    ((s.afterLoop scan).2.goesOn = ((s.give v h x).afterLoop scan).2.goesOn →
      SameButAnswers (s.afterLoop scan).1 ((s.give v h x).afterLoop scan).1) ∧
    SameParse s.version v (s.afterLoop scan).2 ((s.give v h x).afterLoop scan).2 := by
  have ef := of v h x (f := fun s => s.finishParse scan) (fun s c => Aside.finishParse scan s c) s
  have ec : (s.give v h x).clear = s.clear := rfl
  unfold State.afterLoop
  rw [ef, ec, show (s.give v h x).optionSeen (s.give v h x).helpOption = s.optionSeen s.helpOption from rfl,
    show (s.give v h x).optionSeen (s.give v h x).versionOption = s.optionSeen s.versionOption from rfl,
    show (s.give v h x).getUsage = s.getUsage from rfl]
  cases s.optionSeen s.helpOption with
  | none => exact ⟨fun _ => ⟨v, h, x, rfl⟩, .inl rfl⟩
  | some b =>
    cases b with
    | true =>
      have a1 : ∀ (b : Bool) (t u : State D), AnswersHelp s.getUsage
          (if b = true then (t, (.throw ⟨.help, [], s.getUsage⟩ : Res Unit)) else (u, .exit (s.getUsage ++ "\n".toList))).2 := by
        intro b t u
        cases b
        · exact .inr rfl
        · exact .inl rfl
      refine ⟨?_, .inr (.inl ⟨s.getUsage, a1 _ _ _, a1 _ _ _⟩)⟩
      show (if s.isHelpException = true then (s, (.throw ⟨.help, [], s.getUsage⟩ : Res Unit)) else (s.clear, .exit (s.getUsage ++ "\n".toList))).2.goesOn =
        (if h = true then (s.give v h x, (.throw ⟨.help, [], s.getUsage⟩ : Res Unit)) else (s.clear, .exit (s.getUsage ++ "\n".toList))).2.goesOn →
        SameButAnswers (if s.isHelpException = true then (s, (.throw ⟨.help, [], s.getUsage⟩ : Res Unit)) else (s.clear, .exit (s.getUsage ++ "\n".toList))).1
        (if h = true then (s.give v h x, (.throw ⟨.help, [], s.getUsage⟩ : Res Unit)) else (s.clear, .exit (s.getUsage ++ "\n".toList))).1
      cases s.isHelpException <;> cases h <;> intro hg
      · exact ⟨s.clear.version, s.clear.isHelpException, s.clear.isVersionException, rfl⟩
      · cases hg
      · cases hg
      · exact ⟨v, true, x, rfl⟩
    | false =>
      simp only
      cases s.optionSeen s.versionOption with
      | none => exact ⟨fun _ => ⟨v, h, x, rfl⟩, .inl rfl⟩
      | some b =>
        cases b with
        | true =>
          have a1 : ∀ (b : Bool) (w : Str) (t u : State D), AnswersVersion w
              (if b = true then (t, (.throw ⟨.version, [], w⟩ : Res Unit)) else (u, .exit (w ++ "\n".toList))).2 := by
            intro b w t u
            cases b
            · exact .inr rfl
            · exact .inl rfl
          refine ⟨?_, .inr (.inr ⟨a1 _ _ _ _, a1 _ _ _ _⟩)⟩
          show (if s.isVersionException = true then (s, (.throw ⟨.version, [], s.version⟩ : Res Unit)) else (s.clear, .exit (s.version ++ "\n".toList))).2.goesOn =
            (if x = true then (s.give v h x, (.throw ⟨.version, [], v⟩ : Res Unit)) else (s.clear, .exit (v ++ "\n".toList))).2.goesOn →
            SameButAnswers (if s.isVersionException = true then (s, (.throw ⟨.version, [], s.version⟩ : Res Unit)) else (s.clear, .exit (s.version ++ "\n".toList))).1
            (if x = true then (s.give v h x, (.throw ⟨.version, [], v⟩ : Res Unit)) else (s.clear, .exit (v ++ "\n".toList))).1
          cases s.isVersionException <;> cases x <;> intro hg
          · exact ⟨s.clear.version, s.clear.isHelpException, s.clear.isVersionException, rfl⟩
          · cases hg
          · cases hg
          · exact ⟨v, h, true, rfl⟩
        | false => exact ⟨fun _ => ⟨v, h, x, rfl⟩, .inl rfl⟩

theorem parse (scan : Str → Option D) (s : State D) (argv : List Str) :
    ((s.parseArguments scan argv).2.goesOn = ((s.give v h x).parseArguments scan argv).2.goesOn →
      SameButAnswers (s.parseArguments scan argv).1 ((s.give v h x).parseArguments scan argv).1) ∧
    SameParse s.version v (s.parseArguments scan argv).2 ((s.give v h x).parseArguments scan argv).2 := by
  have k1 : s.resetAll.autoHelp.1.version = s.version :=
    congrArg Aside.version (Aside.kept (f := State.autoHelp) Aside.autoHelp s.resetAll)
  unfold State.parseArguments
  rw [show (s.give v h x).resetAll = s.resetAll.give v h x from rfl, of v h x (f := State.autoHelp) Aside.autoHelp]
  revert k1
  generalize s.resetAll.autoHelp = y
  obtain ⟨u, res⟩ := y
  intro k1
  simp only at k1
  cases res with
  | ok b =>
    cases b with
    | false => exact ⟨fun _ => ⟨v, h, x, rfl⟩, .inl rfl⟩
    | true =>
      have k2 : (u.setBinaryIfEmpty argv).1.version = u.version :=
        congrArg Aside.version (Aside.kept (f := fun s => s.setBinaryIfEmpty argv) (fun s c => Aside.setBinary s c argv) u)
      simp only [out]
      rw [of v h x (f := fun s => s.setBinaryIfEmpty argv) (fun s c => Aside.setBinary s c argv)]
      revert k2
      generalize u.setBinaryIfEmpty argv = y
      obtain ⟨w, res⟩ := y
      intro k2
      simp only at k2
      cases res with
      | ok _ =>
        have k3 : (State.mainLoop argv (endOptionIndex argv) (w.loopBudget argv) 1 w).1.version = w.version :=
          congrArg (fun y => y.1.version) (mainLoop w.version w.isHelpException w.isVersionException argv (endOptionIndex argv)
            (w.loopBudget argv) 1 w)
        rw [← k1, ← k2, ← k3]
        simp only [out]
        rw [show (w.give v h x).loopBudget argv = w.loopBudget argv from rfl, mainLoop]
        generalize State.mainLoop _ _ _ _ w = z
        obtain ⟨z, res⟩ := z
        cases res with
        | ok _ => exact afterLoop v h x scan z
        | _ => exact ⟨fun _ => ⟨v, h, x, rfl⟩, .inl rfl⟩
      | _ => exact ⟨fun _ => ⟨v, h, x, rfl⟩, .inl rfl⟩
  | _ => exact ⟨fun _ => ⟨v, h, x, rfl⟩, .inl rfl⟩

end Answers

theorem Spec.SameParse.weak {v v' : Str} {r r' : Res Unit} (h : SameParse v v' r r') : SameAnswer r r' := by
  rcases h with h | h | h
  · exact .inl h
  · exact .inr (.inl h)
  · exact .inr (.inr ⟨v, v', h⟩)

/-- Every call does the same on parsers that differ in the answers only. -/
theorem step_answers (scan : Str → Option D) {s s' : State D} (op : Op) (hs : SameButAnswers s s') :
    ((step scan s op).2.goesOn = (step scan s' op).2.goesOn → SameButAnswers (step scan s op).1 (step scan s' op).1) ∧
    SameAnswer (step scan s op).2 (step scan s' op).2 := by
  obtain ⟨v, h, x, rfl⟩ := hs
  change ((step scan s op).2.goesOn = (step scan (s.give v h x) op).2.goesOn →
      SameButAnswers (step scan s op).1 (step scan (s.give v h x) op).1) ∧
    SameAnswer (step scan s op).2 (step scan (s.give v h x) op).2
  have done : ∀ {α : Type} {f : State D → State D × Res α} {g : Prop}, (∀ s c, f (s.put c) = Aside.out c (f s)) →
      (g → SameButAnswers (f s).1 (f (s.give v h x)).1) ∧ SameAnswer (f s).2.void (f (s.give v h x)).2.void := by
    intro α f g hf
    rw [Answers.of v h x hf]
    exact ⟨fun _ => ⟨v, h, x, rfl⟩, .inl rfl⟩
  have unit : ∀ {f : State D → State D × Res Unit} {g : Prop}, (∀ s c, f (s.put c) = Aside.out c (f s)) →
      (g → SameButAnswers (f s).1 (f (s.give v h x)).1) ∧ SameAnswer (f s).2 (f (s.give v h x)).2 := by
    intro f g hf
    rw [Answers.of v h x hf]
    exact ⟨fun _ => ⟨v, h, x, rfl⟩, .inl rfl⟩
  cases op with
  | add ns => exact done (f := fun s => s.addArgument ns) fun s c => Aside.addArgument s c ns
  | dest ref d => exact done (f := fun s => s.setDest ref d) fun s c => Aside.setDest s c ref d
  | remove ns => exact unit (f := fun s => s.removeArguments ns) fun s c => Aside.removeArguments s c ns
  | clear => exact ⟨fun _ => ⟨s.clear.version, s.clear.isHelpException, s.clear.isVersionException, rfl⟩, .inl rfl⟩
  | flag ref f => exact unit (f := fun s => s.flag ref f) fun s c => Aside.flag s c ref f
  | action ref a => exact unit (f := fun s => s.action ref a) fun s c => Aside.action s c ref a
  | nargs ref n => exact unit (f := fun s => s.nargs ref n) fun s c => Aside.nargs s c ref n
  | defaults ref ds => exact unit (f := fun s => s.setDefaults ref ds) fun s c => Aside.setDefaults s c ref ds
  | required ref b => exact unit (f := fun s => s.required ref b) fun s c => Aside.required s c ref b
  | valid ref w d => exact unit (f := fun s => s.setValid ref w d) fun s c => Aside.setValid s c ref w d
  | edit ref items => exact unit (f := fun s => s.edit scan ref items) fun s c => Aside.edit scan s c ref items
  | behave ref k w => exact unit (f := fun s => s.behave ref k w) fun s c => Aside.behave s c ref k w
  | help ref w => exact unit (f := fun s => s.setHelp ref w) fun s c => Aside.setHelp s c ref w
  | metavar ref w => exact unit (f := fun s => s.setMetavar ref w) fun s c => Aside.setMetavar s c ref w
  | parse argv => exact ⟨(Answers.parse v h x scan s argv).1, (Answers.parse v h x scan s argv).2.weak⟩
  | setVersion w => exact ⟨fun _ => ⟨w, h, x, rfl⟩, .inl rfl⟩
  | setHelpException w => exact ⟨fun _ => ⟨v, w, x, rfl⟩, .inl rfl⟩
  | setVersionException w => exact ⟨fun _ => ⟨v, h, w, rfl⟩, .inl rfl⟩
  | _ => exact ⟨fun _ => ⟨v, h, x, rfl⟩, .inl rfl⟩

/-- A call that concerns the answers changes nothing else. -/
theorem answer_step (scan : Str → Option D) (s : State D) {op : Op} (h : Op.isAnswer op = true) :
    SameButAnswers s (step scan s op).1 ∧ (step scan s op).2 = .ok () := by
  cases op with
  | setVersion x => exact ⟨⟨x, _, _, rfl⟩, rfl⟩
  | setHelpException x => exact ⟨⟨_, x, _, rfl⟩, rfl⟩
  | setVersionException x => exact ⟨⟨_, _, x, rfl⟩, rfl⟩
  | _ => exact Bool.noConfusion h

theorem Spec.SameButAnswers.trans {s t u : State D} (h : SameButAnswers s t) (k : SameButAnswers t u) : SameButAnswers s u := by
  obtain ⟨_, _, _, rfl⟩ := h
  obtain ⟨_, _, _, rfl⟩ := k
  exact ⟨_, _, _, rfl⟩

theorem Spec.SameButAnswers.symm {s t : State D} (h : SameButAnswers s t) : SameButAnswers t s := by
  obtain ⟨_, _, _, rfl⟩ := h
  exact ⟨s.version, s.isHelpException, s.isVersionException, rfl⟩

/-! ### Strict mode -/

/-- The parser in strict mode. -/
def State.tight (s : State D) : State D := { s with isStrict := true }

/-- A function that commutes with what is put aside commutes with strict mode, and leaves it and the additional arguments. -/
theorem strictly_of {α : Type} {f : State D → State D × Res α} (hf : ∀ s c, f (s.put c) = Aside.out c (f s)) (s : State D) :
    f s.tight = ((f s).1.tight, (f s).2) ∧ (f s).1.isStrict = s.isStrict ∧ (f s).1.additional = s.additional := by
  have k := Aside.kept hf s
  have k2 : (f s).1.additional = s.additional := congrArg Aside.extra k
  refine ⟨?_, congrArg Aside.strict k, k2⟩
  have k3 : (f s).1.version = s.version := congrArg Aside.version k
  have k4 : (f s).1.isHelpException = s.isHelpException := congrArg Aside.help k
  have k5 : (f s).1.isVersionException = s.isVersionException := congrArg Aside.vers k
  have e := hf s ⟨s.version, s.isHelpException, s.isVersionException, true, s.additional⟩
  rw [show s.tight = s.put ⟨s.version, s.isHelpException, s.isVersionException, true, s.additional⟩ from rfl, e]
  refine Prod.ext ?_ rfl
  show (f s).1.put ⟨s.version, s.isHelpException, s.isVersionException, true, s.additional⟩ = _
  rw [← k2, ← k3, ← k4, ← k5]
  rfl

/-- A computation without strict mode that starts with the additional arguments `add`, and the same in strict mode: when no
word is surplus it is the same, otherwise it throws about the first one. -/
def Strictly {α : Type} (add : List Str) (n s : State D × Res α) : Prop :=
  n.1.isStrict = false ∧ ∃ ws, n.1.additional = add ++ ws ∧ (ws = [] → s = (n.1.tight, n.2)) ∧
    ∀ w rest, ws = w :: rest → s.2 = .throw (parseExn w "invalid additional argument")

theorem Strictly.same {α : Type} {f : State D → State D × Res α} (hf : ∀ s c, f (s.put c) = Aside.out c (f s)) {s : State D}
    (hs : s.isStrict = false) : Strictly s.additional (f s) (f s.tight) := by
  obtain ⟨h1, h2, h3⟩ := strictly_of hf s
  exact ⟨h2.trans hs, [], by rw [h3, List.append_nil], fun _ => h1, fun _ _ h => by cases h⟩

theorem Strictly.word (s : State D) (hs : s.isStrict = false) (argv : List Str) (argc index : Nat) (b : Bool) :
    Strictly s.additional (s.parsePositionalTok argv argc index b) (s.tight.parsePositionalTok argv argc index b) := by
  unfold State.parsePositionalTok
  rw [show s.tight.endOfInfinite = s.endOfInfinite from
      Aside.endOfInfinite s ⟨s.version, s.isHelpException, s.isVersionException, true, s.additional⟩,
    show s.tight.nextPositional = s.nextPositional from rfl]
  cases s.nextPositional with
  | some t => exact ⟨hs, [], (List.append_nil _).symm, fun _ => rfl, fun _ _ h => by cases h⟩
  | none =>
    simp only
    cases argv[index]? with
    | none => exact ⟨hs, [], (List.append_nil _).symm, fun _ => rfl, fun _ _ h => by cases h⟩
    | some w =>
      simp only
      rw [if_neg (show ¬s.isStrict = true by simp [hs]), if_pos (show s.tight.isStrict = true from rfl)]
      exact ⟨hs, [w], rfl, fun h => (by cases h), fun _ _ h => (by cases h; rfl)⟩

/-- One step and the rest. -/
theorem Strictly.next {α : Type} {add : List Str} {n s : State D × Res Nat} (h : Strictly add n s)
    {k : Nat → State D → State D × Res α} {bad : Res Nat → Res α} (hb : ∀ e, bad (.throw e) = .throw e)
    (hk : ∀ i u, u.isStrict = false → Strictly u.additional (k i u) (k i u.tight)) :
    Strictly add
      (match (generalizing := false) n with
        | (st1, .ok i1) => k i1 st1
        | (st1, r) => (st1, bad r))
      (match (generalizing := false) s with
        | (st1, .ok i1) => k i1 st1
        | (st1, r) => (st1, bad r)) := by
  obtain ⟨h0, ws, h1, h2, h3⟩ := h
  obtain ⟨u, res⟩ := n
  cases ws with
  | nil =>
    rw [h2 rfl]
    rw [List.append_nil] at h1
    cases res with
    | ok i => 
      have := hk i u h0
      rw [show u.additional = add from h1] at this
      exact this
    | _ => exact ⟨h0, [], by rw [List.append_nil]; exact h1, fun _ => rfl, fun _ _ h => by cases h⟩
  | cons w ws =>
    have e := h3 w ws rfl
    obtain ⟨t, r⟩ := s
    simp only at e
    subst e
    simp only
    rw [hb]
    cases res with
    | ok i =>
      obtain ⟨g0, vs, g1, -⟩ := hk i u h0
      refine ⟨g0, w :: ws ++ vs, ?_, fun h => (by cases h), fun w' r h => ?_⟩
      · rw [g1, show u.additional = add ++ w :: ws from h1, List.append_assoc]
      · rw [List.cons_append] at h; cases h; rfl
    | _ =>
      refine ⟨h0, w :: ws, h1, fun h => (by cases h), fun w' r h => ?_⟩
      cases h; rfl

theorem Strictly.nothing {α : Type} {s : State D} (hs : s.isStrict = false) (r : Res α) : Strictly s.additional (s, r) (s.tight, r) :=
  ⟨hs, [], (List.append_nil _).symm, fun _ => rfl, fun _ _ h => by cases h⟩

theorem Strictly.endLoop (argv : List Str) (f i : Nat) (s : State D) (hs : s.isStrict = false) :
    Strictly s.additional (State.endLoop argv f i s) (State.endLoop argv f i s.tight) := by
  induction f generalizing i s with
  | zero => exact Strictly.nothing hs _
  | succ f ih =>
    unfold State.endLoop
    split
    · exact Strictly.next (Strictly.word s hs argv argv.length i true) (bad := Res.cast) (fun _ => rfl)
        (k := fun i1 st1 => State.endLoop argv f i1 st1) (fun i u hu => ih i u hu)
    · exact Strictly.nothing hs _

theorem Strictly.mainLoop (argv : List Str) (e f i : Nat) (s : State D) (hs : s.isStrict = false) :
    Strictly s.additional (State.mainLoop argv e f i s) (State.mainLoop argv e f i s.tight) := by
  induction f generalizing i s with
  | zero => exact Strictly.nothing hs _
  | succ f ih =>
    unfold State.mainLoop
    split
    · cases argv[i]? with
      | none => exact Strictly.nothing hs _
      | some tok =>
        simp only
        split
        · exact Strictly.next (Strictly.same (f := fun s => s.parseShort argv e i tok) (fun s c => Aside.parseShort s c ..) hs)
            (bad := Res.cast) (fun _ => rfl) (k := fun i1 st1 => State.mainLoop argv e f i1 st1) (fun i u hu => ih i u hu)
        · split
          · exact Strictly.next (Strictly.same (f := fun s => s.parseLong argv e i tok) (fun s c => Aside.parseLong s c ..) hs)
              (bad := Res.cast) (fun _ => rfl) (k := fun i1 st1 => State.mainLoop argv e f i1 st1) (fun i u hu => ih i u hu)
          · split
            · exact Strictly.endLoop argv f (i + 1) s hs
            · exact Strictly.next (Strictly.word s hs argv e i false)
                (bad := Res.cast) (fun _ => rfl) (k := fun i1 st1 => State.mainLoop argv e f i1 st1) (fun i u hu => ih i u hu)
    · exact Strictly.nothing hs _

/-- The end of a parse does not depend on strict mode. -/
theorem afterLoop_strictly (scan : Str → Option D) (s : State D) (hs : s.isStrict = false) :
    (s.tight.afterLoop scan).2 = (s.afterLoop scan).2 ∧
    ((s.afterLoop scan).2.goesOn = true → (s.tight.afterLoop scan).1 = (s.afterLoop scan).1.tight ∧
      (s.afterLoop scan).1.additional = s.additional) := by
  obtain ⟨h1, h2, h3⟩ := strictly_of (f := fun s => s.finishParse scan) (fun s c => Aside.finishParse scan s c) s
  have ec : s.tight.clear = s.clear := rfl
  unfold State.afterLoop
  rw [show s.tight.finishParse scan = _ from h1, ec,
    show s.tight.optionSeen s.tight.helpOption = s.optionSeen s.helpOption from rfl,
    show s.tight.optionSeen s.tight.versionOption = s.optionSeen s.versionOption from rfl,
    show s.tight.getUsage = s.getUsage from rfl, show s.tight.isHelpException = s.isHelpException from rfl,
    show s.tight.isVersionException = s.isVersionException from rfl, show s.tight.version = s.version from rfl]
  cases s.optionSeen s.helpOption with
  | none => exact ⟨rfl, fun h => by cases h⟩
  | some b =>
    cases b with
    | true =>
      simp only
      cases s.isHelpException
      · exact ⟨rfl, fun h => by cases h⟩
      · exact ⟨rfl, fun _ => ⟨rfl, rfl⟩⟩
    | false =>
      simp only
      cases s.optionSeen s.versionOption with
      | none => exact ⟨rfl, fun h => by cases h⟩
      | some b =>
        cases b with
        | true =>
          simp only
          cases s.isVersionException
          · exact ⟨rfl, fun h => by cases h⟩
          · exact ⟨rfl, fun _ => ⟨rfl, rfl⟩⟩
        | false => exact ⟨rfl, fun _ => ⟨rfl, h3⟩⟩

theorem parse_strictly (scan : Str → Option D) (s : State D) (hs : s.isStrict = false) (argv : List Str) :
    ∃ ws, ((s.parseArguments scan argv).2.goesOn = true → (s.parseArguments scan argv).1.additional = s.additional ++ ws) ∧
      (ws = [] → (s.tight.parseArguments scan argv).2 = (s.parseArguments scan argv).2 ∧
        ((s.parseArguments scan argv).2.goesOn = true →
          (s.tight.parseArguments scan argv).1 = (s.parseArguments scan argv).1.tight)) ∧
      ∀ w rest, ws = w :: rest → (s.tight.parseArguments scan argv).2 = .throw (parseExn w "invalid additional argument") := by
  unfold State.parseArguments
  obtain ⟨h1, h2, h3⟩ := strictly_of (f := State.autoHelp) Aside.autoHelp s.resetAll
  rw [show s.tight.resetAll = s.resetAll.tight from rfl, h1]
  rw [show s.resetAll.isStrict = s.isStrict from rfl, hs] at h2
  rw [show s.resetAll.additional = s.additional from rfl] at h3
  revert h2 h3
  generalize s.resetAll.autoHelp = y
  obtain ⟨u, res⟩ := y
  simp only
  intro h2 h3
  have same : ∀ {t : State D} {r : Res Unit}, t.additional = s.additional → ∃ ws, (r.goesOn = true → t.additional = s.additional ++ ws) ∧
      (ws = [] → r = r ∧ (r.goesOn = true → t.tight = t.tight)) ∧
      ∀ w rest, ws = w :: rest → r = .throw (parseExn w "invalid additional argument") := fun h =>
    ⟨[], fun _ => by rw [List.append_nil]; exact h, fun _ => ⟨rfl, fun _ => rfl⟩, fun _ _ h => by cases h⟩
  cases res with
  | ok b =>
    cases b with
    | false => exact same h3
    | true =>
      simp only
      obtain ⟨g1, g2, g3⟩ := strictly_of (f := fun s => s.setBinaryIfEmpty argv) (fun s c => Aside.setBinary s c argv) u
      rw [show u.tight.setBinaryIfEmpty argv = _ from g1]
      rw [h2] at g2
      rw [h3] at g3
      revert g2 g3
      generalize u.setBinaryIfEmpty argv = y
      obtain ⟨w, res⟩ := y
      simp only
      intro g2 g3
      cases res with
      | ok _ =>
        simp only
        rw [show w.tight.loopBudget argv = w.loopBudget argv from rfl]
        have hm := Strictly.mainLoop argv (endOptionIndex argv) (w.loopBudget argv) 1 w g2
        rw [g3] at hm
        revert hm
        generalize State.mainLoop _ _ _ _ w = z
        generalize State.mainLoop _ _ _ _ w.tight = z'
        obtain ⟨z, res⟩ := z
        rintro ⟨k0, ws, k1, k2, k3⟩
        simp only at k0 k1
        cases ws with
        | nil =>
          rw [k2 rfl]
          rw [List.append_nil] at k1
          cases res with
          | ok _ =>
            obtain ⟨a1, a2⟩ := afterLoop_strictly scan z k0
            exact ⟨[], fun hg => by rw [List.append_nil, ← k1]; exact (a2 hg).2, fun _ => ⟨a1, fun hg => (a2 hg).1⟩, fun _ _ h => by cases h⟩
          | _ => exact same k1
        | cons x ws =>
          have e := k3 x ws rfl
          obtain ⟨z', r⟩ := z'
          simp only at e
          subst e
          refine ⟨x :: ws, ?_, fun h => (by cases h), fun w' r h => (by cases h; rfl)⟩
          cases res with
          | ok _ =>
            intro hg
            rw [← k1]
            exact ((afterLoop_strictly scan z k0).2 hg).2
          | _ => exact fun _ => k1
      | _ => exact same g3
  | _ => exact same h3

end BletArgs
