import Verif.Model.Valid
/-
C39–C42: the standard validators.
-/
namespace BletArgs
variable {D : Type}

/-- The outcome of `checkEach`: acceptance of the unchanged list, or the message of the first bad value. -/
theorem checkEach_accept (bad : Str → Option Str) (args out : List Str) :
    checkEach bad args = .accept out ↔ out = args ∧ ∀ s ∈ args, bad s = none := by
  unfold checkEach
  cases h : args.findSome? bad with
  | none =>
    rw [List.findSome?_eq_none_iff] at h
    constructor
    · intro e; cases e; exact ⟨rfl, h⟩
    · rintro ⟨rfl, _⟩; rfl
  | some m =>
    obtain ⟨a, ha, hb⟩ := List.exists_of_findSome?_eq_some h
    constructor
    · intro e; cases e
    · rintro ⟨_, h'⟩; rw [h' a ha] at hb; cases hb

theorem checkEach_throw (bad : Str → Option Str) (args : List Str) (m : Str) :
    checkEach bad args = .throwValid m ↔
      ∃ pre s post, args = pre ++ s :: post ∧ (∀ x ∈ pre, bad x = none) ∧ bad s = some m := by
  unfold checkEach
  cases h : args.findSome? bad with
  | none =>
    rw [List.findSome?_eq_none_iff] at h
    constructor
    · intro e; cases e
    · rintro ⟨pre, s, post, rfl, _, hs⟩
      rw [h s (by simp)] at hs; cases hs
  | some m' =>
    rw [List.findSome?_eq_some_iff] at h
    obtain ⟨l₁, a, l₂, h1, h2, h3⟩ := h
    constructor
    · intro e; cases e; exact ⟨l₁, a, l₂, h1, h3, h2⟩
    · rintro ⟨pre, s, post, h4, h5, h6⟩
      have : m' = m := by
        have e1 : args.findSome? bad = some m' := by
          rw [List.findSome?_eq_some_iff]; exact ⟨l₁, a, l₂, h1, h2, h3⟩
        have e2 : args.findSome? bad = some m := by
          rw [List.findSome?_eq_some_iff]; exact ⟨pre, s, post, h4, h6, h5⟩
        rw [e1] at e2; exact Option.some.inj e2
      rw [this]

theorem checkEach_dichotomy (bad : Str → Option Str) (args : List Str) :
    checkEach bad args = .accept args ∨ ∃ m, checkEach bad args = .throwValid m := by
  unfold checkEach; split
  · exact .inr ⟨_, rfl⟩
  · exact .inl rfl

/-- C39: accepted iff every value is a choice, values unchanged. -/
theorem C39_choise_accept (cs args out : List Str) :
    validChoise cs args = .accept out ↔ out = args ∧ ∀ s ∈ args, s ∈ cs := by
  unfold validChoise
  rw [checkEach_accept]
  refine and_congr_right fun _ => forall₂_congr fun s _ => ?_
  by_cases h : s ∈ cs <;> simp [h]

/-- C39: otherwise the first value that is not a choice is reported, quoted, with the list of choices. -/
theorem C39_choise_reject (cs args : List Str) (h : ¬∀ s ∈ args, s ∈ cs) :
    ∃ pre s post, args = pre ++ s :: post ∧ (∀ x ∈ pre, x ∈ cs) ∧ s ∉ cs ∧
      validChoise cs args = .throwValid
        ("\"".toList ++ s ++ "\" is not a valid choise (".toList ++
          joinComma (cs.map fun c => "\"".toList ++ c ++ "\"".toList) ++ ")".toList) := by
  rcases checkEach_dichotomy (fun s => if cs.contains s then none
    else some (quoted s ++ " is not a valid choise (".toList ++ joinComma (cs.map quoted) ++ ")".toList)) args with h1 | ⟨m, h1⟩
  · exact absurd ((C39_choise_accept cs args args).1 h1).2 h
  · have h2 := h1
    rw [checkEach_throw] at h2
    obtain ⟨pre, s, post, e, hp, hs⟩ := h2
    have hpre : ∀ x ∈ pre, x ∈ cs := fun x hx => by
      have := hp x hx
      by_cases hc : x ∈ cs
      · exact hc
      · simp [hc] at this
    have hsc : s ∉ cs := fun hc => by simp [hc] at hs
    refine ⟨pre, s, post, e, hpre, hsc, ?_⟩
    unfold validChoise
    rw [h1]
    simp only [List.contains_iff_mem, hsc, if_false, Option.some.injEq, decide_false,
      Bool.false_eq_true, decide_eq_true_eq] at hs
    rw [← hs]
    have : quoted = fun c => "\"".toList ++ c ++ "\"".toList := by funext c; rfl
    rw [this]
    simp

example : ¬∀ s ∈ ["a".toList, "z".toList], s ∈ ["a".toList, "b".toList] := by decide
example : ∀ s ∈ ["a".toList, "b".toList, "a".toList], s ∈ ["a".toList, "b".toList] := by decide

/-- C40: for numbers in a linear order `le`, a list is accepted iff every value reads as a number between
the two bounds, in whichever order they were given; values unchanged. -/
theorem C40_minmax_accept (le : D → D → Prop) (lt : D → D → Bool)
    (total : ∀ a b, le a b ∨ le b a) (trans : ∀ a b c, le a b → le b c → le a c)
    (hlt : ∀ a b, lt a b = true ↔ ¬le b a)
    (scan : Str → Option D) (print : D → Str) (min max : D) (args out : List Str) :
    validMinMax lt scan print min max args = .accept out ↔
      out = args ∧ ∀ s ∈ args, ∃ x, scan s = some x ∧
        ((le min x ∧ le x max) ∨ (le max x ∧ le x min)) := by
  unfold validMinMax
  simp only
  rw [checkEach_accept]
  refine and_congr_right fun _ => forall₂_congr fun s _ => ?_
  cases hs : scan s with
  | none => simp
  | some x =>
    have key : ∀ lo hi, le lo hi → ((lt x lo || lt hi x) = false ↔
        ((le lo x ∧ le x hi) ∨ (le hi x ∧ le x lo))) := by
      intro lo hi hlh
      have e1 : lt x lo = false ↔ le lo x := by
        have := hlt x lo
        cases h : lt x lo <;> simp_all
      have e2 : lt hi x = false ↔ le x hi := by
        have := hlt hi x
        cases h : lt hi x <;> simp_all
      rw [Bool.or_eq_false_iff, e1, e2]
      constructor
      · exact .inl
      · rintro (h | ⟨h1, h2⟩)
        · exact h
        · exact ⟨trans _ _ _ hlh h1, trans _ _ _ h2 hlh⟩
    simp only [Option.some.injEq, exists_eq_left']
    unfold minMaxBounds
    by_cases hb : lt max min = true
    · have hle : le max min := by
        rcases total max min with h | h
        · exact h
        · exact absurd h ((hlt max min).1 hb)
      have := key max min hle
      rw [if_pos hb]
      simp only
      rw [or_comm (a := le min x ∧ le x max), ← this]
      cases (lt x max || lt min x) <;> simp
    · have hle : le min max := by
        rcases total min max with h | h
        · exact h
        · exact Classical.byContradiction fun hc => hb ((hlt max min).2 hc)
      have := key min max hle
      rw [if_neg hb]
      simp only
      rw [← this]
      cases (lt x min || lt max x) <;> simp

/-- C40: a list that is not accepted is refused by an exception about its first offending value: the
message quotes a value that is no number, or gives the value and the two bounds, smaller one first. -/
theorem C40_minmax_reject (lt : D → D → Bool) (scan : Str → Option D) (print : D → Str) (min max : D)
    (args : List Str) (h : ∀ out, validMinMax lt scan print min max args ≠ .accept out) :
    ∃ pre s post m, args = pre ++ s :: post ∧ validMinMax lt scan print min max args = .throwValid m ∧
      (∀ x ∈ pre, validMinMax lt scan print min max [x] = .accept [x]) ∧
      ((scan s = none ∧ m = "\"".toList ++ s ++ "\" is not a number".toList) ∨
       ∃ x lo hi, scan s = some x ∧ (lt x lo = true ∨ lt hi x = true) ∧
        ((lt max min = false ∧ lo = min ∧ hi = max) ∨ (lt max min = true ∧ lo = max ∧ hi = min)) ∧
        m = s ++ " is not between ".toList ++ print lo ++ " and ".toList ++ print hi) := by
  unfold validMinMax at h
  simp only at h
  obtain ⟨m, hm⟩ := (checkEach_dichotomy _ args).resolve_left (h args)
  have hm' := hm
  rw [checkEach_throw] at hm
  obtain ⟨pre, s, post, e, hp, hs⟩ := hm
  refine ⟨pre, s, post, m, e, hm', ?_, ?_⟩
  · intro x hx
    unfold validMinMax
    simp only
    rw [checkEach_accept]
    exact ⟨rfl, by intro y hy; rw [List.mem_singleton.1 hy]; exact hp x hx⟩
  · cases hsc : scan s with
    | none =>
      left
      simp only [hsc, Option.some.injEq] at hs
      refine ⟨rfl, ?_⟩
      rw [← hs]; simp [quoted]
    | some x =>
      right
      simp only [hsc] at hs
      refine ⟨x, (minMaxBounds lt min max).1, (minMaxBounds lt min max).2, rfl, ?_, ?_, ?_⟩
      · by_cases hc : (lt x (minMaxBounds lt min max).1 || lt (minMaxBounds lt min max).2 x) = true
        · simpa using hc
        · simp [hc] at hs
      · unfold minMaxBounds; split <;> simp_all
      · by_cases hc : (lt x (minMaxBounds lt min max).1 || lt (minMaxBounds lt min max).2 x) = true
        · simp only [hc, if_true, Option.some.injEq] at hs
          exact hs.symm
        · simp [hc] at hs

/-- C40: a number that compares below neither bound and above neither (a NaN among doubles) passes
whatever the bounds are: the check refuses only what compares outside. -/
theorem C40_incomparable (lt : D → D → Bool) (scan : Str → Option D) (print : D → Str) (min max nan : D)
    (hnan : ∀ x, lt x nan = false ∧ lt nan x = false) (args : List Str)
    (h : ∀ s ∈ args, scan s = some nan) :
    validMinMax lt scan print min max args = .accept args := by
  unfold validMinMax
  simp only
  rw [checkEach_accept]
  refine ⟨rfl, fun s hs => ?_⟩
  rw [h s hs]
  simp [(hnan _).1, (hnan _).2]

example : validMinMax (D := Option Nat) (fun a b => match a, b with | some a, some b => decide (a < b) | _, _ => false)
    (fun _ => some none) (fun _ => []) (some 1) (some 2) ["nan".toList] = .accept ["nan".toList] :=
  C40_incomparable _ _ _ _ _ none (fun x => ⟨by cases x <;> rfl, rfl⟩) _ (fun _ _ => rfl)
-- a refused list, with bounds given the wrong way round
example : ∀ out, validMinMax (D := Nat) (fun a b => decide (a < b)) (fun s => some s.length) (fun _ => []) 9 2
    ["abc".toList, "a".toList] ≠ .accept out := by
  intro out; simp [validMinMax, checkEach, minMaxBounds]

-- the hypotheses hold for the natural numbers, and a swapped pair of bounds is accepted
example : validMinMax (D := Nat) (fun a b => decide (a < b)) (fun s => some s.length) (fun _ => []) 9 2
    ["abc".toList, "ab".toList] = .accept ["abc".toList, "ab".toList] :=
  (C40_minmax_accept (fun a b => a ≤ b) _ Nat.le_total (fun _ _ _ => Nat.le_trans)
    (by intro a b; simp) _ _ _ _ _ _).2 ⟨rfl, by
      intro s hs
      exact ⟨s.length, rfl, .inr (by
        rcases List.mem_cons.1 hs with rfl | hs
        · decide
        · rw [List.mem_singleton.1 hs]; decide)⟩⟩

/-- C41: accepted iff `strtod` stops at the end of every value (`strtodEnd s` is the offset where it
stops, at most the length); values unchanged. -/
theorem C41_number_accept (strtodEnd : Str → Nat) (hb : ∀ s, strtodEnd s ≤ s.length) (args out : List Str) :
    validNumber strtodEnd args = .accept out ↔ out = args ∧ ∀ s ∈ args, strtodEnd s = s.length := by
  unfold validNumber
  rw [checkEach_accept]
  refine and_congr_right fun _ => forall₂_congr fun s _ => ?_
  have := hb s
  by_cases h : strtodEnd s = s.length
  · simp [h]
  · have hlt : strtodEnd s < s.length := by omega
    simp [h, List.getElem?_eq_getElem hlt]

/-- C41: the first value that is not consumed entirely is reported. -/
theorem C41_number_reject (strtodEnd : Str → Nat) (hb : ∀ s, strtodEnd s ≤ s.length) (args : List Str)
    (h : ¬∀ s ∈ args, strtodEnd s = s.length) :
    ∃ pre s post, args = pre ++ s :: post ∧ (∀ x ∈ pre, strtodEnd x = x.length) ∧
      strtodEnd s < s.length ∧
      validNumber strtodEnd args = .throwValid ("\"".toList ++ s ++ "\" is not a number".toList) := by
  rcases checkEach_dichotomy (fun s =>
    if s[strtodEnd s]? != none then some (quoted s ++ " is not a number".toList) else none) args with h1 | ⟨m, h1⟩
  · exact absurd ((C41_number_accept strtodEnd hb args args).1 h1).2 h
  · have h2 := h1
    rw [checkEach_throw] at h2
    obtain ⟨pre, s, post, e, hp, hs⟩ := h2
    refine ⟨pre, s, post, e, ?_, ?_, ?_⟩
    · intro x hx
      have h3 := hp x hx
      have := hb x
      by_cases hl : strtodEnd x < x.length
      · simp [List.getElem?_eq_getElem hl] at h3
      · omega
    · by_cases hl : strtodEnd s < s.length
      · exact hl
      · simp [List.getElem?_eq_none (Nat.le_of_not_lt hl)] at hs
    · unfold validNumber
      rw [h1]
      by_cases hl : strtodEnd s < s.length
      · simp [List.getElem?_eq_getElem hl] at hs
        rw [← hs]; simp [quoted]
      · simp [List.getElem?_eq_none (Nat.le_of_not_lt hl)] at hs

-- a scanner that reads leading digits: "" is accepted (as strtod("") stops at the terminator)
example : validNumber (fun s => (s.takeWhile Char.isDigit).length) ["12".toList, [] ] =
    .accept ["12".toList, []] :=
  (C41_number_accept _ (fun s => List.Sublist.length_le (List.takeWhile_sublist _)) _ _).2 ⟨rfl, by decide⟩

/-- C42: accepted iff every value exists and has the requested kind; values unchanged. -/
theorem C42_path_accept (stat : Str → Option FileKind) (mode : PathMode) (args out : List Str) :
    validPath stat mode args = .accept out ↔
      out = args ∧ ∀ s ∈ args, ∃ k, stat s = some k ∧
        (mode = .isDir → k = .directory) ∧ (mode = .isFile → k = .regular) := by
  unfold validPath
  rw [checkEach_accept]
  refine and_congr_right fun _ => forall₂_congr fun s _ => ?_
  cases stat s with
  | none => simp
  | some k => cases k <;> cases mode <;> simp

/-- C42: a list that is not accepted is refused by an exception: the first bad value is reported, with what is wrong about it. -/
theorem C42_path_reject (stat : Str → Option FileKind) (mode : PathMode) (args : List Str)
    (h : ∀ out, validPath stat mode args ≠ .accept out) :
    ∃ pre s post m, args = pre ++ s :: post ∧ validPath stat mode args = .throwValid m ∧
      (∀ x ∈ pre, validPath stat mode [x] = .accept [x]) ∧
      ((stat s = none ∧ m = "\"".toList ++ s ++ "\" is not a valid path".toList) ∨
       (mode = .isDir ∧ stat s ≠ none ∧ stat s ≠ some .directory ∧
          m = "\"".toList ++ s ++ "\" is not a valid directory".toList) ∨
       (mode = .isFile ∧ stat s ≠ none ∧ stat s ≠ some .regular ∧
          m = "\"".toList ++ s ++ "\" is not a valid file".toList)) := by
  unfold validPath at h
  obtain ⟨m, hm⟩ := (checkEach_dichotomy _ args).resolve_left (h args)
  have hm' := hm
  rw [checkEach_throw] at hm
  obtain ⟨pre, s, post, e, hp, hs⟩ := hm
  refine ⟨pre, s, post, m, e, hm', ?_, ?_⟩
  · intro x hx
    unfold validPath
    rw [checkEach_accept]
    exact ⟨rfl, by intro y hy; rw [List.mem_singleton.1 hy]; exact hp x hx⟩
  · cases hst : stat s with
    | none =>
      simp only [hst, Option.some.injEq] at hs
      exact .inl ⟨rfl, by rw [← hs]; simp [quoted]⟩
    | some k =>
      cases k <;> cases mode <;> simp_all [quoted]

example : validPath (fun _ => some .directory) .isDir ["a".toList] = .accept ["a".toList] :=
  (C42_path_accept _ _ _ _).2 ⟨rfl, by simp⟩
example : ∀ out, validPath (fun _ => some .directory) .isFile ["a".toList] ≠ .accept out := by
  intro out; simp [validPath, checkEach]

end BletArgs
