import Verif.Model.Usage
import Verif.Spec.Usage
import Verif.Props.Wrap
import Verif.Props.Convert
import Verif.Lemmas.Inv
/-
The generated usage text: relation of the loops of the model with the layout of the specification.
-/
namespace BletArgs
open Spec
variable {D : Type}

theorem toUpperC_eq (c : Char) : toUpperC c = c.toUpper := by
  unfold toUpperC Char.toUpper
  have e : ('a' ≤ c ∧ c ≤ 'z') ↔ ('a'.val ≤ c.val ∧ c.val ≤ 'z'.val) := Iff.rfl
  by_cases h : 'a'.val ≤ c.val ∧ c.val ≤ 'z'.val
  · rw [if_pos (e.2 h), dif_pos h]
    apply Char.ext
    have h1 : 97 ≤ c.val.toNat := by have := UInt32.le_iff_toNat_le.1 h.1; exact this
    have h2 : c.val.toNat ≤ 122 := by have := UInt32.le_iff_toNat_le.1 h.2; exact this
    have hv : (c.toNat - 32).isValidChar := by left; show c.val.toNat - 32 < _; omega
    apply UInt32.toNat.inj
    unfold Char.ofNat
    rw [dif_pos hv]
    show (UInt32.toNat (UInt32.ofNatLT (c.toNat - 32) _)) = _
    rw [UInt32.toNat_ofNatLT]
    rw [UInt32.toNat_add]
    show c.val.toNat - 32 = (c.val.toNat + 4294967264) % 2^32
    omega
  · rw [if_neg (fun h' => h (e.1 h')), dif_neg h]

theorem repeatSpaced_eq (n : Nat) (s : Str) : repeatSpaced n s = copies n s := by
  induction n with
  | zero => rfl
  | succ n ih =>
    cases n with
    | zero => simp [repeatSpaced, copies, List.intercalate]
    | succ n =>
      rw [repeatSpaced, ih]
      simp [copies, List.intercalate, List.replicate_succ]

theorem metavarFlag_some (x : Str) (ns : List Str) :
    metavarFlag (some x) ns = some ((ns.find? fun f => ['-', '-'].isPrefixOf f).elim x (·.drop 2)) := by
  induction ns with
  | nil => rfl
  | cons n ns ih =>
    rcases n with _ | ⟨a, _ | ⟨b, r⟩⟩
    · simp [metavarFlag, ih, List.find?, List.isPrefixOf]
    · simp [metavarFlag, ih, List.find?, List.isPrefixOf]
    · by_cases ha : a = '-' <;> by_cases hb : b = '-' <;> simp [metavarFlag, ih, List.find?, List.isPrefixOf, ha, hb]
      · have hb' : ('-' == b) = false := by simpa using Ne.symm hb
        simp [hb']
      all_goals
        have ha' : ('-' == a) = false := by simpa using Ne.symm ha
        simp [ha']

theorem metavarFlag_eq {ns : List Str} (hne : ns ≠ []) (h : ∀ n ∈ ns, FlagForm n) :
    metavarFlag none ns = some (valueName ns) := by
  cases ns with
  | nil => exact absurd rfl hne
  | cons n ns =>
    rcases h n (List.mem_cons_self ..) with ⟨c, hc, rfl⟩ | ⟨c, r, rfl⟩
    · have hc' : ('-' == c) = false := by simpa using Ne.symm hc
      simp [metavarFlag, metavarFlag_some, valueName, List.find?, List.isPrefixOf, hc, hc']
      cases List.find? (fun f => ['-', '-'].isPrefixOf f) ns <;> rfl
    · simp [metavarFlag, valueName, List.find?, List.isPrefixOf]

theorem metavarDefault_eq {a : Argument D} (hne : a.names ≠ []) (h : ∀ n ∈ a.names, FlagForm n) (hm : a.metavar = []) :
    a.metavarDefault = metavarShown a := by
  have hn : ((metavarFlag none a.names).getD []).map toUpperC = upper (valueName a.names) := by
    rw [metavarFlag_eq hne h]
    simp only [Option.getD_some, upper]
    exact List.map_congr_left fun c _ => toUpperC_eq c
  unfold Argument.metavarDefault metavarShown
  rw [if_neg (by simp [hm] : ¬ a.metavar ≠ [])]
  simp only [hn, repeatSpaced_eq]
  by_cases h1 : a.action = .infinite ∨ a.nargs = 43
  · rw [if_pos h1, if_pos (by simpa using h1)]
  · rw [if_neg h1, if_neg (by simpa using h1)]
    by_cases h2 : a.nargs > 1
    · rw [if_pos h2, show max a.nargs 1 = a.nargs by omega]
    · rw [if_neg h2, show max a.nargs 1 = 1 by omega]
      simp [copies, List.intercalate]

theorem metavarPart_eq {a : Argument D} (hp : a.isPositional = false) (hne : a.names ≠ []) (h : ∀ n ∈ a.names, FlagForm n) :
    a.metavarPart = valuesShown a := by
  have hm : (if a.metavar.isEmpty then a.metavarDefault else a.metavar) = metavarShown a := by
    by_cases hm : a.metavar = []
    · rw [if_pos (by simp [hm]), metavarDefault_eq hne h hm]
    · rw [if_neg (by simpa using hm)]
      unfold metavarShown
      rw [if_pos hm]
  unfold Argument.metavarPart valuesShown
  rw [hm]
  unfold Argument.isPositional at hp
  cases ht : a.type <;> rw [ht] at hp <;> first | rfl | (simp [Ty.isPositional] at hp)

theorem bracketed_eq (a : Argument D) (s : Str) : a.bracketed s = maybe a s := rfl

theorem optionItem_eq {a : Argument D} (hp : a.isPositional = false) (hne : a.names ≠ []) (h : ∀ n ∈ a.names, FlagForm n) :
    a.optionItem = item a := by
  unfold Argument.optionItem item
  rw [bracketed_eq, metavarPart_eq hp hne h]
  unfold Argument.isPositional at hp
  cases ht : a.type <;> rw [ht] at hp <;> first | rfl | (simp [Ty.isPositional] at hp)

theorem positionalItem_eq {a : Argument D} (hp : a.isPositional = true) : a.positionalItem = item a := by
  unfold Argument.positionalItem item
  rw [bracketed_eq]
  simp only [repeatSpaced_eq]
  unfold Argument.isPositional at hp
  cases ht : a.type <;> rw [ht] at hp <;> first | rfl | (simp [Ty.isPositional] at hp)

/-! ### The usage line -/

theorem usageLayout_snoc (head : Str) {ls : List (List Str)} (hne : ls ≠ []) (l : List Str) :
    usageLayout head (ls ++ [l]) = usageLayout head ls ++ '\n' :: blanks head.length ++ itemsText l := by
  cases ls with
  | nil => exact absurd rfl hne
  | cons a ls => simp [usageLayout]

theorem itemsText_snoc (l : List Str) (i : Str) : itemsText (l ++ [i]) = itemsText l ++ ' ' :: i := by
  simp [itemsText]

theorem usageLayout_grow (head : Str) (ls : List (List Str)) (l : List Str) (i : Str) :
    usageLayout head (ls ++ [l ++ [i]]) = usageLayout head (ls ++ [l]) ++ ' ' :: i := by
  cases ls with
  | nil => simp [usageLayout, itemsText_snoc]
  | cons a ls => simp [usageLayout, itemsText_snoc]

/-- What holds of the text written so far on the usage line: `done` are the finished lines, `cur` the current one. -/
structure Laid (head : Str) (max : Nat) (v : UsageVars) (done : List (List Str)) (cur : List Str) : Prop where
  text : v.oss = usageLayout head (done ++ [cur])
  index : v.index = head.length + (itemsText cur).length
  fits : ∀ l ∈ done ++ [cur], l.length ≤ 1 ∨ head.length + (itemsText l).length ≤ max
  first : ∀ l, (done ++ [cur]).head? = some l → l = [] ∨ head.length + (itemsText l).length ≤ max
  late : ∀ p l m q, done ++ [cur] = p ++ l :: m :: q →
    l = ["--".toList] ∨ m.head? = some "--".toList ∨
      ∃ i r, m = i :: r ∧ max < head.length + (itemsText l).length + 1 + i.length

theorem Laid.newLine {head : Str} {max : Nat} {v w : UsageVars} {done : List (List Str)} {cur l : List Str}
    (h : Laid head max v done cur) (hl : l.length ≤ 1)
    (ht : w.oss = v.oss ++ '\n' :: blanks head.length ++ itemsText l)
    (hi : w.index = head.length + (itemsText l).length)
    (hlate : cur = ["--".toList] ∨ l.head? = some "--".toList ∨
      ∃ i r, l = i :: r ∧ max < head.length + (itemsText cur).length + 1 + i.length) :
    Laid head max w (done ++ [cur]) l := by
  refine ⟨?_, hi, ?_, ?_, ?_⟩
  · rw [ht, h.text, usageLayout_snoc head (ls := done ++ [cur]) (by simp)]
  · intro x hx
    rcases List.mem_append.1 hx with hx | hx
    · exact h.fits x hx
    · rw [List.mem_singleton.1 hx]; exact .inl hl
  · intro x hx
    refine h.first x ?_
    rw [List.head?_append] at hx
    cases hd : (done ++ [cur]).head? with
    | none => simp at hd
    | some y => rw [hd] at hx; exact hx
  · intro p a b q e
    rcases List.eq_nil_or_concat q with rfl | ⟨q', z, rfl⟩
    · have e' : done ++ [cur] ++ [l] = p ++ [a] ++ [b] := by rw [e]; simp
      obtain ⟨e1, e2⟩ := List.append_inj' e' rfl
      obtain ⟨e3, e4⟩ := List.append_inj' e1 rfl
      cases e2; cases e4
      exact hlate
    · have e' : done ++ [cur] ++ [l] = (p ++ a :: b :: q') ++ [z] := by rw [e]; simp
      obtain ⟨e1, e2⟩ := List.append_inj' e' rfl
      exact h.late p a b q' e1

theorem Laid.grow {head : Str} {max : Nat} {v w : UsageVars} {done : List (List Str)} {cur : List Str} {i : Str}
    (h : Laid head max v done cur) (hfit : v.index + i.length < max)
    (ht : w.oss = v.oss ++ ' ' :: i) (hi : w.index = v.index + (i.length + 1)) (hc : cur = [] → i ≠ "--".toList →
      ∀ p l, done = p ++ [l] → l = ["--".toList]) :
    Laid head max w done (cur ++ [i]) := by
  have hlen : (itemsText (cur ++ [i])).length = (itemsText cur).length + (i.length + 1) := by
    rw [itemsText_snoc]; simp
  have hix := h.index
  refine ⟨?_, ?_, ?_, ?_, ?_⟩
  · rw [ht, h.text, usageLayout_grow]
  · rw [hi, hlen, h.index]; omega
  · intro x hx
    rcases List.mem_append.1 hx with hx | hx
    · exact h.fits x (List.mem_append_left _ hx)
    · rw [List.mem_singleton.1 hx, hlen]; right; omega
  · intro x hx
    cases done with
    | nil =>
      simp at hx
      subst hx
      rw [hlen]; right; omega
    | cons d done => exact h.first x hx
  · intro p a b q e
    rcases List.eq_nil_or_concat q with rfl | ⟨q', z, rfl⟩
    · have e' : done ++ [cur ++ [i]] = p ++ [a] ++ [b] := by rw [e]; simp
      obtain ⟨e1, e2⟩ := List.append_inj' e' rfl
      cases e2
      cases cur with
      | nil =>
        by_cases hd : i = "--".toList
        · right; left; simp [hd]
        · exact .inl (hc rfl hd p a e1)
      | cons c cur =>
        rcases h.late p a (c :: cur) [] (by rw [e1]; simp) with h1 | h1 | ⟨j, r, h1, h2⟩
        · exact .inl h1
        · right; left; simpa using h1
        · right; right; injection h1 with h1 h3; exact ⟨c, cur ++ [i], rfl, by rw [h1]; exact h2⟩
    · have e' : done ++ [cur ++ [i]] = (p ++ a :: b :: q') ++ [z] := by rw [e]; simp
      obtain ⟨e1, e2⟩ := List.append_inj' e' rfl
      exact h.late p a b (q' ++ [cur]) (by rw [e1]; simp)

/-- The current line is empty only at the beginning or just after the marker. -/
def Started (done : List (List Str)) (cur : List Str) : Prop := cur = [] → ∀ p l, done = p ++ [l] → l = ["--".toList]

theorem addItem_laid {head : Str} {max : Nat} {v : UsageVars} {done : List (List Str)} {cur : List Str}
    (h : Laid head max v done cur) (hs : Started done cur) (i : Str) :
    ∃ done' cur', Laid head max (v.addItem head.length max i) done' cur' ∧ Started done' cur' ∧
      (done' ++ [cur']).flatten = (done ++ [cur]).flatten ++ [i] ∧ cur' ≠ [] ∧
      (v.addItem head.length max i).hasOption = v.hasOption ∧
      (v.addItem head.length max i).hasPositionnal = v.hasPositionnal := by
  unfold UsageVars.addItem
  by_cases hf : v.index + i.length ≥ max
  · rw [if_pos hf]
    have hix := h.index
    refine ⟨done ++ [cur], [i], h.newLine (by simp) ?_ ?_ ?_, by simp [Started], by simp, by simp, rfl, rfl⟩
    · simp [spaces, blanks, itemsText, List.replicate_succ']
    · simp [itemsText]; omega
    · right; right; exact ⟨i, [], rfl, by omega⟩
  · rw [if_neg hf]
    refine ⟨done, cur ++ [i], h.grow (by omega) (by simp) rfl fun hc _ => hs hc, ?_, by simp, by simp, rfl, rfl⟩
    intro hc; simp at hc

theorem optionSteps {head : Str} {max : Nat} (as : List (Argument D))
    (hitem : ∀ a ∈ as, a.isPositional = false → a.optionItem = item a)
    {v : UsageVars} {done : List (List Str)} {cur : List Str}
    (h : Laid head max v done cur) (hs : Started done cur) :
    let w := as.foldl (UsageVars.optionStep head.length max) v
    ∃ done' cur', Laid head max w done' cur' ∧ Started done' cur' ∧
      (done' ++ [cur']).flatten = (done ++ [cur]).flatten ++ (as.filter (!·.isPositional)).map item ∧
      w.hasOption = (v.hasOption || as.any (!·.isPositional)) ∧
      w.hasPositionnal = (v.hasPositionnal || as.any (·.isPositional)) := by
  induction as generalizing v done cur with
  | nil => exact ⟨done, cur, h, hs, by simp, by simp, by simp⟩
  | cons a as ih =>
    simp only [List.foldl_cons]
    have ih := fun {v : UsageVars} {done : List (List Str)} {cur : List Str} => ih (fun b hb => hitem b (List.mem_cons_of_mem _ hb)) (v := v) (done := done) (cur := cur)
    unfold UsageVars.optionStep
    cases hp : a.isPositional with
    | true =>
      rw [if_pos rfl]
      obtain ⟨d', c', h1, h2, h3, h4, h5⟩ := ih (v := { v with hasPositionnal := true }) ⟨h.text, h.index, h.fits, h.first, h.late⟩ hs
      refine ⟨d', c', h1, h2, ?_, ?_, ?_⟩
      · rw [h3]; simp [hp]
      · exact h4.trans (by simp [hp])
      · exact h5.trans (by simp [hp])
    | false =>
      rw [if_neg (by simp), hitem a (List.mem_cons_self ..) hp]
      obtain ⟨d1, c1, g1, g2, g3, _, g4, g5⟩ :=
        addItem_laid (v := { v with hasOption := true }) ⟨h.text, h.index, h.fits, h.first, h.late⟩ hs (item a)
      obtain ⟨d', c', h1, h2, h3, h4, h5⟩ := ih g1 g2
      refine ⟨d', c', h1, h2, ?_, ?_, ?_⟩
      · rw [h3, g3]; simp [hp]
      · exact h4.trans (by rw [g4]; simp [hp])
      · exact h5.trans (by rw [g5]; simp [hp])

theorem positionalSteps {head : Str} {max : Nat} (as : List (Argument D))
    {v : UsageVars} {done : List (List Str)} {cur : List Str}
    (h : Laid head max v done cur) (hs : Started done cur) :
    let w := as.foldl (UsageVars.positionalStep head.length max) v
    ∃ done' cur', Laid head max w done' cur' ∧
      (done' ++ [cur']).flatten = (done ++ [cur]).flatten ++ (as.filter (·.isPositional)).map item ∧
      w.hasOption = v.hasOption ∧ w.hasPositionnal = v.hasPositionnal := by
  induction as generalizing v done cur with
  | nil => exact ⟨done, cur, h, by simp, rfl, rfl⟩
  | cons a as ih =>
    simp only [List.foldl_cons]
    unfold UsageVars.positionalStep
    cases hp : a.isPositional with
    | false =>
      rw [if_pos (by simp)]
      obtain ⟨d', c', h1, h3, h4, h5⟩ := ih h hs
      exact ⟨d', c', h1, by rw [h3]; simp [hp], h4, h5⟩
    | true =>
      rw [if_neg (by simp), positionalItem_eq hp]
      obtain ⟨d1, c1, g1, g2, g3, _, g4, g5⟩ := addItem_laid h hs (item a)
      obtain ⟨d', c', h1, h3, h4, h5⟩ := ih g1 g2
      refine ⟨d', c', h1, ?_, h4.trans g4, h5.trans g5⟩
      rw [h3, g3]; simp [hp]

theorem marker_laid {head : Str} {max : Nat} {v : UsageVars} {done : List (List Str)} {cur : List Str}
    (h : Laid head max v done cur) (hs : Started done cur) :
    ∃ done' cur', Laid head max (v.marker head.length max) done' cur' ∧ Started done' cur' ∧
      (done' ++ [cur']).flatten =
        (done ++ [cur]).flatten ++ (if v.hasOption && v.hasPositionnal then ["--".toList] else []) ∧
      (v.marker head.length max).hasOption = v.hasOption ∧
      (v.marker head.length max).hasPositionnal = v.hasPositionnal := by
  unfold UsageVars.marker
  cases hb : v.hasOption && v.hasPositionnal with
  | false => exact ⟨done, cur, by simpa using h, hs, by simp, by simp, by simp⟩
  | true =>
    rw [if_pos rfl]
    cases hm : (v.hasMultiLine || decide (v.index + 3 ≥ max)) with
    | true =>
      rw [if_pos rfl]
      have h1 : Laid head max { v with oss := v.oss ++ "\n".toList ++ spaces (head.length + 1) ++ "--".toList, index := head.length + 3 }
          (done ++ [cur]) ["--".toList] :=
        h.newLine (by simp) (by simp [spaces, blanks, itemsText, List.replicate_succ']) (by simp [itemsText])
          (.inr (.inl rfl))
      refine ⟨done ++ [cur] ++ [["--".toList]], [], h1.newLine (by simp) (by simp [spaces, blanks, itemsText])
        (by simp [itemsText]) (.inl rfl), ?_, by simp, rfl, rfl⟩
      intro _ p l e
      exact (List.cons.inj (List.append_inj' e rfl).2).1.symm
    | false =>
      rw [if_neg (by simp)]
      simp only [Bool.or_eq_false_iff, decide_eq_false_iff_not] at hm
      have hix := hm.2
      refine ⟨done, cur ++ ["--".toList], h.grow (i := "--".toList) (by simp; omega) (by simp) (by simp)
        (fun _ he => absurd rfl he), ?_, by simp, rfl, rfl⟩
      intro hc; simp at hc

end BletArgs
