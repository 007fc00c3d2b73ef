import Verif.Lemmas.UsageText
import Verif.Lemmas.ParseFrame
import Verif.Props.Parse
/-
C45-C47, C59: the generated usage text.
-/
namespace BletArgs
open Spec
variable {D : Type}

/-! ### Rows and sections -/

theorem wrapped (text : Str) (width : Nat) : Wrapped width text (wrapText text width) :=
  ⟨C43_wrap_preserves text width, fun l hl => ⟨C44_wrap_single_lines text l width hl, C44_wrap_width text l width hl⟩⟩

theorem helpText_eq (a : Argument D) : a.helpText = helpShown a := by
  unfold Argument.helpText helpShown
  by_cases h : a.dflt = []
  · rw [if_pos h, if_pos (by simp [h] : a.dflt.isEmpty = true)]
  · rw [if_neg h, if_neg (by simpa using h : ¬ a.dflt.isEmpty = true)]

theorem row_is (st : State D) (lab : Str) (a : Argument D) :
    Row st.padWidth st.argsWidth st.sepWidth st.helpWidth lab (helpShown a) (st.row lab a) := by
  unfold State.row Row
  simp only [helpText_eq]
  by_cases h : lab.length + st.sepWidth ≤ st.argsWidth + st.sepWidth
  · refine ⟨blanks (st.argsWidth + st.sepWidth - lab.length), wrapText (helpShown a) st.helpWidth, ?_, wrapped _ _,
      .inl ⟨by omega, _, rfl, by omega⟩⟩
    rw [if_pos h]
    simp [spaces, blanks]
  · refine ⟨'\n' :: blanks (st.padWidth + st.argsWidth + st.sepWidth), wrapText (helpShown a) st.helpWidth, ?_, wrapped _ _,
      .inr ⟨by omega, rfl⟩⟩
    rw [if_neg h]
    simp [spaces, blanks]

/-- Both row loops, with the row printer and the selection as parameters. -/
def rowStep (sel : Argument D → Bool) (f : Argument D → Str) (v : UsageVars) (a : Argument D) : UsageVars :=
  if sel a then
    { v with oss := (if v.index != 0 then v.oss ++ "\n".toList else v.oss) ++ f a, index := v.index + 1 }
  else v

theorem positionalRow_eq (st : State D) :
    st.positionalRow = rowStep (·.isPositional) fun a => st.row a.front a := by
  funext v a
  unfold State.positionalRow rowStep
  cases h : a.isPositional <;> simp [h]

theorem optionRow_eq (st : State D) :
    st.optionRow = rowStep (!·.isPositional) fun a => st.row a.optionLabel a := by
  funext v a
  unfold State.optionRow rowStep
  cases h : a.isPositional <;> simp [h]

theorem rowSteps_more (sel : Argument D → Bool) (f : Argument D → Str) (as : List (Argument D)) (v : UsageVars)
    (h : v.index ≠ 0) :
    (as.foldl (rowStep sel f) v).oss = v.oss ++ ((as.filter sel).map f).flatMap (fun r => '\n' :: r) ∧
    (as.foldl (rowStep sel f) v).hasOption = v.hasOption ∧ (as.foldl (rowStep sel f) v).hasPositionnal = v.hasPositionnal := by
  induction as generalizing v with
  | nil => simp
  | cons a as ih =>
    simp only [List.foldl_cons]
    rw [rowStep]
    cases hs : sel a with
    | false => rw [if_neg (by simp)]; obtain ⟨h1, h2, h3⟩ := ih v h; exact ⟨by rw [h1]; simp [hs], h2, h3⟩
    | true =>
      rw [if_pos rfl]
      obtain ⟨h1, h2, h3⟩ := ih { v with oss := (if v.index != 0 then v.oss ++ "\n".toList else v.oss) ++ f a, index := v.index + 1 } (by simp)
      exact ⟨by rw [h1]; simp [hs, h], h2, h3⟩

theorem intercalate_flatMap (r : Str) (rs : List Str) :
    List.intercalate ['\n'] (r :: rs) = r ++ rs.flatMap (fun r => '\n' :: r) := by
  induction rs generalizing r with
  | nil => simp [List.intercalate]
  | cons s rs ih =>
    have e : List.intercalate ['\n'] (r :: s :: rs) = r ++ '\n' :: List.intercalate ['\n'] (s :: rs) := by
      simp [List.intercalate]
    rw [e, ih]; simp

theorem rowSteps (sel : Argument D → Bool) (f : Argument D → Str) (as : List (Argument D)) (v : UsageVars)
    (h : v.index = 0) :
    (as.foldl (rowStep sel f) v).oss = v.oss ++ List.intercalate ['\n'] ((as.filter sel).map f) ∧
    (as.foldl (rowStep sel f) v).hasOption = v.hasOption ∧ (as.foldl (rowStep sel f) v).hasPositionnal = v.hasPositionnal := by
  induction as generalizing v with
  | nil => simp [List.intercalate]
  | cons a as ih =>
    simp only [List.foldl_cons]
    rw [rowStep]
    cases hs : sel a with
    | false => rw [if_neg (by simp)]; obtain ⟨h1, h2, h3⟩ := ih v h; exact ⟨by rw [h1]; simp [hs], h2, h3⟩
    | true =>
      rw [if_pos rfl]
      obtain ⟨h1, h2, h3⟩ := rowSteps_more sel f as { v with oss := (if v.index != 0 then v.oss ++ "\n".toList else v.oss) ++ f a, index := v.index + 1 } (by simp)
      refine ⟨?_, h2, h3⟩
      rw [h1]; simp only [List.filter_cons, hs, if_true, List.map_cons, intercalate_flatMap]; simp [h]

theorem rows_is (st : State D) (sel : Argument D → Bool) (f : Argument D → Str) (as : List (Argument D))
    (h : ∀ a ∈ as, sel a = true → f a = st.row (label a) a) :
    Rows st.padWidth st.argsWidth st.sepWidth st.helpWidth (as.filter sel) ((as.filter sel).map f) := by
  induction as with
  | nil => exact .nil
  | cons a as ih =>
    have ih := ih fun b hb => h b (List.mem_cons_of_mem _ hb)
    rw [List.filter_cons]
    cases hs : sel a with
    | false => simpa using ih
    | true =>
      rw [if_pos rfl, List.map_cons]
      refine .cons ?_ ih
      rw [h a (List.mem_cons_self ..) hs]
      exact row_is st (label a) a

theorem block_is (st : State D) (s : Str) : Block st.indexMax s (st.textBlock s) := by
  unfold State.textBlock Block
  by_cases h : s = []
  · left; simp [h]
  · right
    rw [if_neg (by simpa using h)]
    exact ⟨h, _, wrapped s st.indexMax, by simp⟩

/-! ### The whole text -/

/-- The arguments of a parser in listing order. -/
def State.args (st : State D) : List (Argument D) := st.arguments.map (·.arg)

theorem option_forms {st : State D} {full : Prop} (hi : GInv full st) {a : Argument D} (ha : a ∈ st.args) (hp : a.isPositional = false) :
    a.names ≠ [] ∧ ∀ n ∈ a.names, FlagForm n := by
  obtain ⟨s, hs, rfl⟩ := List.mem_map.1 ha
  have h := hi.forms s hs
  exact h.option hp

theorem usageLine_is {st : State D} {full : Prop} (hi : GInv full st) :
    ∃ lines, st.usageLine.oss = usageLayout st.usageHead lines ∧
      lines.flatten = (st.args.filter (!·.isPositional)).map item ++
        (if st.args.any (!·.isPositional) && st.args.any (·.isPositional) then ["--".toList] else []) ++
        (st.args.filter (·.isPositional)).map item ∧
      (∀ l ∈ lines, l.length ≤ 1 ∨ st.usageHead.length + (itemsText l).length ≤ st.indexMax) ∧
      (∀ l, lines.head? = some l → l = [] ∨ st.usageHead.length + (itemsText l).length ≤ st.indexMax) ∧
      (∀ p l m q, lines = p ++ l :: m :: q → l = ["--".toList] ∨ m.head? = some "--".toList ∨
        ∃ i r, m = i :: r ∧ st.indexMax < st.usageHead.length + (itemsText l).length + 1 + i.length) ∧
      st.usageLine.hasOption = st.args.any (!·.isPositional) ∧
      st.usageLine.hasPositionnal = st.args.any (·.isPositional) := by
  have h0 : Laid st.usageHead st.indexMax { oss := st.usageHead, index := st.usageHead.length } [] [] := by
    refine ⟨by simp [usageLayout, itemsText], by simp [itemsText], by simp, by simp, ?_⟩
    intro p l m q e
    have := congrArg List.length e
    simp at this
    omega
  have hs0 : Started [] [] := by
    intro _ p l e
    simp at e
  obtain ⟨d1, c1, l1, s1, f1, o1, p1⟩ := optionSteps st.args
    (fun a ha hp => optionItem_eq hp (option_forms hi ha hp).1 (option_forms hi ha hp).2) h0 hs0
  obtain ⟨d2, c2, l2, s2, f2, o2, p2⟩ := marker_laid l1 s1
  obtain ⟨d3, c3, l3, f3, o3, p3⟩ := positionalSteps st.args l2 s2
  refine ⟨d3 ++ [c3], l3.text, ?_, l3.fits, l3.first, l3.late, ?_, ?_⟩
  · rw [f3, f2, f1, o1, p1]; simp
  · exact (o3.trans (o2.trans o1)).trans (by simp)
  · exact (p3.trans (p2.trans p1)).trans (by simp)

theorem baseName_is (s : Str) : BaseName s (baseName s) := by
  unfold baseName BaseName
  by_cases h : '/' ∈ s
  · rw [if_pos h]
    have hs : s.reverse = s.reverse.takeWhile (· != '/') ++ s.reverse.dropWhile (· != '/') :=
      List.takeWhile_append_dropWhile.symm
    refine ⟨?_, .inr ?_⟩
    · intro hm
      rw [List.mem_reverse] at hm
      have := List.all_takeWhile (p := (· != '/')) (l := s.reverse)
      rw [List.all_eq_true] at this
      simpa using this _ hm
    · cases hd : s.reverse.dropWhile (· != '/') with
      | nil =>
        have := List.all_takeWhile (p := (· != '/')) (l := s.reverse)
        rw [List.all_eq_true] at this
        rw [hd, List.append_nil] at hs
        rw [← hs] at this
        exact absurd (this '/' (by simpa using h)) (by simp)
      | cons c r =>
        have hc : c = '/' := by
          have := List.head?_dropWhile_not (p := (· != '/')) s.reverse
          rw [hd] at this
          simpa using this
        subst hc
        refine ⟨r.reverse, ?_⟩
        have := congrArg List.reverse hs
        rw [List.reverse_reverse, hd, List.reverse_append, List.reverse_cons] at this
        exact this.trans (by simp)
  · rw [if_neg h]; exact ⟨h, .inl rfl⟩

theorem anyOption_iff (as : List (Argument D)) (sel : Argument D → Bool) : as.any sel = true ↔ as.filter sel ≠ [] := by
  rw [List.any_eq_true]
  constructor
  · rintro ⟨a, ha, hs⟩ e
    have := List.mem_filter.2 ⟨ha, hs⟩
    rw [e] at this; cases this
  · intro h
    obtain ⟨a, ha⟩ := List.exists_mem_of_ne_nil _ h
    exact ⟨a, List.mem_filter.1 ha⟩

theorem label_option {st : State D} {full : Prop} (hi : GInv full st) {a : Argument D} (ha : a ∈ st.args) (hp : a.isPositional = false) :
    a.optionLabel = label a := by
  obtain ⟨h1, h2⟩ := option_forms hi ha hp
  unfold Argument.optionLabel label
  rw [metavarPart_eq hp h1 h2, joinComma_eq, if_neg (by simp [hp])]

theorem label_positional {a : Argument D} (hp : a.isPositional = true) : a.front = label a := by
  unfold label
  rw [if_pos hp]; rfl

theorem sections_eq (st : State D) (v : UsageVars)
    (ho : v.hasOption = st.args.any (!·.isPositional)) (hp : v.hasPositionnal = st.args.any (·.isPositional)) :
    (st.sections v).oss =
      v.oss ++ section_ "positional arguments".toList ((positionalsOf st).map fun a => st.row a.front a) ++
        section_ "optional arguments".toList ((optionsOf st).map fun a => st.row a.optionLabel a) := by
  unfold State.sections
  by_cases he : st.arguments = []
  · rw [if_pos (by simp [he])]
    simp [positionalsOf, optionsOf, he, section_]
  · rw [if_neg (by simpa using he), positionalRow_eq, optionRow_eq]
    have hP : st.args.any (·.isPositional) = decide (positionalsOf st ≠ []) := by
      rw [Bool.eq_iff_iff, anyOption_iff, decide_eq_true_iff]; rfl
    have hO : st.args.any (!·.isPositional) = decide (optionsOf st ≠ []) := by
      rw [Bool.eq_iff_iff, anyOption_iff, decide_eq_true_iff]; rfl
    have first : ∃ w : UsageVars, (if v.hasPositionnal then
          (st.arguments.map (·.arg)).foldl (rowStep (·.isPositional) fun a => st.row a.front a)
            { v with index := 0, oss := v.oss ++ "\n\npositional arguments:\n".toList }
        else v) = w ∧ w.hasOption = v.hasOption ∧
        w.oss = v.oss ++ section_ "positional arguments".toList ((positionalsOf st).map fun a => st.row a.front a) := by
      refine ⟨_, rfl, ?_⟩
      by_cases h : positionalsOf st = []
      · rw [if_neg (by rw [hp, hP]; simp [h])]; simp [h, section_]
      · rw [if_pos (by rw [hp, hP]; simpa using h)]
        obtain ⟨h1, h2, _⟩ := rowSteps (·.isPositional) (fun a => st.row a.front a) (st.arguments.map (·.arg))
          { v with index := 0, oss := v.oss ++ "\n\npositional arguments:\n".toList } rfl
        refine ⟨h2, ?_⟩
        rw [h1]
        unfold section_
        rw [if_neg (by simpa using h)]
        simp [positionalsOf]
    obtain ⟨w, hw, hwo, hwt⟩ := first
    simp only
    rw [hw, ← hwt]
    by_cases h : optionsOf st = []
    · rw [if_neg (by rw [hwo, ho, hO]; simp [h])]; simp [h, section_]
    · rw [if_pos (by rw [hwo, ho, hO]; simpa using h)]
      obtain ⟨h1, _, _⟩ := rowSteps (!·.isPositional) (fun a => st.row a.optionLabel a) (st.arguments.map (·.arg))
        { w with index := 0, oss := w.oss ++ "\n\noptional arguments:\n".toList } rfl
      rw [h1]
      unfold section_
      rw [if_neg (by simpa using h)]
      simp [optionsOf]

theorem sections_is {st : State D} {full : Prop} (hi : GInv full st) (v : UsageVars)
    (ho : v.hasOption = st.args.any (!·.isPositional)) (hp : v.hasPositionnal = st.args.any (·.isPositional)) :
    ∃ rowsP rowsO, (st.sections v).oss =
        v.oss ++ section_ "positional arguments".toList rowsP ++ section_ "optional arguments".toList rowsO ∧
      Rows st.padWidth st.argsWidth st.sepWidth st.helpWidth (positionalsOf st) rowsP ∧
      Rows st.padWidth st.argsWidth st.sepWidth st.helpWidth (optionsOf st) rowsO := by
  have h := sections_eq st v ho hp
  generalize (st.sections v).oss = x at h ⊢
  exact ⟨(positionalsOf st).map fun a => st.row a.front a, (optionsOf st).map fun a => st.row a.optionLabel a, h,
    rows_is st _ _ _ fun a _ hs => by rw [label_positional hs],
    rows_is st _ _ _ fun a ha hs => by rw [label_option hi ha (by simpa using hs)]⟩

/-! ### The properties -/

/-- C45. A custom usage text is returned as it is. -/
theorem C45_custom_usage (st : State D) (h : st.usage ≠ []) : st.getUsage = st.usage := by
  unfold State.getUsage
  rw [if_pos (by simpa using h)]

theorem usage_is {scan : Str → Option D} {st : State D} (hr : Reachable scan st) (h : st.usage = []) :
    ∃ base lines descr rowsP rowsO epi,
      st.getUsage = usageLayout ("usage: ".toList ++ base) lines ++ descr ++ section_ "positional arguments".toList rowsP ++
        section_ "optional arguments".toList rowsO ++ epi ∧
      BaseName st.binaryName base ∧ lines.flatten = usageItems st ∧
      Block (totalWidth st) st.description descr ∧ Block (totalWidth st) st.epilog epi ∧
      Rows st.padWidth st.argsWidth st.sepWidth st.helpWidth (positionalsOf st) rowsP ∧
      Rows st.padWidth st.argsWidth st.sepWidth st.helpWidth (optionsOf st) rowsO ∧
      (∀ l ∈ lines, l.length ≤ 1 ∨ ("usage: ".toList ++ base).length + (itemsText l).length ≤ totalWidth st) ∧
      (∀ l, lines.head? = some l → l = [] ∨ ("usage: ".toList ++ base).length + (itemsText l).length ≤ totalWidth st) ∧
      (∀ p l m q, lines = p ++ l :: m :: q → l = ["--".toList] ∨ m.head? = some "--".toList ∨
        ∃ i r, m = i :: r ∧ totalWidth st < ("usage: ".toList ++ base).length + (itemsText l).length + 1 + i.length) := by
  obtain ⟨lines, h1, h2, h3, h4, h5, h6, h7⟩ := usageLine_is hr.inv
  obtain ⟨rowsP, rowsO, s1, s2, s3⟩ := sections_is hr.inv
    { st.usageLine with oss := st.usageLine.oss ++ st.textBlock st.description } h6 h7
  refine ⟨baseName st.binaryName, lines, st.textBlock st.description, rowsP, rowsO, st.textBlock st.epilog, ?_,
    baseName_is _, ?_, block_is st _, block_is st _, s2, s3, h3, h4, h5⟩
  · unfold State.getUsage
    rw [if_neg (by simp [h])]
    simp only
    rw [s1]
    simp only
    rw [h1]
    rfl
  · rw [h2]
    unfold usageItems
    have : (st.args.any (!·.isPositional) && st.args.any (·.isPositional)) = true ↔
        (optionsOf st ≠ [] ∧ positionalsOf st ≠ []) := by
      rw [Bool.and_eq_true, anyOption_iff, anyOption_iff]; rfl
    simp only [this]
    rfl

/-- Nothing, or a text that starts with a line end. -/
def Breaks (s : Str) : Prop := s = [] ∨ s.head? = some '\n'

theorem Breaks.append {s t : Str} (hs : Breaks s) (ht : Breaks t) : Breaks (s ++ t) := by
  rcases hs with rfl | h
  · simpa using ht
  · right; rw [List.head?_append, h]; rfl

theorem section_breaks (title : Str) (rows : List Str) : Breaks (section_ title rows) := by
  unfold section_
  split
  · exact .inl rfl
  · right; simp

theorem block_breaks {w : Nat} {t s : Str} (h : Block w t s) : Breaks s := by
  rcases h with ⟨_, rfl⟩ | ⟨_, l, _, rfl⟩
  · exact .inl rfl
  · exact .inr rfl

theorem layout_rest (head : Str) (lines : List (List Str)) :
    ∃ rest, usageLayout head lines = head ++ rest ∧ (rest = [] ∨ rest.head? = some ' ' ∨ rest.head? = some '\n') := by
  cases lines with
  | nil => exact ⟨[], by simp [usageLayout], .inl rfl⟩
  | cons f os =>
    refine ⟨itemsText f ++ os.flatMap fun l => '\n' :: blanks head.length ++ itemsText l, by simp [usageLayout], ?_⟩
    cases f with
    | nil => cases os <;> simp [itemsText]
    | cons i f => simp [itemsText]

/-- C45. Without custom usage, the text starts with `usage: ` and the base name of the program. -/
theorem C45_header {scan : Str → Option D} {st : State D} (hr : Reachable scan st) (h : st.usage = []) :
    ∃ base rest, BaseName st.binaryName base ∧ st.getUsage = "usage: ".toList ++ base ++ rest ∧
      (rest = [] ∨ rest.head? = some ' ' ∨ rest.head? = some '\n') := by
  obtain ⟨base, lines, descr, rowsP, rowsO, epi, h1, h2, _, h3, h4, _⟩ := usage_is hr h
  obtain ⟨rest, e, hrest⟩ := layout_rest ("usage: ".toList ++ base) lines
  have hb := (((block_breaks h3).append (section_breaks "positional arguments".toList rowsP)).append
    (section_breaks "optional arguments".toList rowsO)).append (block_breaks h4)
  refine ⟨base, rest ++ (descr ++ section_ "positional arguments".toList rowsP ++
        section_ "optional arguments".toList rowsO ++ epi), h2, ?_, ?_⟩
  · rw [h1, e]; simp only [List.append_assoc]
  · rw [List.head?_append]
    rcases hrest with rfl | hx | hx
    · rcases hb with hb | hb
      · left; rw [hb]; rfl
      · right; right; rw [hb]; rfl
    · right; left; rw [hx]; rfl
    · right; right; rw [hx]; rfl

/-- C46. Without custom usage, the text is: a usage line with one item per argument; the description; the section of the
positional arguments and the one of the options, each with one row per argument in listing order, that shows its
name or flags, its metavar and its help; the epilog. -/
theorem C46_usage_text {scan : Str → Option D} {st : State D} (hr : Reachable scan st) (h : st.usage = []) :
    ∃ base lines descr rowsP rowsO epi,
      st.getUsage = usageLayout ("usage: ".toList ++ base) lines ++ descr ++ section_ "positional arguments".toList rowsP ++
        section_ "optional arguments".toList rowsO ++ epi ∧
      BaseName st.binaryName base ∧ lines.flatten = usageItems st ∧
      Block (totalWidth st) st.description descr ∧ Block (totalWidth st) st.epilog epi ∧
      Rows st.padWidth st.argsWidth st.sepWidth st.helpWidth (positionalsOf st) rowsP ∧
      Rows st.padWidth st.argsWidth st.sepWidth st.helpWidth (optionsOf st) rowsO := by
  obtain ⟨base, lines, descr, rowsP, rowsO, epi, h1, h2, h3, h4, h5, h6, h7, _⟩ := usage_is hr h
  exact ⟨base, lines, descr, rowsP, rowsO, epi, h1, h2, h3, h4, h5, h6, h7⟩

theorem rows_mem {pad args sep width : Nat} {as : List (Argument D)} {rs : List Str} (h : Rows pad args sep width as rs)
    {a : Argument D} (ha : a ∈ as) : ∃ r, r ∈ rs ∧ Row pad args sep width (label a) (helpShown a) r := by
  induction h with
  | nil => cases ha
  | cons hr _ ih =>
    rcases List.mem_cons.1 ha with rfl | ha
    · exact ⟨_, List.mem_cons_self .., hr⟩
    · obtain ⟨r, h1, h2⟩ := ih ha
      exact ⟨r, List.mem_cons_of_mem _ h1, h2⟩

theorem mem_section {title r : Str} {rows : List Str} (h : r ∈ rows) : r <:+: section_ title rows := by
  unfold section_
  rw [if_neg (fun e => by rw [e] at h; cases h)]
  have : r <:+: List.intercalate ['\n'] rows := by
    induction rows with
    | nil => cases h
    | cons x l ih =>
      cases l with
      | nil =>
        rw [List.mem_singleton] at h
        subst h
        rw [List.intercalate_singleton]
        exact List.infix_rfl
      | cons y l =>
        rw [List.intercalate_cons_cons]
        rcases List.mem_cons.1 h with rfl | h
        · exact ⟨[], ['\n'] ++ List.intercalate ['\n'] (y :: l), by simp⟩
        · exact (ih h).trans ⟨x ++ ['\n'], [], by simp⟩
  exact this.trans ⟨"\n\n".toList ++ title ++ ":\n".toList, [], by simp⟩

theorem mem_usageLayout {head i : Str} {lines : List (List Str)} (h : i ∈ lines.flatten) : i <:+: usageLayout head lines := by
  obtain ⟨l, hl, hi⟩ := List.mem_flatten.1 h
  have h1 : i <:+: itemsText l := by
    obtain ⟨p, q, rfl⟩ := List.append_of_mem hi
    exact ⟨itemsText p ++ [' '], itemsText q, by simp [itemsText]⟩
  refine h1.trans ?_
  cases lines with
  | nil => cases hl
  | cons x l' =>
    unfold usageLayout
    rcases List.mem_cons.1 hl with rfl | hl
    · exact ⟨head, _, rfl⟩
    · obtain ⟨p, q, rfl⟩ := List.append_of_mem hl
      refine ⟨head ++ itemsText x ++ p.flatMap (fun l => '\n' :: blanks head.length ++ itemsText l) ++ '\n' :: blanks head.length,
        q.flatMap (fun l => '\n' :: blanks head.length ++ itemsText l), ?_⟩
      simp [List.flatMap_append, List.flatMap_cons]

/-- C46. Every argument is shown: its item is in the usage line and its row – its name or flags, its metavar and its help
– in one of the two sections; there are as many rows as arguments, and the lists keep the listing order. -/
theorem C46_every_argument {scan : Str → Option D} {st : State D} (hr : Reachable scan st) (h : st.usage = []) {a : Argument D}
    (ha : a ∈ st.arguments.map (·.arg)) :
    item a <:+: st.getUsage ∧
    (∃ row, Row st.padWidth st.argsWidth st.sepWidth st.helpWidth (label a) (helpShown a) row ∧ row <:+: st.getUsage) ∧
    (positionalsOf st).length + (optionsOf st).length = st.arguments.length ∧
    (positionalsOf st).Sublist (st.arguments.map (·.arg)) ∧ (optionsOf st).Sublist (st.arguments.map (·.arg)) := by
  have hm : a ∈ positionalsOf st ∨ a ∈ optionsOf st := by
    unfold positionalsOf optionsOf
    rw [List.mem_filter, List.mem_filter]
    cases hp : a.isPositional
    · right; exact ⟨ha, rfl⟩
    · left; exact ⟨ha, rfl⟩
  obtain ⟨base, lines, descr, rowsP, rowsO, epi, h1, _, h3, _, _, h6, h7⟩ := C46_usage_text hr h
  refine ⟨?_, ?_, ?_, List.filter_sublist, List.filter_sublist⟩
  · rw [h1]
    have : item a ∈ lines.flatten := by
      rw [h3]
      unfold usageItems
      rcases hm with hm | hm
      · exact List.mem_append_right _ (List.mem_map_of_mem hm)
      · exact List.mem_append_left _ (List.mem_append_left _ (List.mem_map_of_mem hm))
    exact (mem_usageLayout (head := "usage: ".toList ++ base) this).trans ⟨[], descr ++ (section_ "positional arguments".toList rowsP ++
      (section_ "optional arguments".toList rowsO ++ epi)), by simp only [List.append_assoc, List.nil_append]⟩
  · rw [h1]
    rcases hm with hm | hm
    · obtain ⟨r, g1, g2⟩ := rows_mem h6 hm
      exact ⟨r, g2, (mem_section (title := "positional arguments".toList) g1).trans
        ⟨usageLayout ("usage: ".toList ++ base) lines ++ descr, section_ "optional arguments".toList rowsO ++ epi,
          by simp only [List.append_assoc]⟩⟩
    · obtain ⟨r, g1, g2⟩ := rows_mem h7 hm
      exact ⟨r, g2, (mem_section g1).trans ⟨_, _, rfl⟩⟩
  · unfold positionalsOf optionsOf
    rw [← List.length_map (f := fun s : Slot D => s.arg) (as := st.arguments)]
    generalize st.arguments.map (·.arg) = as
    induction as with
    | nil => rfl
    | cons a as ih =>
      simp only [List.filter_cons]
      cases a.isPositional <;> simp <;> omega

/-- C47. The usage line holds the items in lines of at most the total width, except lines of a single item and a first
line with none; and a line is broken only before an item that would not fit (or around the `--` marker). -/
theorem C47_usage_line {scan : Str → Option D} {st : State D} (hr : Reachable scan st) (h : st.usage = []) :
    ∃ base lines rest, BaseName st.binaryName base ∧
      st.getUsage = usageLayout ("usage: ".toList ++ base) lines ++ rest ∧ (rest = [] ∨ rest.head? = some '\n') ∧
      lines.flatten = usageItems st ∧
      (∀ l ∈ lines, l.length ≤ 1 ∨ ("usage: ".toList ++ base).length + (itemsText l).length ≤ totalWidth st) ∧
      (∀ l, lines.head? = some l → l = [] ∨ ("usage: ".toList ++ base).length + (itemsText l).length ≤ totalWidth st) ∧
      (∀ p l m q, lines = p ++ l :: m :: q → l = ["--".toList] ∨ m.head? = some "--".toList ∨
        ∃ i r, m = i :: r ∧ totalWidth st < ("usage: ".toList ++ base).length + (itemsText l).length + 1 + i.length) := by
  obtain ⟨base, lines, descr, rowsP, rowsO, epi, h1, h2, h3, h4, h5, h6, h7, h8, h9, h10⟩ := usage_is hr h
  exact ⟨base, lines, descr ++ (section_ "positional arguments".toList rowsP ++ (section_ "optional arguments".toList rowsO ++ epi)),
    h2, by rw [h1]; simp only [List.append_assoc],
    (block_breaks h4).append ((section_breaks _ _).append ((section_breaks _ _).append (block_breaks h5))), h3, h8, h9, h10⟩

/-- A parser with options and positional arguments of several kinds, and a narrow usage text. -/
def usageOps : List Op :=
  [.setBinaryName "/usr/bin/prog".toList, .add ["-n".toList, "--number".toList], .nargs 0 2, .help 0 "two numbers to add".toList,
   .add ["-q".toList], .action 1 .storeTrue, .required 1 true, .add ["file".toList], .nargs 2 43, .add ["-l".toList], .metavar 3 "LEVEL".toList,
   .defaults 3 ["1".toList], .setDescription "Adds".toList, .setUsageWidth 2 8 2 20]

def usageDemo : State Unit := runOps demoScan State.init usageOps

/-- It meets the hypotheses of the theorems, and its text is the one the program prints (two lines of items, the marker
on its own line). -/
example : Reachable demoScan usageDemo ∧ usageDemo.usage = [] ∧ usageDemo.getUsage =
    ("usage: prog -q [-l LEVEL]\n            [-n NUMBER NUMBER]\n            --\n            [file {file}...]" ++
      "\n\nAdds\n\npositional arguments:\n  file      " ++
      "\n\noptional arguments:\n  -q         (required)\n  -l LEVEL   (default: 1)\n  -n, --number NUMBER NUMBER\n            two numbers to add").toList :=
  ⟨reachable_runOps .init _ (by decide +kernel), by decide +kernel, by decide +kernel⟩

end BletArgs
