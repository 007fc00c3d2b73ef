import Verif.Spec.Parts
import Verif.Props.UsageWord
import Verif.Props.Extend
/-
The usage text is put together from parts that do not influence each other.
-/
namespace BletArgs
open Spec
variable {D : Type}

/-! ### The usage line depends on the items only -/

/-- The usage line, from the items. -/
def lineOf (max : Nat) (base : Str) (os ps : List Str) : Str :=
  let head := "usage: ".toList ++ base
  let v : UsageVars := { oss := head, index := head.length, hasOption := !os.isEmpty, hasPositionnal := !ps.isEmpty }
  (ps.foldl (UsageVars.addItem head.length max) ((os.foldl (UsageVars.addItem head.length max) v).marker head.length max)).oss

/-- The same, but for the two marks. -/
structure SameLine (v w : UsageVars) : Prop where
  oss : w.oss = v.oss
  index : w.index = v.index
  multi : w.hasMultiLine = v.hasMultiLine

theorem SameLine.addItem {v w : UsageVars} (h : SameLine v w) (pad max : Nat) (i : Str) :
    SameLine (v.addItem pad max i) (w.addItem pad max i) := by
  unfold UsageVars.addItem
  rw [h.index, h.oss]
  split
  · exact ⟨rfl, rfl, rfl⟩
  · exact ⟨rfl, rfl, h.multi⟩

theorem addItem_marks (v : UsageVars) (pad max : Nat) (i : Str) :
    (v.addItem pad max i).hasOption = v.hasOption ∧ (v.addItem pad max i).hasPositionnal = v.hasPositionnal := by
  unfold UsageVars.addItem
  split <;> exact ⟨rfl, rfl⟩

theorem foldItems_marks (is : List Str) (v : UsageVars) (pad max : Nat) :
    (is.foldl (UsageVars.addItem pad max) v).hasOption = v.hasOption ∧
    (is.foldl (UsageVars.addItem pad max) v).hasPositionnal = v.hasPositionnal := by
  induction is generalizing v with
  | nil => exact ⟨rfl, rfl⟩
  | cons i is ih =>
    rw [List.foldl_cons]
    obtain ⟨h1, h2⟩ := ih (v.addItem pad max i)
    obtain ⟨h3, h4⟩ := addItem_marks v pad max i
    exact ⟨h1.trans h3, h2.trans h4⟩

theorem optionSteps_items (pad max : Nat) (as : List (Argument D))
    (ha : ∀ a ∈ as, a.isPositional = false → a.optionItem = item a) {v w : UsageVars} (h : SameLine v w) :
    SameLine (as.foldl (UsageVars.optionStep pad max) v)
      (((as.filter (!·.isPositional)).map item).foldl (UsageVars.addItem pad max) w) := by
  induction as generalizing v w with
  | nil => exact h
  | cons a as ih =>
    rw [List.foldl_cons]
    have ih := @ih fun b hb => ha b (List.mem_cons_of_mem _ hb)
    cases hp : a.isPositional with
    | true =>
      rw [List.filter_cons_of_neg (by simp [hp])]
      refine ih ?_
      unfold UsageVars.optionStep
      rw [if_pos hp]
      exact ⟨h.oss, h.index, h.multi⟩
    | false =>
      rw [List.filter_cons_of_pos (by simp [hp]), List.map_cons, List.foldl_cons]
      refine ih ?_
      unfold UsageVars.optionStep
      rw [if_neg (by simp [hp]), ha a (by simp) hp]
      exact SameLine.addItem (v := { v with hasOption := true }) ⟨h.oss, h.index, h.multi⟩ pad max _

theorem positionalSteps_items (pad max : Nat) (as : List (Argument D)) {v w : UsageVars} (h : SameLine v w) :
    SameLine (as.foldl (UsageVars.positionalStep pad max) v)
      (((as.filter (·.isPositional)).map item).foldl (UsageVars.addItem pad max) w) := by
  induction as generalizing v w with
  | nil => exact h
  | cons a as ih =>
    rw [List.foldl_cons]
    cases hp : a.isPositional with
    | false =>
      rw [List.filter_cons_of_neg (by simp [hp])]
      refine ih ?_
      unfold UsageVars.positionalStep
      rw [if_pos (by simp [hp])]
      exact h
    | true =>
      rw [List.filter_cons_of_pos hp, List.map_cons, List.foldl_cons]
      refine ih ?_
      unfold UsageVars.positionalStep
      rw [if_neg (by simp [hp]), positionalItem_eq hp]
      exact h.addItem pad max _

theorem SameLine.marker {v w : UsageVars} (h : SameLine v w) (ho : w.hasOption = v.hasOption)
    (hp : w.hasPositionnal = v.hasPositionnal) (pad max : Nat) : SameLine (v.marker pad max) (w.marker pad max) := by
  unfold UsageVars.marker
  rw [ho, hp, h.multi, h.index, h.oss]
  split
  · split
    · exact ⟨rfl, rfl, rfl⟩
    · exact ⟨rfl, rfl, rfl⟩
  · exact h

theorem optionSteps_marks (pad max : Nat) (as : List (Argument D)) (v : UsageVars) :
    (as.foldl (UsageVars.optionStep pad max) v).hasOption = (v.hasOption || as.any (!·.isPositional)) ∧
    (as.foldl (UsageVars.optionStep pad max) v).hasPositionnal = (v.hasPositionnal || as.any (·.isPositional)) := by
  induction as generalizing v with
  | nil => simp
  | cons a as ih =>
    rw [List.foldl_cons]
    obtain ⟨h1, h2⟩ := ih (v.optionStep pad max a)
    rw [h1, h2]
    unfold UsageVars.optionStep
    cases hp : a.isPositional with
    | true => simp [hp]
    | false =>
      obtain ⟨h3, h4⟩ := addItem_marks { v with hasOption := true } pad max a.optionItem
      rw [if_neg (by simp), h3, h4]
      simp [hp]

theorem usageLine_items {st : State D} {full : Prop} (hi : GInv full st) :
    st.usageLine.oss = lineOf (totalWidth st) (baseName st.binaryName) ((optionsOf st).map item) ((positionalsOf st).map item) := by
  unfold State.usageLine lineOf
  simp only
  have hh : "usage: ".toList ++ baseName st.binaryName = st.usageHead := rfl
  have hw : totalWidth st = st.indexMax := rfl
  rw [hh, hw]
  have a1 := optionSteps_items st.usageHead.length st.indexMax st.args
    (fun a ha hp => optionItem_eq hp (option_forms hi ha hp).1 (option_forms hi ha hp).2)
    (v := { oss := st.usageHead, index := st.usageHead.length })
    (w := { oss := st.usageHead, index := st.usageHead.length, hasOption := !((optionsOf st).map item).isEmpty,
            hasPositionnal := !((positionalsOf st).map item).isEmpty }) ⟨rfl, rfl, rfl⟩
  obtain ⟨m1, m2⟩ := optionSteps_marks st.usageHead.length st.indexMax st.args
    { oss := st.usageHead, index := st.usageHead.length }
  obtain ⟨k1, k2⟩ := foldItems_marks ((optionsOf st).map item)
    { oss := st.usageHead, index := st.usageHead.length, hasOption := !((optionsOf st).map item).isEmpty,
      hasPositionnal := !((positionalsOf st).map item).isEmpty } st.usageHead.length st.indexMax
  have hO : st.args.any (!·.isPositional) = !((optionsOf st).map item).isEmpty := by
    rw [Bool.eq_iff_iff, anyOption_iff]
    simp [optionsOf, State.args]
  have hP : st.args.any (·.isPositional) = !((positionalsOf st).map item).isEmpty := by
    rw [Bool.eq_iff_iff, anyOption_iff]
    simp [positionalsOf, State.args]
  have a2 := a1.marker (k1.trans (by rw [m1, hO]; simp)) (k2.trans (by rw [m2, hP]; simp)) st.usageHead.length st.indexMax
  exact (positionalSteps_items st.usageHead.length st.indexMax st.args a2).oss.symm

/-! ### The properties -/

/-- The writer of the program. -/
def theWriter : UsageWriter where
  line := lineOf
  block width text :=
    if text.isEmpty then [] else "\n".toList ++ (wrapText text width).flatMap fun l => "\n".toList ++ l
  row pad args sep width label help :=
    spaces pad ++
      (if label.length + sep ≤ args + sep then label ++ spaces (args + sep - label.length)
       else label ++ "\n".toList ++ spaces (pad + args + sep)) ++
      List.intercalate ("\n".toList ++ spaces (pad + args + sep)) (wrapText help width)

theorem row_writer (st : State D) (a : Argument D) : st.row (label a) a = theWriter.rowOf st a := by
  unfold State.row UsageWriter.rowOf theWriter
  simp only [helpText_eq]

theorem usage_parts {st : State D} {full : Prop} (hi : GInv full st) (h : st.usage = []) :
    st.getUsage = theWriter.text st (baseName st.binaryName) := by
  obtain ⟨lines, -, -, -, -, -, h6, h7⟩ := usageLine_is hi
  have hs := sections_eq st { st.usageLine with oss := st.usageLine.oss ++ st.textBlock st.description } h6 h7
  unfold State.getUsage
  rw [if_neg (by simp [h])]
  simp only
  rw [hs]
  simp only
  rw [usageLine_items hi]
  have e1 : (positionalsOf st).map (fun a => st.row a.front a) = (positionalsOf st).map (theWriter.rowOf st) := by
    refine List.map_congr_left fun a ha => ?_
    rw [label_positional (List.mem_filter.1 ha).2, row_writer]
  have e2 : (optionsOf st).map (fun a => st.row a.optionLabel a) = (optionsOf st).map (theWriter.rowOf st) := by
    refine List.map_congr_left fun a ha => ?_
    obtain ⟨h1, h2⟩ := List.mem_filter.1 ha
    rw [label_option hi h1 (by simpa using h2), row_writer]
  rw [e1, e2]
  rfl

/-- C95. Without custom usage text, the usage is put together from parts that do not influence each other, always in the same
way: there is one way to write a usage line from the items, one to write a block of text and one to write a row from a label
and a help text, such that the usage of every parser is its usage line, the description, one row per positional argument,
one row per option, and the epilog. -/
theorem C95_parts :
    ∃ w : UsageWriter,
      (∀ pad args sep width l h, Row pad args sep width l h (w.row pad args sep width l h)) ∧
      (∀ width text, Block width text (w.block width text)) ∧
      ∀ (D : Type) (scan : Str → Option D) (st : State D), Reachable scan st → st.usage = [] →
        ∀ base, BaseName st.binaryName base → st.getUsage = w.text st base := by
  refine ⟨theWriter, ?_, ?_, ?_⟩
  · intro pad args sep width l h
    unfold Row
    by_cases hl : l.length + sep ≤ args + sep
    · refine ⟨blanks (args + sep - l.length), wrapText h width, ?_, wrapped _ _, .inl ⟨by omega, _, rfl, by omega⟩⟩
      unfold theWriter
      simp only
      rw [if_pos hl]
      simp [spaces, blanks]
    · refine ⟨'\n' :: blanks (pad + args + sep), wrapText h width, ?_, wrapped _ _, .inr ⟨by omega, rfl⟩⟩
      unfold theWriter
      simp only
      rw [if_neg hl]
      simp [spaces, blanks]
  · intro width text
    exact block_is (D := Unit) { padWidth := width, argsWidth := 0, sepWidth := 0, helpWidth := 0 } text
  · intro D scan st hr h base hb
    obtain rfl : baseName st.binaryName = base := baseName_unique (baseName_is _) hb
    exact usage_parts hr.inv h

/-- C95. Two parsers that show the same – the same widths, name of the program, texts, and for each argument the same item, label
and help text – have the same usage: nothing else plays a role, in particular no validator, destination, value or count. -/
theorem C95_nothing_else {scan scan' : Str → Option D} {st st' : State D} (hr : Reachable scan st) (hr' : Reachable scan' st')
    (h : shownBy st' = shownBy st) : st'.getUsage = st.getUsage := by
  have arg : st'.arguments.map (fun s => shownOf s.arg) = st.arguments.map (fun s => shownOf s.arg) :=
    congrArg (fun x => x.2.2.2.2.2) h
  have hw : (st'.padWidth, st'.argsWidth, st'.sepWidth, st'.helpWidth) = (st.padWidth, st.argsWidth, st.sepWidth, st.helpWidth) :=
    congrArg (fun x => x.1) h
  have hb : st'.binaryName = st.binaryName := congrArg (fun x => x.2.1) h
  have hu : st'.usage = st.usage := congrArg (fun x => x.2.2.1) h
  have hd : st'.description = st.description := congrArg (fun x => x.2.2.2.1) h
  have he : st'.epilog = st.epilog := congrArg (fun x => x.2.2.2.2.1) h
  have w1 : st'.padWidth = st.padWidth := congrArg (fun x => x.1) hw
  have w2 : st'.argsWidth = st.argsWidth := congrArg (fun x => x.2.1) hw
  have w3 : st'.sepWidth = st.sepWidth := congrArg (fun x => x.2.2.1) hw
  have w4 : st'.helpWidth = st.helpWidth := congrArg (fun x => x.2.2.2) hw
  by_cases hc : st.usage = []
  · rw [usage_parts hr.inv hc, usage_parts hr'.inv (hu.trans hc), hb]
    have key : ∀ {α : Type} (f : Bool × Str × Str × Str → α) (sel : Bool → Bool) (s : State D),
        ((s.arguments.map (·.arg)).filter (fun a => sel a.isPositional)).map (fun a => f (shownOf a)) =
          ((s.arguments.map fun t => shownOf t.arg).filter fun x => sel x.1).map f := by
      intro α f sel s
      rw [List.filter_map, List.filter_map, List.map_map, List.map_map]
      rfl
    have k1 : ∀ {α : Type} (f : Bool × Str × Str × Str → α),
        (optionsOf st').map (fun a => f (shownOf a)) = (optionsOf st).map (fun a => f (shownOf a)) := by
      intro α f
      unfold optionsOf
      rw [key f (!·) st', key f (!·) st, arg]
    have k2 : ∀ {α : Type} (f : Bool × Str × Str × Str → α),
        (positionalsOf st').map (fun a => f (shownOf a)) = (positionalsOf st).map (fun a => f (shownOf a)) := by
      intro α f
      unfold positionalsOf
      rw [key f (·) st', key f (·) st, arg]
    have hrow : theWriter.rowOf st' = theWriter.rowOf (D := D) st := by
      funext a
      unfold UsageWriter.rowOf
      rw [w1, w2, w3, w4]
    unfold UsageWriter.text
    rw [hd, he, show totalWidth st' = totalWidth st by unfold totalWidth; rw [w1, w2, w3, w4], hrow]
    rw [show (optionsOf st').map item = (optionsOf st).map item from k1 fun x => x.2.1,
      show (positionalsOf st').map item = (positionalsOf st).map item from k2 fun x => x.2.1,
      show (optionsOf st').map (theWriter.rowOf st) = (optionsOf st).map (theWriter.rowOf st) from
        k1 fun x => theWriter.row st.padWidth st.argsWidth st.sepWidth st.helpWidth x.2.2.1 x.2.2.2,
      show (positionalsOf st').map (theWriter.rowOf st) = (positionalsOf st).map (theWriter.rowOf st) from
        k2 fun x => theWriter.row st.padWidth st.argsWidth st.sepWidth st.helpWidth x.2.2.1 x.2.2.2]
  · rw [C45_custom_usage st hc, C45_custom_usage st' (by rw [hu]; exact hc), hu]

/-- C95. One more argument: the rows of the others, the description and the epilog are the same; there is one row more, in its
place in the section it belongs to. -/
theorem C95_added {scan : Str → Option D} {st st' : State D} {nof : List Str} {ref : Nat} (hreach : Reachable scan st)
    (hr : st.addArgument nof = (st', .ok ref)) (hu : st.usage = []) :
    ∃ (pre post : List (Argument D)) (s : Slot D) (row : Argument D → Str) (line line' descr epi : Str),
      st.arguments.map (·.arg) = pre ++ post ∧ st'.arguments.map (·.arg) = pre ++ s.arg :: post ∧ st'.atObj ref = some s ∧
      st.getUsage = line ++ descr ++
        section_ "positional arguments".toList (((pre ++ post).filter (·.isPositional)).map row) ++
        section_ "optional arguments".toList (((pre ++ post).filter (!·.isPositional)).map row) ++ epi ∧
      st'.getUsage = line' ++ descr ++
        section_ "positional arguments".toList (((pre ++ s.arg :: post).filter (·.isPositional)).map row) ++
        section_ "optional arguments".toList (((pre ++ s.arg :: post).filter (!·.isPositional)).map row) ++ epi ∧
      ∀ a, Row st.padWidth st.argsWidth st.sepWidth st.helpWidth (label a) (helpShown a) (row a) := by
  obtain ⟨s, names, e1, e2, _, e4, _, e6, e7, e8, e9, e10, e11⟩ := C06_add_effect hreach hr
  have hr' : Reachable scan st' := by
    have : step scan st (.add nof) = (st', .ok ()) := by
      show ((st.addArgument nof).1, (st.addArgument nof).2.void) = _
      rw [hr]; rfl
    have h := Reachable.step (.add nof) hreach (by rw [this]; rfl)
    rw [this] at h
    exact h
  have hs : s ∈ st'.arguments := e7.mem_iff.2 (by simp)
  obtain ⟨pre, post, hpp⟩ := List.append_of_mem hs
  have hperm : (pre ++ post).Perm st.arguments := by
    rw [hpp] at e7
    exact (List.perm_middle.symm.trans e7).cons_inv
  have hst : st.arguments = pre ++ post := by
    rw [hpp, List.filter_append, List.filter_cons_of_neg (by simp [e1]), ← List.filter_append] at e8
    rw [← e8, List.filter_eq_self]
    intro t ht
    simpa using e2 t (hperm.mem_iff.1 ht)
  obtain ⟨wr, w1, w2, w3⟩ := C95_parts
  have p1 := w3 D scan st hreach hu _ (baseName_is _)
  have hu' : st'.usage = [] := by rw [e11]; exact hu
  have p2 := w3 D scan st' hr' hu' _ (baseName_is _)
  have a1 : st.arguments.map (·.arg) = pre.map (·.arg) ++ post.map (·.arg) := by rw [hst, List.map_append]
  have a2 : st'.arguments.map (·.arg) = pre.map (·.arg) ++ s.arg :: post.map (·.arg) := by
    rw [hpp, List.map_append, List.map_cons]
  have hrow : wr.rowOf st' = wr.rowOf (D := D) st := by
    funext a
    unfold UsageWriter.rowOf
    rw [show st'.padWidth = st.padWidth by rw [e11], show st'.argsWidth = st.argsWidth by rw [e11],
      show st'.sepWidth = st.sepWidth by rw [e11], show st'.helpWidth = st.helpWidth by rw [e11]]
  have hw : totalWidth st' = totalWidth st := by
    unfold totalWidth
    rw [show st'.padWidth = st.padWidth by rw [e11], show st'.argsWidth = st.argsWidth by rw [e11],
      show st'.sepWidth = st.sepWidth by rw [e11], show st'.helpWidth = st.helpWidth by rw [e11]]
  refine ⟨pre.map (·.arg), post.map (·.arg), s, wr.rowOf st,
    wr.line (totalWidth st) (baseName st.binaryName) ((optionsOf st).map item) ((positionalsOf st).map item),
    wr.line (totalWidth st) (baseName st'.binaryName) ((optionsOf st').map item) ((positionalsOf st').map item), wr.block (totalWidth st) st.description,
    wr.block (totalWidth st) st.epilog, a1, a2, ?_, ?_, ?_, fun a => w1 ..⟩
  · rw [← e1]
    exact State.atObj_of_mem hr'.inv.objs hs
  · rw [p1, ← a1]
    rfl
  · rw [p2, ← a2]
    unfold UsageWriter.text
    rw [hw, hrow, show st'.description = st.description by rw [e11], show st'.epilog = st.epilog by rw [e11]]
    rfl

/-! ### Examples -/

/-- A help text changes the usage of `demo`; a validator and values put in by the user do not. -/
example : (runOps demoScan demo [.help 0 "text".toList]).getUsage ≠ demo.getUsage ∧
    (runOps demoScan demo [.valid 0 (some ⟨3, .accept⟩) true, .edit 0 [⟨"v".toList, [], false, []⟩]]).getUsage = demo.getUsage := by
  refine ⟨by decide +kernel, ?_⟩
  refine C95_nothing_else demo_reachable (reachable_runOps demo_reachable _ (by decide +kernel)) ?_
  unfold shownBy shownOf
  exact Prod.ext (by decide +kernel) (Prod.ext (by decide +kernel) (Prod.ext (by decide +kernel) (Prod.ext (by decide +kernel)
    (Prod.ext (by decide +kernel) (by decide +kernel)))))

example : ∃ w : UsageWriter, demo.getUsage = w.text demo (baseName demo.binaryName) := by
  obtain ⟨w, -, -, h⟩ := C95_parts
  exact ⟨w, h _ _ demo demo_reachable (by decide +kernel) _ (baseName_is _)⟩

example : ∃ line line' descr epi p o, demo.getUsage = line ++ descr ++ p ++ o ++ epi ∧
    ∃ o', (demo.addArgument ["-z".toList, "--zed".toList]).1.getUsage = line' ++ descr ++ p ++ o' ++ epi := by
  have hr : demo.addArgument ["-z".toList, "--zed".toList] = ((demo.addArgument ["-z".toList, "--zed".toList]).1, .ok demo.nextObj) :=
    Prod.ext rfl (by decide +kernel)
  obtain ⟨pre, post, s, row, line, line', descr, epi, h1, h2, h3, h4, h5, -⟩ := C95_added demo_reachable hr (by decide +kernel)
  refine ⟨line, line', descr, epi, _, _, h4, section_ "optional arguments".toList (((pre ++ s.arg :: post).filter (!·.isPositional)).map row), ?_⟩
  have hp : s.arg.isPositional = false := by
    have : (((demo.addArgument ["-z".toList, "--zed".toList]).1).atObj demo.nextObj).map (·.arg.isPositional) = some false := by
      decide +kernel
    rw [h3] at this
    exact Option.some.inj this
  have e : (pre ++ s.arg :: post).filter (·.isPositional) = (pre ++ post).filter (·.isPositional) := by
    rw [List.filter_append, List.filter_cons_of_neg (by simp [hp]), ← List.filter_append]
  rw [h5, e]

end BletArgs
