import Verif.Model.UsageWord
import Verif.Props.Fits
/-
C47: the computation of the usage text with machine words.
-/
namespace BletArgs
open Spec
variable {D : Type}

theorem add64_eq {a b : Nat} (h : a + b < two64) : add64 a b = a + b := Nat.mod_eq_of_lt h

theorem addItem64_eq {pad max : Nat} {v : UsageVars} {i : Str} (hp : pad + i.length + 1 < two64) (hv : v.index + (i.length + 1) < two64) :
    v.addItem64 pad max i = v.addItem pad max i := by
  unfold UsageVars.addItem64 UsageVars.addItem
  rw [add64_eq (a := v.index) (by omega), add64_eq (a := pad) (b := 1) (by omega), add64_eq (a := pad) (b := List.length i) (by omega),
    add64_eq (a := pad + List.length i) (by omega), add64_eq (a := List.length i) (by omega), add64_eq (a := v.index) (by omega)]

theorem addItem_index {pad max b : Nat} (hp : pad ≤ b) {v : UsageVars} (hv : v.index ≤ b) (i : Str) :
    (v.addItem pad max i).index ≤ b + (i.length + 1) := by
  unfold UsageVars.addItem
  split <;> dsimp only <;> omega

/-- What the arguments selected by `sel` add to the usage line. -/
def lineWeight (sel : Argument D → Bool) (f : Argument D → Str) (as : List (Argument D)) : Nat :=
  ((as.filter sel).map fun a => (f a).length + 1).sum

theorem optionSteps64 {pad max : Nat} (as : List (Argument D)) {v : UsageVars} (hp : pad ≤ v.index)
    (h : v.index + lineWeight (!·.isPositional) Argument.optionItem as < two64) :
    as.foldl (UsageVars.optionStep64 pad max) v = as.foldl (UsageVars.optionStep pad max) v ∧
    (as.foldl (UsageVars.optionStep pad max) v).index ≤ v.index + lineWeight (!·.isPositional) Argument.optionItem as := by
  suffices H : ∀ (b : Nat), pad ≤ b → ∀ v : UsageVars, v.index ≤ b → b + lineWeight (!·.isPositional) Argument.optionItem as < two64 →
      as.foldl (UsageVars.optionStep64 pad max) v = as.foldl (UsageVars.optionStep pad max) v ∧
      (as.foldl (UsageVars.optionStep pad max) v).index ≤ b + lineWeight (!·.isPositional) Argument.optionItem as from
    H v.index hp v (Nat.le_refl _) h
  clear h hp v
  induction as with
  | nil => intro b _ v hv _; exact ⟨rfl, by simpa [lineWeight] using hv⟩
  | cons a as ih =>
    intro b hb v hv hlt
    rw [List.foldl_cons, List.foldl_cons]
    cases hpos : a.isPositional with
    | true =>
      have e : lineWeight (!·.isPositional) Argument.optionItem (a :: as) = lineWeight (!·.isPositional) Argument.optionItem as := by
        simp [lineWeight, hpos]
      rw [e] at hlt ⊢
      have e1 : v.optionStep64 pad max a = v.optionStep pad max a := by unfold UsageVars.optionStep64 UsageVars.optionStep; simp [hpos]
      rw [e1]
      refine ih b hb _ ?_ hlt
      unfold UsageVars.optionStep
      simpa [hpos] using hv
    | false =>
      have e : lineWeight (!·.isPositional) Argument.optionItem (a :: as) =
          (a.optionItem.length + 1) + lineWeight (!·.isPositional) Argument.optionItem as := by
        simp [lineWeight, hpos]
      rw [e] at hlt ⊢
      have e1 : v.optionStep64 pad max a = v.optionStep pad max a := by
        unfold UsageVars.optionStep64 UsageVars.optionStep
        rw [if_neg (by simp [hpos]), if_neg (by simp [hpos])]
        exact addItem64_eq (by omega) (by simp only; omega)
      have hi : (v.optionStep pad max a).index ≤ b + (a.optionItem.length + 1) := by
        unfold UsageVars.optionStep
        rw [if_neg (by simp [hpos])]
        exact addItem_index hb (v := { v with hasOption := true }) hv a.optionItem
      rw [e1]
      obtain ⟨h1, h2⟩ := ih (b + (a.optionItem.length + 1)) (by omega) _ hi (by omega)
      exact ⟨h1, by omega⟩

theorem positionalSteps64 {pad max : Nat} (as : List (Argument D)) {b : Nat} (hb : pad ≤ b) {v : UsageVars} (hv : v.index ≤ b)
    (hlt : b + lineWeight (·.isPositional) Argument.positionalItem as < two64) :
    as.foldl (UsageVars.positionalStep64 pad max) v = as.foldl (UsageVars.positionalStep pad max) v := by
  induction as generalizing b v with
  | nil => rfl
  | cons a as ih =>
    rw [List.foldl_cons, List.foldl_cons]
    cases hpos : a.isPositional with
    | false =>
      have e : lineWeight (·.isPositional) Argument.positionalItem (a :: as) = lineWeight (·.isPositional) Argument.positionalItem as := by
        simp [lineWeight, hpos]
      rw [e] at hlt
      have e1 : v.positionalStep64 pad max a = v := by unfold UsageVars.positionalStep64; simp [hpos]
      have e2 : v.positionalStep pad max a = v := by unfold UsageVars.positionalStep; simp [hpos]
      rw [e1, e2]
      exact ih hb hv hlt
    | true =>
      have e : lineWeight (·.isPositional) Argument.positionalItem (a :: as) =
          (a.positionalItem.length + 1) + lineWeight (·.isPositional) Argument.positionalItem as := by
        simp [lineWeight, hpos]
      rw [e] at hlt
      have e1 : v.positionalStep64 pad max a = v.positionalStep pad max a := by
        unfold UsageVars.positionalStep64 UsageVars.positionalStep
        rw [if_neg (by simp [hpos]), if_neg (by simp [hpos])]
        exact addItem64_eq (by omega) (by omega)
      have hi : (v.positionalStep pad max a).index ≤ b + (a.positionalItem.length + 1) := by
        unfold UsageVars.positionalStep
        rw [if_neg (by simp [hpos])]
        exact addItem_index hb hv a.positionalItem
      rw [e1]
      exact ih (b := b + (a.positionalItem.length + 1)) (by omega) hi (by omega)

theorem marker64_eq {pad max b : Nat} {v : UsageVars} (hp : pad ≤ b) (hv : v.index ≤ b) (hb : b + 3 < two64) :
    v.marker64 pad max = v.marker pad max ∧ (v.marker pad max).index ≤ b + 3 := by
  constructor
  · unfold UsageVars.marker64 UsageVars.marker
    rw [add64_eq (a := pad) (by omega), add64_eq (a := v.index) (by omega)]
  · unfold UsageVars.marker
    split
    · split <;> dsimp only <;> omega
    · omega

theorem foldl_congr_mem {α β : Type} {f g : β → α → β} (l : List α) (h : ∀ a ∈ l, ∀ b, f b a = g b a) (b : β) :
    l.foldl f b = l.foldl g b := by
  induction l generalizing b with
  | nil => rfl
  | cons a l ih =>
    rw [List.foldl_cons, List.foldl_cons, h a (by simp)]
    exact ih (fun x hx => h x (by simp [hx])) _

/-- C47. The program computes widths and columns with machine words. Unless the sum of the widths, the length of the usage
line or that of a label does not fit in 64 bits, this makes no difference. -/
theorem C47_no_overflow {scan : Str → Option D} {st : State D} (hr : Reachable scan st) {base : Str}
    (hb : BaseName st.binaryName base) (hw : WordSized st base) : st.getUsage64 = st.getUsage := by
  have hi := hr.inv
  obtain rfl : baseName st.binaryName = base := baseName_unique (baseName_is _) hb
  obtain ⟨h1, h2, h3⟩ := hw
  have t64 : (2 : Nat) ^ 64 = two64 := rfl
  rw [t64] at h1 h2 h3
  unfold totalWidth at h1
  have emax : st.indexMax64 = st.indexMax := by
    unfold State.indexMax64 State.indexMax
    rw [add64_eq (a := st.padWidth) (by omega), add64_eq (a := st.padWidth + st.argsWidth) (by omega), add64_eq (by omega)]
  have eline : st.usageLine64 = st.usageLine := by
    have hsum : ((usageItems st).map fun i => i.length + 1).sum ≥
        lineWeight (!·.isPositional) Argument.optionItem (st.arguments.map (·.arg)) +
        lineWeight (·.isPositional) Argument.positionalItem (st.arguments.map (·.arg)) := by
      have e1 : (optionsOf st).map item = ((st.arguments.map (·.arg)).filter (!·.isPositional)).map Argument.optionItem := by
        refine List.map_congr_left fun a ha => ?_
        have ha := List.mem_filter.1 ha
        have hp : a.isPositional = false := by simpa using ha.2
        obtain ⟨f1, f2⟩ := option_forms hi ha.1 hp
        exact (optionItem_eq hp f1 f2).symm
      have e2 : (positionalsOf st).map item = ((st.arguments.map (·.arg)).filter (·.isPositional)).map Argument.positionalItem := by
        refine List.map_congr_left fun a ha => ?_
        exact (positionalItem_eq (List.mem_filter.1 ha).2).symm
      unfold usageItems lineWeight
      rw [e1, e2, List.map_append, List.map_append, List.map_map, List.map_map, List.sum_append, List.sum_append]
      simp only [Function.comp_def]
      omega
    have hp : st.usageHead.length + 3 +
        (lineWeight (!·.isPositional) Argument.optionItem (st.arguments.map (·.arg)) +
        lineWeight (·.isPositional) Argument.positionalItem (st.arguments.map (·.arg))) < two64 := by
      have : ("usage: ".toList ++ baseName st.binaryName).length = st.usageHead.length := rfl
      omega
    unfold State.usageLine64 State.usageLine
    rw [emax]
    generalize hA : st.arguments.map (·.arg) = as at hp
    have o := optionSteps64 (pad := st.usageHead.length) (max := st.indexMax) as
      (v := { oss := st.usageHead, index := st.usageHead.length }) (Nat.le_refl _) (by dsimp only; omega)
    dsimp only at o ⊢
    rw [o.1]
    have m := marker64_eq (pad := st.usageHead.length) (max := st.indexMax) (by omega) o.2 (by omega)
    rw [m.1]
    exact positionalSteps64 as (by omega) m.2 (by omega)
  have erow : ∀ (l : Str) (a : Argument D), l.length + st.sepWidth < two64 → st.row64 l a = st.row l a := by
    intro l a hl
    unfold State.row64 State.row
    rw [add64_eq (a := st.padWidth) (by omega), add64_eq (a := st.padWidth + st.argsWidth) (by omega),
      add64_eq (a := st.argsWidth) (by omega), add64_eq hl]
  have eblock : ∀ s, st.textBlock64 s = st.textBlock s := fun s => by unfold State.textBlock64 State.textBlock; rw [emax]
  have es : ∀ v, st.sections64 v = st.sections v := by
    intro v
    have e1 : ∀ a ∈ st.arguments.map (·.arg), ∀ v, st.positionalRow64 v a = st.positionalRow v a := by
      intro a ha v
      unfold State.positionalRow64 State.positionalRow
      obtain ⟨s, hs, rfl⟩ := List.mem_map.1 ha
      split
      · rfl
      · rename_i hp
        have hp : s.arg.isPositional = true := by simpa using hp
        rw [erow _ _ (by rw [label_positional hp]; exact h3 s hs)]
    have e2 : ∀ a ∈ st.arguments.map (·.arg), ∀ v, st.optionRow64 v a = st.optionRow v a := by
      intro a ha v
      unfold State.optionRow64 State.optionRow
      obtain ⟨s, hs, rfl⟩ := List.mem_map.1 ha
      split
      · rfl
      · rename_i hp
        have hp : s.arg.isPositional = false := by simpa using hp
        rw [erow _ _ (by rw [label_option hi ha hp]; exact h3 s hs)]
    unfold State.sections64 State.sections
    rw [foldl_congr_mem _ e1]
    simp only [foldl_congr_mem _ e2]
  unfold State.getUsage64 State.getUsage
  simp only [eline, es, eblock]

/-- The hypotheses are met by the parser of the examples of C46. -/
example : usageDemo.getUsage64 = usageDemo.getUsage :=
  C47_no_overflow (scan := demoScan) (base := "prog".toList) (reachable_runOps .init _ (by decide +kernel))
    (by unfold BaseName; exact ⟨by decide +kernel, .inr ⟨"/usr/bin".toList, by decide +kernel⟩⟩)
    ⟨by decide +kernel, by decide +kernel, by decide +kernel⟩

/-- They cannot be dropped: with the greatest number as the width of the help column (for "no limit"), the total width wraps
around to 23 characters. -/
def boundless : State Unit :=
  runOps demoScan State.init [.setBinaryName "prog".toList, .add ["-a".toList], .add ["-b".toList], .setUsageWidth 2 20 2 (2 ^ 64 - 1)]

theorem C47_overflow : Reachable demoScan boundless ∧ boundless.getUsage ≠ boundless.getUsage64 ∧
    (∃ rest, boundless.getUsage = "usage: prog [-a A] [-b B]".toList ++ rest) ∧
    (∃ rest, boundless.getUsage64 = "usage: prog [-a A]\n            [-b B]".toList ++ rest) := by
  refine ⟨reachable_runOps .init _ (by decide +kernel), by decide +kernel,
    ⟨boundless.getUsage.drop 25, by decide +kernel⟩, ⟨boundless.getUsage64.drop 37, by decide +kernel⟩⟩

end BletArgs
