import Verif.Spec.Anytime
import Verif.Props.Clear
/-
C86: the settings of the parser can be set at any time before `parseArguments`.
-/
namespace BletArgs
open Spec
variable {D : Type}

namespace Spec

/-- The calls of a program that were made and how they ended, without the setters. -/
def declared (scan : Str → Option D) (st : State D) (ops : List Op) : List (Op × Res Unit) :=
  (ops.zip (outcomes scan st ops)).filter fun x => !Op.isSetting x.1

end Spec

/-- The parser with other settings. -/
def State.under (st : State D) (x : Settings) : State D :=
  { st with
    binaryName := x.binaryName, version := x.version, isAlternative := x.isAlternative, isStrict := x.isStrict,
    isHelpException := x.isHelpException, isVersionException := x.isVersionException, usage := x.usage,
    description := x.description, epilog := x.epilog, padWidth := x.widths.1, argsWidth := x.widths.2.1,
    sepWidth := x.widths.2.2.1, helpWidth := x.widths.2.2.2 }

theorem State.under_settings (st : State D) : st.under (settings st) = st := rfl

theorem settings_under (st : State D) (x : Settings) : settings (st.under x) = x := rfl

theorem under_under (st : State D) (x y : Settings) : (st.under x).under y = st.under y := rfl

/-- The same result, from the parser with other settings. -/
def liftUnder {α : Type} (x : Settings) (r : State D × Res α) : State D × Res α := (r.1.under x, r.2)

theorem sort_under (st : State D) (x : Settings) : (st.under x).sortArguments = liftUnder x st.sortArguments := by
  unfold State.sortArguments
  rw [show (st.under x).arguments = st.arguments from rfl]
  split <;> rfl

theorem link_under (st : State D) (x : Settings) (a : Argument D) :
    (st.under x).linkArgument a = liftUnder x (st.linkArgument a) := by
  unfold State.linkArgument
  simp only
  have h := sort_under ({ st with
      arguments := st.arguments ++ [{ node := st.nextNode, obj := st.nextObj, arg := a }]
      byName := a.names.foldl (fun m n => insertName m n st.nextNode) st.byName
      nextNode := st.nextNode + 1
      nextObj := st.nextObj + 1 }) x
  generalize State.sortArguments { st with
      arguments := st.arguments ++ [{ node := st.nextNode, obj := st.nextObj, arg := a }]
      byName := a.names.foldl (fun m n => insertName m n st.nextNode) st.byName
      nextNode := st.nextNode + 1
      nextObj := st.nextObj + 1 } = r at h
  obtain ⟨s, r⟩ := r
  erw [h]
  cases r <;> rfl

theorem add_under (st : State D) (x : Settings) (names : List Str) :
    (st.under x).addArgument names = liftUnder x (st.addArgument names) := by
  unfold State.addArgument
  rw [show (st.under x).byName = st.byName from rfl]
  split
  · rfl
  · split
    · split
      · rfl
      · split
        · rfl
        · exact link_under ..
    · split
      · rfl
      · exact link_under ..

theorem withRef_under {α : Type} (st : State D) (x : Settings) (ref : Nat) (f g : Slot D → State D × Res α)
    (h : ∀ s, g s = liftUnder x (f s)) : (st.under x).withRef ref g = liftUnder x (st.withRef ref f) := by
  unfold State.withRef
  rw [show (st.under x).atObj ref = st.atObj ref from rfl]
  split
  · rfl
  · exact h _

theorem retype_under (st : State D) (x : Settings) (s : Slot D) (a : Argument D) :
    (st.under x).retype s a = liftUnder x (st.retype s a) := by
  unfold State.retype
  rw [show (st.under x).helpOption = st.helpOption from rfl, show (st.under x).versionOption = st.versionOption from rfl]
  generalize a.typeConstructor s.obj st.helpOption st.versionOption = r
  obtain ⟨a1, h, v, r⟩ := r
  cases r <;> rfl

theorem removeLoop_under (names : List Str) (st : State D) (x : Settings) :
    State.removeLoop names (st.under x) = liftUnder x (State.removeLoop names st) := by
  induction names generalizing st with
  | nil => rfl
  | cons n ns ih =>
    rw [State.removeLoop, State.removeLoop]
    rw [show (st.under x).byName = st.byName from rfl]
    cases lookupName st.byName n with
    | none => rfl
    | some node =>
      simp only
      rw [show (st.under x).atNode node = st.atNode node from rfl]
      cases st.atNode node with
      | none => rfl
      | some s =>
        simp only
        by_cases hc : s.arg.names.contains n = true
        · rw [if_pos hc, if_pos hc]
          simp only [State.modNode]
          rw [show (st.under x).byName = st.byName from rfl]
          split
          · rw [← ih]; rfl
          · rw [← ih]
            congr 1
            rw [show (st.under x).helpOption = st.helpOption from rfl,
              show (st.under x).versionOption = st.versionOption from rfl]
            split
            · rfl
            · split <;> rfl
        · rw [if_neg hc, if_neg hc]
          rfl

theorem remove_under (names : List Str) (st : State D) (x : Settings) :
    (st.under x).removeArguments names = liftUnder x (st.removeArguments names) := by
  unfold State.removeArguments
  rw [show (st.under x).byName = st.byName from rfl]
  split
  · rfl
  · split
    · rfl
    · rw [removeLoop_under]
      generalize State.removeLoop names st = r
      obtain ⟨s, r⟩ := r
      cases r with
      | ok u => exact sort_under s x
      | _ => rfl

/-- A call that declares something does the same under other settings. -/
theorem step_under (scan : Str → Option D) (st : State D) (x : Settings) {op : Op} (hc : Op.configures op = true)
    (hs : Op.isSetting op = false) : step scan (st.under x) op = liftUnder x (step scan st op) := by
  cases op with
  | parse | clear => cases hc
  | setBinaryName | setVersion | setAlternative | setStrict | setHelpException | setVersionException | setUsage
  | setDescription | setEpilog | setUsageWidth => cases hs
  | add names =>
    show ((((st.under x).addArgument names).1, ((st.under x).addArgument names).2.void) : State D × Res Unit) = _
    rw [add_under]
    rfl
  | remove names => exact remove_under names st x
  | flag ref f =>
    refine withRef_under st x ref _ _ fun s => ?_
    rw [show (st.under x).argumentExists f = st.argumentExists f from rfl]
    split
    · rfl
    · split
      · rfl
      · split
        · rfl
        · simp only; rw [← sort_under]; rfl
  | action ref a =>
    refine withRef_under st x ref _ _ fun s => ?_
    simp only
    rw [← retype_under]
    congr 1
    split <;> split <;> rfl
  | nargs ref n => exact withRef_under st x ref _ _ fun s => retype_under st x s _
  | required ref b => exact withRef_under st x ref _ _ fun s => by rw [← sort_under]; rfl
  | dest ref d =>
    have h : (st.under x).setDest ref d = liftUnder x (st.setDest ref d) :=
      withRef_under st x ref _ _ fun s => rfl
    show (((((st.under x).setDest ref d).1, ((st.under x).setDest ref d).2.void)) : State D × Res Unit) = _
    rw [h]
    rfl
  | defaults | help | metavar | valid | behave | edit => exact withRef_under st x _ _ _ fun s => rfl

/-- A setter never fails, and changes the settings only. -/
theorem setting_step (scan : Str → Option D) (st : State D) {op : Op} (hs : Op.isSetting op = true) :
    step scan st op = (st.under (lastSettings [op] (settings st)), .ok ()) := by
  cases op <;> first | rfl | cases hs

theorem lastSettings_cons (op : Op) (ops : List Op) (x : Settings) :
    lastSettings (op :: ops) x = lastSettings ops (lastSettings [op] x) := rfl

theorem lastSettings_other {op : Op} (hs : Op.isSetting op = false) (x : Settings) : lastSettings [op] x = x := by
  cases op <;> first | rfl | cases hs

theorem declared_setting (scan : Str → Option D) (st : State D) {op : Op} (ops : List Op) (hs : Op.isSetting op = true) :
    declared scan st (op :: ops) = declared scan (step scan st op).1 ops ∧
    after scan st (op :: ops) = after scan (step scan st op).1 ops := by
  have h := congrArg Prod.snd (setting_step scan st hs)
  unfold declared
  rw [show outcomes scan st (op :: ops) =
    (step scan st op).2 :: if (step scan st op).2.goesOn then outcomes scan (step scan st op).1 ops else [] from rfl,
    show after scan st (op :: ops) =
      if (step scan st op).2.goesOn then after scan (step scan st op).1 ops else (step scan st op).1 from rfl, h]
  refine ⟨?_, rfl⟩
  rw [List.zip_cons_cons, List.filter_cons]
  simp only [hs]
  rfl

theorem declared_other (scan : Str → Option D) (st : State D) {op : Op} (ops : List Op) (hs : Op.isSetting op = false) :
    declared scan st (op :: ops) =
      (op, (step scan st op).2) :: if (step scan st op).2.goesOn then declared scan (step scan st op).1 ops else [] := by
  unfold declared
  rw [show outcomes scan st (op :: ops) =
    (step scan st op).2 :: if (step scan st op).2.goesOn then outcomes scan (step scan st op).1 ops else [] from rfl,
    List.zip_cons_cons, List.filter_cons]
  simp only [hs]
  cases (step scan st op).2.goesOn <;> simp

/-- A program that declares a parser: its calls other than setters alone, and the settings it ends with. -/
theorem program_parts (scan : Str → Option D) {ops : List Op} (hc : ∀ op ∈ ops, Op.configures op = true) (st : State D)
    (x : Settings) :
    declared scan (st.under x) ops = declared scan st (ops.filter fun op => !Op.isSetting op) ∧
    ((∀ r ∈ declared scan st (ops.filter fun op => !Op.isSetting op), r.2.goesOn = true) →
      after scan (st.under x) ops = (after scan st (ops.filter fun op => !Op.isSetting op)).under (lastSettings ops x)) := by
  induction ops generalizing st x with
  | nil => exact ⟨rfl, fun _ => rfl⟩
  | cons op ops ih =>
    have ih := fun st x => ih (fun o ho => hc o (List.mem_cons_of_mem _ ho)) st x
    cases hs : Op.isSetting op with
    | true =>
      obtain ⟨e1, e2⟩ := declared_setting scan (st.under x) ops hs
      rw [setting_step scan _ hs] at e1 e2
      rw [e1, e2, List.filter_cons_of_neg (by simp [hs]), lastSettings_cons]
      exact ih st _
    | false =>
      rw [declared_other scan _ _ hs, List.filter_cons_of_pos (by simp [hs]), declared_other scan _ _ hs, lastSettings_cons,
        lastSettings_other hs, step_under scan st x (hc op (List.mem_cons_self ..)) hs]
      obtain ⟨i1, i2⟩ := ih (step scan st op).1 x
      refine ⟨?_, fun hg => ?_⟩
      · show (op, (step scan st op).2) :: (if (step scan st op).2.goesOn = true then _ else _) = _
        rw [show (liftUnder x (step scan st op)).1 = (step scan st op).1.under x from rfl, i1]
      · have h0 := hg _ (List.mem_cons_self ..)
        rw [if_pos h0] at hg
        show (if (step scan (st.under x) op).2.goesOn = true then _ else _) =
          State.under (if (step scan st op).2.goesOn = true then _ else _) _
        rw [step_under scan st x (hc op (List.mem_cons_self ..)) hs]
        rw [show (liftUnder x (step scan st op)).2 = (step scan st op).2 from rfl, if_pos h0, if_pos h0]
        exact i2 fun r hr => hg r (List.mem_cons_of_mem _ hr)

theorem goesOn_declared (scan : Str → Option D) (st : State D) (ops : List Op) :
    (∀ r ∈ outcomes scan st ops, r.goesOn = true) ↔ ∀ r ∈ declared scan st ops, r.2.goesOn = true := by
  induction ops generalizing st with
  | nil => exact ⟨fun _ _ h => (nomatch h), fun _ _ h => (nomatch h)⟩
  | cons op ops ih =>
    have e : outcomes scan st (op :: ops) =
      (step scan st op).2 :: if (step scan st op).2.goesOn then outcomes scan (step scan st op).1 ops else [] := rfl
    rw [e]
    cases hs : Op.isSetting op with
    | true =>
      rw [(declared_setting scan st ops hs).1, ← ih, setting_step scan st hs]
      exact List.forall_mem_cons.trans ⟨fun h => h.2, fun h => ⟨rfl, h⟩⟩
    | false =>
      rw [declared_other scan st ops hs]
      rw [List.forall_mem_cons, List.forall_mem_cons]
      refine and_congr_right fun h0 => ?_
      rw [if_pos h0, if_pos h0]
      exact ih _

/-- C86. Take two programs that declare the same things in the same order - the same calls of `addArgument`, `removeArguments`
and of the members of the arguments - and that also set the parser up with the setters of `Args` and `Usage`, each program in
its own order and at its own places between the other calls, possibly setting something several times. If the last value they
give to each setting is the same, every other call ends in the same way in both (the setters never fail), and once the
declaration is done the two parsers are the same in every respect: whatever is called next does the same. -/
theorem C86_anytime (scan : Str → Option D) (st : State D) (ops ops' : List Op)
    (hc : ∀ op ∈ ops, Op.configures op = true) (hc' : ∀ op ∈ ops', Op.configures op = true)
    (hsame : (ops.filter fun op => !Op.isSetting op) = ops'.filter fun op => !Op.isSetting op)
    (hset : lastSettings ops (settings st) = lastSettings ops' (settings st)) :
    declared scan st ops' = declared scan st ops ∧
    ((∀ r ∈ outcomes scan st ops, r.goesOn = true) →
      (∀ r ∈ outcomes scan st ops', r.goesOn = true) ∧ after scan st ops' = after scan st ops) := by
  obtain ⟨a1, a2⟩ := program_parts scan hc st (settings st)
  obtain ⟨b1, b2⟩ := program_parts scan hc' st (settings st)
  rw [State.under_settings] at a1 a2 b1 b2
  rw [← hsame] at b1 b2
  have e : declared scan st ops' = declared scan st ops := by rw [a1, b1]
  refine ⟨e, fun hg => ?_⟩
  have hd := (goesOn_declared scan st ops).1 hg
  refine ⟨(goesOn_declared scan st ops').2 (e ▸ hd), ?_⟩
  rw [a1] at hd
  rw [a2 hd, b2 hd, hset]

/-- A program that sets things up at the end, and one that does it at the beginning, between the others, and twice. -/
def setLate : List Op :=
  [.add ["-o".toList, "--out".toList], .add ["-o".toList], .required 0 true, .add ["file".toList], .setStrict true,
    .setVersion "2".toList, .setUsageWidth 1 2 3 4]

def setEarly : List Op :=
  [.setVersion "1".toList, .setStrict true, .add ["-o".toList, "--out".toList], .setUsageWidth 1 2 3 4, .add ["-o".toList],
    .required 0 true, .setVersion "2".toList, .add ["file".toList]]

example : after demoScan State.init setEarly = after demoScan State.init setLate :=
  ((C86_anytime demoScan (State.init : State Unit) setLate setEarly (by decide +kernel) (by decide +kernel) rfl
    (by decide +kernel)).2 (by decide +kernel)).2

/-- The second `addArgument("-o")` is refused in both. -/
example : declared demoScan (State.init : State Unit) setLate =
    [(.add ["-o".toList, "--out".toList], .ok ()),
     (.add ["-o".toList], .throw ⟨.argument, "-o".toList, "invalid flag already exist".toList⟩),
     (.required 0 true, .ok ()), (.add ["file".toList], .ok ())] := by rfl

/-- C86. A setter never fails, whatever the state of the parser. -/
theorem C86_setters (scan : Str → Option D) (st : State D) (op : Op) (hs : Op.isSetting op = true) :
    (step scan st op).2 = .ok () := congrArg Prod.snd (setting_step scan st hs)

end BletArgs
