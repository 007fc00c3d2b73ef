import Verif.Spec.Shown
import Verif.Props.Usage
import Verif.Props.Settings
import Verif.Props.ParseConfig
/-
C79: the usage text does not depend on what was parsed.
-/
namespace BletArgs
open Spec
variable {D : Type}

/-- What the usage text may depend on. -/
def Argument.shown (a : Argument D) : Argument D :=
  { dflt := a.dflt, names := a.names, type := a.type, isRequired := a.isRequired, nargs := a.nargs, help := a.help,
    metavar := a.metavar, action := a.action }

def State.shown (st : State D) : State D :=
  { binaryName := st.binaryName, usage := st.usage, description := st.description, epilog := st.epilog,
    padWidth := st.padWidth, argsWidth := st.argsWidth, sepWidth := st.sepWidth, helpWidth := st.helpWidth,
    arguments := st.arguments.map fun s => ⟨0, 0, s.arg.shown⟩ }

theorem foldl_shown {β : Type} (f : β → Argument D → β) (hf : ∀ v a, f v a.shown = f v a) (l : List (Slot D)) (v : β) :
    ((l.map fun s => (⟨0, 0, s.arg.shown⟩ : Slot D)).map (·.arg)).foldl f v = (l.map (·.arg)).foldl f v := by
  induction l generalizing v with
  | nil => rfl
  | cons s l ih =>
    simp only [List.map_cons, List.foldl_cons, hf] at ih ⊢
    exact ih _

theorem usageLine_shown (st : State D) : st.shown.usageLine = st.usageLine := by
  have e1 : st.shown.usageHead = st.usageHead := rfl
  have e2 : st.shown.indexMax = st.indexMax := rfl
  unfold State.usageLine
  rw [e1, e2]
  show ((st.arguments.map fun s => (⟨0, 0, s.arg.shown⟩ : Slot D)).map (·.arg)).foldl _ (UsageVars.marker _ _
    (((st.arguments.map fun s => (⟨0, 0, s.arg.shown⟩ : Slot D)).map (·.arg)).foldl _ _)) = _
  rw [foldl_shown _ (fun _ _ => rfl), foldl_shown _ (fun _ _ => rfl)]

theorem sections_shown (st : State D) (v : UsageVars) : st.shown.sections v = st.sections v := by
  unfold State.sections
  have e : st.shown.arguments = st.arguments.map fun s => (⟨0, 0, s.arg.shown⟩ : Slot D) := rfl
  rw [e, List.isEmpty_map]
  have hp : st.shown.positionalRow = st.positionalRow := rfl
  have ho : st.shown.optionRow = st.optionRow := rfl
  rw [hp, ho]
  split
  · rfl
  · dsimp only
    rw [foldl_shown _ (fun _ _ => rfl), foldl_shown _ (fun _ _ => rfl)]

theorem getUsage_shown (st : State D) : st.shown.getUsage = st.getUsage := by
  unfold State.getUsage
  simp only [usageLine_shown, sections_shown]
  rfl

theorem getUsage_congr {st st' : State D} (h : st'.shown = st.shown) : st'.getUsage = st.getUsage := by
  rw [← getUsage_shown st', h, getUsage_shown]

theorem shown_config (st : State D) : st.config.shown = st.shown := by
  unfold State.shown State.config
  simp only [List.map_map]
  rfl

theorem map_shown_eq {l : List (Slot D)} {f : Slot D → Slot D} (h : ∀ s, (f s).arg.shown = s.arg.shown) :
    (l.map f).map (fun s => (⟨0, 0, s.arg.shown⟩ : Slot D)) = l.map fun s => ⟨0, 0, s.arg.shown⟩ := by
  rw [List.map_map]
  exact List.map_congr_left fun s _ => by simp only [Function.comp, h s]

theorem modNode_shown (st : State D) (n : Nat) (f : Argument D → Argument D) (h : ∀ a, (f a).shown = a.shown) :
    (st.modNode n f).shown = st.shown := by
  have := map_shown_eq (l := st.arguments) (f := fun s => if s.node == n then { s with arg := f s.arg } else s) (fun s => by
    split
    · exact h s.arg
    · rfl)
  unfold State.modNode State.shown
  simp only [this]

/-- C79. A call that changes nothing of what is shown leaves the usage text as it is. In particular a parser with a help
option and a program name shows the same usage after a call of `parseArguments`, whatever the command line and even if
the call threw. -/
theorem C79_usage_kept {scan : Str → Option D} {st : State D} (hr : Reachable scan st) {op : Op} (hq : Op.quiet op = true)
    (hg : (step scan st op).2.goesOn = true)
    (hp : ∀ argv, op = .parse argv → (st.helpOption ≠ none ∨ BothTaken st) ∧ st.binaryName ≠ []) :
    (step scan st op).1.getUsage = st.getUsage := by
  apply getUsage_congr
  have onRef : ∀ {α : Type} (ref : Nat) (f : Slot D → State D × Res α), (∀ s, (f s).1.shown = st.shown) →
      (st.withRef ref f).1.shown = st.shown := by
    intro α ref f hf
    unfold State.withRef
    split
    · rfl
    · exact hf _
  cases op with
  | valid ref v d => exact onRef ref _ fun s => modNode_shown _ _ _ fun _ => rfl
  | dest ref d =>
    refine onRef ref _ fun s => ?_
    have := map_shown_eq (l := st.arguments) (f := fun t => if t.node == s.node then
        { t with obj := st.nextObj, arg := { t.arg with defaults := [], dest := some d } } else t) (fun t => by
      dsimp only
      split <;> rfl)
    unfold State.shown
    simp only [this]
  | edit ref items => exact onRef ref _ fun s => modNode_shown _ _ _ fun _ => rfl
  | behave ref c r => exact onRef ref _ fun s => modNode_shown _ _ _ fun _ => rfl
  | setVersion _ => rfl
  | setAlternative _ => rfl
  | setStrict _ => rfl
  | setHelpException _ => rfl
  | setVersionException _ => rfl
  | parse argv =>
    obtain ⟨h1, h2⟩ := hp argv rfl
    have hb : (step scan st (.parse argv)).1.binaryName = st.binaryName := by
      have := congrArg (·.binaryName) (C62_settings hr (.parse argv) hg)
      simp only [Op.sets] at this
      rw [if_neg (fun h => h2 h.1)] at this
      exact this
    have hc := C57_parse_config hr argv (scan := scan) (fun o ho => by
      have : (step scan st (.parse argv)).2 = .exit o := ho
      rw [this] at hg; cases hg)
    rcases hc with ⟨_, e⟩ | ⟨h3, h4, _⟩
    · have hb' : (st.parseArguments scan argv).1.binaryName = st.config.binaryName := hb
      rw [hb'] at e
      rw [← shown_config, show (step scan st (.parse argv)).1.config = st.config from e, shown_config]
    · exact (h1.elim (fun h => h h3) h4).elim
  | _ => cases hq

/-- C79. The same for any number of such calls: what a program shows as its usage is settled when its arguments are
declared and its name is known. -/
theorem C79_usage_settled {scan : Str → Option D} {st : State D} (hr : Reachable scan st) (ops : List Op)
    (hq : ∀ op ∈ ops, Op.quiet op = true) (hg : opsGoOn scan st ops = true)
    (hh : st.helpOption ≠ none) (hn : st.binaryName ≠ []) :
    (runOps scan st ops).getUsage = st.getUsage := by
  induction ops generalizing st with
  | nil => rfl
  | cons op ops ih =>
    rw [opsGoOn, Bool.and_eq_true] at hg
    have hq1 := hq op (by simp)
    have h1 := C79_usage_kept hr hq1 hg.1 fun _ _ => ⟨.inl hh, hn⟩
    have hb : (step scan st op).1.binaryName = st.binaryName := by
      have := congrArg (·.binaryName) (C62_settings hr op hg.1)
      cases op with
      | parse argv =>
        simp only [Op.sets] at this
        rw [if_neg (fun h => hn h.1)] at this
        exact this
      | valid | dest | behave | edit | setVersion | setAlternative | setStrict | setHelpException | setVersionException => exact this
      | _ => cases hq1
    have onRef : ∀ {α : Type} (ref : Nat) (f : Slot D → State D × Res α), (∀ s, (f s).1.helpOption = st.helpOption) →
        (st.withRef ref f).1.helpOption = st.helpOption := by
      intro α ref f hf
      unfold State.withRef
      split
      · rfl
      · exact hf _
    have ho : (step scan st op).1.helpOption = st.helpOption := by
      cases op with
      | parse argv => exact (C55_no_second_help hr hh argv hg.1).1
      | valid ref v d => exact onRef ref _ fun s => rfl
      | dest ref d => exact onRef ref _ fun s => rfl
      | edit ref items => exact onRef ref _ fun s => rfl
      | behave ref c r => exact onRef ref _ fun s => rfl
      | setVersion | setAlternative | setStrict | setHelpException | setVersionException => rfl
      | _ => cases hq1
    have h2 := ih (st := (step scan st op).1) (.step op hr hg.1) (fun o h => hq o (by simp [h])) hg.2 (by rw [ho]; exact hh)
      (by rw [hb]; exact hn)
    rw [show runOps scan st (op :: ops) = runOps scan (step scan st op).1 ops from rfl, h2, h1]

/-! ### Concrete cases -/

/-- A parser with a name, an option with a default value, a help option and a required argument. -/
def shownOps : List Op :=
  [.setBinaryName "prog".toList, .add ["-o".toList, "--out".toList], .defaults 0 ["a.txt".toList], .add ["-h".toList],
   .action 1 .help, .add ["file".toList], .required 2 true]

def shownDemo : State Unit := runOps demoScan State.init shownOps

/-- A command line that is accepted, one that is not, a destination, a mode. -/
def quietOps : List Op :=
  [.parse ["x".toList, "-o".toList, "b.txt".toList, "f".toList], .parse ["x".toList, "--wrong".toList], .setStrict true,
   .dest 0 ⟨0, .scalar, false, true, fun _ => none⟩, .parse ["x".toList]]

/-- The values read are not those of the usage text, which is the same before and after. -/
example : (runOps demoScan shownDemo quietOps).getUsage = shownDemo.getUsage ∧
    shownDemo.getUsage = ("usage: prog [-h] [-o OUT] -- file\n\npositional arguments:\n  file                   (required)" ++
      "\n\noptional arguments:\n  -h                    \n  -o, --out OUT          (default: a.txt)").toList :=
  ⟨C79_usage_settled (reachable_runOps .init _ (by decide +kernel)) _ (by decide +kernel) (by decide +kernel) (by decide +kernel)
    (by decide +kernel), by decide +kernel⟩

end BletArgs
