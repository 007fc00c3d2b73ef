import Verif.Lemmas.Move
import Verif.Spec.Callback
/-
The destinations have no influence on what is done before they are written.
-/
namespace BletArgs
open Spec
variable {D : Type} {k0 : Option Dest → Option Dest}

namespace Aim

/-- The corresponding outcome: same result. -/
def out (k0 : Option Dest → Option Dest) {α : Type} (x : State D × Res α) : State D × Res α := (x.1.aim k0, x.2)

/-! ### One argument -/

theorem typeConstructor (a : Argument D) (o : Nat) (h v : Option Nat) :
    (a.aim k0).typeConstructor o h v = ((((a.typeConstructor o h v).1).aim k0), (a.typeConstructor o h v).2) := by
  rw [typeConstructor_core, typeConstructor_core]
  show (tcCore a.isPositional a.action a.nargs _ _).apply _ _ _ _ = _
  cases tcCore a.isPositional a.action a.nargs (h == none || h == some o) (v == none || v == some o) <;> rfl

theorem defaultsConstructor (a : Argument D) :
    (a.aim k0).defaultsConstructor = ((a.defaultsConstructor.1.aim k0), a.defaultsConstructor.2) := by
  unfold Argument.defaultsConstructor
  simp only [show (a.aim k0).nargs = a.nargs from rfl, show (a.aim k0).defaults = a.defaults from rfl,
    show (a.aim k0).type = a.type from rfl]
  generalize (decide (a.nargs > 0) && decide (a.defaults.length > 0)) = c0
  generalize (a.defaults.length != a.nargs) = c1
  generalize (a.defaults.length % a.nargs != 0) = c2
  generalize a.type = t
  cases c0
  · rfl
  · cases t <;> cases c1 <;> cases c2 <;> rfl

theorem reset (a : Argument D) : (a.aim k0).reset = (a.reset.aim k0) := rfl

theorem toNumber (scan : Str → Option D) (a : Argument D) : (a.aim k0).toNumber scan = ((a.toNumber scan).aim k0) := by
  unfold Argument.toNumber
  simp only [show (a.aim k0).type = a.type from rfl, show (a.aim k0).elems = a.elems from rfl]
  generalize (a.type == Ty.boolean || a.type == Ty.reverse) = c0
  generalize a.elems.isEmpty = c1
  cases c0 <;> cases c1 <;> rfl

theorem runValid (a : Argument D) : (a.aim k0).runValid = ((a.runValid.1.aim k0), a.runValid.2) := by
  unfold Argument.runValid
  simp only [show (a.aim k0).type = a.type from rfl, show (a.aim k0).valid = a.valid from rfl,
    show (a.aim k0).isExist = a.isExist from rfl, show (a.aim k0).toVector = a.toVector from rfl]
  cases a.valid with
  | none => rfl
  | some v =>
    simp only
    cases a.isExist with
    | false => rfl
    | true =>
      simp only [if_true]
      cases v.check (a.toVector.getD []) with
      | accept args =>
        simp only
        cases a.type <;> first | rfl | (cases args <;> rfl)
      | _ => rfl

theorem parseArgument (stop : Str → Bool) (argv : List Str) (max index : Nat) (b : Bool) (o w : Str) (a : Argument D) :
    (a.aim k0).parseArgument stop argv max index b o w =
      ((((a.parseArgument stop argv max index b o w).1).aim k0), (a.parseArgument stop argv max index b o w).2) := by
  unfold Argument.parseArgument
  have ec : (a.aim k0).clearIfFirst = (a.clearIfFirst.aim k0) := by
    unfold Argument.clearIfFirst
    rw [show (a.aim k0).isExist = a.isExist from rfl]
    cases a.isExist <;> rfl
  have en : a.clearIfFirst.nargs = a.nargs := by unfold Argument.clearIfFirst; split <;> rfl
  have en' : (a.clearIfFirst.aim k0).nargs = a.nargs := en
  have et : (a.aim k0).type = a.type := rfl
  have em : (a.aim k0).nargs = a.nargs := rfl
  simp only [ec, et, en, en', em]
  generalize a.clearIfFirst = c
  generalize decide (index + 1 ≥ max) = c1
  cases b with
  | true => cases a.type <;> rfl
  | false =>
    simp only [Bool.false_eq_true, if_false]
    cases a.type <;> simp only <;> first
      | rfl
      | (generalize scanInfinite stop argv _ _ = x; cases x <;> rfl)
      | (generalize scanGroups stop argv _ _ _ _ = x; obtain ⟨gs, e⟩ := x; cases e <;> rfl)
      | (by_cases h : index + 1 ≥ max
         · simp only [h, if_true]
         · simp only [h, if_false]; cases argv[index + 1]? <;> rfl)
      | (by_cases h : (index + a.nargs) % two64 ≥ max
         · simp only [h, if_true] <;> rfl
         · simp only [h, if_false]; generalize readRange argv _ _ = x; cases x <;> rfl)

theorem parsePositional (stop : Str → Bool) (argv : List Str) (argc index : Nat) (a : Argument D) :
    (a.aim k0).parsePositional stop argv argc index =
      ((((a.parsePositional stop argv argc index).1).aim k0), (a.parsePositional stop argv argc index).2) := by
  unfold Argument.parsePositional
  have et : (a.aim k0).type = a.type := rfl
  have em : (a.aim k0).nargs = a.nargs := rfl
  have ef : (a.aim k0).front = a.front := rfl
  simp only [et, em, ef]
  cases a.type <;> simp only <;> first
    | rfl
    | (cases argv[index]? <;> rfl)
    | (by_cases h : (index + a.nargs) % two64 > argc
       · simp only [h, if_true]
       · simp only [h, if_false]; generalize readRange argv _ _ = x; cases x <;> rfl)
    | (generalize scanInfinite stop argv _ _ = x; cases x <;> rfl)
    | (generalize scanGroups stop argv _ _ _ _ = x; obtain ⟨gs, e⟩ := x; cases e <;> rfl)

/-! ### The registry -/

theorem atNode (s : State D) (n : Nat) : (s.aim k0).atNode n = (s.atNode n).map (Slot.aim k0) := by
  unfold State.atNode
  show List.find? _ (s.arguments.map (Slot.aim k0)) = _
  rw [List.find?_map]
  rfl

theorem atObj (s : State D) (n : Nat) : (s.aim k0).atObj n = (s.atObj n).map (Slot.aim k0) := by
  unfold State.atObj
  show List.find? _ (s.arguments.map (Slot.aim k0)) = _
  rw [List.find?_map]
  rfl

theorem modNode (s : State D) (n : Nat) {f g : Argument D → Argument D} (h : ∀ a, f (a.aim k0) = ((g a).aim k0)) :
    (s.aim k0).modNode n f = ((s.modNode n g).aim k0) := by
  unfold State.modNode
  have e : (s.arguments.map (Slot.aim k0)).map (fun t => if t.node == n then { t with arg := f t.arg } else t) =
      (s.arguments.map fun t => if t.node == n then { t with arg := g t.arg } else t).map (Slot.aim k0) := by
    rw [List.map_map, List.map_map]
    refine List.map_congr_left fun t _ => ?_
    simp only [Function.comp_apply, show ∀ u : Slot D, (u.aim k0).node = u.node from fun _ => rfl]
    cases t.node == n with
    | true => exact congrArg (fun a => (⟨t.node, t.obj, a⟩ : Slot D)) (h t.arg)
    | false => rfl
  show ({ (s.aim k0) with arguments := (s.arguments.map (Slot.aim k0)).map _ } : State D) = _
  rw [e]
  rfl

theorem sortArguments (s : State D) : (s.aim k0).sortArguments = out k0 s.sortArguments := by
  unfold State.sortArguments
  have e1 : (s.aim k0).arguments = s.arguments.map (Slot.aim k0) := rfl
  have e : (s.arguments.map (Slot.aim k0)).any (fun s => s.arg.names.isEmpty) = s.arguments.any (fun s => s.arg.names.isEmpty) := by
    rw [List.any_map]; rfl
  rw [e1, e]
  split
  · rfl
  · rw [stableSort_map (Slot.aim k0) _ (fun _ _ _ _ => rfl)]
    rfl

theorem linkArgument (s : State D) (a : Argument D) (ha : (a.aim k0) = a) : (s.aim k0).linkArgument a = out k0 (s.linkArgument a) := by
  unfold State.linkArgument
  simp only
  have e : ({ (s.aim k0) with
      arguments := (s.aim k0).arguments ++ [{ node := (s.aim k0).nextNode, obj := (s.aim k0).nextObj, arg := a }]
      byName := a.names.foldl (fun m n => insertName m n (s.aim k0).nextNode) (s.aim k0).byName
      nextNode := (s.aim k0).nextNode + 1
      nextObj := (s.aim k0).nextObj + 1 } : State D) = State.aim k0 { s with
      arguments := s.arguments ++ [{ node := s.nextNode, obj := s.nextObj, arg := a }]
      byName := a.names.foldl (fun m n => insertName m n s.nextNode) s.byName
      nextNode := s.nextNode + 1
      nextObj := s.nextObj + 1 } := by
    simp [State.aim, Slot.aim, ha]
  rw [e, sortArguments]
  generalize State.sortArguments _ = x
  obtain ⟨y, res⟩ := x
  cases res <;> rfl

theorem addArgument (h0 : k0 none = none) (s : State D) (nof : List Str) : (s.aim k0).addArgument nof = out k0 (s.addArgument nof) := by
  unfold State.addArgument
  cases nof with
  | nil => rfl
  | cons f rest =>
    simp only [show (s.aim k0).byName = s.byName from rfl]
    split
    · split
      · rfl
      · split
        · rfl
        · exact linkArgument s _ (by unfold Argument.aim; rw [h0])
    · split
      · rfl
      · exact linkArgument s _ (by unfold Argument.aim; rw [h0])

theorem withRef (s : State D) {α : Type} (ref : Nat) (f g : Slot D → State D × Res α)
    (h : ∀ t, s.atObj ref = some t → g (t.aim k0) = out k0 (f t)) : (s.aim k0).withRef ref g = out k0 (s.withRef ref f) := by
  unfold State.withRef
  rw [atObj]
  cases e : s.atObj ref with
  | none => rfl
  | some t => exact h t e

theorem retype (s : State D) (t : Slot D) (a : Argument D) : (s.aim k0).retype (t.aim k0) (a.aim k0) = out k0 (s.retype t a) := by
  unfold State.retype
  rw [show (a.aim k0).typeConstructor (t.aim k0).obj (s.aim k0).helpOption (s.aim k0).versionOption =
    (a.aim k0).typeConstructor t.obj s.helpOption s.versionOption from rfl, typeConstructor]
  generalize a.typeConstructor t.obj s.helpOption s.versionOption = x
  obtain ⟨a1, h, v, res⟩ := x
  have em : ∀ b : Argument D, ({ (s.aim k0) with helpOption := h, versionOption := v } : State D).modNode (t.aim k0).node (fun _ => (b.aim k0)) =
      ((State.modNode { s with helpOption := h, versionOption := v } t.node (fun _ => b)).aim k0) := fun b =>
    modNode { s with helpOption := h, versionOption := v } t.node (fun _ => rfl)
  cases res with
  | ok u => simp only; rw [defaultsConstructor, em]; rfl
  | throw e => simp only; rw [em]; rfl
  | exit e => simp only; rw [em]; rfl
  | ub e => simp only; rw [em]; rfl
  | diverge => simp only; rw [em]; rfl

theorem action (s : State D) (ref : Nat) (act : Action) : (s.aim k0).action ref act = out k0 (s.action ref act) := by
  unfold State.action
  refine withRef s ref _ _ fun t _ => ?_
  simp only
  rw [← retype]
  congr 1
  have e1 : (if t.arg.action == .help then { (s.aim k0) with helpOption := none } else (s.aim k0)) =
      ((if t.arg.action == .help then { s with helpOption := none } else s : State D).aim k0) := by
    split <;> rfl
  have e2 : (t.aim k0).arg.action = t.arg.action := rfl
  rw [e2, e1]
  generalize (if t.arg.action == .help then { s with helpOption := none } else s) = u
  split <;> rfl

/-! ### Parsing -/

theorem typeOf (s : State D) (n : Str) : (s.aim k0).typeOf n = s.typeOf n := by
  unfold State.typeOf
  rw [show lookupName (s.aim k0).byName n = lookupName s.byName n from rfl]
  cases lookupName s.byName n with
  | none => rfl
  | some k =>
    simp only
    rw [atNode, Option.map_map]
    rfl

theorem endOfClusters (s : State D) (b : Bool) (cs : List Char) : (s.aim k0).endOfClusters b cs = s.endOfClusters b cs := by
  induction cs with
  | nil => rfl
  | cons c cs ih =>
    cases cs with
    | nil => rfl
    | cons c2 cs => unfold State.endOfClusters; rw [typeOf, ih]

theorem endOfInfinite (s : State D) : (s.aim k0).endOfInfinite = s.endOfInfinite := by
  funext tok
  unfold State.endOfInfinite
  simp only [endOfClusters]
  rfl

theorem parseAt (s : State D) (argv : List Str) (max index : Nat) (b : Bool) (o a : Str) (n : Nat) :
    (s.aim k0).parseAt argv max index b o a n = out k0 (s.parseAt argv max index b o a n) := by
  unfold State.parseAt
  rw [atNode, endOfInfinite]
  cases s.atNode n with
  | none => rfl
  | some t =>
    simp only [Option.map_some]
    rw [show (t.aim k0).arg = (t.arg.aim k0) from rfl, parseArgument]
    generalize t.arg.parseArgument s.endOfInfinite argv max index b o a = x
    refine Prod.ext ?_ rfl
    exact modNode s n (f := fun _ => (x.1.aim k0)) (g := fun _ => x.1) (fun _ => rfl)

theorem mark (s : State D) (n : Nat) : (s.aim k0).modNode n Argument.mark = ((s.modNode n Argument.mark).aim k0) :=
  modNode s n fun _ => rfl

theorem parseCluster (argv : List Str) (max index : Nat) (b : Bool) (a : Str) (cs : List Char) (s : State D) :
    State.parseCluster argv max index b a cs (s.aim k0) = out k0 (State.parseCluster argv max index b a cs s) := by
  induction cs generalizing s with
  | nil =>
    unfold State.parseCluster
    rw [show lookupName (s.aim k0).byName = lookupName s.byName from rfl]
    cases lookupName s.byName (shortFlag '-') with
    | none => rfl
    | some k => exact parseAt s ..
  | cons c cs ih =>
    cases cs with
    | nil =>
      unfold State.parseCluster
      rw [show lookupName (s.aim k0).byName = lookupName s.byName from rfl]
      cases lookupName s.byName (shortFlag c) with
      | none => rfl
      | some k => exact parseAt s ..
    | cons c2 cs =>
      unfold State.parseCluster
      rw [show lookupName (s.aim k0).byName = lookupName s.byName from rfl]
      cases lookupName s.byName (shortFlag c) with
      | none => rfl
      | some k =>
        simp only
        rw [atNode]
        cases s.atNode k with
        | none => rfl
        | some t =>
          simp only [Option.map_some]
          rw [show (t.aim k0).arg.type = t.arg.type from rfl, mark, parseAt, ih]
          split
          · rfl
          · split <;> rfl

theorem parseShort (s : State D) (argv : List Str) (max index : Nat) (tok : Str) :
    (s.aim k0).parseShort argv max index tok = out k0 (s.parseShort argv max index tok) := by
  unfold State.parseShort
  generalize takeArg tok = x
  obtain ⟨o, a, b⟩ := x
  simp only
  rw [show (s.aim k0).byName = s.byName from rfl, show (s.aim k0).isAlternative = s.isAlternative from rfl]
  cases s.isAlternative with
  | false => exact parseCluster ..
  | true =>
    simp only [if_true]
    cases lookupName s.byName ('-' :: o) with
    | none => exact parseCluster ..
    | some k => exact parseAt s ..

theorem parseLong (s : State D) (argv : List Str) (max index : Nat) (tok : Str) :
    (s.aim k0).parseLong argv max index tok = out k0 (s.parseLong argv max index tok) := by
  unfold State.parseLong
  generalize takeArg tok = x
  obtain ⟨o, a, b⟩ := x
  simp only
  rw [show (s.aim k0).byName = s.byName from rfl]
  cases lookupName s.byName o with
  | none => rfl
  | some k => exact parseAt s ..

theorem nextPositional (s : State D) : (s.aim k0).nextPositional = s.nextPositional.map (Slot.aim k0) := by
  unfold State.nextPositional
  show List.find? _ (s.arguments.map (Slot.aim k0)) = _
  rw [List.find?_map]
  rfl

theorem parsePositionalTok (s : State D) (argv : List Str) (argc index : Nat) (b : Bool) :
    (s.aim k0).parsePositionalTok argv argc index b = out k0 (s.parsePositionalTok argv argc index b) := by
  unfold State.parsePositionalTok
  rw [nextPositional, endOfInfinite]
  cases s.nextPositional with
  | none =>
    simp only [Option.map_none]
    cases argv[index]? with
    | none => rfl
    | some v =>
      simp only
      rw [show (s.aim k0).isStrict = s.isStrict from rfl]
      split <;> rfl
  | some t =>
    simp only [Option.map_some]
    rw [show (t.aim k0).arg = (t.arg.aim k0) from rfl, parsePositional]
    generalize t.arg.parsePositional _ argv argc index = x
    refine Prod.ext ?_ rfl
    exact modNode s t.node (f := fun _ => (x.1.aim k0)) (g := fun _ => x.1) (fun _ => rfl)

theorem endLoop (argv : List Str) (f i : Nat) (s : State D) :
    State.endLoop argv f i (s.aim k0) = out k0 (State.endLoop argv f i s) := by
  induction f generalizing i s with
  | zero => rfl
  | succ f ih =>
    unfold State.endLoop
    rw [parsePositionalTok]
    split
    · generalize s.parsePositionalTok argv argv.length i true = x
      obtain ⟨u, res⟩ := x
      cases res with
      | ok i1 => exact ih i1 u
      | _ => rfl
    · rfl

theorem mainLoop (argv : List Str) (e f i : Nat) (s : State D) :
    State.mainLoop argv e f i (s.aim k0) = out k0 (State.mainLoop argv e f i s) := by
  induction f generalizing i s with
  | zero => rfl
  | succ f ih =>
    have next : ∀ x : State D × Res Nat,
        (match out k0 x with
          | (st1, .ok i1) => State.mainLoop argv e f i1 st1
          | (st1, r) => (st1, r.cast)) =
        out k0 (match x with
          | (st1, .ok i1) => State.mainLoop argv e f i1 st1
          | (st1, r) => (st1, r.cast)) := by
      rintro ⟨u, res⟩
      cases res with
      | ok i1 => exact ih i1 u
      | _ => rfl
    unfold State.mainLoop
    split
    · cases argv[i]? with
      | none => rfl
      | some tok =>
        simp only
        rw [parseShort, parseLong, parsePositionalTok, endLoop]
        split
        · exact next _
        · split
          · exact next _
          · split
            · rfl
            · exact next _
    · rfl

theorem firstMissing (l : List (Slot D)) : BletArgs.firstMissing (l.map (Slot.aim k0)) = BletArgs.firstMissing l := by
  unfold BletArgs.firstMissing
  rw [List.find?_map, Option.map_map]
  rfl

theorem optionSeen (s : State D) (p : Option Nat) : (s.aim k0).optionSeen p = s.optionSeen p := by
  cases p with
  | none => rfl
  | some o =>
    show ((s.aim k0).atObj o).map _ = _
    rw [atObj, Option.map_map]
    rfl

theorem clear (s : State D) : (s.aim k0).clear = s.clear.aim k0 := by
  have e1 : ((s.arguments.map (Slot.aim k0)).map (·.obj)) = s.arguments.map (·.obj) := by
    rw [List.map_map]; rfl
  have e2 : (s.arguments.map (Slot.aim k0)).flatMap (fun s => s.arg.ownedValid) = s.arguments.flatMap (fun s => s.arg.ownedValid) := by
    rw [List.flatMap_map]; rfl
  unfold State.clear State.deleteAll
  simp only
  rw [show (s.aim k0).arguments = s.arguments.map (Slot.aim k0) from rfl, e1, e2]
  rfl

theorem resetAll (s : State D) : (s.aim k0).resetAll = (s.resetAll.aim k0) := by
  unfold State.resetAll
  have e : (s.arguments.map (Slot.aim k0)).map (fun s => { s with arg := s.arg.reset }) =
      (s.arguments.map fun s => { s with arg := s.arg.reset }).map (Slot.aim k0) := by
    rw [List.map_map, List.map_map]; rfl
  show ({ (s.aim k0) with arguments := (s.arguments.map (Slot.aim k0)).map (fun s => { s with arg := s.arg.reset }) } : State D) = _
  rw [e]
  rfl

theorem setBinary (s : State D) (argv : List Str) : (s.aim k0).setBinaryIfEmpty argv = out k0 (s.setBinaryIfEmpty argv) := by
  unfold State.setBinaryIfEmpty
  rw [show (s.aim k0).binaryName = s.binaryName from rfl]
  split
  · cases argv[0]? <;> rfl
  · rfl

theorem setHelp (s : State D) (ref : Nat) (h : Str) : (s.aim k0).setHelp ref h = out k0 (s.setHelp ref h) := by
  unfold State.setHelp
  exact withRef s ref _ _ fun t _ => Prod.ext
    (modNode s t.node (f := fun a => { a with help := h }) (g := fun a => { a with help := h }) fun _ => rfl) rfl

theorem autoHelp (h0 : k0 none = none) (s : State D) : (s.aim k0).autoHelp = out k0 s.autoHelp := by
  unfold State.autoHelp
  rw [show (s.aim k0).helpOption.isNone = s.helpOption.isNone from rfl]
  simp only [show ∀ n, (s.aim k0).argumentExists n = s.argumentExists n from fun _ => rfl, addArgument h0]
  split
  · split
    · rfl
    · generalize s.addArgument _ = x
      obtain ⟨u, res⟩ := x
      cases res with
      | ok ref =>
        simp only [out]
        rw [action]
        generalize u.action ref .help = y
        obtain ⟨w, res⟩ := y
        cases res with
        | ok _ =>
          simp only [out]
          rw [setHelp]
          generalize w.setHelp ref _ = z
          obtain ⟨z, res⟩ := z
          cases res <;> rfl
        | _ => rfl
      | _ => rfl
  · rfl

theorem getUsage (st : State D) : (st.aim k0).getUsage = st.getUsage := by
  have ha : (st.aim k0).arguments.map (·.arg) = (st.arguments.map (·.arg)).map (Argument.aim k0) := by
    unfold State.aim
    simp only [List.map_map]
    rfl
  have hf : ∀ (f g : UsageVars → Argument D → UsageVars) (v : UsageVars), (∀ v a, f v (Argument.aim k0 a) = g v a) →
      ((st.aim k0).arguments.map (·.arg)).foldl f v = (st.arguments.map (·.arg)).foldl g v := by
    intro f g v h
    rw [ha, List.foldl_map, (funext fun v => funext fun a => h v a : (fun v a => f v (Argument.aim k0 a)) = g)]
  have he : (st.aim k0).arguments.isEmpty = st.arguments.isEmpty := by
    unfold State.aim
    simp only [List.isEmpty_map]
  have hu : (st.aim k0).usageLine = st.usageLine := by
    unfold State.usageLine
    simp only
    rw [hf (UsageVars.optionStep (st.aim k0).usageHead.length (st.aim k0).indexMax) (UsageVars.optionStep st.usageHead.length st.indexMax) _ (fun _ _ => rfl),
      hf (UsageVars.positionalStep (st.aim k0).usageHead.length (st.aim k0).indexMax) (UsageVars.positionalStep st.usageHead.length st.indexMax) _ (fun _ _ => rfl)]
    rfl
  have hs : ∀ v, (st.aim k0).sections v = st.sections v := by
    intro v
    unfold State.sections
    simp only
    rw [he, hf (st.aim k0).positionalRow st.positionalRow _ (fun _ _ => rfl), hf (st.aim k0).optionRow st.optionRow _ (fun _ _ => rfl)]
  unfold State.getUsage
  rw [hu]
  simp only
  rw [hs]
  rfl

/-- What is left to do when the tokens are read, help and version not asked for and no argument missing. -/
def finishing (scan : Str → Option D) (st : State D) : State D × Res Unit :=
  ({ st with arguments := (finishAll scan st.arguments).1, destLog := st.destLog ++ (finishAll scan st.arguments).2.1 },
    (finishAll scan st.arguments).2.2)

theorem afterLoop (scan : Str → Option D) (s : State D) :
    ((s.aim k0).afterLoop scan = out k0 (s.afterLoop scan) ∧ (s.afterLoop scan).1.destLog = s.destLog) ∨
    (s.afterLoop scan = finishing scan s ∧ (s.aim k0).afterLoop scan = finishing scan (s.aim k0)) := by
  unfold State.afterLoop
  rw [optionSeen, optionSeen, getUsage, clear]
  simp only [show (s.aim k0).isHelpException = s.isHelpException from rfl, show (s.aim k0).version = s.version from rfl,
    show (s.aim k0).isVersionException = s.isVersionException from rfl, show (s.aim k0).helpOption = s.helpOption from rfl,
    show (s.aim k0).versionOption = s.versionOption from rfl]
  cases s.optionSeen s.helpOption with
  | none => exact .inl ⟨rfl, rfl⟩
  | some b =>
    cases b with
    | true =>
      simp only
      cases s.isHelpException <;> exact .inl ⟨rfl, rfl⟩
    | false =>
      simp only
      cases s.optionSeen s.versionOption with
      | none => exact .inl ⟨rfl, rfl⟩
      | some b =>
        cases b with
        | true =>
          simp only
          cases s.isVersionException <;> exact .inl ⟨rfl, rfl⟩
        | false =>
          simp only
          unfold State.finishParse
          rw [show (s.aim k0).arguments = s.arguments.map (Slot.aim k0) from rfl, firstMissing]
          cases BletArgs.firstMissing s.arguments with
          | some e => exact .inl ⟨rfl, rfl⟩
          | none => exact .inr ⟨rfl, rfl⟩

end Aim
end BletArgs
