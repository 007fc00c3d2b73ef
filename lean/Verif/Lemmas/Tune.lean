import Verif.Lemmas.Move
import Verif.Spec.UserCode
/-
The code of validators and callbacks has no influence on what is done before it is run.
-/
namespace BletArgs
open Spec
variable {D : Type}

/-- The code of the user for one argument. -/
abbrev UserFns : Type := (List Str → VRes) × (DestWrite → Option Exn)

def Argument.tune (p : UserFns) (a : Argument D) : Argument D := a.behaving p.1 p.2

def Slot.tune (k : Nat → UserFns) (s : Slot D) : Slot D := { s with arg := s.arg.tune (k s.node) }

def State.tune (k : Nat → UserFns) (st : State D) : State D := { st with arguments := st.arguments.map (Slot.tune k) }

namespace Tune
variable {k0 : Nat → UserFns} {p : UserFns}

/-- The corresponding outcome: same result. -/
def out (k0 : Nat → UserFns) {α : Type} (x : State D × Res α) : State D × Res α := (x.1.tune k0, x.2)

/-! ### One argument -/

theorem typeConstructor (a : Argument D) (o : Nat) (h v : Option Nat) :
    (a.tune p).typeConstructor o h v = ((((a.typeConstructor o h v).1).tune p), (a.typeConstructor o h v).2) := by
  rw [typeConstructor_core, typeConstructor_core]
  show (tcCore a.isPositional a.action a.nargs _ _).apply _ _ _ _ = _
  cases tcCore a.isPositional a.action a.nargs (h == none || h == some o) (v == none || v == some o) <;> rfl

theorem defaultsConstructor (a : Argument D) :
    (a.tune p).defaultsConstructor = ((a.defaultsConstructor.1.tune p), a.defaultsConstructor.2) := by
  unfold Argument.defaultsConstructor
  simp only [show (a.tune p).nargs = a.nargs from rfl, show (a.tune p).defaults = a.defaults from rfl,
    show (a.tune p).type = a.type from rfl]
  generalize (decide (a.nargs > 0) && decide (a.defaults.length > 0)) = c0
  generalize (a.defaults.length != a.nargs) = c1
  generalize (a.defaults.length % a.nargs != 0) = c2
  generalize a.type = t
  cases c0
  · rfl
  · cases t <;> cases c1 <;> cases c2 <;> rfl

theorem ownedValid (p : UserFns) (a : Argument D) : (a.tune p).ownedValid = a.ownedValid := by
  unfold Argument.ownedValid Argument.tune Argument.behaving
  cases a.valid <;> rfl

theorem reset (a : Argument D) : (a.tune p).reset = (a.reset.tune p) := rfl

theorem toNumber (scan : Str → Option D) (a : Argument D) : (a.tune p).toNumber scan = ((a.toNumber scan).tune p) := by
  unfold Argument.toNumber
  simp only [show (a.tune p).type = a.type from rfl, show (a.tune p).elems = a.elems from rfl]
  generalize (a.type == Ty.boolean || a.type == Ty.reverse) = c0
  generalize a.elems.isEmpty = c1
  cases c0 <;> cases c1 <;> rfl

theorem parseArgument (stop : Str → Bool) (argv : List Str) (max index : Nat) (b : Bool) (o w : Str) (a : Argument D) :
    (a.tune p).parseArgument stop argv max index b o w =
      ((((a.parseArgument stop argv max index b o w).1).tune p), (a.parseArgument stop argv max index b o w).2) := by
  unfold Argument.parseArgument
  have ec : (a.tune p).clearIfFirst = (a.clearIfFirst.tune p) := by
    unfold Argument.clearIfFirst
    rw [show (a.tune p).isExist = a.isExist from rfl]
    cases a.isExist <;> rfl
  have en : a.clearIfFirst.nargs = a.nargs := by unfold Argument.clearIfFirst; split <;> rfl
  have en' : (a.clearIfFirst.tune p).nargs = a.nargs := en
  have et : (a.tune p).type = a.type := rfl
  have em : (a.tune p).nargs = a.nargs := rfl
  simp only [ec, et, en, en', em]
  generalize a.clearIfFirst = c
  generalize decide (index + 1 ≥ max) = c1
  cases b with
  | true => cases a.type <;> rfl
  | false =>
    simp only [Bool.false_eq_true, if_false]
    cases a.type <;> simp only <;> first
      | rfl
      | (generalize scanInfinite stop argv _ _ = x; cases x <;> rfl)
      | (generalize scanGroups stop argv _ _ _ _ = x; obtain ⟨gs, e⟩ := x; cases e <;> rfl)
      | (by_cases h : index + 1 ≥ max
         · simp only [h, if_true]
         · simp only [h, if_false]; cases argv[index + 1]? <;> rfl)
      | (by_cases h : (index + a.nargs) % two64 ≥ max
         · simp only [h, if_true] <;> rfl
         · simp only [h, if_false]; generalize readRange argv _ _ = x; cases x <;> rfl)

theorem parsePositional (stop : Str → Bool) (argv : List Str) (argc index : Nat) (a : Argument D) :
    (a.tune p).parsePositional stop argv argc index =
      ((((a.parsePositional stop argv argc index).1).tune p), (a.parsePositional stop argv argc index).2) := by
  unfold Argument.parsePositional
  have et : (a.tune p).type = a.type := rfl
  have em : (a.tune p).nargs = a.nargs := rfl
  have ef : (a.tune p).front = a.front := rfl
  simp only [et, em, ef]
  cases a.type <;> simp only <;> first
    | rfl
    | (cases argv[index]? <;> rfl)
    | (by_cases h : (index + a.nargs) % two64 > argc
       · simp only [h, if_true]
       · simp only [h, if_false]; generalize readRange argv _ _ = x; cases x <;> rfl)
    | (generalize scanInfinite stop argv _ _ = x; cases x <;> rfl)
    | (generalize scanGroups stop argv _ _ _ _ = x; obtain ⟨gs, e⟩ := x; cases e <;> rfl)

/-! ### The registry -/

theorem atNode (s : State D) (n : Nat) : (s.tune k0).atNode n = (s.atNode n).map (Slot.tune k0) := by
  unfold State.atNode
  show List.find? _ (s.arguments.map (Slot.tune k0)) = _
  rw [List.find?_map]
  rfl

theorem atObj (s : State D) (n : Nat) : (s.tune k0).atObj n = (s.atObj n).map (Slot.tune k0) := by
  unfold State.atObj
  show List.find? _ (s.arguments.map (Slot.tune k0)) = _
  rw [List.find?_map]
  rfl

theorem modNode (s : State D) (n : Nat) {f g : Argument D → Argument D} (h : ∀ a, f (a.tune (k0 n)) = ((g a).tune (k0 n))) :
    (s.tune k0).modNode n f = ((s.modNode n g).tune k0) := by
  unfold State.modNode
  have e : (s.arguments.map (Slot.tune k0)).map (fun t => if t.node == n then { t with arg := f t.arg } else t) =
      (s.arguments.map fun t => if t.node == n then { t with arg := g t.arg } else t).map (Slot.tune k0) := by
    rw [List.map_map, List.map_map]
    refine List.map_congr_left fun t _ => ?_
    simp only [Function.comp_apply, show ∀ u : Slot D, (u.tune k0).node = u.node from fun _ => rfl]
    by_cases e : t.node = n
    · subst e
      rw [beq_self_eq_true]
      exact congrArg (fun a => (⟨t.node, t.obj, a⟩ : Slot D)) (h t.arg)
    · rw [beq_false_of_ne e]; rfl
  show ({ (s.tune k0) with arguments := (s.arguments.map (Slot.tune k0)).map _ } : State D) = _
  rw [e]
  rfl

theorem sortArguments (s : State D) : (s.tune k0).sortArguments = out k0 s.sortArguments := by
  unfold State.sortArguments
  have e1 : (s.tune k0).arguments = s.arguments.map (Slot.tune k0) := rfl
  have e : (s.arguments.map (Slot.tune k0)).any (fun s => s.arg.names.isEmpty) = s.arguments.any (fun s => s.arg.names.isEmpty) := by
    rw [List.any_map]; rfl
  rw [e1, e]
  split
  · rfl
  · rw [stableSort_map (Slot.tune k0) _ (fun _ _ _ _ => rfl)]
    rfl

theorem linkArgument (s : State D) (a : Argument D) (ha : ∀ p, (a.tune p) = a) : (s.tune k0).linkArgument a = out k0 (s.linkArgument a) := by
  unfold State.linkArgument
  simp only
  have e : ({ (s.tune k0) with
      arguments := (s.tune k0).arguments ++ [{ node := (s.tune k0).nextNode, obj := (s.tune k0).nextObj, arg := a }]
      byName := a.names.foldl (fun m n => insertName m n (s.tune k0).nextNode) (s.tune k0).byName
      nextNode := (s.tune k0).nextNode + 1
      nextObj := (s.tune k0).nextObj + 1 } : State D) = State.tune k0 { s with
      arguments := s.arguments ++ [{ node := s.nextNode, obj := s.nextObj, arg := a }]
      byName := a.names.foldl (fun m n => insertName m n s.nextNode) s.byName
      nextNode := s.nextNode + 1
      nextObj := s.nextObj + 1 } := by
    simp [State.tune, Slot.tune, ha]
  rw [e, sortArguments]
  generalize State.sortArguments _ = x
  obtain ⟨y, res⟩ := x
  cases res <;> rfl

theorem addArgument (s : State D) (nof : List Str) : (s.tune k0).addArgument nof = out k0 (s.addArgument nof) := by
  unfold State.addArgument
  cases nof with
  | nil => rfl
  | cons f rest =>
    simp only [show (s.tune k0).byName = s.byName from rfl]
    split
    · split
      · rfl
      · split
        · rfl
        · exact linkArgument s _ (fun _ => rfl)
    · split
      · rfl
      · exact linkArgument s _ (fun _ => rfl)

theorem withRef (s : State D) {α : Type} (ref : Nat) (f g : Slot D → State D × Res α)
    (h : ∀ t, s.atObj ref = some t → g (t.tune k0) = out k0 (f t)) : (s.tune k0).withRef ref g = out k0 (s.withRef ref f) := by
  unfold State.withRef
  rw [atObj]
  cases e : s.atObj ref with
  | none => rfl
  | some t => exact h t e

theorem retype (s : State D) (t : Slot D) (a : Argument D) : (s.tune k0).retype (t.tune k0) (a.tune (k0 t.node)) = out k0 (s.retype t a) := by
  unfold State.retype
  rw [show (a.tune (k0 t.node)).typeConstructor (t.tune k0).obj (s.tune k0).helpOption (s.tune k0).versionOption =
    (a.tune (k0 t.node)).typeConstructor t.obj s.helpOption s.versionOption from rfl, typeConstructor]
  generalize a.typeConstructor t.obj s.helpOption s.versionOption = x
  obtain ⟨a1, h, v, res⟩ := x
  have em : ∀ b : Argument D, ({ (s.tune k0) with helpOption := h, versionOption := v } : State D).modNode (t.tune k0).node (fun _ => (b.tune (k0 t.node))) =
      ((State.modNode { s with helpOption := h, versionOption := v } t.node (fun _ => b)).tune k0) := fun b =>
    modNode { s with helpOption := h, versionOption := v } t.node (fun _ => rfl)
  cases res with
  | ok u => simp only; rw [defaultsConstructor, em]; rfl
  | throw e => simp only; rw [em]; rfl
  | exit e => simp only; rw [em]; rfl
  | ub e => simp only; rw [em]; rfl
  | diverge => simp only; rw [em]; rfl

theorem action (s : State D) (ref : Nat) (act : Action) : (s.tune k0).action ref act = out k0 (s.action ref act) := by
  unfold State.action
  refine withRef s ref _ _ fun t _ => ?_
  simp only
  rw [← retype]
  congr 1
  have e1 : (if t.arg.action == .help then { (s.tune k0) with helpOption := none } else (s.tune k0)) =
      ((if t.arg.action == .help then { s with helpOption := none } else s : State D).tune k0) := by
    split <;> rfl
  have e2 : (t.tune k0).arg.action = t.arg.action := rfl
  rw [e2, e1]
  generalize (if t.arg.action == .help then { s with helpOption := none } else s) = u
  split <;> rfl

/-! ### Parsing -/

theorem typeOf (s : State D) (n : Str) : (s.tune k0).typeOf n = s.typeOf n := by
  unfold State.typeOf
  rw [show lookupName (s.tune k0).byName n = lookupName s.byName n from rfl]
  cases lookupName s.byName n with
  | none => rfl
  | some k =>
    simp only
    rw [atNode, Option.map_map]
    rfl

theorem endOfClusters (s : State D) (b : Bool) (cs : List Char) : (s.tune k0).endOfClusters b cs = s.endOfClusters b cs := by
  induction cs with
  | nil => rfl
  | cons c cs ih =>
    cases cs with
    | nil => rfl
    | cons c2 cs => unfold State.endOfClusters; rw [typeOf, ih]

theorem endOfInfinite (s : State D) : (s.tune k0).endOfInfinite = s.endOfInfinite := by
  funext tok
  unfold State.endOfInfinite
  simp only [endOfClusters]
  rfl

theorem parseAt (s : State D) (argv : List Str) (max index : Nat) (b : Bool) (o a : Str) (n : Nat) :
    (s.tune k0).parseAt argv max index b o a n = out k0 (s.parseAt argv max index b o a n) := by
  unfold State.parseAt
  rw [atNode, endOfInfinite]
  cases e : s.atNode n with
  | none => rfl
  | some t =>
    simp only [Option.map_some]
    obtain rfl := (State.atNode_some e).2
    rw [show (t.tune k0).arg = (t.arg.tune (k0 t.node)) from rfl, parseArgument]
    generalize t.arg.parseArgument s.endOfInfinite argv max index b o a = x
    refine Prod.ext ?_ rfl
    exact modNode s _ (f := fun _ => (x.1.tune (k0 t.node))) (g := fun _ => x.1) (fun _ => rfl)

theorem mark (s : State D) (n : Nat) : (s.tune k0).modNode n Argument.mark = ((s.modNode n Argument.mark).tune k0) :=
  modNode s n fun _ => rfl

theorem parseCluster (argv : List Str) (max index : Nat) (b : Bool) (a : Str) (cs : List Char) (s : State D) :
    State.parseCluster argv max index b a cs (s.tune k0) = out k0 (State.parseCluster argv max index b a cs s) := by
  induction cs generalizing s with
  | nil =>
    unfold State.parseCluster
    rw [show lookupName (s.tune k0).byName = lookupName s.byName from rfl]
    cases lookupName s.byName (shortFlag '-') with
    | none => rfl
    | some k => exact parseAt s ..
  | cons c cs ih =>
    cases cs with
    | nil =>
      unfold State.parseCluster
      rw [show lookupName (s.tune k0).byName = lookupName s.byName from rfl]
      cases lookupName s.byName (shortFlag c) with
      | none => rfl
      | some k => exact parseAt s ..
    | cons c2 cs =>
      unfold State.parseCluster
      rw [show lookupName (s.tune k0).byName = lookupName s.byName from rfl]
      cases lookupName s.byName (shortFlag c) with
      | none => rfl
      | some k =>
        simp only
        rw [atNode]
        cases s.atNode k with
        | none => rfl
        | some t =>
          simp only [Option.map_some]
          rw [show (t.tune k0).arg.type = t.arg.type from rfl, mark, parseAt, ih]
          split
          · rfl
          · split <;> rfl

theorem parseShort (s : State D) (argv : List Str) (max index : Nat) (tok : Str) :
    (s.tune k0).parseShort argv max index tok = out k0 (s.parseShort argv max index tok) := by
  unfold State.parseShort
  generalize takeArg tok = x
  obtain ⟨o, a, b⟩ := x
  simp only
  rw [show (s.tune k0).byName = s.byName from rfl, show (s.tune k0).isAlternative = s.isAlternative from rfl]
  cases s.isAlternative with
  | false => exact parseCluster ..
  | true =>
    simp only [if_true]
    cases lookupName s.byName ('-' :: o) with
    | none => exact parseCluster ..
    | some k => exact parseAt s ..

theorem parseLong (s : State D) (argv : List Str) (max index : Nat) (tok : Str) :
    (s.tune k0).parseLong argv max index tok = out k0 (s.parseLong argv max index tok) := by
  unfold State.parseLong
  generalize takeArg tok = x
  obtain ⟨o, a, b⟩ := x
  simp only
  rw [show (s.tune k0).byName = s.byName from rfl]
  cases lookupName s.byName o with
  | none => rfl
  | some k => exact parseAt s ..

theorem nextPositional (s : State D) : (s.tune k0).nextPositional = s.nextPositional.map (Slot.tune k0) := by
  unfold State.nextPositional
  show List.find? _ (s.arguments.map (Slot.tune k0)) = _
  rw [List.find?_map]
  rfl

theorem parsePositionalTok (s : State D) (argv : List Str) (argc index : Nat) (b : Bool) :
    (s.tune k0).parsePositionalTok argv argc index b = out k0 (s.parsePositionalTok argv argc index b) := by
  unfold State.parsePositionalTok
  rw [nextPositional, endOfInfinite]
  cases s.nextPositional with
  | none =>
    simp only [Option.map_none]
    cases argv[index]? with
    | none => rfl
    | some v =>
      simp only
      rw [show (s.tune k0).isStrict = s.isStrict from rfl]
      split <;> rfl
  | some t =>
    simp only [Option.map_some]
    rw [show (t.tune k0).arg = (t.arg.tune (k0 t.node)) from rfl, parsePositional]
    generalize t.arg.parsePositional _ argv argc index = x
    refine Prod.ext ?_ rfl
    exact modNode s t.node (f := fun _ => (x.1.tune (k0 t.node))) (g := fun _ => x.1) (fun _ => rfl)

theorem endLoop (argv : List Str) (f i : Nat) (s : State D) :
    State.endLoop argv f i (s.tune k0) = out k0 (State.endLoop argv f i s) := by
  induction f generalizing i s with
  | zero => rfl
  | succ f ih =>
    unfold State.endLoop
    rw [parsePositionalTok]
    split
    · generalize s.parsePositionalTok argv argv.length i true = x
      obtain ⟨u, res⟩ := x
      cases res with
      | ok i1 => exact ih i1 u
      | _ => rfl
    · rfl

theorem mainLoop (argv : List Str) (e f i : Nat) (s : State D) :
    State.mainLoop argv e f i (s.tune k0) = out k0 (State.mainLoop argv e f i s) := by
  induction f generalizing i s with
  | zero => rfl
  | succ f ih =>
    have next : ∀ x : State D × Res Nat,
        (match out k0 x with
          | (st1, .ok i1) => State.mainLoop argv e f i1 st1
          | (st1, r) => (st1, r.cast)) =
        out k0 (match x with
          | (st1, .ok i1) => State.mainLoop argv e f i1 st1
          | (st1, r) => (st1, r.cast)) := by
      rintro ⟨u, res⟩
      cases res with
      | ok i1 => exact ih i1 u
      | _ => rfl
    unfold State.mainLoop
    split
    · cases argv[i]? with
      | none => rfl
      | some tok =>
        simp only
        rw [parseShort, parseLong, parsePositionalTok, endLoop]
        split
        · exact next _
        · split
          · exact next _
          · split
            · rfl
            · exact next _
    · rfl

theorem firstMissing (l : List (Slot D)) : BletArgs.firstMissing (l.map (Slot.tune k0)) = BletArgs.firstMissing l := by
  unfold BletArgs.firstMissing
  rw [List.find?_map, Option.map_map]
  rfl

theorem optionSeen (s : State D) (p : Option Nat) : (s.tune k0).optionSeen p = s.optionSeen p := by
  cases p with
  | none => rfl
  | some o =>
    show ((s.tune k0).atObj o).map _ = _
    rw [atObj, Option.map_map]
    rfl

theorem clear (s : State D) : (s.tune k0).clear = s.clear.tune k0 := by
  have e1 : ((s.arguments.map (Slot.tune k0)).map (·.obj)) = s.arguments.map (·.obj) := by
    rw [List.map_map]; rfl
  have e2 : (s.arguments.map (Slot.tune k0)).flatMap (fun s => s.arg.ownedValid) = s.arguments.flatMap (fun s => s.arg.ownedValid) := by
    rw [List.flatMap_map]
    exact congrArg (fun f => s.arguments.flatMap f) (funext fun t => ownedValid _ t.arg)
  unfold State.clear State.deleteAll
  simp only
  rw [show (s.tune k0).arguments = s.arguments.map (Slot.tune k0) from rfl, e1, e2]
  rfl

theorem resetAll (s : State D) : (s.tune k0).resetAll = (s.resetAll.tune k0) := by
  unfold State.resetAll
  have e : (s.arguments.map (Slot.tune k0)).map (fun s => { s with arg := s.arg.reset }) =
      (s.arguments.map fun s => { s with arg := s.arg.reset }).map (Slot.tune k0) := by
    rw [List.map_map, List.map_map]; rfl
  show ({ (s.tune k0) with arguments := (s.arguments.map (Slot.tune k0)).map (fun s => { s with arg := s.arg.reset }) } : State D) = _
  rw [e]
  rfl

theorem setBinary (s : State D) (argv : List Str) : (s.tune k0).setBinaryIfEmpty argv = out k0 (s.setBinaryIfEmpty argv) := by
  unfold State.setBinaryIfEmpty
  rw [show (s.tune k0).binaryName = s.binaryName from rfl]
  split
  · cases argv[0]? <;> rfl
  · rfl

theorem setHelp (s : State D) (ref : Nat) (h : Str) : (s.tune k0).setHelp ref h = out k0 (s.setHelp ref h) := by
  unfold State.setHelp
  exact withRef s ref _ _ fun t _ => Prod.ext
    (modNode s t.node (f := fun a => { a with help := h }) (g := fun a => { a with help := h }) fun _ => rfl) rfl

theorem setMetavar (s : State D) (ref : Nat) (h : Str) : (s.tune k0).setMetavar ref h = out k0 (s.setMetavar ref h) := by
  unfold State.setMetavar
  exact withRef s ref _ _ fun t _ => Prod.ext
    (modNode s t.node (f := fun a => { a with metavar := h }) (g := fun a => { a with metavar := h }) fun _ => rfl) rfl

theorem edit (scan : Str → Option D) (s : State D) (ref : Nat) (items : List NewElem) :
    (s.tune k0).edit scan ref items = out k0 (s.edit scan ref items) := by
  unfold State.edit
  exact withRef s ref _ _ fun t _ => Prod.ext
    (modNode s t.node (f := fun a => { a with elems := items.map (NewElem.elem scan) })
      (g := fun a => { a with elems := items.map (NewElem.elem scan) }) fun _ => rfl) rfl

theorem autoHelp (s : State D) : (s.tune k0).autoHelp = out k0 s.autoHelp := by
  unfold State.autoHelp
  rw [show (s.tune k0).helpOption.isNone = s.helpOption.isNone from rfl]
  simp only [show ∀ n, (s.tune k0).argumentExists n = s.argumentExists n from fun _ => rfl, addArgument]
  split
  · split
    · rfl
    · generalize s.addArgument _ = x
      obtain ⟨u, res⟩ := x
      cases res with
      | ok ref =>
        simp only [out]
        rw [action]
        generalize u.action ref .help = y
        obtain ⟨w, res⟩ := y
        cases res with
        | ok _ =>
          simp only [out]
          rw [setHelp]
          generalize w.setHelp ref _ = z
          obtain ⟨z, res⟩ := z
          cases res <;> rfl
        | _ => rfl
      | _ => rfl
  · rfl

theorem getUsage (st : State D) : (st.tune k0).getUsage = st.getUsage := by
  have hf : ∀ (f g : UsageVars → Argument D → UsageVars) (v : UsageVars), (∀ v p a, f v (Argument.tune p a) = g v a) →
      ((st.tune k0).arguments.map (·.arg)).foldl f v = (st.arguments.map (·.arg)).foldl g v := by
    intro f g v h
    show (List.map _ (st.arguments.map (Slot.tune k0))).foldl f v = _
    rw [List.foldl_map, List.foldl_map, List.foldl_map]
    exact congrArg (fun F => st.arguments.foldl F v) (funext fun v => funext fun t => h v _ t.arg)
  have he : (st.tune k0).arguments.isEmpty = st.arguments.isEmpty := by
    unfold State.tune
    simp only [List.isEmpty_map]
  have hu : (st.tune k0).usageLine = st.usageLine := by
    unfold State.usageLine
    simp only
    rw [hf (UsageVars.optionStep (st.tune k0).usageHead.length (st.tune k0).indexMax) (UsageVars.optionStep st.usageHead.length st.indexMax) _ (fun _ _ _ => rfl),
      hf (UsageVars.positionalStep (st.tune k0).usageHead.length (st.tune k0).indexMax) (UsageVars.positionalStep st.usageHead.length st.indexMax) _ (fun _ _ _ => rfl)]
    rfl
  have hs : ∀ v, (st.tune k0).sections v = st.sections v := by
    intro v
    unfold State.sections
    simp only
    rw [he, hf (st.tune k0).positionalRow st.positionalRow _ (fun _ _ _ => rfl), hf (st.tune k0).optionRow st.optionRow _ (fun _ _ _ => rfl)]
  unfold State.getUsage
  rw [hu]
  simp only
  rw [hs]
  rfl


/-! ### Other calls -/

theorem flag (s : State D) (ref : Nat) (f : Str) : (s.tune k0).flag ref f = out k0 (s.flag ref f) := by
  unfold State.flag
  refine withRef s ref _ _ fun t _ => ?_
  show (if t.arg.isPositional then _ else _) = _
  split
  · rfl
  · split
    · rfl
    · show (if s.argumentExists f then _ else _) = _
      split
      · rfl
      · simp only
        show State.sortArguments { (s.tune k0).modNode t.node _ with byName := _ } = _
        rw [modNode s t.node (g := fun a => { a with names := sortNames (a.names ++ [f]) }) (fun _ => rfl), ← sortArguments]
        rfl

theorem nargs (s : State D) (ref n : Nat) : (s.tune k0).nargs ref n = out k0 (s.nargs ref n) := by
  unfold State.nargs
  exact withRef s ref _ _ fun t _ => retype s t { t.arg with nargs := n }

theorem setDefaults (s : State D) (ref : Nat) (ds : List Str) : (s.tune k0).setDefaults ref ds = out k0 (s.setDefaults ref ds) := by
  unfold State.setDefaults
  refine withRef s ref _ _ fun t _ => ?_
  simp only
  have e := defaultsConstructor (p := k0 t.node) { t.arg with defaults := ds }
  rw [show ({ (t.tune k0).arg with defaults := ds } : Argument D) = Argument.tune (k0 t.node) { t.arg with defaults := ds } from rfl, e]
  show ((s.tune k0).modNode t.node _, _) = _
  rw [modNode s t.node (g := fun _ => (Argument.defaultsConstructor { t.arg with defaults := ds }).1) (fun _ => rfl)]
  rfl

theorem required (s : State D) (ref : Nat) (b : Bool) : (s.tune k0).required ref b = out k0 (s.required ref b) := by
  unfold State.required
  refine withRef s ref _ _ fun t _ => ?_
  show ((s.tune k0).modNode t.node _).sortArguments = _
  rw [modNode s t.node (g := fun a => { a with isRequired := b }) (fun _ => rfl), sortArguments]

theorem tail (ns : List Str) (ih : ∀ s : State D, State.removeLoop ns (s.tune k0) = out k0 (State.removeLoop ns s))
    (node : Nat) (t : Slot D) (w : State D) : Move.rmTail ns node (t.tune k0) (w.tune k0) = out k0 (Move.rmTail ns node t w) := by
  unfold Move.rmTail
  show (if w.byName.any (fun p => p.2 == node) then _ else _) = _
  split
  · rw [modNode w node (g := fun a => { a with names := sortNames a.names }) (fun _ => rfl), ih]
  · have e3 : (if (w.tune k0).helpOption == some (t.tune k0).obj then { (w.tune k0) with helpOption := none }
        else if (w.tune k0).versionOption == some (t.tune k0).obj then { (w.tune k0) with versionOption := none } else (w.tune k0)) =
        (if w.helpOption == some t.obj then { w with helpOption := none }
        else if w.versionOption == some t.obj then { w with versionOption := none } else w : State D).tune k0 := by
      show (if w.helpOption == some t.obj then _ else if w.versionOption == some t.obj then _ else _) = _
      split
      · rfl
      · split <;> rfl
    simp only
    rw [e3]
    generalize (if w.helpOption == some t.obj then { w with helpOption := none }
        else if w.versionOption == some t.obj then { w with versionOption := none } else w) = x
    rw [← ih]
    congr 1
    have e4 : (x.arguments.map (Slot.tune k0)).filter (fun y => !(y.node == node)) =
        (x.arguments.filter (fun y => !(y.node == node))).map (Slot.tune k0) := by
      rw [List.filter_map]
      rfl
    show ({ (x.tune k0) with
      freedObjs := x.freedObjs ++ [t.obj]
      freedValids := x.freedValids ++ (t.tune k0).arg.ownedValid
      arguments := (x.arguments.map (Slot.tune k0)).filter (fun y => !(y.node == node)) } : State D) = _
    rw [e4, show (t.tune k0).arg.ownedValid = t.arg.ownedValid from ownedValid _ _]
    rfl

theorem removeLoop (ns : List Str) (s : State D) : State.removeLoop ns (s.tune k0) = out k0 (State.removeLoop ns s) := by
  induction ns generalizing s with
  | nil => rfl
  | cons n ns ih =>
    rw [Move.removeLoop_eq, Move.removeLoop_eq]
    rw [show lookupName (s.tune k0).byName n = lookupName s.byName n from rfl]
    cases h1 : lookupName s.byName n with
    | none => rfl
    | some node =>
      simp only
      rw [atNode]
      cases h2 : s.atNode node with
      | none => rfl
      | some t =>
        simp only [Option.map_some]
        rw [show (t.tune k0).arg.names = t.arg.names from rfl]
        split
        · rw [modNode s node (g := fun a => { a with names := a.names.erase n }) (fun _ => rfl), ← tail ns ih]
          rfl
        · rfl

theorem removeArguments (s : State D) (ns : List Str) : (s.tune k0).removeArguments ns = out k0 (s.removeArguments ns) := by
  unfold State.removeArguments
  rw [show (s.tune k0).byName = s.byName from rfl]
  split
  · rfl
  · split
    · rfl
    · rw [removeLoop]
      generalize State.removeLoop ns s = x
      obtain ⟨y, res⟩ := x
      cases res with
      | ok u => exact sortArguments y
      | _ => rfl


end Tune
end BletArgs
