import Verif.Lemmas.Move
import Verif.Spec.Texts
/-
The texts shown by the usage have no influence on anything else: a state in which they are all erased behaves in the
same way, except for the text of the usage.
-/
namespace BletArgs
open Spec
variable {D : Type}

theorem Argument.bare_bare (a : Argument D) : a.bare.bare = a.bare := rfl

theorem State.bare_bare (st : State D) : st.bare.bare = st.bare := by
  unfold State.bare
  simp only [List.map_map]
  rfl

namespace Bare

/-- The corresponding outcome: same result. -/
def out {α : Type} (x : State D × Res α) : State D × Res α := (x.1.bare, x.2)

/-! ### One argument -/

theorem typeConstructor (a : Argument D) (o : Nat) (h v : Option Nat) :
    a.bare.typeConstructor o h v = ((a.typeConstructor o h v).1.bare, (a.typeConstructor o h v).2) := by
  rw [typeConstructor_core, typeConstructor_core]
  show (tcCore a.isPositional a.action a.nargs _ _).apply _ _ _ _ = _
  cases tcCore a.isPositional a.action a.nargs (h == none || h == some o) (v == none || v == some o) <;> rfl

theorem defaultsConstructor (a : Argument D) :
    a.bare.defaultsConstructor = (a.defaultsConstructor.1.bare, a.defaultsConstructor.2) := by
  unfold Argument.defaultsConstructor
  simp only [show a.bare.nargs = a.nargs from rfl, show a.bare.defaults = a.defaults from rfl,
    show a.bare.type = a.type from rfl]
  generalize (decide (a.nargs > 0) && decide (a.defaults.length > 0)) = c0
  generalize (a.defaults.length != a.nargs) = c1
  generalize (a.defaults.length % a.nargs != 0) = c2
  generalize a.type = t
  cases c0
  · rfl
  · cases t <;> cases c1 <;> cases c2 <;> rfl

theorem reset (a : Argument D) : a.bare.reset = a.reset.bare := rfl

theorem toNumber (scan : Str → Option D) (a : Argument D) : a.bare.toNumber scan = (a.toNumber scan).bare := by
  unfold Argument.toNumber
  simp only [show a.bare.type = a.type from rfl, show a.bare.elems = a.elems from rfl]
  generalize (a.type == Ty.boolean || a.type == Ty.reverse) = c0
  generalize a.elems.isEmpty = c1
  cases c0 <;> cases c1 <;> rfl

theorem toDest (a : Argument D) : a.bare.toDest = a.toDest := rfl

theorem runValid (a : Argument D) : a.bare.runValid = (a.runValid.1.bare, a.runValid.2) := by
  unfold Argument.runValid
  simp only [show a.bare.type = a.type from rfl, show a.bare.valid = a.valid from rfl,
    show a.bare.isExist = a.isExist from rfl, show a.bare.toVector = a.toVector from rfl]
  cases a.valid with
  | none => rfl
  | some v =>
    simp only
    cases a.isExist with
    | false => rfl
    | true =>
      simp only [if_true]
      cases v.check (a.toVector.getD []) with
      | accept args =>
        simp only
        cases a.type <;> first | rfl | (cases args <;> rfl)
      | _ => rfl

theorem finish (scan : Str → Option D) (a : Argument D) :
    a.bare.finish scan = ((a.finish scan).1.bare, (a.finish scan).2) := by
  unfold Argument.finish
  rw [runValid]
  generalize a.runValid = x
  obtain ⟨b, res⟩ := x
  cases res with
  | ok u => simp only; rw [toNumber, toDest]
  | _ => rfl

theorem parseArgument (stop : Str → Bool) (argv : List Str) (max index : Nat) (b : Bool) (o w : Str) (a : Argument D) :
    a.bare.parseArgument stop argv max index b o w =
      ((a.parseArgument stop argv max index b o w).1.bare, (a.parseArgument stop argv max index b o w).2) := by
  unfold Argument.parseArgument
  have ec : a.bare.clearIfFirst = a.clearIfFirst.bare := by
    unfold Argument.clearIfFirst
    rw [show a.bare.isExist = a.isExist from rfl]
    cases a.isExist <;> rfl
  have en : a.clearIfFirst.nargs = a.nargs := by unfold Argument.clearIfFirst; split <;> rfl
  have en' : a.clearIfFirst.bare.nargs = a.nargs := en
  have et : a.bare.type = a.type := rfl
  have em : a.bare.nargs = a.nargs := rfl
  simp only [ec, et, en, en', em]
  generalize a.clearIfFirst = c
  generalize decide (index + 1 ≥ max) = c1
  cases b with
  | true => cases a.type <;> rfl
  | false =>
    simp only [Bool.false_eq_true, if_false]
    cases a.type <;> simp only <;> first
      | rfl
      | (generalize scanInfinite stop argv _ _ = x; cases x <;> rfl)
      | (generalize scanGroups stop argv _ _ _ _ = x; obtain ⟨gs, e⟩ := x; cases e <;> rfl)
      | (by_cases h : index + 1 ≥ max
         · simp only [h, if_true]
         · simp only [h, if_false]; cases argv[index + 1]? <;> rfl)
      | (by_cases h : (index + a.nargs) % two64 ≥ max
         · simp only [h, if_true] <;> rfl
         · simp only [h, if_false]; generalize readRange argv _ _ = x; cases x <;> rfl)

theorem parsePositional (stop : Str → Bool) (argv : List Str) (argc index : Nat) (a : Argument D) :
    a.bare.parsePositional stop argv argc index =
      ((a.parsePositional stop argv argc index).1.bare, (a.parsePositional stop argv argc index).2) := by
  unfold Argument.parsePositional
  have et : a.bare.type = a.type := rfl
  have em : a.bare.nargs = a.nargs := rfl
  have ef : a.bare.front = a.front := rfl
  simp only [et, em, ef]
  cases a.type <;> simp only <;> first
    | rfl
    | (cases argv[index]? <;> rfl)
    | (by_cases h : (index + a.nargs) % two64 > argc
       · simp only [h, if_true]
       · simp only [h, if_false]; generalize readRange argv _ _ = x; cases x <;> rfl)
    | (generalize scanInfinite stop argv _ _ = x; cases x <;> rfl)
    | (generalize scanGroups stop argv _ _ _ _ = x; obtain ⟨gs, e⟩ := x; cases e <;> rfl)

/-! ### The registry -/

theorem atNode (s : State D) (n : Nat) : s.bare.atNode n = (s.atNode n).map Slot.bare := by
  unfold State.atNode
  show List.find? _ (s.arguments.map Slot.bare) = _
  rw [List.find?_map]
  rfl

theorem atObj (s : State D) (n : Nat) : s.bare.atObj n = (s.atObj n).map Slot.bare := by
  unfold State.atObj
  show List.find? _ (s.arguments.map Slot.bare) = _
  rw [List.find?_map]
  rfl

theorem modNode (s : State D) (n : Nat) {f g : Argument D → Argument D} (h : ∀ a, f a.bare = (g a).bare) :
    s.bare.modNode n f = (s.modNode n g).bare := by
  unfold State.modNode
  have e : (s.arguments.map Slot.bare).map (fun t => if t.node == n then { t with arg := f t.arg } else t) =
      (s.arguments.map fun t => if t.node == n then { t with arg := g t.arg } else t).map Slot.bare := by
    rw [List.map_map, List.map_map]
    refine List.map_congr_left fun t _ => ?_
    simp only [Function.comp_apply, show ∀ u : Slot D, u.bare.node = u.node from fun _ => rfl]
    cases t.node == n with
    | true => exact congrArg (fun a => (⟨t.node, t.obj, a⟩ : Slot D)) (h t.arg)
    | false => rfl
  show ({ s.bare with arguments := (s.arguments.map Slot.bare).map _ } : State D) = _
  rw [e]
  rfl

theorem modBare (s : State D) (n : Nat) {f : Argument D → Argument D} (h : ∀ a, (f a).bare = a.bare) :
    (s.modNode n f).bare = s.bare := by
  unfold State.modNode State.bare
  simp only [List.map_map]
  congr 1
  refine List.map_congr_left fun t _ => ?_
  simp only [Function.comp_apply]
  cases t.node == n with
  | true => exact congrArg (fun a => (⟨t.node, t.obj, a⟩ : Slot D)) (h t.arg)
  | false => rfl

theorem sortArguments (s : State D) : s.bare.sortArguments = out s.sortArguments := by
  unfold State.sortArguments
  have e1 : s.bare.arguments = s.arguments.map Slot.bare := rfl
  have e : (s.arguments.map Slot.bare).any (fun s => s.arg.names.isEmpty) = s.arguments.any (fun s => s.arg.names.isEmpty) := by
    rw [List.any_map]; rfl
  rw [e1, e]
  split
  · rfl
  · rw [stableSort_map Slot.bare _ (fun _ _ _ _ => rfl)]
    rfl

theorem linkArgument (s : State D) (a : Argument D) (ha : a.bare = a) : s.bare.linkArgument a = out (s.linkArgument a) := by
  unfold State.linkArgument
  simp only
  have e : ({ s.bare with
      arguments := s.bare.arguments ++ [{ node := s.bare.nextNode, obj := s.bare.nextObj, arg := a }]
      byName := a.names.foldl (fun m n => insertName m n s.bare.nextNode) s.bare.byName
      nextNode := s.bare.nextNode + 1
      nextObj := s.bare.nextObj + 1 } : State D) = State.bare { s with
      arguments := s.arguments ++ [{ node := s.nextNode, obj := s.nextObj, arg := a }]
      byName := a.names.foldl (fun m n => insertName m n s.nextNode) s.byName
      nextNode := s.nextNode + 1
      nextObj := s.nextObj + 1 } := by
    simp [State.bare, Slot.bare, ha]
  rw [e, sortArguments]
  generalize State.sortArguments _ = x
  obtain ⟨y, res⟩ := x
  cases res <;> rfl

theorem addArgument (s : State D) (nof : List Str) : s.bare.addArgument nof = out (s.addArgument nof) := by
  unfold State.addArgument
  cases nof with
  | nil => rfl
  | cons f rest =>
    simp only [show s.bare.byName = s.byName from rfl]
    split
    · split
      · rfl
      · split
        · rfl
        · exact linkArgument s _ rfl
    · split
      · rfl
      · exact linkArgument s _ rfl

theorem withRef (s : State D) {α : Type} (ref : Nat) (f g : Slot D → State D × Res α)
    (h : ∀ t, s.atObj ref = some t → g t.bare = out (f t)) : s.bare.withRef ref g = out (s.withRef ref f) := by
  unfold State.withRef
  rw [atObj]
  cases e : s.atObj ref with
  | none => rfl
  | some t => exact h t e

theorem flag (s : State D) (ref : Nat) (f : Str) : s.bare.flag ref f = out (s.flag ref f) := by
  unfold State.flag
  refine withRef s ref _ _ fun t _ => ?_
  show (if t.arg.isPositional then _ else _) = _
  split
  · rfl
  · split
    · rfl
    · show (if s.argumentExists f then _ else _) = _
      split
      · rfl
      · simp only
        show State.sortArguments { s.bare.modNode t.node _ with byName := _ } = _
        rw [modNode s t.node (g := fun a => { a with names := sortNames (a.names ++ [f]) }) (fun _ => rfl), ← sortArguments]
        rfl

theorem retype (s : State D) (t : Slot D) (a : Argument D) : s.bare.retype t.bare a.bare = out (s.retype t a) := by
  unfold State.retype
  rw [show a.bare.typeConstructor t.bare.obj s.bare.helpOption s.bare.versionOption =
    a.bare.typeConstructor t.obj s.helpOption s.versionOption from rfl, typeConstructor]
  generalize a.typeConstructor t.obj s.helpOption s.versionOption = x
  obtain ⟨a1, h, v, res⟩ := x
  have em : ∀ b : Argument D, ({ s.bare with helpOption := h, versionOption := v } : State D).modNode t.bare.node (fun _ => b.bare) =
      (State.modNode { s with helpOption := h, versionOption := v } t.node (fun _ => b)).bare := fun b =>
    modNode { s with helpOption := h, versionOption := v } t.node (fun _ => rfl)
  cases res with
  | ok u => simp only; rw [defaultsConstructor, em]; rfl
  | throw e => simp only; rw [em]; rfl
  | exit e => simp only; rw [em]; rfl
  | ub e => simp only; rw [em]; rfl
  | diverge => simp only; rw [em]; rfl

theorem action (s : State D) (ref : Nat) (act : Action) : s.bare.action ref act = out (s.action ref act) := by
  unfold State.action
  refine withRef s ref _ _ fun t _ => ?_
  simp only
  rw [← retype]
  congr 1
  have e1 : (if t.arg.action == .help then { s.bare with helpOption := none } else s.bare) =
      (if t.arg.action == .help then { s with helpOption := none } else s : State D).bare := by
    split <;> rfl
  have e2 : t.bare.arg.action = t.arg.action := rfl
  rw [e2, e1]
  generalize (if t.arg.action == .help then { s with helpOption := none } else s) = u
  split <;> rfl

theorem nargs (s : State D) (ref n : Nat) : s.bare.nargs ref n = out (s.nargs ref n) := by
  unfold State.nargs
  exact withRef s ref _ _ fun t _ => retype s t { t.arg with nargs := n }

theorem setDefaults (s : State D) (ref : Nat) (ds : List Str) : s.bare.setDefaults ref ds = out (s.setDefaults ref ds) := by
  unfold State.setDefaults
  refine withRef s ref _ _ fun t _ => ?_
  simp only
  have e := defaultsConstructor { t.arg with defaults := ds }
  rw [show ({ t.bare.arg with defaults := ds } : Argument D) = Argument.bare { t.arg with defaults := ds } from rfl, e]
  show (s.bare.modNode t.node _, _) = _
  rw [modNode s t.node (g := fun _ => (Argument.defaultsConstructor { t.arg with defaults := ds }).1) (fun _ => rfl)]
  rfl

theorem required (s : State D) (ref : Nat) (b : Bool) : s.bare.required ref b = out (s.required ref b) := by
  unfold State.required
  refine withRef s ref _ _ fun t _ => ?_
  show (s.bare.modNode t.node _).sortArguments = _
  rw [modNode s t.node (g := fun a => { a with isRequired := b }) (fun _ => rfl), sortArguments]

theorem setValid (s : State D) (ref : Nat) (v : Option Validator) (d : Bool) :
    s.bare.setValid ref v d = out (s.setValid ref v d) := by
  unfold State.setValid
  refine withRef s ref _ _ fun t _ => ?_
  have e : ({ s.bare with freedValids := s.bare.freedValids ++ t.bare.arg.ownedValid } : State D) =
      State.bare { s with freedValids := s.freedValids ++ t.arg.ownedValid } := rfl
  rw [e]
  refine Prod.ext ?_ rfl
  exact modNode _ t.node (f := fun a => { a with valid := v, validDeletable := d }) (fun _ => rfl)

theorem setDest (s : State D) (ref : Nat) (d : Dest) : s.bare.setDest ref d = out (s.setDest ref d) := by
  unfold State.setDest
  refine withRef s ref _ _ fun t _ => ?_
  have e : (s.arguments.map Slot.bare).map (fun x => if x.node == t.node then
        { x with obj := s.nextObj, arg := { x.arg with defaults := [], dest := some d } } else x) =
      (s.arguments.map fun x => if x.node == t.node then
        { x with obj := s.nextObj, arg := { x.arg with defaults := [], dest := some d } } else x).map Slot.bare := by
    rw [List.map_map, List.map_map]
    refine List.map_congr_left fun x _ => ?_
    simp only [Function.comp_apply, show ∀ u : Slot D, u.bare.node = u.node from fun _ => rfl]
    cases x.node == t.node <;> rfl
  refine Prod.ext ?_ rfl
  show ({ s.bare with
      arguments := (s.arguments.map Slot.bare).map fun x => if x.node == t.node then
        { x with obj := s.nextObj, arg := { x.arg with defaults := [], dest := some d } } else x
      nextObj := s.nextObj + 1
      freedObjs := s.freedObjs ++ [t.obj] } : State D) = _
  rw [e]
  rfl

theorem tail (ns : List Str) (ih : ∀ s : State D, State.removeLoop ns s.bare = out (State.removeLoop ns s))
    (node : Nat) (t : Slot D) (w : State D) : Move.rmTail ns node t.bare w.bare = out (Move.rmTail ns node t w) := by
  unfold Move.rmTail
  show (if w.byName.any (fun p => p.2 == node) then _ else _) = _
  split
  · rw [modNode w node (g := fun a => { a with names := sortNames a.names }) (fun _ => rfl), ih]
  · have e3 : (if w.bare.helpOption == some t.bare.obj then { w.bare with helpOption := none }
        else if w.bare.versionOption == some t.bare.obj then { w.bare with versionOption := none } else w.bare) =
        (if w.helpOption == some t.obj then { w with helpOption := none }
        else if w.versionOption == some t.obj then { w with versionOption := none } else w : State D).bare := by
      show (if w.helpOption == some t.obj then _ else if w.versionOption == some t.obj then _ else _) = _
      split
      · rfl
      · split <;> rfl
    simp only
    rw [e3]
    generalize (if w.helpOption == some t.obj then { w with helpOption := none }
        else if w.versionOption == some t.obj then { w with versionOption := none } else w) = x
    rw [← ih]
    congr 1
    have e4 : (x.arguments.map Slot.bare).filter (fun y => !(y.node == node)) =
        (x.arguments.filter (fun y => !(y.node == node))).map Slot.bare := by
      rw [List.filter_map]
      rfl
    show ({ x.bare with
      freedObjs := x.freedObjs ++ [t.obj]
      freedValids := x.freedValids ++ t.arg.ownedValid
      arguments := (x.arguments.map Slot.bare).filter (fun y => !(y.node == node)) } : State D) = _
    rw [e4]
    rfl

theorem removeLoop (ns : List Str) (s : State D) : State.removeLoop ns s.bare = out (State.removeLoop ns s) := by
  induction ns generalizing s with
  | nil => rfl
  | cons n ns ih =>
    rw [Move.removeLoop_eq, Move.removeLoop_eq]
    rw [show lookupName s.bare.byName n = lookupName s.byName n from rfl]
    cases h1 : lookupName s.byName n with
    | none => rfl
    | some node =>
      simp only
      rw [atNode]
      cases h2 : s.atNode node with
      | none => rfl
      | some t =>
        simp only [Option.map_some]
        rw [show t.bare.arg.names = t.arg.names from rfl]
        split
        · rw [modNode s node (g := fun a => { a with names := a.names.erase n }) (fun _ => rfl), ← tail ns ih]
          rfl
        · rfl

theorem removeArguments (s : State D) (ns : List Str) : s.bare.removeArguments ns = out (s.removeArguments ns) := by
  unfold State.removeArguments
  rw [show s.bare.byName = s.byName from rfl]
  split
  · rfl
  · split
    · rfl
    · rw [removeLoop]
      generalize State.removeLoop ns s = x
      obtain ⟨y, res⟩ := x
      cases res with
      | ok u => exact sortArguments y
      | _ => rfl

theorem clear (s : State D) : s.bare.clear = s.clear.bare := by
  unfold State.clear State.deleteAll
  have e1 : (s.arguments.map Slot.bare).map (·.obj) = s.arguments.map (·.obj) := by
    rw [List.map_map]; rfl
  have e2 : (s.arguments.map Slot.bare).flatMap (fun s => s.arg.ownedValid) = s.arguments.flatMap (fun s => s.arg.ownedValid) := by
    rw [List.flatMap_map]; rfl
  simp only [State.bare] at *
  rw [e1, e2]
  rfl

/-! ### Parsing -/

theorem typeOf (s : State D) (n : Str) : s.bare.typeOf n = s.typeOf n := by
  unfold State.typeOf
  rw [show lookupName s.bare.byName n = lookupName s.byName n from rfl]
  cases lookupName s.byName n with
  | none => rfl
  | some k =>
    simp only
    rw [atNode, Option.map_map]
    rfl

theorem endOfClusters (s : State D) (b : Bool) (cs : List Char) : s.bare.endOfClusters b cs = s.endOfClusters b cs := by
  induction cs with
  | nil => rfl
  | cons c cs ih =>
    cases cs with
    | nil => rfl
    | cons c2 cs => unfold State.endOfClusters; rw [typeOf, ih]

theorem endOfInfinite (s : State D) : s.bare.endOfInfinite = s.endOfInfinite := by
  funext tok
  unfold State.endOfInfinite
  simp only [endOfClusters]
  rfl

theorem parseAt (s : State D) (argv : List Str) (max index : Nat) (b : Bool) (o a : Str) (n : Nat) :
    s.bare.parseAt argv max index b o a n = out (s.parseAt argv max index b o a n) := by
  unfold State.parseAt
  rw [atNode, endOfInfinite]
  cases s.atNode n with
  | none => rfl
  | some t =>
    simp only [Option.map_some]
    rw [show t.bare.arg = t.arg.bare from rfl, parseArgument]
    generalize t.arg.parseArgument s.endOfInfinite argv max index b o a = x
    refine Prod.ext ?_ rfl
    exact modNode s n (f := fun _ => x.1.bare) (g := fun _ => x.1) (fun _ => rfl)

theorem mark (s : State D) (n : Nat) : s.bare.modNode n Argument.mark = (s.modNode n Argument.mark).bare :=
  modNode s n fun _ => rfl

theorem parseCluster (argv : List Str) (max index : Nat) (b : Bool) (a : Str) (cs : List Char) (s : State D) :
    State.parseCluster argv max index b a cs s.bare = out (State.parseCluster argv max index b a cs s) := by
  induction cs generalizing s with
  | nil =>
    unfold State.parseCluster
    rw [show lookupName s.bare.byName = lookupName s.byName from rfl]
    cases lookupName s.byName (shortFlag '-') with
    | none => rfl
    | some k => exact parseAt s ..
  | cons c cs ih =>
    cases cs with
    | nil =>
      unfold State.parseCluster
      rw [show lookupName s.bare.byName = lookupName s.byName from rfl]
      cases lookupName s.byName (shortFlag c) with
      | none => rfl
      | some k => exact parseAt s ..
    | cons c2 cs =>
      unfold State.parseCluster
      rw [show lookupName s.bare.byName = lookupName s.byName from rfl]
      cases lookupName s.byName (shortFlag c) with
      | none => rfl
      | some k =>
        simp only
        rw [atNode]
        cases s.atNode k with
        | none => rfl
        | some t =>
          simp only [Option.map_some]
          rw [show t.bare.arg.type = t.arg.type from rfl, mark, parseAt, ih]
          split
          · rfl
          · split <;> rfl

theorem parseShort (s : State D) (argv : List Str) (max index : Nat) (tok : Str) :
    s.bare.parseShort argv max index tok = out (s.parseShort argv max index tok) := by
  unfold State.parseShort
  generalize takeArg tok = x
  obtain ⟨o, a, b⟩ := x
  simp only
  rw [show s.bare.byName = s.byName from rfl, show s.bare.isAlternative = s.isAlternative from rfl]
  cases s.isAlternative with
  | false => exact parseCluster ..
  | true =>
    simp only [if_true]
    cases lookupName s.byName ('-' :: o) with
    | none => exact parseCluster ..
    | some k => exact parseAt s ..

theorem parseLong (s : State D) (argv : List Str) (max index : Nat) (tok : Str) :
    s.bare.parseLong argv max index tok = out (s.parseLong argv max index tok) := by
  unfold State.parseLong
  generalize takeArg tok = x
  obtain ⟨o, a, b⟩ := x
  simp only
  rw [show s.bare.byName = s.byName from rfl]
  cases lookupName s.byName o with
  | none => rfl
  | some k => exact parseAt s ..

theorem nextPositional (s : State D) : s.bare.nextPositional = s.nextPositional.map Slot.bare := by
  unfold State.nextPositional
  show List.find? _ (s.arguments.map Slot.bare) = _
  rw [List.find?_map]
  rfl

theorem parsePositionalTok (s : State D) (argv : List Str) (argc index : Nat) (b : Bool) :
    s.bare.parsePositionalTok argv argc index b = out (s.parsePositionalTok argv argc index b) := by
  unfold State.parsePositionalTok
  rw [nextPositional, endOfInfinite]
  cases s.nextPositional with
  | none =>
    simp only [Option.map_none]
    cases argv[index]? with
    | none => rfl
    | some v =>
      simp only
      rw [show s.bare.isStrict = s.isStrict from rfl]
      split <;> rfl
  | some t =>
    simp only [Option.map_some]
    rw [show t.bare.arg = t.arg.bare from rfl, parsePositional]
    generalize t.arg.parsePositional _ argv argc index = x
    refine Prod.ext ?_ rfl
    exact modNode s t.node (f := fun _ => x.1.bare) (g := fun _ => x.1) (fun _ => rfl)

theorem endLoop (argv : List Str) (f i : Nat) (s : State D) :
    State.endLoop argv f i s.bare = out (State.endLoop argv f i s) := by
  induction f generalizing i s with
  | zero => rfl
  | succ f ih =>
    unfold State.endLoop
    rw [parsePositionalTok]
    split
    · generalize s.parsePositionalTok argv argv.length i true = x
      obtain ⟨u, res⟩ := x
      cases res with
      | ok i1 => exact ih i1 u
      | _ => rfl
    · rfl

theorem mainLoop (argv : List Str) (e f i : Nat) (s : State D) :
    State.mainLoop argv e f i s.bare = out (State.mainLoop argv e f i s) := by
  induction f generalizing i s with
  | zero => rfl
  | succ f ih =>
    have next : ∀ x : State D × Res Nat,
        (match out x with
          | (st1, .ok i1) => State.mainLoop argv e f i1 st1
          | (st1, r) => (st1, r.cast)) =
        out (match x with
          | (st1, .ok i1) => State.mainLoop argv e f i1 st1
          | (st1, r) => (st1, r.cast)) := by
      rintro ⟨u, res⟩
      cases res with
      | ok i1 => exact ih i1 u
      | _ => rfl
    unfold State.mainLoop
    split
    · cases argv[i]? with
      | none => rfl
      | some tok =>
        simp only
        rw [parseShort, parseLong, parsePositionalTok, endLoop]
        split
        · exact next _
        · split
          · exact next _
          · split
            · rfl
            · exact next _
    · rfl

theorem finishAll (scan : Str → Option D) (l : List (Slot D)) :
    BletArgs.finishAll scan (l.map Slot.bare) =
      ((BletArgs.finishAll scan l).1.map Slot.bare, (BletArgs.finishAll scan l).2.1, (BletArgs.finishAll scan l).2.2) := by
  induction l with
  | nil => rfl
  | cons s l ih =>
    rw [List.map_cons]
    unfold BletArgs.finishAll
    rw [ih, show s.bare.arg = s.arg.bare from rfl, finish]
    generalize s.arg.finish scan = x
    obtain ⟨a, w, res⟩ := x
    cases res <;> rfl

theorem firstMissing (l : List (Slot D)) : BletArgs.firstMissing (l.map Slot.bare) = BletArgs.firstMissing l := by
  unfold BletArgs.firstMissing
  rw [List.find?_map, Option.map_map]
  rfl

theorem optionSeen (s : State D) (p : Option Nat) : s.bare.optionSeen p = s.optionSeen p := by
  cases p with
  | none => rfl
  | some o =>
    show (s.bare.atObj o).map _ = _
    rw [atObj, Option.map_map]
    rfl

theorem finishParse (scan : Str → Option D) (s : State D) : s.bare.finishParse scan = out (s.finishParse scan) := by
  unfold State.finishParse
  rw [show s.bare.arguments = s.arguments.map Slot.bare from rfl, firstMissing]
  cases BletArgs.firstMissing s.arguments with
  | some e => rfl
  | none =>
    simp only
    rw [finishAll]
    rfl

/-- The end of a parse: the same, except for the text of the usage. -/
theorem afterLoop (scan : Str → Option D) {s s' : State D} (h : SameButTexts s s') :
    SameButTexts (s.afterLoop scan).1 (s'.afterLoop scan).1 ∧ SameOutcome D (s.afterLoop scan).2 (s'.afterLoop scan).2 := by
  have h' : s'.bare = s.bare := h
  have e1 : s'.helpOption = s.helpOption := (congrArg (fun x : State D => x.helpOption) h' :)
  have e2 : s'.versionOption = s.versionOption := (congrArg (fun x : State D => x.versionOption) h' :)
  have e3 : ∀ p, s'.optionSeen p = s.optionSeen p := fun p => by rw [← optionSeen, h', optionSeen]
  have e4 : s'.isHelpException = s.isHelpException := (congrArg (fun x : State D => x.isHelpException) h' :)
  have e5 : s'.isVersionException = s.isVersionException := (congrArg (fun x : State D => x.isVersionException) h' :)
  have e6 : s'.version = s.version := (congrArg (fun x : State D => x.version) h' :)
  have e7 : out (s'.finishParse scan) = out (s.finishParse scan) := by rw [← finishParse, h', finishParse]
  have e8 : s'.clear.bare = s.clear.bare := by rw [← clear, h', clear]
  unfold State.afterLoop
  rw [e1, e2, e3, e3, e4, e5, e6]
  cases s.optionSeen s.helpOption with
  | none => exact ⟨h, .inl rfl⟩
  | some b =>
    cases b with
    | true =>
      simp only
      cases s.isHelpException with
      | true => exact ⟨h, .inr ⟨s, s', h, .inl ⟨rfl, rfl⟩⟩⟩
      | false => exact ⟨e8, .inr ⟨s, s', h, .inr ⟨rfl, rfl⟩⟩⟩
    | false =>
      simp only
      cases s.optionSeen s.versionOption with
      | none => exact ⟨h, .inl rfl⟩
      | some b =>
        cases b with
        | true =>
          simp only
          cases s.isVersionException with
          | true => exact ⟨h, .inl rfl⟩
          | false => exact ⟨e8, .inl rfl⟩
        | false => exact ⟨congrArg Prod.fst e7, .inl (congrArg Prod.snd e7 :)⟩

theorem resetAll (s : State D) : s.bare.resetAll = s.resetAll.bare := by
  unfold State.resetAll
  have e : (s.arguments.map Slot.bare).map (fun s => { s with arg := s.arg.reset }) =
      (s.arguments.map fun s => { s with arg := s.arg.reset }).map Slot.bare := by
    rw [List.map_map, List.map_map]; rfl
  show ({ s.bare with arguments := (s.arguments.map Slot.bare).map (fun s => { s with arg := s.arg.reset }) } : State D) = _
  rw [e]
  rfl

theorem setHelp (s : State D) (ref : Nat) (h : Str) :
    (s.setHelp ref h).1.bare = s.bare ∧ (s.bare.setHelp ref h).2 = (s.setHelp ref h).2 := by
  unfold State.setHelp State.withRef
  rw [atObj]
  cases s.atObj ref with
  | none => exact ⟨rfl, rfl⟩
  | some t => exact ⟨modBare s t.node (fun _ => rfl), rfl⟩

theorem setMetavar (s : State D) (ref : Nat) (h : Str) :
    (s.setMetavar ref h).1.bare = s.bare ∧ (s.bare.setMetavar ref h).2 = (s.setMetavar ref h).2 := by
  unfold State.setMetavar State.withRef
  rw [atObj]
  cases s.atObj ref with
  | none => exact ⟨rfl, rfl⟩
  | some t => exact ⟨modBare s t.node (fun _ => rfl), rfl⟩

theorem edit (scan : Str → Option D) (s : State D) (ref : Nat) (items : List NewElem) :
    s.bare.edit scan ref items = out (s.edit scan ref items) := by
  unfold State.edit
  refine withRef s ref _ _ fun t _ => ?_
  refine Prod.ext ?_ rfl
  exact modNode _ t.node (f := fun a => { a with elems := items.map (NewElem.elem scan) }) (fun _ => rfl)

theorem behave (s : State D) (ref : Nat) (c : List Str → VRes) (x : DestWrite → Option Exn) :
    s.bare.behave ref c x = out (s.behave ref c x) := by
  unfold State.behave
  refine withRef s ref _ _ fun t _ => ?_
  refine Prod.ext ?_ rfl
  exact modNode _ t.node (f := fun a => a.behaving c x) (fun _ => rfl)

theorem autoHelp (s : State D) : s.bare.autoHelp.1.bare = s.autoHelp.1.bare ∧ s.bare.autoHelp.2 = s.autoHelp.2 := by
  unfold State.autoHelp
  rw [show s.bare.helpOption.isNone = s.helpOption.isNone from rfl]
  simp only [show ∀ n, s.bare.argumentExists n = s.argumentExists n from fun _ => rfl, addArgument]
  split
  · split
    · exact ⟨s.bare_bare, rfl⟩
    · generalize s.addArgument _ = x
      obtain ⟨u, res⟩ := x
      cases res with
      | ok ref =>
        simp only [out]
        rw [action]
        generalize u.action ref .help = y
        obtain ⟨w, res⟩ := y
        cases res with
        | ok _ =>
          simp only [out]
          have h1 := setHelp w ref "show this help message and exit".toList
          have h2 := setHelp w.bare ref "show this help message and exit".toList
          rw [w.bare_bare] at h2
          revert h1 h2
          generalize w.setHelp ref _ = z
          generalize w.bare.setHelp ref _ = z'
          obtain ⟨z, res⟩ := z
          obtain ⟨z', res'⟩ := z'
          rintro ⟨h1, rfl : res' = res⟩ ⟨h2, -⟩
          have : z'.bare = z.bare := by rw [show z'.bare = w.bare from h2, show z.bare = w.bare from h1]
          cases res' <;> exact ⟨this, rfl⟩
        | _ => exact ⟨State.bare_bare _, rfl⟩
      | _ => exact ⟨State.bare_bare _, rfl⟩
  · exact ⟨s.bare_bare, rfl⟩

theorem setBinary (s : State D) (argv : List Str) : s.bare.setBinaryIfEmpty argv = out (s.setBinaryIfEmpty argv) := by
  unfold State.setBinaryIfEmpty
  rw [show s.bare.binaryName = s.binaryName from rfl]
  split
  · cases argv[0]? <;> rfl
  · rfl

/-- A function of the parser that commutes with erasing the texts does the same on parsers that differ in them only. -/
theorem lift {α : Type} {f : State D → State D × Res α} (hf : ∀ s, f s.bare = out (f s)) {s s' : State D}
    (h : SameButTexts s s') : SameButTexts (f s).1 (f s').1 ∧ (f s').2 = (f s).2 := by
  have e : out (f s') = out (f s) := by rw [← hf, ← hf, show s'.bare = s.bare from h]
  exact ⟨(congrArg Prod.fst e :), (congrArg Prod.snd e :)⟩

theorem autoHelp' {s s' : State D} (h : SameButTexts s s') :
    SameButTexts s.autoHelp.1 s'.autoHelp.1 ∧ s'.autoHelp.2 = s.autoHelp.2 := by
  have a := autoHelp s
  have a' := autoHelp s'
  rw [show s'.bare = s.bare from h] at a'
  exact ⟨by show _ = _; rw [← a'.1, a.1], by rw [← a'.2, a.2]⟩

theorem parse (scan : Str → Option D) {s s' : State D} (argv : List Str) (h : SameButTexts s s') :
    SameButTexts (s.parseArguments scan argv).1 (s'.parseArguments scan argv).1 ∧
    SameOutcome D (s.parseArguments scan argv).2 (s'.parseArguments scan argv).2 := by
  unfold State.parseArguments
  have hr : SameButTexts s.resetAll s'.resetAll := by
    show _ = _; rw [← resetAll, ← resetAll, show s'.bare = s.bare from h]
  have ha := autoHelp' hr
  revert ha
  generalize s.resetAll.autoHelp = x
  generalize s'.resetAll.autoHelp = x'
  obtain ⟨u, res⟩ := x
  obtain ⟨u', res'⟩ := x'
  rintro ⟨h1, rfl : res' = res⟩
  cases res' with
  | ok b =>
    cases b with
    | false => exact ⟨h1, .inl rfl⟩
    | true =>
      simp only
      have hb := lift (f := fun s => s.setBinaryIfEmpty argv) (fun s => setBinary s argv) h1
      revert hb
      generalize u.setBinaryIfEmpty argv = y
      generalize u'.setBinaryIfEmpty argv = y'
      obtain ⟨w, res⟩ := y
      obtain ⟨w', res'⟩ := y'
      rintro ⟨h2, rfl : res' = res⟩
      cases res' with
      | ok _ =>
        simp only
        have el : w'.loopBudget argv = w.loopBudget argv := by
          have e : (w'.arguments.map Slot.bare).length = (w.arguments.map Slot.bare).length :=
            (congrArg (fun x : State D => x.arguments.length) h2 :)
          rw [List.length_map, List.length_map] at e
          unfold State.loopBudget
          rw [e]
        rw [el]
        have hm := lift (f := State.mainLoop argv (endOptionIndex argv) (w.loopBudget argv) 1) (fun s => mainLoop argv (endOptionIndex argv) (w.loopBudget argv) 1 s) h2
        revert hm
        generalize State.mainLoop _ _ _ _ w = z
        generalize State.mainLoop _ _ _ _ w' = z'
        obtain ⟨z, res⟩ := z
        obtain ⟨z', res'⟩ := z'
        rintro ⟨h3, rfl : res' = res⟩
        cases res' with
        | ok _ => exact afterLoop scan h3
        | _ => exact ⟨h3, .inl rfl⟩
      | _ => exact ⟨h2, .inl rfl⟩
  | _ => exact ⟨h1, .inl rfl⟩

/-- Every call does the same on parsers that differ in the texts of the usage only. -/
theorem step (scan : Str → Option D) {s s' : State D} (op : Op) (h : SameButTexts s s') :
    SameButTexts (BletArgs.step scan s op).1 (BletArgs.step scan s' op).1 ∧
    SameOutcome D (BletArgs.step scan s op).2 (BletArgs.step scan s' op).2 := by
  have exact' : ∀ {α : Type} {f : State D → State D × Res α}, (∀ s, f s.bare = out (f s)) →
      SameButTexts (f s).1 (f s').1 ∧ SameOutcome D (f s).2.void (f s').2.void := by
    intro α f hf
    obtain ⟨h1, h2⟩ := lift hf h
    exact ⟨h1, .inl (congrArg Res.void h2)⟩
  have unit : ∀ {f : State D → State D × Res Unit}, (∀ s, f s.bare = out (f s)) →
      SameButTexts (f s).1 (f s').1 ∧ SameOutcome D (f s).2 (f s').2 := by
    intro f hf
    obtain ⟨h1, h2⟩ := lift hf h
    exact ⟨h1, .inl h2⟩
  have hb : s'.bare = s.bare := h
  cases op with
  | add ns => exact exact' (f := fun s => s.addArgument ns) fun s => addArgument s ns
  | dest ref d => exact exact' (f := fun s => s.setDest ref d) fun s => setDest s ref d
  | remove ns => exact unit (f := fun s => s.removeArguments ns) fun s => removeArguments s ns
  | clear => exact unit (f := fun s => (s.clear, .ok ())) fun s => Prod.ext (clear s) rfl
  | flag ref f => exact unit (f := fun s => s.flag ref f) fun s => flag s ref f
  | action ref a => exact unit (f := fun s => s.action ref a) fun s => action s ref a
  | nargs ref n => exact unit (f := fun s => s.nargs ref n) fun s => nargs s ref n
  | defaults ref ds => exact unit (f := fun s => s.setDefaults ref ds) fun s => setDefaults s ref ds
  | required ref b => exact unit (f := fun s => s.required ref b) fun s => required s ref b
  | valid ref v d => exact unit (f := fun s => s.setValid ref v d) fun s => setValid s ref v d
  | edit ref items => exact unit (f := fun s => s.edit scan ref items) fun s => edit scan s ref items
  | behave ref c x => exact unit (f := fun s => s.behave ref c x) fun s => behave s ref c x
  | help ref x =>
    have a := setHelp s ref x
    have a' := setHelp s' ref x
    rw [hb] at a'
    exact ⟨by show (s'.setHelp ref x).1.bare = (s.setHelp ref x).1.bare; rw [a'.1, a.1],
      .inl (by show (s'.setHelp ref x).2 = (s.setHelp ref x).2; rw [← a'.2, a.2])⟩
  | metavar ref x =>
    have a := setMetavar s ref x
    have a' := setMetavar s' ref x
    rw [hb] at a'
    exact ⟨by show (s'.setMetavar ref x).1.bare = (s.setMetavar ref x).1.bare; rw [a'.1, a.1],
      .inl (by show (s'.setMetavar ref x).2 = (s.setMetavar ref x).2; rw [← a'.2, a.2])⟩
  | parse argv => exact parse scan argv h
  | setBinaryName x => exact unit (f := fun s => ({ s with binaryName := x }, .ok ())) fun s => rfl
  | setVersion x => exact unit (f := fun s => ({ s with version := x }, .ok ())) fun s => rfl
  | setAlternative x => exact unit (f := fun s => ({ s with isAlternative := x }, .ok ())) fun s => rfl
  | setStrict x => exact unit (f := fun s => ({ s with isStrict := x }, .ok ())) fun s => rfl
  | setHelpException x => exact unit (f := fun s => ({ s with isHelpException := x }, .ok ())) fun s => rfl
  | setVersionException x => exact unit (f := fun s => ({ s with isVersionException := x }, .ok ())) fun s => rfl
  | setUsage x => exact ⟨h, .inl rfl⟩
  | setDescription x => exact ⟨h, .inl rfl⟩
  | setEpilog x => exact ⟨h, .inl rfl⟩
  | setUsageWidth p a w x => exact ⟨h, .inl rfl⟩

/-- A call that concerns the usage changes nothing else. -/
theorem text (scan : Str → Option D) (s : State D) {op : Op} (h : Op.isText op = true) :
    SameButTexts s (BletArgs.step scan s op).1 := by
  cases op with
  | help ref x => exact (setHelp s ref x).1
  | metavar ref x => exact (setMetavar s ref x).1
  | setUsage x => rfl
  | setDescription x => rfl
  | setEpilog x => rfl
  | setUsageWidth p a w x => rfl
  | _ => exact Bool.noConfusion h

end Bare
end BletArgs
