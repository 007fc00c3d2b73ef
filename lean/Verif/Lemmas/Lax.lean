import Verif.Lemmas.Move
import Verif.Lemmas.Aim
import Verif.Spec.Lax
/-
The validators have no influence on what is done before they are called.
-/
namespace BletArgs
open Spec
variable {D : Type}

namespace Lax

/-- The corresponding outcome: same result. -/
def out {α : Type} (x : State D × Res α) : State D × Res α := (x.1.lax, x.2)

/-! ### One argument -/

theorem typeConstructor (a : Argument D) (o : Nat) (h v : Option Nat) :
    (a.lax).typeConstructor o h v = ((((a.typeConstructor o h v).1).lax), (a.typeConstructor o h v).2) := by
  rw [typeConstructor_core, typeConstructor_core]
  show (tcCore a.isPositional a.action a.nargs _ _).apply _ _ _ _ = _
  cases tcCore a.isPositional a.action a.nargs (h == none || h == some o) (v == none || v == some o) <;> rfl

theorem defaultsConstructor (a : Argument D) :
    (a.lax).defaultsConstructor = ((a.defaultsConstructor.1.lax), a.defaultsConstructor.2) := by
  unfold Argument.defaultsConstructor
  simp only [show (a.lax).nargs = a.nargs from rfl, show (a.lax).defaults = a.defaults from rfl,
    show (a.lax).type = a.type from rfl]
  generalize (decide (a.nargs > 0) && decide (a.defaults.length > 0)) = c0
  generalize (a.defaults.length != a.nargs) = c1
  generalize (a.defaults.length % a.nargs != 0) = c2
  generalize a.type = t
  cases c0
  · rfl
  · cases t <;> cases c1 <;> cases c2 <;> rfl

theorem reset (a : Argument D) : (a.lax).reset = (a.reset.lax) := rfl

theorem toNumber (scan : Str → Option D) (a : Argument D) : (a.lax).toNumber scan = ((a.toNumber scan).lax) := by
  unfold Argument.toNumber
  simp only [show (a.lax).type = a.type from rfl, show (a.lax).elems = a.elems from rfl]
  generalize (a.type == Ty.boolean || a.type == Ty.reverse) = c0
  generalize a.elems.isEmpty = c1
  cases c0 <;> cases c1 <;> rfl

theorem parseArgument (stop : Str → Bool) (argv : List Str) (max index : Nat) (b : Bool) (o w : Str) (a : Argument D) :
    (a.lax).parseArgument stop argv max index b o w =
      ((((a.parseArgument stop argv max index b o w).1).lax), (a.parseArgument stop argv max index b o w).2) := by
  unfold Argument.parseArgument
  have ec : (a.lax).clearIfFirst = (a.clearIfFirst.lax) := by
    unfold Argument.clearIfFirst
    rw [show (a.lax).isExist = a.isExist from rfl]
    cases a.isExist <;> rfl
  have en : a.clearIfFirst.nargs = a.nargs := by unfold Argument.clearIfFirst; split <;> rfl
  have en' : (a.clearIfFirst.lax).nargs = a.nargs := en
  have et : (a.lax).type = a.type := rfl
  have em : (a.lax).nargs = a.nargs := rfl
  simp only [ec, et, en, en', em]
  generalize a.clearIfFirst = c
  generalize decide (index + 1 ≥ max) = c1
  cases b with
  | true => cases a.type <;> rfl
  | false =>
    simp only [Bool.false_eq_true, if_false]
    cases a.type <;> simp only <;> first
      | rfl
      | (generalize scanInfinite stop argv _ _ = x; cases x <;> rfl)
      | (generalize scanGroups stop argv _ _ _ _ = x; obtain ⟨gs, e⟩ := x; cases e <;> rfl)
      | (by_cases h : index + 1 ≥ max
         · simp only [h, if_true]
         · simp only [h, if_false]; cases argv[index + 1]? <;> rfl)
      | (by_cases h : (index + a.nargs) % two64 ≥ max
         · simp only [h, if_true] <;> rfl
         · simp only [h, if_false]; generalize readRange argv _ _ = x; cases x <;> rfl)

theorem parsePositional (stop : Str → Bool) (argv : List Str) (argc index : Nat) (a : Argument D) :
    (a.lax).parsePositional stop argv argc index =
      ((((a.parsePositional stop argv argc index).1).lax), (a.parsePositional stop argv argc index).2) := by
  unfold Argument.parsePositional
  have et : (a.lax).type = a.type := rfl
  have em : (a.lax).nargs = a.nargs := rfl
  have ef : (a.lax).front = a.front := rfl
  simp only [et, em, ef]
  cases a.type <;> simp only <;> first
    | rfl
    | (cases argv[index]? <;> rfl)
    | (by_cases h : (index + a.nargs) % two64 > argc
       · simp only [h, if_true]
       · simp only [h, if_false]; generalize readRange argv _ _ = x; cases x <;> rfl)
    | (generalize scanInfinite stop argv _ _ = x; cases x <;> rfl)
    | (generalize scanGroups stop argv _ _ _ _ = x; obtain ⟨gs, e⟩ := x; cases e <;> rfl)

/-! ### The registry -/

theorem atNode (s : State D) (n : Nat) : (s.lax).atNode n = (s.atNode n).map (Slot.lax) := by
  unfold State.atNode
  show List.find? _ (s.arguments.map (Slot.lax)) = _
  rw [List.find?_map]
  rfl

theorem atObj (s : State D) (n : Nat) : (s.lax).atObj n = (s.atObj n).map (Slot.lax) := by
  unfold State.atObj
  show List.find? _ (s.arguments.map (Slot.lax)) = _
  rw [List.find?_map]
  rfl

theorem modNode (s : State D) (n : Nat) {f g : Argument D → Argument D} (h : ∀ a, f (a.lax) = ((g a).lax)) :
    (s.lax).modNode n f = ((s.modNode n g).lax) := by
  unfold State.modNode
  have e : (s.arguments.map (Slot.lax)).map (fun t => if t.node == n then { t with arg := f t.arg } else t) =
      (s.arguments.map fun t => if t.node == n then { t with arg := g t.arg } else t).map (Slot.lax) := by
    rw [List.map_map, List.map_map]
    refine List.map_congr_left fun t _ => ?_
    simp only [Function.comp_apply, show ∀ u : Slot D, (u.lax).node = u.node from fun _ => rfl]
    cases t.node == n with
    | true => exact congrArg (fun a => (⟨t.node, t.obj, a⟩ : Slot D)) (h t.arg)
    | false => rfl
  show ({ (s.lax) with arguments := (s.arguments.map (Slot.lax)).map _ } : State D) = _
  rw [e]
  rfl

theorem sortArguments (s : State D) : (s.lax).sortArguments = out s.sortArguments := by
  unfold State.sortArguments
  have e1 : (s.lax).arguments = s.arguments.map (Slot.lax) := rfl
  have e : (s.arguments.map (Slot.lax)).any (fun s => s.arg.names.isEmpty) = s.arguments.any (fun s => s.arg.names.isEmpty) := by
    rw [List.any_map]; rfl
  rw [e1, e]
  split
  · rfl
  · rw [stableSort_map (Slot.lax) _ (fun _ _ _ _ => rfl)]
    rfl

theorem linkArgument (s : State D) (a : Argument D) (ha : (a.lax) = a) : (s.lax).linkArgument a = out (s.linkArgument a) := by
  unfold State.linkArgument
  simp only
  have e : ({ (s.lax) with
      arguments := (s.lax).arguments ++ [{ node := (s.lax).nextNode, obj := (s.lax).nextObj, arg := a }]
      byName := a.names.foldl (fun m n => insertName m n (s.lax).nextNode) (s.lax).byName
      nextNode := (s.lax).nextNode + 1
      nextObj := (s.lax).nextObj + 1 } : State D) = State.lax { s with
      arguments := s.arguments ++ [{ node := s.nextNode, obj := s.nextObj, arg := a }]
      byName := a.names.foldl (fun m n => insertName m n s.nextNode) s.byName
      nextNode := s.nextNode + 1
      nextObj := s.nextObj + 1 } := by
    simp [State.lax, Slot.lax, ha]
  rw [e, sortArguments]
  generalize State.sortArguments _ = x
  obtain ⟨y, res⟩ := x
  cases res <;> rfl

theorem addArgument (s : State D) (nof : List Str) : (s.lax).addArgument nof = out (s.addArgument nof) := by
  unfold State.addArgument
  cases nof with
  | nil => rfl
  | cons f rest =>
    simp only [show (s.lax).byName = s.byName from rfl]
    split
    · split
      · rfl
      · split
        · rfl
        · exact linkArgument s _ rfl
    · split
      · rfl
      · exact linkArgument s _ rfl

theorem withRef (s : State D) {α : Type} (ref : Nat) (f g : Slot D → State D × Res α)
    (h : ∀ t, s.atObj ref = some t → g (t.lax) = out (f t)) : (s.lax).withRef ref g = out (s.withRef ref f) := by
  unfold State.withRef
  rw [atObj]
  cases e : s.atObj ref with
  | none => rfl
  | some t => exact h t e

theorem retype (s : State D) (t : Slot D) (a : Argument D) : (s.lax).retype (t.lax) (a.lax) = out (s.retype t a) := by
  unfold State.retype
  rw [show (a.lax).typeConstructor (t.lax).obj (s.lax).helpOption (s.lax).versionOption =
    (a.lax).typeConstructor t.obj s.helpOption s.versionOption from rfl, typeConstructor]
  generalize a.typeConstructor t.obj s.helpOption s.versionOption = x
  obtain ⟨a1, h, v, res⟩ := x
  have em : ∀ b : Argument D, ({ (s.lax) with helpOption := h, versionOption := v } : State D).modNode (t.lax).node (fun _ => (b.lax)) =
      ((State.modNode { s with helpOption := h, versionOption := v } t.node (fun _ => b)).lax) := fun b =>
    modNode { s with helpOption := h, versionOption := v } t.node (fun _ => rfl)
  cases res with
  | ok u => simp only; rw [defaultsConstructor, em]; rfl
  | throw e => simp only; rw [em]; rfl
  | exit e => simp only; rw [em]; rfl
  | ub e => simp only; rw [em]; rfl
  | diverge => simp only; rw [em]; rfl

theorem action (s : State D) (ref : Nat) (act : Action) : (s.lax).action ref act = out (s.action ref act) := by
  unfold State.action
  refine withRef s ref _ _ fun t _ => ?_
  simp only
  rw [← retype]
  congr 1
  have e1 : (if t.arg.action == .help then { (s.lax) with helpOption := none } else (s.lax)) =
      ((if t.arg.action == .help then { s with helpOption := none } else s : State D).lax) := by
    split <;> rfl
  have e2 : (t.lax).arg.action = t.arg.action := rfl
  rw [e2, e1]
  generalize (if t.arg.action == .help then { s with helpOption := none } else s) = u
  split <;> rfl

/-! ### Parsing -/

theorem typeOf (s : State D) (n : Str) : (s.lax).typeOf n = s.typeOf n := by
  unfold State.typeOf
  rw [show lookupName (s.lax).byName n = lookupName s.byName n from rfl]
  cases lookupName s.byName n with
  | none => rfl
  | some k =>
    simp only
    rw [atNode, Option.map_map]
    rfl

theorem endOfClusters (s : State D) (b : Bool) (cs : List Char) : (s.lax).endOfClusters b cs = s.endOfClusters b cs := by
  induction cs with
  | nil => rfl
  | cons c cs ih =>
    cases cs with
    | nil => rfl
    | cons c2 cs => unfold State.endOfClusters; rw [typeOf, ih]

theorem endOfInfinite (s : State D) : (s.lax).endOfInfinite = s.endOfInfinite := by
  funext tok
  unfold State.endOfInfinite
  simp only [endOfClusters]
  rfl

theorem parseAt (s : State D) (argv : List Str) (max index : Nat) (b : Bool) (o a : Str) (n : Nat) :
    (s.lax).parseAt argv max index b o a n = out (s.parseAt argv max index b o a n) := by
  unfold State.parseAt
  rw [atNode, endOfInfinite]
  cases s.atNode n with
  | none => rfl
  | some t =>
    simp only [Option.map_some]
    rw [show (t.lax).arg = (t.arg.lax) from rfl, parseArgument]
    generalize t.arg.parseArgument s.endOfInfinite argv max index b o a = x
    refine Prod.ext ?_ rfl
    exact modNode s n (f := fun _ => (x.1.lax)) (g := fun _ => x.1) (fun _ => rfl)

theorem mark (s : State D) (n : Nat) : (s.lax).modNode n Argument.mark = ((s.modNode n Argument.mark).lax) :=
  modNode s n fun _ => rfl

theorem parseCluster (argv : List Str) (max index : Nat) (b : Bool) (a : Str) (cs : List Char) (s : State D) :
    State.parseCluster argv max index b a cs (s.lax) = out (State.parseCluster argv max index b a cs s) := by
  induction cs generalizing s with
  | nil =>
    unfold State.parseCluster
    rw [show lookupName (s.lax).byName = lookupName s.byName from rfl]
    cases lookupName s.byName (shortFlag '-') with
    | none => rfl
    | some k => exact parseAt s ..
  | cons c cs ih =>
    cases cs with
    | nil =>
      unfold State.parseCluster
      rw [show lookupName (s.lax).byName = lookupName s.byName from rfl]
      cases lookupName s.byName (shortFlag c) with
      | none => rfl
      | some k => exact parseAt s ..
    | cons c2 cs =>
      unfold State.parseCluster
      rw [show lookupName (s.lax).byName = lookupName s.byName from rfl]
      cases lookupName s.byName (shortFlag c) with
      | none => rfl
      | some k =>
        simp only
        rw [atNode]
        cases s.atNode k with
        | none => rfl
        | some t =>
          simp only [Option.map_some]
          rw [show (t.lax).arg.type = t.arg.type from rfl, mark, parseAt, ih]
          split
          · rfl
          · split <;> rfl

theorem parseShort (s : State D) (argv : List Str) (max index : Nat) (tok : Str) :
    (s.lax).parseShort argv max index tok = out (s.parseShort argv max index tok) := by
  unfold State.parseShort
  generalize takeArg tok = x
  obtain ⟨o, a, b⟩ := x
  simp only
  rw [show (s.lax).byName = s.byName from rfl, show (s.lax).isAlternative = s.isAlternative from rfl]
  cases s.isAlternative with
  | false => exact parseCluster ..
  | true =>
    simp only [if_true]
    cases lookupName s.byName ('-' :: o) with
    | none => exact parseCluster ..
    | some k => exact parseAt s ..

theorem parseLong (s : State D) (argv : List Str) (max index : Nat) (tok : Str) :
    (s.lax).parseLong argv max index tok = out (s.parseLong argv max index tok) := by
  unfold State.parseLong
  generalize takeArg tok = x
  obtain ⟨o, a, b⟩ := x
  simp only
  rw [show (s.lax).byName = s.byName from rfl]
  cases lookupName s.byName o with
  | none => rfl
  | some k => exact parseAt s ..

theorem nextPositional (s : State D) : (s.lax).nextPositional = s.nextPositional.map (Slot.lax) := by
  unfold State.nextPositional
  show List.find? _ (s.arguments.map (Slot.lax)) = _
  rw [List.find?_map]
  rfl

theorem parsePositionalTok (s : State D) (argv : List Str) (argc index : Nat) (b : Bool) :
    (s.lax).parsePositionalTok argv argc index b = out (s.parsePositionalTok argv argc index b) := by
  unfold State.parsePositionalTok
  rw [nextPositional, endOfInfinite]
  cases s.nextPositional with
  | none =>
    simp only [Option.map_none]
    cases argv[index]? with
    | none => rfl
    | some v =>
      simp only
      rw [show (s.lax).isStrict = s.isStrict from rfl]
      split <;> rfl
  | some t =>
    simp only [Option.map_some]
    rw [show (t.lax).arg = (t.arg.lax) from rfl, parsePositional]
    generalize t.arg.parsePositional _ argv argc index = x
    refine Prod.ext ?_ rfl
    exact modNode s t.node (f := fun _ => (x.1.lax)) (g := fun _ => x.1) (fun _ => rfl)

theorem endLoop (argv : List Str) (f i : Nat) (s : State D) :
    State.endLoop argv f i (s.lax) = out (State.endLoop argv f i s) := by
  induction f generalizing i s with
  | zero => rfl
  | succ f ih =>
    unfold State.endLoop
    rw [parsePositionalTok]
    split
    · generalize s.parsePositionalTok argv argv.length i true = x
      obtain ⟨u, res⟩ := x
      cases res with
      | ok i1 => exact ih i1 u
      | _ => rfl
    · rfl

theorem mainLoop (argv : List Str) (e f i : Nat) (s : State D) :
    State.mainLoop argv e f i (s.lax) = out (State.mainLoop argv e f i s) := by
  induction f generalizing i s with
  | zero => rfl
  | succ f ih =>
    have next : ∀ x : State D × Res Nat,
        (match out x with
          | (st1, .ok i1) => State.mainLoop argv e f i1 st1
          | (st1, r) => (st1, r.cast)) =
        out (match x with
          | (st1, .ok i1) => State.mainLoop argv e f i1 st1
          | (st1, r) => (st1, r.cast)) := by
      rintro ⟨u, res⟩
      cases res with
      | ok i1 => exact ih i1 u
      | _ => rfl
    unfold State.mainLoop
    split
    · cases argv[i]? with
      | none => rfl
      | some tok =>
        simp only
        rw [parseShort, parseLong, parsePositionalTok, endLoop]
        split
        · exact next _
        · split
          · exact next _
          · split
            · rfl
            · exact next _
    · rfl

theorem firstMissing (l : List (Slot D)) : BletArgs.firstMissing (l.map (Slot.lax)) = BletArgs.firstMissing l := by
  unfold BletArgs.firstMissing
  rw [List.find?_map, Option.map_map]
  rfl

theorem optionSeen (s : State D) (p : Option Nat) : (s.lax).optionSeen p = s.optionSeen p := by
  cases p with
  | none => rfl
  | some o =>
    show ((s.lax).atObj o).map _ = _
    rw [atObj, Option.map_map]
    rfl

theorem resetAll (s : State D) : (s.lax).resetAll = (s.resetAll.lax) := by
  unfold State.resetAll
  have e : (s.arguments.map (Slot.lax)).map (fun s => { s with arg := s.arg.reset }) =
      (s.arguments.map fun s => { s with arg := s.arg.reset }).map (Slot.lax) := by
    rw [List.map_map, List.map_map]; rfl
  show ({ (s.lax) with arguments := (s.arguments.map (Slot.lax)).map (fun s => { s with arg := s.arg.reset }) } : State D) = _
  rw [e]
  rfl

theorem setBinary (s : State D) (argv : List Str) : (s.lax).setBinaryIfEmpty argv = out (s.setBinaryIfEmpty argv) := by
  unfold State.setBinaryIfEmpty
  rw [show (s.lax).binaryName = s.binaryName from rfl]
  split
  · cases argv[0]? <;> rfl
  · rfl

theorem setHelp (s : State D) (ref : Nat) (h : Str) : (s.lax).setHelp ref h = out (s.setHelp ref h) := by
  unfold State.setHelp
  exact withRef s ref _ _ fun t _ => Prod.ext
    (modNode s t.node (f := fun a => { a with help := h }) (g := fun a => { a with help := h }) fun _ => rfl) rfl

theorem autoHelp (s : State D) : (s.lax).autoHelp = out s.autoHelp := by
  unfold State.autoHelp
  rw [show (s.lax).helpOption.isNone = s.helpOption.isNone from rfl]
  simp only [show ∀ n, (s.lax).argumentExists n = s.argumentExists n from fun _ => rfl, addArgument]
  split
  · split
    · rfl
    · generalize s.addArgument _ = x
      obtain ⟨u, res⟩ := x
      cases res with
      | ok ref =>
        simp only [out]
        rw [action]
        generalize u.action ref .help = y
        obtain ⟨w, res⟩ := y
        cases res with
        | ok _ =>
          simp only [out]
          rw [setHelp]
          generalize w.setHelp ref _ = z
          obtain ⟨z, res⟩ := z
          cases res <;> rfl
        | _ => rfl
      | _ => rfl
  · rfl

theorem getUsage (st : State D) : (st.lax).getUsage = st.getUsage := by
  have ha : (st.lax).arguments.map (·.arg) = (st.arguments.map (·.arg)).map (Argument.lax) := by
    unfold State.lax
    simp only [List.map_map]
    rfl
  have hf : ∀ (f g : UsageVars → Argument D → UsageVars) (v : UsageVars), (∀ v a, f v (Argument.lax a) = g v a) →
      ((st.lax).arguments.map (·.arg)).foldl f v = (st.arguments.map (·.arg)).foldl g v := by
    intro f g v h
    rw [ha, List.foldl_map, (funext fun v => funext fun a => h v a : (fun v a => f v (Argument.lax a)) = g)]
  have he : (st.lax).arguments.isEmpty = st.arguments.isEmpty := by
    unfold State.lax
    simp only [List.isEmpty_map]
  have hu : (st.lax).usageLine = st.usageLine := by
    unfold State.usageLine
    simp only
    rw [hf (UsageVars.optionStep (st.lax).usageHead.length (st.lax).indexMax) (UsageVars.optionStep st.usageHead.length st.indexMax) _ (fun _ _ => rfl),
      hf (UsageVars.positionalStep (st.lax).usageHead.length (st.lax).indexMax) (UsageVars.positionalStep st.usageHead.length st.indexMax) _ (fun _ _ => rfl)]
    rfl
  have hs : ∀ v, (st.lax).sections v = st.sections v := by
    intro v
    unfold State.sections
    simp only
    rw [he, hf (st.lax).positionalRow st.positionalRow _ (fun _ _ => rfl), hf (st.lax).optionRow st.optionRow _ (fun _ _ => rfl)]
  unfold State.getUsage
  rw [hu]
  simp only
  rw [hs]
  rfl

/-- The end of a parse without validators: the same if the validators are not reached, or else the last loop. -/
theorem afterLoop (scan : Str → Option D) (s : State D) :
    ((s.lax.afterLoop scan).2 = (s.afterLoop scan).2 ∧ ((s.afterLoop scan).2.goesOn = true → (s.lax.afterLoop scan).1 = (s.afterLoop scan).1.lax) ∧
      ((s.afterLoop scan).2 ≠ .ok ())) ∨
    (s.afterLoop scan = Aim.finishing scan s ∧ s.lax.afterLoop scan = Aim.finishing scan s.lax) := by
  unfold State.afterLoop
  rw [optionSeen, optionSeen, getUsage]
  simp only [show s.lax.isHelpException = s.isHelpException from rfl, show s.lax.version = s.version from rfl,
    show s.lax.isVersionException = s.isVersionException from rfl, show s.lax.helpOption = s.helpOption from rfl,
    show s.lax.versionOption = s.versionOption from rfl]
  cases s.optionSeen s.helpOption with
  | none => exact .inl ⟨rfl, (fun h => nomatch h), (fun h => nomatch h)⟩
  | some b =>
    cases b with
    | true =>
      simp only
      cases s.isHelpException
      · exact .inl ⟨rfl, (fun h => nomatch h), (fun h => nomatch h)⟩
      · exact .inl ⟨rfl, fun _ => rfl, (fun h => nomatch h)⟩
    | false =>
      simp only
      cases s.optionSeen s.versionOption with
      | none => exact .inl ⟨rfl, (fun h => nomatch h), (fun h => nomatch h)⟩
      | some b =>
        cases b with
        | true =>
          simp only
          cases s.isVersionException
          · exact .inl ⟨rfl, (fun h => nomatch h), (fun h => nomatch h)⟩
          · exact .inl ⟨rfl, fun _ => rfl, (fun h => nomatch h)⟩
        | false =>
          simp only
          unfold State.finishParse
          rw [show s.lax.arguments = s.arguments.map Slot.lax from rfl, firstMissing]
          cases BletArgs.firstMissing s.arguments with
          | some e => exact .inl ⟨rfl, fun _ => rfl, (fun h => nomatch h)⟩
          | none => exact .inr ⟨rfl, rfl⟩

end Lax
end BletArgs
