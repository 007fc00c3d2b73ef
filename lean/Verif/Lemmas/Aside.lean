import Verif.Lemmas.Move
import Verif.Spec.Answers
/-
The parts of a parser that most functions neither read nor write: the version text, the modes of help and version, strict
mode, and the additional arguments.
-/
namespace BletArgs
open Spec
variable {D : Type}

/-- What is put aside. -/
structure Aside where
  version : Str
  help : Bool
  vers : Bool
  strict : Bool
  extra : List Str

/-- What a parser has. -/
def State.aside (s : State D) : Aside := ⟨s.version, s.isHelpException, s.isVersionException, s.isStrict, s.additional⟩

/-- The parser with these instead. -/
def State.put (s : State D) (c : Aside) : State D :=
  { s with version := c.version, isHelpException := c.help, isVersionException := c.vers, isStrict := c.strict,
           additional := c.extra }

theorem State.put_aside (s : State D) : s.put s.aside = s := rfl

theorem State.put_put (s : State D) (c d : Aside) : (s.put c).put d = s.put d := rfl

namespace Aside

/-- The corresponding outcome: same result. -/
def out (c : Aside) {α : Type} (x : State D × Res α) : State D × Res α := (x.1.put c, x.2)

/-- A function that commutes with other values of what is put aside leaves it as it is. -/
theorem kept {α : Type} {f : State D → State D × Res α} (hf : ∀ s c, f (s.put c) = out c (f s)) (s : State D) :
    (f s).1.aside = s.aside := by
  have h := congrArg (fun x => x.1.aside) (hf s s.aside)
  exact h

theorem modNode (s : State D) (c : Aside) (n : Nat) (f : Argument D → Argument D) :
    (s.put c).modNode n f = (s.modNode n f).put c := rfl

theorem sortArguments (s : State D) (c : Aside) : (s.put c).sortArguments = out c s.sortArguments := by
  unfold State.sortArguments
  show (if s.arguments.any (fun s => s.arg.names.isEmpty) then _ else _) = _
  split <;> rfl

theorem linkArgument (s : State D) (c : Aside) (a : Argument D) : (s.put c).linkArgument a = out c (s.linkArgument a) := by
  unfold State.linkArgument
  simp only
  have e : ({ s.put c with
      arguments := (s.put c).arguments ++ [{ node := (s.put c).nextNode, obj := (s.put c).nextObj, arg := a }]
      byName := a.names.foldl (fun m n => insertName m n (s.put c).nextNode) (s.put c).byName
      nextNode := (s.put c).nextNode + 1
      nextObj := (s.put c).nextObj + 1 } : State D) = State.put { s with
      arguments := s.arguments ++ [{ node := s.nextNode, obj := s.nextObj, arg := a }]
      byName := a.names.foldl (fun m n => insertName m n s.nextNode) s.byName
      nextNode := s.nextNode + 1
      nextObj := s.nextObj + 1 } c := rfl
  rw [e, sortArguments]
  generalize State.sortArguments _ = x
  obtain ⟨y, res⟩ := x
  cases res <;> rfl

theorem addArgument (s : State D) (c : Aside) (nof : List Str) : (s.put c).addArgument nof = out c (s.addArgument nof) := by
  unfold State.addArgument
  cases nof with
  | nil => rfl
  | cons f rest =>
    simp only [show (s.put c).byName = s.byName from rfl]
    split
    · split
      · rfl
      · split
        · rfl
        · exact linkArgument s c _
    · split
      · rfl
      · exact linkArgument s c _

theorem withRef (s : State D) (c : Aside) {α : Type} (ref : Nat) (f g : Slot D → State D × Res α)
    (h : ∀ t, s.atObj ref = some t → g t = out c (f t)) : (s.put c).withRef ref g = out c (s.withRef ref f) := by
  unfold State.withRef
  rw [show (s.put c).atObj ref = s.atObj ref from rfl]
  cases e : s.atObj ref with
  | none => rfl
  | some t => exact h t e

theorem flag (s : State D) (c : Aside) (ref : Nat) (f : Str) : (s.put c).flag ref f = out c (s.flag ref f) := by
  unfold State.flag
  refine withRef s c ref _ _ fun t _ => ?_
  split
  · rfl
  · split
    · rfl
    · show (if s.argumentExists f then _ else _) = _
      split
      · rfl
      · simp only
        rw [← sortArguments]
        rfl

theorem retype (s : State D) (c : Aside) (t : Slot D) (a : Argument D) : (s.put c).retype t a = out c (s.retype t a) := by
  unfold State.retype
  rw [show a.typeConstructor t.obj (s.put c).helpOption (s.put c).versionOption =
    a.typeConstructor t.obj s.helpOption s.versionOption from rfl]
  generalize a.typeConstructor t.obj s.helpOption s.versionOption = x
  obtain ⟨a1, h, v, res⟩ := x
  cases res <;> rfl

theorem action (s : State D) (c : Aside) (ref : Nat) (act : Action) : (s.put c).action ref act = out c (s.action ref act) := by
  unfold State.action
  refine withRef s c ref _ _ fun t _ => ?_
  simp only
  rw [← retype]
  congr 1
  have e1 : (if t.arg.action == .help then { s.put c with helpOption := none } else s.put c) =
      (if t.arg.action == .help then { s with helpOption := none } else s : State D).put c := by
    split <;> rfl
  rw [e1]
  generalize (if t.arg.action == .help then { s with helpOption := none } else s) = u
  split <;> rfl

theorem nargs (s : State D) (c : Aside) (ref n : Nat) : (s.put c).nargs ref n = out c (s.nargs ref n) := by
  unfold State.nargs
  exact withRef s c ref _ _ fun t _ => retype s c t { t.arg with nargs := n }

theorem setDefaults (s : State D) (c : Aside) (ref : Nat) (ds : List Str) :
    (s.put c).setDefaults ref ds = out c (s.setDefaults ref ds) := by
  unfold State.setDefaults
  exact withRef s c ref _ _ fun t _ => rfl

theorem required (s : State D) (c : Aside) (ref : Nat) (b : Bool) : (s.put c).required ref b = out c (s.required ref b) := by
  unfold State.required
  refine withRef s c ref _ _ fun t _ => ?_
  rw [modNode, sortArguments]

theorem setValid (s : State D) (c : Aside) (ref : Nat) (v : Option Validator) (d : Bool) :
    (s.put c).setValid ref v d = out c (s.setValid ref v d) := by
  unfold State.setValid
  exact withRef s c ref _ _ fun t _ => rfl

theorem setDest (s : State D) (c : Aside) (ref : Nat) (d : Dest) : (s.put c).setDest ref d = out c (s.setDest ref d) := by
  unfold State.setDest
  exact withRef s c ref _ _ fun t _ => rfl

theorem setHelp (s : State D) (c : Aside) (ref : Nat) (h : Str) : (s.put c).setHelp ref h = out c (s.setHelp ref h) := by
  unfold State.setHelp
  exact withRef s c ref _ _ fun t _ => rfl

theorem setMetavar (s : State D) (c : Aside) (ref : Nat) (h : Str) : (s.put c).setMetavar ref h = out c (s.setMetavar ref h) := by
  unfold State.setMetavar
  exact withRef s c ref _ _ fun t _ => rfl

theorem edit (scan : Str → Option D) (s : State D) (c : Aside) (ref : Nat) (items : List NewElem) :
    (s.put c).edit scan ref items = out c (s.edit scan ref items) := by
  unfold State.edit
  exact withRef s c ref _ _ fun t _ => rfl

theorem behave (s : State D) (c : Aside) (ref : Nat) (k : List Str → VRes) (x : DestWrite → Option Exn) :
    (s.put c).behave ref k x = out c (s.behave ref k x) := by
  unfold State.behave
  exact withRef s c ref _ _ fun t _ => rfl

theorem tail (c : Aside) (ns : List Str) (ih : ∀ s : State D, State.removeLoop ns (s.put c) = out c (State.removeLoop ns s))
    (node : Nat) (t : Slot D) (w : State D) : Move.rmTail ns node t (w.put c) = out c (Move.rmTail ns node t w) := by
  unfold Move.rmTail
  show (if w.byName.any (fun p => p.2 == node) then _ else _) = _
  split
  · rw [modNode, ih]
  · have e3 : (if (w.put c).helpOption == some t.obj then { w.put c with helpOption := none }
        else if (w.put c).versionOption == some t.obj then { w.put c with versionOption := none } else w.put c) =
        (if w.helpOption == some t.obj then { w with helpOption := none }
        else if w.versionOption == some t.obj then { w with versionOption := none } else w : State D).put c := by
      show (if w.helpOption == some t.obj then _ else if w.versionOption == some t.obj then _ else _) = _
      split
      · rfl
      · split <;> rfl
    simp only
    rw [e3]
    generalize (if w.helpOption == some t.obj then { w with helpOption := none }
        else if w.versionOption == some t.obj then { w with versionOption := none } else w) = x
    rw [← ih]
    rfl

theorem removeLoop (c : Aside) (ns : List Str) (s : State D) :
    State.removeLoop ns (s.put c) = out c (State.removeLoop ns s) := by
  induction ns generalizing s with
  | nil => rfl
  | cons n ns ih =>
    rw [Move.removeLoop_eq, Move.removeLoop_eq]
    rw [show lookupName (s.put c).byName n = lookupName s.byName n from rfl]
    cases h1 : lookupName s.byName n with
    | none => rfl
    | some node =>
      simp only
      rw [show (s.put c).atNode node = s.atNode node from rfl]
      cases h2 : s.atNode node with
      | none => rfl
      | some t =>
        simp only
        split
        · rw [← tail c ns ih]
          rfl
        · rfl

theorem removeArguments (s : State D) (c : Aside) (ns : List Str) :
    (s.put c).removeArguments ns = out c (s.removeArguments ns) := by
  unfold State.removeArguments
  rw [show (s.put c).byName = s.byName from rfl]
  split
  · rfl
  · split
    · rfl
    · rw [removeLoop]
      generalize State.removeLoop ns s = x
      obtain ⟨y, res⟩ := x
      cases res with
      | ok u => exact sortArguments y c
      | _ => rfl

/-- `clear()` forgets all of it. -/
theorem clear (s : State D) (c : Aside) : (s.put c).clear = s.clear := rfl

/-! ### Parsing -/

theorem typeOf (s : State D) (c : Aside) (n : Str) : (s.put c).typeOf n = s.typeOf n := rfl

theorem endOfClusters (s : State D) (c : Aside) (b : Bool) (cs : List Char) :
    (s.put c).endOfClusters b cs = s.endOfClusters b cs := by
  induction cs with
  | nil => rfl
  | cons d cs ih =>
    cases cs with
    | nil => rfl
    | cons c2 cs => unfold State.endOfClusters; rw [typeOf, ih]

theorem endOfInfinite (s : State D) (c : Aside) : (s.put c).endOfInfinite = s.endOfInfinite := by
  funext tok
  unfold State.endOfInfinite
  simp only [endOfClusters]
  rfl

theorem parseAt (s : State D) (c : Aside) (argv : List Str) (max index : Nat) (b : Bool) (o a : Str) (n : Nat) :
    (s.put c).parseAt argv max index b o a n = out c (s.parseAt argv max index b o a n) := by
  unfold State.parseAt
  rw [endOfInfinite, show (s.put c).atNode n = s.atNode n from rfl]
  cases s.atNode n with
  | none => rfl
  | some t => rfl

theorem parseCluster (c : Aside) (argv : List Str) (max index : Nat) (b : Bool) (a : Str) (cs : List Char) (s : State D) :
    State.parseCluster argv max index b a cs (s.put c) = out c (State.parseCluster argv max index b a cs s) := by
  induction cs generalizing s with
  | nil =>
    unfold State.parseCluster
    rw [show lookupName (s.put c).byName = lookupName s.byName from rfl]
    cases lookupName s.byName (shortFlag '-') with
    | none => rfl
    | some k => exact parseAt s c ..
  | cons d cs ih =>
    cases cs with
    | nil =>
      unfold State.parseCluster
      rw [show lookupName (s.put c).byName = lookupName s.byName from rfl]
      cases lookupName s.byName (shortFlag d) with
      | none => rfl
      | some k => exact parseAt s c ..
    | cons c2 cs =>
      unfold State.parseCluster
      rw [show lookupName (s.put c).byName = lookupName s.byName from rfl]
      cases lookupName s.byName (shortFlag d) with
      | none => rfl
      | some k =>
        simp only
        rw [show (s.put c).atNode k = s.atNode k from rfl]
        cases s.atNode k with
        | none => rfl
        | some t =>
          simp only
          rw [modNode, parseAt, ih]
          split
          · rfl
          · split <;> rfl

theorem parseShort (s : State D) (c : Aside) (argv : List Str) (max index : Nat) (tok : Str) :
    (s.put c).parseShort argv max index tok = out c (s.parseShort argv max index tok) := by
  unfold State.parseShort
  generalize takeArg tok = x
  obtain ⟨o, a, b⟩ := x
  simp only
  rw [show (s.put c).byName = s.byName from rfl, show (s.put c).isAlternative = s.isAlternative from rfl]
  cases s.isAlternative with
  | false => exact parseCluster ..
  | true =>
    simp only [if_true]
    cases lookupName s.byName ('-' :: o) with
    | none => exact parseCluster ..
    | some k => exact parseAt s c ..

theorem parseLong (s : State D) (c : Aside) (argv : List Str) (max index : Nat) (tok : Str) :
    (s.put c).parseLong argv max index tok = out c (s.parseLong argv max index tok) := by
  unfold State.parseLong
  generalize takeArg tok = x
  obtain ⟨o, a, b⟩ := x
  simp only
  rw [show (s.put c).byName = s.byName from rfl]
  cases lookupName s.byName o with
  | none => rfl
  | some k => exact parseAt s c ..

theorem resetAll (s : State D) (c : Aside) : (s.put c).resetAll = s.resetAll.put c := rfl

theorem autoHelp (s : State D) (c : Aside) : (s.put c).autoHelp = out c s.autoHelp := by
  unfold State.autoHelp
  rw [show (s.put c).helpOption.isNone = s.helpOption.isNone from rfl]
  simp only [show ∀ n, (s.put c).argumentExists n = s.argumentExists n from fun _ => rfl, addArgument]
  split
  · split
    · rfl
    · generalize s.addArgument _ = x
      obtain ⟨u, res⟩ := x
      cases res with
      | ok ref =>
        simp only [out]
        rw [action]
        generalize u.action ref .help = y
        obtain ⟨w, res⟩ := y
        cases res with
        | ok _ =>
          simp only [out]
          rw [setHelp]
          generalize w.setHelp ref _ = z
          obtain ⟨z, res⟩ := z
          cases res <;> rfl
        | _ => rfl
      | _ => rfl
  · rfl

theorem setBinary (s : State D) (c : Aside) (argv : List Str) :
    (s.put c).setBinaryIfEmpty argv = out c (s.setBinaryIfEmpty argv) := by
  unfold State.setBinaryIfEmpty
  rw [show (s.put c).binaryName = s.binaryName from rfl]
  split
  · cases argv[0]? <;> rfl
  · rfl

theorem optionSeen (s : State D) (c : Aside) (p : Option Nat) : (s.put c).optionSeen p = s.optionSeen p := rfl

theorem finishParse (scan : Str → Option D) (s : State D) (c : Aside) :
    (s.put c).finishParse scan = out c (s.finishParse scan) := by
  unfold State.finishParse
  rw [show (s.put c).arguments = s.arguments from rfl]
  cases BletArgs.firstMissing s.arguments with
  | some e => rfl
  | none => rfl

theorem getUsage (s : State D) (c : Aside) : (s.put c).getUsage = s.getUsage := rfl

/-! ### Words: strict mode and the additional arguments matter -/

/-- A word for which there is a positional argument. -/
theorem word_filled (s : State D) (c : Aside) {t : Slot D} (h : s.nextPositional = some t) (argv : List Str) (argc index : Nat)
    (b : Bool) : (s.put c).parsePositionalTok argv argc index b = out c (s.parsePositionalTok argv argc index b) := by
  unfold State.parsePositionalTok
  rw [endOfInfinite, show (s.put c).nextPositional = s.nextPositional from rfl, h]
  rfl

/-- Only the answers are different. -/
def answers (s : State D) (v : Str) (h x : Bool) : Aside := ⟨v, h, x, s.isStrict, s.additional⟩

end Aside
end BletArgs
