import Verif.Lemmas.Move
import Verif.Props.Parse
/-
C12: after `clear()` the object behaves as a new one.
-/
namespace BletArgs
open Spec
variable {D : Type}

namespace Spec

/-- How the calls of a program end, one after the other (a program that exited, ran into undefined behaviour or hangs
makes no further call). -/
def outcomes (scan : Str → Option D) : State D → List Op → List (Res Unit)
  | _, [] => []
  | st, op :: ops =>
    (step scan st op).2 :: if (step scan st op).2.goesOn then outcomes scan (step scan st op).1 ops else []

/-- The state after these calls. -/
def after (scan : Str → Option D) : State D → List Op → State D
  | st, [] => st
  | st, op :: ops => if (step scan st op).2.goesOn then after scan (step scan st op).1 ops else (step scan st op).1

/-- What the public interface shows of a parser: its arguments in listing order, the argument each name leads to, the
settings, the additional words and the usage text. -/
structure Visible (D : Type) where
  arguments : List (Argument D)
  byName : Str → Option (Argument D)
  help : Option (Argument D)
  version : Option (Argument D)
  binaryName : Str
  versionText : Str
  flags : List Bool
  additional : List Str
  texts : List Str
  widths : List Nat
  usage : Str

def visible (st : State D) : Visible D where
  arguments := st.arguments.map (·.arg)
  byName n := ((lookupName st.byName n).bind st.atNode).map (·.arg)
  help := (st.helpOption.bind st.atObj).map (·.arg)
  version := (st.versionOption.bind st.atObj).map (·.arg)
  binaryName := st.binaryName
  versionText := st.version
  flags := [st.isAlternative, st.isStrict, st.isHelpException, st.isVersionException]
  additional := st.additional
  texts := [st.description, st.epilog, st.usage]
  widths := [st.padWidth, st.argsWidth, st.sepWidth, st.helpWidth]
  usage := st.getUsage

/-- The same calls on a parser whose references are numbered from `k` on: the reference handed out as `n`-th is
`n + k` instead of `n`. -/
def Op.from (k : Nat) : Op → Op
  | .flag ref f => .flag (ref + k) f
  | .action ref a => .action (ref + k) a
  | .nargs ref n => .nargs (ref + k) n
  | .defaults ref ds => .defaults (ref + k) ds
  | .required ref b => .required (ref + k) b
  | .help ref h => .help (ref + k) h
  | .metavar ref m => .metavar (ref + k) m
  | .behave ref c x => .behave (ref + k) c x
  | .edit ref items => .edit (ref + k) items
  | .valid ref v d => .valid (ref + k) v d
  | .dest ref d => .dest (ref + k) d
  | op => op

end Spec

theorem Move.op_from (r : Move) (op : Op) : r.op op = Spec.Op.from r.o op := by cases op <;> rfl

theorem Move.after (r : Move) (scan : Str → Option D) (s : State D) (ops : List Op) :
    Spec.after scan (r.st s) (ops.map (Spec.Op.from r.o)) = r.st (Spec.after scan s ops) ∧
    Spec.outcomes scan (r.st s) (ops.map (Spec.Op.from r.o)) = Spec.outcomes scan s ops := by
  induction ops generalizing s with
  | nil => exact ⟨rfl, rfl⟩
  | cons op ops ih =>
    rw [List.map_cons]
    unfold Spec.after Spec.outcomes
    rw [← r.op_from op, r.step]
    generalize BletArgs.step scan s op = x
    obtain ⟨u, res⟩ := x
    have e := ih u
    cases res with
    | ok _ => exact ⟨e.1, congrArg _ e.2⟩
    | throw _ => exact ⟨e.1, congrArg _ e.2⟩
    | _ => exact ⟨rfl, rfl⟩

theorem Move.visible (r : Move) (s : State D) : Spec.visible (r.st s) = Spec.visible s := by
  unfold Spec.visible
  rw [r.getUsage]
  congr 1
  · show (s.arguments.map r.slot).map (·.arg) = _
    rw [List.map_map]; rfl
  · funext n
    rw [r.lookup']
    cases lookupName s.byName n with
    | none => rfl
    | some k =>
      show ((r.st s).atNode (k + r.n)).map _ = _
      rw [r.atNode, Option.map_map]; rfl
  · show ((r.ptr s.helpOption).bind _).map _ = _
    cases s.helpOption with
    | none => rfl
    | some o =>
      show ((r.st s).atObj (o + r.o)).map _ = _
      rw [r.atObj, Option.map_map]; rfl
  · show ((r.ptr s.versionOption).bind _).map _ = _
    cases s.versionOption with
    | none => rfl
    | some o =>
      show ((r.st s).atObj (o + r.o)).map _ = _
      rw [r.atObj, Option.map_map]; rfl

/-- A cleared parser is a new one at other addresses. -/
theorem clear_moved (st : State D) :
    st.clear = (Move.mk st.nextNode st.nextObj st.clear.freedObjs st.clear.freedValids st.destLog).st State.init := by
  simp [Move.st, State.init, State.clear, State.deleteAll, Move.names, Move.ptr]

/-- C12. Whatever was done with the parser before, after `clear()` every program sees what it would see with a new
parser: every call ends in the same way, with the same exception if any; the arguments, settings, values and usage
text are the same at every moment; the same writes are made to destinations. -/
theorem C12_clear_is_fresh (scan : Str → Option D) (st : State D) (ops : List Op) :
    let fresh := after scan State.init ops
    let reused := after scan (step scan st .clear).1 (ops.map (Op.from st.nextObj))
    outcomes scan (step scan st .clear).1 (ops.map (Op.from st.nextObj)) = outcomes scan State.init ops ∧
    visible reused = visible fresh ∧ reused.destLog = st.destLog ++ fresh.destLog := by
  show _ ∧ _ ∧ _
  have e : (step scan st .clear).1 = st.clear := rfl
  rw [e, clear_moved]
  generalize st.clear.freedObjs = fo
  generalize st.clear.freedValids = fv
  obtain ⟨h1, h2⟩ := Move.after ⟨st.nextNode, st.nextObj, fo, fv, st.destLog⟩ scan State.init ops
  simp only at h1 h2
  rw [h1, h2]
  exact ⟨rfl, Move.visible _ _, rfl⟩

/-- C12. The references returned after `clear()` are those of a new parser, numbered on; references from before
`clear()` stay dead for ever. -/
theorem C12_references (scan : Str → Option D) (st : State D) (ops : List Op) (ref : Nat) :
    let fresh := after scan State.init ops
    let reused := after scan (step scan st .clear).1 (ops.map (Op.from st.nextObj))
    ((reused.atObj (ref + st.nextObj)).map (·.arg) = (fresh.atObj ref).map (·.arg)) ∧
    (ref < st.nextObj → reused.atObj ref = none) := by
  show _ ∧ _
  have e : (step scan st .clear).1 = st.clear := rfl
  rw [e, clear_moved]
  generalize st.clear.freedObjs = fo
  generalize st.clear.freedValids = fv
  have h1 := (Move.after ⟨st.nextNode, st.nextObj, fo, fv, st.destLog⟩ scan State.init ops).1
  simp only at h1
  rw [h1]
  generalize after scan State.init ops = w
  refine ⟨?_, ?_⟩
  · have := Move.atObj ⟨st.nextNode, st.nextObj, fo, fv, st.destLog⟩ w ref
    simp only at this
    rw [this, Option.map_map]
    rfl
  · intro h
    unfold State.atObj
    show List.find? _ (w.arguments.map (Move.slot _)) = none
    rw [List.find?_eq_none]
    intro s hs
    obtain ⟨t, _, rfl⟩ := List.mem_map.1 hs
    simp only [Move.slot, beq_iff_eq]
    omega

/-- C12. Every reference returned by `addArgument` and `dest` after `clear()` is the one returned by a new parser,
numbered on. -/
theorem C12_returned (scan : Str → Option D) (st : State D) (ops : List Op) (names : List Str) (ref : Nat) (d : Dest) (v : Nat) :
    let fresh := after scan State.init ops
    let reused := after scan (step scan st .clear).1 (ops.map (Op.from st.nextObj))
    ((fresh.addArgument names).2 = .ok v ↔ (reused.addArgument names).2 = .ok (v + st.nextObj)) ∧
    ((fresh.setDest ref d).2 = .ok v ↔ (reused.setDest (ref + st.nextObj) d).2 = .ok (v + st.nextObj)) := by
  show _ ∧ _
  have e : (step scan st .clear).1 = st.clear := rfl
  rw [e, clear_moved]
  generalize st.clear.freedObjs = fo
  generalize st.clear.freedValids = fv
  have h1 := (Move.after ⟨st.nextNode, st.nextObj, fo, fv, st.destLog⟩ scan State.init ops).1
  simp only at h1
  rw [h1]
  generalize after scan State.init ops = w
  have key : ∀ (x : Res Nat), x = .ok v ↔ Move.ref ⟨st.nextNode, st.nextObj, fo, fv, st.destLog⟩ x = .ok (v + st.nextObj) := by
    intro x
    cases x with
    | ok u => simp [Move.ref]
    | _ => simp [Move.ref]
  rw [Move.addArgument, show (ref + st.nextObj) = ref + (Move.mk st.nextNode st.nextObj fo fv st.destLog).o from rfl, Move.setDest]
  exact ⟨key _, key _⟩

/-- A used parser (12 arguments, a parsed command line) and the program that builds and runs another one. -/
example : (parser.arguments.length = 12 ∧ parser.nextObj = 12) ∧
    outcomes demoScan (step demoScan parser .clear).1
      ([.setBinaryName "p".toList, .add ["-v".toList], .action 0 .storeTrue, .add ["-v".toList], .parse ["p".toList, "-v".toList],
        .parse ["p".toList, "-w".toList]].map (Op.from 12)) =
      [.ok (), .ok (), .ok (), .throw ⟨.argument, "-v".toList, "invalid flag already exist".toList⟩, .ok (),
        .throw ⟨.parse, "w".toList, "invalid option".toList⟩] := by
  decide +kernel

end BletArgs
