import Verif.Model.Copies
/-
Vocabulary for copies of arguments: what reading an argument tells, programs that use copies, and the copies that stay
apart from the parser.
-/
namespace BletArgs
variable {D : Type}

namespace Spec

/-- Everything the `const` interface of an argument tells, but for `getDefaults()`. -/
structure SameReads (a b : Argument D) : Prop where
  isExists : a.isExist = b.isExist
  isRequired : a.isRequired = b.isRequired
  count : a.count = b.count
  nargs : a.nargs = b.nargs
  help : a.help = b.help
  metavar : a.metavar = b.metavar
  names : a.names = b.names
  action : a.action = b.action
  bool : a.toBool = b.toBool
  string : a.getString = b.getString
  printed : a.print = b.print
  number : a.readNumber = b.readNumber
  vector : a.readVector = b.readVector
  vecvec : a.readVecVec = b.readVecVec
  size : a.size = b.size
  index : ∀ i, a.index i = b.index i

/-- The copy an operation is about (made or destroyed by, or used by). -/
def _root_.BletArgs.CopyOp.on : CopyOp → Option Nat
  | .call _ | .copy _ => none
  | .drop i | .flag i _ | .action i _ | .nargs i _ | .defaults i _ | .required i _ | .help i _ | .metavar i _
  | .valid i _ _ => some i

/-- The world after these steps (a program that exited, ran into undefined behaviour or hangs makes no further step). -/
def worldAfter (scan : Str → Option D) : World D → List CopyOp → World D
  | w, [] => w
  | w, op :: ops => if (w.step scan op).2.goesOn then worldAfter scan (w.step scan op).1 ops else (w.step scan op).1

/-- How the calls on the parser end, in a program with copies. -/
def callOutcomes (scan : Str → Option D) : World D → List CopyOp → List (Res Unit)
  | _, [] => []
  | w, op :: ops =>
    (match op with | .call _ => [(w.step scan op).2] | _ => []) ++
      if (w.step scan op).2.goesOn then callOutcomes scan (w.step scan op).1 ops else []

/-- The program without its copies. -/
def callsOf (ops : List CopyOp) : List Op := ops.filterMap fun | .call op => some op | _ => none

/-- The `i`-th copy exists. -/
def Live (w : World D) (i : Nat) (c : Copy D) : Prop := w.copies[i]? = some (some c)

/-- The validator (its address) that a call gives to the parser. -/
def _root_.BletArgs.Op.givesValid : Op → List Nat
  | .valid _ (some v) _ => [v.id]
  | _ => []

/-- No argument of the parser has one of these validators. -/
def HasNoneOf (ids : List Nat) (st : State D) : Prop := ∀ s ∈ st.arguments, ∀ v, s.arg.valid = some v → v.id ∉ ids

/-- The steps about copies that concern the copies only, `ids` being the validators that are only for copies: copying an
argument that owns no validator, using a copy that exists, without `flag()`, without help and version actions, and
handing over to it no validators but these; these are not given to the parser. -/
def Apart (ids : List Nat) (w : World D) : CopyOp → Prop
  | .call op => ∀ v ∈ op.givesValid, v ∉ ids
  | .copy ref => ∃ s, w.st.atObj ref = some s ∧ (∀ v, s.arg.valid = some v → s.arg.validDeletable = false)
  | .drop i | .defaults i _ | .required i _ | .help i _ | .metavar i _ => ∃ c, Live w i c
  | .flag _ _ => False
  | .action i a => ∃ c, Live w i c ∧ c.arg.action ≠ .help ∧ c.arg.action ≠ .version ∧ a ≠ .help ∧ a ≠ .version
  | .nargs i _ => ∃ c, Live w i c ∧ c.arg.action ≠ .help ∧ c.arg.action ≠ .version
  | .valid i v d => (∃ c, Live w i c) ∧ (v = none ∨ d = false ∨ ∃ x, v = some x ∧ x.id ∈ ids)

/-- All steps of the program are such. -/
def ApartAll (ids : List Nat) (scan : Str → Option D) : World D → List CopyOp → Prop
  | _, [] => True
  | w, op :: ops => Apart ids w op ∧ ((w.step scan op).2.goesOn = true → ApartAll ids scan (w.step scan op).1 ops)

/-- The validators that come into the ownership of a copy: with the argument copied, or by `valid()` on the copy. -/
def takes (w : World D) : CopyOp → List Nat
  | .copy ref =>
    match w.st.atObj ref with
    | some s => match s.arg.valid with | some v => if s.arg.validDeletable then [v.id] else [] | none => []
    | none => []
  | .valid i (some v) true => match w.copies[i]? with | some (some _) => [v.id] | _ => []
  | _ => []

/-- The same for all steps made by a program. -/
def takesAll (scan : Str → Option D) : World D → List CopyOp → List Nat
  | _, [] => []
  | w, op :: ops => takes w op ++ if (w.step scan op).2.goesOn then takesAll scan (w.step scan op).1 ops else []

/-- The validators the copies own now. -/
def ownedByCopies (w : World D) : List Nat :=
  w.copies.flatMap fun
    | some c => match c.arg.valid with | some v => if c.arg.validDeletable then [v.id] else [] | none => []
    | none => []

end Spec
end BletArgs
