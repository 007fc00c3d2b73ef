import Verif.Model.Calling
import Verif.Spec.Looking
import Verif.Spec.Config
import Verif.Spec.Outcome
/-
Specification: user code that calls the parser it is called from.
-/
namespace BletArgs
variable {D : Type} {U R : Type}

/-- All calls made by the script, started in this state, satisfy `P`. (For scripts that do not parse.) -/
def Script.Obeys (scan : Str → Option D) (P : State D → Op → Prop) : Script D U R → State D → Prop
  | .answer _ _, _ => True
  | .call op u next, st =>
    P st op ∧ ((step scan st op).2.goesOn = true →
      (next (step scan st op).1.visible (step scan st op).2 u).Obeys scan P (step scan st op).1)

namespace Spec

/-- User code that makes no calls. -/
def silentCode (code : LookingCode D U) : CallingCode D U where
  check id vs v u := .answer ((code v).check id vs u).1 ((code v).check id vs u).2
  call w v u := .answer ((code v).call w u).1 ((code v).call w u).2
  assigned w v u := (code v).assigned w u

/-- `parseArguments` ends like this, with these elements of the list visited by its last loop, in this order. -/
def ParseEnds (scan : Str → Option D) (code : CallingCode D U) (st : State D) (u : U) (argv : List Str)
    (st' : State D) (r : Res Unit) (u' : U) (visited : List Nat) : Prop :=
  r ≠ .diverge ∧ ∃ fuel, st.parseCalling scan code fuel u argv = (st', r, u', visited)

/-- `parseArguments` does not end. -/
def ParseEndless (scan : Str → Option D) (code : CallingCode D U) (st : State D) (u : U) (argv : List Str) : Prop :=
  ∀ fuel, (st.parseCalling scan code fuel u argv).2.1 = .diverge

/-- The states of a parser and of a program whose code calls the parser from inside parses: each call may be preceded by any
change of the state of the program. -/
inductive ReachableCalling (scan : Str → Option D) (code : CallingCode D U) : State D → U → Prop
  | init (u : U) : ReachableCalling scan code State.init u
  | step {st : State D} {u : U} (op : Op) : ReachableCalling scan code st u → (∀ argv, op ≠ .parse argv) →
      (step scan st op).2.goesOn = true → ReachableCalling scan code (step scan st op).1 u
  | parse {st : State D} {u : U} {argv : List Str} {st' : State D} {r : Res Unit} {u' : U} {visited : List Nat} :
      ReachableCalling scan code st u → ParseEnds scan code st u argv st' r u' visited → r.goesOn = true →
      ReachableCalling scan code st' u'
  | elsewhere {st : State D} {u : U} (u' : U) : ReachableCalling scan code st u → ReachableCalling scan code st u'

/-- A call that neither adds, removes nor moves arguments, through a reference to an existing argument: everything but
`addArgument`, `removeArguments`, `clear`, `flag`, `required` and `parseArguments`. -/
def InPlace (st : State D) : Op → Prop
  | .action r _ | .nargs r _ | .defaults r _ | .help r _ | .metavar r _ | .valid r _ _ | .dest r _ | .behave r _ _ | .edit r _ =>
    (st.atObj r).isSome = true
  | .add _ | .remove _ | .clear | .flag _ _ | .required _ _ | .parse _ => False
  | _ => True

/-- A call that removes no argument, through a reference to an existing argument: those of `InPlace`, and `addArgument`, `flag`
and `required`. -/
def RemovesNone (st : State D) : Op → Prop
  | .add _ => True
  | .flag r _ | .required r _ => (st.atObj r).isSome = true
  | op => InPlace st op

/-- User code all of whose calls satisfy `P`. `I` is what the program maintains (say: the references it uses lead to
arguments); it does not depend on the values the parser stores, nor on the program name `parseArguments` sets. -/
structure CallsOnly (scan : Str → Option D) (P : State D → Op → Prop) (I : State D → Prop) (code : CallingCode D U) : Prop where
  values : ∀ {st st' : State D} {name : Str}, st'.config = { st.config with binaryName := name } → I st → I st'
  check : ∀ id vs st u, I st →
    (code.check id vs (State.visible st) u).Obeys scan (fun st op => P st op ∧ I (BletArgs.step scan st op).1) st
  call : ∀ w st u, I st →
    (code.call w (State.visible st) u).Obeys scan (fun st op => P st op ∧ I (BletArgs.step scan st op).1) st

/-- Nothing stops the parse before the last loop: the command line asks neither for help nor for the version, and has all
required arguments. -/
structure ReachesLastLoop (st : State D) (evs : List Event) : Prop where
  pointers : ∀ o, st.helpOption = some o ∨ st.versionOption = some o → ∃ s ∈ st.arguments, s.obj = o ∧ ¬Occurs s.node evs
  required : ∀ s ∈ st.arguments, s.arg.isRequired = true → Occurs s.node evs

end Spec
end BletArgs
