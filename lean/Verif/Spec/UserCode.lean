import Verif.Spec.Dest
import Verif.Model.Stateful
/-
Specification: histories with user code that has a state, and what they are compared with.
-/
namespace BletArgs
variable {D : Type} {U : Type}

/-- The argument, without the code of its validator and of its callback: that there are a validator and a destination,
which ones and of what kind is kept. -/
def Argument.mute (a : Argument D) : Argument D :=
  { a with valid := a.valid.map fun v => { v with check := fun _ => .reject },
           dest := a.dest.map fun d => { d with refuses := fun _ => none } }

def Slot.mute (s : Slot D) : Slot D := { s with arg := s.arg.mute }

def State.mute (st : State D) : State D := { st with arguments := st.arguments.map Slot.mute }

namespace Spec

/-- The two parsers are the same in everything but the code of validators and callbacks: same arguments, names, values,
settings, references, validators and destinations, and the same values written so far. -/
def SameButCode (s s' : State D) : Prop := s'.mute = s.mute

/-- A call, with user code that has a state. -/
def stepIn (scan : Str → Option D) (code : UserCode U) (u : U) (st : State D) : Op → State D × Res Unit × U
  | .parse argv => st.parseIn scan code u argv
  | .behave .. => (st, .ok (), u)
  | op => ((step scan st op).1, (step scan st op).2, u)

/-- The states of a parser and of a program: each call may be preceded by any change of the state of the program. -/
inductive ReachableIn (scan : Str → Option D) (code : UserCode U) : State D → U → Prop
  | init (u : U) : ReachableIn scan code State.init u
  | step {st : State D} {u : U} (op : Op) : ReachableIn scan code st u → (stepIn scan code u st op).2.1.goesOn = true →
      ReachableIn scan code (stepIn scan code u st op).1 (stepIn scan code u st op).2.2
  | elsewhere {st : State D} {u : U} (u' : U) : ReachableIn scan code st u → ReachableIn scan code st u'

/-! ### The calls made to user code -/

/-- Something the last loop of a parse does that user code sees: the check of some values by the validator with this
number, a write to a destination (for a callback: a call). -/
inductive UserCall where
  | check (id : Nat) (vs : List Str)
  | write (w : DestWrite)
  deriving DecidableEq

def UserCall.written : UserCall → Option DestWrite
  | .check .. => none
  | .write w => some w

/-- The validator accepted. -/
def VRes.accepts : VRes → Bool
  | .accept _ => true
  | _ => false

/-- The same code, that also records what it is called with, in order, and whether the call was a success: values
accepted, no exception thrown. -/
def recorded (code : UserCode U) : UserCode (U × List (UserCall × Bool)) where
  check id vs u := ((code.check id vs u.1).1, (code.check id vs u.1).2,
    u.2 ++ [(.check id vs, VRes.accepts (code.check id vs u.1).1)])
  call w u := ((code.call w u.1).1, (code.call w u.1).2, u.2 ++ [(.write w, (code.call w u.1).1.isNone)])
  assigned w u := (code.assigned w u.1, u.2 ++ [(.write w, true)])

/-- The check an argument of the parser is due: none without validator or if the argument does not occur, else one, with
the values given. -/
def checkDue (evs : List Event) (s : Slot D) : List UserCall :=
  match s.arg.valid with
  | none => []
  | some v => if Occurs s.node evs then [.check v.id (s.arg.given (uses s.node evs) (fills s.node evs))] else []

end Spec
end BletArgs
