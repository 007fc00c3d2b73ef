import Verif.Props.Registry
import Verif.Model.Usage
import Verif.Model.Valid
import Verif.Model.Read
/-
Support for the transcription of the project's own test suite (`/repo/test`): the expected results written there are
compared with those of the model. These are tests of the model, not proofs of properties.
-/
namespace BletArgs.Check
open BletArgs

/-- The digits at the beginning of a text. -/
def digitsOf : Str → List Nat
  | [] => []
  | c :: cs => if '0' ≤ c ∧ c ≤ '9' then (c.toNat - '0'.toNat) :: digitsOf cs else []

/-- Reading of an integer at the beginning of a text: enough of stream extraction for the numbers of the tests. -/
def scanInt (s : Str) : Option Int :=
  let (neg, t) := match s with
    | '-' :: t => (true, t)
    | t => (false, t)
  match digitsOf t with
  | [] => none
  | ds => let n : Int := (ds.foldl (fun a d => 10 * a + d) 0 : Nat)
    some (if neg then -n else n)

/-- Where `strtod` stops on the numbers of the tests. -/
def endInt (s : Str) : Nat :=
  match s with
  | '-' :: t => if (digitsOf t).isEmpty then 0 else 1 + (digitsOf t).length
  | t => (digitsOf t).length

/-- The calls one after the other on a new object. -/
def run (ops : List Op) : State Int := runOps scanInt State.init ops

/-- `argv`. -/
def argv (ts : List String) : List Str := ts.map String.toList

/-- After the calls `ops`, the call `op` throws this exception. -/
def throws (ops : List Op) (op : Op) (k : ExnKind) (argument what : String) : Bool :=
  (step scanInt (run ops) op).2 == .throw ⟨k, argument.toList, what.toList⟩

/-- `args[name].getString()`. -/
def text (st : State Int) (name : String) : Option Str :=
  match st.getArgument name.toList with
  | .ok s => some s.arg.getString
  | _ => none

/-- `args[name][i].getString()`. -/
def element (st : State Int) (name : String) (i : Nat) : Option Str :=
  match st.getArgument name.toList with
  | .ok s => (s.arg.index i).map Elem.getString
  | _ => none

/-- `args[name][i].getNumber()`. -/
def number (st : State Int) (name : String) (i : Nat) : Option Int :=
  match st.getArgument name.toList with
  | .ok s => (s.arg.index i).bind fun e => e.num
  | _ => none

/-- `args[name][i][j]`. -/
def leaf (st : State Int) (name : String) (i j : Nat) : Option (Leaf Int) :=
  match st.getArgument name.toList with
  | .ok s => (s.arg.index i).bind fun e => match e.index j with | .ok l => some l | _ => none
  | _ => none

end BletArgs.Check
