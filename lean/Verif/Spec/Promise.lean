import Verif.Spec.Usage
import Verif.Spec.Write
/-
Specification: how a user reads the values shown in the usage text.
-/
namespace BletArgs.Spec
variable {D : Type}

/-- What the usage promises about the number of values: none, exactly `n`, or any number. -/
inductive Promise where
  | nothing
  | times (n : Nat)
  | any

/-- How it is written: `NAME` once per value, or `NAME...`. -/
def Promise.text (name : Str) : Promise → Str
  | .nothing => []
  | .times n => ' ' :: copies n name
  | .any => ' ' :: (name ++ "...".toList)

/-- The values keep the promise. -/
def Promise.Kept : Promise → List Str → Prop
  | .nothing, vs => vs = []
  | .times n, vs => vs.length = n
  | .any, _ => True

/-- The name under which the values of an option are shown. -/
def shownName (a : Argument D) : Str := upper (valueName a.names)

end BletArgs.Spec
