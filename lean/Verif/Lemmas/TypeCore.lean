import Verif.Lemmas.Steps
import Verif.Spec.Kinds
/-
`typeConstructor_`, separated into its decision and its effect.
-/
namespace BletArgs
open Spec
variable {D : Type}

/-- The decision taken by `typeConstructor_`. -/
inductive TC where
  | set (t : Ty) (n : Nat) (act : Action)
  | setHelp
  | setVersion
  | throwPos
  | throwHelp
  | throwVersion
  | keep
  deriving DecidableEq

def tcCore (positional : Bool) (act : Action) (n : Nat) (hFree vFree : Bool) : TC :=
  if positional then
    if n == 1 && act == .none then .set .pos n act
    else if (n == 43 && act == .none) || (n == 1 && act == .infinite) then .set .infinitePos 1 .infinite
    else if decide (n > 1) && act == .none then .set .numberPos n act
    else if decide (n > 1) && act == .infinite then .set .infiniteNumberPos n act
    else .throwPos
  else if n == 0 || act == .storeTrue then .set .boolean 0 act
  else if act == .storeFalse then .set .reverse 0 act
  else if act == .help then if hFree then .setHelp else .throwHelp
  else if act == .version then if vFree then .setVersion else .throwVersion
  else if n == 1 && act == .none then .set .simple n act
  else if (n == 43 && act == .none) || act == .infinite then .set .infinite 1 .infinite
  else if decide (n > 1) && act == .none then .set .number n act
  else if n == 1 && act == .append then .set .multi n act
  else if decide (n > 1) && act == .append then .set .multiNumber n act
  else if n == 1 && act == .extend then .set .multiInfinite n act
  else if decide (n > 1) && act == .extend then .set .multiNumberInfinite n act
  else .keep

def posExn (a : Argument D) : Exn :=
  ⟨.argument, a.front, "positional argument cannot use with this action or this nargs".toList⟩
def helpExn (a : Argument D) : Exn := ⟨.argument, a.front, "help action already defined".toList⟩
def versionExn (a : Argument D) : Exn := ⟨.argument, a.front, "version action already defined".toList⟩

def TC.apply (self : Nat) (h v : Option Nat) (a : Argument D) : TC → Argument D × Option Nat × Option Nat × Res Unit
  | .set t n act => ({ a with type := t, nargs := n, action := act }, h, v, .ok ())
  | .setHelp => ({ a with type := .help, nargs := 0 }, some self, v, .ok ())
  | .setVersion => ({ a with type := .version, nargs := 0 }, h, some self, .ok ())
  | .throwPos => (a, h, v, .throw (posExn a))
  | .throwHelp => (a, h, v, .throw (helpExn a))
  | .throwVersion => (a, h, v, .throw (versionExn a))
  | .keep => (a, h, v, .ok ())

theorem typeConstructor_core (self : Nat) (h v : Option Nat) (a : Argument D) :
    a.typeConstructor self h v =
      (tcCore a.isPositional a.action a.nargs (h == none || h == some self) (v == none || v == some self)).apply
        self h v a := by
  unfold tcCore Argument.typeConstructor
  simp only [apply_ite (TC.apply self h v a)]
  rfl

/-- The decision follows the documented table. -/
theorem tcCore_kind (p : Bool) (act : Action) (n : Nat) (hf vf : Bool) :
    match kindOf p act n with
    | none => tcCore p act n hf vf = .throwPos
    | some (.help, m) => tcCore p act n hf vf = (if hf then .setHelp else .throwHelp) ∧ m = 0 ∧ act = .help ∧ p = false
    | some (.version, m) =>
      tcCore p act n hf vf = (if vf then .setVersion else .throwVersion) ∧ m = 0 ∧ act = .version ∧ p = false
    | some (k, m) => tcCore p act n hf vf =
        .set k m (if k = .infinite ∨ k = .infinitePos then .infinite else act) := by
  cases p <;> cases act <;> unfold kindOf tcCore <;>
    (by_cases h0 : n = 0
     · subst h0; simp
     · by_cases h1 : n = 1
       · subst h1; simp
       · by_cases h43 : n = 43
         · subst h43; simp
         · have : n > 1 := by omega
           simp [h0, h1, h43, this])

end BletArgs
