import Verif.Spec.Position
import Verif.Spec.Outcome
/-
Specification: one command line after another.
-/
namespace BletArgs.Spec

/-- Kinds of arguments that take values until an option follows, however many there are. -/
def Unlimited (k : Ty) : Prop :=
  k = .infinite ∨ k = .multiInfinite ∨ k = .infinitePos ∨ k = .multiNumberInfinite ∨ k = .infiniteNumberPos

/-- The argument an event is about (none for a surplus word). -/
def Event.about : Event → Option Nat
  | .option i _ _ => some i
  | .positional i _ => some i
  | .extra _ => none

/-- The first word of `ws`, if any, is an option or `--`: a list of values before it ends there. -/
def Fresh (sig : Sig) (ws : List Str) : Prop := ∀ t, ws.head? = some t → OptionForm sig t ∨ EndTok t

/-- The positional arguments that received nothing. -/
def unfilled (evs : List Event) (places : List Place) : List Place := places.filter fun p => (fills p.id evs).isEmpty

end BletArgs.Spec

namespace BletArgs
open Spec
variable {D : Type}

/-- The last thing said was about an argument that takes any number of values, and would take more. -/
def LeavesOpen (st : State D) (evs : List Event) : Prop :=
  ∃ ev s, evs.getLast? = some ev ∧ s ∈ st.arguments ∧ ev.about = some s.node ∧ Unlimited s.arg.type

end BletArgs
