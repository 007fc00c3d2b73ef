import Verif.Spec.Blocks
import Verif.Spec.Compose
/-
Specification: what the parser makes of words, without the words themselves.
-/
namespace BletArgs.Spec

/-- The values with every text left out: how many there are, in how many groups. -/
def Values.blank : Values → Values
  | .nothing => .nothing
  | .single _ => .single []
  | .list vs => .list (vs.map fun _ => [])
  | .groups gs => .groups (gs.map fun g => g.map fun _ => [])

/-- The event with every text left out: which argument, and how many values. -/
def Event.blank : Event → Event
  | .option i att v => .option i att v.blank
  | .positional i v => .positional i v.blank
  | .extra _ => .extra []

end BletArgs.Spec
