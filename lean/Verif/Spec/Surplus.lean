import Verif.Spec.Outcome
/-
Specification: the surplus words of a command line and a new positional argument.
-/
namespace BletArgs.Spec

/-- The first surplus word becomes the value of argument `id`; everything else is read as before. -/
def givenTo (id : Nat) : List Event → List Event
  | [] => []
  | .extra w :: evs => .positional id (.single w) :: evs
  | ev :: evs => ev :: givenTo id evs

/-- The exception with which a strict parser refuses the surplus word `w`. -/
def surplusError (w : Str) : Exn := ⟨.parse, w, "invalid additional argument".toList⟩

end BletArgs.Spec
