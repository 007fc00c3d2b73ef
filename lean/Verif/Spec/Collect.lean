import Verif.Spec.Compose
import Verif.Spec.Surplus
/-
Specification: command lines whose surplus words stand together.
-/
namespace BletArgs
open Spec
variable {D : Type}

/-- The conditions on a command line `ws1 ++ ws2 ++ ws3` that all its surplus words up to `ws3` stand together, in `ws2`: the
first part fills the positional arguments exactly and does not end in a list that would go on, `ws2` are words and `ws3`
begins with an option or `--`. -/
structure Spec.Together (st : State D) (ws1 ws2 ws3 : List Str) (evs1 evs3 : List Event) (err : Option Exn) : Prop where
  front : Line st.sig st.places ws1 evs1 none
  noEnd : ∀ t ∈ ws1, ¬EndTok t
  full : unfilled evs1 st.places = []
  closed : ¬LeavesOpen st evs1
  exact : extras evs1 = []
  nonempty : ws2 ≠ []
  words : ∀ w ∈ ws2, WordTok w
  fresh : Fresh st.sig ws3
  back : Line st.sig [] ws3 evs3 err

end BletArgs
