import Verif.Model.Looking
/-
Specification: histories with user code that consults the parser, and what such code sees.
-/
namespace BletArgs.Spec
variable {D : Type} {U : Type}

/-- A call, with user code that has a state and consults the parser. -/
def stepLooking (scan : Str → Option D) (code : LookingCode D U) (u : U) (st : State D) : Op → State D × Res Unit × U
  | .parse argv => st.parseLooking scan code u argv
  | .behave .. => (st, .ok (), u)
  | op => ((step scan st op).1, (step scan st op).2, u)

/-- The states of a parser and of a program: each call may be preceded by any change of the state of the program. -/
inductive ReachableLooking (scan : Str → Option D) (code : LookingCode D U) : State D → U → Prop
  | init (u : U) : ReachableLooking scan code State.init u
  | step {st : State D} {u : U} (op : Op) : ReachableLooking scan code st u → (stepLooking scan code u st op).2.1.goesOn = true →
      ReachableLooking scan code (stepLooking scan code u st op).1 (stepLooking scan code u st op).2.2
  | elsewhere {st : State D} {u : U} (u' : U) : ReachableLooking scan code st u → ReachableLooking scan code st u'

/-- The same code, that also records what it is called with and the parser it sees. -/
def watchedAt (v : State D) (code : UserCode U) : UserCode (U × List (UserCall × State D)) where
  check id vs u := ((code.check id vs u.1).1, (code.check id vs u.1).2, u.2 ++ [(.check id vs, v)])
  call w u := ((code.call w u.1).1, (code.call w u.1).2, u.2 ++ [(.write w, v)])
  assigned w u := (code.assigned w u.1, u.2 ++ [(.write w, v)])

def watched (code : LookingCode D U) : LookingCode D (U × List (UserCall × State D)) := fun v => watchedAt v (code v)

/-- An argument of the parser as the words of the command line leave it: marked as present exactly if it occurs; then it
holds the values given, as texts; else its defaults. -/
structure AsGiven (evs : List Event) (s seen : Slot D) : Prop where
  node : seen.node = s.node
  obj : seen.obj = s.obj
  names : seen.arg.names = s.arg.names
  present : seen.arg.isExist = true ↔ Occurs s.node evs
  values : Occurs s.node evs → ¬Valueless s.arg.type →
    seen.arg.toVector = some (s.arg.given (uses s.node evs) (fills s.node evs))
  absent : ¬Occurs s.node evs → seen.arg.argument = s.arg.dflt ∧ seen.arg.count = 0 ∧ ∀ e ∈ seen.arg.elems, e.argument = e.dflt

end BletArgs.Spec
