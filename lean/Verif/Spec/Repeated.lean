import Verif.Spec.Within
/-
Specification: repeated calls in a statement.
-/
namespace BletArgs.Spec

/-- The calls about one thing, in their order. -/
def callsAbout (k : Concern) (cs : List Call) : List Call := cs.filter (·.concern = k)

/-- Two lists of calls on one argument that make the same last call of each of `help`, `metavar` and `valid` – and of
`required`, if the argument is an option; for a positional argument they make the same calls of `required` –, the same calls
about its kind in the same order, and give the same flags. The order of calls about different things, and the earlier calls
of the four functions, are arbitrary. -/
structure SameInTheEnd (positional : Bool) (cs cs' : List Call) : Prop where
  flag : (callsAbout .flag cs).Perm (callsAbout .flag cs')
  kind : callsAbout .kind cs' = callsAbout .kind cs
  help : (callsAbout .help cs').getLast? = (callsAbout .help cs).getLast?
  metavar : (callsAbout .metavar cs').getLast? = (callsAbout .metavar cs).getLast?
  valid : (callsAbout .valid cs').getLast? = (callsAbout .valid cs).getLast?
  required : (callsAbout .required cs').getLast? = (callsAbout .required cs).getLast?
  moves : positional = true → callsAbout .required cs' = callsAbout .required cs

/-- The same of two statements; whether the argument they begin with is positional. -/
inductive SameEffect {D : Type} (st : State D) : Chain → Chain → Prop
  | new {names : List Str} {cs cs' : List Call} :
      SameInTheEnd (asksPositional names) cs cs' → SameEffect st (.new names cs) (.new names cs')
  | through {ref : Nat} {s : Slot D} {cs cs' : List Call} :
      st.atObj ref = some s → SameInTheEnd s.arg.isPositional cs cs' → SameEffect st (.through ref cs) (.through ref cs')

/-- The same of programs that declare arguments, statement by statement. -/
inductive SameEffects : List Chain → List Chain → Prop
  | nil : SameEffects [] []
  | cons {names : List Str} {cs cs' : List Call} {ds ds' : List Chain} :
      SameInTheEnd (asksPositional names) cs cs' → SameEffects ds ds' →
      SameEffects (.new names cs :: ds) (.new names cs' :: ds')

end BletArgs.Spec
