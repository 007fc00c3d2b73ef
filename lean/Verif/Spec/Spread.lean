import Verif.Spec.Within
/-
Specification: the same option, its flags given in another way.
-/
namespace BletArgs.Spec

/-- The flags given by calls of `flag`. -/
def flagsOf (cs : List Call) : List Str := cs.filterMap fun | .flag f => some f | _ => none

/-- The other calls. -/
def othersOf (cs : List Call) : List Call := cs.filter (·.concern ≠ .flag)

/-- The statements `args.addArgument(names)…;` and `args.addArgument(names')…;` give one option the same flags, whether in
the call of `addArgument` or in calls of `flag`; the other calls are the same. -/
structure SameFlags (names : List Str) (cs : List Call) (names' : List Str) (cs' : List Call) : Prop where
  option : asksPositional names = false
  option' : asksPositional names' = false
  given' : names' ≠ []
  flags : ∀ f, f ∈ names' ∨ f ∈ flagsOf cs' ↔ f ∈ names ∨ f ∈ flagsOf cs
  /-- `flag` is called once for each flag that was not given to `addArgument`. -/
  once : (flagsOf cs').Nodup
  news : ∀ f ∈ flagsOf cs', f ∉ names'
  others : Rearranged (othersOf cs) (othersOf cs')

/-- Statements that declare the same argument. -/
inductive SameArgument : Chain → Chain → Prop
  | flags {names names' : List Str} {cs cs' : List Call} :
      SameFlags names cs names' cs' → SameArgument (.new names cs) (.new names' cs')
  | calls {c c' : Chain} : SameStatement c c' → SameArgument c c'

/-- Programs that declare the same arguments, statement by statement. -/
inductive SameArguments : List Chain → List Chain → Prop
  | nil : SameArguments [] []
  | cons {c c' : Chain} {cs cs' : List Chain} : SameArgument c c' → SameArguments cs cs' → SameArguments (c :: cs) (c' :: cs')

end BletArgs.Spec
