import Verif.Spec.Chain
/-
Specification: what the calls of one statement are about.
-/
namespace BletArgs.Spec

/-- What a call is about: the flags of the argument; its kind – with everything that depends on it: the values of an
argument and its defaults, which `dest()` drops –; its texts in the usage; whether it is required; its validator. -/
inductive Concern where
  | flag
  | kind
  | help
  | metavar
  | required
  | valid
  deriving DecidableEq

def Call.concern : Call → Concern
  | .flag _ => .flag
  | .action _ | .nargs _ | .defaults _ | .dest _ => .kind
  | .help _ => .help
  | .metavar _ => .metavar
  | .required _ => .required
  | .valid _ _ => .valid

/-- The same calls in another order; those about the same thing – but flags – are made in the same order. -/
structure Rearranged (cs cs' : List Call) : Prop where
  perm : cs.Perm cs'
  order : ∀ k, k ≠ .flag → cs'.filter (·.concern = k) = cs.filter (·.concern = k)

/-- The same statement, its calls in another order. -/
inductive SameStatement : Chain → Chain → Prop
  | new (names : List Str) {cs cs' : List Call} : Rearranged cs cs' → SameStatement (.new names cs) (.new names cs')
  | through (ref : Nat) {cs cs' : List Call} : Rearranged cs cs' → SameStatement (.through ref cs) (.through ref cs')

/-- The same statements, the calls of each in another order. -/
inductive SameStatements : List Chain → List Chain → Prop
  | nil : SameStatements [] []
  | cons {c c' : Chain} {cs cs' : List Chain} :
      SameStatement c c' → SameStatements cs cs' → SameStatements (c :: cs) (c' :: cs')

end BletArgs.Spec
