import Verif.Model.Lists
/-
Specification of the lists of strings a program gives to the library.
-/
namespace BletArgs.Spec
variable {D : Type}

/-- The string meant by a text of the program: the array up to its first NUL, the pointed text, the string itself. -/
inductive Says : Text → Str → Prop
  | array (s rest : List Char) : '\x00' ∉ s → Says (.array (s ++ '\x00' :: rest)) s
  | pointer (s : Str) : Says (.pointer (some s)) s
  | string (s : Str) : Says (.string s) s

/-- The strings meant by several texts, one by one. -/
inductive SaysAll : List Text → List Str → Prop
  | nil : SaysAll [] []
  | cons {t : Text} {s : Str} {ts : List Text} {ss : List Str} : Says t s → SaysAll ts ss → SaysAll (t :: ts) (s :: ss)

/-- The strings a new list is made of: those given, in their order; for a number, as many empty strings. -/
inductive Holds : Source → List Str → Prop
  | empty : Holds .empty []
  | size (n : Nat) : Holds (.size n) (List.replicate n [])
  | arrayOf {ts : List Text} {ss : List Str} : SaysAll ts ss → Holds (.arrayOf ts) ss
  | one {t : Text} {s : Str} : Says t s → Holds (.one t) [s]
  | list (l : List Str) : Holds (.list l) l
  | vector (l : List Str) : Holds (.vector (l.map some)) l

/-- The expression `base + t1 + … + tn`. -/
def sumOf (base : VExpr) (ts : List Text) : VExpr := ts.foldl .plus base

/-- `Adds x c ss`: a step of the program adds the strings `ss` to the variable `x`, which is the case when its expression is
a sum that starts with `x`. -/
inductive Adds (x : Nat) (c : VCall) : List Str → Prop
  | sum {ts : List Text} {ss : List Str} : c.expr = sumOf (.var x) ts → SaysAll ts ss → Adds x c ss
  | other {y : Nat} {ts : List Text} : c.expr = sumOf (.var y) ts → y ≠ x → Adds x c []
  | new {s : Source} {ts : List Text} : c.expr = sumOf (.new s) ts → Adds x c []

/-- A run of the program: the steps done, each of which returned or threw an exception that was caught. -/
inductive VRun (scan : Str → Option D) : Env → State D → List VCall → Env → State D → Prop
  | nil {env : Env} {st : State D} : VRun scan env st [] env st
  | cons {env env' : Env} {st st' : State D} {c : VCall} {cs : List VCall} :
      (runVCall scan env st c).2.2.goesOn = true →
      VRun scan (runVCall scan env st c).1 (runVCall scan env st c).2.1 cs env' st' → VRun scan env st (c :: cs) env' st'

end BletArgs.Spec
