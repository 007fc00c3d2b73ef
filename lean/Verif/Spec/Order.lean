import Verif.Spec.Api
import Verif.Spec.Tokens
/-
Specification of the order in which arguments are listed.
-/
namespace BletArgs.Spec
variable {D : Type}

/-- 0: required options, 1: other options, 2: required positionals, 3: other positionals. -/
def rank (positional required : Bool) : Nat :=
  (if positional then 2 else 0) + (if required then 0 else 1)

/-- Flags: short ones before the others, then alphabetically (`<` is the lexicographic order of lists). -/
def FlagBefore (f g : List Char) : Prop :=
  (ShortTok f ∧ ¬ShortTok g) ∨ ((ShortTok f ↔ ShortTok g) ∧ f < g)

/-- `a` is listed before `b` whatever the order of insertion: smaller rank, or two options of equal rank
compared by their first flag. Positionals of equal rank are not ordered (insertion order decides). -/
def ListedBefore (a b : Argument D) : Prop :=
  rank a.isPositional a.isRequired < rank b.isPositional b.isRequired ∨
  (rank a.isPositional a.isRequired = rank b.isPositional b.isRequired ∧ a.isPositional = false ∧
    FlagBefore a.front b.front)

/-- The names of the positional arguments in listing order: the required ones and the others. -/
def positionals (st : State D) (required : Bool) : List Str :=
  ((st.arguments.map (·.arg)).filter fun a => a.isPositional && (a.isRequired == required)).map Argument.front

/-- The queues of required and of other positionals, as a call that ended with `res` changes them: a new
positional goes last among the others; one made required goes from the others to the end of the required
ones; one made optional again goes in front of the others; removed ones leave; nothing else counts. -/
def requeue (st : State D) (op : Op) (res : Res Unit) (q : List Str × List Str) : List Str × List Str :=
  match op, res with
  | .add [n], .ok _ => if n.head? = some '-' then q else (q.1, q.2 ++ [n])
  | .remove names, .ok _ => (q.1.filter (!names.contains ·), q.2.filter (!names.contains ·))
  | .clear, _ => ([], [])
  | .required ref b, _ =>
    match st.atObj ref with
    | none => q
    | some s =>
      if b = true ∧ s.arg.front ∈ q.2 then (q.1 ++ [s.arg.front], q.2.erase s.arg.front)
      else if b = false ∧ s.arg.front ∈ q.1 then (q.1.erase s.arg.front, s.arg.front :: q.2)
      else q
  | _, _ => q

end BletArgs.Spec
