import Verif.Model.Argument
/-
Specification: which kind of argument an action and a number of values make.
-/
namespace BletArgs.Spec

/-- The documented table (`docs/argument.md`, sections "action" and "nargs"); `'+'` is 43. The second
component is the number of values per occurrence or group. -/
def kindOf (positional : Bool) (action : Action) (nargs : Nat) : Option (Ty × Nat) :=
  if positional then
    match action with
    | .none =>
      if nargs = 0 then none
      else if nargs = 1 then some (.pos, 1)
      else if nargs = 43 then some (.infinitePos, 1)
      else some (.numberPos, nargs)
    | .infinite =>
      if nargs = 0 then none
      else if nargs = 1 then some (.infinitePos, 1)
      else some (.infiniteNumberPos, nargs)
    | _ => none
  else if nargs = 0 then some (.boolean, 0)
  else
    match action with
    | .storeTrue => some (.boolean, 0)
    | .storeFalse => some (.reverse, 0)
    | .help => some (.help, 0)
    | .version => some (.version, 0)
    | .none =>
      if nargs = 1 then some (.simple, 1)
      else if nargs = 43 then some (.infinite, 1)
      else some (.number, nargs)
    | .infinite => some (.infinite, 1)
    | .append => if nargs = 1 then some (.multi, 1) else some (.multiNumber, nargs)
    | .extend => if nargs = 1 then some (.multiInfinite, 1) else some (.multiNumberInfinite, nargs)

/-- How many values `defaults()` accepts for a kind of argument. -/
def DefaultsFit (kind : Ty) (nargs count : Nat) : Prop :=
  match kind with
  | .pos | .simple | .numberPos | .number => count = nargs
  | .infinitePos | .infinite | .multi | .multiInfinite => True
  | .infiniteNumberPos | .multiNumber | .multiNumberInfinite => nargs ∣ count
  | _ => True

/-- Kinds that hold values. -/
def TakesValues (kind : Ty) : Prop :=
  kind ≠ .none ∧ kind ≠ .help ∧ kind ≠ .version ∧ kind ≠ .boolean ∧ kind ≠ .reverse

end BletArgs.Spec
