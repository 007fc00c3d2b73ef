import Verif.Spec.Sig
import Verif.Spec.Kinds
import Verif.Spec.Failing
/-
Specification: what a list of events says about one argument, and the parsers the parsing properties are
about.
-/
namespace BletArgs.Spec

/-- All the strings of an occurrence, in order. -/
def Values.flat : Values → List Str
  | .nothing => []
  | .single v => [v]
  | .list vs => vs
  | .groups gs => gs.flatten

/-- The groups of an occurrence of a grouped argument. -/
def Values.groupList : Values → List (List Str)
  | .groups gs => gs
  | _ => []

/-- The occurrences of option `id`, in order: attached form or not, and the values. -/
def uses (id : Nat) (evs : List Event) : List (Bool × Values) :=
  evs.filterMap fun
    | .option i att vals => if i = id then some (att, vals) else none
    | _ => none

/-- What positional argument `id` received. -/
def fills (id : Nat) (evs : List Event) : List Values :=
  evs.filterMap fun
    | .positional i vals => if i = id then some vals else none
    | _ => none

/-- The surplus words, in order. -/
def extras (evs : List Event) : List Str :=
  evs.filterMap fun
    | .extra w => some w
    | _ => none

/-- Argument `id` occurs on the command line. -/
def Occurs (id : Nat) (evs : List Event) : Prop := uses id evs ≠ [] ∨ fills id evs ≠ []

instance (n : Nat) (evs : List Event) : Decidable (Occurs n evs) := inferInstanceAs (Decidable (_ ∨ _))

/-- The values an occurrence of an argument must have, by kind and `nargs`. -/
inductive ValuesFit (arity : Nat) : Ty → Values → Prop
  | nothing {k : Ty} : Valueless k → ValuesFit arity k .nothing
  | single {k : Ty} (v : Str) : k = .simple ∨ k = .pos → ValuesFit arity k (.single v)
  | one (v : Str) : ValuesFit arity .multi (.list [v])
  | fixed {k : Ty} (vs : List Str) : k = .number ∨ k = .numberPos → vs.length = arity → ValuesFit arity k (.list vs)
  | many {k : Ty} (vs : List Str) : k = .infinite ∨ k = .multiInfinite ∨ k = .infinitePos →
      ValuesFit arity k (.list vs)
  | group (g : List Str) : g.length = arity → ValuesFit arity .multiNumber (.groups [g])
  | groups {k : Ty} (gs : List (List Str)) : k = .multiNumberInfinite ∨ k = .infiniteNumberPos →
      (∀ g ∈ gs, g.length = arity) → ValuesFit arity k (.groups gs)

end BletArgs.Spec

namespace BletArgs
open Spec
variable {D : Type}

/-- The strings (in groups, for a grouped kind) an argument falls back to, from its `defaults()`. -/
def Argument.oldStrings (a : Argument D) : List Str := a.elems.map (·.dflt)
def Argument.oldGroups (a : Argument D) : List (List Str) := a.elems.map fun e => e.subs.map (·.dflt)

/-- The values an argument that occurs gets from the command line, from its occurrences `us` (an option) or
fillings `fs` (a positional argument): the last occurrence of an option with one, `nargs` or a list of
values; all the occurrences of an accumulating option, behind what it held before if the first one has the
form `-oVALUE`; the value of a positional argument; what a positional list held before and its values. -/
def Argument.given (a : Argument D) (us : List (Bool × Values)) (fs : List Values) : List Str :=
  match a.type with
  | .simple | .number | .infinite => ((us.getLast?.map fun u => u.2.flat).getD [])
  | .multi | .multiInfinite =>
    (if (us.head?.map fun u => u.1) = some true then a.oldStrings else []) ++ us.flatMap fun u => u.2.flat
  | .multiNumber | .multiNumberInfinite => us.flatMap fun u => u.2.flat
  | .pos => fs.flatMap Values.flat
  | .numberPos | .infinitePos => a.oldStrings ++ fs.flatMap Values.flat
  | .infiniteNumberPos => a.oldGroups.flatten ++ fs.flatMap Values.flat
  | _ => []

/-- The same for grouped kinds, keeping the groups. -/
def Argument.givenGroups (a : Argument D) (us : List (Bool × Values)) (fs : List Values) : List (List Str) :=
  match a.type with
  | .multiNumber | .multiNumberInfinite => us.flatMap fun u => u.2.groupList
  | .infiniteNumberPos => a.oldGroups ++ fs.flatMap Values.groupList
  | _ => []

/-- The values `vs` after a validator left `out` in their place: the number of values never changes, values the
validator removed from the end stay as given, values it added at the end are ignored. (When it left as many values
as it got these are `out`.) -/
def rewritten (vs out : List Str) : List Str := out.take vs.length ++ vs.drop out.length

/-- `got` are the values `vs` after the validator, if there is one: it accepted them, and the argument holds what it
made of them. -/
def Validated (valid : Option Validator) (vs : List Str) (got : Option (List Str)) : Prop :=
  match valid with
  | none => got = some vs
  | some v => ∃ out, v.check vs = .accept out ∧ got = some (rewritten vs out)

/-- The same for groups: the sizes of the groups never change. -/
def ValidatedGroups (valid : Option Validator) (gs : List (List Str)) (got : Option (List (List Str))) : Prop :=
  match valid with
  | none => got = some gs
  | some v => ∃ out gs', v.check gs.flatten = .accept out ∧ got = some gs' ∧ gs'.map List.length = gs.map List.length ∧
      gs'.flatten = rewritten gs.flatten out

/-- The kind and `nargs` of an argument are a line of the documented table. It is so in every state reached
by a program that did not ignore an exception of `action()` or `nargs()` (`ReachableBy.settled`). -/
def Settled (a : Argument D) : Prop := ∃ act n, kindOf a.isPositional act n = some (a.type, a.nargs)

/-- A parser ready for a command line: it was obtained by any calls – any number of which may have been interrupted by a
failed allocation (C85) –, its arguments have a documented kind, no
`nargs` is so large that `index + nargs` overflows `std::size_t`, it has a help option and a program name is
given, which is not `--`. (A parser without help option parses as one to which the help option was added,
`C55_as_if_added`.) -/
structure Ready (scan : Str → Option D) (st : State D) (argv : List Str) : Prop where
  history : ∃ n, Survives scan Any n st
  settled : ∀ s ∈ st.arguments, Settled s.arg
  small : ∀ s ∈ st.arguments, argv.length + s.arg.nargs < two64
  help : st.helpOption ≠ none
  program : ∃ p, argv.head? = some p ∧ p ≠ ['-', '-']

/-- The parser `st'` shows what the command line said: each argument is there exactly when it occurs, with the
values given to it, and the surplus words were added to the additional arguments. -/
def Shows (st : State D) (evs : List Event) (st' : State D) : Prop :=
  (∀ s ∈ st.arguments, ∃ s', st'.atObj s.obj = some s' ∧ s'.arg.type = s.arg.type ∧
    (s'.arg.isExist = true ↔ Occurs s.node evs) ∧
    s'.arg.count = ((uses s.node evs).map fun u => if u.1 then 2 else 1).sum ∧
    (Occurs s.node evs → ¬Valueless s.arg.type →
      Validated s.arg.valid (s.arg.given (uses s.node evs) (fills s.node evs)) s'.arg.toVector ∧
      (s.arg.type = .multiNumber ∨ s.arg.type = .multiNumberInfinite ∨ s.arg.type = .infiniteNumberPos →
        ValidatedGroups s.arg.valid (s.arg.givenGroups (uses s.node evs) (fills s.node evs)) s'.arg.toVecVec))) ∧
  st'.additional = st.additional ++ extras evs

end BletArgs
