import Verif.Spec.Mention
import Verif.Spec.Surplus
/-
Specification: parsers with more arguments than others, options and positional arguments, that a command line does not
reach.
-/
namespace BletArgs
open Spec
variable {D : Type}

/-- `st'` is `st` with more arguments: the objects chosen by `new`. They are not required, have no destination and are
neither the help nor the version option; positional arguments among them stand behind the old ones; everything else (the
other arguments in their order, what the other names stand for, the settings) is the same. -/
structure Spare (new : Nat → Bool) (st st' : State D) : Prop where
  same : st.arguments = st'.arguments.filter fun s => !new s.obj
  plain : ∀ s ∈ st'.arguments, new s.obj = true →
    s.arg.isRequired = false ∧ s.arg.dest = none ∧ st'.helpOption ≠ some s.obj ∧ st'.versionOption ≠ some s.obj
  behind : (st'.arguments.filter fun s => s.arg.isPositional).Pairwise fun s t => new s.obj = true → new t.obj = true
  names : ∀ name, NewName new st' name ∨ st'.getArgument name = st.getArgument name
  settings : st'.binaryName = st.binaryName ∧ st'.helpOption = st.helpOption ∧ st'.versionOption = st.versionOption ∧
    st'.version = st.version ∧ st'.isAlternative = st.isAlternative ∧ st'.isStrict = st.isStrict ∧
    st'.isHelpException = st.isHelpException ∧ st'.isVersionException = st.isVersionException ∧
    st'.additional = st.additional ∧ st'.destLog = st.destLog

/-- However the command line is read, no word of it is surplus (nor refused as such in strict mode). -/
def Spec.NoSurplus (st : State D) (line : List Str) : Prop :=
  ∀ evs err, Line st.sig st.places line evs err → extras evs = [] ∧ ∀ w, err ≠ some (surplusError w)

/-- The call configures argument `ref`: it is one of `nargs`, `defaults`, `help`, `metavar`, `valid`, and `action` for an
action that makes it neither the help nor the version option. -/
def Spec.Configures (ref : Nat) : Op → Prop
  | .nargs r _ | .defaults r _ | .help r _ | .metavar r _ | .valid r _ _ => r = ref
  | .action r act => r = ref ∧ act ≠ .help ∧ act ≠ .version
  | _ => False

/-- `st'` is `st` after calls that configure argument `ref`, made one after the other; an exception is caught. -/
inductive Spec.Configured (scan : Str → Option D) (ref : Nat) : State D → State D → Prop
  | refl (st : State D) : Configured scan ref st st
  | step {st st' : State D} (op : Op) : Configured scan ref st st' → Configures ref op →
      (BletArgs.step scan st' op).2.goesOn = true → Configured scan ref st (BletArgs.step scan st' op).1

end BletArgs
