import Verif.Spec.Sig
import Verif.Spec.Position
/-
Specification: which flags a token could name, and parsers with more options than others.
-/
namespace BletArgs.Spec

/-- The token could be read as naming the flag, if it were registered: `--flag`, `--flag=value`, `-flag` in
alternative mode, or a letter of the short token (also a letter of a value attached to another option). -/
inductive Mentions (tok : Str) : Str → Prop
  | long {name : Str} {eq : Option Str} : LongTok tok → Splits tok name eq → Mentions tok name
  | alternative {name : Str} {eq : Option Str} : ShortTok tok → Splits tok name eq → Mentions tok ('-' :: name)
  | letter {cs : List Char} {c : Char} {eq : Option Str} : ShortTok tok → Splits tok ('-' :: cs) eq → c ∈ cs →
      Mentions tok ['-', c]

/-- No token before `--` could be read as naming one of the flags. -/
def Silences (flags : Str → Prop) (line : List Str) : Prop :=
  ∀ front, Front line front → ∀ tok ∈ front, ∀ f, Mentions tok f → ¬flags f

end BletArgs.Spec

namespace BletArgs
open Spec
variable {D : Type}

/-- The name is one of those of the new options (the objects chosen by `new`). -/
def NewName (new : Nat → Bool) (st' : State D) (name : Str) : Prop :=
  ∃ s ∈ st'.arguments, new s.obj = true ∧ name ∈ s.arg.names

/-- `st'` is `st` with more options: the objects chosen by `new`. They are not required, have no destination and are
neither the help nor the version option; everything else (the other arguments in their order, what the other names
stand for, the settings) is the same. -/
structure Extends (new : Nat → Bool) (st st' : State D) : Prop where
  same : st.arguments = st'.arguments.filter fun s => !new s.obj
  option : ∀ s ∈ st'.arguments, new s.obj = true →
    s.arg.isPositional = false ∧ s.arg.isRequired = false ∧ s.arg.dest = none ∧
    st'.helpOption ≠ some s.obj ∧ st'.versionOption ≠ some s.obj
  names : ∀ name, NewName new st' name ∨ st'.getArgument name = st.getArgument name
  settings : st'.binaryName = st.binaryName ∧ st'.helpOption = st.helpOption ∧ st'.versionOption = st.versionOption ∧
    st'.version = st.version ∧ st'.isAlternative = st.isAlternative ∧ st'.isStrict = st.isStrict ∧
    st'.isHelpException = st.isHelpException ∧ st'.isVersionException = st.isVersionException ∧
    st'.additional = st.additional ∧ st'.destLog = st.destLog

/-- The same outcome of a call, up to the text of the usage: the same exception, the same success, or help in both
cases (as an exception or as text printed before exiting). -/
def SameButUsage (r r' : Res Unit) : Prop :=
  r' = r ∨ (∃ u u', r = .throw ⟨.help, [], u⟩ ∧ r' = .throw ⟨.help, [], u'⟩) ∨ ∃ u u', r = .exit u ∧ r' = .exit u'

end BletArgs
