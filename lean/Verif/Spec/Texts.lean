import Verif.Spec.Api
/-
Specification: parsers that differ only in the texts shown by the usage.
-/
namespace BletArgs
variable {D : Type}

/-- The argument with its help text and metavar erased. -/
def Argument.bare (a : Argument D) : Argument D := { a with help := [], metavar := [] }

/-- The same for a listed argument. -/
def Slot.bare (s : Slot D) : Slot D := { s with arg := s.arg.bare }

/-- The parser with all the texts of the usage erased (those of the arguments, the description, the epilog, the usage
line) and the default widths. Nothing else is touched: not the names, kinds, values, counts, settings, defaults,
validators, destinations, what was written to destinations or the references. -/
def State.bare (st : State D) : State D :=
  { st with
    arguments := st.arguments.map Slot.bare
    description := [], epilog := [], usage := [], padWidth := 2, argsWidth := 20, sepWidth := 2, helpWidth := 56 }


namespace Spec

/-- The calls that only concern the usage: `help`, `metavar`, `setUsage`, `setDescription`, `setEpilog`,
`setUsageWidth`. -/
def Op.isText : Op → Bool
  | .help .. | .metavar .. | .setUsage .. | .setDescription .. | .setEpilog .. | .setUsageWidth .. => true
  | _ => false

/-- Two parsers that differ in the texts of the usage only. -/
def SameButTexts (st st' : State D) : Prop := st'.bare = st.bare

/-- Two outcomes of a call that differ at most in the text of the usage: the same return, exception or text printed at
exit, or the usage of two parsers that differ in their texts only (as help exception or printed at exit). -/
def SameOutcome (D : Type) (r r' : Res Unit) : Prop :=
  r' = r ∨ ∃ t t' : State D, SameButTexts t t' ∧
    ((r = .throw ⟨.help, [], t.getUsage⟩ ∧ r' = .throw ⟨.help, [], t'.getUsage⟩) ∨
     (r = .exit (t.getUsage ++ "\n".toList) ∧ r' = .exit (t'.getUsage ++ "\n".toList)))

end Spec
end BletArgs
