import Verif.Spec.Api
/-
Specification: parsers that differ only in how they answer when help or version is asked for.
-/
namespace BletArgs
namespace Spec
variable {D : Type}

/-- The calls that say how a parse answers when help or version is asked for. -/
def Op.isAnswer : Op → Bool
  | .setVersion .. | .setHelpException .. | .setVersionException .. => true
  | _ => false

/-- Two parsers that differ in the version text and the two exception modes at most. -/
def SameButAnswers (s s' : State D) : Prop :=
  ∃ (v : Str) (h x : Bool), s' = { s with version := v, isHelpException := h, isVersionException := x }

/-- The two answers to a parse that asks for help: exit after printing the usage, or the exception with it. -/
def AnswersHelp (usage : Str) (r : Res Unit) : Prop :=
  r = .throw ⟨.help, [], usage⟩ ∨ r = .exit (usage ++ "\n".toList)

/-- The two answers to a parse that asks for the version. -/
def AnswersVersion (version : Str) (r : Res Unit) : Prop :=
  r = .throw ⟨.version, [], version⟩ ∨ r = .exit (version ++ "\n".toList)

/-- Two outcomes of a parse that are the same, or both the usage (the same text), or each the version text of its own parser. -/
def SameParse (v v' : Str) (r r' : Res Unit) : Prop :=
  r' = r ∨ (∃ usage, AnswersHelp usage r ∧ AnswersHelp usage r') ∨ (AnswersVersion v r ∧ AnswersVersion v' r')

/-- Two outcomes of a call that are the same, or both the usage (the same text), or both the version text. -/
def SameAnswer (r r' : Res Unit) : Prop :=
  r' = r ∨ (∃ usage, AnswersHelp usage r ∧ AnswersHelp usage r') ∨ ∃ v v', AnswersVersion v r ∧ AnswersVersion v' r'

end Spec
end BletArgs
