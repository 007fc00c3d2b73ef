/-
Specification of token shapes and of flag syntax, on plain character lists.
-/
namespace BletArgs.Spec

/-- `-x…`: a dash followed by a character that is not a dash. -/
def ShortTok (t : List Char) : Prop := ∃ c r, t = '-' :: c :: r ∧ c ≠ '-'
/-- `--x…`: two dashes followed by at least one character. -/
def LongTok (t : List Char) : Prop := ∃ c r, t = '-' :: '-' :: c :: r
/-- exactly `--`. -/
def EndTok (t : List Char) : Prop := t = ['-', '-']
/-- A plain word: empty, a lone dash, or anything that does not start with a dash. -/
def WordTok (t : List Char) : Prop := t = [] ∨ t = ['-'] ∨ ∃ c r, t = c :: r ∧ c ≠ '-'

/-- A well-formed flag: `-c` with `c ≠ '-'`, or `--` and at least one character. -/
def FlagForm (f : List Char) : Prop := (∃ c, c ≠ '-' ∧ f = ['-', c]) ∨ LongTok f

/-- A well-formed positional name: not empty and not starting with a dash. -/
def NameForm (n : List Char) : Prop := ∃ c r, n = c :: r ∧ c ≠ '-'

/-- `t` is `name=value`, split at the first `'='`. -/
def SplitsAt (t name value : List Char) : Prop := t = name ++ '=' :: value ∧ '=' ∉ name

end BletArgs.Spec
