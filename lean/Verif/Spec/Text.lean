/-
Specification of text layout: what it means for a list of lines to come from a text.
-/
namespace BletArgs.Spec

/-- `lines` are the pieces of `text` when some line breaks and some runs of spaces are taken as
separators; everything else is kept, in order. (The empty text has no line.) -/
inductive Pieces : List (List Char) → List Char → Prop
  | last (l : List Char) : Pieces [l] l
  | lastNewline (l : List Char) : Pieces [l] (l ++ ['\n'])
  | newline (l : List Char) {ls t} : Pieces ls t → Pieces (l :: ls) (l ++ '\n' :: t)
  | spaces (l : List Char) (n : Nat) {ls t} : Pieces ls t → Pieces (l :: ls) (l ++ List.replicate (n + 1) ' ' ++ t)

/-- The comma-separated text of a list of strings. -/
def commaSep (l : List (List Char)) : List Char := List.intercalate [',', ' '] l

end BletArgs.Spec
