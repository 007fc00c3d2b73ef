import Verif.Model.State
import Verif.Spec.Text
/-
Specification of the generated usage text: what is shown for one argument, and how a text is laid out.
-/
namespace BletArgs.Spec
variable {D : Type}

/-- `n` copies of `s`, separated by a space. -/
def copies (n : Nat) (s : Str) : Str := List.intercalate [' '] (List.replicate n s)

/-- `n` spaces. -/
def blanks (n : Nat) : Str := List.replicate n ' '

/-- Upper case (`Char.toUpper` changes ASCII letters only). -/
def upper (s : Str) : Str := s.map Char.toUpper

/-- The name under which the value of an option is shown when the user gave none: its first long flag, or else its
first flag, without dashes. -/
def valueName (flags : List Str) : Str :=
  match flags.find? fun f => ['-', '-'].isPrefixOf f with
  | some f => f.drop 2
  | none => (flags.headD []).drop 1

/-- What is shown for the values of an option (`metavar`): the text given by the user, or else the upper-cased name, with
an ellipsis when the number of values is free, once per value otherwise. -/
def metavarShown (a : Argument D) : Str :=
  if a.metavar ≠ [] then a.metavar
  else if a.action = .infinite ∨ a.nargs = 43 then upper (valueName a.names) ++ "...".toList
  else copies (max a.nargs 1) (upper (valueName a.names))

/-- Options that take no value show none. -/
def valuesShown (a : Argument D) : Str :=
  match a.type with
  | .boolean | .reverse | .help | .version | .none => []
  | _ => [' '] ++ metavarShown a

/-- Required arguments are shown as they are, the others in square brackets. -/
def maybe (a : Argument D) (s : Str) : Str := if a.isRequired then s else ['['] ++ s ++ [']']

/-- What the usage line shows for an argument: the first flag and the values of an option; the name of a positional
argument, as many times as it takes words, `{…}...` marking the part that may repeat. -/
def item (a : Argument D) : Str :=
  let name := a.names.headD []
  maybe a <|
    match a.type with
    | .pos => name
    | .numberPos => copies a.nargs name
    | .infinitePos => name ++ " {".toList ++ name ++ "}...".toList
    | .infiniteNumberPos => "{".toList ++ copies a.nargs name ++ "}...".toList
    | _ => name ++ valuesShown a

/-- First column of the row of an argument: its name, or all its flags and its values. -/
def label (a : Argument D) : Str :=
  if a.isPositional then a.names.headD [] else commaSep a.names ++ valuesShown a

/-- Help text of the row of an argument. -/
def helpShown (a : Argument D) : Str :=
  a.help ++
    (if a.isRequired then " (required)".toList
     else if a.dflt = [] then [] else " (default: ".toList ++ a.dflt ++ ")".toList)

/-- `lines` is `text` broken at spaces and line ends only, in lines of at most `width` characters (or with no space
to break at). -/
def Wrapped (width : Nat) (text : Str) (lines : List Str) : Prop :=
  (text = [] ∧ lines = [] ∨ Pieces lines text) ∧
  ∀ l ∈ lines, '\n' ∉ l ∧ (l.length ≤ width ∨ ∀ k, k ≤ width → l[k]? ≠ some ' ')

/-- `text` is a row: `label` after `pad` spaces, then the lines of `help`, all starting at column
`pad + args + sep`; the first one is on the line of the label when this one has at most `args` characters. -/
def Row (pad args sep width : Nat) (label help text : Str) : Prop :=
  ∃ gap lines, text = blanks pad ++ label ++ gap ++ List.intercalate ('\n' :: blanks (pad + args + sep)) lines ∧
    Wrapped width help lines ∧
    ((label.length ≤ args ∧ ∃ k, gap = blanks k ∧ pad + label.length + k = pad + args + sep) ∨
     (args < label.length ∧ gap = '\n' :: blanks (pad + args + sep)))

/-- One row per argument, in the same order. -/
inductive Rows (pad args sep width : Nat) : List (Argument D) → List Str → Prop
  | nil : Rows pad args sep width [] []
  | cons {a as r rs} : Row pad args sep width (label a) (helpShown a) r → Rows pad args sep width as rs →
      Rows pad args sep width (a :: as) (r :: rs)

/-- A section with its title; nothing when there is no row. -/
def section_ (title : Str) (rows : List Str) : Str :=
  if rows = [] then [] else "\n\n".toList ++ title ++ ":\n".toList ++ List.intercalate ['\n'] rows

/-- A block of text: nothing for no text, otherwise an empty line and the lines of the text. -/
def Block (width : Nat) (text shown : Str) : Prop :=
  (text = [] ∧ shown = []) ∨
  (text ≠ [] ∧ ∃ lines, Wrapped width text lines ∧ shown = '\n' :: lines.flatMap fun l => '\n' :: l)

/-- The text of a line of items: a space before each. -/
def itemsText (items : List Str) : Str := items.flatMap fun i => ' ' :: i

/-- The text of the usage line: `head`, the items of the first line, and the items of every other line, indented by the
width of `head`. -/
def usageLayout (head : Str) : List (List Str) → Str
  | [] => head
  | first :: others => head ++ itemsText first ++ others.flatMap fun l => '\n' :: blanks head.length ++ itemsText l

/-- The arguments of a parser that are options, resp. positional, in listing order. -/
def optionsOf (st : State D) : List (Argument D) := (st.arguments.map (·.arg)).filter (!·.isPositional)
/-- See `optionsOf`. -/
def positionalsOf (st : State D) : List (Argument D) := (st.arguments.map (·.arg)).filter (·.isPositional)

/-- The items of the usage line: options, then positional arguments, with `--` between them if there are both. -/
def usageItems (st : State D) : List Str :=
  (optionsOf st).map item ++ (if optionsOf st ≠ [] ∧ positionalsOf st ≠ [] then ["--".toList] else []) ++
    (positionalsOf st).map item

/-- The total width of the usage text. -/
def totalWidth (st : State D) : Nat := st.padWidth + st.argsWidth + st.sepWidth + st.helpWidth

/-- `base` is the part of `path` after the last `/` (all of it if there is none). -/
def BaseName (path base : Str) : Prop :=
  '/' ∉ base ∧ (path = base ∨ ∃ dir, path = dir ++ '/' :: base)

end BletArgs.Spec
