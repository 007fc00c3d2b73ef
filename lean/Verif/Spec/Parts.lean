import Verif.Spec.Usage
/-
Specification: a usage text put together from parts that do not influence each other.
-/
namespace BletArgs.Spec
variable {D : Type}

/-- How the parts of a usage text are written: the usage line, from the total width, the name of the program, the items of the
options and those of the positional arguments; a block of text, from the total width and the text; a row, from the four
widths (padding, arguments, separation, help), the label and the help text. -/
structure UsageWriter where
  line : Nat → Str → List Str → List Str → Str
  block : Nat → Str → Str
  row : Nat → Nat → Nat → Nat → Str → Str → Str

/-- The row of an argument. -/
def UsageWriter.rowOf (w : UsageWriter) (st : State D) (a : Argument D) : Str :=
  w.row st.padWidth st.argsWidth st.sepWidth st.helpWidth (label a) (helpShown a)

/-- The whole text: the parts one after the other. -/
def UsageWriter.text (w : UsageWriter) (st : State D) (base : Str) : Str :=
  w.line (totalWidth st) base ((optionsOf st).map item) ((positionalsOf st).map item) ++
    w.block (totalWidth st) st.description ++
    section_ "positional arguments".toList ((positionalsOf st).map (w.rowOf st)) ++
    section_ "optional arguments".toList ((optionsOf st).map (w.rowOf st)) ++
    w.block (totalWidth st) st.epilog

/-- What an argument contributes to the usage text. -/
def shownOf (a : Argument D) : Bool × Str × Str × Str := (a.isPositional, item a, label a, helpShown a)

/-- What a parser contributes to the usage text: the widths, the name of the program, the texts, and what each argument does. -/
def shownBy (st : State D) : (Nat × Nat × Nat × Nat) × Str × Str × Str × Str × List (Bool × Str × Str × Str) :=
  ((st.padWidth, st.argsWidth, st.sepWidth, st.helpWidth), st.binaryName, st.usage, st.description, st.epilog,
    st.arguments.map fun s => shownOf s.arg)

end BletArgs.Spec
