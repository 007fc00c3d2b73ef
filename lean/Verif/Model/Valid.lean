import Verif.Model.Argument
/-
Model of `src/valid.cpp`: the standard validators.
-/
namespace BletArgs
variable {D : Type}

/-- A loop `for each args[i]: if (bad) throw`: the first message produced, else acceptance of the
unchanged vector. -/
def checkEach (bad : Str → Option Str) (args : List Str) : VRes :=
  match args.findSome? bad with
  | some msg => .throwValid msg
  | none => .accept args

/-- `'"' + s + '"'`. -/
def quoted (s : Str) : Str := ['"'] ++ s ++ ['"']

/-- `src/valid.cpp:48-59`, `ValidNumber::isValid`. `strtodEnd s` is the offset of `endPtr` after
`strtod(s, &endPtr)` (0 when no conversion is performed); `endPtr[0] != '\0'` iff it is not the length. -/
def validNumber (strtodEnd : Str → Nat) (args : List Str) : VRes :=
  checkEach (fun s =>
    if s[strtodEnd s]? != none then some (quoted s ++ " is not a number".toList) else none) args

/-- `src/valid.cpp:67-75`, the constructor of `ValidMinMax`: `(min_, max_)`. `lt` is `<` on doubles. -/
def minMaxBounds (lt : D → D → Bool) (min max : D) : D × D :=
  if lt max min then (max, min) else (min, max)

/-- `src/valid.cpp:79-96`, `ValidMinMax::isValid`. `scan` is the stream extraction of a double and
`print` its insertion. -/
def validMinMax (lt : D → D → Bool) (scan : Str → Option D) (print : D → Str) (min max : D)
    (args : List Str) : VRes :=
  let b := minMaxBounds lt min max
  checkEach (fun s =>
    match scan s with
    | none => some (quoted s ++ " is not a number".toList)
    | some x =>
      if lt x b.1 || lt b.2 x then
        some (s ++ " is not between ".toList ++ print b.1 ++ " and ".toList ++ print b.2)
      else none) args

/-- `src/valid.cpp:109-131`, `ValidChoise::isValid`. -/
def validChoise (choises : List Str) (args : List Str) : VRes :=
  checkEach (fun s =>
    if choises.contains s then none
    else some (quoted s ++ " is not a valid choise (".toList ++ joinComma (choises.map quoted) ++ ")".toList))
    args

/-- Kind of file reported by `stat`. -/
inductive FileKind where
  | regular | directory | other
  deriving DecidableEq, Repr

/-- `include/blet/args/valid.h:133-137`, `ValidPath::eMode`. -/
inductive PathMode where
  | all | isFile | isDir
  deriving DecidableEq, Repr

/-- `src/valid.cpp:144-164`, `ValidPath::isValid`. `stat s = none` models a failing `::stat`. -/
def validPath (stat : Str → Option FileKind) (mode : PathMode) (args : List Str) : VRes :=
  checkEach (fun s =>
    match stat s with
    | none => some (quoted s ++ " is not a valid path".toList)
    | some k =>
      if mode == .isDir && k != .directory then some (quoted s ++ " is not a valid directory".toList)
      else if mode == .isFile && k != .regular then some (quoted s ++ " is not a valid file".toList)
      else none) args

end BletArgs
