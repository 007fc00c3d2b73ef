import Verif.Model.State
/-
Model of `src/usage.cpp` and of `Argument::metavarDefault_`.
-/
namespace BletArgs
variable {D : Type}

/-- `std::string(n, ' ')`. -/
def spaces (n : Nat) : Str := List.replicate n ' '

/-- `line.rfind(' ', pos)`: the greatest index `k ≤ pos` with `line[k] == ' '`. -/
def rfindSpace (line : Str) : Nat → Option Nat
  | 0 => if line[0]? == some ' ' then some 0 else none
  | k + 1 => if line[k + 1]? == some ' ' then some (k + 1) else rfindSpace line k

/-- `std::getline` until failure (`src/usage.cpp:58-59`): the lines of `s`; `cur` is the line being read.
A trailing newline does not produce a last empty line. -/
def getlines (cur : Str) : Str → List Str
  | [] => if cur.isEmpty then [] else [cur]
  | c :: rest => if c == '\n' then cur :: getlines [] rest else getlines (cur ++ [c]) rest

/-- `src/usage.cpp:60-73`, the inner loop of `s_multilineWrap` and the final `push_back(line)`, for one
line. The `while` loop is modelled with a step budget; every iteration removes at least one character, so
the budget used by `wrapText` is never exhausted (`wrapLine_budget`). -/
def wrapLine (width : Nat) : Nat → Str → List Str
  | 0, line => [line]
  | f + 1, line =>
    if line.length ≥ width then
      match rfindSpace line width with
      | some p => line.take p :: wrapLine width f ((line.drop p).dropWhile (· == ' '))
      | none => [line]
    else [line]

/-- `src/usage.cpp:55-76`, `s_multilineWrap`. -/
def wrapText (str : Str) (width : Nat) : List Str :=
  (getlines [] str).flatMap fun line => wrapLine width (line.length + 1) line

/-- `::toupper` in the "C" locale. Simplification: only ASCII letters are affected. -/
def toUpperC (c : Char) : Char :=
  if 'a' ≤ c ∧ c ≤ 'z' then Char.ofNat (c.toNat - 32) else c

/-- `src/argument.cpp:388-398`: the `flag` pointer chosen by the loop (first long flag, else first short
flag), without its dashes; `none` models NULL. `cur` is the current value of `flag`. -/
def metavarFlag (cur : Option Str) : List Str → Option Str
  | [] => cur
  | n :: ns =>
    if n[0]? == some '-' && n[1]? == some '-' then some (n.drop 2)
    else if cur.isNone && n[0]? == some '-' && n[1]? != some '-' then metavarFlag (some (n.drop 1)) ns
    else metavarFlag cur ns

/-- The loops `for i < n: if (i > 0) += " "; += s` (`src/argument.cpp:409-415`,
`src/usage.cpp:167-172,179-184`). -/
def repeatSpaced (n : Nat) (s : Str) : Str :=
  match n with
  | 0 => []
  | 1 => s
  | k + 2 => s ++ " ".toList ++ repeatSpaced (k + 1) s

/-- `src/argument.cpp:387-421`, `Argument::metavarDefault_`. A NULL `flag` (no name starting with a dash:
impossible for an option, `C03`) would be undefined behaviour; it is totalised to the empty string. -/
def Argument.metavarDefault (a : Argument D) : Str :=
  let name := ((metavarFlag none a.names).getD []).map toUpperC
  if a.action == .infinite || a.nargs == 43 then name ++ "...".toList
  else if a.nargs > 1 then repeatSpaced a.nargs name
  else name

/-- The `case` labels of `src/usage.cpp:114-120` and `:274-280`: options that take values. -/
def Ty.hasMetavar : Ty → Bool
  | .simple | .number | .infinite | .multi | .multiInfinite | .multiNumber | .multiNumberInfinite => true
  | _ => false

/-- `src/usage.cpp:113-130` and `:273-292`: the metavar part of an option. -/
def Argument.metavarPart (a : Argument D) : Str :=
  if a.type.hasMetavar then
    " ".toList ++ (if a.metavar.isEmpty then a.metavarDefault else a.metavar)
  else []

/-- `src/usage.cpp:109-111,131-133,160-162,187-189`: square brackets around optional arguments. -/
def Argument.bracketed (a : Argument D) (s : Str) : Str :=
  if a.isRequired then s else "[".toList ++ s ++ "]".toList

/-- `src/usage.cpp:108-134`: the usage-line item of an option. -/
def Argument.optionItem (a : Argument D) : Str := a.bracketed (a.front ++ a.metavarPart)

/-- `src/usage.cpp:159-190`: the usage-line item of a positional argument. -/
def Argument.positionalItem (a : Argument D) : Str :=
  a.bracketed <|
    match a.type with
    | .pos => a.front
    | .numberPos => repeatSpaced a.nargs a.front
    | .infinitePos => a.front ++ " {".toList ++ a.front ++ "}...".toList
    | .infiniteNumberPos => "{".toList ++ repeatSpaced a.nargs a.front ++ "}...".toList
    | _ => []

/-- The local variables of `Usage::getUsage` (`src/usage.cpp:82-85,98-99`): `oss`, `index`, `hasOption`,
`hasPositionnal`, `hasMultiLine`. Simplification: `index` and the widths are unbounded (`std::size_t` in the code);
`Model/UsageWord.lean` has the same computation on words, equal unless a sum exceeds 64 bits (`C47_no_overflow`). -/
structure UsageVars where
  oss : Str := []
  index : Nat := 0
  hasOption : Bool := false
  hasPositionnal : Bool := false
  hasMultiLine : Bool := false

/-- `src/usage.cpp:135-143` and `:191-199`: append one item, on a new line when it does not fit. -/
def UsageVars.addItem (binaryPad indexMax : Nat) (v : UsageVars) (argument : Str) : UsageVars :=
  if v.index + argument.length ≥ indexMax then
    { v with
      hasMultiLine := true
      oss := v.oss ++ "\n".toList ++ spaces (binaryPad + 1) ++ argument
      index := binaryPad + argument.length + 1 }
  else
    { v with oss := v.oss ++ " ".toList ++ argument, index := v.index + (argument.length + 1) }

/-- `src/usage.cpp:102-144`: body of the first loop of the usage line (options). -/
def UsageVars.optionStep (binaryPad indexMax : Nat) (v : UsageVars) (a : Argument D) : UsageVars :=
  if a.isPositional then { v with hasPositionnal := true }
  else UsageVars.addItem binaryPad indexMax { v with hasOption := true } a.optionItem

/-- `src/usage.cpp:145-154`: the `--` between options and positional arguments. -/
def UsageVars.marker (binaryPad indexMax : Nat) (v : UsageVars) : UsageVars :=
  if v.hasOption && v.hasPositionnal then
    if v.hasMultiLine || decide (v.index + 3 ≥ indexMax) then
      { v with
        oss := v.oss ++ "\n".toList ++ spaces (binaryPad + 1) ++ "--\n".toList ++ spaces binaryPad
        index := binaryPad }
    else { v with oss := v.oss ++ " --".toList, index := v.index + 3 }
  else v

/-- `src/usage.cpp:155-200`: body of the second loop of the usage line (positional arguments). -/
def UsageVars.positionalStep (binaryPad indexMax : Nat) (v : UsageVars) (a : Argument D) : UsageVars :=
  if !a.isPositional then v else v.addItem binaryPad indexMax a.positionalItem

/-- `src/usage.cpp:86-94`: the base name (POSIX separator). -/
def baseName (s : Str) : Str :=
  if '/' ∈ s then (s.reverse.takeWhile (· != '/')).reverse else s

/-- `src/usage.cpp:235-245` and `:306-316`: help text followed by the required/default mention. -/
def Argument.helpText (a : Argument D) : Str :=
  a.help ++
    (if a.isRequired then " (required)".toList
     else if a.dflt.isEmpty then [] else " (default: ".toList ++ a.dflt ++ ")".toList)

/-- `src/usage.cpp:266-293`: first column of an option row. -/
def Argument.optionLabel (a : Argument D) : Str := joinComma a.names ++ a.metavarPart

namespace State

/-- `src/usage.cpp:100`. -/
def indexMax (st : State D) : Nat := st.padWidth + st.argsWidth + st.sepWidth + st.helpWidth

/-- `src/usage.cpp:223-252` and `:294-323`: one row of a section (`label` in the first column). -/
def row (st : State D) (label : Str) (a : Argument D) : Str :=
  let column := spaces (st.padWidth + st.argsWidth + st.sepWidth)
  let first :=
    if label.length + st.sepWidth ≤ st.argsWidth + st.sepWidth then
      label ++ spaces (st.argsWidth + st.sepWidth - label.length)
    else label ++ "\n".toList ++ column
  spaces st.padWidth ++ first ++
    List.intercalate ("\n".toList ++ column) (wrapText a.helpText st.helpWidth)

/-- `src/usage.cpp:215-253`: body of the loop of the positional section. -/
def positionalRow (st : State D) (v : UsageVars) (a : Argument D) : UsageVars :=
  if !a.isPositional then v
  else
    { v with
      oss := (if v.index != 0 then v.oss ++ "\n".toList else v.oss) ++ st.row a.front a
      index := v.index + 1 }

/-- `src/usage.cpp:258-324`: body of the loop of the optional section. -/
def optionRow (st : State D) (v : UsageVars) (a : Argument D) : UsageVars :=
  if a.isPositional then v
  else
    { v with
      oss := (if v.index != 0 then v.oss ++ "\n".toList else v.oss) ++ st.row a.optionLabel a
      index := v.index + 1 }

/-- `src/usage.cpp:95-97`: beginning of the usage line. -/
def usageHead (st : State D) : Str := "usage: ".toList ++ baseName st.binaryName

/-- `src/usage.cpp:201-209` and `:327-335`: description and epilog blocks. -/
def textBlock (st : State D) (s : Str) : Str :=
  if s.isEmpty then []
  else "\n".toList ++ (wrapText s st.indexMax).flatMap fun l => "\n".toList ++ l

/-- `src/usage.cpp:95-200`: the usage line. -/
def usageLine (st : State D) : UsageVars :=
  let binaryPad := st.usageHead.length
  let v : UsageVars := { oss := st.usageHead, index := binaryPad }
  let v := (st.arguments.map (·.arg)).foldl (UsageVars.optionStep binaryPad st.indexMax) v
  let v := v.marker binaryPad st.indexMax
  (st.arguments.map (·.arg)).foldl (UsageVars.positionalStep binaryPad st.indexMax) v

/-- `src/usage.cpp:210-326`: the two sections, appended to `v.oss`. -/
def sections (st : State D) (v : UsageVars) : UsageVars :=
  if st.arguments.isEmpty then v
  else
    let v :=
      if v.hasPositionnal then
        (st.arguments.map (·.arg)).foldl st.positionalRow
          { v with index := 0, oss := v.oss ++ "\n\npositional arguments:\n".toList }
      else v
    if v.hasOption then
      (st.arguments.map (·.arg)).foldl st.optionRow
        { v with index := 0, oss := v.oss ++ "\n\noptional arguments:\n".toList }
    else v

/-- `src/usage.cpp:78-337`, `Usage::getUsage`. -/
def getUsage (st : State D) : Str :=
  if !st.usage.isEmpty then st.usage
  else
    let v := st.usageLine
    let v := { v with oss := v.oss ++ st.textBlock st.description }
    let v := st.sections v
    v.oss ++ st.textBlock st.epilog

end State
end BletArgs
