import Verif.Model.Usage
/-
Model of `src/usage.cpp` with the arithmetic of `std::size_t` (modulo 2^64). `Model/Usage.lean` is the same with unbounded
numbers; `Props/UsageWord.lean` relates the two.
-/
namespace BletArgs
variable {D : Type}

/-- `+` of `std::size_t`. -/
def add64 (a b : Nat) : Nat := (a + b) % two64

/-- `src/usage.cpp:135-143` and `:191-199`: append one item, on a new line when it does not fit. -/
def UsageVars.addItem64 (binaryPad indexMax : Nat) (v : UsageVars) (argument : Str) : UsageVars :=
  if add64 v.index argument.length ≥ indexMax then
    { v with
      hasMultiLine := true
      oss := v.oss ++ "\n".toList ++ spaces (add64 binaryPad 1) ++ argument
      index := add64 (add64 binaryPad argument.length) 1 }
  else
    { v with oss := v.oss ++ " ".toList ++ argument, index := add64 v.index (add64 argument.length 1) }

/-- `src/usage.cpp:102-144`: body of the first loop of the usage line (options). -/
def UsageVars.optionStep64 (binaryPad indexMax : Nat) (v : UsageVars) (a : Argument D) : UsageVars :=
  if a.isPositional then { v with hasPositionnal := true }
  else UsageVars.addItem64 binaryPad indexMax { v with hasOption := true } a.optionItem

/-- `src/usage.cpp:145-154`: the `--` between options and positional arguments. -/
def UsageVars.marker64 (binaryPad indexMax : Nat) (v : UsageVars) : UsageVars :=
  if v.hasOption && v.hasPositionnal then
    if v.hasMultiLine || decide (add64 v.index 3 ≥ indexMax) then
      { v with
        oss := v.oss ++ "\n".toList ++ spaces (add64 binaryPad 1) ++ "--\n".toList ++ spaces binaryPad
        index := binaryPad }
    else { v with oss := v.oss ++ " --".toList, index := add64 v.index 3 }
  else v

/-- `src/usage.cpp:155-200`: body of the second loop of the usage line (positional arguments). -/
def UsageVars.positionalStep64 (binaryPad indexMax : Nat) (v : UsageVars) (a : Argument D) : UsageVars :=
  if !a.isPositional then v else v.addItem64 binaryPad indexMax a.positionalItem

namespace State

/-- `src/usage.cpp:100`. -/
def indexMax64 (st : State D) : Nat := add64 (add64 (add64 st.padWidth st.argsWidth) st.sepWidth) st.helpWidth

/-- `src/usage.cpp:223-252` and `:294-323`: one row of a section (`label` in the first column). Simplification: the field
width of a stream is a signed number (`std::streamsize`); a width of 2^63 or more is taken as it is. -/
def row64 (st : State D) (label : Str) (a : Argument D) : Str :=
  let column := spaces (add64 (add64 st.padWidth st.argsWidth) st.sepWidth)
  let first :=
    if add64 label.length st.sepWidth ≤ add64 st.argsWidth st.sepWidth then
      label ++ spaces (add64 st.argsWidth st.sepWidth - label.length)
    else label ++ "\n".toList ++ column
  spaces st.padWidth ++ first ++
    List.intercalate ("\n".toList ++ column) (wrapText a.helpText st.helpWidth)

/-- `src/usage.cpp:215-253`: body of the loop of the positional section. (`++index` counts list elements.) -/
def positionalRow64 (st : State D) (v : UsageVars) (a : Argument D) : UsageVars :=
  if !a.isPositional then v
  else
    { v with
      oss := (if v.index != 0 then v.oss ++ "\n".toList else v.oss) ++ st.row64 a.front a
      index := v.index + 1 }

/-- `src/usage.cpp:258-324`: body of the loop of the optional section. -/
def optionRow64 (st : State D) (v : UsageVars) (a : Argument D) : UsageVars :=
  if a.isPositional then v
  else
    { v with
      oss := (if v.index != 0 then v.oss ++ "\n".toList else v.oss) ++ st.row64 a.optionLabel a
      index := v.index + 1 }

/-- `src/usage.cpp:201-209` and `:327-335`: description and epilog blocks. -/
def textBlock64 (st : State D) (s : Str) : Str :=
  if s.isEmpty then []
  else "\n".toList ++ (wrapText s st.indexMax64).flatMap fun l => "\n".toList ++ l

/-- `src/usage.cpp:95-200`: the usage line. -/
def usageLine64 (st : State D) : UsageVars :=
  let binaryPad := st.usageHead.length
  let v : UsageVars := { oss := st.usageHead, index := binaryPad }
  let v := (st.arguments.map (·.arg)).foldl (UsageVars.optionStep64 binaryPad st.indexMax64) v
  let v := v.marker64 binaryPad st.indexMax64
  (st.arguments.map (·.arg)).foldl (UsageVars.positionalStep64 binaryPad st.indexMax64) v

/-- `src/usage.cpp:210-326`: the two sections, appended to `v.oss`. -/
def sections64 (st : State D) (v : UsageVars) : UsageVars :=
  if st.arguments.isEmpty then v
  else
    let v :=
      if v.hasPositionnal then
        (st.arguments.map (·.arg)).foldl st.positionalRow64
          { v with index := 0, oss := v.oss ++ "\n\npositional arguments:\n".toList }
      else v
    if v.hasOption then
      (st.arguments.map (·.arg)).foldl st.optionRow64
        { v with index := 0, oss := v.oss ++ "\n\noptional arguments:\n".toList }
    else v

/-- `src/usage.cpp:78-337`, `Usage::getUsage`. -/
def getUsage64 (st : State D) : Str :=
  if !st.usage.isEmpty then st.usage
  else
    let v := st.usageLine64
    let v := { v with oss := v.oss ++ st.textBlock64 st.description }
    let v := st.sections64 v
    v.oss ++ st.textBlock64 st.epilog

end State
end BletArgs
