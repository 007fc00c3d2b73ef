import Verif.Check.Support
/-
`test/parseArguments.cpp` replayed on the model.
-/
namespace BletArgs.Check
open BletArgs

private def n (s : String) : List Str := [s.toList]
private def four : List Str := ["0".toList, "1".toList, "2".toList, "3".toList]

/-- The configuration `ops`, `setAlternative().setStrict()`, then the command line: a `ParseArgumentException`. -/
private def refused (ops : List Op) (line : List String) (arg what : String) : Bool :=
  throws (ops ++ [.setAlternative true, .setStrict true]) (.parse (argv line)) .parse arg what

/-- `test/parseArguments.cpp:7-286`. -/
example :
    refused [.add (n "-a"), .action 0 .storeTrue] ["binaryName", "-ba"] "b" "invalid option" ∧
    refused [.add (n "-a"), .action 0 .storeTrue, .add (n "-b"), .action 1 .extend, .nargs 1 2] ["binaryName", "-ba"]
      "b" "only last option can be use a parameter" ∧
    refused [] ["binaryName", "-a"] "a" "invalid option" ∧
    refused [] ["binaryName", "--long"] "long" "invalid option" ∧
    refused [.add (n "--boolean"), .action 0 .storeTrue] ["binaryName", "--boolean=nothing"] "boolean"
      "option cannot use with argument" ∧
    refused [.add (n "--number"), .nargs 0 2] ["binaryName", "--number=nothing"] "number"
      "option cannot use with only 1 argument" ∧
    refused [.add (n "--simple"), .nargs 0 1] ["binaryName", "--simple"] "simple" "bad number of argument" ∧
    refused [.add (n "--number"), .nargs 0 2] ["binaryName", "--number"] "number" "bad number of argument" ∧
    refused [.add (n "--multi"), .action 0 .append, .nargs 0 1] ["binaryName", "--multi"] "multi" "bad number of argument" ∧
    refused [.add (n "--multi-number"), .action 0 .append, .nargs 0 2] ["binaryName", "--multi-number", "arg"]
      "multi-number" "bad number of argument" ∧
    refused [.add (n "--multi-number-infinite"), .action 0 .extend, .nargs 0 2]
      ["binaryName", "--multi-number-infinite", "arg"] "multi-number-infinite" "bad number of argument" ∧
    refused [] ["binaryName", "arg"] "arg" "invalid additional argument" ∧
    refused [.add (n "ARG"), .nargs 0 2] ["binaryName", "arg"] "ARG" "bad number of argument" ∧
    refused [.add (n "ARG"), .action 0 .infinite, .nargs 0 2] ["binaryName", "arg"] "ARG" "bad number of argument" := by
  decide +kernel

/-- `test/parseArguments.cpp:288-313`. -/
example : let st := run [.add (n "-b"), .action 0 .storeTrue, .add (n "-r"), .action 1 .storeFalse, .add (n "-s"), .nargs 2 1,
      .add (n "--infinite"), .nargs 3 43, .defaults 3 four, .setAlternative true, .setStrict true];
    let r := step scanInt st (.parse (argv ["binaryName", "--infinite", "-infinite", "--infinite", "-ok", "--infinite", "-rb",
      "--infinite", "-sSimple", "--infinite", "-o"]));
    r.2 = .ok () ∧ text r.1 "-b" = some "true".toList ∧ text r.1 "-r" = some "false".toList ∧
    text r.1 "-s" = some "Simple".toList ∧ element r.1 "--infinite" 0 = some "-o".toList := by decide +kernel

private def fine : Option Validator := some ⟨0, fun vs => .accept vs⟩

/-- `test/parseArguments.cpp:315-387`: the configuration. -/
def allTypeOps : List Op :=
  [.add (n "REQUIRED"), .required 0 true, .valid 0 fine true,
   .add ["-b".toList, "--bool".toList], .action 1 .storeTrue, .add (n "--notbool"), .action 2 .storeFalse,
   .add ["-s".toList, "--simple".toList], .metavar 3 "ArgOfSimple".toList, .nargs 3 1, .defaults 3 (n "0"),
   .dest 3 ⟨0, .scalar, false, true, fun _ => none⟩,
   .add (n "--number"), .metavar 5 "Arg1 Arg2".toList, .nargs 5 2, .defaults 5 ["0".toList, "1".toList], .valid 5 fine true,
   .add (n "--infinite"), .nargs 6 43, .defaults 6 four,
   .add ["-m".toList, "--multi".toList], .action 7 .append, .nargs 7 1, .defaults 7 four,
   .add (n "--multi2"), .action 8 .append, .nargs 8 1, .defaults 8 four,
   .add (n "--multi-number"), .action 9 .append, .nargs 9 2, .defaults 9 four,
   .add (n "--multi-infinite"), .action 10 .extend, .nargs 10 1, .defaults 10 four,
   .add (n "--multi-infinite-number"), .action 11 .extend, .nargs 11 2, .defaults 11 four, .valid 11 fine true,
   .setAlternative true]

def allTypeLine : List Str := argv
  ["binaryName", "--notbool", "-bsSIMPLE", "--simple", "SIMPLE", "--number", "FOO", "BAR", "--infinite=A",
   "--infinite", "A", "B", "C", "D", "E", "-m=A", "-multi", "B", "--multi", "C", "-multi2", "A",
   "--multi-number", "A", "B", "--multi-number", "C", "D", "--multi-infinite", "A", "B", "C", "--multi-infinite", "D", "E",
   "--multi-infinite-number", "A", "B", "--multi-infinite-number", "C", "D", "E", "F", "--", "ISREQUIRED", "ADDITIONAL"]

def allTypeParsed : State Int × Res Unit := step scanInt (run allTypeOps) (.parse allTypeLine)

/-- `test/parseArguments.cpp:388-426`. -/
example : opsGoOn scanInt State.init allTypeOps = true ∧ allTypeParsed.2 = .ok () ∧
    text allTypeParsed.1 "REQUIRED" = some "ISREQUIRED".toList ∧ text allTypeParsed.1 "-b" = some "true".toList ∧
    text allTypeParsed.1 "--notbool" = some "false".toList ∧ text allTypeParsed.1 "--simple" = some "SIMPLE".toList ∧
    allTypeParsed.1.destLog = [.set 0 (.str "SIMPLE".toList)] ∧
    element allTypeParsed.1 "--number" 0 = some "FOO".toList ∧ element allTypeParsed.1 "--number" 1 = some "BAR".toList ∧
    text allTypeParsed.1 "--infinite" = some "A, B, C, D, E".toList := by decide +kernel

example :
    (List.range 5).map (element allTypeParsed.1 "--infinite") = (argv ["A", "B", "C", "D", "E"]).map some ∧
    (List.range 3).map (element allTypeParsed.1 "-m") = (argv ["A", "B", "C"]).map some ∧
    element allTypeParsed.1 "--multi2" 0 = some "A".toList ∧
    text allTypeParsed.1 "--multi-number" = some "(A, B), (C, D)".toList ∧
    (leaf allTypeParsed.1 "--multi-number" 0 0).map Leaf.getString = some "A".toList ∧
    (leaf allTypeParsed.1 "--multi-number" 0 1).map Leaf.getString = some "B".toList ∧
    (leaf allTypeParsed.1 "--multi-number" 1 0).map Leaf.getString = some "C".toList ∧
    (leaf allTypeParsed.1 "--multi-number" 1 1).map Leaf.getString = some "D".toList ∧
    (List.range 5).map (element allTypeParsed.1 "--multi-infinite") = (argv ["A", "B", "C", "D", "E"]).map some := by
  decide +kernel

private def argOf (st : State Int) (name : String) : Option (Argument Int) :=
  match st.getArgument name.toList with
  | .ok s => some s.arg
  | _ => none

/-- `test/parseArguments.cpp:415-465`. -/
example :
    ([(0, 0), (0, 1), (1, 0), (1, 1), (2, 0), (2, 1)].map fun p =>
      (leaf allTypeParsed.1 "--multi-infinite-number" p.1 p.2).map Leaf.getString) =
      (argv ["A", "B", "C", "D", "E", "F"]).map some ∧
    (argOf allTypeParsed.1 "--multi-infinite-number").map (fun a => (a.index 0).map Elem.readVector) =
      some (some (.ok ["A".toList, "B".toList])) ∧
    (argOf allTypeParsed.1 "--multi-infinite").map (fun a => (a.index 0).map Elem.readVector) =
      some (some (.throw ⟨.basic, [], "convertion to vector of string not authorized".toList⟩)) ∧
    (argOf allTypeParsed.1 "--bool").map Argument.readVector =
      some (.throw ⟨.basic, [], "convertion to vector of string not authorized".toList⟩) ∧
    (argOf allTypeParsed.1 "--bool").map Argument.readVecVec =
      some (.throw ⟨.basic, [], "convertion to vector of vector of string not authorized".toList⟩) ∧
    (argOf allTypeParsed.1 "--multi-infinite-number").map Argument.readVecVec =
      some (.ok [["A".toList, "B".toList], ["C".toList, "D".toList], ["E".toList, "F".toList]]) := by decide +kernel

/-- `test/parseArguments.cpp:467-479`. -/
example : let st := run [.add (n "argument"), .nargs 0 3, .setAlternative true];
    let r := step scanInt st (.parse (argv ["binaryName", "0", "1", "2"]));
    r.2 = .ok () ∧ (List.range 3).map (number r.1 "argument") = [some 0, some 1, some 2] := by decide +kernel

/-- `test/parseArguments.cpp:481-494`. -/
example : let st := run [.add (n "argument"), .nargs 0 43, .add (n "-b"), .action 1 .storeTrue, .setAlternative true];
    let r := step scanInt st (.parse (argv ["binaryName", "0", "1", "2", "-b"]));
    r.2 = .ok () ∧ (List.range 3).map (number r.1 "argument") = [some 0, some 1, some 2] := by decide +kernel

/-- `test/parseArguments.cpp:496-512`. -/
example : let r := step scanInt (run [.add (n "argument"), .nargs 0 43, .nargs 0 3, .add (n "-b"), .action 1 .storeTrue,
      .setAlternative true]) (.parse (argv ["binaryName", "0", "1", "2", "0", "1", "2", "-b"]));
    r.2 = .ok () ∧ ([(0, 0), (0, 1), (0, 2), (1, 0), (1, 1), (1, 2)].map fun p =>
      (leaf r.1 "argument" p.1 p.2).bind fun l => l.num) = [some 0, some 1, some 2, some 0, some 1, some 2] := by decide +kernel

private def usageOfHelp : String :=
  "usage: binaryName [-h]\n" ++ "\n" ++ "optional arguments:\n" ++ "  -h, --help            show this help message and exit"

/-- `test/parseArguments.cpp:514-545`. -/
example : throws [.setHelpException true] (.parse (argv ["binaryName", "--help"])) .help "" usageOfHelp ∧
    (step scanInt (run []) (.parse (argv ["binaryName", "--help"]))).2 = .exit (usageOfHelp ++ "\n").toList := by decide +kernel

/-- `test/parseArguments.cpp:547-576`. -/
example : throws [.setVersion "version: 0.0.0".toList, .add (n "--version"), .action 0 .version, .setVersionException true]
      (.parse (argv ["binaryName", "--version"])) .version "" "version: 0.0.0" ∧
    (step scanInt (run [.setVersion "version: 0.0.0".toList, .add (n "--version"), .action 0 .version])
      (.parse (argv ["binaryName", "--version"]))).2 = .exit "version: 0.0.0\n".toList := by decide +kernel

/-- `test/parseArguments.cpp:578-624`. -/
example : throws [.add (n "argument"), .required 0 true] (.parse (argv ["binaryName"])) .required "argument"
      "argument is required" ∧
    throws [.add (n "--option"), .action 0 .storeTrue, .required 0 true] (.parse (argv ["binaryName"])) .required "--option"
      "option is required" ∧
    (step scanInt (run [.add (n "--help"), .flag 0 "-h".toList, .action 0 .storeTrue, .required 0 true])
      (.parse (argv ["binaryName"]))).2 = .ok () := by decide +kernel

private def failing : Option Validator := some ⟨0, fun _ => .reject⟩

/-- `test/parseArguments.cpp:626-687`. In the first case the validator is on a boolean. -/
example : throws [.add (n "--option"), .action 0 .storeTrue, .valid 0 fine true]
      (.parse (argv ["binaryName", "--option", "foo"])) .valid "--option" "invalid type option for use valid" ∧
    throws [.add (n "--option"), .nargs 0 1, .valid 0 failing true]
      (.parse (argv ["binaryName", "--option", "foo"])) .valid "--option" "invalid check function" := by decide +kernel

private def intLt (a b : Int) : Bool := decide (a < b)
private def intPrint (a : Int) : Str := (toString a).toList
private def option (nargs : Nat) (check : List Str → VRes) : List Op :=
  [.add (n "--option"), .nargs 0 nargs, .valid 0 (some ⟨0, check⟩) true]
private def accepted (nargs : Nat) (check : List Str → VRes) (line : List String) : State Int × Res Unit :=
  step scanInt (run (option nargs check)) (.parse (argv line))

/-- `test/parseArguments.cpp:695-868`. -/
example :
    throws (option 2 (validNumber endInt)) (.parse (argv ["binaryName", "--option", "A", "100"])) .valid "--option"
      "\"A\" is not a number" ∧
    (accepted 2 (validNumber endInt) ["binaryName", "--option", "0", "100"]).2 = .ok () ∧
    number (accepted 2 (validNumber endInt) ["binaryName", "--option", "0", "100"]).1 "--option" 0 = some 0 ∧
    number (accepted 2 (validNumber endInt) ["binaryName", "--option", "0", "100"]).1 "--option" 1 = some 100 := by
  decide +kernel

example :
    throws (option 2 (validMinMax intLt scanInt intPrint 0 100)) (.parse (argv ["binaryName", "--option", "A", "100"])) .valid
      "--option" "\"A\" is not a number" ∧
    throws (option 2 (validMinMax intLt scanInt intPrint 100 0)) (.parse (argv ["binaryName", "--option", "-1", "100"])) .valid
      "--option" "-1 is not between 0 and 100" ∧
    (accepted 2 (validMinMax intLt scanInt intPrint 0 100) ["binaryName", "--option", "0", "100"]).2 = .ok () ∧
    number (accepted 2 (validMinMax intLt scanInt intPrint 0 100) ["binaryName", "--option", "0", "100"]).1 "--option" 1 =
      some 100 := by
  decide +kernel

example :
    throws (option 2 (validChoise ["0".toList, "100".toList])) (.parse (argv ["binaryName", "--option", "-1", "100"])) .valid
      "--option" "\"-1\" is not a valid choise (\"0\", \"100\")" ∧
    (accepted 2 (validChoise ["0".toList, "100".toList]) ["binaryName", "--option", "0", "100"]).2 = .ok () ∧
    element (accepted 2 (validChoise ["0".toList, "100".toList]) ["binaryName", "--option", "0", "100"]).1 "--option" 1 =
      some "100".toList := by
  decide +kernel

example :
    throws (option 1 (validPath (fun _ => none) .all)) (.parse (argv ["binaryName", "--option", "."])) .valid "--option"
      "\".\" is not a valid path" ∧
    throws (option 1 (validPath (fun _ => some .regular) .isDir)) (.parse (argv ["binaryName", "--option", "."])) .valid
      "--option" "\".\" is not a valid directory" ∧
    throws (option 1 (validPath (fun _ => some .directory) .isFile)) (.parse (argv ["binaryName", "--option", "."])) .valid
      "--option" "\".\" is not a valid file" ∧
    (accepted 1 (validPath (fun _ => some .regular) .isFile) ["binaryName", "--option", "."]).2 = .ok () ∧
    text (accepted 1 (validPath (fun _ => some .regular) .isFile) ["binaryName", "--option", "."]).1 "--option" =
      some ".".toList := by
  decide +kernel

end BletArgs.Check
