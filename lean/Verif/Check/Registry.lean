import Verif.Check.Support
/-
`test/addArgument.cpp`, `test/accessDenied.cpp`, `test/getVersion.cpp`, `test/removeArguments.cpp`,
`test/updateArgument.cpp` replayed on the model.
-/
namespace BletArgs.Check
open BletArgs

private def n (s : String) : List Str := [s.toList]

/-! `test/addArgument.cpp:5-214`, in order, on one object: `upTo k` are the calls made before the `k`-th one. -/

/-- The calls of the test, those that throw included. Objects are numbered in the order of creation. -/
def addCalls : List Op :=
  [.add (n ""), .add (n "foo"), .add (n "foo"), .add [],
   .add (n "-1"), .flag 1 "1".toList, .add (n "-2"), .flag 2 "-".toList, .add (n "-3"), .flag 3 "--".toList,
   .add (n "-4"), .flag 4 "-no".toList, .add (n "-n"), .add (n "-n"), .add (n "-m"), .add (n "-a"), .flag 7 "-m".toList,
   .add (n "A"), .flag 8 "nop".toList, .add (n "B"), .action 9 .append,
   .add (n "-h"), .action 10 .help, .add (n "-b"), .action 11 .help,
   .add (n "--version"), .action 12 .version, .add (n "--bad-version"), .action 13 .version,
   .add (n "--long"), .nargs 14 1, .defaults 14 ["1".toList, "2".toList],
   .add (n "-s"), .nargs 15 1, .defaults 15 ["1".toList, "2".toList],
   .add (n "-t"), .nargs 16 2, .defaults 16 ["1".toList],
   .add (n "-u"), .action 17 .append, .nargs 17 2, .defaults 17 ["1".toList]]

private def fails (k : Nat) (arg what : String) : Bool :=
  match addCalls.drop k with
  | op :: _ => throws (addCalls.take k) op .argument arg what
  | [] => false

example : fails 0 "" "bad name argument" ∧ fails 2 "foo" "bad name argument already exist" ∧
    fails 3 "" "invalid empty flag" ∧ fails 5 "1" "invalid flag not start by '-' character" ∧
    fails 7 "-" "invalid flag not be only '-' character" ∧ fails 9 "--" "invalid flag not be only '--' characters" ∧
    fails 11 "-no" "invalid short flag has not only one character" ∧ fails 13 "-n" "invalid flag already exist" ∧
    fails 16 "-m" "invalid flag already exist" ∧ fails 18 "nop" "can't add flag in positionnal argument" ∧
    fails 20 "B" "positional argument cannot use with this action or this nargs" ∧
    fails 24 "-b" "help action already defined" ∧ fails 28 "--bad-version" "version action already defined" ∧
    fails 31 "--long" "invalid number of argument with number of default argument" ∧
    fails 34 "-s" "invalid number of argument with number of default argument" ∧
    fails 37 "-t" "invalid number of argument with number of default argument" ∧
    fails 41 "-u" "invalid number of argument with number of default argument" := by decide +kernel

/-- All other calls return. -/
example : (List.range addCalls.length).all (fun k => match addCalls.drop k with
    | op :: _ => (step scanInt (run (addCalls.take k)) op).2 == .ok () ||
        [0, 2, 3, 5, 7, 9, 11, 13, 16, 18, 20, 24, 28, 31, 34, 37, 41].contains k
    | [] => true) = true := by decide +kernel

private def isExists (st : State Int) (name : String) : Option Bool :=
  match st.getArgument name.toList with
  | .ok s => some s.arg.isExist
  | _ => none

private def actionOf (st : State Int) (name : String) : Option Action :=
  match st.getArgument name.toList with
  | .ok s => some s.arg.action
  | _ => none

/-- `test/addArgument.cpp:216-223`. -/
example : let st := run [.add ["-h".toList, "--help".toList, "--help-me-please".toList, "-?".toList], .action 0 .help];
    isExists st "-h" = some false ∧ isExists st "--help" = some false ∧ isExists st "--help-me-please" = some false ∧
    isExists st "-?" = some false := by decide +kernel

/-- `test/addArgument.cpp:225-233`. -/
example : let st := run [.add ["-v".toList, "--version".toList], .action 0 .version];
    actionOf st "-v" = some .version ∧
    (step scanInt st (.remove (n "-v"))).2 = .ok () ∧
    (step scanInt (step scanInt st (.remove (n "-v"))).1 (.remove (n "--version"))).2 = .ok () ∧
    (step scanInt (step scanInt st (.remove (n "-v"))).1 (.remove (n "--version"))).1.argumentExists "-v".toList = false ∧
    (step scanInt (step scanInt st (.remove (n "-v"))).1 (.remove (n "--version"))).1.argumentExists "--version".toList = false := by
  decide +kernel

/-- `test/addArgument.cpp:235-239`. -/
example : text (run [.add (n "argument1"), .defaults 0 (n "default")]) "argument1" = some "default".toList := by
  decide +kernel

/-- `test/addArgument.cpp:241-249`. -/
example : let st := run [.add ["-b".toList, "--bool".toList, "-c".toList], .action 0 .storeTrue, .add (n "--unbool"),
      .action 1 .storeFalse];
    isExists st "-b" = some false ∧ isExists st "--bool" = some false ∧ isExists st "-c" = some false ∧
    isExists st "--unbool" = some false := by decide +kernel

/-- `test/addArgument.cpp:251-255`. -/
example : isExists (run [.add (n "--append"), .action 0 .append]) "--append" = some false := by decide +kernel

/-- `test/addArgument.cpp:257-261`. -/
example : let ops : List Op := [.add (n "ARG"), .action 0 .none, .action 0 .infinite, .nargs 0 4, .nargs 0 1];
    opsGoOn scanInt State.init ops = true ∧ actionOf (run ops) "ARG" = some .infinite := by decide +kernel

/-- `test/accessDenied.cpp:5-34`. -/
example : ((run []).getArgument []).void = .throw ⟨.accessDenied, [], "argument not found".toList⟩ ∧
    ((run []).getArgument "foo".toList).void = .throw ⟨.accessDenied, "foo".toList, "argument not found".toList⟩ := by
  decide +kernel

/-- `test/getVersion.cpp:5-15`. -/
example : (run []).version = [] ∧
    (run [.setVersion "Version 0.0.0".toList, .add (n "-v"), .action 0 .version]).version = "Version 0.0.0".toList := by
  decide +kernel

/-- `test/removeArguments.cpp:5-34`. -/
example : throws [] (.remove []) .argument "" "invalid empty flag" ∧
    throws [.remove []] (.remove (n "--unknown")) .argument "--unknown" "argument not found" ∧
    let st := run [.remove [], .remove (n "--unknown"), .add (n "--help"), .flag 0 "-h".toList, .action 0 .help];
    (step scanInt st (.remove ["-h".toList, "--help".toList])).2 = .ok () ∧
    (step scanInt st (.remove ["-h".toList, "--help".toList])).1.argumentExists "-h".toList = false ∧
    (step scanInt st (.remove ["-h".toList, "--help".toList])).1.argumentExists "--help".toList = false := by
  decide +kernel

/-- `test/updateArgument.cpp:5-36`. -/
example : let st := run [.add (n "-h"), .action 0 .help, .help 0 "print this message".toList];
    (match st.getArgument "-h".toList with
      | .ok s => (match (step scanInt st (.help s.obj "custom message of help".toList)).1.getArgument "-h".toList with
        | .ok s => s.arg.help == "custom message of help".toList
        | _ => false)
      | _ => false) = true ∧
    actionOf (step scanInt st (.action 0 .none)).1 "-h" = some .none ∧
    let st' := run [.add (n "-v"), .action 0 .version];
    actionOf (step scanInt st' (.action 0 .none)).1 "-v" = some .none := by
  decide +kernel

end BletArgs.Check
