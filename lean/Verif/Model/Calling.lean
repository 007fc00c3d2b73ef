import Verif.Model.Looking
/-
The same parse with user code that calls the parser it is called from: validators and callbacks that, in the middle of
`parseArguments`, configure, add or remove arguments, or parse another command line. They act on the list of arguments while
the last loop of `parseArguments` runs through it with an iterator.
-/
namespace BletArgs
variable {D : Type} {U R : Type}

/-- What the code of the user does when it is called: any number of calls on the parser, then an answer. `U` is the state of
the program. Each call is made with the program in the state `u`; `next` gets what can be read of the parser after the call,
how the call ended (an exception is caught here or, if it is not, is the answer) and the state of the program. -/
inductive Script (D U R : Type) where
  | answer (r : R) (u : U)
  | call (op : Op) (u : U) (next : State D → Res Unit → U → Script D U R)

/-- The code of the user, as `UserCode`. The third argument is what can be read of the parser. -/
structure CallingCode (D U : Type) where
  /-- `isValid(args)` of the validator with this number (`include/blet/args/valid.h:52`). -/
  check : Nat → List Str → State D → U → Script D U VRes
  /-- A call of a callback: the exception it throws, if any. -/
  call : DestWrite → State D → U → Script D U (Option Exn)
  /-- What an assignment to a destination, or an insertion into it, leaves behind. -/
  assigned : DestWrite → State D → U → U

/-- What can be read of the parser: everything but the code of validators and callbacks, and the record of past writes. -/
def State.visible (st : State D) : State D := ({ st with destLog := [] } : State D).mute

/-- A call of the user, `parse` being `parseArguments`. -/
def stepWith (scan : Str → Option D) (parse : State D → U → List Str → State D × Res Unit × U) (st : State D) (u : U) :
    Op → State D × Res Unit × U
  | .parse argv => parse st u argv
  | op => ((step scan st op).1, (step scan st op).2, u)

/-- The calls of a script, one after the other, up to its answer. After undefined behaviour, an endless loop or `exit` the
program does not go on. -/
def Script.run (scan : Str → Option D) (parse : State D → U → List Str → State D × Res Unit × U) :
    Script D U R → State D → State D × Res R × U
  | .answer r u, st => (st, .ok r, u)
  | .call op u next, st =>
    let x := stepWith scan parse st u op
    if x.2.1.goesOn then (next x.1.visible x.2.1 x.2.2).run scan parse x.1 else (x.1, x.2.1.cast, x.2.2)

/-- `src/args.cpp:170-210`: what the loop does with the argument when the validator has answered. It is read again (`(*it)->`)
after the answer. -/
def Argument.answered (a : Argument D) : VRes → Argument D × Res Unit
  | .throwValid msg => (a, .throw (a.validExn msg))
  | .throwOther e => (a, .throw e)
  | .reject => (a, .throw (a.validExn "invalid check function".toList))
  | .accept args =>
    match a.type with
    | .pos | .simple =>
      ((match args with | [] => a | s :: _ => { a with argument := s }), .ok ())
    | .number | .multi | .infinite | .multiInfinite | .numberPos | .infinitePos =>
      ({ a with elems := writeElems a.elems args }, .ok ())
    | .multiNumber | .multiNumberInfinite | .infiniteNumberPos =>
      ({ a with elems := writeGroups a.elems args }, .ok ())
    | _ => (a, .throw (a.validExn "invalid type option for use valid".toList))

/-- The call of a callback (`include/blet/args/argument.h:703,738-754,810-830`). -/
def Argument.callbackCall (a : Argument D) (d : Dest) : DestWrite :=
  match d.kind with
  | .scalar => .callScalar d.slot a.isExist a.argument
  | .vector => .callVector d.slot a.isExist (if a.elems.isEmpty then [a.argument] else a.flatStrings)
  | .vecvec => .callVecVec d.slot a.isExist (if a.elems.isEmpty then [[a.argument]] else a.groupedStrings)

namespace State

/-- `src/args.cpp:147-210`: the check of the argument the iterator `node` points to. If the element is erased by the
validator the iterator is no longer valid (an exception of another class leaves the loop without using it). -/
def checkCalling (scan : Str → Option D) (code : CallingCode D U) (parse : State D → U → List Str → State D × Res Unit × U)
    (node : Nat) (st : State D) (u : U) : State D × Res Unit × U :=
  match st.atNode node with
  | none => (st, .ub "iterator of an erased element", u)
  | some s =>
    match s.arg.valid with
    | none => (st, .ok (), u)
    | some v =>
      if s.arg.isExist then
        match (code.check v.id (s.arg.toVector.getD []) st.visible u).run scan parse st with
        | (st1, .ok (.throwOther e), u1) => (st1, .throw e, u1)
        | (st1, .ok r, u1) =>
          match st1.atNode node with
          | none => (st1, .ub "iterator of an erased element", u1)
          | some s1 => (st1.modNode node fun _ => (s1.arg.answered r).1, (s1.arg.answered r).2, u1)
        | (st1, r, u1) => (st1, r.cast, u1)
      else (st, .ok (), u)

/-- `src/args.cpp:214`, `toDest_` of the argument the iterator points to, as `toDestIn`. A callback may delete the object
whose member function calls it: that function does not use it again. -/
def destCalling (scan : Str → Option D) (code : CallingCode D U) (parse : State D → U → List Str → State D × Res Unit × U)
    (node : Nat) (st : State D) (u : U) : State D × Res Unit × U :=
  match st.atNode node with
  | none => (st, .ub "iterator of an erased element", u)
  | some s =>
    match s.arg.dest with
    | none => (st, .ok (), u)
    | some d =>
      if d.custom then
        match (code.call (s.arg.callbackCall d) st.visible u).run scan parse
            { st with destLog := st.destLog ++ [s.arg.callbackCall d] } with
        | (st1, .ok none, u1) => (st1, .ok (), u1)
        | (st1, .ok (some e), u1) => (st1, .throw e, u1)
        | (st1, r, u1) => (st1, r.cast, u1)
      else
        let r := s.arg.toDestIn ⟨fun _ _ u => (.reject, u), fun _ u => (none, u), fun w => code.assigned w st.visible⟩ u
        ({ st with destLog := st.destLog ++ r.1 }, r.2.1, r.2.2)

/-- `arguments_.begin()`: `none` is `end()`. -/
def firstNode (st : State D) : Option Nat := st.arguments.head?.map (·.node)

/-- `++it`: `some none` is `end()`, `none` stands for an iterator whose element is erased. -/
def nextNodeOf (st : State D) (node : Nat) : Option (Option Nat) :=
  match st.arguments.dropWhile (fun s => s.node != node) with
  | [] => none
  | [_] => some none
  | _ :: t :: _ => some (some t.node)

/-- `src/args.cpp:111-215`, as `afterLoopIn`; `last` is the last loop. The list tells the elements the last loop visited. -/
def afterLoopWith (last : State D → U → State D × Res Unit × U × List Nat) (st : State D) (u : U) :
    State D × Res Unit × U × List Nat :=
  match st.optionSeen st.helpOption with
  | none => (st, .ub "dangling helpOption_", u, [])
  | some true =>
    if st.isHelpException then (st, .throw ⟨.help, [], st.getUsage⟩, u, [])
    else (st.clear, .exit (st.getUsage ++ "\n".toList), u, [])
  | some false =>
    match st.optionSeen st.versionOption with
    | none => (st, .ub "dangling versionOption_", u, [])
    | some true =>
      if st.isVersionException then (st, .throw ⟨.version, [], st.version⟩, u, [])
      else (st.clear, .exit (st.version ++ "\n".toList), u, [])
    | some false =>
      match firstMissing st.arguments with
      | some e => (st, .throw e, u, [])
      | none => last st u

/-- `src/args.cpp:63-216`, `Args::parseArguments`, as `parseIn`; `last` is the last loop. -/
def parseWith (last : State D → U → State D × Res Unit × U × List Nat) (st : State D) (u : U) (argv : List Str) :
    State D × Res Unit × U × List Nat :=
  match st.resetAll.autoHelp with
  | (st1, .ok false) => (st1, .ok (), u, [])
  | (st1, .ok true) =>
    match st1.setBinaryIfEmpty argv with
    | (st2, .ok ()) =>
      match mainLoop argv (endOptionIndex argv) (st2.loopBudget argv) 1 st2 with
      | (st3, .ok ()) => st3.afterLoopWith last u
      | (st3, r) => (st3, r, u, [])
    | (st2, r) => (st2, r, u, [])
  | (st1, r) => (st1, r.cast, u, [])

/-- `src/args.cpp:146-215`, the last loop from the iterator `it` on; the number bounds the iterations and the depth of
parses inside parses, running out of it stands for an endless loop. -/
def lastLoop (scan : Str → Option D) (code : CallingCode D U) :
    Nat → Option Nat → State D → U → State D × Res Unit × U × List Nat
  | _, none, st, u => (st, .ok (), u, [])
  | 0, some _, st, u => (st, .diverge, u, [])
  | f + 1, some node, st, u =>
    let parse := fun st u argv =>
      let r := parseWith (fun st u => lastLoop scan code f st.firstNode st u) st u argv
      (r.1, r.2.1, r.2.2.1)
    match st.checkCalling scan code parse node u with
    | (st1, .ok (), u1) =>
      match (st1.modNode node fun a => a.toNumber scan).destCalling scan code parse node u1 with
      | (st2, .ok (), u2) =>
        match st2.nextNodeOf node with
        | none => (st2, .ub "++ of the iterator of an erased element", u2, [node])
        | some it =>
          let r := lastLoop scan code f it st2 u2
          (r.1, r.2.1, r.2.2.1, node :: r.2.2.2)
      | (st2, r, u2) => (st2, r, u2, [node])
    | (st1, r, u1) => (st1, r, u1, [node])

/-- `src/args.cpp:63-216`, `Args::parseArguments`, with user code that calls the parser. -/
def parseCalling (scan : Str → Option D) (code : CallingCode D U) (fuel : Nat) (st : State D) (u : U) (argv : List Str) :
    State D × Res Unit × U × List Nat :=
  parseWith (fun st u => lastLoop scan code fuel st.firstNode st u) st u argv

end State
end BletArgs
