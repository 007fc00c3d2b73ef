import Verif.Model.Parse
/-
The same parse with user code that has a state: validators and callbacks of the user may read and write variables of the
program – the destinations among them. In `Model/Parse.lean` a validator is a function of the values it is given and a
callback one of the values it is called with; here they are also functions of the state of the program, and what they
leave behind is passed on. Only the last loop of `parseArguments` runs user code.

User code that reads or calls the parser it is called from: `Model/Looking.lean`, `Model/Calling.lean`.
-/
namespace BletArgs
variable {D : Type} {U : Type}

/-- The code of the user, `U` being what it can read and write. -/
structure UserCode (U : Type) where
  /-- `isValid(args)` of the validator with this number (`include/blet/args/argument.h:299-304`). -/
  check : Nat → List Str → U → VRes × U
  /-- A call of a callback: the exception it throws, if any. -/
  call : DestWrite → U → Option Exn × U
  /-- What an assignment to a destination, or an insertion into it, leaves behind. -/
  assigned : DestWrite → U → U

namespace Argument

/-- `src/args.cpp:148-210`, as `runValid`. -/
def runValidIn (code : UserCode U) (u : U) (a : Argument D) : Argument D × Res Unit × U :=
  match a.valid with
  | none => (a, .ok (), u)
  | some v =>
    if a.isExist then
      match code.check v.id (a.toVector.getD []) u with
      | (.throwValid msg, u) => (a, .throw (a.validExn msg), u)
      | (.throwOther e, u) => (a, .throw e, u)
      | (.reject, u) => (a, .throw (a.validExn "invalid check function".toList), u)
      | (.accept args, u) =>
        match a.type with
        | .pos | .simple =>
          ((match args with | [] => a | s :: _ => { a with argument := s }), .ok (), u)
        | .number | .multi | .infinite | .multiInfinite | .numberPos | .infinitePos =>
          ({ a with elems := writeElems a.elems args }, .ok (), u)
        | .multiNumber | .multiNumberInfinite | .infiniteNumberPos =>
          ({ a with elems := writeGroups a.elems args }, .ok (), u)
        | _ => (a, .throw (a.validExn "invalid type option for use valid".toList), u)
    else (a, .ok (), u)

/-- A call of a callback, as `Dest.invoke`. -/
def _root_.BletArgs.UserCode.invoke (code : UserCode U) (u : U) (w : DestWrite) : List DestWrite × Res Unit × U :=
  match code.call w u with
  | (none, u) => ([w], .ok (), u)
  | (some e, u) => ([w], .throw e, u)

/-- Assignments and insertions, one after the other. -/
def _root_.BletArgs.UserCode.assign (code : UserCode U) (u : U) (ws : List DestWrite) : List DestWrite × Res Unit × U :=
  (ws, .ok (), ws.foldl (fun u w => code.assigned w u) u)

/-- `toDest_` (`include/blet/args/argument.h:649-651,701-716,736-787,808-867`), as `toDest`. -/
def toDestIn (code : UserCode U) (u : U) (a : Argument D) : List DestWrite × Res Unit × U :=
  match a.dest with
  | none => ([], .ok (), u)
  | some d =>
    match d.kind with
    | .scalar =>
      if d.custom then code.invoke u (.callScalar d.slot a.isExist a.argument)
      else if d.supported then code.assign u [.set d.slot a.scalarSrc]
      else ([], .throw noConversion, u)
    | .vector =>
      if d.custom then
        code.invoke u (.callVector d.slot a.isExist (if a.elems.isEmpty then [a.argument] else a.flatStrings))
      else if d.supported then
        code.assign u (if a.elems.isEmpty then [.append d.slot a.scalarSrc]
          else a.flatStrings.map fun s => .append d.slot (.temp s))
      else ([], .throw noConversion, u)
    | .vecvec =>
      if d.custom then
        code.invoke u (.callVecVec d.slot a.isExist (if a.elems.isEmpty then [[a.argument]] else a.groupedStrings))
      else if d.supported then
        code.assign u (if a.elems.isEmpty then [.appendVec d.slot [a.scalarSrc]]
          else a.groupedStrings.map fun g => .appendVec d.slot (g.map Src.temp))
      else ([], .throw noConversion, u)

/-- `src/args.cpp:146-215`, one iteration of the last loop, as `finish`. -/
def finishIn (scan : Str → Option D) (code : UserCode U) (u : U) (a : Argument D) :
    Argument D × List DestWrite × Res Unit × U :=
  match a.runValidIn code u with
  | (a1, .ok (), u) =>
    let a2 := a1.toNumber scan
    let r := a2.toDestIn code u
    (a2, r.1, r.2.1, r.2.2)
  | (a1, r, u) => (a1, [], r, u)

end Argument

/-- `src/args.cpp:146-215`, the last loop, as `finishAll`. -/
def finishAllIn (scan : Str → Option D) (code : UserCode U) (u : U) :
    List (Slot D) → List (Slot D) × List DestWrite × Res Unit × U
  | [] => ([], [], .ok (), u)
  | s :: ss =>
    match s.arg.finishIn scan code u with
    | (a1, w, .ok (), u) =>
      let r := finishAllIn scan code u ss
      ({ s with arg := a1 } :: r.1, w ++ r.2.1, r.2.2.1, r.2.2.2)
    | (a1, w, r, u) => ({ s with arg := a1 } :: ss, w, r, u)

namespace State

/-- `src/args.cpp:133-215`, as `finishParse`. -/
def finishParseIn (scan : Str → Option D) (code : UserCode U) (u : U) (st : State D) : State D × Res Unit × U :=
  match firstMissing st.arguments with
  | some e => (st, .throw e, u)
  | none =>
    let r := finishAllIn scan code u st.arguments
    ({ st with arguments := r.1, destLog := st.destLog ++ r.2.1 }, r.2.2)

/-- `src/args.cpp:111-215`, as `afterLoop`. -/
def afterLoopIn (scan : Str → Option D) (code : UserCode U) (u : U) (st : State D) : State D × Res Unit × U :=
  match st.optionSeen st.helpOption with
  | none => (st, .ub "dangling helpOption_", u)
  | some true =>
    if st.isHelpException then (st, .throw ⟨.help, [], st.getUsage⟩, u)
    else (st.clear, .exit (st.getUsage ++ "\n".toList), u)
  | some false =>
    match st.optionSeen st.versionOption with
    | none => (st, .ub "dangling versionOption_", u)
    | some true =>
      if st.isVersionException then (st, .throw ⟨.version, [], st.version⟩, u)
      else (st.clear, .exit (st.version ++ "\n".toList), u)
    | some false => st.finishParseIn scan code u

/-- `src/args.cpp:63-216`, `Args::parseArguments`, as `parseArguments`. -/
def parseIn (scan : Str → Option D) (code : UserCode U) (u : U) (st : State D) (argv : List Str) :
    State D × Res Unit × U :=
  match st.resetAll.autoHelp with
  | (st1, .ok false) => (st1, .ok (), u)
  | (st1, .ok true) =>
    match st1.setBinaryIfEmpty argv with
    | (st2, .ok ()) =>
      match mainLoop argv (endOptionIndex argv) (st2.loopBudget argv) 1 st2 with
      | (st3, .ok ()) => st3.afterLoopIn scan code u
      | (st3, r) => (st3, r, u)
    | (st2, r) => (st2, r, u)
  | (st1, r) => (st1, r.cast, u)

end State
end BletArgs
