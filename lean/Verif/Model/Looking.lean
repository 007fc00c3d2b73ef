import Verif.Model.Stateful
import Verif.Spec.UserCode
/-
The same parse with user code that also consults the parser it is called from: validators and callbacks that look up
other arguments, their values, the settings. They see the parser as it is at that moment. (They do not change it: for
user code that calls a modifying function of the parser from inside a parse see `Model/Calling.lean`.)
-/
namespace BletArgs
variable {D : Type} {U : Type}

/-- Code of the user that consults the parser: it is given what can be read of it. -/
abbrev LookingCode (D U : Type) := State D → UserCode U

namespace Argument

/-- `src/args.cpp:146-215`, one iteration of the last loop, as `finishIn`; `view a` is the parser while this argument is
`a`. The validator is called before its argument changes; the callback after the rewriting and the conversion to a number. -/
def finishLooking (scan : Str → Option D) (code : LookingCode D U) (view : Argument D → State D) (u : U) (a : Argument D) :
    Argument D × List DestWrite × Res Unit × U :=
  match a.runValidIn (code (view a)) u with
  | (a1, .ok (), u) =>
    let a2 := a1.toNumber scan
    let r := a2.toDestIn (code (view a2)) u
    (a2, r.1, r.2.1, r.2.2)
  | (a1, r, u) => (a1, [], r, u)

end Argument

/-- `src/args.cpp:146-215`, the last loop, as `finishAllIn`; `view l` is the parser when its arguments are `l`, `done` are
the arguments before. -/
def finishAllLooking (scan : Str → Option D) (code : LookingCode D U) (view : List (Slot D) → State D) (u : U)
    (done : List (Slot D)) : List (Slot D) → List (Slot D) × List DestWrite × Res Unit × U
  | [] => ([], [], .ok (), u)
  | s :: ss =>
    match s.arg.finishLooking scan code (fun a => view (done ++ { s with arg := a } :: ss)) u with
    | (a1, w, .ok (), u) =>
      let r := finishAllLooking scan code view u (done ++ [{ s with arg := a1 }]) ss
      ({ s with arg := a1 } :: r.1, w ++ r.2.1, r.2.2.1, r.2.2.2)
    | (a1, w, r, u) => ({ s with arg := a1 } :: ss, w, r, u)

namespace State

/-- What can be read of the parser when its arguments are `l`: everything but the code of validators and callbacks. -/
def readable (st : State D) (l : List (Slot D)) : State D := ({ st with arguments := l } : State D).mute

/-- `src/args.cpp:133-215`, as `finishParseIn`. -/
def finishParseLooking (scan : Str → Option D) (code : LookingCode D U) (u : U) (st : State D) : State D × Res Unit × U :=
  match firstMissing st.arguments with
  | some e => (st, .throw e, u)
  | none =>
    let r := finishAllLooking scan code st.readable u [] st.arguments
    ({ st with arguments := r.1, destLog := st.destLog ++ r.2.1 }, r.2.2)

/-- `src/args.cpp:111-215`, as `afterLoopIn`. -/
def afterLoopLooking (scan : Str → Option D) (code : LookingCode D U) (u : U) (st : State D) : State D × Res Unit × U :=
  match st.optionSeen st.helpOption with
  | none => (st, .ub "dangling helpOption_", u)
  | some true =>
    if st.isHelpException then (st, .throw ⟨.help, [], st.getUsage⟩, u)
    else (st.clear, .exit (st.getUsage ++ "\n".toList), u)
  | some false =>
    match st.optionSeen st.versionOption with
    | none => (st, .ub "dangling versionOption_", u)
    | some true =>
      if st.isVersionException then (st, .throw ⟨.version, [], st.version⟩, u)
      else (st.clear, .exit (st.version ++ "\n".toList), u)
    | some false => st.finishParseLooking scan code u

/-- `src/args.cpp:63-216`, `Args::parseArguments`, as `parseIn`. -/
def parseLooking (scan : Str → Option D) (code : LookingCode D U) (u : U) (st : State D) (argv : List Str) :
    State D × Res Unit × U :=
  match st.resetAll.autoHelp with
  | (st1, .ok false) => (st1, .ok (), u)
  | (st1, .ok true) =>
    match st1.setBinaryIfEmpty argv with
    | (st2, .ok ()) =>
      match mainLoop argv (endOptionIndex argv) (st2.loopBudget argv) 1 st2 with
      | (st3, .ok ()) => st3.afterLoopLooking scan code u
      | (st3, r) => (st3, r, u)
    | (st2, r) => (st2, r, u)
  | (st1, r) => (st1, r.cast, u)

end State
end BletArgs
