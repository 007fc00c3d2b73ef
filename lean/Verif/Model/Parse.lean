import Verif.Model.Usage
/-
Model of the parsing part of `src/args.cpp`.

Convention: the C++ functions advance `*index` to the last consumed token and the caller's loop then does
`++i`; the model returns the index after that increment (the next token to look at).
-/
namespace BletArgs
variable {D : Type}

/-- `push_back(argv[k])` for `k = lo, …, lo+n-1`; `none` is an out-of-bounds read. -/
def readRange (argv : List Str) (lo : Nat) : Nat → Option (List Str)
  | 0 => some []
  | n + 1 =>
    match argv[lo]? with
    | none => none
    | some v => (readRange argv (lo + 1) n).map (v :: ·)

/-- The loops `for (i; i < max; ++i) { if (endOfInfiniteArgument_(argv[i])) break; push_back(argv[i]); }`
(`src/args.cpp:459-465,485-491,613-619`), where the first parameter is the number `max - i` of remaining
iterations; `none` is an out-of-bounds read. -/
def scanInfinite (stop : Str → Bool) (argv : List Str) : Nat → Nat → Option (List Str)
  | 0, _ => some []
  | n + 1, i =>
    match argv[i]? with
    | none => none
    | some v => if stop v then some [] else (scanInfinite stop argv n (i + 1)).map (v :: ·)

/-- How the loop over groups ends: normally, by the "bad number of argument" exception, by an
out-of-bounds read or never; with the groups pushed so far. -/
inductive GroupsEnd where
  | done | bad | oob | forever
  deriving DecidableEq, Repr

/-- The loops over groups of `nargs_` tokens (`src/args.cpp:515-528` and `:624-637`):
`for (i; i < max; i += nargs_)`. `i + nargs_` is computed on 64 bits. The first parameter bounds the
number of iterations; running out of it stands for an endless loop (justified by `C18`). -/
def scanGroups (stop : Str → Bool) (argv : List Str) (max nargs : Nat) :
    Nat → Nat → List (List Str) × GroupsEnd
  | 0, _ => ([], .forever)
  | f + 1, i =>
    if i < max then
      match argv[i]? with
      | none => ([], .oob)
      | some v =>
        if stop v then ([], .done)
        else
          let s := (i + nargs) % two64
          if s > max then ([], .bad)
          else
            match readRange argv i (s - i) with
            | none => ([], .oob)
            | some g =>
              let r := scanGroups stop argv max nargs f s
              (g :: r.1, r.2)
    else ([], .done)

/-- `++countArg` for every token of every group. -/
def groupsCount (gs : List (List Str)) : Nat := (gs.map List.length).sum

/-- `ParseArgumentException(option, msg)`. -/
def parseExn (option : Str) (msg : String) : Exn := ⟨.parse, option, msg.toList⟩

namespace Argument

/-- `if (argument->isExist_ == false) argument->clear();` -/
def clearIfFirst (a : Argument D) : Argument D := if a.isExist then a else { a with elems := [] }

/-- `argument->push_back(...)` of several elements. -/
def push (a : Argument D) (es : List (Elem D)) : Argument D := { a with elems := a.elems ++ es }

/-- `src/args.cpp:536-537`, `isExist_ = true; ++count_`. -/
def mark (a : Argument D) : Argument D := { a with isExist := true, count := a.count + 1 }

/-- `src/args.cpp:404-538`, `Args::parseArgument_`. `stop` is `endOfInfiniteArgument_`. The first
component is the object as left behind, also when an exception is thrown. -/
def parseArgument (stop : Str → Bool) (argv : List Str) (max index : Nat) (hasArg : Bool)
    (option arg : Str) (a : Argument D) : Argument D × Res Nat :=
  if hasArg then
    match a.type with
    | .simple => ({ a with argument := arg }.mark, .ok (index + 1))
    | .number | .multiNumber | .multiNumberInfinite =>
      (a, .throw (parseExn option "option cannot use with only 1 argument"))
    | .infinite => (({ a with elems := [] }.push [valElem arg]).mark, .ok (index + 1))
    | .multi | .multiInfinite => ((a.clearIfFirst.push [valElem arg]).mark, .ok (index + 1))
    | _ => (a, .throw (parseExn option "option cannot use with argument"))
  else
    match a.type with
    | .simple =>
      if index + 1 ≥ max then (a, .throw (parseExn option "bad number of argument"))
      else
        match argv[index + 1]? with
        | none => (a, .ub "argv out of bounds")
        | some v => ({ a with argument := v }.mark, .ok (index + 1 + 1))
    | .number =>
      let a := { a with elems := [] }
      let s := (index + a.nargs) % two64
      if s ≥ max then (a, .throw (parseExn option "bad number of argument"))
      else
        match readRange argv (index + 1) (s - index) with
        | none => (a, .ub "argv out of bounds")
        | some vs => ((a.push (vs.map valElem)).mark, .ok (s + 1))
    | .infinite =>
      let a := { a with elems := [] }
      match scanInfinite stop argv (max - (index + 1)) (index + 1) with
      | none => (a, .ub "argv out of bounds")
      | some vs => ((a.push (vs.map valElem)).mark, .ok (index + vs.length + 1))
    | .multi =>
      let a := a.clearIfFirst
      if index + 1 ≥ max then (a, .throw (parseExn option "bad number of argument"))
      else
        match argv[index + 1]? with
        | none => (a, .ub "argv out of bounds")
        | some v => ((a.push [valElem v]).mark, .ok (index + 1 + 1))
    | .multiInfinite =>
      let a := a.clearIfFirst
      match scanInfinite stop argv (max - (index + 1)) (index + 1) with
      | none => (a, .ub "argv out of bounds")
      | some vs => ((a.push (vs.map valElem)).mark, .ok (index + vs.length + 1))
    | .multiNumber =>
      let a := a.clearIfFirst
      let s := (index + a.nargs) % two64
      if s ≥ max then (a, .throw (parseExn option "bad number of argument"))
      else
        match readRange argv (index + 1) (s - index) with
        | none => (a, .ub "argv out of bounds")
        | some vs => ((a.push [valGroup vs]).mark, .ok (s + 1))
    | .multiNumberInfinite =>
      let a := a.clearIfFirst
      match scanGroups stop argv max a.nargs (max + 1) (index + 1) with
      | (gs, .done) => ((a.push (gs.map valGroup)).mark, .ok (index + groupsCount gs + 1))
      | (gs, .bad) => (a.push (gs.map valGroup), .throw (parseExn option "bad number of argument"))
      | (gs, .oob) => (a.push (gs.map valGroup), .ub "argv out of bounds")
      | (gs, .forever) => (a.push (gs.map valGroup), .diverge)
    | _ => (a.mark, .ok (index + 1))

end Argument

/-- `"-" + charOption`. -/
def shortFlag (c : Char) : Str := ['-', c]

/-- The types listed at `src/args.cpp:362-367` and `:559-564` (the attached-value forms):
`MULTI_NUMBER_INFINITE_OPTION` is not among them. -/
def Ty.takesAttached : Ty → Bool
  | .simple | .number | .infinite | .multi | .multiInfinite | .multiNumber => true
  | _ => false

/-- `BOOLEAN_OPTION` or `REVERSE_BOOLEAN_OPTION`. -/
def Ty.isBoolean : Ty → Bool
  | .boolean | .reverse => true
  | _ => false

namespace State

/-- `(*(it->second))->type_` for a name: `none` when the name is unknown (or its slot is missing). -/
def typeOf (st : State D) (name : Str) : Option Ty :=
  match lookupName st.byName name with
  | none => none
  | some n => (st.atNode n).map (fun s => s.arg.type)

/-- `src/args.cpp:553-574`, the loop of `endOfInfiniteArgument_` over the characters after the dash and
the lookup of the last one. -/
def endOfClusters (st : State D) (hasArg : Bool) : List Char → Bool
  | [] => st.argumentExists (shortFlag '-')   -- option == "-": its last character is the dash
  | [c] => st.argumentExists (shortFlag c)
  | c :: c2 :: rest =>
    match st.typeOf (shortFlag c) with
    | none => false
    | some t =>
      if !hasArg && t.takesAttached then true
      else if t.isBoolean then true
      else endOfClusters st hasArg (c2 :: rest)

/-- `src/args.cpp:540-587`, `Args::endOfInfiniteArgument_`. -/
def endOfInfinite (st : State D) (tok : Str) : Bool :=
  if isShortOption tok then
    let (option, _, hasArg) := takeArg tok
    if st.isAlternative && st.argumentExists ('-' :: option) then true
    else st.endOfClusters hasArg (option.drop 1)
  else if isLongOption tok then
    let (option, _, _) := takeArg tok
    st.argumentExists option
  else false

/-- Call `parseArgument_` on the argument registered in list element `node` and store it back. -/
def parseAt (st : State D) (argv : List Str) (max index : Nat) (hasArg : Bool) (option arg : Str)
    (node : Nat) : State D × Res Nat :=
  match st.atNode node with
  | none => (st, .ub "dangling Argument**")
  | some s =>
    let r := s.arg.parseArgument st.endOfInfinite argv max index hasArg option arg
    (st.modNode node (fun _ => r.1), r.2)

/-- `src/args.cpp:355-388`, the loop of `parseShortArgument_` over the characters after the dash and the
treatment of the last one. -/
def parseCluster (argv : List Str) (max index : Nat) (hasArg : Bool) (arg : Str) :
    List Char → State D → State D × Res Nat
  | [], st =>   -- options == "-": the last character is the dash itself
    match lookupName st.byName (shortFlag '-') with
    | none => (st, .throw (parseExn ['-'] "invalid option"))
    | some n => st.parseAt argv max index hasArg ['-'] arg n
  | [c], st =>
    match lookupName st.byName (shortFlag c) with
    | none => (st, .throw (parseExn [c] "invalid option"))
    | some n => st.parseAt argv max index hasArg [c] arg n
  | c :: c2 :: rest, st =>
    match lookupName st.byName (shortFlag c) with
    | none => (st, .throw (parseExn [c] "invalid option"))
    | some n =>
      match st.atNode n with
      | none => (st, .ub "dangling Argument**")
      | some s =>
        if !hasArg && s.arg.type.takesAttached then
          (st.modNode n Argument.mark).parseAt argv max index true [c] (c2 :: rest) n
        else if !s.arg.type.isBoolean then
          (st, .throw (parseExn [c] "only last option can be use a parameter"))
        else parseCluster argv max index hasArg arg (c2 :: rest) (st.modNode n Argument.mark)

/-- `src/args.cpp:341-389`, `Args::parseShortArgument_`. -/
def parseShort (st : State D) (argv : List Str) (max index : Nat) (tok : Str) : State D × Res Nat :=
  let (options, arg, hasArg) := takeArg tok
  match (if st.isAlternative then lookupName st.byName ('-' :: options) else none) with
  | some n => st.parseAt argv max index hasArg (options.drop 1) arg n
  | none => parseCluster argv max index hasArg arg (options.drop 1) st

/-- `src/args.cpp:391-402`, `Args::parseLongArgument_`. -/
def parseLong (st : State D) (argv : List Str) (max index : Nat) (tok : Str) : State D × Res Nat :=
  let (option, arg, hasArg) := takeArg tok
  match lookupName st.byName option with
  | none => (st, .throw (parseExn (option.drop 2) "invalid option"))
  | some n => st.parseAt argv max index hasArg (option.drop 2) arg n

end State

namespace Argument

/-- `src/args.cpp:598-640`, the body of `parsePositionnalArgument_` for the selected argument.
`stop` is constantly false when `hasEndOption`. -/
def parsePositional (stop : Str → Bool) (argv : List Str) (argc index : Nat) (a : Argument D) :
    Argument D × Res Nat :=
  let bad : Res Nat := .throw (parseExn a.front "bad number of argument")
  match a.type with
  | .pos =>
    match argv[index]? with
    | none => (a, .ub "argv out of bounds")
    | some v => ({ a with argument := v, isExist := true }, .ok (index + 1))
  | .numberPos =>
    let s := (index + a.nargs) % two64
    if s > argc then (a, bad)
    else
      match readRange argv index (s - index) with
      | none => (a, .ub "argv out of bounds")
      | some vs => ({ a.push (vs.map valElem) with isExist := true }, .ok s)
  | .infinitePos =>
    match scanInfinite stop argv (argc - index) index with
    | none => (a, .ub "argv out of bounds")
    | some vs => ({ a.push (vs.map valElem) with isExist := true }, .ok (index + vs.length))
  | .infiniteNumberPos =>
    match scanGroups stop argv argc a.nargs (argc + 1) index with
    | (gs, .done) => ({ a.push (gs.map valGroup) with isExist := true }, .ok (index + groupsCount gs))
    | (gs, .bad) => (a.push (gs.map valGroup), bad)
    | (gs, .oob) => (a.push (gs.map valGroup), .ub "argv out of bounds")
    | (gs, .forever) => (a.push (gs.map valGroup), .diverge)
  | _ => ({ a with isExist := true }, .ok (index + 1))

end Argument

namespace State

/-- `src/args.cpp:591-596`: the first positional argument that does not exist yet. -/
def nextPositional (st : State D) : Option (Slot D) :=
  st.arguments.find? (fun s => !s.arg.isExist && s.arg.isPositional)

/-- `src/args.cpp:589-650`, `Args::parsePositionnalArgument_`. -/
def parsePositionalTok (st : State D) (argv : List Str) (argc index : Nat) (hasEnd : Bool) :
    State D × Res Nat :=
  match st.nextPositional with
  | some s =>
    let r := s.arg.parsePositional (if hasEnd then fun _ => false else st.endOfInfinite) argv argc index
    (st.modNode s.node (fun _ => r.1), r.2)
  | none =>
    match argv[index]? with
    | none => (st, .ub "argv out of bounds")
    | some v =>
      if st.isStrict then (st, .throw (parseExn v "invalid additional argument"))
      else ({ st with additional := st.additional ++ [v] }, .ok (index + 1))

/-- `src/args.cpp:101-104`: the loop after `"--"`. The first parameter bounds the number of iterations. -/
def endLoop (argv : List Str) : Nat → Nat → State D → State D × Res Unit
  | 0, _, st => (st, .diverge)
  | f + 1, i, st =>
    if i < argv.length then
      match st.parsePositionalTok argv argv.length i true with
      | (st1, .ok i1) => endLoop argv f i1 st1
      | (st1, r) => (st1, r.cast)
    else (st, .ok ())

/-- `src/args.cpp:92-110`: the main loop. The first parameter bounds the number of iterations. -/
def mainLoop (argv : List Str) (endIndex : Nat) : Nat → Nat → State D → State D × Res Unit
  | 0, _, st => (st, .diverge)
  | f + 1, i, st =>
    if i < argv.length then
      match argv[i]? with
      | none => (st, .ub "argv out of bounds")
      | some tok =>
        if isShortOption tok then
          match st.parseShort argv endIndex i tok with
          | (st1, .ok i1) => mainLoop argv endIndex f i1 st1
          | (st1, r) => (st1, r.cast)
        else if isLongOption tok then
          match st.parseLong argv endIndex i tok with
          | (st1, .ok i1) => mainLoop argv endIndex f i1 st1
          | (st1, r) => (st1, r.cast)
        else if isEndOption tok then endLoop argv f (i + 1) st
        else
          match st.parsePositionalTok argv endIndex i false with
          | (st1, .ok i1) => mainLoop argv endIndex f i1 st1
          | (st1, r) => (st1, r.cast)
    else (st, .ok ())

/-- Iteration budget given to the loops by `parseArguments`. The next index depends only on the current
index and on the number of positional arguments not yet filled, so a loop that runs longer than
`(argc + 1) * (positionals + 1)` iterations has come back to a previous situation and never ends. For
disciplined histories every iteration consumes a token and the budget is never reached (`C18`). -/
def loopBudget (st : State D) (argv : List Str) : Nat := (argv.length + 1) * (st.arguments.length + 2)

end State

/-- The writes back of `src/args.cpp:185-187` (`at(i).argument_ = arguments[i]`). -/
def writeElems : List (Elem D) → List Str → List (Elem D)
  | e :: es, s :: ss => { e with argument := s } :: writeElems es ss
  | es, _ => es

/-- `src/args.cpp:194-197`, inner loop; returns the unused strings. -/
def writeLeaves : List (Leaf D) → List Str → List (Leaf D) × List Str
  | l :: ls, s :: ss =>
    let r := writeLeaves ls ss
    ({ l with argument := s } :: r.1, r.2)
  | ls, ss => (ls, ss)

/-- `src/args.cpp:192-198`, outer loop. -/
def writeGroups : List (Elem D) → List Str → List (Elem D)
  | [], _ => []
  | e :: es, ss =>
    let r := writeLeaves e.subs ss
    { e with subs := r.1 } :: writeGroups es r.2

namespace Argument

/-- `ParseArgumentValidException((*it)->nameOrFlags_.front(), msg)` (`src/args.cpp:206-209`). -/
def validExn (a : Argument D) (msg : Str) : Exn := ⟨.valid, a.front, msg⟩

/-- `src/args.cpp:147-210`: run the validator of one argument. -/
def runValid (a : Argument D) : Argument D × Res Unit :=
  match a.valid with
  | none => (a, .ok ())
  | some v =>
    if a.isExist then
      match v.check (a.toVector.getD []) with
      | .throwValid msg => (a, .throw (a.validExn msg))
      | .throwOther e => (a, .throw e)
      | .reject => (a, .throw (a.validExn "invalid check function".toList))
      | .accept args =>
        match a.type with
        | .pos | .simple =>
          ((match args with | [] => a | s :: _ => { a with argument := s }), .ok ())
        | .number | .multi | .infinite | .multiInfinite | .numberPos | .infinitePos =>
          ({ a with elems := writeElems a.elems args }, .ok ())
        | .multiNumber | .multiNumberInfinite | .infiniteNumberPos =>
          ({ a with elems := writeGroups a.elems args }, .ok ())
        | _ => (a, .throw (a.validExn "invalid type option for use valid".toList))
    else (a, .ok ())

/-- `src/args.cpp:146-215`, one iteration of the last loop: validator, `toNumber_`, `toDest_`. -/
def finish (scan : Str → Option D) (a : Argument D) : Argument D × List DestWrite × Res Unit :=
  match a.runValid with
  | (a1, .ok ()) =>
    let a2 := a1.toNumber scan
    let r := a2.toDest
    (a2, r.1, r.2)
  | (a1, r) => (a1, [], r)

end Argument

/-- `src/args.cpp:146-215`, the last loop: stops at the first exception. -/
def finishAll (scan : Str → Option D) : List (Slot D) → List (Slot D) × List DestWrite × Res Unit
  | [] => ([], [], .ok ())
  | s :: ss =>
    match s.arg.finish scan with
    | (a1, w, .ok ()) =>
      let r := finishAll scan ss
      ({ s with arg := a1 } :: r.1, w ++ r.2.1, r.2.2)
    | (a1, w, r) => ({ s with arg := a1 } :: ss, w, r)

/-- `src/args.cpp:134-144`: the exception for the first required argument that is missing. -/
def firstMissing (l : List (Slot D)) : Option Exn :=
  (l.find? (fun s => s.arg.isRequired && !s.arg.isExist)).map fun s =>
    if s.arg.type == .pos then ⟨.required, s.arg.front, "argument is required".toList⟩
    else ⟨.required, s.arg.front, "option is required".toList⟩

namespace State

/-- `src/args.cpp:65-67`. -/
def resetAll (st : State D) : State D :=
  { st with arguments := st.arguments.map fun s => { s with arg := s.arg.reset } }

/-- `src/args.cpp:69-84`: register the help option; `false` in the result means "return at once"
(line 74). -/
def autoHelp (st : State D) : State D × Res Bool :=
  if st.helpOption.isNone then
    if st.argumentExists "-h".toList && st.argumentExists "--help".toList then (st, .ok false)
    else
      let flags :=
        (if st.argumentExists "-h".toList then [] else ["-h".toList]) ++
        (if st.argumentExists "--help".toList then [] else ["--help".toList])
      match st.addArgument flags with
      | (st1, .ok ref) =>
        match st1.action ref .help with
        | (st2, .ok ()) =>
          match st2.setHelp ref "show this help message and exit".toList with
          | (st3, .ok ()) => (st3, .ok true)
          | (st3, r) => (st3, r.cast)
        | (st2, r) => (st2, r.cast)
      | (st1, r) => (st1, r.cast)
  else (st, .ok true)

/-- `helpOption_ != NULL && helpOption_->isExist_` (also for the version): `none` is a dangling
pointer. -/
def optionSeen (st : State D) (p : Option Nat) : Option Bool :=
  match p with
  | none => some false
  | some obj => (st.atObj obj).map (fun s => s.arg.isExist)

/-- `src/args.cpp:133-215`: required check, then validators, conversions and destinations. -/
def finishParse (scan : Str → Option D) (st : State D) : State D × Res Unit :=
  match firstMissing st.arguments with
  | some e => (st, .throw e)
  | none =>
    let r := finishAll scan st.arguments
    ({ st with arguments := r.1, destLog := st.destLog ++ r.2.1 }, r.2.2)

/-- `src/args.cpp:111-215`: everything after the main loop. -/
def afterLoop (scan : Str → Option D) (st : State D) : State D × Res Unit :=
  match st.optionSeen st.helpOption with
  | none => (st, .ub "dangling helpOption_")
  | some true =>
    if st.isHelpException then (st, .throw ⟨.help, [], st.getUsage⟩)
    else (st.clear, .exit (st.getUsage ++ "\n".toList))
  | some false =>
    match st.optionSeen st.versionOption with
    | none => (st, .ub "dangling versionOption_")
    | some true =>
      if st.isVersionException then (st, .throw ⟨.version, [], st.version⟩)
      else (st.clear, .exit (st.version ++ "\n".toList))
    | some false => st.finishParse scan

/-- `src/args.cpp:85-88`. `argv[0]` is NULL when `argc == 0`. -/
def setBinaryIfEmpty (st : State D) (argv : List Str) : State D × Res Unit :=
  if st.binaryName.isEmpty then
    match argv[0]? with
    | none => (st, .ub "std::string from NULL")
    | some b => ({ st with binaryName := b }, .ok ())
  else (st, .ok ())

/-- `src/args.cpp:63-216`, `Args::parseArguments`. `argc` is the length of `argv`. -/
def parseArguments (scan : Str → Option D) (st : State D) (argv : List Str) : State D × Res Unit :=
  match st.resetAll.autoHelp with
  | (st1, .ok false) => (st1, .ok ())
  | (st1, .ok true) =>
    match st1.setBinaryIfEmpty argv with
    | (st2, .ok ()) =>
      match mainLoop argv (endOptionIndex argv) (st2.loopBudget argv) 1 st2 with
      | (st3, .ok ()) => st3.afterLoop scan
      | (st3, r) => (st3, r)
    | (st2, r) => (st2, r)
  | (st1, r) => (st1, r.cast)

end State
end BletArgs
