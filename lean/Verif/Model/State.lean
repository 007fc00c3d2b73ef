import Verif.Model.Dest
/-
Model of the registry part of `include/blet/args/args.h`, `src/args.cpp` and of the mutators of
`Argument`.
-/
namespace BletArgs
variable {D : Type}

/-- One element of `std::list<Argument*> arguments_`: `node` is the address of the list element (the
`Argument**` stored in `argumentFromName_`, stable under `list::sort`), `obj` the address of the object
it points to (the `Argument&` handed to the user, replaced by `dest`).
Simplification: addresses are never used again; calls with any allocator are in `Model/Alloc`, and `C82` shows that correct
programs cannot tell the difference. -/
structure Slot (D : Type) where
  node : Nat
  obj : Nat
  arg : Argument D

/-- `include/blet/args/args.h:335-349` (`Args`) and `include/blet/args/usage.h:124-132` (`Usage`), plus
bookkeeping of the model: allocation counters, the `delete`d objects and validators, and the writes made
to user destinations. `byName` models the `std::map` (at most one entry per key, order irrelevant). -/
structure State (D : Type) where
  binaryName : Str := []
  arguments : List (Slot D) := []
  byName : List (Str × Nat) := []
  helpOption : Option Nat := none
  versionOption : Option Nat := none
  version : Str := []
  isAlternative : Bool := false
  isStrict : Bool := false
  isHelpException : Bool := false
  isVersionException : Bool := false
  additional : List Str := []
  description : Str := []
  epilog : Str := []
  usage : Str := []
  padWidth : Nat := 2
  argsWidth : Nat := 20
  sepWidth : Nat := 2
  helpWidth : Nat := 56
  nextNode : Nat := 0
  nextObj : Nat := 0
  freedObjs : List Nat := []
  freedValids : List Nat := []
  destLog : List DestWrite := []

/-- `src/args.cpp:43-54` and `src/usage.cpp:43-51`: a freshly constructed `Args`. -/
def State.init : State D := {}

/-- `argumentFromName_.find(name)`. -/
def lookupName (m : List (Str × Nat)) (name : Str) : Option Nat :=
  (m.find? (fun p => p.1 == name)).map (·.2)

/-- `argumentFromName_.insert(pair)`: does nothing when the key is present. -/
def insertName (m : List (Str × Nat)) (name : Str) (node : Nat) : List (Str × Nat) :=
  if (lookupName m name).isSome then m else m ++ [(name, node)]

namespace State

/-- The list element at address `node` (`**it->second`); `none` would be a dangling `Argument**`. -/
def atNode (st : State D) (node : Nat) : Option (Slot D) :=
  st.arguments.find? (fun s => s.node == node)

/-- The live object at address `obj`; `none` is a dangling `Argument&`/`Argument*`. -/
def atObj (st : State D) (obj : Nat) : Option (Slot D) :=
  st.arguments.find? (fun s => s.obj == obj)

/-- Update the argument stored in list element `node`. -/
def modNode (st : State D) (node : Nat) (f : Argument D → Argument D) : State D :=
  { st with arguments := st.arguments.map fun s => if s.node == node then { s with arg := f s.arg } else s }

/-- `include/blet/args/args.h:186-188`, `argumentExists`. -/
def argumentExists (st : State D) (name : Str) : Bool := (lookupName st.byName name).isSome

/-- `include/blet/args/args.h:196-202` `getArgument`, `:210-212` `operator[]` and `:257-263`
`updateArgument` (same body): the referenced slot. -/
def getArgument (st : State D) (name : Str) : Res (Slot D) :=
  match lookupName st.byName name with
  | none => .throw ⟨.accessDenied, name, "argument not found".toList⟩
  | some n =>
    match st.atNode n with
    | none => .ub "dangling Argument**"
    | some s => .ok s

/-- `arguments_.sort(&Argument::compareOption_)`. `compareOption_` calls `front()` on the names of
options, so an empty name vector is undefined behaviour (over-approximated: any empty vector). -/
def sortArguments (st : State D) : State D × Res Unit :=
  if st.arguments.any (fun s => s.arg.names.isEmpty) then (st, .ub "front() of an empty nameOrFlags_")
  else
    ({ st with arguments := stableSort (fun a b => a.arg.compareOption b.arg) st.arguments }, .ok ())

end State

/-- `src/args.cpp:238-248`, the loop of `addArgument` over the flags: note that the *first* flag is
looked up at every iteration (line 242), not the current one. `acc` is `newFlags`. -/
def checkFlags (m : List (Str × Nat)) (front : Str) : List Str → List Str → Except Exn (List Str)
  | [], acc => .ok acc
  | f :: fs, acc =>
    match validFormatFlag f with
    | some msg => .error ⟨.argument, f, msg⟩
    | none =>
      if (lookupName m front).isSome then .error ⟨.argument, front, "invalid flag already exist".toList⟩
      else checkFlags m front fs (if acc.contains f then acc else acc ++ [f])

namespace State

/-- `src/args.cpp:250,255-262`: allocate the object, link it, register its names, sort. Returns the
address of the new object. -/
def linkArgument (st : State D) (a : Argument D) : State D × Res Nat :=
  let st1 : State D :=
    { st with
      arguments := st.arguments ++ [{ node := st.nextNode, obj := st.nextObj, arg := a }]
      byName := a.names.foldl (fun m n => insertName m n st.nextNode) st.byName
      nextNode := st.nextNode + 1
      nextObj := st.nextObj + 1 }
  match st1.sortArguments with
  | (st2, .ok ()) => (st2, .ok st.nextObj)
  | (st2, r) => (st2, r.cast)

/-- `src/args.cpp:218-263`, `Args::addArgument`. -/
def addArgument (st : State D) (nof : List Str) : State D × Res Nat :=
  match nof with
  | [] => (st, .throw ⟨.argument, [], "invalid empty flag".toList⟩)
  | front :: rest =>
    if rest.isEmpty && front[0]? != some '-' then
      if front.isEmpty then (st, .throw ⟨.argument, [], "bad name argument".toList⟩)
      else if (lookupName st.byName front).isSome then
        (st, .throw ⟨.argument, front, "bad name argument already exist".toList⟩)
      else st.linkArgument { names := [front], nargs := 1, type := .pos }
    else
      match checkFlags st.byName front (front :: rest) [] with
      | .error e => (st, .throw e)
      | .ok newFlags => st.linkArgument { names := sortNames newFlags }

/-- Run `f` on the object at address `ref` (a method call through an `Argument&`): a dangling reference
is undefined behaviour. -/
def withRef {α : Type} (st : State D) (ref : Nat) (f : Slot D → State D × Res α) : State D × Res α :=
  match st.atObj ref with
  | none => (st, .ub "dangling Argument&")
  | some s => f s

/-- `src/argument.cpp:237-250`, `Argument::flag`. -/
def flag (st : State D) (ref : Nat) (f : Str) : State D × Res Unit :=
  st.withRef ref fun s =>
    if s.arg.isPositional then
      (st, .throw ⟨.argument, f, "can't add flag in positionnal argument".toList⟩)
    else
      match validFormatFlag f with
      | some msg => (st, .throw ⟨.argument, f, msg⟩)
      | none =>
        if st.argumentExists f then (st, .throw ⟨.argument, f, "invalid flag already exist".toList⟩)
        else
          let st1 := st.modNode s.node fun a => { a with names := sortNames (a.names ++ [f]) }
          { st1 with byName := insertName st1.byName f s.node }.sortArguments

/-- `typeConstructor_()` then `defaultsConstructor_()` on the object of slot `s` whose fields were
already set to `a` (`src/argument.cpp:262-263`, `include/blet/args/argument.h:516-517`). -/
def retype (st : State D) (s : Slot D) (a : Argument D) : State D × Res Unit :=
  match a.typeConstructor s.obj st.helpOption st.versionOption with
  | (a1, h, v, .ok ()) =>
    let r := a1.defaultsConstructor
    ({ st with helpOption := h, versionOption := v }.modNode s.node (fun _ => r.1), r.2)
  | (a1, h, v, r) => ({ st with helpOption := h, versionOption := v }.modNode s.node (fun _ => a1), r)

/-- `src/argument.cpp:252-265`, `Argument::action`. -/
def action (st : State D) (ref : Nat) (act : Action) : State D × Res Unit :=
  st.withRef ref fun s =>
    let st1 := if s.arg.action == .help then { st with helpOption := none } else st
    let st2 := if s.arg.action == .version then { st1 with versionOption := none } else st1
    st2.retype s { s.arg with action := act }

/-- `include/blet/args/argument.h:514-519`, `Argument::nargs`. -/
def nargs (st : State D) (ref : Nat) (n : Nat) : State D × Res Unit :=
  st.withRef ref fun s => st.retype s { s.arg with nargs := n }

/-- `include/blet/args/argument.h:529-533`, `Argument::defaults`. -/
def setDefaults (st : State D) (ref : Nat) (ds : List Str) : State D × Res Unit :=
  st.withRef ref fun s =>
    let r := { s.arg with defaults := ds }.defaultsConstructor
    (st.modNode s.node (fun _ => r.1), r.2)

/-- `src/argument.cpp:267-271`, `Argument::required`. -/
def required (st : State D) (ref : Nat) (b : Bool) : State D × Res Unit :=
  st.withRef ref fun s => (st.modNode s.node fun a => { a with isRequired := b }).sortArguments

/-- `include/blet/args/argument.h:482-485`, `Argument::help`. -/
def setHelp (st : State D) (ref : Nat) (h : Str) : State D × Res Unit :=
  st.withRef ref fun s => (st.modNode s.node fun a => { a with help := h }, .ok ())

/-- `include/blet/args/argument.h:501-504`, `Argument::metavar`. -/
def setMetavar (st : State D) (ref : Nat) (m : Str) : State D × Res Unit :=
  st.withRef ref fun s => (st.modNode s.node fun a => { a with metavar := m }, .ok ())

/-- The argument, with a validator and a callback that behave in another way. -/
def _root_.BletArgs.Argument.behaving (a : Argument D) (check : List Str → VRes) (refuses : DestWrite → Option Exn) :
    Argument D :=
  { a with valid := a.valid.map fun v => { v with check := check }, dest := a.dest.map fun d => { d with refuses := refuses } }

/-- Not a call of the library: from now on the user's code attached to this argument – its validator and its callback, if
any – behaves like this. Between two calls the objects of the user may change in any way; with this step the histories
include validators and callbacks with a state of their own. -/
def behave (st : State D) (ref : Nat) (check : List Str → VRes) (refuses : DestWrite → Option Exn) : State D × Res Unit :=
  st.withRef ref fun s => (st.modNode s.node fun a => a.behaving check refuses, .ok ())

/-- `Argument` inherits publicly from `std::vector<ArgumentElement>` (`include/blet/args/argument.h:241,334`): through an
`Argument&` the user can clear it, and insert, erase, move or replace elements. Whatever the calls on the vector, they leave
it with some elements, given here. (Elements whose assignment is sliced, `static_cast<ArgumentElement&>(a) = e`, are not
modelled: that would also replace the text and default text of the argument itself.) -/
def edit (scan : Str → Option D) (st : State D) (ref : Nat) (items : List NewElem) : State D × Res Unit :=
  st.withRef ref fun s => (st.modNode s.node fun a => { a with elems := items.map (NewElem.elem scan) }, .ok ())

end State

/-- `delete valid_` when there is one and it is deletable (`src/argument.cpp:140-144`,
`include/blet/args/argument.h:543-545`): the addresses freed. -/
def Argument.ownedValid (a : Argument D) : List Nat :=
  match a.valid with
  | some v => if a.validDeletable then [v.id] else []
  | none => []

namespace State

/-- `include/blet/args/argument.h:542-549`, `Argument::valid`; `v = none` is a NULL pointer. -/
def setValid (st : State D) (ref : Nat) (v : Option Validator) (deletable : Bool) : State D × Res Unit :=
  st.withRef ref fun s =>
    ({ st with freedValids := st.freedValids ++ s.arg.ownedValid }.modNode s.node
      fun a => { a with valid := v, validDeletable := deletable }, .ok ())

/-- `include/blet/args/argument.h:559-603` (the three `dest` overloads) with the constructors at
`:691-697,725-732,796-804` and the copy constructor `src/argument.cpp:123-138`: a new object replaces the
old one in the list element, without `defaults_`; the validator moves (`validDeletable_` of the old
object is false when it is deleted). `helpOption_`/`versionOption_` are not updated. Returns the new
object's address. -/
def setDest (st : State D) (ref : Nat) (d : Dest) : State D × Res Nat :=
  st.withRef ref fun s =>
    ({ st with
        arguments := st.arguments.map fun t =>
          if t.node == s.node then
            { t with obj := st.nextObj, arg := { t.arg with defaults := [], dest := some d } }
          else t
        nextObj := st.nextObj + 1
        freedObjs := st.freedObjs ++ [s.obj] }, .ok st.nextObj)

/-- `src/args.cpp:278-308`, the second loop of `removeArguments`. The stored iterators are identified by
their keys; an iterator whose entry was already erased is undefined behaviour. -/
def removeLoop : List Str → State D → State D × Res Unit
  | [], st => (st, .ok ())
  | n :: ns, st =>
    match lookupName st.byName n with
    | none => (st, .ub "use of an erased map iterator")
    | some node =>
      match st.atNode node with
      | none => (st, .ub "dangling Argument**")
      | some s =>
        if s.arg.names.contains n then
          let st1 := st.modNode node fun a => { a with names := a.names.erase n }
          let st2 := { st1 with byName := st1.byName.filter (fun p => !(p.1 == n)) }
          if st2.byName.any (fun p => p.2 == node) then
            removeLoop ns (st2.modNode node fun a => { a with names := sortNames a.names })
          else
            let st3 :=
              if st2.helpOption == some s.obj then { st2 with helpOption := none }
              else if st2.versionOption == some s.obj then { st2 with versionOption := none }
              else st2
            removeLoop ns
              { st3 with
                freedObjs := st3.freedObjs ++ [s.obj]
                freedValids := st3.freedValids ++ s.arg.ownedValid
                arguments := st3.arguments.filter (fun t => !(t.node == node)) }
        else (st, .ub "erase(end())")

/-- `src/args.cpp:271-277`: the first name that is not registered. -/
def firstUnknown (m : List (Str × Nat)) (names : List Str) : Option Str :=
  names.find? (fun n => !(lookupName m n).isSome)

/-- `src/args.cpp:265-310`, `Args::removeArguments`. -/
def removeArguments (st : State D) (names : List Str) : State D × Res Unit :=
  if names.isEmpty then (st, .throw ⟨.argument, [], "invalid empty flag".toList⟩)
  else
    match firstUnknown st.byName names with
    | some n => (st, .throw ⟨.argument, n, "argument not found".toList⟩)
    | none =>
      match removeLoop names st with
      | (st1, .ok ()) => st1.sortArguments
      | (st1, r) => (st1, r)

/-- The `delete`s of `src/args.cpp:56-61` (`~Args`) and `:312-316` (`clear`). -/
def deleteAll (st : State D) : State D :=
  { st with
    freedObjs := st.freedObjs ++ st.arguments.map (·.obj)
    freedValids := st.freedValids ++ st.arguments.flatMap (fun s => s.arg.ownedValid) }

/-- `src/args.cpp:312-336`, `Args::clear`. -/
def clear (st : State D) : State D :=
  { st.deleteAll with
    arguments := [], byName := [], binaryName := [], helpOption := none, versionOption := none
    version := [], isAlternative := false, isStrict := false, isHelpException := false
    isVersionException := false, additional := [], description := [], epilog := [], usage := []
    padWidth := 2, argsWidth := 20, sepWidth := 2, helpWidth := 56 }

end State
end BletArgs
