import Verif.Model.Utils
/-
Model of `include/blet/args/argument.h` and `src/argument.cpp`: one argument object.
`D` is the type of C++ `double`s (abstract).
-/
namespace BletArgs
variable {D : Type}

/-- `include/blet/args/argument.h:241-320`, an `ArgumentElement` without children.
`num` models the pair `isNumber_`/`number_` (`none` when `isNumber_` is false: `getNumber` then throws
whatever `number_` holds). -/
structure Leaf (D : Type) where
  argument : Str := []
  dflt : Str := []
  num : Option D := none

/-- `include/blet/args/argument.h:241-320`, an `ArgumentElement` stored in an `Argument`: the class is a
recursive vector but the code never nests deeper than `at(i).at(j)`, so two explicit levels are enough (elements a user
nests deeper are never read by the library). -/
structure Elem (D : Type) where
  argument : Str := []
  dflt : Str := []
  num : Option D := none
  subs : List (Leaf D) := []

/-- An element the user puts into an argument through the publicly inherited `std::vector` (`argument.h:241`): a new one
(`ArgumentElement(arg, default)`, `argument.h:249-250`, which is not a number), or one copied or moved from an argument,
whose number was `read` from its text by the last parse or not. `subs` are its own elements. -/
structure NewElem where
  text : Str
  dflt : Str
  read : Bool := false
  subs : List (Str × Str × Bool) := []

/-- The element, with its number. -/
def NewElem.elem (scan : Str → Option D) (i : NewElem) : Elem D :=
  { argument := i.text, dflt := i.dflt, num := if i.read then scan i.text else none
    subs := i.subs.map fun s => { argument := s.1, dflt := s.2.1, num := if s.2.2 then scan s.1 else none } }

/-- Outcome of a user-supplied `IValid::isValid(std::vector<std::string>&)`
(`include/blet/args/valid.h:52`): it may rewrite the vector, return false, throw
`ParseArgumentValidException(msg)` or throw something else. -/
inductive VRes where
  | accept (args : List Str)
  | reject
  | throwValid (msg : Str)
  | throwOther (e : Exn)

/-- A validator object, identified by its address `id`. Simplification: `check` is a function of the values
(`Model/Stateful.lean` models code with a state, and C76 reduces it to this). -/
structure Validator where
  id : Nat
  check : List Str → VRes

/-- Which of the three `dest` overloads was used (`include/blet/args/argument.h:559-603`). -/
inductive DestKind where
  | scalar | vector | vecvec
  deriving DecidableEq, Repr

/-- What is handed to the conversion of a destination: the member `argument_` (`strTo(argument_, …)`), the temporary
returned by `getString()` (`strTo(at(i).getString(), …)`, `include/blet/args/argument.h:762,768,839,845`) or a boolean
(`boolTo`). -/
inductive Src where
  | str (s : Str)
  | temp (s : Str)
  | bool (b : Bool)
  deriving DecidableEq, Repr

/-- One observable effect on the user's destination variables. -/
inductive DestWrite where
  | set (slot : Nat) (v : Src)                         -- dest_ = conv(v)
  | append (slot : Nat) (v : Src)                      -- dest_.push_back(conv(v))
  | appendVec (slot : Nat) (v : List Src)              -- dest_.push_back(vector of conv)
  | callScalar (slot : Nat) (isExist : Bool) (v : Str)
  | callVector (slot : Nat) (isExist : Bool) (v : List Str)
  | callVecVec (slot : Nat) (isExist : Bool) (v : List (List Str))
  deriving DecidableEq, Repr

/-- A destination variable registered with `dest`. `custom` tells whether a `toDest` callback was given;
`supported` tells whether `strTo`/`boolTo` has an overload for the element type (if not, the template at
`argument.h:45-48,152-155` throws). `refuses` is the behaviour of the callback: the exception it throws when it gets
that call (`include/blet/args/argument.h:703,754,830`), `none` when it returns; without callback it is not used.
Simplification: this depends on the flag and the strings it gets, not on what the variable holds or on what happened
before, and the callback makes no call on the parser. -/
structure Dest where
  slot : Nat
  kind : DestKind
  custom : Bool
  supported : Bool
  refuses : DestWrite → Option Exn

/-- `include/blet/args/argument.h:334-686`, `Argument` (with its `ArgumentElement` base).
`this_`/`args_` are the position of the object in the state (see `Slot`). -/
structure Argument (D : Type) where
  argument : Str := []
  dflt : Str := []
  num : Option D := none
  elems : List (Elem D) := []
  names : List Str := []
  type : Ty := .simple
  isExist : Bool := false
  isRequired : Bool := false
  count : Nat := 0
  nargs : Nat := 1
  help : Str := []
  metavar : Str := []
  valid : Option Validator := none
  validDeletable : Bool := true
  action : Action := .none
  defaults : List Str := []
  dest : Option Dest := none

/-- `src/argument.cpp:42-55`, `compareFlag`. -/
def compareFlag (first second : Str) : Bool :=
  if isShortOption first && isShortOption second then strLt first second
  else if isShortOption first && !isShortOption second then true
  else if !isShortOption first && isShortOption second then false
  else strLt first second

/-- `src/argument.cpp:273-275`, `Argument::sortNameOrFlags_`. -/
def sortNames (names : List Str) : List Str := stableSort compareFlag names

/-- `src/argument.cpp:277-290`, `Argument::validFormatFlag_`: `some msg` when it throws
`ArgumentException(flag, msg)`. -/
def validFormatFlag (flag : Str) : Option Str :=
  if flag[0]? != some '-' then
    some "invalid flag not start by '-' character".toList
  else if flag[0]? == some '-' && flag[1]? == none then
    some "invalid flag not be only '-' character".toList
  else if flag[0]? == some '-' && flag[1]? == some '-' && flag[2]? == none then
    some "invalid flag not be only '--' characters".toList
  else if flag[0]? == some '-' && flag[1]? != some '-' && flag[2]? != none then
    some "invalid short flag has not only one character".toList
  else none

namespace Argument

/-- `include/blet/args/argument.h:637-647`. -/
def isPositional (a : Argument D) : Bool := a.type.isPositional

/-- `nameOrFlags_.front()`; an empty vector would be UB, see `namesOk`. -/
def front (a : Argument D) : Str := a.names.headD []

/-- `src/argument.cpp:292-359`, `Argument::compareOption_`. -/
def compareOption (first second : Argument D) : Bool :=
  if first.isPositional && first.isRequired && second.isPositional && second.isRequired then false
  else if first.isPositional && first.isRequired && second.isPositional then true
  else if first.isPositional && second.isPositional && second.isRequired then false
  else if first.isPositional && second.isPositional then false
  else if first.isPositional then false
  else if second.isPositional then true
  else if isShortOption first.front && isShortOption second.front then
    if first.isRequired && !second.isRequired then true
    else if !first.isRequired && second.isRequired then false
    else strLt first.front second.front
  else if isShortOption first.front && !isShortOption second.front then
    if !first.isRequired && second.isRequired then false else true
  else if !isShortOption first.front && isShortOption second.front then
    if first.isRequired && !second.isRequired then true
    else if !first.isRequired && second.isRequired then false
    else false
  else
    if first.isRequired && !second.isRequired then true
    else if !first.isRequired && second.isRequired then false
    else strLt first.front second.front

/-- `src/argument.cpp:423-502`, `Argument::typeConstructor_`. `self` is the object's address,
`help`/`version` the members `args_.helpOption_`/`args_.versionOption_`. Returns the object, the two
members and the outcome (an exception leaves everything else as modified so far).
`'+'` is 43. -/
def typeConstructor (self : Nat) (help version : Option Nat) (a : Argument D) :
    Argument D × Option Nat × Option Nat × Res Unit :=
  if a.isPositional then
    if a.nargs == 1 && a.action == .none then
      ({ a with type := .pos }, help, version, .ok ())
    else if (a.nargs == 43 && a.action == .none) || (a.nargs == 1 && a.action == .infinite) then
      ({ a with nargs := 1, action := .infinite, type := .infinitePos }, help, version, .ok ())
    else if decide (a.nargs > 1) && a.action == .none then
      ({ a with type := .numberPos }, help, version, .ok ())
    else if decide (a.nargs > 1) && a.action == .infinite then
      ({ a with type := .infiniteNumberPos }, help, version, .ok ())
    else
      (a, help, version,
        .throw ⟨.argument, a.front, "positional argument cannot use with this action or this nargs".toList⟩)
  else if a.nargs == 0 || a.action == .storeTrue then
    ({ a with nargs := 0, type := .boolean }, help, version, .ok ())
  else if a.action == .storeFalse then
    ({ a with nargs := 0, type := .reverse }, help, version, .ok ())
  else if a.action == .help then
    if help == none || help == some self then
      ({ a with nargs := 0, type := .help }, some self, version, .ok ())
    else
      (a, help, version, .throw ⟨.argument, a.front, "help action already defined".toList⟩)
  else if a.action == .version then
    if version == none || version == some self then
      ({ a with nargs := 0, type := .version }, help, some self, .ok ())
    else
      (a, help, version, .throw ⟨.argument, a.front, "version action already defined".toList⟩)
  else if a.nargs == 1 && a.action == .none then
    ({ a with type := .simple }, help, version, .ok ())
  else if (a.nargs == 43 && a.action == .none) || a.action == .infinite then
    ({ a with nargs := 1, action := .infinite, type := .infinite }, help, version, .ok ())
  else if decide (a.nargs > 1) && a.action == .none then
    ({ a with type := .number }, help, version, .ok ())
  else if a.nargs == 1 && a.action == .append then
    ({ a with type := .multi }, help, version, .ok ())
  else if decide (a.nargs > 1) && a.action == .append then
    ({ a with type := .multiNumber }, help, version, .ok ())
  else if a.nargs == 1 && a.action == .extend then
    ({ a with type := .multiInfinite }, help, version, .ok ())
  else if decide (a.nargs > 1) && a.action == .extend then
    ({ a with type := .multiNumberInfinite }, help, version, .ok ())
  else
    (a, help, version, .ok ())

end Argument

/-- The `", "`-separated concatenations built by the loops at `src/argument.cpp:155-179,521-565`. -/
def joinComma : List Str → Str
  | [] => []
  | [s] => s
  | s :: t :: rest => s ++ ", ".toList ++ joinComma (t :: rest)

/-- The groups `defaults_[i*nargs_ .. i*nargs_+nargs_)`, `i < defaults_.size()/nargs_`, of the loops at
`src/argument.cpp:547-565`. -/
def groupsOf (n : Nat) (l : List Str) : List (List Str) :=
  (List.range (l.length / n)).map fun i => (l.drop (i * n)).take n

/-- `src/argument.cpp:75-80`, `ArgumentElement(arg, default)` without children, as a vector item. -/
def dfltElem (s : Str) : Elem D := { argument := s, dflt := s }

/-- `src/argument.cpp:552-564`, the element built for one default group. -/
def dfltGroup (g : List Str) : Elem D :=
  { dflt := joinComma g, subs := g.map fun s => { argument := s, dflt := s } }

namespace Argument

/-- The exception of `src/argument.cpp:510,518,544`. -/
def badDefaults (a : Argument D) : Exn :=
  ⟨.argument, a.front, "invalid number of argument with number of default argument".toList⟩

/-- `src/argument.cpp:504-568`, `Argument::defaultsConstructor_`. The four `if` blocks test disjoint
types, so at most one of them runs. -/
def defaultsConstructor (a : Argument D) : Argument D × Res Unit :=
  if decide (a.nargs > 0) && decide (a.defaults.length > 0) then
    let a := { a with elems := [] }
    match a.type with
    | .pos | .simple =>
      if a.defaults.length != a.nargs then (a, .throw a.badDefaults)
      else ({ a with argument := a.defaults.headD [], dflt := a.defaults.headD [] }, .ok ())
    | .numberPos | .number =>
      if a.defaults.length != a.nargs then (a, .throw a.badDefaults)
      else ({ a with dflt := joinComma a.defaults, elems := a.defaults.map dfltElem }, .ok ())
    | .infinitePos | .multi | .infinite | .multiInfinite =>
      ({ a with dflt := joinComma a.defaults, elems := a.defaults.map dfltElem }, .ok ())
    | .infiniteNumberPos | .multiNumber | .multiNumberInfinite =>
      if a.defaults.length % a.nargs != 0 then (a, .throw a.badDefaults)
      else
        -- `default_ +=` starts from the previous value: it is not reset in this branch
        ({ a with
            dflt := a.dflt ++
              joinComma ((groupsOf a.nargs a.defaults).map fun g =>
                "(".toList ++ joinComma g ++ ")".toList)
            elems := (groupsOf a.nargs a.defaults).map dfltGroup }, .ok ())
    | _ => (a, .ok ())
  else (a, .ok ())

/-- `src/argument.cpp:570-586`, `Argument::clear_`. -/
def reset (a : Argument D) : Argument D :=
  { a with
    argument := a.dflt, num := none, count := 0, isExist := false
    elems := a.elems.map fun e =>
      { e with argument := e.dflt, num := none
               subs := e.subs.map fun l => { l with argument := l.dflt, num := none } } }

/-- `src/argument.cpp:361-385`, `Argument::toNumber_`. `scan s` models
`std::stringstream ss(s); ss >> number` (`none` when the extraction fails). -/
def toNumber (scan : Str → Option D) (a : Argument D) : Argument D :=
  if a.type == .boolean || a.type == .reverse then a
  else if a.elems.isEmpty then { a with num := scan a.argument }
  else
    { a with elems := a.elems.map fun e =>
        if e.subs.isEmpty then { e with num := scan e.argument }
        else { e with subs := e.subs.map fun l => { l with num := scan l.argument } } }

/-- `src/argument.cpp:146-182`, `Argument::getString`. -/
def getString (a : Argument D) : Str :=
  match a.type with
  | .boolean => if a.isExist then "true".toList else "false".toList
  | .reverse => if a.isExist then "false".toList else "true".toList
  | _ =>
    if a.elems.isEmpty then a.argument
    else joinComma (a.elems.map fun e =>
      if e.subs.isEmpty then e.argument
      else "(".toList ++ joinComma (e.subs.map (·.argument)) ++ ")".toList)

/-- `src/argument.cpp:184-215`, `Argument::operator std::vector<std::string>`; `none` when it throws
`Exception("convertion to vector of string not authorized")`. -/
def toVector (a : Argument D) : Option (List Str) :=
  match a.type with
  | .pos | .simple => some [a.argument]
  | .numberPos | .infinitePos | .number | .multi | .infinite | .multiInfinite =>
    some (a.elems.map (·.argument))
  | .multiNumber | .multiNumberInfinite | .infiniteNumberPos =>
    some (a.elems.flatMap fun e => e.subs.map (·.argument))
  | _ => none

/-- `src/argument.cpp:217-235`, `Argument::operator std::vector<std::vector<std::string> >`; `none` when
it throws. -/
def toVecVec (a : Argument D) : Option (List (List Str)) :=
  match a.type with
  | .multiNumber | .multiNumberInfinite | .infiniteNumberPos =>
    some (a.elems.map fun e => e.subs.map (·.argument))
  | _ => none

/-- `include/blet/args/argument.h:399-406`, `operator bool`. -/
def toBool (a : Argument D) : Bool :=
  if a.type == .reverse then !a.isExist else a.isExist

/-- `include/blet/args/argument.h:287-292`, `getNumber`; `none` when it throws. -/
def getNumber (a : Argument D) : Option D := a.num

end Argument

/-- `src/argument.cpp:89-98`, `ArgumentElement::operator std::vector<std::string>`; `none` when it
throws. Children of an element never have children, so `front().empty()` holds whenever the element is
non-empty. -/
def Elem.toVector (e : Elem D) : Option (List Str) :=
  if e.subs.isEmpty then none else some (e.subs.map (·.argument))

/-- `push_back(const char*)`: the implicit `ArgumentElement(arg)` of `src/argument.cpp:81-86`. -/
def valElem (s : Str) : Elem D := { argument := s }

/-- `ArgumentElement newNumberArgument;` filled by `push_back(argv[i])`
(`src/args.cpp:502-506,522-527,631-636`). -/
def valGroup (g : List Str) : Elem D := { subs := g.map fun s => { argument := s } }

end BletArgs
