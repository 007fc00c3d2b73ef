import Verif.Spec.Api
import Verif.Spec.Config
/-
Calls interrupted by a failed allocation (`std::bad_alloc`), statement by statement.
-/
namespace BletArgs
variable {D : Type}

/-- The calls in which memory is allocated. The others cannot fail: `clear` (`src/args.cpp:312-336`), `required`
(`src/argument.cpp:267-271`, `std::list::sort` only relinks elements), `valid` (`include/blet/args/argument.h:542-549`)
and the setters of flags and widths. `behave` and `edit` are not calls of the library (an interrupted change of the
elements leaves some elements: it is an `edit`). -/
def Op.allocates : Op → Bool
  | .clear | .required .. | .valid .. | .behave .. | .edit .. | .setAlternative _ | .setStrict _ | .setHelpException _
  | .setVersionException _ | .setUsageWidth .. => false
  | _ => true

namespace State

/-- `src/args.cpp:219-253`: the object made by `addArgument`, if the checks pass. -/
def build (st : State D) (nof : List Str) : Option (Argument D) :=
  match nof with
  | [] => none
  | front :: rest =>
    if rest.isEmpty && front[0]? != some '-' then
      if front.isEmpty then none
      else if (lookupName st.byName front).isSome then none
      else some { names := [front], nargs := 1, type := .pos }
    else
      match checkFlags st.byName front (front :: rest) [] with
      | .error _ => none
      | .ok newFlags => some { names := sortNames newFlags }

/-- `src/args.cpp:255-260`: the object is linked and its first `k` names are registered; the list is not sorted. -/
def linkPart (st : State D) (a : Argument D) (k : Nat) : State D :=
  { st with
    arguments := st.arguments ++ [{ node := st.nextNode, obj := st.nextObj, arg := a }]
    byName := (a.names.take k).foldl (fun m n => insertName m n st.nextNode) st.byName
    nextNode := st.nextNode + 1
    nextObj := st.nextObj + 1 }

/-- `src/args.cpp:77-83`: the flags of the automatic help option. -/
def autoFlags (st : State D) : List Str :=
  (if st.argumentExists "-h".toList then [] else ["-h".toList]) ++
  (if st.argumentExists "--help".toList then [] else ["--help".toList])

/-- `src/args.cpp:69-75`: `parseArguments` is going to create a help option. -/
def createsHelp (st : State D) : Bool :=
  st.helpOption.isNone && !(st.argumentExists "-h".toList && st.argumentExists "--help".toList)

end State

/-- What a call can leave when an allocation fails in it and `std::bad_alloc` (or any exception of a copied string) goes up
to the caller. Assignments of `std::string`, `push_back` and `map::insert` have no effect when they fail; sorting the
list and the names of an argument does not allocate (strings are moved, C++11 and later). -/
inductive Aborts (scan : Str → Option D) : State D → Op → State D → Prop
  /-- Before any change: copies of the parameters, checks (`src/args.cpp:218-250,265-277`, `src/argument.cpp:237-244`),
  assignments of texts (`include/blet/args/argument.h:482-485,501-504`, `args.h`, `usage.h`). -/
  | unchanged {st : State D} {op : Op} : op.allocates = true → (∀ r, op.ref = some r → st.atObj r ≠ none) →
      Aborts scan st op st
  /-- The exception of a refused call could not be made. -/
  | unthrown {st : State D} {op : Op} {e : Exn} : (step scan st op).2 = .throw e → Aborts scan st op (step scan st op).1
  /-- `src/args.cpp:227,251,255`: the new object is not in the list, and is lost. -/
  | lost {st : State D} {names : List Str} {a : Argument D} : st.build names = some a →
      Aborts scan st (.add names) { st with nextObj := st.nextObj + 1 }
  /-- `src/args.cpp:258-260`: the insertion of a name after the first `k` failed. -/
  | listed {st : State D} {names : List Str} {a : Argument D} {k : Nat} : st.build names = some a → k < a.names.length →
      Aborts scan st (.add names) (st.linkPart a k)
  /-- `src/argument.cpp:247`: the flag is in the names of the argument, but not registered. -/
  | flagged {st : State D} {ref : Nat} {f : Str} {s : Slot D} : st.atObj ref = some s → s.arg.isPositional = false →
      validFormatFlag f = none → st.argumentExists f = false →
      Aborts scan st (.flag ref f) (st.modNode s.node fun a => { a with names := sortNames (a.names ++ [f]) })
  /-- `src/argument.cpp:504-568` in `action`, `nargs` and `defaults`: the text, default text and elements are partly set.
  Simplification: they are anything. -/
  | values {st : State D} {op : Op} {ref : Nat} {s : Slot D} {t d : Str} {es : List (Elem D)} :
      ((∃ x, op = .action ref x) ∨ (∃ x, op = .nargs ref x) ∨ ∃ x, op = .defaults ref x) → st.atObj ref = some s →
      Aborts scan st op ((step scan st op).1.modNode s.node fun a => { a with argument := t, dflt := d, elems := es })
  /-- `include/blet/args/argument.h:530`: the assignment of the list of default values, element by element.
  Simplification: the list is anything. -/
  | defaults {st : State D} {ref : Nat} {ds ds' : List Str} {s : Slot D} : st.atObj ref = some s →
      Aborts scan st (.defaults ref ds) (st.modNode s.node fun a => { a with defaults := ds' })
  /-- `include/blet/args/argument.h:566-568,584-586,600-602`: the new object could not be made; `validDeletable_` stays
  false in the old one. -/
  | dest {st : State D} {ref : Nat} {d : Dest} {s : Slot D} : st.atObj ref = some s →
      Aborts scan st (.dest ref d) (st.modNode s.node fun a => { a with validDeletable := false })
  /-- `src/args.cpp:65-67`: while the values of the previous parse are reset. Simplification (also for the next three): the
  values of the arguments are anything; `st0` is `st` with some values. -/
  | parseReset {st st0 : State D} {argv : List Str} : st0.config = st.config → Aborts scan st (.parse argv) st0
  /-- `src/args.cpp:77-84`: while `addArgument` makes the help option. -/
  | parseAdd {st st0 st' : State D} {argv : List Str} : st0.config = st.config → st0.createsHelp = true →
      Aborts scan st0 (.add st0.autoFlags) st' → Aborts scan st (.parse argv) st'
  /-- `src/args.cpp:84`: the help text of the help option could not be set (`action` does not allocate here). -/
  | parseText {st st0 : State D} {argv : List Str} : st0.config = st.config → st0.createsHelp = true →
      Aborts scan st (.parse argv) ((st0.addArgument st0.autoFlags).1.action st0.nextObj .help).1
  /-- `src/args.cpp:87-215`: later, with or without a program name. -/
  | parseRun {st st0 st1 st' : State D} {argv : List Str} {b : Str} : st0.config = st.config → st0.autoHelp = (st1, .ok true) →
      st'.config = { st1.config with binaryName := b } → (b = st1.binaryName ∨ st1.binaryName = [] ∧ argv.head? = some b) →
      Aborts scan st (.parse argv) st'

end BletArgs
