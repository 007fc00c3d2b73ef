# Formal model of MickaelBlet/Args in Lean 4

Sources: `/repo` (C++). `single_include/blet/args.h` was compared with `src/*.cpp` and `include/blet/args/*.h`:
the function bodies are the same after normalising white space, so one model covers both.

## Layout

| path | content |
|---|---|
| `lean/Verif/Model` | executable model, function by function, every definition cites file and lines |
| `lean/Verif/Spec`  | specifications, written without the model's helpers (see "Specifications") |
| `lean/Verif/Lemmas`| helper lemmas (not claims) |
| `lean/Verif/Props` | the property theorems `Cnn_…`, each with a concrete case beside it |
| `properties.jsonl` | the properties in English (`tools/mkprops.py`) |
| `MANIFEST.json`    | property → theorems (`tools/mkmanifest.py`, `tools/notes.json`) |
| `AXIOMS.md`        | axioms of every claimed theorem (`tools/mkaxioms.py`) |
| `seeded/LOG.jsonl` | seeded bugs tried against the theorems (`tools/seed.py`, `tools/mklog.py`) |

## Trusted base

* Lean 4.33.0 kernel. Axioms: at most `propext`, `Classical.choice`, `Quot.sound`; the list per theorem is in
  `AXIOMS.md`. No axiom is declared, no `native_decide`/`bv_decide`. `decide +kernel` is used only for concrete
  cases (examples, negative witnesses): the kernel evaluates the decision procedure itself.
* The reading of the C++ code: the code is not run; the tie between model and code is the citation of each
  definition.
* The specifications in `Spec/` say what the English says.
* C++ semantics assumed: `std::list::sort` is stable and its result is determined by a strict weak order
  (the order axioms are proved, C11), list nodes keep their address, `std::map::insert` does not overwrite,
  `std::map::erase` invalidates only the erased iterator, `std::size_t` has 64 bits, `int` 32.
* Allocation never fails (except in C85: calls interrupted by `std::bad_alloc`, `Model/Failing.lean`), addresses are never reused (an object number in the model is a fresh address).

## What is modelled

* `utils.h`: token classes, `endOptionIndex`, `takeArg` (`Model/Utils.lean`).
* `argument.h`, `argument.cpp`: argument objects, comparison, kinds (`typeConstructor`), defaults, `clear_`,
  `getString`, `operator std::vector…` (`Model/Argument.lean`); `toDest_` for the three kinds of destination, and
  `strTo`/`boolTo` for `char[N]` byte by byte (`Model/Dest.lean`); the numeric, boolean, string and pointer
  overloads of `strTo`/`boolTo` over an abstract type of doubles (`Model/Conv.lean`); `size()`, `arg[i]`,
  `arg[i][j]`, `getNumber`, the conversions of elements (`Model/Read.lean`).
* `args.h`, `args.cpp`: registry (list and map), all mutators, remove, clear, destructor (`Model/State.lean`), the
  whole of `parseArguments` with its index arithmetic modulo 2^64 (`Model/Parse.lean`).
* Calls with any memory allocator (`Model/Alloc.lean`); elsewhere addresses are not used again, which C82 justifies.
* Copies of `Argument`s made by the user, their setters and destruction (`Model/Copies.lean`).
* `usage.cpp`, `metavarDefault_` (`Model/Usage.lean`); `valid.cpp` (`Model/Valid.lean`).
* Exceptions carry class, argument and message. Undefined behaviour (dangling references and pointers, erased
  iterators, out-of-bounds `argv` and elements, `front()` of an empty vector, double → integer conversions out of
  range), non-termination and `exit` are outcomes of their own (`Res`), so "it cannot happen" is a theorem and not
  an assumption. Writes to the user's variables and calls of custom conversions are logged in order (`destLog`);
  deletions of arguments and validators are logged (`freedObjs`, `freedValids`).

## What is not modelled

* Numbers: `double` is an abstract type. Which texts `strtod`/`stringstream >> double` accept, printing, comparison
  and truncation are parameters (`scan`, `Doubles`), so theorems hold for every C library; they say nothing about
  IEEE or locales.
* The file system: `stat` is a parameter.
* Validators are functions of the list of values (they may rewrite it, accept, reject, throw); custom `toDest`
  callbacks are logged, and return or throw depending on what they are given (`Dest.refuses`); both may be other
  functions after any call (`behave`). Code whose answers depend on a state of the program is modelled in
  `Model/Stateful` and reduced to this by C76, code that also reads the parser it is called from in `Model/Looking`, reduced by
  C81, and code that calls the parser from inside a parse – configuring, adding or removing arguments, or parsing again – in
  `Model/Calling` (C84; there validators and callbacks of all arguments are one script-valued function, and running out of
  a bound on iterations and nested parses stands for an endless loop).
* Embedded NUL characters in `std::string`s; characters are `Char`s rather than bytes (no code path looks at more
  than equality, `<`, and ASCII `toupper`). `::toupper` of a `char` that is negative (a byte of a non-ASCII flag, printed in
  the usage, src/argument.cpp:402) is undefined behaviour in C++; the model leaves such characters as they are.
* Users may mutate the publicly inherited `std::vector` of an argument in any way (`Op.edit`, C83; every property about
  histories includes such edits). Not modelled is an assignment to the sliced element base of an argument
  (`static_cast<ArgumentElement&>(a) = e`).
* Overload resolution and template plumbing; stream operators other than those that print a string; demangling.
* Windows path separator variant of the base name (`_WIN32`).
* Threads: the code has none, and no claim is made about concurrent use.

## Specifications

* `Spec/Tokens`, `Spec/Text`: classes of tokens, wrapping.
* `Spec/Order`: the listing order as a lexicographic key. `Spec/Kinds`: the documented table action × nargs → kind.
* `Spec/Api`: the API calls as `Op`, one `step` per call, `Reachable` (any history; calls that threw are included,
  the user may have caught the exception) and `ReachableBy P` (histories all of whose calls satisfy `P`).
* `Spec/Grammar`, `Spec/Sig`: the command-line grammar as inductive relations on lists of tokens (no indices, no
  loop): `Line sig places tokens events error`. An event is "option with these values", "positional argument with
  these values" or "surplus word". `Spec/Outcome`: what the events say about each argument (`Shows`), and `Ready`,
  the parsers the parsing properties are about.
* `Spec/Reader`: an executable reference parser (lists, no indices) for the same grammar.
* `Spec/Position`, `Spec/Blocks`, `Spec/Faults`: places on a command line, reorderings, and the possible faults.
* `Spec/Dest`, `Spec/Store`: writes to variables; `Spec/Usage`: rows and items of the usage; `Spec/Config`,
  `Spec/Settings`: what is configuration and what is result.

Hypotheses used again and again, all of them satisfied by the concrete parsers `parser`, `defaultsParser`
and others shown in `Props/`:

* `Reachable` — none but "obtained through the API".
* `Disciplined` — no exception of `action()`/`nargs()` was ignored, every `nargs` is below 2^64 − 2^31.
* `Ready` — reached by any calls, of which any number may have been interrupted by failed allocations (`Survives`, C85), kinds documented (true unless an exception of `action()`/`nargs()` was swallowed), no
  overflow of `index + nargs`, a help option (a parser without one parses as if it had been added:
  `C55_as_if_added`), argv[0] present and not `--`.
* `Careful` — histories without the stale defaults described below.

## Properties

Every property is proved; none is partial. Where the natural claim is false of the code, the theorem states the
exact boundary and a second theorem exhibits the counterexample (C07, C15, C16, C18, C19, C35, C36, C59, C60).

| ids | model | how |
|---|---|---|
| C01 C02 | `Utils` | case analysis on the first characters; list lemmas on the first `=` |
| C03 C04 C09 C10 C13 | `State` | invariant `Inv` (`Lemmas/Inv*`) by induction over histories; characterisation of each call under `Inv` |
| C05 C06 C08 | `State` | exact outcome of `addArgument`/`flag` (`AddOutcome`, `flag_outcome`) |
| C07 | `State` | uniqueness for histories that never reuse a flag; witness and exact effect when one is reused |
| C11 | `Argument`, `State` | comparator = lexicographic order on keys; sorting is unique; position of insertions; order of positionals by induction over histories |
| C12 | `State` | `clear` = `init` up to object numbers; lifted to every continuation by the renaming bisimulation of `Lemmas/Move` |
| C14 C15 | `Argument` | decision table; the second call compared field by field, exact exceptions |
| C16 | `State` | invariant over histories under explicit discipline, witnesses without it |
| C17 | `Argument` | cases on kinds |
| C18 | `Parse` | progress measure on the loops (`Lemmas/Progress`); divergence of two concrete reachable parsers proved by induction on fuel |
| C19 | all | `Res.ub` excluded call by call under the listed preconditions; each listed misuse does reach `ub` |
| C20 | `Parse` | refinement: index loops ⇒ derivation (`Lemmas/Reads*`, `tokens_agree`) and uniqueness of derivations (`Lemmas/Unique`); `Spec/Reader` is a small executable reference parser for the grammar, shown to compute exactly the derivation (`Lemmas/Reader`, `C20_reference`), also used to instantiate the theorems on concrete lines |
| C21–C31 C37 C38 C65 C66 | `Parse` | theorems about derivations in arbitrary contexts (`Lemmas/Position`, `Spell`), transported by C20 |
| C68 | `State`, `Parse` | both parsers derive the same line (`Lemmas/Mention`: signatures that agree on the flags mentioned), the extra slots are skipped by every later phase; `C68_added_option` is the case of one `addArgument` |
| C69 | `Parse` | `Spec/Write`: how to write a list of wishes; derivations built with the constructors of the grammar (`C69_written`), inversion of the grammar for the converse (`C69_sayable`), registry for the flags that can be typed (`C69_flags`) |
| C70 | `State` | `Spec/Chain`: statements made of chained calls, independence, parsers that cannot be told apart. `Lemmas/Rename`: nothing depends on addresses (bisimulation up to a one-to-one renaming of them); `Lemmas/Commute`, `ChainEdit`, `ChainSwap`: every chain is an edit of one argument that is the same at both states; the sorted list is determined by its members and the queues of positionals. Permutations by moving one declaration after the other to the front |
| C71 | `State` | `Lemmas/Withdraw`: the loop of `removeArguments` on all names of one argument; the edit of a chain (C70) undone, `C71_as_if_never_declared` by moving the declaration last (C70) |
| C72 | all calls | `Lemmas/Bare`: erasing the texts commutes with every function of the model (parsing included), hence a bisimulation; the statement (`Spec/Texts`) compares any two programs with the same other calls |
| C73 | `parseArguments` with callbacks of any behaviour | `Lemmas/Callback`, `Lemmas/Aim`: replacing the destinations commutes with everything before the last loop; induction on that loop, compared with the run where all callbacks return |
| C74 | `parseArguments` with and without destinations | the same two lemmas, compared with the run without destinations |
| C75 | copy constructor, destructor and setters of copies, beside the parser (`Model/Copies`) | a step about a copy leaves the parser and the other copies alone (induction on the program); the validators deleted by copies and owned by them are a permutation of those they got (induction on the program); the exceptions (`flag()`, owned validators) by computation on any state |
| C76 | `parseIn` = `parseArguments` with user code that reads and writes a program state (`Model/Stateful`); histories `ReachableIn` | the answers given in the last loop depend on the argument asked for only once each, so a table from arguments to answers does the same; all other calls do not look at the code (`Lemmas/Tune`, `Lemmas/Stateful`) |
| C77 | the same with code that records its calls (`recorded`) | the last loop, argument by argument, on the state after the tokens (`Lemmas/After`) |
| C78 | the usage text as laid out by C46/C47; `Narrow` and `ShortWords` of `Spec/Fits` | structure of the text: every line is shown to be short, and each part shown to be in a line |
| C79 | the state before and after a call of the list `Op.quiet` (`Spec/Shown`) | what `getUsage` reads is the same (C57, C62), then induction on the calls |
| C80 | `Vector` and `Args::vector` as expressions over list variables, evaluated with their side effects, in programs that also call the parser (`Model/Lists`) | induction on the texts of a sum and on the program; C05 and C06 for the refusal |
| C81 | `parseLooking` = `parseIn` with user code that is also given the readable part of the parser (`Model/Looking`) | as C76, with the view of each iteration; induction on the last loop for what is seen |
| C82 | `stepAt`: a call with the addresses the allocator would choose (`Model/Alloc`) | two runs side by side (`Spec/Alloc`); before each call the renaming of `Lemmas/Rename` is chosen anew on the live addresses, extended to a one-to-one map |
| C83 | `Op.edit`: the user replaces the elements (`Model/State`) | the signature and places do not depend on elements; `occurs` on arguments that differ in elements only |
| C84 | `parseCalling`: the last loop with its iterator over the list while user code calls the parser (`Model/Calling`) | monotonicity in the bound; the registry invariant through scripts and nested parses; induction on the loop with the nodes of the list kept, or kept in place; hazards by kernel evaluation; endlessness by induction on the bound |
| C85 | `Aborts`: what a call can leave when an allocation fails in it, statement by statement (`Model/Failing`); simplifications: the text, default text, elements and list of defaults being assigned, and all values after an interrupted parse, are anything; `std::string` assignment, `push_back` and `map::insert` have no effect when they fail; sorting does not allocate | the registry invariant without the parts that do not survive (every argument found by a name, sortedness, no leak: `GInv False`) through every call and every interruption; counting objects and validators; kinds and `nargs` of the arguments through interruptions, hence `Ready` (all theorems on parsing) and termination; hazards by kernel evaluation |
| C86 | the existing model; `Spec/Anytime`: the setters, and the last value given to each setting | frame lemma: every declaring call commutes with replacing the settings; induction over the two programs |
| C87 | the existing model; `Spec/Lax`: the parser without its validators, validators that only check | relational: every step before the last loop commutes with removing the validators; in the last loop induction over the arguments |
| C88 | the existing model, the parser after `required(b)` on an option or a positional argument between the required and the optional ones (`Spec/Required`) | relational: the sorted list is the mapped list in another order with the positionals in place (sorted lists with the same classes are equal), so signature and places are equal; outcome by `parse_ok_iff`, which characterises acceptance argument by argument |
| C89 | the existing model; `Spec/Promise`: how the values shown in the usage are read | composition of C46, C69, C27 with an invariant that relates action, kind and `nargs`; nonemptiness of fillings by induction over the grammar |
| C90 | the existing model; `Spec/Within`: what each call is about, statements with rearranged calls | `Lemmas/Within`: what the constructors of kinds and defaults do not depend on; two adjacent calls about different things commute as edits of one argument (`Slot.run` of C70); permutations by moving one call after the other to the front; the list is determined by its members and the queues of positionals |
| C91 | the existing model; `Spec/Given`: command lines that give the values of an argument, parsers compared without the default texts of one argument | `Lemmas/Given`: what the tokens do to two arguments that differ in default texts and elements; lists that differ in one such argument end the last loop alike; C20 for values behind the defaults |
| C92 | the grammar and the existing model; `Spec/Compose`: what can follow a line, the positional arguments left | a reading with words added behind, by induction on its derivation (`Lemmas/Compose`); uniqueness of readings for the converse; what is left of the queue from distinct places; `parse_ok_iff` for the outcome |
| C93 | the grammar and the existing model; `Spec/Blocks` for uses of options, `Spec/Opaque` for events without their texts | the place of the use is reached whatever stands there; lines through such a place (`Lemmas/Compose`); induction on the words after `--` |
| C94 | `Spec/Repeated`: two lists of calls that make the same last call of each function; the existing model | a call followed by one about the same thing, next to it, has no effect; moved there with the commutations of C90; a normal form without replaced calls; programs by induction; `Spec/Redirected`: two calls of `dest()` against one, a renaming that leaves out one object |
| C95 | the existing model of `getUsage`; `Spec/Parts`: a writer of parts, and the text as their concatenation | the loops over arguments as loops over items (simulation); rows from the explicit form of the sections; the effect of `addArgument` (C06) |
| C96 | the existing model of parsing; `Spec/Replay`: the line written from a parser (with `written` of C69), the parser without counters | the saved uses of an option, replayed on the reset option, rebuild it up to the counter (by kind); the places filled by a line are a prefix of the places (induction on the grammar), so what they received can be written; C69 for acceptance; the last loop does not look at counters |
| C97 | the existing model of `flag`; a use of the option with any other flag is a token with `Writes` (C29) | `flag` renames one list element and sorts: places are unchanged (`sort_positionals`), the look-up of every other name too; the grammar depends only on the flags mentioned (C68's `line_agree`, `reaches_agree`); taking values, validators and conversions do not look at names; for the new spelling C29 in the new parser |
| C98 | `default_` and `defaults_` of the existing model; `Spec.History`: the list of all calls so far; `lastDefaults`: the last `defaults` call through a reference | by the cases of `defaultsConstructor_` (text), by what each call can do to an argument (`step_slots`), by induction on histories, with the invariant that no call was made through a reference not yet handed out |
| C99 | the existing model of `removeArguments`; survivors: every argument keeps a name that resolves to it and is not removed | each removed name shortens one list of names and the map (`removeLoop_respelled`, by induction over the loop); a positional argument has one name and so keeps it; then the same generic lemmas as C97 (`Respelled`: other names, same look-up of all other names); renaming by C97_spelling and both effects |
| C100 | the existing model; `Spec/Spread`: statements that give one option the same flags; lists of calls of `removeArguments` with the same names | the flags first (C90); the effect of `addArgument` and calls of `flag` as one edit (`made`, C70) that depends on the set of flags only, since names are kept sorted; for removals a description of their joint effect that does not mention their order (`Removed`, closed under composition), and the list is determined by its members and the queues of positionals |
| C101 | the existing model; `Spec/Answers`: parsers that differ in the version text and the two modes, outcomes that are the same up to the answer | `Lemmas/Aside`: all functions of the model but four commute with putting these settings, strict mode and the additional words aside; hence a bisimulation (up to the first exit, where one program may end and the other go on) and, for strict mode, a relation between the two parses that holds up to the first surplus word |
| C102 | the existing model; `Spec/Surplus`: the events in which the first surplus word is the value of a given argument | the new slot is last among the positionals (C11: classes, stability); readings with one more place at the end of the queue, by induction on the reading (`reads_more`: until the first surplus word the queues differ by this place, then both are empty); the part after the tokens as in C68; strict mode by C22 |
| C103 | the existing model; `Spec/Spare`: parsers with more arguments, options or positional ones behind the others; readings without surplus words; calls that configure one argument | a reading that leaves no word over is one with any places behind the queue (induction on the reading, `reads_behind`); the new arguments do not occur, the part after the tokens as in C68; each configuring call replaces that argument by one with the same names, requiredness and destination and leaves the pointers (`configures_step`), so the relation is kept from `addArgument` on |
| C104 | the existing model; `Spec/Collect`: lines whose surplus words stand together; the relations of C101 and C103 | a list at the end of the queue takes words up to an option or `--` (`line_collect`), words behind a full queue are surplus (`line_surplus`); the two readings are composed by C92; the list's object by induction on the configuring calls, the part after the tokens as in C101 |
| C32–C34 C48 C49 C59 C60 C67 | `Parse`, `Dest`, `Conv`, `Ends` | the phases after the tokens: exact result and writes |
| C35 C36 C64 | `Parse`, `Read` | shape invariant of stored elements over histories (`Lemmas/Shape`, `Props/Defaults`) |
| C39–C42 | `Valid` | list characterisations |
| C43 C44 | `Usage` | structural induction on wrapping |
| C45–C47 | `Usage`, and `UsageWord` (the same on 64-bit words) | fold of the usage = sections, rows and items (`Lemmas/UsageText`); bound on every sum computed (`Props/UsageWord`) |
| C50 C51 C52 | `State`, `Dest`, `Argument` | computation |
| C53 C54 | `State` | invariants on the lists of deleted objects |
| C55 C57 C58 C61 C62 C63 | all calls, `Ends` | frame lemmas call by call (`ParseFrame`, `AutoHelp`, `Slots`, `Steps`, `Calls`) |
| C56 | `Parse` | every `WordFails` derivation has a fault with its message |

## Observations about the code (all of them theorems or concrete cases in `Props/`)

1. `parseArguments` returns at once, without reading the command line, when no help option is registered and both
   `-h` and `--help` are taken (C55).
2. `addArgument` checks only its first flag for duplicates (C07).
3. List elements and `additionalArguments_` survive a second parse; positional lists are appended to the defaults (C27, C36).
4. `-oVALUE` counts twice; in this form an APPEND/EXTEND option keeps its defaults, in the others they are replaced (C26, C28).
5. `nargs(2^64-1)` on an option, or a swallowed `nargs(0)` exception on a positional group, make parsing loop forever (C18).
6. `action()` is not idempotent in several cases; HELP twice on a valueless option unregisters the real help option (C15, C16).
7. `dest()` on the help/version option leaves a dangling pointer (C19), which may come to designate another argument (C82); `dest()` drops the stored defaults; a vector
   destination accumulates over parses and receives one conversion of `""` for an absent list.
8. `removeArguments` with a repeated name is undefined behaviour (C10); so is `argc == 0` without binary name (C19).
9. A program named `--` shifts the end of options (excluded by `Ready`).
10. The message for a missing positional list says "option is required" (C33).
11. `ValidNumber` accepts `""` (C41); `ValidMinMax` accepts what compares with nothing, e.g. NaN (C40);
    `nargs(43)` is `nargs('+')`.
12. `required()` called later changes the order in which positionals are filled (C11).
13. A rejected `defaults()` is not atomic (C17).
14. `defaults([])` followed by a change of kind leaves stale elements (C35).
15. An unregistered option after an infinite list is taken as a value (C23, C38).
16. Numeric destinations: out-of-range double → integer is undefined behaviour; `std::vector<const char*>`
    destinations dangle (C60). `getNumber()` is stale after `defaults()` (C59). `arg[i][j]` is unchecked (C64).
17. `-oa=b` is refused, as it is split at `=` (C65).
18. A validator that changes the number of values: removed ones stay, added ones are ignored (C34).
19. When a validator refuses, the variables of the arguments listed before have already been written (C67).
20. An argument whose action is `help` without being the parser's help option (e.g. `nargs(0)` refused or `action(help)` after another help option) takes the help option away from the other argument when its action is later changed; and removing a help option that had been given a destination leaves a stale help pointer, so no other help option can be declared (C71, second and third counterexamples in `Props/Undo`).
21. `Argument` has a public copy constructor that copies the ownership of the validator: destroying a copy
    (`Argument a = args["-o"];`) of an argument with an owned validator deletes it under the parser; calls on a copy made
    by mistake (`auto a = args.addArgument(…)`) configure nothing, except `flag()`, which registers the flag (C75).
22. `setUsageWidth(2, 20, 2, SIZE_MAX)` ("no limit") makes the total width wrap around to 23 characters: the usage line is
    broken early and texts are wrapped at 23 (C47).
23. `operator+` of `Vector` changes its left operand: `addArgument(common + "-b")` followed by `addArgument(common + "-c")`
    is refused. `Vector(int)` makes empty strings, so `defaults(1)` is an empty default (C80).
24. A validator or callback that calls `required()`, `flag()` or `addArgument()` reorders the list under the iterator of the
    last loop: arguments may be skipped (a value its validator would refuse is then accepted), or visited twice; removing the
    argument itself is undefined behaviour; an inner `parseArguments` overwrites the result of the outer one (C84).
25. An `addArgument` interrupted by a failed allocation can leave its argument in the list without names in the registry
    (`src/args.cpp:255-260`) or lose the object; called again, it lists a second one: the first is out of reach but, if it is
    positional, still takes words. `dest()` interrupted leaves the old argument without its validator's ownership: the validator
    leaks (C85).
26. The usage shows an option with EXTEND with one value (or one group) although any number may follow, and one with APPEND
    and 43 values (the code of `'+'`) as `NAME...` (C89).
27. A list option given without any value (`-l` with `nargs('+')`) leaves the text of the argument as a whole, its default text,
    to the destination: a vector gets one element `"p, q"` for the defaults `p` and `q`; so does a variable for a single value
    that is the destination of a list option, even when values are given (C91).
28. `required(true)` followed by `required(false)` on an optional positional argument moves it to the front of the optional positional
    arguments: it then receives the words its predecessors did (stable `std::list::sort`, `src/argument.cpp:269`; `C94_exceptions`).
29. The default text of a grouped argument grows: each `defaults()`, and each `nargs()` or `action()` after it, appends the groups to
    what `getDefault()` told before (src/argument.cpp:547-565), without a separator; `getDefaults()` tells the list of the last `defaults()` even if
    it was refused (C98).

## Checking the model against the project's tests

`lean/Verif/Check/` transcribes the whole test suite of the project (`/repo/test/*.cpp`: registry errors, lookups, removal,
updates, usage texts, parse errors, all kinds of arguments, help, version, required, validators). Every expected result
written there is what the model computes, by kernel evaluation (`decide +kernel`). These `example`s are tests of the model's
fidelity, not proofs of properties, and no claim rests on them. Numbers are read there by an integer scanner standing for
the stream extraction, `stat` is mocked as in the tests.

## Testing the theorems against wrong programs

`tools/seed.py` copies `lean/`, applies one textual edit to the model, rebuilds and records which theorems fail;
`tools/mklog.py` turns the results into `seeded/LOG.jsonl`. "failed" includes theorems that only rest on a lemma
about the edited definition; the column `claim` names the properties whose English statement the edit makes false,
and the question asked for each is whether one of those fails. Claims found too weak were tightened
(`theorems_tightened`).
