#!/usr/bin/env python3
"""Writes /verif/properties.jsonl (source of the property list)."""
import json
P = []
def p(title, statement, quantifier, why, *anchors):
    P.append(dict(id="C%02d" % (len(P) + 1), title=title, statement=statement, quantifier=quantifier,
                  why_tests_cant=why, anchors=list(anchors)))
U = "include/blet/args/utils.h"; A = "src/args.cpp"; G = "src/argument.cpp"; H = "include/blet/args/argument.h"
AH = "include/blet/args/args.h"; US = "src/usage.cpp"; V = "src/valid.cpp"; E = "src/exception.cpp"

p("Token classes", "Every command-line token belongs to exactly one class: short option ('-' followed by something other than '-'), long option ('--' followed by at least one character), end marker (exactly '--'), or plain word (everything else, including the empty string and a lone '-').",
  "every string", "infinitely many tokens; the three predicates read up to three characters and the terminator", U+": isShortOption, isLongOption, isEndOption", A+": Args::parseArguments")
p("'name=value' splitting", "A token is split at its first '=': name contains no '=', name + '=' + value rebuilds the token, and a token without '=' is left whole with no value; an empty value ('--opt=') is still a value.",
  "every string", "round trip over all strings, values may themselves contain '='", U+": takeArg")
p("Accepted flag syntax", "A flag is accepted exactly when it is '-' plus one character other than '-', or '--' plus at least one character; in every state reachable through the API every registered option has only such flags and every positional argument has exactly one non-empty name that does not start with '-'.",
  "every string; every history of API calls", "unbounded strings and histories, including calls that throw", G+": Argument::validFormatFlag_", A+": Args::addArgument", G+": Argument::flag")
p("Registry consistency", "After any history of API calls, every registered name resolves to a live argument that lists that name among its own names or flags, every live argument can be found by at least one of its names, and no two registered names are equal.",
  "every history of API calls (including calls that threw and parses)", "invariant over unbounded histories mixing add/remove/flag/dest/clear/parse", A+": Args::addArgument, removeArguments, clear", G+": Argument::flag", H+": Argument::dest")
p("addArgument refuses atomically", "addArgument throws exactly when the list is empty, a single positional name is empty or already registered, one of several names (or a dashed name) is not a well-formed flag, or the first flag is already registered; a throwing addArgument changes nothing observable.",
  "every reachable state and every list of names", "all states and lists; the failure could come at any position in the list", A+": Args::addArgument")
p("addArgument effect", "A successful addArgument registers one new argument with default settings (type by syntax, not required, one value, no defaults): every given flag becomes known, names known before resolve to the same arguments, and no other argument is modified.",
  "every reachable state and every accepted list of names", "frame condition over all states", A+": Args::addArgument")
p("A flag designates one argument", "As long as addArgument is never handed a flag that is already in use, no flag is listed by two different arguments: whenever an argument lists a flag, looking that flag up returns that argument. addArgument checks only its first flag; whenever it accepts a later flag already in use, the new argument lists it although looking it up leads to the other argument.",
  "every history of API calls; every addArgument call that reuses a flag", "depends on every previous registration; the code checks only the first flag of the list, so the property fails for some histories and holds for the others", A+": Args::addArgument (line 242)")
p("flag() on an option", "flag() on an option with a well-formed, unused flag makes the argument reachable by that flag and changes nothing else; on a positional argument, with a malformed flag or with a used one it throws and changes nothing.",
  "every reachable state, every argument, every string", "frame condition and atomicity over all states", G+": Argument::flag")
p("removeArguments effect", "removeArguments makes exactly the given names unknown; an argument disappears exactly when the last name that resolves to it has been removed; other arguments keep their names and settings.",
  "every reachable state and every list of distinct registered names", "all states, aliases and removal orders", A+": Args::removeArguments")
p("removeArguments is all-or-nothing", "removeArguments with an empty list or with some unknown name throws naming the first unknown one and changes nothing; on distinct registered names it never throws and never hits undefined behaviour; a repeated name is undefined behaviour.",
  "every reachable state and every list of names", "all states and lists; UB is invisible to a test that happens to survive", A+": Args::removeArguments")
p("Listing order", "After every call the arguments are kept in the documented order: options before positionals, required before optional, short flags before long ones, then by flag. Required positionals come in the order in which they were made required, then the others in the order in which they were added, those made optional again being in front; so positionals of equal requiredness keep their insertion order when required() is called right after addArgument. The comparator is a strict weak order, as std::list::sort requires.",
  "every pair/triple of arguments; every history", "the order axioms quantify over all triples; sortedness over all histories", G+": Argument::compareOption_, compareFlag, sortNameOrFlags_", A+": Args::addArgument")
p("clear() restores a fresh object", "After clear(), the object is indistinguishable from a newly constructed one for every later history of calls.",
  "every reachable state and every continuation", "equality of all later observations", A+": Args::clear, Args::Args")
p("Lookup", "getArgument, operator[] and updateArgument return the argument listing that name, the same one for all aliases, and throw AccessDeniedException carrying the requested name exactly when argumentExists is false.",
  "every reachable state and every name", "all states and strings", AH+": Args::getArgument, operator[], argumentExists, updateArgument", AH+": Args::updateArgument")
p("Kind of argument from action and nargs", "After a successful action()/nargs() the behaviour class of the argument is the documented function of positional/option, action and nargs; for a positional argument every unsupported combination throws.",
  "every action, every 64-bit nargs, option or positional, every reachable state", "2^64 values of nargs; the table has overlapping rows whose order matters", G+": Argument::typeConstructor_")
p("Repeating a setting is harmless", "Calling action(x) or nargs(n) twice in a row has the same effect as calling it once, except exactly in these cases, where the second call does change something: STORE_FALSE, HELP or VERSION on an option that takes values (the second call makes it a plain boolean), HELP or VERSION on an option without value while another one is the help or version option (the second call unregisters that one), NONE on an argument with nargs('+'), nargs('+') on a positional, and grouped default values (their display is repeated).",
  "every reachable state, argument and setting", "fails for some actions, so only a proof by cases separates them", G+": Argument::action, typeConstructor_", H+": Argument::nargs")
p("At most one help and one version option", "At every moment at most one argument answers as the help option and at most one as the version option, and each is the one the parser registered; while one is registered, action(HELP)/action(VERSION) on another option that takes values throws and leaves it registered. This needs that no exception of action() or nargs() is swallowed, that HELP/VERSION are given to arguments that take values and that dest() is not called on the registered option; without these a second one can be registered.",
  "every history of API calls", "depends on all previous calls; fails after a swallowed exception", G+": Argument::action, typeConstructor_", A+": Args::removeArguments")
p("Default values", "defaults() is accepted exactly when the number of values fits nargs (equal to nargs for fixed arity, any number for lists, a multiple for groups); the values then read back are the given ones, grouped by nargs.",
  "every reachable state, argument and list of values", "all arities and lengths", G+": Argument::defaultsConstructor_", H+": Argument::defaults")
p("Parsing terminates", "parseArguments always returns, throws or exits, whatever the command line, provided every nargs was accepted by the API and is below 2^64-2^31; outside that range it can loop forever.",
  "every disciplined history and every argument vector", "unbounded command lines and arities; the loops add nargs to an index modulo 2^64", A+": Args::parseArguments, parseArgument_, parsePositionnalArgument_")
p("No undefined behaviour", "No API call reads outside argv, dereferences a dangling pointer, erases end() or calls front() on an empty vector, for every history that does not misuse the API (stale references, repeated names in removeArguments, dest() on the current help/version option, argc = 0 without binary name).",
  "every history and every argument vector", "UB cannot be observed reliably by running", A+": all of Args", G+": all of Argument", H+": Argument::dest")
p("Command-line grammar", "parseArguments accepts the tokens of a command line exactly when they can be derived in the documented grammar (options with their values, clusters, positionals, '--'), and the occurrences it records are the derived ones; the derivation is unique.",
  "every well-configured state and every argument vector", "soundness and completeness of a parser over all token lists and all configurations", A+": Args::parseArguments, parseShortArgument_, parseLongArgument_, parseArgument_, parsePositionnalArgument_, endOfInfiniteArgument_")
p("'--' ends option processing", "Tokens after the first '--' are never treated as options: they fill the remaining positional arguments or become additional arguments; tokens before it never take values from after it.",
  "every configuration and argument vector", "all positions of '--' and all surrounding tokens", U+": endOptionIndex", A+": Args::parseArguments")
p("Surplus words", "Words left when all positional arguments are filled become the additional arguments, in order and none lost; in strict mode the first such word is rejected, and strict mode changes nothing else.",
  "every configuration and argument vector", "all command lines", A+": Args::parsePositionnalArgument_", AH+": Args::setStrict, getAdditionalArguments")
p("Unknown options are rejected", "A command line on which an unregistered option is met in option position never parses successfully: a ParseArgumentException naming that option is thrown.",
  "every configuration, every token list before and after", "all contexts", A+": Args::parseShortArgument_, parseLongArgument_")
p("Booleans", "After a successful parse a STORE_TRUE option reads true iff it occurred, a STORE_FALSE option reads false iff it occurred.",
  "every configuration and accepted command line", "all command lines, clusters and repetitions", A+": Args::parseArgument_", H+": Argument::operator bool")
p("Last occurrence wins", "For single-value, fixed-arity and plain infinite options the value after a successful parse is the one of the last occurrence.",
  "every configuration and accepted command line", "any number of occurrences in any form", A+": Args::parseArgument_")
p("APPEND and EXTEND accumulate", "For APPEND/EXTEND options the values after a successful parse are the values of all occurrences in command-line order, preceded by older content exactly when the first occurrence is in attached form '-oVALUE'.",
  "every configuration and accepted command line", "any number of occurrences", A+": Args::parseArgument_, parseShortArgument_")
p("Arity", "Every recorded occurrence of a fixed-arity option or positional holds exactly nargs values, every group of a grouped argument holds exactly nargs values; a command line that would give fewer is rejected.",
  "every configuration and accepted command line", "all arities", A+": Args::parseArgument_, parsePositionnalArgument_")
p("count()", "After a successful parse count() is the number of occurrences of the option, where an attached-value occurrence '-oVALUE' counts twice, and 0 for positionals.",
  "every configuration and accepted command line", "all command lines", A+": Args::parseArgument_, parseShortArgument_", H+": Argument::count")
p("Equivalent spellings", "Replacing '--name value' by '--name=value', or one flag of an option by another flag of the same option, or '-o value' by '-o=value', anywhere on the command line gives the same values for single-value options.",
  "every configuration, every context before and after", "congruence over all contexts", A+": Args::parseShortArgument_, parseLongArgument_", U+": takeArg")
p("Clusters", "A cluster '-abc' of boolean flags behaves as '-a -b -c'.",
  "every configuration, every cluster length and context", "unbounded cluster length", A+": Args::parseShortArgument_")
p("Alternative mode", "With setAlternative(true), '-name' with '--name' registered behaves exactly as '--name' (also with '=value'), and otherwise as without alternative mode.",
  "every configuration and token", "all names and contexts", A+": Args::parseShortArgument_, endOfInfiniteArgument_", AH+": Args::setAlternative")
p("Help and version take precedence", "If the help option occurs on an accepted command line, parseArguments gives the usage text (HelpException or exit) before version, required, validator and destination processing; likewise version before the rest; no destination is written.",
  "every configuration and argument vector", "all combinations of other errors", A+": Args::parseArguments")
p("Required arguments", "A successful parse implies that every required argument occurred; a missing one raises ParseArgumentRequiredException naming the first missing argument in listing order, before any validator or destination runs.",
  "every configuration and argument vector", "all configurations", A+": Args::parseArguments")
p("Validators are enforced", "A successful parse implies that the validator of every argument that occurred accepted its values and that the stored values are the ones the validator left (the number of values never changes: values it removed at the end stay as given, values it added are ignored); a rejection raises ParseArgumentValidException naming the argument; validators of absent arguments never run.",
  "every configuration, validator behaviour and argument vector", "arbitrary user validators", A+": Args::parseArguments", "include/blet/args/valid.h: IValid")
p("Defaults survive when absent", "On the first parse, an argument that does not occur reads its defaults.",
  "every configuration and accepted command line", "all configurations", A+": Args::parseArguments", G+": Argument::clear_, defaultsConstructor_")
p("Parsing again starts afresh", "A second parse does not see occurrences of the first: isExists/count/boolean values depend only on the new command line. Arguments with one value, options with a list of values that occur on the second command line (not first in the attached form of an accumulating option) and arguments that did not occur on the first one are after the second parse exactly as if it had been the first. In general an absent argument reads its default texts (getDefault, of each element); so an option with a list of values that was used before and is now absent reads as many values as before, all empty. (Neither its defaults nor the additional arguments are restored.)",
  "every state, every pair of argument vectors", "all pairs of command lines", G+": Argument::clear_", A+": Args::parseArguments")
p("Positional order", "Words are given to positional arguments in listing order (required first, then insertion order), each filled completely before the next.",
  "every configuration and accepted command line", "all interleavings of words and options", A+": Args::parsePositionnalArgument_")
p("Infinite lists stop at options", "The values taken by an infinite option or positional before '--' are the longest run of following tokens none of which is a registered option form.",
  "every configuration and command line", "unbounded runs", A+": Args::endOfInfiniteArgument_, parseArgument_, parsePositionnalArgument_")
p("ValidChoise", "ValidChoise accepts a list exactly when every value is one of the choices, leaves the values unchanged, and otherwise reports the first offending value.",
  "every choice list and value list", "unbounded lists", V+": ValidChoise::isValid")
p("ValidMinMax", "ValidMinMax accepts a list exactly when every value is a number between the bounds inclusive, whatever the order in which the bounds were given.",
  "every bounds, every value list, every total order of numbers", "unbounded lists and doubles", V+": ValidMinMax::ValidMinMax, isValid")
p("ValidNumber", "ValidNumber accepts a list exactly when strtod consumes the whole of every value.",
  "every value list", "unbounded lists", V+": ValidNumber::isValid")
p("ValidPath", "ValidPath accepts a list exactly when every value exists on the file system with the requested kind.",
  "every value list, mode and file system", "arbitrary file systems", V+": ValidPath::isValid")
p("Wrapping loses nothing", "Wrapping a text to a width keeps all its characters in order except spaces and line breaks at the cut points.",
  "every text and width", "all texts", US+": s_multilineWrap")
p("Wrapping width", "Every wrapped line is at most width characters long, unless it has no space among its first width+1 characters (the rest of the source line is then kept unwrapped); cuts are made as late as possible.",
  "every text and width", "all texts", US+": s_multilineWrap")
p("Usage header", "getUsage returns the custom usage verbatim when one is set; otherwise the text starts with 'usage: ' and the base name of the program.",
  "every reachable state", "all states", US+": Usage::getUsage")
p("Usage lists every argument", "The generated usage has exactly one row per argument, in its section (positional or optional), in listing order, showing its name or all its flags and its metavar (by default the upper-cased long flag, or else the short one, repeated nargs times or with an ellipsis) and its wrapped help text with '(required)' or its default, and one item per argument on the usage line.",
  "every reachable state", "all configurations", US+": Usage::getUsage")
p("Usage line width", "Items of the usage line are placed so that no line that holds more than one item exceeds the total width, the first line holds items only if they fit after the program name, and a line is broken only before an item that would not fit or around the '--' marker. The computation does not overflow as long as the total width, the length of the usage line and that of a label with the separator fit in 64 bits.",
  "every reachable state", "all configurations", US+": Usage::getUsage")
p("Scalar destination", "After a successful parse a scalar dest holds the conversion of the argument's final value (boolean for booleans; for an argument with a list of values, the text of its default), written exactly once per parse; a custom conversion is called exactly once instead.",
  "every configuration and accepted command line", "all configurations", H+": ArgumentType::toDest_")
p("Vector destination", "After a successful parse a vector dest has been appended exactly the argument's final values in order (one conversion of the single value when there is no list), and a vector-of-vector dest one inner vector per element or group; a custom conversion is called exactly once with these strings instead.",
  "every configuration and accepted command line", "unbounded lists", H+": ArgumentVectorType::toDest_, ArgumentVectorVectorType::toDest_")
p("dest() keeps the configuration", "dest() returns a reference to an argument with the same names, kind, requiredness, help, validator and values, found by the same names; the previous reference is dead.",
  "every reachable state and argument", "all states", H+": Argument::dest", G+": Argument::Argument(const Argument&)")
p("char[N] destinations", "Converting to a char array never writes outside it, always leaves a terminated string, and yields the longest prefix that fits.",
  "every string, boolean and array size", "all sizes and lengths", H+": strTo(char[]), boolTo(char[])")
p("Reading values", "The string and vector conversions of an argument agree with each other: getString of a list is the comma-separated list of the vector conversion, the flat vector is the concatenation of the groups.",
  "every argument value", "unbounded values", G+": Argument::getString, operator std::vector")
p("Validators are freed once", "Every validator handed over for ownership is deleted at most once, never while an argument still uses it, and exactly once by the time the object is destroyed; non-owned ones are never deleted.",
  "every history in which each validator is handed over once", "double frees and leaks over all histories", H+": Argument::valid, dest", G+": Argument::~Argument", A+": Args::~Args, clear, removeArguments")
p("Argument objects are freed once", "Every argument object created is deleted exactly once by the end of the life of the parser, and never while it is still listed.",
  "every history", "double frees and leaks over all histories", A+": Args::~Args, clear, removeArguments", H+": Argument::dest")
p("Automatic help", "parseArguments on an object without help option adds '-h'/'--help' (those not already used) as help option; if both are used by other arguments it returns at once without looking at the command line.",
  "every reachable state and argument vector", "all states", A+": Args::parseArguments (lines 69-84)")
p("Errors name the culprit", "Every ParseArgumentException raised by the tokens carries the option as written without its dashes (or the positional name, or the surplus word) and one of the documented messages.",
  "every configuration and argument vector", "all failing command lines", A+": Args::parseArgument_, parseShortArgument_, parseLongArgument_, parsePositionnalArgument_", E+": ParseArgumentException")
p("Parsing leaves the configuration alone", "Whatever the outcome (other than exit), parseArguments does not change names, kinds, arities, requiredness, help texts, defaults, validators, destinations or listing order of the arguments; it can only add the help option.",
  "every reachable state and argument vector", "all states and command lines, including failing ones", A+": Args::parseArguments")
p("References stay valid", "A reference returned by addArgument (or dest) stays valid, and the names of its argument still lead to it, through every later call, also one that throws, other than clear, removeArguments naming it, and dest on that very argument; after those it is dead.",
  "every reachable state, argument and call", "all histories and interleavings of registrations, reconfigurations and parses", A+": Args::addArgument, removeArguments, clear, parseArguments", G+": Argument::flag, required", H+": Argument::dest")
p("Numbers", "After a successful parse an argument is readable as a number exactly when its final text (given, default, or as rewritten by its validator) begins with a number, and the number is that of the text; likewise each value of a list or group; booleans, lists and groups as a whole are not numbers.",
  "every configuration and accepted command line", "all values and kinds", G+": Argument::toNumber_", H+": Argument::isNumber, getNumber")
p("Typed destinations", "After a successful parse a destination variable of a supported type holds the conversion of the texts read: integral part for integers (undefined when it does not fit), the number for floating types, non-zero for bool, the text for strings, the prefix that fits for char arrays; const char* points into the argument for single values, but dangles in vectors.",
  "every configuration, accepted command line and element type", "all texts, types and unbounded lists", H+": strTo, boolTo, ArgumentType::toDest_, ArgumentVectorType::toDest_, ArgumentVectorVectorType::toDest_")
p("Setters are local", "A call made on an argument (help, metavar, valid, required, flag, defaults, nargs, action) changes that argument only, and of it only what the call is about; no argument appears or disappears, no other name resolution changes, and only flag and required can change the listing order; help, metavar, valid and required never throw.",
  "every reachable state, argument and call", "all states and calls", H+": Argument::help, metavar, valid, nargs, defaults", G+": Argument::flag, action, required")
p("Settings change only by their setters", "The settings of the parser (program name, version, alternative and strict mode, exception modes, usage, description, epilog, widths) are changed only by their own setters and by clear(), which restores those of a new object; parseArguments sets the program name to the first word exactly when there is none yet (and it looks at the command line at all), however it ends.",
  "every reachable state and call", "all calls in all states, including failing parses", "include/blet/args/args.h: setters", "include/blet/args/usage.h: setters", A+": Args::parseArguments, clear")
p("Exception classes", "Each call ends only with the exceptions of its class: ArgumentException for registry and configuration calls, AccessDeniedException for lookups, ParseArgumentException (or a subclass), HelpException and VersionException - the latter two only when asked for - and the validators' and callbacks' own exceptions for parseArguments; every other call never throws, and only parseArguments can end the process, never if both exceptions are asked for.",
  "every reachable state and call", "all calls in all states", E+": exception hierarchy", A+": Args::parseArguments, addArgument, removeArguments", G+": Argument::flag, action")
p("Reading element by element", "size(), arg[i] and arg[i][j] agree with the vector conversions: arg[i] is the i-th value (or group) of the argument and throws std::out_of_range exactly beyond size(); groups have exactly nargs values and arg[i] converts to the i-th group; a single-value argument has no elements; conversions that make no sense for the kind throw Exception; getNumber() gives the number a text begins with or throws; but arg[i][j] beyond the group is undefined behaviour.",
  "every state reached by a careful history, every argument and index", "all values, kinds and indices", H+": ArgumentElement, Argument::operator[], getNumber, operator<<", G+": ArgumentElement::operator std::vector, Argument::operator std::vector")
p("Values are verbatim", "The values of an option are the very characters written: in flag=value everything after the first '=' (dashes, spaces, further '=' or nothing), attached to a short flag everything after the letter, and following tokens whatever they look like (other than '--'; lists end at registered options); only an attached value cannot contain '=': such a token is refused.",
  "every ready parser, command line and value text", "values range over all strings and contexts over all command lines", A+": Args::parseShortArgument_, parseLongArgument_, parseArgument_", "include/blet/args/utils.h: takeArg")
p("Order of options", "Two neighbouring uses of different options can be exchanged without changing the outcome; and if every positional argument takes one word, command lines made of the same words in the same order and, for each option, the same uses in the same order all have the same outcome, whatever the interleaving: same exception or same resulting parser.",
  "every ready parser and every reordering of a command line", "all command lines and all interleavings", A+": Args::parseArguments, parseShortArgument_, parseLongArgument_, parsePositionnalArgument_")
p("What a failing parse writes", "Only parseArguments writes to the variables given to dest(). It writes none of them when the tokens are refused, when help or version is asked for or when a required argument is missing; when a validator refuses (or a destination has no conversion), exactly the variables of the arguments listed before the culprit have been written, as a parse that returns would write them.",
  "every reachable state, call and command line", "all failing command lines and all configurations of validators and destinations", A+": Args::parseArguments (lines 111-215)", H+": ArgumentType::toDest_, ArgumentVectorType::toDest_")
p("Unused options change nothing", "Adding options that are not required and have no destination does not change what happens on command lines that do not mention their flags before '--': same exception or success (only the usage text differs), same values of all other arguments, same additional arguments, same writes to variables, and the new options are absent.",
  "every pair of parsers one of which has more options, every command line silent about them", "all configurations, all added options and all command lines", A+": Args::addArgument, parseArguments, parseShortArgument_, parseLongArgument_")
p("Everything can be written", "Any choice of values - any text for a single value, any texts but '--' for fixed-length lists, any non-option texts for open lists - for any options in any order and number, any words for the positional arguments and any surplus words can be written on a command line (flag=value or flag followed by values, then '--' and the words) that is accepted and read back as exactly that; and no command line can give an option any other values.",
  "every ready parser, all choices of uses, values and words", "values range over all strings, uses over all sequences", A+": Args::parseArguments, parseShortArgument_, parseLongArgument_, parsePositionnalArgument_", "include/blet/args/utils.h: takeArg")
p("Order of declarations", "Two statements that declare or configure different arguments (chains of addArgument/flag/action/nargs/defaults/required/help/metavar/valid/dest calls) can be exchanged: if all their calls return in one order, so do they in the other, and afterwards the two parsers cannot be told apart by any further calls (same results and exceptions, same visible arguments, values, settings and usage, same writes to variables, corresponding references); likewise any permutation of the declarations of a program that keeps the positional arguments in order. Excepted are statements that both concern the order of positionals, the help option or the version option.",
  "every state reached without reusing flags, every pair of independent statements, every permutation of any number of declarations, every continuation of the program", "all programs, all orders and all continuations", A+": Args::addArgument", G+": Argument::flag, action, required, nargs", H+": Argument::dest, defaults, help, metavar, valid")
p("Removing undoes declaring", "An argument that is declared by any chain of calls and removed again under all its names leaves no trace: no later calls can tell the parser from one in which it was never declared (same results, exceptions, visible arguments, values, settings, usage and writes; only references are other ones), also if other arguments were declared in between. Excepted are positionals with positionals declared after them, and arguments given the help (version) action while there is another such option or that are given a destination too.",
  "every state reached without reusing flags, every chain of calls, every continuation of the program", "all programs and all continuations", A+": Args::addArgument, removeArguments", G+": Argument::flag, action, required, nargs", H+": Argument::dest")
p("Texts of the usage change nothing else", "help, metavar, setUsage, setDescription, setEpilog and setUsageWidth influence the text of the usage only: two programs that make the same other calls, whatever calls of this kind they make and wherever, run in the same way - every other call ends in the same way, with the same exception (up to the usage text shown by help) - and end with the same arguments, names, values, counts, settings, references and writes to variables.",
  "every pair of programs that differ in such calls only, from every pair of parsers that differ in texts only", "all programs, all texts and all places of the calls", H+": Argument::help, metavar", "include/blet/args/usage.h: setters", A+": Args::parseArguments")
p("Callbacks that throw", "A conversion callback given to dest() may throw. parseArguments then goes exactly as it would if all callbacks returned, up to the first one that throws: its exception leaves the call unchanged, its own call is the last one made, destinations of arguments listed before have been written and none of those listed after, and the arguments up to it have their final values. Each callback gets the occurrence flag and the final values of its argument.",
  "every state, command line and behaviour of the callbacks", "all callbacks and all command lines", A+": Args::parseArguments (lines 145-215)", H+": ArgumentType::toDest_, ArgumentVectorType::toDest_, ArgumentVectorVectorType::toDest_")
p("Destinations do not influence the parse", "Registering destinations changes nothing about a parse but the writes to them: the call ends as it would without any and leaves the same parser - unless a destination itself throws (its callback, or a type without conversion), and then the arguments up to it have the values they would have had.",
  "every state, command line and choice of destinations", "all configurations and command lines", A+": Args::parseArguments", H+": Argument::dest, toDest_")
p("Copies of arguments", "A copy of an argument (the copy constructor is public) reads as the argument did when it was copied and keeps doing so whatever happens to the parser. Copies of arguments that own no validator may be configured and destroyed without any effect on the parser: every call on the parser ends as without them, so that settings made on a copy never reach the parser. Validators handed over to copies are deleted once each, when replaced or with the copy, and never touch those of the parser. Not so for flag(), which registers the flag for the original, and for a copy of an argument that owns its validator: destroying it deletes the validator the parser still uses.",
  "every program that makes, uses and destroys copies between its calls on the parser", "all interleavings of calls on copies and on the parser", G+": Argument::Argument(const Argument&), ~Argument, flag, action, required", H+": Argument::nargs, defaults, valid, help, metavar")
p("User code with a state", "Validators and callbacks may read and change variables of the program, the destinations among them. This gives no new behaviour of the parser: at any point of any history of such a program, and for any next call, there is a program with validators and callbacks without a state whose parser is the same and whose same call ends in the same way and leaves the same parser.",
  "every program state, every behaviour of the user's code (it may depend on and change any state), every history and next call", "user code ranges over all functions of all states", A+": Args::parseArguments (lines 145-215)", H+": Argument::valid, dest, toDest_")
p("What user code is called with", "The calls of validators and callbacks and the writes to destinations made by a parse of an accepted command line are made argument by argument in listing order, up to some argument (all of them, if the call returns): first the check of the given values by its validator, exactly once, if it has one and occurs on the line, then the writes to its own destination. A check that fails or a callback that throws is the last thing that happens, and the call throws. On a command line that is refused nothing is called or written.",
  "every ready parser and command line, every behaviour of the user's code", "user code ranges over all functions of all states", A+": Args::parseArguments (lines 145-215)", H+": IValid::isValid, ArgumentType::toDest_, ArgumentVectorType::toDest_, ArgumentVectorVectorType::toDest_")
p("The usage text fits", "Without custom usage text, no line of the generated usage has more characters than the total of the widths given to setUsageWidth if the program name, each item of the usage line behind it, each argument label behind the padding and the section titles fit in that total, no word of a help text (with its default or required mention) is longer than the help width, and no word of the description or epilog is longer than the total; when names and metavars contain no line break these conditions are also necessary.",
  "every reachable state without custom usage, all widths and texts", "all configurations, texts and widths", US+": Usage::getUsage, s_multilineWrap", "include/blet/args/usage.h: setUsageWidth")
p("Usage is independent of parsing", "The usage text of a parser with a program name and a help option is not changed by calls of parseArguments - whatever the command lines, and also if they throw -, by giving arguments validators or destinations, or by the version text and the modes; it is settled by the declarations and the texts.",
  "every reachable state, every sequence of such calls", "all configurations, command lines and histories", US+": Usage::getUsage", A+": Args::parseArguments", H+": Argument::valid, dest")
p("Lists of strings", "A list built from strings, arrays, an initializer list or Args::vector holds exactly the strings given, in their order, and one built from a number holds as many empty strings (so defaults(1) gives an empty text); the sum of a list variable and n texts has the value contents followed by the texts and leaves exactly this in the variable, other variables and sums of new lists untouched, so after any program a variable holds what it was given followed by every text ever added to it; hence after an accepted addArgument(x + ...) a second addArgument(x + ...) is always refused with an ArgumentException and no effect on the parser.",
  "every way to build a list, all contents and texts, every program that uses lists in any calls of the library, every reachable parser", "unbounded contents and histories of shared variables",
  "include/blet/args/vector.h: Vector, operator+", "include/blet/args.h: vector")
p("User code that consults the parser", "Validators and callbacks may read the parser that calls them (other arguments, values, settings) besides any variables: whatever they do with it, each call of the program ends as it does with validators and callbacks that do not, so all other properties hold for such programs; and what they see is determined: the arguments listed before the one they are called for are final (checked, rewritten, converted), those listed after are present or absent for good and hold the unchecked texts given, or their defaults if absent, the argument itself is unchecked in its validator and final in its callback, and settings and additional arguments are final.",
  "every reachable parser and history, all user code that reads the parser and reads and writes a program state, every accepted command line, every call made by the last loop", "unbounded code, histories and numbers of arguments",
  "src/args.cpp: parseArguments", "include/blet/args/argument.h: IValid, toDest_")
p("Any memory allocator", "A program that uses the API correctly cannot find out where the memory allocator puts the arguments, nor whether it gives the addresses of deleted arguments to new ones: at every moment it sees the same arguments, values, settings and usage text, the same values have been written to destinations, its references lead to the same arguments, two of its live references are never equal, and every call ends in the same way, whatever addresses are chosen; and the same objects and validators have been deleted in the same order, each once. (With dest() on the help option it can: whether another help option is then accepted depends on its address.)",
  "every correct history of calls, every choice of unused addresses at every call", "allocators and histories are unbounded, and tests run with one allocator",
  A+": Args::addArgument, removeArguments, clear", H+": Argument::dest", G+": Argument::Argument(const Argument&), typeConstructor_")
p("Elements put in by the user", "An argument publicly is a std::vector of elements, which the user may fill, empty or change. Whatever he puts there, every command line is read in the same way - same occurrences, values, surplus words and errors - and all other arguments, the additional arguments and the other variables end the same. If the option occurs on the line in a form that replaces its elements (any, for plain and fixed lists; a first occurrence other than -oVALUE, for accumulating options), the elements make no difference at all: same outcome, same parser. If the argument does not occur it holds them, each reset to its default text; positional lists, and accumulating list options first given as -oVALUE, hold the default texts of the elements followed by the values given.",
  "every ready parser, every argument, all elements and all command lines", "all contents the user may put into the vector, all command lines", G+": Argument (class, public base std::vector<ArgumentElement>)", A+": Args::parseArguments, parseShortArgument_, parseLongArgument_")
p("User code that calls the parser", "Validators and callbacks may call the parser that is calling them: configure, add or remove arguments, or parse another command line, at any depth. Whatever they call, a parse ends in one way at most, and as long as no call is undefined behaviour the parser stays consistent after any history: names resolve to the arguments that have them, the documented order holds, objects are deleted once and never while listed. Code that only configures (no argument added, removed or moved) makes no difference to the order of the checks and writes: each argument is visited once, in listing order, and the parse ends. Code that removes no argument never makes a parse run into undefined behaviour. Code that makes no calls behaves as if it could not. (Code that moves arguments can hide one from its validator or have it checked twice; code that removes its own argument, or that parses the same line again, breaks the parse.)",
  "all user code given as scripts of calls that depend on everything that can be read, all histories and nestings, every ready parser and accepted command line", "unbounded code, histories, nesting and numbers of arguments; the order in a list that is modified while iterated",
  A+": Args::parseArguments (lines 145-215), addArgument, removeArguments, clear, sortArguments_", H+": IValid::isValid, Argument::toDest_, required, flag, dest")
p("Memory running out", "If an allocation fails inside any call and the program catches the exception and goes on - any number of times, at any point - then still: registered names resolve to listed arguments that have them, names are well-formed, no argument object and no validator is deleted twice or used after deletion, correct uses never run into undefined behaviour, and the destructor leaves at most one object and at most one validator per interrupted call. An interrupted call leaves every reference valid, every name leading where it led, all arguments but the one it was made on with their settings (and, unless it was parseArguments, their values), and no new names but those it was given; removeArguments and the setters of texts have no effect when interrupted, clear, required, valid and the modes cannot be interrupted, and an interrupted parse changes nothing but values (and the program name if it was empty). The listing order, which may be left wrong, is right again after the next addArgument, flag, required or removeArguments that returns. Everything stated in this file about parsing a command line holds in such states too; every call ends; and an interrupted parse can be made again, the line then being read as if nothing had happened. (An addArgument that was interrupted and is called again may list the argument twice: one of the two is out of reach but takes words of the command line.)",
  "every history of calls, any number of which is interrupted at any allocation, every correct next call", "allocation failures at every point of every history", A+": Args::addArgument, removeArguments, parseArguments, clear", G+": Argument::flag, action, defaultsConstructor_", H+": Argument::nargs, defaults, dest, valid, help, metavar")
p("Settings can be made at any time", "The setters of the parser (setBinaryName, setVersion, setAlternative, setStrict, setHelpException, setVersionException, setUsage, setDescription, setEpilog, setUsageWidth) can be called before, between and after the declarations, in any order and any number of times: two programs whose other calls are the same and which give each setting the same last value have the same outcome of every other call and end with parsers that are the same in every respect, so that every later parse is the same. Setters never fail.",
  "every state, every pair of programs made of declarations and setters", "all programs and all interleavings", "include/blet/args/args.h: setters", "include/blet/args/usage.h: setters", A+": Args::addArgument, removeArguments", G+": Argument::flag, action, required")
p("Validators check and do nothing else", "If every validator only checks (it accepts its values unchanged or refuses them), then a parse differs from the parse of the same parser without validators only by refusals: either it ends in the same way with the same parser, or it throws the refusal of one validator, called with the texts a present argument was given, where the parse without validators would have gone on. In particular, if the parse returns, the parse without validators returns too, with the same values, destinations and additional arguments. All validators of the library (numbers, ranges, choices, paths) are of this kind.",
  "every reachable parser (also after interruptions), all validators that only check, all command lines", "all user functions used as validators, all command lines",
  A+": Args::parseArguments (lines 180-205)", V+": isValid of every validator")
p("Making an argument required only adds a check", "required(true) or required(false) on an option - or on a positional argument that stands between the required and the optional ones, such as the first optional or the last required one - changes nothing but one check: every command line is read in the same way afterwards, a line that cannot be read throws the same exception, and a line that can be read is accepted after the change and meets the old requirement if and only if it was accepted before and meets the new one. A line that was accepted and lacks the argument is now refused with a ParseArgumentRequiredException that names it by its first flag or name, before anything is written to a destination; a line accepted both before and after leaves the same values and additional arguments, the same values in all destinations that only one argument writes, and the same writes all in all, among which those of an option may come earlier or later.",
  "every reachable ready parser, every option or such positional argument, all command lines", "all configurations and command lines; an option moves in the list that the parser keeps", A+": Args::parseArguments (lines 133-144), sortArguments_", G+": Argument::required")
p("The usage tells the truth", "Without custom usage text and metavars, what the usage shows is what the command line accepts. Every flag shown works: written with values that can be given, it says exactly this (unless it holds '=' or alternative mode gives the letter to another option; flags given to addArgument must be new). Every flag that works is shown, in the row of its option. The values shown are the truth: a use of an option takes no value, exactly n values or any number when nothing, NAME n times or NAME... is shown, and every such list of values can be given; a positional argument takes one word, n words, one word or more, or one group of n words or more when name, name ... name, name {name}... or {name ... name}... is shown. What an accepted line leaves out is shown in brackets. (Shown wrongly: EXTEND, which takes any multiple of the number shown, and APPEND with nargs 43, which takes exactly 43 but is shown as NAME...)",
  "every reachable parser without custom usage text (no exception of action/nargs ignored), all flags, values and command lines", "it relates all usage texts to all command lines", US+": Usage::getUsage", A+": Args::parseArguments", G+": typeConstructor_")
p("Order of the calls in a statement", "In a statement addArgument(...).f(...).g(...)... or ref.f(...).g(...)... the order of the calls is irrelevant, but among those about the kind of the argument (action, nargs, defaults, dest) and among repeated calls of one function other than flag: if all calls return in one order, so do they in any other that keeps these in order, and no program can tell the two parsers apart - same outcomes of all later calls, same values, usage and writes to destinations, same references. Together with the order of declarations: a program that declares arguments may be rewritten with its statements in any order that keeps the positional arguments in order and the calls of each in any such order. (nargs(2).defaults({a, b}) is accepted, defaults({a, b}).nargs(2) is not.)",
  "every reachable parser, every statement of any length, every rearrangement, all later programs", "all statements and permutations, all later histories", G+": Argument::flag, action, required", H+": Argument::nargs, defaults, valid, help, metavar, dest", A+": Args::addArgument")
p("Defaults matter only for values not given", "defaults(...) never changes how a command line is read: every line is read in the same way, and a line that cannot be read throws the same exception. When the line gives the values of the argument (a single-value argument that occurs, a list option that occurs with a value other than in the form -oVALUE of APPEND and EXTEND), the parse ends in the same way, with the same values and the same writes to destinations, whatever the defaults, unless the usage is shown. When the argument does not occur, it reads exactly the values of the last defaults(...), in groups of nargs if it takes groups. Positional lists, and accumulating options whose first occurrence is -oVALUE, hold the defaults and then the values given. No other argument is affected. (Exceptions: a list option given without any value, or with a variable for a single value as destination, is written to it with its default text.)",
  "every ready parser, every argument, all default values and all command lines", "all configurations, default lists and command lines", G+": Argument::defaultsConstructor_, clear_", A+": Args::parseArguments", H+": Argument::defaults, toDest_")
p("Command lines compose", "When the words of a command line can be read, and more words are put behind them - beginning with an option or --, or when the first part does not end in a list that would go on -, the whole line says what the first part says and then what the second part says to a parser that has the remaining positional arguments to fill; errors of the second part are the errors of the whole. Behind a --, what follows is read as after a -- of its own. A line that cannot be read, for another reason than missing words at its end, throws the same exception whatever is put behind. When both the first part and the whole are parsed, every argument the second part does not concern ends as after the first part alone, with the same writes to its variable, and the surplus words of the second part come behind. When the first part is parsed, the whole is parsed if and only if the second part asks for no help or version and nothing is held against the arguments it concerns.",
  "every ready parser, every command line and every continuation, of any length", "all configurations, all pairs of word lists", A+": Args::parseArguments, parseShortArgument_, parseLongArgument_, parsePositionnalArgument_, parseArgument_, endOfInfiniteArgument_")
p("A use of an option touches nothing else", "Wherever a use of an option stands on a command line (an option with its values, -o v, -o=v, -ov, --out v ...), any other use - of the same option with any other values, whatever their text, or of another option - can stand in its place, and, if an option or -- follows, it can be left out: everything before and behind is read the same, with the same error if there is one. When both lines are parsed every other argument, the surplus words and the variables of other arguments end the same. When the option has no validator and its destination refuses nothing, its values make no difference to whether the call returns: a value is never taken for an option, whatever its text. As many other words after --, whatever they look like, go to the same places and change no option. (A value that is the word -- is taken for the end of the options, and a word of a list of unlimited length that looks like an option is one.)",
  "every ready parser, every command line, every use of an option on it, all replacements and all texts of values", "all configurations, command lines, positions and texts", A+": Args::parseArguments, parseShortArgument_, parseLongArgument_, parsePositionnalArgument_, parseArgument_, endOfInfiniteArgument_")
p("Only the last of repeated calls counts", "When a statement addArgument(...).f(...).g(...)... or ref.f(...).g(...)... calls help, metavar or valid several times - or required, on an option -, whatever is called in between, only the last call of each counts: the earlier ones can be left out, or made with other arguments, and no program can tell the parsers apart (same outcomes of all later calls, same values, usage, writes to destinations and references). The same of whole programs that declare arguments. Of two calls of dest() with no call of action, nargs or defaults in between only the last one counts: as if the first had not been made, all calls return in the one case iff they do in the other, and no program can tell the parsers apart but by the reference the first returned, which is dead. A call of defaults() with some values that returns replaces what an earlier call said, even if that one threw, unless the values are read in groups. (Exceptions: required(true).required(false) on a positional argument moves it in front of the other optional ones; defaults({}) does not take back earlier values; the default text of groups keeps the earlier ones.)",
  "every reachable parser, every statement and program of any length, all arguments of the calls, all later programs", "all statements and later histories", G+": Argument::required", H+": Argument::help, metavar, valid, defaults", G+": Argument::defaultsConstructor_")
p("The parts of the usage are independent", "Without a custom usage text, the usage of every parser is put together in the same way from parts that do not influence each other: the usage line (from the total width, the name of the program and the items of the arguments), the description, one row per positional argument, one row per option (each from its own label and help text and the widths), the epilog. Nothing else plays a role: two parsers that show the same widths, name, texts and, for each argument, item, label and help text have the same usage, whatever their validators, destinations, values and counts. One more argument adds one item and one row in its place; the rows of the others, the description and the epilog stay as they are.",
  "every reachable parser, all widths, texts and arguments", "all configurations", US+": Usage::getUsage, s_multilineWrap", A+": Args::addArgument")
p("A parse can be saved and repeated", "From what a parser holds after a successful parse one can write a command line that repeats it: each option that occurs, in listing order, by any of its flags and with its values (one use per value or group for an accumulating option), then --, what the positional arguments received, and the surplus words. The same parser, given this line instead of the first, returns as well and ends exactly as after the first: every value, text, number and default, the surplus words, the program name and every write to a destination are the same, all but the counters; and what is saved then is the same line. (Conditions: validators only check; no word goes to another argument behind a positional list, and an accumulating option that holds defaults is not first given as -oVALUE: in these cases the saved line can mean something else.)",
  "every ready parser, every command line it accepts, every choice of flags", "all configurations and command lines, all kinds of arguments and all texts of values", A+": Args::parseArguments, parseArgument_", H+": Argument::isExists, getString, operator std::vector")
p("A new flag is one more spelling of an option, and nothing else", "After an accepted flag(f) on a registered option: every command line that does not use f before -- is read as before (the same occurrences, values, surplus words, or the same exception for the same culprit), is parsed if and only if it was before, and leaves every argument, the additional arguments and the variables as it would have without the flag, the option itself but for its list of names; the writes to destinations are the same up to the place of the option in the listing. And on such a line any token that writes the option with another flag, bare or with =value, can be replaced by f or f=value without any effect (unless f holds '=' or is a letter that alternative mode gives to a long option).",
  "every reachable parser, every option and new flag, every command line", "all configurations, flags and command lines", H+": Argument::flag", A+": Args::parseArguments, parseArgument_, updateArgument_")
p("What getDefault() and getDefaults() tell", "getDefaults() tells the list of the last defaults(...) made through the reference of the argument, accepted or not (empty if there was none). getDefault() is empty until defaults(...) is called with values; after an accepted call it is the value of an argument with one value, the values separated by commas for a list, and for groups what it was before followed by the groups in brackets; each element of the argument tells its own default. A refused call leaves it, and no other call on any argument, and no parse, changes it, but nargs and action on the argument itself while it remembers defaults.",
  "every history of calls, every argument and list of values", "all histories, arities and lists", G+": Argument::defaultsConstructor_, Argument::typeConstructor_", H+": Argument::defaults, getDefault, getDefaults")
p("Removing some flags of options takes away those spellings only", "After a removeArguments(...) that returns and leaves every argument a name: every command line that does not use one of the removed names before -- is read as before (the same occurrences, values, surplus words, or the same exception for the same culprit), is parsed if and only if it was before, and leaves every argument (but for its names), the additional arguments, the program name and the variables as it would have; the writes to destinations are the same up to the place of the options in the listing. Hence an option is renamed by flag(new) and removeArguments({old}): a line that writes it as old or old=value, with new in its place, ends the same but for the names.",
  "every reachable parser, every set of names, every command line", "all configurations, name sets and command lines", A+": Args::removeArguments, Args::parseArguments", H+": Argument::flag")
p("It does not matter in which calls names are given or withdrawn", "The flags of a new option may be given in the call of addArgument or by calls of flag, in any order and any distribution: if addArgument(...).f(...).flag(...)... returns for one distribution, so it does for every other that gives the same flags (at least one to addArgument, each once to flag; the other calls being the same), and no program can tell the two parsers apart - same outcomes of all later calls, same values, usage, writes to destinations and references. The same of every statement of a program that declares arguments. And names may be withdrawn by one call of removeArguments or several, in any order: if one distribution of the names over calls returns, so does every other without an empty call, and the parsers cannot be told apart.",
  "every reachable parser in which names were not declared twice, every statement and distribution of its flags, every distribution of names over calls of removeArguments, all later programs", "all statements, distributions and later histories", A+": Args::addArgument, Args::removeArguments", H+": Argument::flag", G+": Argument::flag")
p("What the modes change", "The version text and the modes of help and version decide nothing but how a command line that asks for help or the version is answered: two programs that make the same calls except setVersion, setHelpException and setVersionException (different, elsewhere, missing or repeated) run in the same way up to the first exit - same outcomes, the answer being in both the same usage or in both the version, printed or thrown -, and if neither exits the parsers end up the same in everything else. Strict mode decides nothing but what happens to surplus words: on every command line the same parser in strict mode does the same if there is none, and otherwise throws the exception about the first of them.",
  "every parser state, every pair of programs of any length that differ in these calls, every command line", "all programs, interleavings of settings, command lines", A+": Args::parseArguments, parsePositionnalArgument_", AH+": Args::setVersion, setStrict, setHelpException, setVersionException")
p("A new positional argument takes surplus words only", "After an accepted addArgument of one more positional argument every command line is read as before, except that the first surplus word, if there is one, becomes the value of the new argument: every other argument, the options and the words given to the earlier positional arguments stay as they were, and a line that could not be read throws the same exception. When the parser is not strict the call ends in the same way as before the addition (up to the text of the usage when help is asked for), with the same values and the same writes to variables; the new argument is there if and only if there was a surplus word, its value is the first one, and the additional arguments are the remaining ones. In strict mode a line with one surplus word, which was refused, now ends as it does without strict mode; with more, the second surplus word is refused in place of the first.",
  "every reachable ready parser, every name of a positional argument, all command lines", "all configurations and command lines; the argument goes through the sorted list the parser keeps", A+": Args::addArgument, sortArguments_, parseArguments, parsePositionnalArgument_")
p("Arguments a command line does not reach change nothing", "One more argument of any kind - an option, or a positional argument, single, with nargs, or a list - added by addArgument and configured by any calls of nargs, defaults, help, metavar, valid and action (other than HELP and VERSION) on it, but not required and without destination, changes nothing on the command lines that do not reach it: those that do not mention its flags before -- and have no surplus word. Such a call ends in the same way as before the addition (up to the text of the usage when help is asked for), with the same values, additional arguments and writes to variables, and the new argument is absent. The same of any number of such arguments, if the positional ones among them stand behind the others. A line the parser accepted before without collecting additional arguments has no surplus word.",
  "every reachable ready parser, every added argument and configuration of it, every set of such arguments, all command lines without surplus words", "all configurations, names and command lines", A+": Args::addArgument, parseArguments, parsePositionnalArgument_", G+": Argument::action", H+": Argument::nargs, defaults, valid, help, metavar")
p("A new positional list collects the surplus words", "Add one more positional argument and make it a list (any number of values, one each, no validator) by calls of nargs, action, defaults, help, metavar. On a command line whose surplus words stand together - the words in front fill the positional arguments exactly and do not end in a list that would go on, then the surplus words, then nothing, an option or -- - these words are the values of the list, and the line otherwise says what it said, with the same exception if it could not be read. When the parser is not strict the call ends in the same way as before the addition (up to the text of the usage when help is asked for); every other argument and the writes to variables are the same, the list reads its defaults followed by the surplus words, and the additional arguments are what is left. A strict parser refuses such a line before the addition because of the first of the words.",
  "every reachable ready parser, every new positional list and its configuration, all command lines of that form, of any length", "all configurations, lists of words and positions in the line", A+": Args::addArgument, parseArguments, parsePositionnalArgument_, parseArgument_", H+": Argument::nargs, action, defaults")

with open("/verif/properties.jsonl", "w") as f:
    for x in P: f.write(json.dumps(x) + "\n")
print(len(P))
