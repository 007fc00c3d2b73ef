import Verif.Check.Support
/-
`test/getUsage.cpp` replayed on the model.
-/
namespace BletArgs.Check
open BletArgs

/-- The text with these lines. -/
private def lines (l : List String) : Str := l.flatMap String.toList
private def n (s : String) : List Str := [s.toList]

/-- `test/getUsage.cpp:5-9`. -/
example : (run [.setUsage "foo".toList]).getUsage = "foo".toList := by decide +kernel

/-- `test/getUsage.cpp:13-30`. -/
def usageOps1 : List Op :=
  [.add ["-h".toList, "--help".toList], .action 0 .help, .help 0 "custom help option message".toList,
   .add (n "NOTREQUIRED1"), .help 1 "help of positional argument".toList,
   .add (n "REQUIRED1"), .help 2 "help of required1 positional argument".toList, .required 2 true,
   .add (n "REQUIRED2"), .help 3 "help of required2 positional argument".toList, .required 3 true,
   .add (n "NOTREQUIRED2"), .help 4 "help of positional argument".toList,
   .add (n "-a"), .action 5 .storeTrue, .help 5 "help of a short option".toList, .required 5 true,
   .add (n "-b"), .action 6 .storeTrue, .help 6 "help of b short option".toList,
   .add (n "-c"), .action 7 .storeTrue, .help 7 "help of c short option".toList,
   .add (n "-d"), .action 8 .storeTrue, .help 8 "help of d short option".toList, .required 8 true,
   .add (n "--long1"), .action 9 .storeTrue, .help 9 "help of long1 option".toList,
   .add (n "--long2"), .action 10 .storeTrue, .help 10 "help of long2 option".toList, .required 10 true,
   .add (n "--long3"), .action 11 .storeTrue, .help 11 "help of long3 option".toList,
   .add (n "--long4"), .action 12 .storeTrue, .help 12 "help of long4 option".toList,
   .add (n "--long5"), .action 13 .storeTrue, .help 13 "help of long5 option".toList,
   .add (n "--long6"), .action 14 .storeTrue, .help 14 "help of long6 option".toList, .required 14 true,
   .add (n "-e"), .action 15 .storeTrue, .help 15 "help of e short option".toList, .required 15 true,
   .add (n "-f"), .action 16 .storeTrue, .help 16 "help of f short option".toList,
   .add (n "-g"), .action 17 .storeTrue, .help 17 "help of g short option".toList, .required 17 true]

/-- `test/getUsage.cpp:32-64`. -/
example : (run usageOps1).getUsage = lines [
    "usage:  -a -d -e -g --long2 --long6 [-b] [-c] [-f] [-h] [--long1] [--long3]\n",
    "        [--long4] [--long5]\n",
    "        --\n",
    "        REQUIRED1 REQUIRED2 [NOTREQUIRED1] [NOTREQUIRED2]\n",
    "\n",
    "positional arguments:\n",
    "  REQUIRED1             help of required1 positional argument (required)\n",
    "  REQUIRED2             help of required2 positional argument (required)\n",
    "  NOTREQUIRED1          help of positional argument\n",
    "  NOTREQUIRED2          help of positional argument\n",
    "\n",
    "optional arguments:\n",
    "  -a                    help of a short option (required)\n",
    "  -d                    help of d short option (required)\n",
    "  -e                    help of e short option (required)\n",
    "  -g                    help of g short option (required)\n",
    "  --long2               help of long2 option (required)\n",
    "  --long6               help of long6 option (required)\n",
    "  -b                    help of b short option\n",
    "  -c                    help of c short option\n",
    "  -f                    help of f short option\n",
    "  -h, --help            custom help option message\n",
    "  --long1               help of long1 option\n",
    "  --long3               help of long3 option\n",
    "  --long4               help of long4 option\n",
    "  --long5               help of long5 option"] := by decide +kernel

/-- `test/getUsage.cpp:67-71`. -/
def usageOps2 : List Op :=
  [.setUsageWidth 0 10 2 10, .setDescription "XXXXXXXXXXXXXXXXXXXXXXXXXXXXXXXXXXXXXXXXXXXXXXXXXXXXXX".toList,
   .add ["-h".toList, "--help".toList], .action 0 .help, .help 0 "show this help message and exit".toList,
   .add (n "XXXXXXXXXXX"),
   .help 1 "XXXX XXXX XXXX XXXX XXXX XXXX XXXX XXXX XXXX XXXX XXXX XXXX XXXX XX".toList]

/-- `test/getUsage.cpp:72-93`. -/
example : (run usageOps2).getUsage = lines [
    "usage:  [-h] --\n",
    "        [XXXXXXXXXXX]\n",
    "\n",
    "XXXXXXXXXXXXXXXXXXXXXXXXXXXXXXXXXXXXXXXXXXXXXXXXXXXXXX\n",
    "\n",
    "positional arguments:\n",
    "XXXXXXXXXXX\n",
    "            XXXX XXXX\n",
    "            XXXX XXXX\n",
    "            XXXX XXXX\n",
    "            XXXX XXXX\n",
    "            XXXX XXXX\n",
    "            XXXX XXXX\n",
    "            XXXX XX\n",
    "\n",
    "optional arguments:\n",
    "-h, --help  show this\n",
    "            help\n",
    "            message\n",
    "            and exit"] := by decide +kernel

/-- `test/getUsage.cpp:94-123`. -/
example : (run (usageOps2 ++ [.setDescription "                                                      ".toList,
    .parse (argv ["./a.out"])])).getUsage = lines [
    "usage: a.out [-h] --\n",
    "             [XXXXXXXXXXX]\n",
    "\n",
    "                      \n",
    "\n",
    "\n",
    "positional arguments:\n",
    "XXXXXXXXXXX\n",
    "            XXXX XXXX\n",
    "            XXXX XXXX\n",
    "            XXXX XXXX\n",
    "            XXXX XXXX\n",
    "            XXXX XXXX\n",
    "            XXXX XXXX\n",
    "            XXXX XX\n",
    "\n",
    "optional arguments:\n",
    "-h, --help  show this\n",
    "            help\n",
    "            message\n",
    "            and exit"] := by decide +kernel

/-- `test/getUsage.cpp:127-187`. -/
def usageOps3 : List Op :=
  [.setDescription "custom description message".toList, .setEpilog "custom epilog message".toList,
   .add ["-h".toList, "--help".toList], .action 0 .help, .help 0 "show this help message and exit".toList,
   .add (n "REQUIRED"), .help 1 "help of required positional argument".toList, .required 1 true,
   .add (n "NUMBER"), .help 2 "help of positional number argument".toList, .nargs 2 2,
   .add (n "INFINITE"), .help 3 "help of infinite positional argument".toList, .action 3 .infinite,
   .add (n "INFINITE_NUMBER"), .help 4 "help of infinite positional number argument".toList, .action 4 .infinite, .nargs 4 2,
   .add (n "NOTREQUIRED"), .help 5 "help of positional argument".toList, .defaults 5 (n "DEFAULT VALUE"),
   .add ["-b".toList, "--bool".toList], .action 6 .storeTrue, .help 6 "help of bool option".toList,
   .add (n "--notbool"), .action 7 .storeFalse, .help 7 "help of notbool option".toList,
   .add ["-s".toList, "--simple".toList], .help 8 "help of simple option".toList, .metavar 8 "ArgOfSimple".toList,
   .nargs 8 1, .defaults 8 (n "0"),
   .add (n "--number"), .help 9 "help of number option".toList, .metavar 9 "Arg1 Arg2".toList, .nargs 9 2,
   .defaults 9 ["0".toList, "1".toList],
   .add (n "--infinite"), .flag 10 "-i".toList, .action 10 .infinite, .help 10 "help of infinite option".toList, .nargs 10 1,
   .defaults 10 ["0".toList, "1".toList, "2".toList, "3".toList],
   .add (n "--multi"), .action 11 .append, .help 11 "help of multi option".toList, .nargs 11 1,
   .defaults 11 ["0".toList, "1".toList, "2".toList, "3".toList],
   .add (n "--multi-number"), .action 12 .append, .help 12 "help of multi number option".toList, .nargs 12 2,
   .defaults 12 ["0".toList, "1".toList, "2".toList, "3".toList],
   .add (n "--multi-infinite"), .action 13 .extend, .help 13 "help of multi-infinite option".toList, .nargs 13 1,
   .defaults 13 ["0".toList, "1".toList, "2".toList, "3".toList],
   .add (n "--multi-infinite-number"), .action 14 .extend, .help 14 "help of multi-infinite-number option".toList, .nargs 14 2,
   .defaults 14 ["0".toList, "1".toList, "2".toList, "3".toList]]

/-- `test/getUsage.cpp:189-224`. -/
example : (run usageOps3).getUsage = lines [
    "usage:  [-b] [-h] [-i INFINITE...] [-s ArgOfSimple] [--multi MULTI]\n",
    "        [--multi-infinite MULTI-INFINITE]\n",
    "        [--multi-infinite-number MULTI-INFINITE-NUMBER MULTI-INFINITE-NUMBER]\n",
    "        [--multi-number MULTI-NUMBER MULTI-NUMBER] [--notbool]\n",
    "        [--number Arg1 Arg2]\n",
    "        --\n",
    "        REQUIRED [NUMBER NUMBER] [INFINITE {INFINITE}...]\n",
    "        [{INFINITE_NUMBER INFINITE_NUMBER}...] [NOTREQUIRED]\n",
    "\n",
    "custom description message\n",
    "\n",
    "positional arguments:\n",
    "  REQUIRED              help of required positional argument (required)\n",
    "  NUMBER                help of positional number argument\n",
    "  INFINITE              help of infinite positional argument\n",
    "  INFINITE_NUMBER       help of infinite positional number argument\n",
    "  NOTREQUIRED           help of positional argument (default: DEFAULT VALUE)\n",
    "\n",
    "optional arguments:\n",
    "  -b, --bool            help of bool option\n",
    "  -h, --help            show this help message and exit\n",
    "  -i, --infinite INFINITE...\n",
    "                        help of infinite option (default: 0, 1, 2, 3)\n",
    "  -s, --simple ArgOfSimple\n",
    "                        help of simple option (default: 0)\n",
    "  --multi MULTI         help of multi option (default: 0, 1, 2, 3)\n",
    "  --multi-infinite MULTI-INFINITE\n",
    "                        help of multi-infinite option (default: 0, 1, 2, 3)\n",
    "  --multi-infinite-number MULTI-INFINITE-NUMBER MULTI-INFINITE-NUMBER\n",
    "                        help of multi-infinite-number option (default: (0, 1),\n",
    "                        (2, 3))\n",
    "  --multi-number MULTI-NUMBER MULTI-NUMBER\n",
    "                        help of multi number option (default: (0, 1), (2, 3))\n",
    "  --notbool             help of notbool option\n",
    "  --number Arg1 Arg2    help of number option (default: 0, 1)\n",
    "\n",
    "custom epilog message"] := by decide +kernel

end BletArgs.Check
