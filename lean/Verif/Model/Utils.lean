import Verif.Model.Base
/-
Model of `include/blet/args/utils.h`.
-/
namespace BletArgs

/-- `include/blet/args/utils.h:43-50`, `isShortOption` (argument assumed non-NULL, as in every call). -/
def isShortOption (arg : Str) : Bool :=
  arg[0]? == some '-' && arg[1]? != some '-' && arg[1]? != none

/-- `include/blet/args/utils.h:59-66`, `isLongOption`. -/
def isLongOption (arg : Str) : Bool :=
  arg[0]? == some '-' && arg[1]? == some '-' && arg[2]? != none

/-- `include/blet/args/utils.h:75-82`, `isEndOption`. -/
def isEndOption (arg : Str) : Bool :=
  arg[0]? == some '-' && arg[1]? == some '-' && arg[2]? == none

/-- `include/blet/args/utils.h:91-98`, `endOptionIndex`: index of the first `"--"` (searched from
`argv[0]`), else `argc`. The loop over `i` is the recursion over the list. -/
def endOptionIndex : List Str → Nat
  | [] => 0
  | a :: as => if isEndOption a then 0 else endOptionIndex as + 1

/-- `include/blet/args/utils.h:109-122`, `takeArg`: `(option name, argument, hasArg)`.
`strchr(arg, '=')` finds the first `'='`. When there is none the out parameter `retArgument` keeps its
previous value, which is the empty string at every call site. -/
def takeArg (arg : Str) : Str × Str × Bool :=
  if '=' ∈ arg then
    (arg.takeWhile (· != '='), (arg.dropWhile (· != '=')).drop 1, true)
  else
    (arg, [], false)

end BletArgs
