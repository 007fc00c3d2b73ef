import Verif.Spec.Write
/-
Specification: the command line that repeats what a parser holds after a parse.
-/
namespace BletArgs
open Spec
variable {D : Type}

/-- Uses of an option of kind `k` that give it the values `vs`, in groups `gs` for a kind with groups: a flag alone for an
option without values, one use for an option whose last use counts, one use per value or per group for an option that
accumulates (one without values when there is none). -/
def usesFor (k : Ty) (vs : List Str) (gs : List (List Str)) : List Values :=
  match k with
  | .none | .help | .version | .boolean | .reverse => [.nothing]
  | .simple => vs.map .single
  | .number | .infinite => [.list vs]
  | .multi | .multiInfinite => if vs = [] then [.list []] else vs.map fun v => .list [v]
  | .multiNumber | .multiNumberInfinite => if gs = [] then [.groups []] else gs.map fun g => .groups [g]
  | .pos | .numberPos | .infinitePos | .infiniteNumberPos => []

/-- The uses for an argument as it is now: none if it is positional or did not occur. `flag` gives a flag for each option. -/
def Slot.savedUses (flag : Nat → Str) (s : Slot D) : List Use :=
  if s.arg.isPositional = false ∧ s.arg.isExist = true then
    (usesFor s.arg.type (s.arg.toVector.getD []) (s.arg.toVecVec.getD [])).map fun vals => ⟨s.entry, flag s.obj, vals⟩
  else []

/-- What a positional argument received, if it held `old` elements before: its text, or the elements behind the old ones. -/
def Argument.received (old : Nat) (a : Argument D) : Values :=
  match a.type with
  | .pos => .single a.argument
  | .infiniteNumberPos => .groups ((a.toVecVec.getD []).drop old)
  | _ => .list ((a.toVector.getD []).drop old)

/-- The number of elements of the argument. -/
def State.sizeOf (st : State D) (obj : Nat) : Nat := ((st.atObj obj).map fun s => s.arg.elems.length).getD 0

/-- The command line (without the program name) that repeats what turned the parser `st` into `now`: the options that occur,
in listing order, `--`, what the positional arguments received, and the surplus words. -/
def savedLine (flag : Nat → Str) (st now : State D) : List Str :=
  written (now.arguments.flatMap (Slot.savedUses flag))
    ((now.arguments.filter fun s => s.arg.isPositional && s.arg.isExist).map fun s => s.arg.received (st.sizeOf s.obj))
    (now.additional.drop st.additional.length)

/-- The parser with the counters of its arguments set to 0. -/
def State.uncounted (st : State D) : State D :=
  { st with arguments := st.arguments.map fun s => { s with arg := { s.arg with count := 0 } } }

/-- Words after a positional list: none. A positional list that occurs is the last positional argument that does, and there are
no surplus words behind it. (With words on both sides of an option, `a b -o x c`, a list can have received `a b` and the next
argument `c`; without the option in between the list takes all.) -/
def ListLast (st now : State D) : Prop :=
  ∀ l1 s l2, now.arguments = l1 ++ s :: l2 → s.arg.type = .infinitePos ∨ s.arg.type = .infiniteNumberPos →
    s.arg.isExist = true →
    (∀ t ∈ l2, t.arg.isPositional = true → t.arg.isExist = false) ∧ now.additional = st.additional

/-- No accumulating option that holds values is used first in the form `-oVALUE`. (It would keep them, C26: their texts can be
written, but not that they are its defaults.) -/
def NoneKept (st : State D) (evs : List Event) : Prop :=
  ∀ s ∈ st.arguments, s.arg.type = .multi ∨ s.arg.type = .multiInfinite → s.arg.elems ≠ [] →
    ∀ u, (uses s.node evs).head? = some u → u.1 = false

end BletArgs
