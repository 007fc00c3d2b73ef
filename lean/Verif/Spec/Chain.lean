import Verif.Props.Clear
/-
Specification: programs that declare arguments by chained calls, and parsers no program can tell apart.
-/
namespace BletArgs.Spec
variable {D : Type}

/-- The calls of `Argument` that return a reference to go on with. -/
inductive Call where
  | flag (f : Str)
  | action (a : Action)
  | nargs (n : Nat)
  | defaults (ds : List Str)
  | required (b : Bool)
  | help (h : Str)
  | metavar (m : Str)
  | valid (v : Option Validator) (deletable : Bool)
  | dest (d : Dest)

/-- The call, made through a reference. -/
def Call.on (ref : Nat) : Call → Op
  | .flag f => .flag ref f
  | .action a => .action ref a
  | .nargs n => .nargs ref n
  | .defaults ds => .defaults ref ds
  | .required b => .required ref b
  | .help h => .help ref h
  | .metavar m => .metavar ref m
  | .valid v d => .valid ref v d
  | .dest d => .dest ref d

def Call.isDest : Call → Bool
  | .dest _ => true
  | _ => false

/-- Chained calls, beginning with the reference `cur`; all of them return the reference they were made through but
`dest()`, which returns a new one (the numbers of new references begin with `next`). -/
def chained (cur next : Nat) : List Call → List Op
  | [] => []
  | c :: cs => c.on cur :: if c.isDest then chained next (next + 1) cs else chained cur next cs

/-- A statement of the program: `args.addArgument(names).call1(…).call2(…)…;` or `ref.call1(…).call2(…)…;`. -/
inductive Chain where
  | new (names : List Str) (calls : List Call)
  | through (ref : Nat) (calls : List Call)

namespace Chain

def calls : Chain → List Call
  | .new _ cs => cs
  | .through _ cs => cs

/-- Its calls, when the numbers of new references begin with `next`. -/
def ops (next : Nat) : Chain → List Op
  | .new names cs => .add names :: chained next (next + 1) cs
  | .through ref cs => chained ref next cs

/-- How many references it creates. -/
def creates : Chain → Nat
  | .new _ cs => 1 + cs.countP Call.isDest
  | .through _ cs => cs.countP Call.isDest

/-- The reference it begins with, if it is not a new one. -/
def target : Chain → Option Nat
  | .new _ _ => none
  | .through ref _ => some ref

/-- The names given to a new argument. -/
def added : Chain → List Str
  | .new names _ => names
  | .through _ _ => []

/-- The names it gives. -/
def names (c : Chain) : List Str := c.added ++ c.calls.filterMap fun | .flag f => some f | _ => none

/-- It gives or takes the action `x` (help or version). -/
def about (st : State D) (x : Action) (c : Chain) : Prop :=
  .action x ∈ c.calls ∨ ∃ ref t, c.target = some ref ∧ st.atObj ref = some t ∧ t.arg.action = x

/-- It may change the order of the positionals: it adds one, or makes one required or optional. -/
def requeues (st : State D) (c : Chain) : Prop :=
  asksPositional c.added = true ∨
  ∃ ref t b, c.target = some ref ∧ st.atObj ref = some t ∧ t.arg.isPositional = true ∧ .required b ∈ c.calls

end Chain

/-- Two statements that have nothing to do with each other. -/
structure Independent (st : State D) (a b : Chain) : Prop where
  /-- They do not use a dead reference, -/
  live : ∀ ref, a.target = some ref ∨ b.target = some ref → st.atObj ref ≠ none
  /-- begin with different references, -/
  targets : ∀ ref, a.target = some ref → b.target ≠ some ref
  /-- give different names, not yet in use for new arguments, -/
  names : ∀ n ∈ a.names, n ∉ b.names
  unused : ∀ n, n ∈ a.added ∨ n ∈ b.added → st.argumentExists n = false
  /-- and do not both concern the order of the positionals, the help option or the version option. -/
  queues : ¬(a.requeues st ∧ b.requeues st)
  help : ¬(a.about st .help ∧ b.about st .help)
  version : ¬(a.about st .version ∧ b.about st .version)

/-- Several statements, one after the other. -/
def program (next : Nat) : List Chain → List Op
  | [] => []
  | c :: cs => c.ops next ++ program (next + c.creates) cs

/-- Statements that declare arguments: each adds one, all give different names, none of them in use already, and at most
one of them gives the action help, and at most one the action version. -/
structure Declarations (st : State D) (cs : List Chain) : Prop where
  new : ∀ c ∈ cs, c.target = none
  names : cs.Pairwise fun a b => ∀ n ∈ a.names, n ∉ b.names
  unused : ∀ c ∈ cs, ∀ n ∈ c.names, st.argumentExists n = false
  help : cs.Pairwise fun a b => ¬(.action .help ∈ a.calls ∧ .action .help ∈ b.calls)
  version : cs.Pairwise fun a b => ¬(.action .version ∈ a.calls ∧ .action .version ∈ b.calls)

/-- It declares a positional argument. -/
def Chain.isPositional (c : Chain) : Bool := asksPositional c.added

/-- All calls return. -/
def Succeeds (scan : Str → Option D) (st : State D) (ops : List Op) : Prop :=
  ∀ r ∈ outcomes scan st ops, r = .ok ()

/-- The same call with other references. -/
def Op.rename (o : Nat → Nat) : Op → Op
  | .flag ref f => .flag (o ref) f
  | .action ref a => .action (o ref) a
  | .nargs ref n => .nargs (o ref) n
  | .defaults ref ds => .defaults (o ref) ds
  | .required ref b => .required (o ref) b
  | .help ref h => .help (o ref) h
  | .metavar ref m => .metavar (o ref) m
  | .behave ref c x => .behave (o ref) c x
  | .edit ref items => .edit (o ref) items
  | .valid ref v d => .valid (o ref) v d
  | .dest ref d => .dest (o ref) d
  | op => op

/-- No program can tell the two parsers apart, if it uses the reference `o ref` of the second where it uses `ref` of the
first: its calls end in the same way, with the same exceptions; it sees the same arguments, values, settings and usage
text; the same writes are made to destinations; and it gets corresponding references. -/
structure Alike (o : Nat → Nat) (s s' : State D) : Prop where
  outcomes : ∀ scan ops, outcomes scan s' (ops.map (Op.rename o)) = outcomes scan s ops
  visible : ∀ scan ops, visible (after scan s' (ops.map (Op.rename o))) = visible (after scan s ops)
  writes : ∀ scan ops, (after scan s' (ops.map (Op.rename o))).destLog = (after scan s ops).destLog
  references : ∀ scan ops ref,
    ((after scan s' (ops.map (Op.rename o))).atObj (o ref)).map (·.arg) = ((after scan s ops).atObj ref).map (·.arg)
  added : ∀ scan ops names v, ((after scan s ops).addArgument names).2 = .ok v ↔
    ((after scan s' (ops.map (Op.rename o))).addArgument names).2 = .ok (o v)
  redirected : ∀ scan ops ref d v, ((after scan s ops).setDest ref d).2 = .ok v ↔
    ((after scan s' (ops.map (Op.rename o))).setDest (o ref) d).2 = .ok (o v)

/-- The numbers `k, …, k+m-1` and `k+m, …, k+m+n-1` change places. -/
def exchange (k m n x : Nat) : Nat :=
  if x < k then x else if x < k + m then x + n else if x < k + m + n then x - m else x

end BletArgs.Spec
