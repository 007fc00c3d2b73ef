import Verif.Model.Argument
import Verif.Spec.Tokens
/-
Specification of command lines: which sequences of tokens are accepted, which occurrences and values they
denote, and which error is reported for the others. It works on lists of tokens; there is no index, loop or
argument object in it.
-/
namespace BletArgs.Spec

/-- An option, seen by the grammar. -/
structure Entry where
  id : Nat
  kind : Ty
  arity : Nat
  deriving DecidableEq

/-- A positional argument, seen by the grammar. -/
structure Place where
  id : Nat
  name : Str
  kind : Ty
  arity : Nat
  deriving DecidableEq

/-- The options by flag, and the two modes of the parser. -/
structure Sig where
  flag : Str → Option Entry
  alternative : Bool
  strict : Bool

/-- What one occurrence provides. -/
inductive Values where
  | nothing
  | single (v : Str)
  | list (vs : List Str)
  | groups (gs : List (List Str))
  deriving DecidableEq

/-- One thing said by a command line. `attached` marks the form `-oVALUE`. -/
inductive Event where
  | option (id : Nat) (attached : Bool) (vals : Values)
  | positional (id : Nat) (vals : Values)
  | extra (word : Str)
  deriving DecidableEq

/-- Options that never take a value. -/
def Valueless (k : Ty) : Prop := k = .none ∨ k = .help ∨ k = .version ∨ k = .boolean ∨ k = .reverse
/-- Options that can be followed by other letters in a cluster. -/
def Switch (k : Ty) : Prop := k = .boolean ∨ k = .reverse
/-- Options that want several values at once. -/
def Several (k : Ty) : Prop := k = .number ∨ k = .multiNumber ∨ k = .multiNumberInfinite
/-- Options for which the rest of a cluster is read as an attached value. -/
def Attaches (k : Ty) : Prop :=
  k = .simple ∨ k = .number ∨ k = .infinite ∨ k = .multi ∨ k = .multiInfinite ∨ k = .multiNumber

/-- `tok` is `name=value` (at the first `'='`), or `name` alone. -/
inductive Splits (tok : Str) : Str → Option Str → Prop
  | eq (name v : Str) : SplitsAt tok name v → Splits tok name (some v)
  | bare : '=' ∉ tok → Splits tok tok none

/-- The letters of a short token are taken for options by a list that could go on: all letters are known up
to the last one, or up to a switch, or up to a letter with an attached value. -/
inductive ClusterForm (sig : Sig) (eq : Option Str) : List Char → Prop
  | last {c : Char} {e : Entry} : sig.flag ['-', c] = some e → ClusterForm sig eq [c]
  | first {c : Char} {cs : List Char} {e : Entry} : cs ≠ [] → sig.flag ['-', c] = some e →
      Switch e.kind ∨ (eq = none ∧ Attaches e.kind) → ClusterForm sig eq (c :: cs)
  | later {c : Char} {cs : List Char} {e : Entry} : cs ≠ [] → sig.flag ['-', c] = some e →
      ClusterForm sig eq cs → ClusterForm sig eq (c :: cs)

/-- The token ends a list of values of unlimited length: it has the form of a registered option. -/
inductive OptionForm (sig : Sig) (tok : Str) : Prop
  | long {name : Str} {eq : Option Str} {e : Entry} : LongTok tok → Splits tok name eq →
      sig.flag name = some e → OptionForm sig tok
  | alternative {name : Str} {eq : Option Str} {e : Entry} : ShortTok tok → Splits tok name eq →
      sig.alternative = true → sig.flag ('-' :: name) = some e → OptionForm sig tok
  | cluster {cs : List Char} {eq : Option Str} : ShortTok tok → Splits tok ('-' :: cs) eq →
      ClusterForm sig eq cs → OptionForm sig tok

/-- `vs` is the longest beginning of `vs ++ rest` without a token satisfying `stop`. -/
def Longest (stop : Str → Prop) (vs rest : List Str) : Prop :=
  (∀ v ∈ vs, ¬stop v) ∧ ∀ t, rest.head? = some t → stop t

/-- `gs` are groups of `arity` values none of which begins with a token satisfying `stop`. -/
def Groups (stop : Str → Prop) (arity : Nat) (gs : List (List Str)) : Prop :=
  ∀ g ∈ gs, g.length = arity ∧ ∀ t, g.head? = some t → ¬stop t

/-- `Takes stop arity kind ts vals rest`: an argument of that kind, followed by the tokens `ts`, takes
the values `vals` and leaves the tokens `rest`. -/
inductive Takes (stop : Str → Prop) (arity : Nat) : Ty → List Str → Values → List Str → Prop
  | nothing {k : Ty} (ts : List Str) : Valueless k → Takes stop arity k ts .nothing ts
  | one {k : Ty} (v : Str) (ts : List Str) : k = .simple ∨ k = .pos → Takes stop arity k (v :: ts) (.single v) ts
  | oneMore (v : Str) (ts : List Str) : Takes stop arity .multi (v :: ts) (.list [v]) ts
  | fixed {k : Ty} (vs ts : List Str) : k = .number ∨ k = .numberPos → vs.length = arity →
      Takes stop arity k (vs ++ ts) (.list vs) ts
  | fixedMore (vs ts : List Str) : vs.length = arity → Takes stop arity .multiNumber (vs ++ ts) (.groups [vs]) ts
  | many {k : Ty} (vs ts : List Str) : k = .infinite ∨ k = .multiInfinite ∨ k = .infinitePos → Longest stop vs ts →
      Takes stop arity k (vs ++ ts) (.list vs) ts
  | manyGroups {k : Ty} (gs : List (List Str)) (ts : List Str) : k = .multiNumberInfinite ∨ k = .infiniteNumberPos →
      Groups stop arity gs → (∀ t, ts.head? = some t → stop t) →
      Takes stop arity k (gs.flatten ++ ts) (.groups gs) ts

/-- The tokens `ts` are not enough for an argument of that kind. -/
inductive TooFew (stop : Str → Prop) (arity : Nat) : Ty → List Str → Prop
  | one {k : Ty} : k = .simple ∨ k = .multi ∨ k = .pos → TooFew stop arity k []
  | fixed {k : Ty} (ts : List Str) : k = .number ∨ k = .numberPos ∨ k = .multiNumber → ts.length < arity →
      TooFew stop arity k ts
  | group {k : Ty} (gs : List (List Str)) (t : Str) (ts : List Str) :
      k = .multiNumberInfinite ∨ k = .infiniteNumberPos → Groups stop arity gs → ¬stop t →
      (t :: ts).length < arity → TooFew stop arity k (gs.flatten ++ t :: ts)

/-- The values of an option written with one value in the same token (`=value` or `-oVALUE`). -/
inductive TakesOne : Ty → Str → Values → Prop
  | simple (v : Str) : TakesOne .simple v (.single v)
  | list {k : Ty} (v : Str) : k = .infinite ∨ k = .multi ∨ k = .multiInfinite → TakesOne k v (.list [v])

/-- How the reading of an item ends: the tokens left, or the exception. -/
inductive Out where
  | rest (ts : List Str)
  | error (e : Exn)

/-- `ParseArgumentException(culprit, message)`. -/
def parseError (culprit : Str) (message : String) : Exn := ⟨.parse, culprit, message.toList⟩

/-- Option `e`, named `name` in errors, written with value `eq` or bare, before the tokens `ts`. -/
inductive OptionReads (stop : Str → Prop) (name : Str) (e : Entry) (attached : Bool) :
    Option Str → List Str → List Event → Out → Prop
  | value {v : Str} {vals : Values} (ts : List Str) : TakesOne e.kind v vals →
      OptionReads stop name e attached (some v) ts [.option e.id attached vals] (.rest ts)
  | valueForSeveral (v : Str) (ts : List Str) : Several e.kind →
      OptionReads stop name e attached (some v) ts []
        (.error (parseError name "option cannot use with only 1 argument"))
  | valueForNone (v : Str) (ts : List Str) : Valueless e.kind →
      OptionReads stop name e attached (some v) ts [] (.error (parseError name "option cannot use with argument"))
  | following {ts rest : List Str} {vals : Values} : Takes stop e.arity e.kind ts vals rest →
      OptionReads stop name e attached none ts [.option e.id attached vals] (.rest rest)
  | missing {ts : List Str} : TooFew stop e.arity e.kind ts →
      OptionReads stop name e attached none ts [] (.error (parseError name "bad number of argument"))

/-- The letters of a cluster, written with value `eq` or bare, before the tokens `ts`. -/
inductive ClusterReads (sig : Sig) (stop : Str → Prop) (eq : Option Str) (ts : List Str) :
    List Char → List Event → Out → Prop
  | none : ClusterReads sig stop eq ts [] [] (.error (parseError ['-'] "invalid option"))
  | unknown {c : Char} {cs : List Char} : sig.flag ['-', c] = none →
      ClusterReads sig stop eq ts (c :: cs) [] (.error (parseError [c] "invalid option"))
  | last {c : Char} {e : Entry} {evs : List Event} {out : Out} : sig.flag ['-', c] = some e →
      OptionReads stop [c] e false eq ts evs out → ClusterReads sig stop eq ts [c] evs out
  | attached {c : Char} {cs : List Char} {e : Entry} {evs : List Event} {out : Out} : cs ≠ [] →
      sig.flag ['-', c] = some e → eq = none → Attaches e.kind →
      OptionReads stop [c] e true (some cs) ts evs out → ClusterReads sig stop eq ts (c :: cs) evs out
  | notLast {c : Char} {cs : List Char} {e : Entry} : cs ≠ [] → sig.flag ['-', c] = some e →
      ¬(eq = none ∧ Attaches e.kind) → ¬Switch e.kind →
      ClusterReads sig stop eq ts (c :: cs) []
        (.error (parseError [c] "only last option can be use a parameter"))
  | switch {c : Char} {cs : List Char} {e : Entry} {evs : List Event} {out : Out} : cs ≠ [] →
      sig.flag ['-', c] = some e → Switch e.kind → ClusterReads sig stop eq ts cs evs out →
      ClusterReads sig stop eq ts (c :: cs) (.option e.id false .nothing :: evs) out

/-- An option token `tok` before the tokens `ts`. -/
inductive TokenReads (sig : Sig) (stop : Str → Prop) (tok : Str) (ts : List Str) : List Event → Out → Prop
  | long {name : Str} {eq : Option Str} {e : Entry} {evs : List Event} {out : Out} : LongTok tok →
      Splits tok name eq → sig.flag name = some e → OptionReads stop (name.drop 2) e false eq ts evs out →
      TokenReads sig stop tok ts evs out
  | unknownLong {name : Str} {eq : Option Str} : LongTok tok → Splits tok name eq → sig.flag name = none →
      TokenReads sig stop tok ts [] (.error (parseError (name.drop 2) "invalid option"))
  | alternative {name : Str} {eq : Option Str} {e : Entry} {evs : List Event} {out : Out} : ShortTok tok →
      Splits tok name eq → sig.alternative = true → sig.flag ('-' :: name) = some e →
      OptionReads stop (name.drop 1) e false eq ts evs out → TokenReads sig stop tok ts evs out
  | cluster {cs : List Char} {eq : Option Str} {evs : List Event} {out : Out} : ShortTok tok →
      Splits tok ('-' :: cs) eq → ¬(sig.alternative = true ∧ (sig.flag ('-' :: '-' :: cs)).isSome) →
      ClusterReads sig stop eq ts cs evs out → TokenReads sig stop tok ts evs out

/-- A word, with the tokens after it, when the positional arguments `queue` are still to be filled. -/
inductive WordReads (stop : Str → Prop) (strict : Bool) :
    List Place → List Str → Event → List Place → List Str → Prop
  | fill {p : Place} {q : List Place} {ts rest : List Str} {vals : Values} : Takes stop p.arity p.kind ts vals rest →
      WordReads stop strict (p :: q) ts (.positional p.id vals) q rest
  | surplus (w : Str) (ts : List Str) : strict = false → WordReads stop strict [] (w :: ts) (.extra w) [] ts

/-- The exceptions raised by a word. -/
inductive WordFails (stop : Str → Prop) (strict : Bool) : List Place → List Str → Exn → Prop
  | missing {p : Place} {q : List Place} {ts : List Str} : TooFew stop p.arity p.kind ts →
      WordFails stop strict (p :: q) ts (parseError p.name "bad number of argument")
  | surplus (w : Str) (ts : List Str) : strict = true →
      WordFails stop strict [] (w :: ts) (parseError w "invalid additional argument")

/-- The tokens before `--` (or all of them). `Reads sig queue tokens events queue' error`: the tokens denote the
events, with `queue'` the positional arguments still to be filled, unless there is an error (the events are
then those before it). -/
inductive Reads (sig : Sig) : List Place → List Str → List Event → List Place → Option Exn → Prop
  | nil (q : List Place) : Reads sig q [] [] q none
  | option {q q' : List Place} {tok : Str} {ts rest : List Str} {evs evs' : List Event} {err : Option Exn} :
      TokenReads sig (OptionForm sig) tok ts evs (.rest rest) → Reads sig q rest evs' q' err →
      Reads sig q (tok :: ts) (evs ++ evs') q' err
  | badOption {q : List Place} {tok : Str} {ts : List Str} {evs : List Event} {e : Exn} :
      TokenReads sig (OptionForm sig) tok ts evs (.error e) → Reads sig q (tok :: ts) evs q (some e)
  | word {q q' q'' : List Place} {tok : Str} {ts rest : List Str} {ev : Event} {evs : List Event}
      {err : Option Exn} : WordTok tok → WordReads (OptionForm sig) sig.strict q (tok :: ts) ev q' rest →
      Reads sig q' rest evs q'' err → Reads sig q (tok :: ts) (ev :: evs) q'' err
  | badWord {q : List Place} {tok : Str} {ts : List Str} {e : Exn} : WordTok tok →
      WordFails (OptionForm sig) sig.strict q (tok :: ts) e → Reads sig q (tok :: ts) [] q (some e)

/-- The tokens after `--`: words only, and nothing ends a list. -/
inductive ReadsWords (strict : Bool) : List Place → List Str → List Event → List Place → Option Exn → Prop
  | nil (q : List Place) : ReadsWords strict q [] [] q none
  | word {q q' q'' : List Place} {tok : Str} {ts rest : List Str} {ev : Event} {evs : List Event}
      {err : Option Exn} : WordReads (fun _ => False) strict q (tok :: ts) ev q' rest →
      ReadsWords strict q' rest evs q'' err → ReadsWords strict q (tok :: ts) (ev :: evs) q'' err
  | badWord {q : List Place} {tok : Str} {ts : List Str} {e : Exn} :
      WordFails (fun _ => False) strict q (tok :: ts) e → ReadsWords strict q (tok :: ts) [] q (some e)

/-- A whole command line (without the program name). -/
inductive Line (sig : Sig) (queue : List Place) : List Str → List Event → Option Exn → Prop
  | whole {ts : List Str} {evs : List Event} {q : List Place} {err : Option Exn} : (∀ t ∈ ts, ¬EndTok t) →
      Reads sig queue ts evs q err → Line sig queue ts evs err
  | split {ts ts' : List Str} {evs evs' : List Event} {q q' : List Place} {err : Option Exn} : (∀ t ∈ ts, ¬EndTok t) →
      Reads sig queue ts evs q none → ReadsWords sig.strict q ts' evs' q' err →
      Line sig queue (ts ++ ['-', '-'] :: ts') (evs ++ evs') err
  | splitBad {ts ts' : List Str} {evs : List Event} {q : List Place} {e : Exn} : (∀ t ∈ ts, ¬EndTok t) →
      Reads sig queue ts evs q (some e) → Line sig queue (ts ++ ['-', '-'] :: ts') evs (some e)

end BletArgs.Spec
