import Verif.Spec.Grammar
/-
Specification: places in a command line, and what a token says there.
-/
namespace BletArgs.Spec

/-- `Reaches sig q ts evs q' rest`: reading the tokens `ts` with the positional arguments `q` to be filled
comes, after the events `evs`, to the tokens `rest` with `q'` to be filled. The first token of `rest` is
then met in option position: it is not a value of what precedes. -/
inductive Reaches (sig : Sig) : List Place → List Str → List Event → List Place → List Str → Prop
  | here (q : List Place) (ts : List Str) : Reaches sig q ts [] q ts
  | option {q q' : List Place} {tok : Str} {ts ts' rest : List Str} {evs evs' : List Event} :
      TokenReads sig (OptionForm sig) tok ts evs (.rest ts') → Reaches sig q ts' evs' q' rest →
      Reaches sig q (tok :: ts) (evs ++ evs') q' rest
  | word {q q' q'' : List Place} {tok : Str} {ts ts' rest : List Str} {ev : Event} {evs : List Event} :
      WordTok tok → WordReads (OptionForm sig) sig.strict q (tok :: ts) ev q' ts' →
      Reaches sig q' ts' evs q'' rest → Reaches sig q (tok :: ts) (ev :: evs) q'' rest

/-- The same for the tokens after `--`. -/
inductive ReachesWords (strict : Bool) : List Place → List Str → List Event → List Place → List Str → Prop
  | here (q : List Place) (ts : List Str) : ReachesWords strict q ts [] q ts
  | word {q q' q'' : List Place} {tok : Str} {ts ts' rest : List Str} {ev : Event} {evs : List Event} :
      WordReads (fun _ => False) strict q (tok :: ts) ev q' ts' →
      ReachesWords strict q' ts' evs q'' rest → ReachesWords strict q (tok :: ts) (ev :: evs) q'' rest

/-- `front` is the part of the command line `line` before the first `--` (all of it if there is none). -/
def Front (line front : List Str) : Prop :=
  (∀ t ∈ front, ¬EndTok t) ∧ (line = front ∨ ∃ back, line = front ++ ['-', '-'] :: back)

/-- On the command line `pre ++ tok :: post` the token `tok` is met in option position: it is before any `--`
and is not a value of what precedes. -/
def MetAt (sig : Sig) (q : List Place) (pre : List Str) (tok : Str) (post : List Str) : Prop :=
  ∃ X evs q', (∀ t ∈ pre, ¬EndTok t) ∧ Front post X ∧ Reaches sig q (pre ++ tok :: X) evs q' (tok :: X)

/-- The token `tok` is one flag of the option `e`, alone or with `=value`. -/
inductive Writes (sig : Sig) (e : Entry) : Str → Option Str → Prop
  | long {tok name : Str} {eq : Option Str} : LongTok tok → Splits tok name eq → sig.flag name = some e →
      Writes sig e tok eq
  | alternative {tok name : Str} {eq : Option Str} : ShortTok tok → Splits tok name eq → sig.alternative = true →
      sig.flag ('-' :: name) = some e → Writes sig e tok eq
  | short {tok : Str} {c : Char} {eq : Option Str} : ShortTok tok → Splits tok ['-', c] eq →
      ¬(sig.alternative = true ∧ (sig.flag ['-', '-', c]).isSome) → sig.flag ['-', c] = some e → Writes sig e tok eq

/-- The option token `tok` holds the unregistered option `name` (its dashes left out): a long option, or a
letter after switches. -/
inductive Unknown (sig : Sig) (tok : Str) : Str → Prop
  | long {name : Str} {eq : Option Str} : LongTok tok → Splits tok ('-' :: '-' :: name) eq →
      sig.flag ('-' :: '-' :: name) = none → Unknown sig tok name
  | letter {ss cs : List Char} {c : Char} {eq : Option Str} : ShortTok tok → Splits tok ('-' :: (ss ++ c :: cs)) eq →
      ¬(sig.alternative = true ∧ (sig.flag ('-' :: '-' :: (ss ++ c :: cs))).isSome) →
      (∀ s ∈ ss, ∃ e, sig.flag ['-', s] = some e ∧ Switch e.kind) → sig.flag ['-', c] = none → Unknown sig tok [c]
  | noLetter {eq : Option Str} : ShortTok tok → Splits tok ['-'] eq →
      ¬(sig.alternative = true ∧ (sig.flag ['-', '-']).isSome) → Unknown sig tok ['-']

/-- The option token `tok` uses the option `e` under the name `name` (dashes left out), with a value written
in the token or bare: a flag of its own, the last letter of a cluster or a letter with attached value, after
switches. -/
inductive Uses (sig : Sig) (tok : Str) (e : Entry) : Str → Option Str → Prop
  | long {name : Str} {eq : Option Str} : LongTok tok → Splits tok ('-' :: '-' :: name) eq →
      sig.flag ('-' :: '-' :: name) = some e → Uses sig tok e name eq
  | alternative {name : Str} {eq : Option Str} : ShortTok tok → Splits tok ('-' :: name) eq → sig.alternative = true →
      sig.flag ('-' :: '-' :: name) = some e → Uses sig tok e name eq
  | letter {ss : List Char} {c : Char} {eq : Option Str} : ShortTok tok → Splits tok ('-' :: (ss ++ [c])) eq →
      ¬(sig.alternative = true ∧ (sig.flag ('-' :: '-' :: (ss ++ [c]))).isSome) →
      (∀ s ∈ ss, ∃ e, sig.flag ['-', s] = some e ∧ Switch e.kind) → sig.flag ['-', c] = some e → Uses sig tok e [c] eq
  | attached {ss cs : List Char} {c : Char} : ShortTok tok → Splits tok ('-' :: (ss ++ c :: cs)) none → cs ≠ [] →
      ¬(sig.alternative = true ∧ (sig.flag ('-' :: '-' :: (ss ++ c :: cs))).isSome) →
      (∀ s ∈ ss, ∃ e, sig.flag ['-', s] = some e ∧ Switch e.kind) → sig.flag ['-', c] = some e →
      Attaches e.kind → Uses sig tok e [c] (some cs)

/-- The letter `c` of the cluster `tok` is an option that wants a value (or that cannot be followed), but
other letters follow it. -/
inductive NotLast (sig : Sig) (tok : Str) (c : Char) : Prop
  | mk {ss cs : List Char} {eq : Option Str} {e : Entry} : ShortTok tok → Splits tok ('-' :: (ss ++ c :: cs)) eq →
      cs ≠ [] → ¬(sig.alternative = true ∧ (sig.flag ('-' :: '-' :: (ss ++ c :: cs))).isSome) →
      (∀ s ∈ ss, ∃ e, sig.flag ['-', s] = some e ∧ Switch e.kind) → sig.flag ['-', c] = some e →
      ¬Switch e.kind → ¬(eq = none ∧ Attaches e.kind) → NotLast sig tok c

/-- What is wrong with the token `tok` followed by `ts`, when `q` are the positional arguments still to be
filled: culprit and message of the exception. `stop` tells the tokens that end a list. -/
inductive Blames (sig : Sig) (stop : Str → Prop) (q : List Place) (tok : Str) (ts : List Str) : Str → String → Prop
  | unknown {name : Str} : Unknown sig tok name → Blames sig stop q tok ts name "invalid option"
  | notLast {c : Char} : NotLast sig tok c → Blames sig stop q tok ts [c] "only last option can be use a parameter"
  | valueForSeveral {e : Entry} {name v : Str} : Uses sig tok e name (some v) → Several e.kind →
      Blames sig stop q tok ts name "option cannot use with only 1 argument"
  | valueForNone {e : Entry} {name v : Str} : Uses sig tok e name (some v) → Valueless e.kind →
      Blames sig stop q tok ts name "option cannot use with argument"
  | missing {e : Entry} {name : Str} : Uses sig tok e name none → TooFew stop e.arity e.kind ts →
      Blames sig stop q tok ts name "bad number of argument"

/-- The same for a word. -/
inductive BlamesWord (strict : Bool) (stop : Str → Prop) (tok : Str) (ts : List Str) :
    List Place → Str → String → Prop
  | missing {p : Place} {q : List Place} : TooFew stop p.arity p.kind (tok :: ts) →
      BlamesWord strict stop tok ts (p :: q) p.name "bad number of argument"
  | surplus : strict = true → BlamesWord strict stop tok ts [] tok "invalid additional argument"

/-- What is wrong with a command line: the culprit and the message, at the first place where reading cannot
go on. -/
inductive Fault (sig : Sig) (q : List Place) (line : List Str) (culprit : Str) (message : String) : Prop
  | option {ts X : List Str} {evs : List Event} {q' : List Place} {tok : Str} : Front line ts →
      Reaches sig q ts evs q' (tok :: X) → Blames sig (OptionForm sig) q' tok X culprit message →
      Fault sig q line culprit message
  | word {ts X : List Str} {evs : List Event} {q' : List Place} {tok : Str} : Front line ts →
      Reaches sig q ts evs q' (tok :: X) → WordTok tok → BlamesWord sig.strict (OptionForm sig) tok X q' culprit message →
      Fault sig q line culprit message
  | afterEnd {ts back X : List Str} {evs evs' : List Event} {q' q'' : List Place} {tok : Str} :
      (∀ t ∈ ts, ¬EndTok t) → line = ts ++ ['-', '-'] :: back → Reads sig q ts evs q' none →
      ReachesWords sig.strict q' back evs' q'' (tok :: X) →
      BlamesWord sig.strict (fun _ => False) tok X q'' culprit message → Fault sig q line culprit message

/-- No token of `ts` is another spelling `-name` of a registered `--name`. -/
def NoAlternative (s : Sig) (ts : List Str) : Prop :=
  ∀ t ∈ ts, ShortTok t → ∀ name eq, Splits t name eq → s.flag ('-' :: name) = none

/-- The words of an event that is not an option. -/
def Event.words : Event → List Str
  | .option _ _ _ => []
  | .positional _ (.single v) => [v]
  | .positional _ (.list vs) => vs
  | .positional _ (.groups gs) => gs.flatten
  | .positional _ .nothing => []
  | .extra w => [w]

end BletArgs.Spec
