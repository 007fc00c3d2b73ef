import Verif.Spec.Grammar
/-
A reference parser: what a command line says, computed. Like the grammar of `Spec/Grammar.lean` it works on lists of
tokens and knows nothing of indices, loops and argument objects; C20 shows that it computes exactly what the grammar
derives, and that `parseArguments` agrees with both.
-/
namespace BletArgs.Spec.Reader

/-- `name=value` at the first `'='`, or the token alone. -/
def split : Str → Str × Option Str
  | [] => ([], none)
  | c :: cs =>
    if c = '=' then ([], some cs)
    else
      let r := split cs
      (c :: r.1, r.2)

def short : Str → Bool
  | '-' :: c :: _ => c != '-'
  | _ => false

def long : Str → Bool
  | '-' :: '-' :: _ :: _ => true
  | _ => false

def valueless (k : Ty) : Bool := k == .none || k == .help || k == .version || k == .boolean || k == .reverse
def switch (k : Ty) : Bool := k == .boolean || k == .reverse
def several (k : Ty) : Bool := k == .number || k == .multiNumber || k == .multiNumberInfinite
def attaches (k : Ty) : Bool :=
  k == .simple || k == .number || k == .infinite || k == .multi || k == .multiInfinite || k == .multiNumber

/-- The letters of a short token look like options. -/
def clusterForm (sig : Sig) (eq : Option Str) : List Char → Bool
  | [] => false
  | c :: cs =>
    match sig.flag ['-', c] with
    | none => false
    | some e => cs.isEmpty || switch e.kind || (eq.isNone && attaches e.kind) || clusterForm sig eq cs

/-- The token ends a list of values. -/
def optionForm (sig : Sig) (tok : Str) : Bool :=
  let name := (split tok).1
  (long tok && (sig.flag name).isSome) ||
  (short tok && ((sig.alternative && (sig.flag ('-' :: name)).isSome) || clusterForm sig (split tok).2 (name.drop 1)))

/-- Groups of `arity` values up to a token satisfying `stop`; `none` if the last one is too short. The first parameter
bounds the number of groups. -/
def groups (stop : Str → Bool) (arity : Nat) : Nat → List Str → Option (List (List Str) × List Str)
  | 0, _ => none
  | _ + 1, [] => some ([], [])
  | n + 1, t :: ts =>
    if stop t then some ([], t :: ts)
    else if (t :: ts).length < arity then none
    else (groups stop arity n ((t :: ts).drop arity)).map fun r => ((t :: ts).take arity :: r.1, r.2)

/-- The values an argument of that kind takes from the tokens, and the tokens left; `none` if there are too few. -/
def takes (stop : Str → Bool) (arity : Nat) (k : Ty) (ts : List Str) : Option (Values × List Str) :=
  match k with
  | .none | .help | .version | .boolean | .reverse => some (.nothing, ts)
  | .simple | .pos => match ts with | [] => none | v :: ts => some (.single v, ts)
  | .multi => match ts with | [] => none | v :: ts => some (.list [v], ts)
  | .number | .numberPos => if ts.length < arity then none else some (.list (ts.take arity), ts.drop arity)
  | .multiNumber => if ts.length < arity then none else some (.groups [ts.take arity], ts.drop arity)
  | .infinite | .multiInfinite | .infinitePos =>
    some (.list (ts.takeWhile fun t => !stop t), ts.dropWhile fun t => !stop t)
  | .multiNumberInfinite | .infiniteNumberPos =>
    (groups stop arity (ts.length + 1) ts).map fun r => (.groups r.1, r.2)

/-- Option `e` with a value in its token or bare, before the tokens `ts`. -/
def option (stop : Str → Bool) (name : Str) (e : Entry) (attached : Bool) (eq : Option Str) (ts : List Str) :
    List Event × Out :=
  match eq with
  | some v =>
    if several e.kind then ([], .error (parseError name "option cannot use with only 1 argument"))
    else if e.kind == .simple then ([.option e.id attached (.single v)], .rest ts)
    else if e.kind == .infinite || e.kind == .multi || e.kind == .multiInfinite then
      ([.option e.id attached (.list [v])], .rest ts)
    else ([], .error (parseError name "option cannot use with argument"))
  | none =>
    match takes stop e.arity e.kind ts with
    | some (vals, rest) => ([.option e.id attached vals], .rest rest)
    | none => ([], .error (parseError name "bad number of argument"))

/-- The letters of a cluster. -/
def cluster (sig : Sig) (stop : Str → Bool) (eq : Option Str) (ts : List Str) : List Char → List Event × Out
  | [] => ([], .error (parseError ['-'] "invalid option"))
  | c :: cs =>
    match sig.flag ['-', c] with
    | none => ([], .error (parseError [c] "invalid option"))
    | some e =>
      if cs.isEmpty then option stop [c] e false eq ts
      else if eq.isNone && attaches e.kind then option stop [c] e true (some cs) ts
      else if switch e.kind then
        let r := cluster sig stop eq ts cs
        (.option e.id false .nothing :: r.1, r.2)
      else ([], .error (parseError [c] "only last option can be use a parameter"))

/-- An option token. -/
def token (sig : Sig) (stop : Str → Bool) (tok : Str) (ts : List Str) : List Event × Out :=
  let name := (split tok).1
  let eq := (split tok).2
  if long tok then
    match sig.flag name with
    | some e => option stop (name.drop 2) e false eq ts
    | none => ([], .error (parseError (name.drop 2) "invalid option"))
  else
    match (if sig.alternative then sig.flag ('-' :: name) else none) with
    | some e => option stop (name.drop 1) e false eq ts
    | none => cluster sig stop eq ts (name.drop 1)

/-- A word: the event, the positional arguments still to be filled and the tokens left; or the error. -/
def word (stop : Str → Bool) (strict : Bool) (queue : List Place) (tok : Str) (ts : List Str) :
    Except Exn (Event × List Place × List Str) :=
  match queue with
  | p :: q =>
    match takes stop p.arity p.kind (tok :: ts) with
    | some (vals, rest) => .ok (.positional p.id vals, q, rest)
    | none => .error (parseError p.name "bad number of argument")
  | [] => if strict then .error (parseError tok "invalid additional argument") else .ok (.extra tok, [], ts)

/-- The tokens after `--`. The first parameter bounds the number of steps. -/
def words (strict : Bool) : Nat → List Place → List Str → List Event × Option Exn
  | 0, _, _ => ([], none)
  | _ + 1, _, [] => ([], none)
  | n + 1, q, t :: ts =>
    match word (fun _ => false) strict q t ts with
    | .ok (ev, q, rest) =>
      let r := words strict n q rest
      (ev :: r.1, r.2)
    | .error e => ([], some e)

/-- The tokens before `--`, with the positional arguments left to fill. -/
def tokens (sig : Sig) : Nat → List Place → List Str → List Event × List Place × Option Exn
  | 0, q, _ => ([], q, none)
  | _ + 1, q, [] => ([], q, none)
  | n + 1, q, t :: ts =>
    if short t || long t then
      match token sig (optionForm sig) t ts with
      | (evs, .rest rest) =>
        let r := tokens sig n q rest
        (evs ++ r.1, r.2)
      | (evs, .error e) => (evs, q, some e)
    else
      match word (optionForm sig) sig.strict q t ts with
      | .ok (ev, q, rest) =>
        let r := tokens sig n q rest
        (ev :: r.1, r.2)
      | .error e => ([], q, some e)

/-- What a command line (without the program name) says: the events, and the error if there is one. -/
def line (sig : Sig) (queue : List Place) (ts : List Str) : List Event × Option Exn :=
  let ts1 := ts.takeWhile fun t => t != ['-', '-']
  let steps := ts.length + queue.length + 1
  match tokens sig steps queue ts1 with
  | (evs, _, some e) => (evs, some e)
  | (evs, q, none) =>
    match ts.dropWhile fun t => t != ['-', '-'] with
    | [] => (evs, none)
    | _ :: ts2 =>
      let r := words sig.strict steps q ts2
      (evs ++ r.1, r.2)

end BletArgs.Spec.Reader
