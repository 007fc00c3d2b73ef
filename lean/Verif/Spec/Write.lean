import Verif.Spec.Position
import Verif.Spec.Outcome
/-
Specification: how to write a command line that says given things.
-/
namespace BletArgs.Spec

/-- The values that one use of the option `e` can be given. A single value is any text at all. Values that must
stand in tokens of their own cannot be `--`, and a list without fixed length cannot hold an option (unless it has one
element only, which can be written after `=`). -/
inductive Sayable (sig : Sig) (e : Entry) : Values → Prop
  | nothing : Valueless e.kind → Sayable sig e .nothing
  | single (v : Str) : e.kind = .simple → Sayable sig e (.single v)
  | one (v : Str) : e.kind = .multi ∨ e.kind = .infinite ∨ e.kind = .multiInfinite → Sayable sig e (.list [v])
  | fixed {vs : List Str} : e.kind = .number → vs.length = e.arity → (∀ v ∈ vs, ¬EndTok v) → Sayable sig e (.list vs)
  | many {vs : List Str} : e.kind = .infinite ∨ e.kind = .multiInfinite → (∀ v ∈ vs, ¬EndTok v ∧ ¬OptionForm sig v) →
      Sayable sig e (.list vs)
  | group {g : List Str} : e.kind = .multiNumber → g.length = e.arity → (∀ v ∈ g, ¬EndTok v) →
      Sayable sig e (.groups [g])
  | groups {gs : List (List Str)} : e.kind = .multiNumberInfinite →
      (∀ g ∈ gs, g.length = e.arity ∧ (∀ v ∈ g, ¬EndTok v) ∧ ∀ v, g.head? = some v → ¬OptionForm sig v) →
      Sayable sig e (.groups gs)

/-- One thing to say: the option `option`, by its flag `flag`, with the values `vals`. -/
structure Use where
  option : Entry
  flag : Str
  vals : Values

/-- How it is written: `flag=value` for one value, otherwise the flag and the values after it. -/
def Use.tokens (u : Use) : List Str :=
  match u.vals with
  | .nothing => [u.flag]
  | .single v => [u.flag ++ '=' :: v]
  | .list [v] => if u.option.kind = .number then [u.flag, v] else [u.flag ++ '=' :: v]
  | .list vs => u.flag :: vs
  | .groups gs => u.flag :: gs.flatten

/-- What it says. -/
def Use.event (u : Use) : Event := .option u.option.id false u.vals

/-- The flag writes the option, and the values can be given to it. -/
def Use.Ok (sig : Sig) (u : Use) : Prop := Writes sig u.option u.flag none ∧ Sayable sig u.option u.vals

/-- `fs` are values for the first places of `q`, and `ws` surplus words. Only the last values can be those of a list
without fixed length, and then there is no surplus word; there are surplus words only when all the places are filled and
they are allowed. -/
inductive Filled (strict : Bool) : List Place → List Values → List Str → Prop
  | stop (q : List Place) : Filled strict q [] []
  | surplus (ws : List Str) : strict = false → Filled strict [] [] ws
  | next {p : Place} {q : List Place} {vals : Values} {fs : List Values} {ws : List Str} :
      p.kind = .pos ∨ p.kind = .numberPos → ValuesFit p.arity p.kind vals → Filled strict q fs ws →
      Filled strict (p :: q) (vals :: fs) ws
  | last {p : Place} {q : List Place} {vals : Values} : p.kind = .infinitePos ∨ p.kind = .infiniteNumberPos →
      ValuesFit p.arity p.kind vals → vals.flat ≠ [] → Filled strict (p :: q) [vals] []

/-- The whole command line, without the program name: the uses, `--`, the values of the places and the surplus
words. -/
def written (us : List Use) (fs : List Values) (ws : List Str) : List Str :=
  us.flatMap Use.tokens ++ ['-', '-'] :: (fs.flatMap Values.flat ++ ws)

/-- What it says. -/
def said (q : List Place) (us : List Use) (fs : List Values) (ws : List Str) : List Event :=
  us.map Use.event ++ (List.zipWith (fun p vals => .positional p.id vals) q fs ++ ws.map .extra)

end BletArgs.Spec
