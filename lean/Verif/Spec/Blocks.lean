import Verif.Spec.Position
/-
Specification: command lines written use by use. A block is one option with all its values; such blocks and
words can be put in another order.
-/
namespace BletArgs.Spec

/-- The tokens `ts` are one use of the option `e`, with the values `vals`. The last index says that the use is
a list of values that goes on until an option or the end of the command line. -/
inductive UseBlock (sig : Sig) (e : Entry) : List Str → Bool → Values → Bool → Prop
  | switch {tok : Str} : Writes sig e tok none → Valueless e.kind → UseBlock sig e [tok] false .nothing false
  | equals {tok v : Str} {vals : Values} : Writes sig e tok (some v) → TakesOne e.kind v vals →
      UseBlock sig e [tok] false vals false
  | attached {c : Char} {v : Str} {vals : Values} : c ≠ '-' → v ≠ [] → '=' ∉ c :: v →
      ¬(sig.alternative = true ∧ (sig.flag ('-' :: '-' :: c :: v)).isSome) → sig.flag ['-', c] = some e →
      TakesOne e.kind v vals → UseBlock sig e ['-' :: c :: v] true vals false
  | one {tok v : Str} : Writes sig e tok none → e.kind = .simple → ¬EndTok v → UseBlock sig e [tok, v] false (.single v) false
  | oneMore {tok v : Str} : Writes sig e tok none → e.kind = .multi → ¬EndTok v → UseBlock sig e [tok, v] false (.list [v]) false
  | fixed {tok : Str} {vs : List Str} : Writes sig e tok none → e.kind = .number → vs.length = e.arity →
      (∀ v ∈ vs, ¬EndTok v) → UseBlock sig e (tok :: vs) false (.list vs) false
  | fixedMore {tok : Str} {vs : List Str} : Writes sig e tok none → e.kind = .multiNumber → vs.length = e.arity →
      (∀ v ∈ vs, ¬EndTok v) → UseBlock sig e (tok :: vs) false (.groups [vs]) false
  | many {tok : Str} {vs : List Str} : Writes sig e tok none → e.kind = .infinite ∨ e.kind = .multiInfinite →
      (∀ v ∈ vs, ¬OptionForm sig v ∧ ¬EndTok v) → UseBlock sig e (tok :: vs) false (.list vs) true
  | manyGroups {tok : Str} {gs : List (List Str)} : Writes sig e tok none → e.kind = .multiNumberInfinite →
      Groups (OptionForm sig) e.arity gs → (∀ v ∈ gs.flatten, ¬EndTok v) →
      UseBlock sig e (tok :: gs.flatten) false (.groups gs) true

/-- A use of the option `id`, written with these tokens, or a word. -/
inductive Item where
  | use (id : Nat) (tokens : List Str)
  | word (w : Str)
  deriving DecidableEq

/-- The tokens of an item. -/
def Item.tokens : Item → List Str
  | .use _ ts => ts
  | .word w => [w]

/-- The item is what it says. -/
def Item.Valid (sig : Sig) : Item → Prop
  | .use id ts => ∃ e att vals list, e.id = id ∧ UseBlock sig e ts att vals list
  | .word w => WordTok w

/-- Items in a row: each is what it says, and no word comes right after a list of values (the list would take it). -/
inductive Items (sig : Sig) : List Item → Prop
  | nil : Items sig []
  | last {i : Item} : i.Valid sig → Items sig [i]
  | cons {i j : Item} {is : List Item} : i.Valid sig → Items sig (j :: is) →
      (∀ id ts w, i = .use id ts → j = .word w → ∀ e att vals, ¬UseBlock sig e ts att vals true) → Items sig (i :: j :: is)

/-- The words, in order. -/
def wordsOf (is : List Item) : List Str :=
  is.filterMap fun
    | .word w => some w
    | _ => none

/-- The uses of option `id`, in order. -/
def blocksOf (id : Nat) (is : List Item) : List (List Str) :=
  is.filterMap fun
    | .use i ts => if i = id then some ts else none
    | _ => none

/-- The same words in the same order, and the same uses of each option in the same order. -/
def Reordered (is js : List Item) : Prop := wordsOf is = wordsOf js ∧ ∀ id, blocksOf id is = blocksOf id js

end BletArgs.Spec
