import Verif.Spec.Usage
/-
Specification of texts that fit on a screen.
-/
namespace BletArgs.Spec
variable {D : Type}

/-- No line of `text` has more than `width` characters: a part of `text` without line break has at most `width`. -/
def Narrow (width : Nat) (text : Str) : Prop := ∀ l : Str, l <:+: text → '\n' ∉ l → l.length ≤ width

/-- No word of `text` has more than `width` characters: a part of `text` without space nor line break has at most
`width`. -/
def ShortWords (width : Nat) (text : Str) : Prop :=
  ∀ w : Str, w <:+: text → ' ' ∉ w → '\n' ∉ w → w.length ≤ width

/-- Nothing overflows: the total width and the lengths of the usage line and of the labels are numbers of 64 bits. -/
structure WordSized (st : State D) (base : Str) : Prop where
  width : totalWidth st < 2 ^ 64
  line : ("usage: ".toList ++ base).length + ((usageItems st).map fun i => i.length + 1).sum + 3 < 2 ^ 64
  labels : ∀ s ∈ st.arguments, (label s.arg).length + st.sepWidth < 2 ^ 64

end BletArgs.Spec
