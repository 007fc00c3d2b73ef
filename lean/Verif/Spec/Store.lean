import Verif.Model.Conv
/-
Specification of the conversions to numbers.
-/
namespace BletArgs
variable {D : Type}

/-- The text `s`, read as a number and truncated towards zero, is the integer `n` of the type with bounds `lo` and
`hi`. -/
def Denotes (F : Doubles D) (lo hi : Int) (s : Str) (n : Int) : Prop :=
  F.trunc (F.strtod s) = some n ∧ lo ≤ n ∧ n ≤ hi

/-- The texts are, one by one, those integers. -/
inductive DenoteAll (F : Doubles D) (lo hi : Int) : List Str → List Int → Prop
  | nil : DenoteAll F lo hi [] []
  | cons {s : Str} {n : Int} {ss : List Str} {ns : List Int} : Denotes F lo hi s n → DenoteAll F lo hi ss ns →
      DenoteAll F lo hi (s :: ss) (n :: ns)

/-- The same, group by group. -/
inductive DenoteGroups (F : Doubles D) (lo hi : Int) : List (List Str) → List (List Int) → Prop
  | nil : DenoteGroups F lo hi [] []
  | cons {g : List Str} {n : List Int} {gs : List (List Str)} {ns : List (List Int)} : DenoteAll F lo hi g n →
      DenoteGroups F lo hi gs ns → DenoteGroups F lo hi (g :: gs) (n :: ns)

end BletArgs
