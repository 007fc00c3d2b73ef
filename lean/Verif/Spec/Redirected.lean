import Verif.Spec.Within
/-
Specification: a destination given twice.
-/
namespace BletArgs.Spec
variable {D : Type}

/-- Where the first statement says `.….dest(d2)` the second says `.dest(d1).….dest(d2)`, with calls in between that are not
about the kind (no `action`, `nargs`, `defaults`, `dest`); the reference returned by the added call has the number `k`.
(References in use are alive, names of new arguments not yet in use.) -/
inductive RedirectedTwice (st : State D) (d1 d2 : Dest) : Nat → Chain → Chain → Prop where
  | new {names : List Str} (a m b : List Call) (h : ∀ n ∈ names, st.argumentExists n = false)
      (hm : ∀ c ∈ m, c.concern ≠ .kind) :
      RedirectedTwice st d1 d2 (st.nextObj + 1 + a.countP Call.isDest) (.new names (a ++ (m ++ .dest d2 :: b)))
        (.new names (a ++ .dest d1 :: (m ++ .dest d2 :: b)))
  | through {ref : Nat} {t : Slot D} (a m b : List Call) (h : st.atObj ref = some t)
      (hm : ∀ c ∈ m, c.concern ≠ .kind) :
      RedirectedTwice st d1 d2 (st.nextObj + a.countP Call.isDest) (.through ref (a ++ (m ++ .dest d2 :: b)))
        (.through ref (a ++ .dest d1 :: (m ++ .dest d2 :: b)))

/-- All references but `k`, in their order. -/
def skipping (k x : Nat) : Nat := if x < k then x else x + 1

end BletArgs.Spec
