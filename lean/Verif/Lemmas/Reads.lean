import Verif.Lemmas.Scan
import Verif.Lemmas.ParseFrame
import Verif.Props.Tokens
/-
One option of the command line: the parser against the grammar.
-/
namespace BletArgs
open Spec
variable {D : Type}

/-- The value written in the same token. -/
def eqOf (hasArg : Bool) (arg : Str) : Option Str := if hasArg then some arg else none

theorem splits_takeArg (tok : Str) :
    Splits tok (takeArg tok).1 (eqOf (takeArg tok).2.2 (takeArg tok).2.1) := by
  cases h : (takeArg tok).2.2 with
  | true =>
    have : takeArg tok = ((takeArg tok).1, (takeArg tok).2.1, true) := by rw [← h]
    exact .eq _ _ ((C02_takeArg_split _ _ _).1 this)
  | false =>
    have : takeArg tok = ((takeArg tok).1, (takeArg tok).2.1, false) := by rw [← h]
    obtain ⟨h1, h2, h3⟩ := (C02_takeArg_whole _ _ _).1 this
    rw [h2]
    exact .bare h1

theorem splits_unique {tok n₁ n₂ : Str} {e₁ e₂ : Option Str} (h₁ : Splits tok n₁ e₁) (h₂ : Splits tok n₂ e₂) :
    n₁ = n₂ ∧ e₁ = e₂ := by
  cases h₁ with
  | eq _ _ h =>
    cases h₂ with
    | eq _ _ h' =>
      have a := (C02_takeArg_split _ _ _).2 h
      have b := (C02_takeArg_split _ _ _).2 h'
      rw [a] at b
      cases b
      exact ⟨rfl, rfl⟩
    | bare h' => exact absurd (by rw [h.1]; simp) h'
  | bare h =>
    cases h₂ with
    | eq _ _ h' => exact absurd (by rw [h'.1]; simp) h
    | bare _ => exact ⟨rfl, rfl⟩

theorem takesAttached_iff (k : Ty) : k.takesAttached = true ↔ Attaches k := by
  cases k <;> simp [Ty.takesAttached, Attaches]

theorem isBoolean_iff (k : Ty) : k.isBoolean = true ↔ Switch k := by
  cases k <;> simp [Ty.isBoolean, Switch]

namespace Argument

/-- The values of one occurrence stored in the argument (before the occurrence is counted). -/
def take (vals : Values) (a : Argument D) : Argument D :=
  match vals with
  | .nothing => a
  | .single v => { a with argument := v }
  | .list vs =>
    match a.type with
    | .multi | .multiInfinite => a.clearIfFirst.push (vs.map valElem)
    | _ => { a with elems := vs.map valElem }
  | .groups gs => a.clearIfFirst.push (gs.map valGroup)

/-- One occurrence of an option. The attached form counts it twice. -/
def occur (attached : Bool) (vals : Values) (a : Argument D) : Argument D :=
  ((if attached then a.mark else a).take vals).mark

/-- A positional argument receives its values. -/
def fill (vals : Values) (a : Argument D) : Argument D :=
  match vals with
  | .nothing => { a with isExist := true }
  | .single v => { a with argument := v, isExist := true }
  | .list vs => { a.push (vs.map valElem) with isExist := true }
  | .groups gs => { a.push (gs.map valGroup) with isExist := true }

end Argument

theorem clear_push (a : Argument D) (es : List (Elem D)) :
    ({ a with elems := [] } : Argument D).push es = { a with elems := es } := by
  unfold Argument.push; simp

/-- What `parseArgument_` does, in terms of the grammar. -/
theorem parseArgument_reads {stop : Str → Bool} {argv : List Str} {max index : Nat} (hm : max ≤ argv.length)
    (hi : index < max) {a : Argument D} (hw : max + a.nargs < two64) (hp : a.isPositional = false)
    (hg : a.type = .multiNumberInfinite → 0 < a.nargs) (hasArg : Bool) (option arg : Str) (id : Nat) (att : Bool) :
    (∃ vals j, index < j ∧ j ≤ max ∧
      OptionReads (fun t => stop t = true) option ⟨id, a.type, a.nargs⟩ att (eqOf hasArg arg)
        (seg argv (index + 1) max) [.option id att vals] (.rest (seg argv j max)) ∧
      a.parseArgument stop argv max index hasArg option arg = ((a.take vals).mark, .ok j)) ∨
    (∃ e, OptionReads (fun t => stop t = true) option ⟨id, a.type, a.nargs⟩ att (eqOf hasArg arg)
        (seg argv (index + 1) max) [] (.error e) ∧
      (a.parseArgument stop argv max index hasArg option arg).2 = .throw e) := by
  obtain ⟨a0, a1, a2, a3, a4, type, a6, a7, a8, nargs, a10, a11, a12, a13, a14, a15, a16⟩ := a
  dsimp only at hw hg ⊢
  cases hasArg with
  | true =>
    unfold Argument.parseArgument eqOf
    simp only [if_true]
    cases type <;> simp only
    case simple =>
      left
      refine ⟨.single arg, index + 1, by omega, by omega, ?_, rfl⟩
      exact .value (e := ⟨id, _, _⟩) _ (.simple arg)
    case infinite =>
      left
      refine ⟨.list [arg], index + 1, by omega, by omega, .value (e := ⟨id, _, _⟩) _ (.list arg (by simp)), ?_⟩
      rfl
    case multi =>
      left
      refine ⟨.list [arg], index + 1, by omega, by omega, .value (e := ⟨id, _, _⟩) _ (.list arg (by simp)), ?_⟩
      rfl
    case multiInfinite =>
      left
      refine ⟨.list [arg], index + 1, by omega, by omega, .value (e := ⟨id, _, _⟩) _ (.list arg (by simp)), ?_⟩
      rfl
    case number => exact .inr ⟨_, .valueForSeveral (e := ⟨id, _, _⟩) _ _ (by simp [Several]), rfl⟩
    case multiNumber => exact .inr ⟨_, .valueForSeveral (e := ⟨id, _, _⟩) _ _ (by simp [Several]), rfl⟩
    case multiNumberInfinite => exact .inr ⟨_, .valueForSeveral (e := ⟨id, _, _⟩) _ _ (by simp [Several]), rfl⟩
    case none => exact .inr ⟨_, .valueForNone (e := ⟨id, _, _⟩) _ _ (by simp [Valueless]), rfl⟩
    case help => exact .inr ⟨_, .valueForNone (e := ⟨id, _, _⟩) _ _ (by simp [Valueless]), rfl⟩
    case version => exact .inr ⟨_, .valueForNone (e := ⟨id, _, _⟩) _ _ (by simp [Valueless]), rfl⟩
    case boolean => exact .inr ⟨_, .valueForNone (e := ⟨id, _, _⟩) _ _ (by simp [Valueless]), rfl⟩
    case reverse => exact .inr ⟨_, .valueForNone (e := ⟨id, _, _⟩) _ _ (by simp [Valueless]), rfl⟩
    all_goals (simp [Argument.isPositional, Ty.isPositional] at hp)
  | false =>
    unfold Argument.parseArgument eqOf
    simp only [Bool.false_eq_true, if_false]
    have hmod : (index + nargs) % two64 = index + nargs := Nat.mod_eq_of_lt (by omega)
    have hseglen : (seg argv (index + 1) max).length = max - (index + 1) := seg_length hm
    have unitCase : Valueless type →
        (∃ vals j, index < j ∧ j ≤ max ∧
          OptionReads (fun t => stop t = true) option ⟨id, type, nargs⟩ att none
            (seg argv (index + 1) max) [.option id att vals] (.rest (seg argv j max)) ∧
          ∀ a : Argument D, (a.mark, Res.ok (index + 1)) = ((a.take vals).mark, .ok j)) := by
      intro hv
      exact ⟨.nothing, index + 1, by omega, by omega, .following (e := ⟨id, _, _⟩) (.nothing _ hv), fun _ => rfl⟩
    have oneCase : index + 1 < max → ∃ v, argv[index + 1]? = some v ∧
        seg argv (index + 1) max = v :: seg argv (index + 1 + 1) max := fun h => seg_cons h hm
    have rangeCase : ¬ index + nargs ≥ max →
        readRange argv (index + 1) (index + nargs - index) = some ((seg argv (index + 1) max).take nargs) ∧
        ((seg argv (index + 1) max).take nargs).length = nargs ∧
        seg argv (index + 1) max = (seg argv (index + 1) max).take nargs ++ seg argv (index + nargs + 1) max := by
      intro h
      have e : index + nargs - index = nargs := by omega
      rw [e, readRange_eq hm nargs (index + 1) (by omega)]
      refine ⟨rfl, by rw [List.length_take, hseglen]; omega, ?_⟩
      have := seg_append argv (index + 1) nargs max
      rw [show index + 1 + nargs = index + nargs + 1 by omega] at this
      exact this.symm
    obtain ⟨vs, hv1, hv2, hv3, hv4⟩ := scanInfinite_longest hm stop (i := index + 1) (by omega)
    have hidx : index + 1 + vs.length = index + vs.length + 1 := by omega
    rw [hidx] at hv2 hv3 hv4
    cases type <;> simp only
    case simple =>
      by_cases h : index + 1 ≥ max
      · right
        rw [if_pos h]
        refine ⟨_, .missing (e := ⟨id, _, _⟩) ?_, rfl⟩
        rw [seg_nil h]
        exact .one (by simp)
      · left
        rw [if_neg h]
        obtain ⟨v, h1, h2⟩ := oneCase (by omega)
        rw [h1]
        refine ⟨.single v, index + 1 + 1, by omega, by omega, .following (e := ⟨id, _, _⟩) ?_, rfl⟩
        rw [h2]
        exact .one v _ (by simp)
    case number =>
      rw [hmod]
      by_cases h : index + nargs ≥ max
      · right
        rw [if_pos h]
        refine ⟨_, .missing (e := ⟨id, _, _⟩) (.fixed _ (by simp) ?_), rfl⟩
        rw [hseglen]; show max - (index + 1) < nargs; omega
      · left
        rw [if_neg h]
        obtain ⟨h1, h2, h3⟩ := rangeCase h
        rw [h1]
        refine ⟨.list ((seg argv (index + 1) max).take nargs), index + nargs + 1, by omega, by omega,
          .following (e := ⟨id, _, _⟩) ?_, ?_⟩
        · have t := Takes.fixed (stop := fun t => stop t = true) (k := .number)
            ((seg argv (index + 1) max).take nargs) (seg argv (index + nargs + 1) max) (by simp) h2
          rw [← h3] at t
          exact t
        · simp only
          rfl
    case infinite =>
      left
      rw [hv1]
      refine ⟨.list vs, index + vs.length + 1, by omega, hv4, .following (e := ⟨id, _, _⟩) ?_, ?_⟩
      · have t := Takes.many (stop := fun t => stop t = true) (arity := nargs) (k := .infinite) vs _ (by simp) hv3
        rw [← hv2] at t
        exact t
      · simp only
        rfl
    case multi =>
      by_cases h : index + 1 ≥ max
      · right
        rw [if_pos h]
        refine ⟨_, .missing (e := ⟨id, _, _⟩) ?_, rfl⟩
        rw [seg_nil h]
        exact .one (by simp)
      · left
        rw [if_neg h]
        obtain ⟨v, h1, h2⟩ := oneCase (by omega)
        rw [h1]
        refine ⟨.list [v], index + 1 + 1, by omega, by omega, .following (e := ⟨id, _, _⟩) ?_, ?_⟩
        · rw [h2]
          exact .oneMore v _
        · rfl
    case multiInfinite =>
      left
      rw [hv1]
      refine ⟨.list vs, index + vs.length + 1, by omega, hv4, .following (e := ⟨id, _, _⟩) ?_, ?_⟩
      · have t := Takes.many (stop := fun t => stop t = true) (arity := nargs) (k := .multiInfinite) vs _ (by simp) hv3
        rw [← hv2] at t
        exact t
      · rfl
    case multiNumber =>
      have hn : ∀ b : Argument D, b.clearIfFirst.nargs = b.nargs := by
        intro b; unfold Argument.clearIfFirst; split <;> rfl
      rw [hn]
      dsimp only
      rw [hmod]
      by_cases h : index + nargs ≥ max
      · right
        rw [if_pos h]
        refine ⟨_, .missing (e := ⟨id, _, _⟩) (.fixed _ (by simp) ?_), rfl⟩
        rw [hseglen]; show max - (index + 1) < nargs; omega
      · left
        rw [if_neg h]
        obtain ⟨h1, h2, h3⟩ := rangeCase h
        rw [h1]
        refine ⟨.groups [(seg argv (index + 1) max).take nargs], index + nargs + 1, by omega, by omega,
          .following (e := ⟨id, _, _⟩) ?_, ?_⟩
        · have t := Takes.fixedMore (stop := fun t => stop t = true) (arity := nargs)
            ((seg argv (index + 1) max).take nargs) (seg argv (index + nargs + 1) max) h2
          rw [← h3] at t
          exact t
        · rfl
    case multiNumberInfinite =>
      have hn : ∀ b : Argument D, b.clearIfFirst.nargs = b.nargs := by
        intro b; unfold Argument.clearIfFirst; split <;> rfl
      rw [hn]
      dsimp only
      obtain ⟨gs, g1, g2, g3, ⟨e, g4⟩ | ⟨e, t, ts, g4, g5, g6⟩⟩ :=
        scanGroups_eq (argv := argv) hm stop (hg rfl) hw (max + 1) (index + 1) (by omega) (by omega)
      · left
        rw [e]
        have hidx : index + 1 + groupsCount gs = index + groupsCount gs + 1 := by omega
        rw [hidx] at g2 g3 g4
        refine ⟨.groups gs, index + groupsCount gs + 1, by omega, by omega, .following (e := ⟨id, _, _⟩) ?_, rfl⟩
        have t := Takes.manyGroups (stop := fun t => stop t = true) (k := .multiNumberInfinite) gs
          (seg argv (index + groupsCount gs + 1) max) (by simp) g1 g4
        rw [← g2] at t
        exact t
      · right
        rw [e]
        refine ⟨_, .missing (e := ⟨id, _, _⟩) ?_, rfl⟩
        rw [g2, g4]
        exact .group gs t ts (by simp) g1 g5 g6
    case none => obtain ⟨v, j, h1, h2, h3, h4⟩ := unitCase (by simp [Valueless]); exact .inl ⟨v, j, h1, h2, h3, h4 _⟩
    case help => obtain ⟨v, j, h1, h2, h3, h4⟩ := unitCase (by simp [Valueless]); exact .inl ⟨v, j, h1, h2, h3, h4 _⟩
    case version => obtain ⟨v, j, h1, h2, h3, h4⟩ := unitCase (by simp [Valueless]); exact .inl ⟨v, j, h1, h2, h3, h4 _⟩
    case boolean => obtain ⟨v, j, h1, h2, h3, h4⟩ := unitCase (by simp [Valueless]); exact .inl ⟨v, j, h1, h2, h3, h4 _⟩
    case reverse => obtain ⟨v, j, h1, h2, h3, h4⟩ := unitCase (by simp [Valueless]); exact .inl ⟨v, j, h1, h2, h3, h4 _⟩
    all_goals (simp [Argument.isPositional, Ty.isPositional] at hp)

end BletArgs
