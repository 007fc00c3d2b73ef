import Verif.Props.Edits
import Verif.Props.Order
/-
Lemmas for C88: the required mark of an option takes no part in reading a command line.
-/
namespace BletArgs
open Spec
variable {D : Type}

/-- The argument with its required mark set to `b`. -/
def Argument.needing (b : Bool) (a : Argument D) : Argument D := { a with isRequired := b }

namespace Argument

theorem needing_take (b : Bool) (vals : Values) (a : Argument D) : (a.needing b).take vals = (a.take vals).needing b := by
  obtain ⟨tx, df, nm, es, ns, ty, ex, rq, ct, na, hp, mv, va, vd, ac, ds, de⟩ := a
  cases vals <;> cases ty <;> cases ex <;> rfl

theorem needing_see (b : Bool) (id : Nat) (a : Argument D) (ev : Event) : (a.needing b).see id ev = (a.see id ev).needing b := by
  cases ev with
  | option i att vals =>
    unfold Argument.see
    simp only
    split
    · unfold Argument.occur
      cases att with
      | true =>
        simp only [if_true]
        rw [show (a.needing b).mark = a.mark.needing b from rfl, needing_take]
        rfl
      | false =>
        simp only [Bool.false_eq_true, if_false]
        rw [needing_take]
        rfl
    · rfl
  | positional i vals =>
    unfold Argument.see
    simp only
    split
    · cases vals <;> rfl
    · rfl
  | extra w => rfl

theorem needing_afterTokens (b : Bool) (n : Nat) (evs : List Event) (a : Argument D) :
    (a.needing b).afterTokens n evs = (a.afterTokens n evs).needing b := by
  unfold Argument.afterTokens
  rw [show (a.needing b).reset = a.reset.needing b from rfl]
  generalize a.reset = c
  induction evs generalizing c with
  | nil => rfl
  | cons ev evs ih => rw [List.foldl_cons, List.foldl_cons, needing_see, ih]

theorem needing_toNumber (b : Bool) (scan : Str → Option D) (a : Argument D) :
    (a.needing b).toNumber scan = (a.toNumber scan).needing b := by
  unfold Argument.toNumber
  simp only [show (a.needing b).type = a.type from rfl, show (a.needing b).elems = a.elems from rfl]
  generalize (a.type == Ty.boolean || a.type == Ty.reverse) = c0
  generalize a.elems.isEmpty = c1
  cases c0 <;> cases c1 <;> rfl

theorem needing_runValid (b : Bool) (a : Argument D) : (a.needing b).runValid = (a.runValid.1.needing b, a.runValid.2) := by
  unfold Argument.runValid
  simp only [show (a.needing b).type = a.type from rfl, show (a.needing b).valid = a.valid from rfl,
    show (a.needing b).isExist = a.isExist from rfl, show (a.needing b).toVector = a.toVector from rfl]
  cases a.valid with
  | none => rfl
  | some v =>
    simp only
    cases a.isExist with
    | false => rfl
    | true =>
      simp only [if_true]
      cases v.check (a.toVector.getD []) with
      | accept args =>
        simp only
        cases a.type <;> first | rfl | (cases args <;> rfl)
      | _ => rfl

theorem needing_finish (b : Bool) (scan : Str → Option D) (a : Argument D) :
    (a.needing b).finish scan = ((a.finish scan).1.needing b, (a.finish scan).2) := by
  unfold Argument.finish
  rw [needing_runValid]
  generalize a.runValid = x
  obtain ⟨c, r⟩ := x
  cases r with
  | ok u =>
    simp only
    rw [needing_toNumber]
    rfl
  | _ => rfl

end Argument

/-- What sorting leaves of the positional arguments is their sorted list. -/
theorem sort_positionals_of {m l' : List (Slot D)} (hs : SortedBy slotLt m)
    (he : (l'.filter fun s => s.arg.isPositional) = m) :
    ((stableSort slotLt l').filter fun s => s.arg.isPositional) = m := by
  refine sorted_unique slotLt_strictWeak _ _ (List.Pairwise.filter _ (stableSort_sorted slotLt_strictWeak l'))
    hs fun x => ?_
  rw [← he, List.filter_filter, List.filter_filter]
  refine stableSort_filter slotLt_strictWeak _ ?_ l'
  intro a b ha hb
  simp only [equivTo, Bool.and_eq_true, Bool.not_eq_true'] at ha hb
  cases hc : slotLt a b
  · rfl
  · rcases slotLt_strictWeak.negTrans a x b hc with h1 | h1
    · rw [ha.1.2] at h1; cases h1
    · rw [hb.1.1] at h1; cases h1

/-- Sorting again after a change to options leaves the positional arguments where they were. -/
theorem sort_positionals {l l' : List (Slot D)} (hs : SortedBy slotLt l)
    (he : (l'.filter fun s => s.arg.isPositional) = l.filter fun s => s.arg.isPositional) :
    ((stableSort slotLt l').filter fun s => s.arg.isPositional) = l.filter fun s => s.arg.isPositional := by
  refine sorted_unique slotLt_strictWeak _ _ (List.Pairwise.filter _ (stableSort_sorted slotLt_strictWeak l'))
    (List.Pairwise.filter _ hs) fun x => ?_
  rw [← he, List.filter_filter, List.filter_filter]
  refine stableSort_filter slotLt_strictWeak _ ?_ l'
  intro a b ha hb
  simp only [equivTo, Bool.and_eq_true, Bool.not_eq_true'] at ha hb
  cases hc : slotLt a b
  · rfl
  · rcases slotLt_strictWeak.negTrans a x b hc with h1 | h1
    · rw [ha.1.2] at h1; cases h1
    · rw [hb.1.1] at h1; cases h1

/-- The same parser but for the required mark of the option in list element `n`, and its place in the listing. -/
def marking (n : Nat) (b : Bool) (t : Slot D) : Slot D := if t.node == n then { t with arg := t.arg.needing b } else t

theorem required_eq {scan : Str → Option D} {st : State D} {full : Prop} (hi : GInv full st) {ref : Nat} {s : Slot D} (h : st.atObj ref = some s)
    (b : Bool) :
    step scan st (.required ref b) =
      ({ st with arguments := stableSort slotLt (st.arguments.map (marking s.node b)) }, .ok ()) :=
  (required_ok hi h b).1

/-- When a call returns, exactly. -/
theorem parse_ok_iff {scan : Str → Option D} {st : State D} {argv : List Str} (h : Ready scan st argv)
    {evs : List Event} (hl : Line st.sig st.places (argv.drop 1) evs none) :
    (st.parseArguments scan argv).2 = .ok () ↔
      Silent st evs ∧ NoneMissing st evs ∧ ∀ s ∈ st.arguments, ((s.arg.afterTokens s.node evs).finish scan).2.2 = .ok () := by
  have hi := h.inv
  constructor
  · intro hok
    have hm : NoneMissing st evs := fun s hs hr => C33_required h hl hok hs hr
    refine ⟨?_, hm, (parse_result h hl hok).1⟩
    rw [parse_seen h hl] at hok
    obtain ⟨h1, h2, _⟩ := afterLoop_ok hok
    have off : ∀ o, (st.seen argv evs).optionSeen (some o) = some false → ∃ t ∈ st.arguments, t.obj = o ∧ ¬Occurs t.node evs := by
      intro o ho
      cases ha : (st.seen argv evs).atObj o with
      | none => unfold State.optionSeen at ho; simp only [ha] at ho; cases ho
      | some x =>
        obtain ⟨hx, rfl⟩ := State.atObj_some ha
        obtain ⟨t, ht, rfl⟩ := List.mem_map.1 hx
        refine ⟨t, ht, rfl, fun hoc => ?_⟩
        rw [seen_optionSeen hi argv evs ht, (occurs_iff hi ht hl).2 hoc] at ho
        cases ho
    constructor
    · cases hh : st.helpOption with
      | none => exact absurd hh h.help
      | some o =>
        rw [show (st.seen argv evs).helpOption = some o from hh] at h1
        obtain ⟨t, ht, e, hno⟩ := off o h1
        exact ⟨t, ht, by rw [e], hno⟩
    · intro o ho
      rw [show (st.seen argv evs).versionOption = some o from ho] at h2
      exact off o h2
  · rintro ⟨hq, hm, hf⟩
    rw [hm.finish h hl hq]
    refine finishAll_all fun x hx => ?_
    obtain ⟨t, ht, rfl⟩ := List.mem_map.1 hx
    exact hf t ht

end BletArgs
