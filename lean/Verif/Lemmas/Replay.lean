import Verif.Spec.Replay
import Verif.Props.Write
import Verif.Props.Lax
import Verif.Lemmas.Given
import Verif.Lemmas.Required
/-
Lemmas for C96: an argument that gets again the values it holds.
-/
namespace BletArgs
open Spec
variable {D : Type}

/-! ### The counter takes no part in the last loop -/

/-- The argument with another counter. -/
def Argument.recount (n : Nat) (a : Argument D) : Argument D := { a with count := n }

namespace Argument

theorem recount_toNumber (b : Nat) (scan : Str → Option D) (a : Argument D) :
    (a.recount b).toNumber scan = (a.toNumber scan).recount b := by
  unfold Argument.toNumber
  simp only [show (a.recount b).type = a.type from rfl, show (a.recount b).elems = a.elems from rfl]
  generalize (a.type == Ty.boolean || a.type == Ty.reverse) = c0
  generalize a.elems.isEmpty = c1
  cases c0 <;> cases c1 <;> rfl

theorem recount_runValid (b : Nat) (a : Argument D) : (a.recount b).runValid = (a.runValid.1.recount b, a.runValid.2) := by
  unfold Argument.runValid
  simp only [show (a.recount b).type = a.type from rfl, show (a.recount b).valid = a.valid from rfl,
    show (a.recount b).isExist = a.isExist from rfl, show (a.recount b).toVector = a.toVector from rfl]
  cases a.valid with
  | none => rfl
  | some v =>
    simp only
    cases a.isExist with
    | false => rfl
    | true =>
      simp only [if_true]
      cases v.check (a.toVector.getD []) with
      | accept args =>
        simp only
        cases a.type <;> first | rfl | (cases args <;> rfl)
      | _ => rfl

theorem recount_finish (b : Nat) (scan : Str → Option D) (a : Argument D) :
    (a.recount b).finish scan = ((a.finish scan).1.recount b, (a.finish scan).2) := by
  unfold Argument.finish
  rw [recount_runValid]
  generalize a.runValid = x
  obtain ⟨c, r⟩ := x
  cases r with
  | ok u =>
    simp only
    rw [recount_toNumber]
    rfl
  | _ => rfl

end Argument

/-! ### What the uses leave alone -/

theorem take_fields (vals : Values) (a : Argument D) :
    a.take vals = { a with argument := (a.take vals).argument, elems := (a.take vals).elems } := by
  obtain ⟨tx, df, nm, es, ns, ty, ex, rq, ct, na, hp, mv, va, vd, ac, ds, de⟩ := a
  cases vals <;> cases ty <;> cases ex <;> rfl

theorem occurs_fields (a : Argument D) (us : List (Bool × Values)) :
    a.occurs us = { a with
      argument := (a.occurs us).argument, elems := (a.occurs us).elems, isExist := (a.occurs us).isExist
      count := (a.occurs us).count } := by
  induction us using list_snoc_induction with
  | hn => rfl
  | hs us u ih =>
    obtain ⟨att, vals⟩ := u
    rw [occurs_concat]
    generalize a.occurs us = b at ih
    have h1 : b.occur att vals = { b with
        argument := (b.occur att vals).argument, elems := (b.occur att vals).elems
        isExist := (b.occur att vals).isExist, count := (b.occur att vals).count } := by
      unfold Argument.occur
      cases att with
      | true => simp only [if_true]; rw [take_fields]; rfl
      | false => simp only [Bool.false_eq_true, if_false]; rw [take_fields]; rfl
    rw [h1]
    rw [ih]

/-- Two sets of uses that leave the same text and elements. -/
theorem occurs_same {a : Argument D} {us us' : List (Bool × Values)} (hne : us ≠ []) (hne' : us' ≠ [])
    (h1 : (a.occurs us').argument = (a.occurs us).argument) (h2 : (a.occurs us').elems = (a.occurs us).elems) :
    a.occurs us' = (a.occurs us).recount (a.occurs us').count := by
  have h3 : (a.occurs us').isExist = (a.occurs us).isExist := by
    rw [(occurs_marks a us).1, (occurs_marks a us').1]
    cases us <;> cases us' <;> simp_all
  unfold Argument.recount
  rw [occurs_fields a us', h1, h2, h3]
  conv => rhs; rw [occurs_fields a us]

theorem occurs_text {a : Argument D} {us : List (Bool × Values)} (h : ∀ u ∈ us, ∀ v, u.2 ≠ .single v) :
    (a.occurs us).argument = a.argument := by
  induction us using list_snoc_induction with
  | hn => rfl
  | hs us u ih =>
    obtain ⟨att, vals⟩ := u
    rw [occurs_concat, (occur_take att vals _).1, ← ih fun u hu => h u (by simp [hu])]
    have hv := h (att, vals) (by simp)
    generalize a.occurs us = b
    have : ∀ c : Argument D, c.argument = b.argument → (c.take vals).argument = b.argument := by
      intro c hc
      rw [← hc]
      obtain ⟨tx, df, nm, es, ns, ty, ex, rq, ct, na, hp, mv, va, vd, ac, ds, de⟩ := c
      cases vals with
      | single v => exact absurd rfl (hv v)
      | _ => cases ty <;> cases ex <;> rfl
    exact this _ (by cases att <;> rfl)

theorem occurs_elems {a : Argument D} {us : List (Bool × Values)} (h : ∀ u ∈ us, u.2 = .nothing ∨ ∃ v, u.2 = .single v) :
    (a.occurs us).elems = a.elems := by
  induction us using list_snoc_induction with
  | hn => rfl
  | hs us u ih =>
    obtain ⟨att, vals⟩ := u
    rw [occurs_concat, (occur_take att vals _).2, ← ih fun u hu => h u (by simp [hu])]
    have hv := h (att, vals) (by simp)
    rcases hv with rfl | ⟨v, rfl⟩ <;> cases att <;> rfl

/-! ### The kinds of values -/

theorem fit_nothing {n : Nat} {k : Ty} {vals : Values} (hf : ValuesFit n k vals) (hk : Valueless k) : vals = .nothing := by
  cases hf with
  | nothing => rfl
  | _ => exfalso; grind [Valueless]

theorem fit_one_text {n : Nat} {k : Ty} {vals : Values} (hf : ValuesFit n k vals) (hk : k = .simple ∨ k = .pos) : ∃ v, vals = .single v := by
  cases hf with
  | single v => exact ⟨v, rfl⟩
  | _ => exfalso; grind [Valueless]

theorem fit_list {n : Nat} {k : Ty} {vals : Values} (hf : ValuesFit n k vals)
    (hk : k = .number ∨ k = .infinite ∨ k = .multi ∨ k = .multiInfinite ∨ k = .numberPos ∨ k = .infinitePos) : ∃ vs, vals = .list vs := by
  cases hf with
  | one v => exact ⟨_, rfl⟩
  | fixed vs => exact ⟨_, rfl⟩
  | many vs => exact ⟨_, rfl⟩
  | _ => exfalso; grind [Valueless]

theorem fit_groups {n : Nat} {k : Ty} {vals : Values} (hf : ValuesFit n k vals)
    (hk : k = .multiNumber ∨ k = .multiNumberInfinite ∨ k = .infiniteNumberPos) : ∃ gs, vals = .groups gs := by
  cases hf with
  | group g => exact ⟨_, rfl⟩
  | groups gs => exact ⟨_, rfl⟩
  | _ => exfalso; grind [Valueless]

/-! ### An option gets again what it holds -/

/-- The uses, not attached. -/
def plainly (vs : List Values) : List (Bool × Values) := vs.map fun v => (false, v)

theorem acc_lists {k : Ty} {n : Nat} (hk : k = .multi ∨ k = .multiInfinite) {us : List (Bool × Values)}
    (hf : ∀ u ∈ us, ValuesFit n k u.2) :
    (us.flatMap fun u => newElems (D := D) u.2) = (us.flatMap fun u => u.2.flat).map valElem := by
  induction us with
  | nil => rfl
  | cons u us ih =>
    rw [List.flatMap_cons, List.flatMap_cons, List.map_append, ih fun v hv => hf v (List.mem_cons_of_mem _ hv)]
    obtain ⟨vs, e⟩ := fit_list (hf u List.mem_cons_self) (by rcases hk with h | h <;> simp [h])
    rw [e]
    rfl

theorem acc_groups {k : Ty} {n : Nat} (hk : k = .multiNumber ∨ k = .multiNumberInfinite) {us : List (Bool × Values)}
    (hf : ∀ u ∈ us, ValuesFit n k u.2) :
    (us.flatMap fun u => newElems (D := D) u.2) = (us.flatMap fun u => u.2.groupList).map valGroup := by
  induction us with
  | nil => rfl
  | cons u us ih =>
    rw [List.flatMap_cons, List.flatMap_cons, List.map_append, ih fun v hv => hf v (List.mem_cons_of_mem _ hv)]
    obtain ⟨vs, e⟩ := fit_groups (hf u List.mem_cons_self) (by rcases hk with h | h <;> simp [h])
    rw [e]
    rfl

theorem plain_lists (vs : List Str) :
    ((plainly (vs.map fun v => Values.list [v])).flatMap fun u => newElems (D := D) u.2) = vs.map valElem := by
  induction vs with
  | nil => rfl
  | cons v vs ih => exact congrArg (valElem v :: ·) ih

theorem plain_groups (gs : List (List Str)) :
    ((plainly (gs.map fun g => Values.groups [g])).flatMap fun u => newElems (D := D) u.2) = gs.map valGroup := by
  induction gs with
  | nil => rfl
  | cons v vs ih => exact congrArg (valGroup v :: ·) ih

theorem text_elems (vs : List Str) : (vs.map (valElem (D := D))).map (·.argument) = vs := by
  simp [valElem, Function.comp_def]

theorem text_groups (gs : List (List Str)) : (gs.map (valGroup (D := D))).map (fun e => e.subs.map (·.argument)) = gs := by
  simp [valGroup, Function.comp_def]

theorem snoc_of_ne {α : Type} {l : List α} (h : l ≠ []) : ∃ i x, l = i ++ [x] :=
  ⟨l.dropLast, l.getLast h, (List.dropLast_concat_getLast h).symm⟩

/-- No part of the old content is kept. -/
def NothingKept (c : Argument D) (us : List (Bool × Values)) : Prop :=
  ∀ u, us.head? = some u → u.1 = true → c.type = .multi ∨ c.type = .multiInfinite → c.elems = []

/-- The elements of an accumulating option. -/
theorem acc_elems {c : Argument D} (he : c.isExist = false) {us : List (Bool × Values)} (hne : us ≠ []) (hk : Accumulates c.type)
    (hf : ∀ u ∈ us, ValuesFit c.nargs c.type u.2 ∧
      (u.1 = true → c.type = .simple ∨ c.type = .infinite ∨ c.type = .multi ∨ c.type = .multiInfinite)) (hold : NothingKept c us) :
    (c.occurs us).elems = us.flatMap fun u => newElems u.2 := by
  cases us with
  | nil => exact absurd rfl hne
  | cons u us =>
    rw [occurs_accumulates hk he fun v hv => (hf v hv).1]
    cases hu : u.1 with
    | false => simp
    | true =>
      have h1 := (hf u List.mem_cons_self).2 hu
      have : c.elems = [] := by
        refine hold u rfl hu ?_
        rcases hk with h | h | h | h <;> simp_all
      simp [this]

theorem again_option {c : Argument D} (he : c.isExist = false) {us : List (Bool × Values)} (hne : us ≠ [])
    (hp : c.isPositional = false)
    (hf : ∀ u ∈ us, ValuesFit c.nargs c.type u.2 ∧
      (u.1 = true → c.type = .simple ∨ c.type = .infinite ∨ c.type = .multi ∨ c.type = .multiInfinite))
    (hold : NothingKept c us) :
    ∃ n, c.occurs (plainly (usesFor c.type ((c.occurs us).toVector.getD []) ((c.occurs us).toVecVec.getD []))) =
      (c.occurs us).recount n := by
  have hty := occurs_type c us
  have fits := fun u hu => (hf u hu).1
  have valueless : Valueless c.type → ∃ n, c.occurs (plainly [.nothing]) = (c.occurs us).recount n := by
    intro hk
    have hn : ∀ u ∈ us, u.2 = .nothing := fun u hu => fit_nothing (fits u hu) hk
    refine ⟨_, occurs_same hne (by simp [plainly]) ?_ ?_⟩
    · rw [occurs_text (by simp [plainly]), occurs_text (fun u hu v => by rw [hn u hu]; simp)]
    · rw [occurs_elems (by simp [plainly]), occurs_elems fun u hu => .inl (hn u hu)]
  have lists : c.type = .multi ∨ c.type = .multiInfinite → (us.flatMap (fun u => u.2.flat) = [] → c.type = .multiInfinite) →
      ∃ n, c.occurs (plainly (if us.flatMap (fun u => u.2.flat) = [] then [.list []] else (us.flatMap fun u => u.2.flat).map fun v => .list [v])) =
        (c.occurs us).recount n := by
    intro hk hempty
    have hacc : Accumulates c.type := by rcases hk with h | h <;> simp [Accumulates, h]
    have e1 := acc_elems he hne hacc hf hold
    rw [acc_lists hk fits] at e1
    generalize us.flatMap (fun u => u.2.flat) = vs at e1 hempty
    have htext : (c.occurs us).argument = c.argument := occurs_text fun u hu v => by
      obtain ⟨vs, e⟩ := fit_list (fits u hu) (by rcases hk with h | h <;> simp [h])
      rw [e]; simp
    refine ⟨_, occurs_same hne ?_ ?_ ?_⟩
    · split <;> simp_all [plainly]
    · rw [htext, occurs_text]
      intro u hu v
      split at hu
      · rw [List.mem_singleton.1 hu]; simp
      · simp only [plainly, List.map_map, List.mem_map] at hu
        obtain ⟨w, _, rfl⟩ := hu
        simp
    · rw [e1]
      have hnk : ∀ l, NothingKept c (plainly l) := by
        intro l u hu h1
        cases l with
        | nil => cases hu
        | cons x l => cases hu; cases h1
      by_cases hv : vs = []
      · rw [if_pos hv, acc_elems he (by simp [plainly]) hacc _ (hnk _), hv]
        · rfl
        · intro u hu
          rw [List.mem_singleton.1 hu]
          exact ⟨.many _ (.inr (.inl (hempty hv))), by simp⟩
      · rw [if_neg hv, acc_elems he (by simp [plainly, hv]) hacc _ (hnk _), plain_lists]
        intro u hu
        simp only [plainly, List.map_map, List.mem_map] at hu
        obtain ⟨w, _, rfl⟩ := hu
        refine ⟨?_, by simp⟩
        rcases hk with h | h <;> rw [h]
        · exact .one w
        · exact .many _ (by simp)
  have groups : c.type = .multiNumber ∨ c.type = .multiNumberInfinite → (us.flatMap (fun u => u.2.groupList) = [] → c.type = .multiNumberInfinite) →
      ∃ n, c.occurs (plainly (if us.flatMap (fun u => u.2.groupList) = [] then [.groups []] else (us.flatMap fun u => u.2.groupList).map fun v => .groups [v])) =
        (c.occurs us).recount n := by
    intro hk hempty
    have hacc : Accumulates c.type := by rcases hk with h | h <;> simp [Accumulates, h]
    have e1 := acc_elems he hne hacc hf hold
    rw [acc_groups hk fits] at e1
    have hsize : ∀ g ∈ us.flatMap (fun u => u.2.groupList), g.length = c.nargs := by
      intro g hg
      obtain ⟨u, hu, hg⟩ := List.mem_flatMap.1 hg
      have h1 := fits u hu
      generalize u.2 = vals at h1 hg
      generalize c.type = k at h1
      cases h1 with
      | group g' h => rw [List.mem_singleton.1 hg]; exact h
      | groups gs _ h => exact h g hg
      | _ => simp [Values.groupList] at hg
    generalize us.flatMap (fun u => u.2.groupList) = vs at e1 hempty hsize
    have htext : (c.occurs us).argument = c.argument := occurs_text fun u hu v => by
      obtain ⟨vs, e⟩ := fit_groups (fits u hu) (by rcases hk with h | h <;> simp [h])
      rw [e]; simp
    refine ⟨_, occurs_same hne ?_ ?_ ?_⟩
    · split <;> simp_all [plainly]
    · rw [htext, occurs_text]
      intro u hu v
      split at hu
      · rw [List.mem_singleton.1 hu]; simp
      · simp only [plainly, List.map_map, List.mem_map] at hu
        obtain ⟨w, _, rfl⟩ := hu
        simp
    · rw [e1]
      have hnk : ∀ l, NothingKept c (plainly l) := by
        intro l u hu h1
        cases l with
        | nil => cases hu
        | cons x l => cases hu; cases h1
      by_cases hv : vs = []
      · rw [if_pos hv, acc_elems he (by simp [plainly]) hacc _ (hnk _), hv]
        · rfl
        · intro u hu
          rw [List.mem_singleton.1 hu]
          exact ⟨.groups _ (.inl (hempty hv)) (by simp), by simp⟩
      · rw [if_neg hv, acc_elems he (by simp [plainly, hv]) hacc _ (hnk _), plain_groups]
        intro u hu
        simp only [plainly, List.map_map, List.mem_map] at hu
        obtain ⟨w, hw, rfl⟩ := hu
        refine ⟨?_, by simp⟩
        rcases hk with h | h <;> rw [h]
        · exact .group w (hsize w hw)
        · exact .groups _ (by simp) (by simpa using hsize w hw)
  have last : c.type = .number ∨ c.type = .infinite → ∃ vs, (c.occurs us).elems = vs.map valElem ∧
      ∃ n, c.occurs (plainly [.list vs]) = (c.occurs us).recount n := by
    intro hk
    obtain ⟨i, ⟨att, vals⟩, rfl⟩ := snoc_of_ne hne
    obtain ⟨vs, rfl, e1⟩ := occurs_list (us := i) (att := att) hk (fits (att, vals) (by simp))
    refine ⟨vs, e1, _, occurs_same hne (by simp [plainly]) ?_ ?_⟩
    · rw [occurs_text (by simp [plainly]), occurs_text]
      intro u hu v
      obtain ⟨vs, e⟩ := fit_list (fits u hu) (by rcases hk with h | h <;> simp [h])
      rw [e]; simp
    · rw [e1]
      obtain ⟨vs', h1, h2⟩ := occurs_list (a := c) (us := []) (att := false) hk (fits (att, .list vs) (by simp))
      cases h1
      exact h2
  unfold Argument.toVector Argument.toVecVec
  rw [hty]
  have hacc := fun h => acc_elems (D := D) he hne h hf hold
  cases hk : c.type with
  | none => exact valueless (by simp [Valueless, hk])
  | help => exact valueless (by simp [Valueless, hk])
  | version => exact valueless (by simp [Valueless, hk])
  | boolean => exact valueless (by simp [Valueless, hk])
  | reverse => exact valueless (by simp [Valueless, hk])
  | simple =>
    refine ⟨_, occurs_same hne (by simp [plainly, usesFor]) ?_ ?_⟩
    · obtain ⟨i, ⟨att, vals⟩, rfl⟩ := snoc_of_ne hne
      obtain ⟨v, rfl, e1⟩ := occurs_simple (us := i) (att := att) hk (fits (att, vals) (by simp))
      simp only [usesFor, Option.getD_some, List.map_cons, List.map_nil]
      rw [e1]
      rfl
    · rw [occurs_elems, occurs_elems]
      · intro u hu; exact .inr (fit_one_text (fits u hu) (.inl hk))
      · simp [plainly, usesFor]
  | number =>
    obtain ⟨vs, e1, e2⟩ := last (.inl hk)
    simp only [usesFor, Option.getD_some, e1, text_elems]
    exact e2
  | infinite =>
    obtain ⟨vs, e1, e2⟩ := last (.inr hk)
    simp only [usesFor, Option.getD_some, e1, text_elems]
    exact e2
  | multi =>
    simp only [usesFor, Option.getD_some]
    rw [hacc (by simp [Accumulates, hk]), acc_lists (.inl rfl) (hk ▸ fits), text_elems]
    refine lists (.inl hk) fun h0 => ?_
    exfalso
    obtain ⟨u, l, rfl⟩ : ∃ u l, us = u :: l := by cases us with | nil => exact absurd rfl hne | cons u l => exact ⟨u, l, rfl⟩
    have h1 := hk ▸ fits u List.mem_cons_self
    rw [List.flatMap_cons] at h0
    have h0 := (List.append_eq_nil_iff.1 h0).1
    generalize u.2 = vals at h0 h1
    cases h1 with
    | one v => simp [Values.flat] at h0
    | _ => grind [Valueless]
  | multiInfinite =>
    simp only [usesFor, Option.getD_some]
    rw [hacc (by simp [Accumulates, hk]), acc_lists (.inr rfl) (hk ▸ fits), text_elems]
    exact lists (.inr hk) fun _ => hk
  | multiNumber =>
    simp only [usesFor, Option.getD_some]
    rw [hacc (by simp [Accumulates, hk]), acc_groups (.inl rfl) (hk ▸ fits), text_groups]
    refine groups (.inl hk) fun h0 => ?_
    exfalso
    obtain ⟨u, l, rfl⟩ : ∃ u l, us = u :: l := by cases us with | nil => exact absurd rfl hne | cons u l => exact ⟨u, l, rfl⟩
    have h1 := hk ▸ fits u List.mem_cons_self
    rw [List.flatMap_cons] at h0
    have h0 := (List.append_eq_nil_iff.1 h0).1
    generalize u.2 = vals at h0 h1
    cases h1 with
    | group g => simp [Values.groupList] at h0
    | _ => grind [Valueless]
  | multiNumberInfinite =>
    simp only [usesFor, Option.getD_some]
    rw [hacc (by simp [Accumulates, hk]), acc_groups (.inr rfl) (hk ▸ fits), text_groups]
    exact groups (.inr hk) fun _ => hk
  | pos => rw [Argument.isPositional, hk] at hp; cases hp
  | numberPos => rw [Argument.isPositional, hk] at hp; cases hp
  | infinitePos => rw [Argument.isPositional, hk] at hp; cases hp
  | infiniteNumberPos => rw [Argument.isPositional, hk] at hp; cases hp

/-- The values found in the option can be given to it. -/
theorem again_sayable {sig : Sig} {e : Entry} {c : Argument D} (hek : e.kind = c.type) (he : c.isExist = false)
    {us : List (Bool × Values)} (hne : us ≠ [])
    (hf : ∀ u ∈ us, ValuesFit c.nargs c.type u.2 ∧
      (u.1 = true → c.type = .simple ∨ c.type = .infinite ∨ c.type = .multi ∨ c.type = .multiInfinite))
    (hold : NothingKept c us) (hs : ∀ u ∈ us, Sayable sig e u.2) :
    ∀ vals ∈ usesFor c.type ((c.occurs us).toVector.getD []) ((c.occurs us).toVecVec.getD []), Sayable sig e vals := by
  have hty := occurs_type c us
  have fits := fun u hu => (hf u hu).1
  have hacc := fun h => acc_elems (D := D) he hne h hf hold
  have last : c.type = .number ∨ c.type = .infinite → ∃ vs, (c.occurs us).elems = vs.map valElem ∧ Sayable sig e (.list vs) := by
    intro hk
    obtain ⟨i, ⟨att, vals⟩, rfl⟩ := snoc_of_ne hne
    obtain ⟨vs, rfl, e1⟩ := occurs_list (us := i) (att := att) hk (fits (att, vals) (by simp))
    exact ⟨vs, e1, hs (att, .list vs) (by simp)⟩
  have group : e.kind = .multiNumber → ∀ g ∈ us.flatMap (fun u => u.2.groupList), Sayable sig e (.groups [g]) := by
    intro hk g hg
    obtain ⟨u, hu, hg⟩ := List.mem_flatMap.1 hg
    have h1 := hs u hu
    generalize u.2 = vals at h1 hg
    cases h1 with
    | group h h2 h3 => rw [List.mem_singleton.1 hg]; exact .group h h2 h3
    | groups h => rw [h] at hk; cases hk
    | _ => simp [Values.groupList] at hg
  have group' : e.kind = .multiNumberInfinite → ∀ g ∈ us.flatMap (fun u => u.2.groupList), Sayable sig e (.groups [g]) := by
    intro hk g hg
    obtain ⟨u, hu, hg⟩ := List.mem_flatMap.1 hg
    have h1 := hs u hu
    generalize u.2 = vals at h1 hg
    cases h1 with
    | group h => rw [h] at hk; cases hk
    | groups h h2 => exact .groups h fun g' hg' => by rw [List.mem_singleton.1 hg']; exact h2 g hg
    | _ => simp [Values.groupList] at hg
  unfold Argument.toVector Argument.toVecVec
  rw [hty]
  intro vals hv
  cases hk : c.type with
  | none | help | version | boolean | reverse =>
    rw [hk] at hv
    rw [List.mem_singleton.1 hv]
    exact .nothing (by rw [hek, hk]; simp [Valueless])
  | simple =>
    rw [hk] at hv
    obtain ⟨v, _, rfl⟩ := List.mem_map.1 hv
    exact .single v (hek.trans hk)
  | number =>
    obtain ⟨vs, e1, e2⟩ := last (.inl hk)
    rw [hk] at hv
    simp only [usesFor, Option.getD_some, e1, text_elems] at hv
    rw [List.mem_singleton.1 hv]
    exact e2
  | infinite =>
    obtain ⟨vs, e1, e2⟩ := last (.inr hk)
    rw [hk] at hv
    simp only [usesFor, Option.getD_some, e1, text_elems] at hv
    rw [List.mem_singleton.1 hv]
    exact e2
  | multi =>
    rw [hk] at hv
    simp only [usesFor, Option.getD_some] at hv
    have hm : c.occurs us |>.elems.map (·.argument) |>.length |> (· ≠ 0) := by
      rw [hacc (by simp [Accumulates, hk]), acc_lists (.inl rfl) (hk ▸ fits), text_elems]
      obtain ⟨u, l, rfl⟩ : ∃ u l, us = u :: l := by cases us with | nil => exact absurd rfl hne | cons u l => exact ⟨u, l, rfl⟩
      have h1 := hk ▸ fits u List.mem_cons_self
      rw [List.flatMap_cons]
      generalize u.2 = vals at h1
      cases h1 with
      | one v => simp [Values.flat]
      | _ => grind [Valueless]
    rw [if_neg (by intro h; rw [h] at hm; exact hm rfl)] at hv
    obtain ⟨v, _, rfl⟩ := List.mem_map.1 hv
    exact .one v (.inl (hek.trans hk))
  | multiInfinite =>
    rw [hk] at hv
    simp only [usesFor, Option.getD_some] at hv
    split at hv
    · rw [List.mem_singleton.1 hv]
      exact .many (.inr (hek.trans hk)) (by simp)
    · obtain ⟨v, _, rfl⟩ := List.mem_map.1 hv
      exact .one v (.inr (.inr (hek.trans hk)))
  | multiNumber =>
    rw [hk] at hv
    simp only [usesFor, Option.getD_some] at hv
    rw [hacc (by simp [Accumulates, hk]), acc_groups (.inl rfl) (hk ▸ fits), text_groups] at hv
    have hm : us.flatMap (fun u => u.2.groupList) ≠ [] := by
      obtain ⟨u, l, rfl⟩ : ∃ u l, us = u :: l := by cases us with | nil => exact absurd rfl hne | cons u l => exact ⟨u, l, rfl⟩
      have h1 := hk ▸ fits u List.mem_cons_self
      rw [List.flatMap_cons]
      generalize u.2 = vals at h1
      cases h1 with
      | group v => simp [Values.groupList]
      | _ => grind [Valueless]
    rw [if_neg hm] at hv
    obtain ⟨g, hg, rfl⟩ := List.mem_map.1 hv
    exact group (hek.trans hk) g hg
  | multiNumberInfinite =>
    rw [hk] at hv
    simp only [usesFor, Option.getD_some] at hv
    rw [hacc (by simp [Accumulates, hk]), acc_groups (.inr rfl) (hk ▸ fits), text_groups] at hv
    split at hv
    · rw [List.mem_singleton.1 hv]
      exact .groups (hek.trans hk) (by simp)
    · obtain ⟨g, hg, rfl⟩ := List.mem_map.1 hv
      exact group' (hek.trans hk) g hg
  | pos | numberPos | infinitePos | infiniteNumberPos => rw [hk] at hv; cases hv

/-! ### After the last loop -/

theorem finished_checks {scan : Str → Option D} {a : Argument D} (hc : ∀ v, a.valid = some v → ChecksOnly v)
    (hok : (a.finish scan).2.2 = .ok ()) : a.finished scan = a.toNumber scan := by
  unfold Argument.finished
  unfold Argument.finish at hok ⊢
  rcases runValid_checks hc with h | ⟨v, e, _, _, h, _⟩
  · rw [h]
  · rw [h] at hok; cases hok

theorem toNumber_text (scan : Str → Option D) (a : Argument D) : (a.toNumber scan).argument = a.argument := by
  unfold Argument.toNumber
  split
  · rfl
  · split <;> rfl

/-- A positional argument shows what it received. -/
theorem received_fill {scan : Str → Option D} {c : Argument D} {vals : Values} (hp : c.isPositional = true)
    (hf : ValuesFit c.nargs c.type vals) :
    ((c.fill vals).toNumber scan).received c.elems.length = vals := by
  have hn := toNumber_vectors scan (c.fill vals)
  have ht := toNumber_text scan (c.fill vals)
  have hty : ((c.fill vals).toNumber scan).type = c.type := by
    have := (congrArg (fun x : Argument D => x.type) (Argument.toNumber_config scan (c.fill vals)) :)
    rw [show ((c.fill vals).toNumber scan).type = (c.fill vals).type from this]
    cases vals <;> rfl
  unfold Argument.received
  rw [hty, hn.1, hn.2, ht]
  have hp' : c.type.isPositional = true := hp
  have hty' : (c.fill vals).type = c.type := by cases vals <;> rfl
  unfold Argument.toVector Argument.toVecVec
  rw [hty']
  cases hk : c.type with
  | pos =>
    obtain ⟨v, rfl⟩ := fit_one_text hf (.inr hk)
    rfl
  | numberPos =>
    obtain ⟨vs, rfl⟩ := fit_list hf (by simp [hk])
    simp [Argument.fill, Argument.push, valElem, Function.comp_def]
  | infinitePos =>
    obtain ⟨vs, rfl⟩ := fit_list hf (by simp [hk])
    simp [Argument.fill, Argument.push, valElem, Function.comp_def]
  | infiniteNumberPos =>
    obtain ⟨vs, rfl⟩ := fit_groups hf (by simp [hk])
    simp [Argument.fill, Argument.push, valGroup, Function.comp_def]
  | _ => rw [hk] at hp'; cases hp'

/-! ### The positional arguments of a command line -/

/-- The events fill the places in order, and surplus words come when all are filled. -/
inductive PlacesRead (strict : Bool) : List Place → List Event → Prop
  | nil (q : List Place) : PlacesRead strict q []
  | option {q : List Place} {evs : List Event} (i : Nat) (att : Bool) (vals : Values) : PlacesRead strict q evs →
      PlacesRead strict q (.option i att vals :: evs)
  | fill {p : Place} {q : List Place} {evs : List Event} {vals : Values} : ValuesFit p.arity p.kind vals →
      (p.kind = .infinitePos ∨ p.kind = .infiniteNumberPos → vals.flat ≠ []) → PlacesRead strict q evs →
      PlacesRead strict (p :: q) (.positional p.id vals :: evs)
  | extra {evs : List Event} (w : Str) : strict = false → PlacesRead strict [] evs → PlacesRead strict [] (.extra w :: evs)

theorem PlacesRead.options {strict : Bool} {q : List Place} {evs evs' : List Event} (h : PlacesRead strict q evs')
    (ho : ∀ ev ∈ evs, ∃ i a v, ev = .option i a v) : PlacesRead strict q (evs ++ evs') := by
  induction evs with
  | nil => exact h
  | cons ev evs ih =>
    obtain ⟨i, a, v, rfl⟩ := ho ev List.mem_cons_self
    exact .option i a v (ih fun e he => ho e (List.mem_cons_of_mem _ he))

theorem takes_flat {stop : Str → Prop} {n : Nat} {k : Ty} {tok : Str} {ts rest : List Str} {vals : Values} (hn : ¬stop tok)
    (ha : k = .infiniteNumberPos → 0 < n) (h : Takes stop n k (tok :: ts) vals rest)
    (hk : k = .infinitePos ∨ k = .infiniteNumberPos) : vals.flat ≠ [] := by
  generalize hl : tok :: ts = l at h
  cases h with
  | nothing _ h => rcases hk with rfl | rfl <;> simp [Valueless] at h
  | one v ts h => rcases hk with rfl | rfl <;> simp at h
  | oneMore v => simp at hk
  | fixed vs ts h => rcases hk with rfl | rfl <;> simp at h
  | fixedMore => simp at hk
  | many vs ts h hlong =>
    cases vs with
    | nil => rw [List.nil_append] at hl; subst hl; exact absurd (hlong.2 tok rfl) hn
    | cons v vs => simp [Values.flat]
  | manyGroups gs ts h hg hlong =>
    cases gs with
    | nil => rw [List.flatten_nil, List.nil_append] at hl; subst hl; exact absurd (hlong tok rfl) hn
    | cons g gs =>
      rcases h with rfl | rfl
      · simp at hk
      · have h1 := (hg g List.mem_cons_self).1
        have h2 := ha rfl
        intro h0
        simp only [Values.flat, List.flatten_cons, List.append_eq_nil_iff] at h0
        rw [h0.1, List.length_nil] at h1
        omega

/-- Grouped places have groups of at least one. -/
def PlacesGrouped (q : List Place) : Prop := ∀ p ∈ q, p.kind = .infiniteNumberPos → 0 < p.arity

theorem wordReads_places {stop : Str → Prop} {strict : Bool} {q q1 : List Place} {tok : Str} {ts r1 : List Str} {e1 : Event} {evs : List Event}
    (hn : ¬stop tok) (hq : PlacesGrouped q) (h : WordReads stop strict q (tok :: ts) e1 q1 r1) (h' : PlacesRead strict q1 evs) :
    PlacesRead strict q (e1 :: evs) ∧ PlacesGrouped q1 := by
  generalize hl : tok :: ts = l at h
  cases h with
  | fill ht =>
    subst hl
    exact ⟨.fill (takes_fit ht) (takes_flat hn (hq _ List.mem_cons_self) ht) h', fun p hp => hq p (List.mem_cons_of_mem _ hp)⟩
  | surplus w ts hs => exact ⟨.extra w hs h', hq⟩

theorem wordReads_grouped {stop : Str → Prop} {strict : Bool} {q q1 : List Place} {ts r1 : List Str} {e1 : Event}
    (hq : PlacesGrouped q) (h : WordReads stop strict q ts e1 q1 r1) : PlacesGrouped q1 := by
  cases h with
  | fill ht => exact fun p hp => hq p (List.mem_cons_of_mem _ hp)
  | surplus w ts hs => exact hq

theorem optionForm_not_word {sig : Sig} {tok : Str} (h : WordTok tok) : ¬OptionForm sig tok := by
  have hx := C01_token_classes tok
  intro ho
  cases ho with
  | long h1 => exact hx.2.2.2.2.2.2.2.2.1 ⟨h1, h⟩
  | alternative h1 => exact hx.2.2.2.2.2.2.1 ⟨h1, h⟩
  | cluster h1 => exact hx.2.2.2.2.2.2.1 ⟨h1, h⟩

theorem reads_places {sig : Sig} {q q1 : List Place} {ts : List Str} {evs evs' : List Event}
    (h : Reads sig q ts evs q1 none) (hq : PlacesGrouped q) (h' : PlacesRead sig.strict q1 evs') :
    PlacesRead sig.strict q (evs ++ evs') ∧ PlacesGrouped q1 := by
  generalize he : (none : Option Exn) = err at h
  induction h with
  | nil => exact ⟨h', hq⟩
  | option ht _ ih =>
    obtain ⟨i1, i2⟩ := ih hq h' he
    rw [List.append_assoc]
    refine ⟨i1.options fun ev hev => ?_, i2⟩
    obtain ⟨_, e, a, v, _, h⟩ := tokenReads_events ht ev hev
    exact ⟨_, a, v, h⟩
  | badOption => cases he
  | word hw hr _ ih =>
    have hq' := wordReads_grouped hq hr
    obtain ⟨i1, i2⟩ := ih hq' h' he
    exact ⟨(wordReads_places (optionForm_not_word hw) hq hr i1).1, i2⟩
  | badWord => cases he

theorem readsWords_places {strict : Bool} {q q1 : List Place} {ts : List Str} {evs : List Event}
    (h : ReadsWords strict q ts evs q1 none) (hq : PlacesGrouped q) : PlacesRead strict q evs := by
  generalize he : (none : Option Exn) = err at h
  induction h with
  | nil => exact .nil _
  | word hr _ ih => exact (wordReads_places (fun h => h) hq hr (ih (wordReads_grouped hq hr) he)).1
  | badWord => cases he

theorem grouped_after {sig : Sig} {q q1 : List Place} {ts : List Str} {evs : List Event}
    (h : Reads sig q ts evs q1 none) (hq : PlacesGrouped q) : PlacesGrouped q1 := (reads_places h hq (.nil _)).2

theorem line_places {sig : Sig} {q : List Place} {ts : List Str} {evs : List Event} (h : Line sig q ts evs none) (hq : PlacesGrouped q) :
    PlacesRead sig.strict q evs := by
  cases h with
  | whole _ h =>
    have := (reads_places h hq (.nil _)).1
    rwa [List.append_nil] at this
  | split _ h h' => exact (reads_places h hq (readsWords_places h' (grouped_after h hq))).1

/-- The places that are filled are the first ones, in order. -/
theorem PlacesRead.zip {strict : Bool} {q : List Place} {evs : List Event} (h : PlacesRead strict q evs) :
    ∃ fs : List Values, fs.length ≤ q.length ∧
      (∀ id, fills id evs = fills id (List.zipWith (fun p vals => Event.positional p.id vals) q fs)) ∧
      (extras evs ≠ [] → fs.length = q.length ∧ strict = false) ∧
      ∀ x ∈ List.zip q fs, ValuesFit x.1.arity x.1.kind x.2 ∧
        (x.1.kind = .infinitePos ∨ x.1.kind = .infiniteNumberPos → x.2.flat ≠ []) := by
  induction h with
  | nil q => exact ⟨[], by simp, by simp [fills], by simp [extras], by simp⟩
  | option i att vals _ ih =>
    obtain ⟨fs, h1, h2, h3, h4⟩ := ih
    exact ⟨fs, h1, h2, h3, h4⟩
  | @fill p q evs vals hf hn _ ih =>
    obtain ⟨fs, h1, h2, h3, h4⟩ := ih
    refine ⟨vals :: fs, by simpa using h1, ?_, ?_, ?_⟩
    · intro id
      have e : ∀ l : List Event, fills id (.positional p.id vals :: l) = (if p.id = id then [vals] else []) ++ fills id l := by
        intro l
        unfold fills
        rw [List.filterMap_cons]
        by_cases e : p.id = id <;> simp [e]
      rw [List.zipWith_cons_cons, e, e, h2]
    · intro he
      have := h3 he
      exact ⟨by simpa using this.1, this.2⟩
    · intro x hx
      rw [List.zip_cons_cons] at hx
      rcases List.mem_cons.1 hx with rfl | hx
      · exact ⟨hf, hn⟩
      · exact h4 x hx
  | extra w hs _ ih =>
    obtain ⟨fs, h1, h2, h3, h4⟩ := ih
    have : fs = [] := List.length_eq_zero_iff.1 (by simpa using h1)
    subst this
    exact ⟨[], by simp, h2, fun _ => ⟨rfl, hs⟩, by simp⟩

theorem fills_zip_other {id : Nat} (q : List Place) (fs : List Values) (h : ∀ p ∈ q, p.id ≠ id) :
    fills id (List.zipWith (fun p vals => Event.positional p.id vals) q fs) = [] := by
  induction q generalizing fs with
  | nil => rfl
  | cons p q ih =>
    cases fs with
    | nil => rfl
    | cons v fs =>
      rw [List.zipWith_cons_cons]
      unfold fills
      rw [List.filterMap_cons]
      simp only [h p List.mem_cons_self, if_false]
      exact ih fs fun p hp => h p (List.mem_cons_of_mem _ hp)

/-- What the places received, read off place by place. -/
theorem fills_zip {q : List Place} (hn : (q.map (·.id)).Nodup) {fs : List Values} (hl : fs.length ≤ q.length) :
    (q.filterMap fun p => (fills p.id (List.zipWith (fun p vals => Event.positional p.id vals) q fs)).head?) = fs := by
  induction q generalizing fs with
  | nil => cases fs with
    | nil => rfl
    | cons v fs => simp at hl
  | cons p q ih =>
    rw [List.map_cons, List.nodup_cons] at hn
    have hp : ∀ r ∈ q, r.id ≠ p.id := fun r hr e => hn.1 (e ▸ List.mem_map_of_mem hr)
    cases fs with
    | nil =>
      have : ∀ l : List Place, (l.filterMap fun p : Place => (fills p.id ([] : List Event)).head?) = [] := by
        intro l; induction l with | nil => rfl | cons a l ih => rw [List.filterMap_cons]; exact ih
      exact this _
    | cons v fs =>
      rw [List.zipWith_cons_cons, List.filterMap_cons]
      have e1 : fills p.id (.positional p.id v :: List.zipWith (fun p vals => Event.positional p.id vals) q fs) = [v] := by
        unfold fills
        rw [List.filterMap_cons]
        simp only [if_true]
        have := fills_zip_other q fs hp
        unfold fills at this
        rw [this]
      rw [e1]
      simp only [List.head?_cons, List.cons.injEq, true_and]
      have e2 : ∀ l : List Place, (∀ r ∈ l, r.id ≠ p.id) →
          (l.filterMap fun r => (fills r.id (.positional p.id v :: List.zipWith (fun p vals => Event.positional p.id vals) q fs)).head?) =
          l.filterMap fun r => (fills r.id (List.zipWith (fun p vals => Event.positional p.id vals) q fs)).head? := by
        intro l
        induction l with
        | nil => intro _; rfl
        | cons r l ih =>
          intro hr
          rw [List.filterMap_cons, List.filterMap_cons, ih fun r h => hr r (List.mem_cons_of_mem _ h)]
          have : fills r.id (.positional p.id v :: List.zipWith (fun p vals => Event.positional p.id vals) q fs) =
              fills r.id (List.zipWith (fun p vals => Event.positional p.id vals) q fs) := by
            unfold fills
            rw [List.filterMap_cons]
            simp only [(hr r List.mem_cons_self).symm, if_false]
          rw [this]
      rw [e2 q hp, ih hn.2 (by simpa using hl)]

/-- The places and what they received can be written behind `--`. -/
theorem filled_of {strict : Bool} {q : List Place} {fs : List Values} {ws : List Str} (hl : fs.length ≤ q.length)
    (hw : ws ≠ [] → fs.length = q.length ∧ strict = false)
    (hq : ∀ p ∈ q, p.kind = .pos ∨ p.kind = .numberPos ∨ p.kind = .infinitePos ∨ p.kind = .infiniteNumberPos)
    (hz : ∀ x ∈ List.zip q fs, ValuesFit x.1.arity x.1.kind x.2 ∧
        (x.1.kind = .infinitePos ∨ x.1.kind = .infiniteNumberPos → x.2.flat ≠ []))
    (hlast : ∀ q1 p q2, q = q1 ++ p :: q2 → p.kind = .infinitePos ∨ p.kind = .infiniteNumberPos → q1.length < fs.length →
      fs.length = q1.length + 1 ∧ ws = []) : Filled strict q fs ws := by
  induction q generalizing fs with
  | nil =>
    obtain rfl : fs = [] := List.length_eq_zero_iff.1 (by simpa using hl)
    by_cases h : ws = []
    · subst h; exact .stop _
    · exact .surplus ws (hw h).2
  | cons p q ih =>
    cases fs with
    | nil =>
      have : ws = [] := by
        by_cases h : ws = []
        · exact h
        · have := (hw h).1; simp at this
      subst this
      exact .stop _
    | cons v fs =>
      have hv := hz (p, v) (by simp)
      by_cases hk : p.kind = .infinitePos ∨ p.kind = .infiniteNumberPos
      · obtain ⟨h1, h2⟩ := hlast [] p q rfl hk (by simp)
        obtain rfl : fs = [] := List.length_eq_zero_iff.1 (by simpa using h1)
        subst h2
        exact .last hk hv.1 (hv.2 hk)
      · refine .next ?_ hv.1 (ih (by simpa using hl) (fun h => ⟨by simpa using (hw h).1, (hw h).2⟩)
          (fun p hp => hq p (List.mem_cons_of_mem _ hp)) (fun x hx => hz x (by simp [hx])) ?_)
        · rcases hq p List.mem_cons_self with h | h | h | h <;> simp_all
        · intro q1 p' q2 e hk' hlt
          have := hlast (p :: q1) p' q2 (by rw [e]; rfl) hk' (by simpa using hlt)
          simpa using this

end BletArgs
