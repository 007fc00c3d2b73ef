import Verif.Props.Registry2
/-
C11: the order in which arguments are listed.
-/
namespace BletArgs
open Spec
variable {D : Type}

/-- C11, comparator: `compareOption_` is exactly the documented order. -/
theorem C11_comparator (a b : Argument D) : a.compareOption b = true ↔ ListedBefore a b := compareOption_iff a b

/-- C11: the documented order is a strict weak order (what `std::list::sort` requires): irreflexive,
transitive, and "neither before the other" is transitive. -/
theorem C11_strict_weak :
    (∀ a : Argument D, ¬ListedBefore a a) ∧
    (∀ a b c : Argument D, ListedBefore a b → ListedBefore b c → ListedBefore a c) ∧
    (∀ a b c : Argument D, ¬ListedBefore a b → ¬ListedBefore b a → ¬ListedBefore b c → ¬ListedBefore c b →
      ¬ListedBefore a c ∧ ¬ListedBefore c a) := by
  have h := compareOption_strictWeak (D := D)
  simp only [← compareOption_iff, Bool.not_eq_true]
  refine ⟨h.irrefl, h.trans, fun a b c h1 h2 h3 h4 => ⟨?_, ?_⟩⟩
  · cases e : a.compareOption c with
    | false => rfl
    | true => rcases h.negTrans a b c e with e | e <;> simp_all
  · cases e : c.compareOption a with
    | false => rfl
    | true => rcases h.negTrans c b a e with e | e <;> simp_all

/-- The modelling of `std::list::sort` is forced: whatever list is sorted for the comparator and keeps the
relative order of equivalent elements is the one the model computes. -/
theorem C11_sort_unique (l l' : List (Slot D))
    (hs : l'.Pairwise fun a b => ¬ListedBefore b.arg a.arg)
    (hstable : ∀ x : Slot D,
      l'.filter (fun y => !(x.arg.compareOption y.arg) && !(y.arg.compareOption x.arg)) =
      l.filter (fun y => !(x.arg.compareOption y.arg) && !(y.arg.compareOption x.arg))) :
    l' = stableSort (fun a b => a.arg.compareOption b.arg) l := by
  refine stableSort_unique slotLt_strictWeak l l' ?_ hstable
  refine hs.imp fun {a b} h => ?_
  rw [← compareOption_iff] at h
  simpa [slotLt] using h

theorem listing_of_inv {st : State D} (hi : Inv st) :
    (st.arguments.Pairwise fun a b => ¬ListedBefore b.arg a.arg) ∧
    (∀ s ∈ st.arguments, s.arg.names.Pairwise fun f g => ¬FlagBefore g f) := by
  constructor
  · refine hi.sorted.imp fun {a b} h => ?_
    rw [← compareOption_iff]
    simpa [slotLt] using h
  · intro s hs
    refine (hi.forms s hs).sorted.imp fun {a b} h => ?_
    rw [← compareFlag_iff]
    simp [h]

/-- C11. In every reachable state no argument is listed after one that should come later: required options,
then other options (each group by first flag, short before long), then required positionals, then the
other positionals; and the flags of an argument are in the same flag order. -/
theorem C11_listing_order {scan : Str → Option D} {st : State D} (h : Reachable scan st) :
    (st.arguments.Pairwise fun a b => ¬ListedBefore b.arg a.arg) ∧
    (∀ s ∈ st.arguments, s.arg.names.Pairwise fun f g => ¬FlagBefore g f) :=
  listing_of_inv h.inv

example : (demo.arguments.map fun s => s.arg.front) = ["-o".toList, "-v".toList, "file".toList] := by
  decide +kernel

/-- A history in which positionals are made required only right after being added (and never made
optional again), as in `addArgument("x").required(true)`. -/
def BuilderStyle (st : State D) (op : Op) (_ : Res Unit) : Prop :=
  match op with
  | .required ref b => ∀ s ∈ st.arguments, s.obj = ref → s.arg.isPositional = true →
      s.arg.isRequired = b ∨ (b = true ∧ ∀ t ∈ st.arguments, t.node ≤ s.node)
  | _ => True

/-- Positionals of equal requiredness are listed by age. -/
def ByAge (l : List (Slot D)) : Prop :=
  l.Pairwise fun s t => s.arg.isPositional = true → t.arg.isPositional = true →
    s.arg.isRequired = t.arg.isRequired → s.node < t.node

def inClass (r : Bool) (s : Slot D) : Bool := s.arg.isPositional && (s.arg.isRequired == r)

theorem inClass_incomparable (r : Bool) (a b : Slot D) (ha : inClass r a = true) (hb : inClass r b = true) :
    slotLt a b = false := by
  unfold inClass at ha hb
  simp only [Bool.and_eq_true, beq_iff_eq] at ha hb
  unfold slotLt
  rw [compareOption_eq]
  simp [ha.1, hb.1, ha.2, hb.2]

theorem byAge_iff (l : List (Slot D)) :
    ByAge l ↔ ∀ r, (l.filter (inClass r)).Pairwise fun s t => s.node < t.node := by
  unfold ByAge
  simp only [List.pairwise_filter]
  constructor
  · intro h r
    refine h.imp fun {a b} h ha hb => ?_
    unfold inClass at ha hb
    simp only [Bool.and_eq_true, beq_iff_eq] at ha hb
    exact h ha.1 hb.1 (ha.2.trans hb.2.symm)
  · intro h
    have h1 := h true
    have h2 := h false
    refine (List.Pairwise.and h1 h2).imp fun {a b} hab pa pb e => ?_
    cases hr : b.arg.isRequired with
    | true => exact hab.1 (by unfold inClass; simp [pa, e, hr]) (by unfold inClass; simp [pb, hr])
    | false => exact hab.2 (by unfold inClass; simp [pa, e, hr]) (by unfold inClass; simp [pb, hr])

theorem byAge_sort (l : List (Slot D)) : ByAge (stableSort slotLt l) ↔ ByAge l := by
  rw [byAge_iff, byAge_iff]
  simp only [stableSort_filter slotLt_strictWeak _ (inClass_incomparable _)]

theorem SameReg.byAge {st st' : State D} (h : SameReg st st') (ha : ByAge st.arguments) : ByAge st'.arguments := by
  have key : ∀ l : List (Slot D), ByAge l ↔ ByAge (l.map Slot.sig) := by
    intro l
    unfold ByAge
    rw [List.pairwise_map]
    simp only [Slot.sig_node, Slot.sig_positional, Slot.sig_required]
  rw [key, h.sig, ← key]; exact ha

theorem byAge_new {st : State D} (hi : Inv st) (ha : ByAge st.arguments) (a : Argument D) :
    ByAge (st.arguments ++ [st.newSlot a]) := by
  unfold ByAge
  rw [List.pairwise_append]
  refine ⟨ha, List.pairwise_singleton _ _, ?_⟩
  intro s hs t ht _ _ _
  rw [List.mem_singleton] at ht
  subst ht
  exact hi.nodesLt s hs

theorem byAge_filterMap {l : List (Slot D)} (ha : ByAge l) (f : Slot D → Option (Slot D))
    (hf : ∀ s t, f s = some t → t.node = s.node ∧ t.arg.isPositional = s.arg.isPositional ∧
      t.arg.isRequired = s.arg.isRequired) : ByAge (l.filterMap f) := by
  unfold ByAge
  rw [List.pairwise_filterMap]
  refine ha.imp ?_
  intro s t h s' hs' t' ht'
  obtain ⟨e1, e2, e3⟩ := hf s s' hs'
  obtain ⟨e4, e5, e6⟩ := hf t t' ht'
  rw [e1, e2, e3, e4, e5, e6]
  exact h

theorem byAge_map {l : List (Slot D)} (ha : ByAge l) (f : Slot D → Slot D)
    (hf : ∀ s ∈ l, (f s).node = s.node ∧ (f s).arg.isPositional = s.arg.isPositional ∧
      ((f s).arg.isPositional = true → (f s).arg.isRequired = s.arg.isRequired)) : ByAge (l.map f) := by
  unfold ByAge
  rw [List.pairwise_map]
  refine ha.imp_of_mem ?_
  intro s t hs ht h
  obtain ⟨e1, e2, e3⟩ := hf s hs
  obtain ⟨e4, e5, e6⟩ := hf t ht
  intro p1 p2
  rw [e3 p1, e6 p2, e1, e4]
  exact h (e2 ▸ p1) (e5 ▸ p2)

theorem required_byAge {st : State D} (hi : Inv st) (ha : ByAge st.arguments) {s : Slot D}
    (hs : s ∈ st.arguments) (b : Bool)
    (hb : s.arg.isPositional = true → s.arg.isRequired = b ∨ (b = true ∧ ∀ t ∈ st.arguments, t.node ≤ s.node)) :
    ByAge (updNode st.arguments s.node fun a => { a with isRequired := b }) := by
  by_cases hsame : s.arg.isPositional = true → s.arg.isRequired = b
  · refine byAge_map ha _ fun t ht => ?_
    by_cases e : t.node = s.node
    · obtain rfl := eq_of_node hi hs ht e
      simp only [beq_self_eq_true, if_true]
      exact ⟨trivial, rfl, fun hp => (hsame hp).symm⟩
    · simp [e]
  · rw [Classical.not_imp] at hsame
    obtain ⟨hp, hne⟩ := hsame
    rcases hb hp with h | ⟨rfl, hmax⟩
    · exact absurd h hne
    have hreq : s.arg.isRequired = false := by simpa using hne
    -- `s` is an optional positional: every required positional is listed before it
    have hbefore : st.arguments.Pairwise fun x y => x = s → y.arg.isPositional = true → y.arg.isRequired = true → False := by
      refine hi.sorted.imp fun {x y} h e h1 h2 => ?_
      subst e
      unfold slotLt at h
      rw [compareOption_eq] at h
      simp [h1, h2, hp, hreq, rank] at h
    unfold ByAge updNode
    rw [List.pairwise_map]
    refine (List.Pairwise.and ha (List.Pairwise.and hbefore (List.Pairwise.and
      (List.pairwise_map.1 hi.nodes) (List.Pairwise.and_mem.1 ha)))).imp ?_
    rintro x y ⟨h1, h2, hn, hx, hy, _⟩ p1 p2 p3
    by_cases ex : x.node = s.node
    · obtain rfl := eq_of_node hi hs hx ex
      have ey : y.node ≠ x.node := fun e => hn e.symm
      simp only [beq_self_eq_true, if_true, beq_iff_eq, ey, if_false] at p2 p3 ⊢
      exact absurd (h2 rfl p2 p3.symm) id
    · by_cases ey : y.node = s.node
      · obtain rfl := eq_of_node hi hs hy ey
        simp only [beq_iff_eq, ex, if_false, if_true]
        have := hmax x hx
        omega
      · simp only [beq_iff_eq, ex, ey, if_false] at p1 p2 p3 ⊢
        exact h1 p1 p2 p3

theorem step_byAge {scan : Str → Option D} {st : State D} (hi : Inv st) (ha : ByAge st.arguments) (op : Op)
    (hg : (step scan st op).2.goesOn = true) (hc : BuilderStyle st op (step scan st op).2) :
    ByAge (step scan st op).1.arguments := by
  by_cases ht : op.isTweak = true
  · exact (tweak_sameReg hi op ht).byAge ha
  cases op with
  | add names =>
    show ByAge (st.addArgument names).1.arguments
    have h := addArgument_outcome hi names
    generalize st.addArgument names = r at h
    cases h with
    | positional n st' e h1 h2 hst _ => subst hst; exact (byAge_sort _).2 (byAge_new hi ha _)
    | option f rest fs st' e h1 h2 h3 h4 hst _ => subst hst; exact (byAge_sort _).2 (byAge_new hi ha _)
    | _ => exact ha
  | remove names =>
    show ByAge (st.removeArguments names).1.arguments
    rcases removeArguments_cases hi names with ⟨_, h⟩ | ⟨n, _, h⟩ | ⟨_, _, _, w, h⟩ | ⟨h1, h2, h3, h⟩
    · rw [h]; exact ha
    · rw [h]; exact ha
    · have hg' : (st.removeArguments names).2.goesOn = true := hg
      rw [h] at hg'; cases hg'
    · obtain ⟨st', e, _, _, hst⟩ := removeArguments_ok hi h1 h3 h2
      rw [e]
      simp only
      rw [hst, byAge_sort]
      refine byAge_filterMap ha _ fun s t e => ?_
      unfold afterRemove at e
      split at e
      · cases e; exact ⟨rfl, rfl, rfl⟩
      · cases e
  | clear => exact List.Pairwise.nil
  | flag ref f =>
    show ByAge (st.flag ref f).1.arguments
    cases h : st.atObj ref with
    | none => unfold State.flag State.withRef; rw [h]; exact ha
    | some s =>
      rcases flag_outcome hi h f with ⟨_, e⟩ | ⟨_, m, _, e⟩ | ⟨_, _, _, e⟩ | ⟨_, _, _, e, _⟩
      · rw [e]; exact ha
      · rw [e]; exact ha
      · rw [e]; exact ha
      · rw [e]
        refine (byAge_sort _).2 (byAge_map ha _ fun t ht => ?_)
        split <;> exact ⟨rfl, rfl, fun _ => rfl⟩
  | required ref b =>
    show ByAge (st.required ref b).1.arguments
    cases h : st.atObj ref with
    | none => unfold State.required State.withRef; rw [h]; exact ha
    | some s =>
      rw [(required_ok hi h b).1]
      obtain ⟨hs, e⟩ := State.atObj_some h
      exact (byAge_sort _).2 (required_byAge hi ha hs b (hc s hs e))
  | dest ref d =>
    show ByAge (st.setDest ref d).1.arguments
    cases h : st.atObj ref with
    | none => unfold State.setDest State.withRef; rw [h]; exact ha
    | some s =>
      rw [setDest_eq h]
      refine byAge_map ha _ fun t ht => ?_
      split <;> exact ⟨rfl, rfl, fun _ => rfl⟩
  | parse argv =>
    show ByAge (st.parseArguments scan argv).1.arguments
    rcases parse_sameReg hi argv hg with h | ⟨_, h2, h3⟩
    · exact h.byAge ha
    · exact h3.byAge ((byAge_sort _).2 (byAge_new (inv_of_config (resetAll_config st) hi)
        ((resetAll_sameReg st).byAge ha) _))
  | _ => exact absurd rfl ht

/-- C11, insertion order: when positionals are made required only right after being added, positionals of
equal requiredness are listed in the order in which they were added (`node` numbers list elements by
date of creation). Without the restriction the order is that of `C11_positional_queues`
(`C11_order_by_required_call` is an example where it is not the insertion order). -/
theorem C11_insertion_order {scan : Str → Option D} {st : State D}
    (h : ReachableBy scan BuilderStyle st) :
    st.arguments.Pairwise fun s t => s.arg.isPositional = true → t.arg.isPositional = true →
      s.arg.isRequired = t.arg.isRequired → s.node < t.node := by
  show ByAge st.arguments
  induction h with
  | init => exact List.Pairwise.nil
  | step op hr hg hc ih => exact step_byAge hr.reachable.inv ih op hg hc

/-- Two positionals, `a` then `b`; making `b` required and optional again puts it before `a`. -/
theorem C11_order_by_required_call (scan : Str → Option D) :
    ∃ st : State D, Reachable scan st ∧
      st.arguments = [⟨1, 1, freshArgument ["b".toList] true⟩, ⟨0, 0, freshArgument ["a".toList] true⟩] :=
  ⟨runOps scan State.init [.add ["a".toList], .add ["b".toList], .required 1 true, .required 1 false],
    reachable_runOps .init _ rfl, rfl⟩

/-- Each call is stable anyway: the relative order of positionals of equal requiredness after the call is
the one before the call (for `required`: of the arguments with their new setting; for `addArgument`: the
new one comes last). -/
theorem C11_calls_are_stable {scan : Str → Option D} {st : State D} (h : Reachable scan st) (r : Bool) :
    (∀ s ∈ st.arguments, ∀ b, (st.required s.obj b).1.arguments.filter (inClass r) =
      (st.arguments.map fun t => if t.obj = s.obj then { t with arg := { t.arg with isRequired := b } } else t).filter
        (inClass r)) ∧
    (∀ nof st' ref, st.addArgument nof = (st', .ok ref) →
      (st'.arguments.filter (inClass r)).map (·.obj) =
      (st.arguments.filter (inClass r)).map (·.obj) ++ (if asksPositional nof && !r then [ref] else [])) := by
  have hi := h.inv
  constructor
  · intro s hs b
    rw [(required_ok hi (State.atObj_of_mem hi.objs hs) b).1]
    simp only
    rw [stableSort_filter slotLt_strictWeak _ (inClass_incomparable _)]
    unfold updNode
    congr 1
    refine List.map_congr_left fun t ht => ?_
    by_cases hn : t.node = s.node
    · obtain rfl := eq_of_node hi hs ht hn
      simp
    · have : t.obj ≠ s.obj := fun ho => hn (by rw [eq_of_obj hi hs ht ho])
      simp [hn, this]
  · intro nof st' ref hr
    have ho := addArgument_outcome hi nof
    rw [hr] at ho
    cases ho with
    | positional n _ e h1 h2 hst _ =>
      subst hst e
      simp only
      rw [stableSort_filter slotLt_strictWeak _ (inClass_incomparable _), List.filter_append, List.map_append]
      congr 1
      have : asksPositional [n] = true := by
        obtain ⟨c, r, rfl, hc⟩ := h1
        simp [asksPositional, hc]
      rw [this]
      cases r <;> rfl
    | option f rest fs _ e h1 h2 h3 h4 hst _ =>
      subst hst e
      simp only
      rw [stableSort_filter slotLt_strictWeak _ (inClass_incomparable _), List.filter_append, List.map_append]
      congr 1
      have : asksPositional (f :: rest) = false := by
        cases rest with
        | cons _ _ => rfl
        | nil => rcases h1 f (by simp) with ⟨c, _, rfl⟩ | ⟨c, r, rfl⟩ <;> simp [asksPositional]
      rw [this]
      cases r <;> rfl

end BletArgs
