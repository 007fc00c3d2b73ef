import Verif.Props.Order
/-
C11: in which order positional arguments are listed, whatever the history.
-/
namespace BletArgs
open Spec
variable {D : Type}

def queue (r : Bool) (l : List (Slot D)) : List Str := (l.filter (inClass r)).map (·.arg.front)

theorem positionals_eq (st : State D) (r : Bool) : positionals st r = queue r st.arguments := by
  unfold positionals queue
  rw [List.filter_map, List.map_map]
  rfl

theorem queue_sort (r : Bool) (l : List (Slot D)) : queue r (stableSort slotLt l) = queue r l := by
  unfold queue
  rw [stableSort_filter slotLt_strictWeak _ (inClass_incomparable _)]

theorem queue_map (r : Bool) (l : List (Slot D)) (f : Slot D → Slot D)
    (hf : ∀ s ∈ l, inClass r (f s) = inClass r s ∧ (inClass r s = true → (f s).arg.front = s.arg.front)) :
    queue r (l.map f) = queue r l := by
  unfold queue
  induction l with
  | nil => rfl
  | cons s ss ih =>
    have h1 := hf s (by simp)
    have h2 := ih fun t ht => hf t (by simp [ht])
    rw [List.map_cons, List.filter_cons, List.filter_cons, h1.1]
    split
    · rename_i h
      simp only [List.map_cons, h2, h1.2 h]
    · exact h2

theorem queue_sig (r : Bool) (l : List (Slot D)) : queue r (l.map Slot.sig) = queue r l :=
  queue_map r l _ fun s _ => ⟨by unfold inClass; simp, fun _ => rfl⟩

theorem SameReg.queue {st st' : State D} (h : SameReg st st') (r : Bool) :
    queue r st'.arguments = queue r st.arguments := by
  rw [← queue_sig, h.sig, queue_sig]

theorem queue_append (r : Bool) (l l' : List (Slot D)) : queue r (l ++ l') = queue r l ++ queue r l' := by
  simp [queue]

theorem mem_queue {r : Bool} {l : List (Slot D)} {n : Str} :
    n ∈ queue r l ↔ ∃ s ∈ l, inClass r s = true ∧ s.arg.front = n := by
  simp [queue, and_assoc]

/-- The name of a positional leads to it, so two positionals have different names. -/
theorem front_inj {st : State D} (hi : Inv st) {s t : Slot D} (hs : s ∈ st.arguments) (ht : t ∈ st.arguments)
    (hp : s.arg.isPositional = true) (e : t.arg.front = s.arg.front) : t = s := by
  obtain ⟨n, hn, hf⟩ := (hi.forms s hs).positional hp
  have hfs : s.arg.front = n := by simp [Argument.front, hn]
  obtain ⟨m, hm, hb⟩ := hi.named s hs
  rw [hn, List.mem_singleton] at hm
  subst hm
  have htp : t.arg.isPositional = true := by
    cases hq : t.arg.isPositional with
    | true => rfl
    | false =>
      exfalso
      obtain ⟨h1, h2⟩ := (hi.forms t ht).option hq
      have : t.arg.front ∈ t.arg.names := by
        unfold Argument.front
        cases hnm : t.arg.names with
        | nil => exact absurd hnm h1
        | cons a b => simp
      have := h2 _ this
      rw [e, hfs] at this
      rcases this with ⟨c, _, rfl⟩ | ⟨c, r, rfl⟩ <;> obtain ⟨_, _, e, h⟩ := hf <;> cases e <;> exact h rfl
  obtain ⟨k, hk, _⟩ := (hi.forms t ht).positional htp
  have hft : t.arg.front = k := by simp [Argument.front, hk]
  obtain ⟨j, hj, hb'⟩ := hi.named t ht
  rw [hk, List.mem_singleton] at hj
  subst hj
  rw [hft, hfs] at e
  subst e
  have := (lookupName_of_mem hi.keys hb).symm.trans (lookupName_of_mem hi.keys hb')
  exact inj_of_nodup Slot.node hi.nodes ht hs (Option.some.inj this).symm

theorem front_mem_queue {st : State D} (hi : Inv st) {s : Slot D} (hs : s ∈ st.arguments) (r : Bool) :
    s.arg.front ∈ queue r st.arguments ↔ inClass r s = true := by
  rw [mem_queue]
  constructor
  · rintro ⟨t, ht, hc, e⟩
    have hp : t.arg.isPositional = true := by unfold inClass at hc; simp_all
    obtain rfl := front_inj hi ht hs hp e.symm
    exact hc
  · intro h; exact ⟨s, hs, h, rfl⟩

/-- Where a positional stands: the required ones are all before the others. -/
theorem split_at {st : State D} (hi : Inv st) {s : Slot D} (hs : s ∈ st.arguments)
    (hp : s.arg.isPositional = true) :
    ∃ l1 l2, st.arguments = l1 ++ s :: l2 ∧ (∀ t ∈ l1, t.node ≠ s.node) ∧ (∀ t ∈ l2, t.node ≠ s.node) ∧
      (∀ r, s.arg.front ∉ queue r l1) ∧
      (s.arg.isRequired = false → queue true l2 = []) ∧ (s.arg.isRequired = true → queue false l1 = []) := by
  obtain ⟨l1, l2, e⟩ := List.append_of_mem hs
  have hn := hi.nodes
  have hsort := hi.sorted
  rw [e] at hn hsort
  rw [List.map_append, List.map_cons, List.nodup_append] at hn
  obtain ⟨_, hn2, hn3⟩ := hn
  rw [List.nodup_cons] at hn2
  have n1 : ∀ t ∈ l1, t.node ≠ s.node := fun t ht =>
    hn3 _ (List.mem_map_of_mem ht) _ (by simp)
  have n2 : ∀ t ∈ l2, t.node ≠ s.node := fun t ht h => hn2.1 (h ▸ List.mem_map_of_mem ht)
  unfold SortedBy at hsort
  rw [List.pairwise_append, List.pairwise_cons] at hsort
  obtain ⟨_, ⟨h2, _⟩, h3⟩ := hsort
  refine ⟨l1, l2, e, n1, n2, ?_, ?_, ?_⟩
  · intro r hm
    obtain ⟨t, ht, _, ef⟩ := mem_queue.1 hm
    have := front_inj hi hs (e ▸ List.mem_append_left _ ht) hp ef
    exact n1 t ht (by rw [this])
  · intro hr
    rw [List.eq_nil_iff_forall_not_mem]
    intro n hm
    obtain ⟨t, ht, hc, _⟩ := mem_queue.1 hm
    have := h2 t ht
    unfold slotLt at this
    rw [compareOption_eq] at this
    unfold inClass at hc
    simp only [Bool.and_eq_true, beq_iff_eq] at hc
    simp [hp, hr, hc.1, hc.2, rank] at this
  · intro hr
    rw [List.eq_nil_iff_forall_not_mem]
    intro n hm
    obtain ⟨t, ht, hc, _⟩ := mem_queue.1 hm
    have := h3 t ht s (by simp)
    unfold slotLt at this
    rw [compareOption_eq] at this
    unfold inClass at hc
    simp only [Bool.and_eq_true, beq_iff_eq] at hc
    simp [hp, hr, hc.1, hc.2, rank] at this

theorem queue_required {st : State D} (hi : Inv st) {s : Slot D} (hs : s ∈ st.arguments) (b : Bool) :
    ((queue true (updNode st.arguments s.node fun a => { a with isRequired := b })),
      (queue false (updNode st.arguments s.node fun a => { a with isRequired := b }))) =
    if b = true ∧ s.arg.front ∈ queue false st.arguments then
      (queue true st.arguments ++ [s.arg.front], (queue false st.arguments).erase s.arg.front)
    else if b = false ∧ s.arg.front ∈ queue true st.arguments then
      ((queue true st.arguments).erase s.arg.front, s.arg.front :: queue false st.arguments)
    else (queue true st.arguments, queue false st.arguments) := by
  simp only [front_mem_queue hi hs]
  by_cases hch : s.arg.isPositional = true ∧ s.arg.isRequired ≠ b
  · obtain ⟨hp, hr⟩ := hch
    obtain ⟨l1, l2, e, n1, n2, q1, q2, q3⟩ := split_at hi hs hp
    have hu : updNode st.arguments s.node (fun a => { a with isRequired := b }) =
        l1 ++ { s with arg := { s.arg with isRequired := b } } :: l2 := by
      unfold updNode
      rw [e, List.map_append, List.map_cons]
      congr 1
      · refine (List.map_congr_left fun t ht => ?_).trans (List.map_id _)
        simp [n1 t ht]
      · simp only [beq_self_eq_true, if_true]
        congr 1
        refine (List.map_congr_left fun t ht => ?_).trans (List.map_id _)
        simp [n2 t ht]
    rw [hu, e]
    have hp' : s.arg.type.isPositional = true := hp
    have hq : ∀ r (x : Slot D) l, queue r (l1 ++ x :: l) =
        queue r l1 ++ ((if inClass r x then [x.arg.front] else []) ++ queue r l) := by
      intro r x l
      rw [queue_append]
      congr 1
      unfold queue
      rw [List.filter_cons]
      split <;> simp
    have hfr : Argument.front ({ s.arg with isRequired := b } : Argument D) = s.arg.front := rfl
    have hpp : Argument.isPositional ({ s.arg with isRequired := b } : Argument D) = true := hp
    rw [hq, hq, hq, hq]
    cases b with
    | true =>
      have hr' : s.arg.isRequired = false := by simpa using hr
      rw [q2 hr']
      have hni : s.arg.front ∉ queue false l1 := q1 false
      simp [inClass, hp, hr', hpp, hfr, List.erase_append_right _ hni]
    | false =>
      have hr' : s.arg.isRequired = true := by simpa using hr
      rw [q3 hr']
      have hni : s.arg.front ∉ queue true l1 := q1 true
      simp [inClass, hp, hr', hpp, hfr, List.erase_append_right _ hni]
  · have hsame : ∀ r, queue r (updNode st.arguments s.node fun a => { a with isRequired := b }) =
        queue r st.arguments := by
      intro r
      refine queue_map r _ _ fun t ht => ?_
      by_cases et : t.node = s.node
      · obtain rfl := eq_of_node hi hs ht et
        simp only [beq_self_eq_true, if_true]
        refine ⟨?_, fun _ => rfl⟩
        unfold inClass Argument.isPositional
        cases hp : t.arg.type.isPositional with
        | false => simp
        | true =>
          have : t.arg.isRequired = b := Classical.byContradiction fun h => hch ⟨hp, h⟩
          simp [this]
      · simp [et]
    rw [hsame, hsame]
    have h1 : ¬(b = true ∧ inClass false s = true) := by
      rintro ⟨rfl, h⟩
      unfold inClass at h
      simp only [Bool.and_eq_true, beq_iff_eq] at h
      exact hch ⟨h.1, by simp [h.2]⟩
    have h2 : ¬(b = false ∧ inClass true s = true) := by
      rintro ⟨rfl, h⟩
      unfold inClass at h
      simp only [Bool.and_eq_true, beq_iff_eq] at h
      exact hch ⟨h.1, by simp [h.2]⟩
    rw [if_neg h1, if_neg h2]

theorem queue_new (r : Bool) (l : List (Slot D)) (x : Slot D) :
    queue r (stableSort slotLt (l ++ [x])) = queue r l ++ (if inClass r x then [x.arg.front] else []) := by
  rw [queue_sort, queue_append]
  congr 1
  unfold queue
  rw [List.filter_cons]
  split <;> simp

theorem queue_remove {st : State D} (hi : Inv st) (names : List Str) (r : Bool) :
    queue r (st.arguments.filterMap (afterRemove names st.byName)) =
      (queue r st.arguments).filter (!names.contains ·) := by
  have key : ∀ s ∈ st.arguments, inClass r s = true →
      afterRemove names st.byName s = if names.contains s.arg.front then none else some s := by
    intro s hs hc
    have hp : s.arg.isPositional = true := by unfold inClass at hc; simp_all
    obtain ⟨n, hn, hf⟩ := (hi.forms s hs).positional hp
    have hfs : s.arg.front = n := by simp [Argument.front, hn]
    obtain ⟨m, hm, hb⟩ := hi.named s hs
    rw [hn, List.mem_singleton] at hm
    subst hm
    have hone : ∀ p ∈ st.byName, p.2 = s.node → p.1 = m := by
      intro p hp' e
      obtain ⟨t, ht, et, h2⟩ := hi.entries p hp'
      have := inj_of_nodup Slot.node hi.nodes ht hs (et.trans e)
      rw [this, hn, List.mem_singleton] at h2
      exact h2
    unfold afterRemove
    rw [hfs]
    by_cases hrm : names.contains m = true
    · rw [if_neg, if_pos hrm]
      rw [List.any_eq_true]
      rintro ⟨p, hp', h⟩
      simp only [Bool.and_eq_true, beq_iff_eq] at h
      rw [hone p hp' h.1, hrm] at h
      simp at h
    · rw [if_pos, if_neg hrm]
      · have : (names.filter fun n => lookupName st.byName n == some s.node) = [] := by
          rw [List.filter_eq_nil_iff]
          intro k hk h
          rw [beq_iff_eq] at h
          have hkm := lookupName_mem h
          have := hone _ hkm rfl
          simp only at this
          subst this
          exact hrm (List.contains_iff_mem.2 hk)
        rw [this]; rfl
      · rw [List.any_eq_true]
        refine ⟨_, hb, ?_⟩
        simp only [beq_self_eq_true, Bool.true_and, Bool.not_eq_true']
        simpa using hrm
  have hcls : ∀ s ∈ st.arguments, ∀ t, afterRemove names st.byName s = some t → inClass r t = inClass r s := by
    intro s _ t h
    unfold afterRemove at h
    split at h
    · cases h; rfl
    · cases h
  generalize st.arguments = l at key hcls
  unfold queue
  induction l with
  | nil => rfl
  | cons s ss ih =>
    have ih := ih (fun t ht => key t (by simp [ht])) (fun t ht => hcls t (by simp [ht]))
    rw [List.filterMap_cons, List.filter_cons]
    by_cases hc : inClass r s = true
    · rw [key s (by simp) hc, if_pos hc, List.map_cons, List.filter_cons]
      by_cases hm : names.contains s.arg.front = true
      · rw [if_pos hm]
        simp only [hm, Bool.not_true, Bool.false_eq_true, if_false]
        exact ih
      · rw [if_neg hm]
        simp only [Bool.not_eq_true] at hm
        simp only [hm, Bool.not_false, if_true]
        rw [List.filter_cons, if_pos hc, List.map_cons, ih]
    · rw [if_neg hc]
      cases ha : afterRemove names st.byName s with
      | none => exact ih
      | some t =>
        simp only
        rw [List.filter_cons, hcls s (by simp) t ha, if_neg hc]
        exact ih

/-- C11, positionals, for every history: the required positionals come first, in the order in which they
were made required; then the others, in the order in which they were added, those that were made optional
again being in front. `requeue` tells what each call does to these two queues. -/
theorem C11_positional_queues {scan : Str → Option D} {st : State D} (h : Reachable scan st) (op : Op)
    (hg : (step scan st op).2.goesOn = true) :
    (positionals (step scan st op).1 true, positionals (step scan st op).1 false) =
      requeue st op (step scan st op).2 (positionals st true, positionals st false) := by
  have hi := h.inv
  simp only [positionals_eq]
  by_cases ht : op.isTweak = true
  · have hs := tweak_sameReg (scan := scan) hi op ht
    rw [hs.queue, hs.queue]
    cases op <;> first | rfl | cases ht
  cases op with
  | add names =>
    show (queue true (st.addArgument names).1.arguments, queue false (st.addArgument names).1.arguments) =
      requeue st (.add names) (st.addArgument names).2.void _
    have h := addArgument_outcome hi names
    generalize st.addArgument names = r at h
    cases h with
    | positional n st' e h1 h2 hst _ =>
      subst hst e
      simp only [queue_new]
      obtain ⟨c, t, rfl, hc⟩ := h1
      simp [requeue, Res.void, inClass, State.newSlot, Argument.isPositional, Ty.isPositional, Argument.front, hc]
    | option f rest fs st' e h1 h2 h3 h4 hst _ =>
      subst hst e
      simp only [queue_new]
      have hq : ∀ q : List Str × List Str, requeue st (.add (f :: rest)) (Res.void (.ok st.nextObj)) q = q := by
        intro q
        cases rest with
        | nil =>
          have : f.head? = some '-' := by rcases h1 f (by simp) with ⟨c, _, rfl⟩ | ⟨c, r, rfl⟩ <;> rfl
          simp [requeue, Res.void, this]
        | cons _ _ => rfl
      rw [hq]
      simp [inClass, State.newSlot, Argument.isPositional, Ty.isPositional]
    | _ => simp only [requeue, Res.void, Res.cast]
  | remove names =>
    show (queue true (st.removeArguments names).1.arguments, queue false (st.removeArguments names).1.arguments) =
      requeue st (.remove names) (st.removeArguments names).2 _
    rcases removeArguments_cases hi names with ⟨_, h⟩ | ⟨n, _, h⟩ | ⟨_, _, _, w, h⟩ | ⟨h1, h2, h3, h⟩
    · rw [h]; rfl
    · rw [h]; rfl
    · have hg' : (st.removeArguments names).2.goesOn = true := hg
      rw [h] at hg'; cases hg'
    · obtain ⟨st', e, _, _, hst⟩ := removeArguments_ok hi h1 h3 h2
      rw [e]
      simp only
      rw [hst, queue_sort, queue_sort, queue_remove hi, queue_remove hi]
      rfl
  | clear => rfl
  | flag ref f =>
    show (queue true (st.flag ref f).1.arguments, queue false (st.flag ref f).1.arguments) =
      (queue true st.arguments, queue false st.arguments)
    cases h : st.atObj ref with
    | none => unfold State.flag State.withRef; rw [h]
    | some s =>
      rcases flag_outcome hi h f with ⟨_, e⟩ | ⟨_, m, _, e⟩ | ⟨_, _, _, e⟩ | ⟨hp, _, _, e, _⟩
      · rw [e]
      · rw [e]
      · rw [e]
      · rw [e]
        simp only
        rw [queue_sort, queue_sort]
        have hk : ∀ r, queue r (updNode st.arguments s.node fun a => { a with names := sortNames (a.names ++ [f]) }) =
            queue r st.arguments := by
          intro r
          refine queue_map r _ _ fun t ht => ?_
          by_cases et : t.node = s.node
          · obtain rfl := eq_of_node hi (State.atObj_some h).1 ht et
            simp only [beq_self_eq_true, if_true]
            refine ⟨rfl, fun hc => ?_⟩
            unfold inClass at hc
            rw [hp] at hc; cases hc
          · simp [et]
        exact congr (congrArg Prod.mk (hk true)) (hk false)
  | required ref b =>
    show (queue true (st.required ref b).1.arguments, queue false (st.required ref b).1.arguments) =
      match st.atObj ref with
      | none => _
      | some s => _
    cases h : st.atObj ref with
    | none => unfold State.required State.withRef; rw [h]
    | some s =>
      rw [(required_ok hi h b).1]
      simp only
      rw [queue_sort, queue_sort]
      exact queue_required hi (State.atObj_some h).1 b
  | dest ref d =>
    show (queue true (st.setDest ref d).1.arguments, queue false (st.setDest ref d).1.arguments) =
      (queue true st.arguments, queue false st.arguments)
    cases h : st.atObj ref with
    | none => unfold State.setDest State.withRef; rw [h]
    | some s =>
      rw [setDest_eq h]
      have hk : ∀ r, queue r (st.arguments.map fun t =>
          if t.node == s.node then
            { t with obj := st.nextObj, arg := { t.arg with defaults := [], dest := some d } }
          else t) = queue r st.arguments := by
        intro r
        refine queue_map r _ _ fun t ht => ?_
        split <;> exact ⟨rfl, fun _ => rfl⟩
      exact congr (congrArg Prod.mk (hk true)) (hk false)
  | parse argv =>
    show (queue true (st.parseArguments scan argv).1.arguments, queue false (st.parseArguments scan argv).1.arguments) =
      (queue true st.arguments, queue false st.arguments)
    rcases parse_sameReg hi argv hg with h | ⟨_, h2, h3⟩
    · rw [h.queue, h.queue]
    · rw [h3.queue, h3.queue]
      have hk : ∀ r, queue r st.resetAll.withHelp.arguments = queue r st.arguments := by
        intro r
        refine (queue_new r _ _).trans ?_
        rw [(resetAll_sameReg st).queue]
        simp [inClass, helpArgument, State.newSlot, Argument.isPositional, Ty.isPositional]
      rw [hk, hk]
  | _ => exact absurd rfl ht

theorem filter_split {α : Type} (p : α → Bool) (l : List α) (h : l.Pairwise fun a b => p b = true → p a = true) :
    l = l.filter p ++ l.filter (fun a => !p a) := by
  induction l with
  | nil => rfl
  | cons a l ih =>
    rw [List.pairwise_cons] at h
    have ih := ih h.2
    cases ha : p a with
    | true => rw [List.filter_cons_of_pos ha, List.filter_cons_of_neg (by simp [ha]), List.cons_append, ← ih]
    | false =>
      have hn : ∀ b ∈ l, p b = false := by
        intro b hb
        cases hp : p b with
        | false => rfl
        | true => rw [h.1 b hb hp] at ha; cases ha
      have e1 : l.filter p = [] := by
        rw [List.filter_eq_nil_iff]; intro b hb; simp [hn b hb]
      rw [List.filter_cons_of_neg (by simp [ha]), List.filter_cons_of_pos (by simp [ha]), e1, List.nil_append]
      congr 1
      rw [e1, List.nil_append] at ih
      exact ih

/-- C11: the positionals come after the options, the required ones first. -/
theorem C11_positionals_listed {scan : Str → Option D} {st : State D} (h : Reachable scan st) :
    ∃ options, (∀ a ∈ options, a.isPositional = false) ∧
      ∃ ps : List (Argument D), st.arguments.map (·.arg) = options ++ ps ∧ (∀ a ∈ ps, a.isPositional = true) ∧
        ps.map Argument.front = positionals st true ++ positionals st false := by
  have hs := h.inv.sorted
  have hrank : st.arguments.Pairwise fun a b =>
      rank a.arg.isPositional a.arg.isRequired ≤ rank b.arg.isPositional b.arg.isRequired := by
    refine hs.imp fun {a b} hab => ?_
    have hnl : ¬ListedBefore b.arg a.arg := by
      rw [← compareOption_iff]
      simpa [slotLt] using hab
    exact Nat.le_of_not_lt fun hlt => hnl (.inl hlt)
  have h1 := filter_split (fun s : Slot D => !s.arg.isPositional) st.arguments (hrank.imp fun {a b} hab hb => by
    revert hab hb
    cases a.arg.isPositional <;> cases b.arg.isPositional <;> cases a.arg.isRequired <;>
      cases b.arg.isRequired <;> simp [rank])
  have h2 := filter_split (fun s : Slot D => s.arg.isRequired)
    (st.arguments.filter fun s => !!s.arg.isPositional) (by
      refine List.Pairwise.imp_of_mem ?_ (hrank.filter _)
      intro a b ha hb hab
      rw [List.mem_filter] at ha hb
      have e1 : a.arg.isPositional = true := by simpa using ha.2
      have e2 : b.arg.isPositional = true := by simpa using hb.2
      rw [e1, e2] at hab
      revert hab
      cases a.arg.isRequired <;> cases b.arg.isRequired <;> simp [rank])
  refine ⟨(st.arguments.filter fun s => !s.arg.isPositional).map (·.arg), ?_,
    (st.arguments.filter fun s => !!s.arg.isPositional).map (·.arg), ?_, ?_, ?_⟩
  · intro a ha
    obtain ⟨s, hs, rfl⟩ := List.mem_map.1 ha
    simpa using (List.mem_filter.1 hs).2
  · rw [← List.map_append, ← h1]
  · intro a ha
    obtain ⟨s, hs, rfl⟩ := List.mem_map.1 ha
    simpa using (List.mem_filter.1 hs).2
  · rw [h2, positionals_eq, positionals_eq]
    unfold queue
    rw [List.map_append, List.map_append, List.map_map, List.map_map, List.filter_filter, List.filter_filter]
    congr 1
    · refine congrArg _ (List.filter_congr fun s _ => ?_)
      unfold inClass
      cases s.arg.isPositional <;> cases s.arg.isRequired <;> rfl
    · refine congrArg _ (List.filter_congr fun s _ => ?_)
      unfold inClass
      cases s.arg.isPositional <;> cases s.arg.isRequired <;> rfl

/-- A history in which both queues move: `a b c` are added, `c` and `a` made required in this order, `c`
optional again. -/
example :
    let run := runOps demoScan (State.init (D := Unit)) [.add ["a".toList], .add ["b".toList], .add ["c".toList]]
    let run1 := runOps demoScan run [.required 2 true, .required 0 true]
    let run2 := runOps demoScan run1 [.required 2 false]
    (positionals run true, positionals run false) = ([], ["a".toList, "b".toList, "c".toList]) ∧
    (positionals run1 true, positionals run1 false) = (["c".toList, "a".toList], ["b".toList]) ∧
    (positionals run2 true, positionals run2 false) = (["a".toList], ["c".toList, "b".toList]) := by
  decide +kernel

end BletArgs
