import Verif.Lemmas.InvMut
/-
Lemmas: `removeArguments`.
-/
namespace BletArgs
open Spec
variable {D : Type} {full : Prop}

/-- One iteration of the loop of `removeArguments` in normal circumstances. -/
def State.removeStep (st : State D) (n : Str) (s : Slot D) : State D :=
  let m := st.byName.filter (fun p => !(p.1 == n))
  if m.any (fun p => p.2 == s.node) then
    { st with
      byName := m
      arguments := updNode st.arguments s.node fun a => { a with names := a.names.erase n } }
  else
    { st with
      byName := m
      helpOption := if st.helpOption == some s.obj then none else st.helpOption
      versionOption := if st.helpOption == some s.obj then st.versionOption
        else if st.versionOption == some s.obj then none else st.versionOption
      freedObjs := st.freedObjs ++ [s.obj]
      freedValids := st.freedValids ++ s.arg.ownedValid
      arguments := st.arguments.filter (fun t => !(t.node == s.node)) }

theorem erase_sorted {l : List Str} (h : SortedBy compareFlag l) (n : Str) : SortedBy compareFlag (l.erase n) :=
  List.Pairwise.sublist List.erase_sublist h

theorem sortNames_of_sorted {l : List Str} (h : SortedBy compareFlag l) : sortNames l = l :=
  stableSort_of_sorted l h

theorem filterMap_congr' {α β : Type} {f g : α → Option β} {l : List α} (h : ∀ x ∈ l, f x = g x) :
    l.filterMap f = l.filterMap g := by
  induction l with
  | nil => rfl
  | cons a l ih =>
    rw [List.filterMap_cons, List.filterMap_cons, h a (by simp), ih fun x hx => h x (by simp [hx])]

theorem modNode_eq (st : State D) (node : Nat) (f : Argument D → Argument D) :
    st.modNode node f = { st with arguments := updNode st.arguments node f } := rfl

theorem updNode_updNode (l : List (Slot D)) (node : Nat) (f g : Argument D → Argument D) :
    updNode (updNode l node f) node g = updNode l node (fun a => g (f a)) := by
  unfold updNode
  rw [List.map_map]
  refine List.map_congr_left fun t _ => ?_
  by_cases e : t.node = node <;> simp [e]

theorem updNode_congr {l : List (Slot D)} {node : Nat} {f g : Argument D → Argument D}
    (h : ∀ t ∈ l, t.node = node → f t.arg = g t.arg) : updNode l node f = updNode l node g := by
  unfold updNode
  refine List.map_congr_left fun t ht => ?_
  by_cases e : t.node = node
  · simp [e, h t ht e]
  · simp [e]

theorem updNode_filter (l : List (Slot D)) (node : Nat) (f : Argument D → Argument D) :
    (updNode l node f).filter (fun t => !(t.node == node)) = l.filter (fun t => !(t.node == node)) := by
  unfold updNode
  induction l with
  | nil => rfl
  | cons t l ih =>
    rw [List.map_cons, List.filter_cons, List.filter_cons, ih]
    by_cases e : t.node = node <;> simp [e]

theorem removeLoop_cons {st : State D} (hi : GPre full st) {n : Str} {node : Nat}
    (hl : lookupName st.byName n = some node) :
    ∃ s ∈ st.arguments, s.node = node ∧ n ∈ s.arg.names ∧
      ∀ ns, State.removeLoop (n :: ns) st = State.removeLoop ns (st.removeStep n s) := by
  obtain ⟨s, hs, h1, h2⟩ := hi.entries _ (lookupName_mem hl)
  simp only at h1 h2
  refine ⟨s, hs, h1, h2, fun ns => ?_⟩
  subst h1
  conv => lhs; unfold State.removeLoop
  rw [hl]
  simp only
  rw [State.atNode_of_mem hi.nodes hs]
  simp only
  rw [if_pos (by simpa using h2)]
  simp only [modNode_eq, updNode_updNode]
  unfold State.removeStep
  simp only
  split
  · congr 2
    refine updNode_congr fun t ht e => ?_
    obtain rfl := inj_of_nodup Slot.node hi.nodes ht hs e
    rw [sortNames_of_sorted (erase_sorted (hi.forms t hs).sorted n)]
  · congr 1
    by_cases hh : st.helpOption == some s.obj
    · simp only [hh, if_true, updNode_filter]
    · by_cases hv : st.versionOption == some s.obj
      · simp only [hh, hv, if_true, updNode_filter, Bool.false_eq_true, if_false]
      · simp only [hh, hv, updNode_filter, Bool.false_eq_true, if_false]

theorem mem_filter_name {m : List (Str × Nat)} {n : Str} {p : Str × Nat} :
    p ∈ m.filter (fun p => !(p.1 == n)) ↔ p ∈ m ∧ p.1 ≠ n := by
  simp [List.mem_filter]

theorem removeStep_preInv {st : State D} (hi : GPre full st) {n : Str} {s : Slot D} (hs : s ∈ st.arguments)
    (hl : lookupName st.byName n = some s.node) : GPre full (st.removeStep n s) := by
  have hsame : ∀ t ∈ st.arguments, t.node = s.node → t = s := fun t ht e => inj_of_nodup Slot.node hi.nodes ht hs e
  have hown : ∀ v, (n, v) ∈ st.byName → v = s.node := fun v hv => by
    have := lookupName_of_mem hi.keys hv
    rw [hl] at this; exact (Option.some.inj this).symm
  have hkeys : ((st.byName.filter (fun p => !(p.1 == n))).map (·.1)).Nodup :=
    hi.keys.sublist (List.filter_sublist.map _)
  unfold State.removeStep
  simp only
  split
  · rename_i hany
    obtain ⟨p, hp, hpn⟩ := List.any_eq_true.1 hany
    simp only [beq_iff_eq] at hpn
    obtain ⟨hp1, hp2⟩ := mem_filter_name.1 hp
    have hmem : ∀ t, t ∈ updNode st.arguments s.node (fun a => { a with names := a.names.erase n }) →
        (t = { s with arg := { s.arg with names := s.arg.names.erase n } } ∨
          (t ∈ st.arguments ∧ t.node ≠ s.node)) := by
      intro t ht
      obtain ⟨u, hu, rfl⟩ := List.mem_map.1 ht
      by_cases e : u.node = s.node
      · obtain rfl := hsame u hu e
        left; simp
      · right; simp [e, hu]
    have hnode : (updNode st.arguments s.node (fun a => { a with names := a.names.erase n })).map (·.node) =
        st.arguments.map (·.node) := by
      unfold updNode
      rw [List.map_map]
      refine List.map_congr_left fun t _ => ?_
      simp only [Function.comp_def]; split <;> rfl
    have hobj : (updNode st.arguments s.node (fun a => { a with names := a.names.erase n })).map (·.obj) =
        st.arguments.map (·.obj) := by
      unfold updNode
      rw [List.map_map]
      refine List.map_congr_left fun t _ => ?_
      simp only [Function.comp_def]; split <;> rfl
    -- the other name is still listed
    have hother : p.1 ∈ s.arg.names.erase n := by
      obtain ⟨t, ht, h1, h2⟩ := hi.entries p hp1
      obtain rfl := hsame t ht (h1.trans hpn)
      exact (List.mem_erase_of_ne hp2).2 h2
    have hback : ∀ t ∈ st.arguments, ∃ u ∈ updNode st.arguments s.node (fun a => { a with names := a.names.erase n }),
        u.node = t.node ∧ u.obj = t.obj ∧ ∀ k ∈ t.arg.names, k ≠ n → k ∈ u.arg.names := by
      intro t ht
      refine ⟨_, List.mem_map.2 ⟨t, ht, rfl⟩, ?_⟩
      split
      · exact ⟨rfl, rfl, fun k hk hkn => (List.mem_erase_of_ne hkn).2 hk⟩
      · exact ⟨rfl, rfl, fun k hk _ => hk⟩
    refine ⟨hnode ▸ hi.nodes, ?_, hobj ▸ hi.objs, ?_, hkeys, ?_, ?_, ?_, hi.freedNodup, hi.freedLt, ?_, ?_⟩
    · intro t ht
      rcases hmem t ht with rfl | h
      · exact hi.nodesLt s hs
      · exact hi.nodesLt t h.1
    · intro t ht
      rcases hmem t ht with rfl | h
      · exact hi.objsLt s hs
      · exact hi.objsLt t h.1
    · intro q hq
      obtain ⟨hq1, hq2⟩ := mem_filter_name.1 hq
      obtain ⟨t, ht, h1, h2⟩ := hi.entries q hq1
      obtain ⟨u, hu, e1, _, e3⟩ := hback t ht
      exact ⟨u, hu, e1.trans h1, e3 _ h2 hq2⟩
    · intro hfull t ht
      rcases hmem t ht with rfl | h
      · exact ⟨p.1, hother, by simp only; rw [← hpn]; exact hp⟩
      · obtain ⟨k, h1, h2⟩ := hi.namedIf hfull t h.1
        refine ⟨k, h1, mem_filter_name.2 ⟨h2, ?_⟩⟩
        rintro rfl
        exact h.2 (hown _ h2)
    · intro t ht
      rcases hmem t ht with rfl | h
      · have hf := hi.forms s hs
        refine ⟨erase_sorted hf.sorted n, ?_, ?_⟩
        · intro h'
          obtain ⟨k, hk, hkf⟩ := hf.positional h'
          obtain ⟨t, ht, h1, h2⟩ := hi.entries p hp1
          obtain rfl := hsame t ht (h1.trans hpn)
          rw [hk] at h2
          have : p.1 = k := by simpa using h2
          refine ⟨k, ?_, hkf⟩
          simp only
          rw [hk, List.erase_of_not_mem]
          simp only [List.mem_singleton]
          rintro rfl; exact hp2 this
        · intro h'
          refine ⟨List.ne_nil_of_mem hother, fun f hf' => (hf.option h').2 f (List.mem_of_mem_erase hf')⟩
      · exact hi.forms t h.1
    · intro t ht
      rcases hmem t ht with rfl | h
      · exact hi.freedDead s hs
      · exact hi.freedDead t h.1
    · intro hfull o ho
      rcases hi.noLeakIf hfull o ho with h | ⟨t, ht, h⟩
      · exact .inl h
      · obtain ⟨u, hu, _, e2, _⟩ := hback t ht
        exact .inr ⟨u, hu, e2.trans h⟩
  · rename_i hany
    have hgone : ∀ p ∈ st.byName, p.2 = s.node → p.1 = n := by
      intro p hp hpn
      by_cases e : p.1 = n
      · exact e
      · exact absurd (List.any_eq_true.2 ⟨p, mem_filter_name.2 ⟨hp, e⟩, by simpa using hpn⟩) hany
    have hmem : ∀ t, t ∈ st.arguments.filter (fun t => !(t.node == s.node)) ↔ t ∈ st.arguments ∧ t.node ≠ s.node := by
      intro t; simp [List.mem_filter]
    refine ⟨hi.nodes.sublist (List.filter_sublist.map _), ?_, hi.objs.sublist (List.filter_sublist.map _), ?_,
      hkeys, ?_, ?_, ?_, ?_, ?_, ?_, ?_⟩
    · intro t ht; exact hi.nodesLt t ((hmem t).1 ht).1
    · intro t ht; exact hi.objsLt t ((hmem t).1 ht).1
    · intro q hq
      obtain ⟨hq1, hq2⟩ := mem_filter_name.1 hq
      obtain ⟨t, ht, h1, h2⟩ := hi.entries q hq1
      refine ⟨t, (hmem t).2 ⟨ht, fun e => hq2 (hgone q hq1 (h1.symm.trans e))⟩, h1, h2⟩
    · intro hfull t ht
      obtain ⟨h1, h2⟩ := (hmem t).1 ht
      obtain ⟨k, h3, h4⟩ := hi.namedIf hfull t h1
      refine ⟨k, h3, mem_filter_name.2 ⟨h4, ?_⟩⟩
      rintro rfl
      exact h2 (hown _ h4)
    · intro t ht; exact hi.forms t ((hmem t).1 ht).1
    · simp only
      rw [List.nodup_append]
      refine ⟨hi.freedNodup, by simp, ?_⟩
      intro a ha b hb
      rw [List.mem_singleton.1 hb]
      rintro rfl
      exact hi.freedDead s hs ha
    · intro o ho
      simp only at ho ⊢
      rcases List.mem_append.1 ho with h | h
      · exact hi.freedLt o h
      · rw [List.mem_singleton.1 h]; exact hi.objsLt s hs
    · intro t ht hc
      obtain ⟨h1, h2⟩ := (hmem t).1 ht
      simp only at hc
      rcases List.mem_append.1 hc with h | h
      · exact hi.freedDead t h1 h
      · exact h2 (by rw [inj_of_nodup Slot.obj hi.objs h1 hs (List.mem_singleton.1 h)])
    · intro hfull o ho
      simp only
      rcases hi.noLeakIf hfull o ho with h | ⟨t, ht, h⟩
      · exact .inl (by simp [h])
      · by_cases e : t.node = s.node
        · obtain rfl := hsame t ht e
          exact .inl (by simp [h])
        · exact .inr ⟨t, (hmem t).2 ⟨ht, e⟩, h⟩

/-! ### Closed form of the loop -/

/-- What becomes of a slot when the names `rm` are removed: nothing if none of its registered names
remains, else itself without the removed names that designated it. -/
def afterRemove (rm : List Str) (m : List (Str × Nat)) (s : Slot D) : Option (Slot D) :=
  if m.any (fun p => p.2 == s.node && !rm.contains p.1) then
    some { s with arg := { s.arg with
      names := (rm.filter fun n => lookupName m n == some s.node).foldl List.erase s.arg.names } }
  else none

theorem filter_filter_names (m : List (Str × Nat)) (n : Str) (ns : List Str) :
    (m.filter (fun p => !(p.1 == n))).filter (fun p => !ns.contains p.1) =
      m.filter (fun p => !(n :: ns).contains p.1) := by
  rw [List.filter_filter]
  congr 1
  funext p
  rw [List.contains_cons]
  cases (p.1 == n) <;> simp

theorem removeStep_byName (st : State D) (n : Str) (s : Slot D) :
    (st.removeStep n s).byName = st.byName.filter (fun p => !(p.1 == n)) := by
  unfold State.removeStep; simp only; split <;> rfl

theorem removeStep_arguments {st : State D} (hi : PreInvS st) {n : Str} {s : Slot D} (hs : s ∈ st.arguments)
    (hl : lookupName st.byName n = some s.node) :
    (st.removeStep n s).arguments = st.arguments.filterMap (afterRemove [n] st.byName) := by
  have hsame : ∀ t ∈ st.arguments, t.node = s.node → t = s := fun t ht e => inj_of_nodup Slot.node hi.nodes ht hs e
  have hown : ∀ v, (n, v) ∈ st.byName → v = s.node := fun v hv => by
    have := lookupName_of_mem hi.keys hv
    rw [hl] at this; exact (Option.some.inj this).symm
  have hany : ∀ t : Slot D, (st.byName.any fun p => p.2 == t.node && ![n].contains p.1) =
      (st.byName.filter (fun p => !(p.1 == n))).any (fun p => p.2 == t.node) := by
    intro t
    rw [List.any_filter]
    congr 1
    funext p
    simp only [List.contains_cons, List.contains_nil, Bool.or_false]
    rw [Bool.and_comm]
  have hrest : ∀ t ∈ st.arguments, t.node ≠ s.node → afterRemove [n] st.byName t = some t := by
    intro t ht hne
    unfold afterRemove
    obtain ⟨k, h3, h4⟩ := hi.named t ht
    have hk : k ≠ n := by rintro rfl; exact hne (hown _ h4)
    rw [if_pos]
    · have hb : (some s.node == some t.node) = false := by simpa using Ne.symm hne
      have : (List.filter (fun n => lookupName st.byName n == some t.node) [n]) = [] := by
        simp only [List.filter_cons, hl, hb, List.filter_nil]; rfl
      rw [this]; rfl
    · exact List.any_eq_true.2 ⟨_, h4, by simp [hk]⟩
  have hself : afterRemove [n] st.byName s =
      if (st.byName.filter (fun p => !(p.1 == n))).any (fun p => p.2 == s.node) then
        some { s with arg := { s.arg with names := s.arg.names.erase n } } else none := by
    unfold afterRemove
    rw [hany s]
    have hb : (some s.node == some s.node) = true := by simp
    simp only [List.filter_cons, hl, hb, if_true, List.filter_nil, List.foldl_cons, List.foldl_nil]
  unfold State.removeStep
  simp only
  split
  · rename_i h
    rw [if_pos h] at hself
    unfold updNode
    rw [← List.filterMap_eq_map]
    refine filterMap_congr' fun t ht => ?_
    by_cases e : t.node = s.node
    · obtain rfl := hsame t ht e
      rw [hself]; simp
    · rw [hrest t ht e]; simp [e]
  · rename_i h
    rw [if_neg h] at hself
    rw [← List.filterMap_eq_filter]
    refine filterMap_congr' fun t ht => ?_
    by_cases e : t.node = s.node
    · obtain rfl := hsame t ht e
      rw [hself]; simp
    · rw [hrest t ht e]; simp [e]

theorem afterRemove_comp (m : List (Str × Nat)) (n : Str) (ns : List Str) (hn : n ∉ ns) (s : Slot D) :
    (afterRemove [n] m s).bind (afterRemove ns (m.filter (fun p => !(p.1 == n)))) = afterRemove (n :: ns) m s := by
  unfold afterRemove
  have e1 : (List.filter (fun k => lookupName (m.filter (fun p => !(p.1 == n))) k == some s.node) ns) =
      ns.filter (fun k => lookupName m k == some s.node) := by
    refine List.filter_congr fun k hk => ?_
    rw [filter_lookup, if_neg]
    rintro rfl; exact hn hk
  have e2 : ((m.filter (fun p => !(p.1 == n))).any fun p => p.2 == s.node && !ns.contains p.1) =
      m.any (fun p => p.2 == s.node && !(n :: ns).contains p.1) := by
    rw [List.any_filter]
    congr 1
    funext p
    rw [List.contains_cons]
    cases (p.1 == n) <;> simp
  by_cases h : (m.any fun p => p.2 == s.node && !(n :: ns).contains p.1) = true
  · have h1 : (m.any fun p => p.2 == s.node && ![n].contains p.1) = true := by
      obtain ⟨p, hp, hpp⟩ := List.any_eq_true.1 h
      refine List.any_eq_true.2 ⟨p, hp, ?_⟩
      rw [List.contains_cons] at hpp
      rw [List.contains_cons]
      simp only [Bool.and_eq_true, Bool.not_eq_true', Bool.or_eq_false_iff] at hpp ⊢
      exact ⟨hpp.1, hpp.2.1, rfl⟩
    rw [if_pos h1, if_pos h]
    simp only [Option.bind_some]
    rw [e2, if_pos h, e1]
    congr 3
    rw [List.filter_cons]
    split
    · rename_i hh; simp [hh]
    · rename_i hh
      rw [List.filter_cons, if_neg hh]; rfl
  · rw [if_neg h]
    split
    · simp only [Option.bind_some]
      rw [e2, if_neg h]
    · rfl

/-- The loop of `removeArguments` on distinct registered names: no UB, closed form, invariant kept. -/
theorem removeLoop_ok (rm : List Str) {st : State D} (hi : PreInvS st) (hnd : rm.Nodup)
    (hreg : ∀ n ∈ rm, (lookupName st.byName n).isSome = true) :
    ∃ st', State.removeLoop rm st = (st', .ok ()) ∧ PreInvS st' ∧
      st'.byName = st.byName.filter (fun p => !rm.contains p.1) ∧
      st'.arguments = st.arguments.filterMap (afterRemove rm st.byName) := by
  induction rm generalizing st with
  | nil =>
    refine ⟨st, rfl, hi, ?_, ?_⟩
    · symm; rw [List.filter_eq_self]; simp
    · symm
      have : st.arguments.filterMap (afterRemove [] st.byName) = st.arguments.filterMap some := by
        refine filterMap_congr' fun s hs => ?_
        obtain ⟨k, _, h⟩ := hi.named s hs
        unfold afterRemove
        rw [if_pos (List.any_eq_true.2 ⟨_, h, by simp⟩)]
        rfl
      rw [this, List.filterMap_some]
  | cons n ns ih =>
    obtain ⟨node, hl⟩ := Option.isSome_iff_exists.1 (hreg n (by simp))
    obtain ⟨s, hs, h1, h2, h3⟩ := removeLoop_cons hi hl
    rw [List.nodup_cons] at hnd
    have hl' : lookupName st.byName n = some s.node := h1 ▸ hl
    have hp := removeStep_preInv hi hs hl'
    have hb := removeStep_byName st n s
    have ha := removeStep_arguments hi hs hl'
    obtain ⟨st', e1, e2, e3, e4⟩ := ih hp hnd.2 (fun k hk => by
      rw [hb, filter_lookup, if_neg]
      · exact hreg k (by simp [hk])
      · rintro rfl; exact hnd.1 hk)
    refine ⟨st', by rw [h3]; exact e1, e2, ?_, ?_⟩
    · rw [e3, hb, filter_filter_names]
    · rw [e4, ha, hb, List.filterMap_filterMap]
      refine filterMap_congr' fun t _ => ?_
      exact afterRemove_comp st.byName n ns hnd.1 t

theorem firstUnknown_none {m : List (Str × Nat)} {names : List Str} :
    State.firstUnknown m names = none ↔ ∀ n ∈ names, (lookupName m n).isSome = true := by
  unfold State.firstUnknown
  simp [Option.isSome_iff_ne_none]

/-- `removeArguments` on a non-empty list of distinct registered names. -/
theorem removeArguments_ok {st : State D} (hi : Inv st) {names : List Str} (hne : names ≠ [])
    (hnd : names.Nodup) (hreg : ∀ n ∈ names, (lookupName st.byName n).isSome = true) :
    ∃ st', st.removeArguments names = (st', .ok ()) ∧ Inv st' ∧
      st'.byName = st.byName.filter (fun p => !names.contains p.1) ∧
      st'.arguments = stableSort slotLt (st.arguments.filterMap (afterRemove names st.byName)) := by
  obtain ⟨st1, e1, e2, e3, e4⟩ := removeLoop_ok names hi.toPreInv hnd hreg
  have := sortArguments_ok e2
  refine ⟨_, ?_, this.2, e3, ?_⟩
  · unfold State.removeArguments
    have : names.isEmpty = false := by cases names <;> simp_all
    rw [this, firstUnknown_none.2 hreg]
    simp only [Bool.false_eq_true, if_false, e1, (sortArguments_ok e2).1]
  · simp only [e4]

/-- The loop on distinct registered names runs to its end. -/
theorem removeLoop_runs (rm : List Str) {st : State D} (hi : GPre full st) (hnd : rm.Nodup)
    (hreg : ∀ n ∈ rm, (lookupName st.byName n).isSome = true) :
    (State.removeLoop rm st).2 = .ok () ∧ GPre full (State.removeLoop rm st).1 ∧
      (State.removeLoop rm st).1.byName = st.byName.filter (fun p => !rm.contains p.1) := by
  induction rm generalizing st with
  | nil =>
    refine ⟨rfl, hi, ?_⟩
    symm
    show List.filter _ _ = st.byName
    rw [List.filter_eq_self]; simp
  | cons n ns ih =>
    obtain ⟨node, hl⟩ := Option.isSome_iff_exists.1 (hreg n (by simp))
    obtain ⟨s, hs, h1, h2, h3⟩ := removeLoop_cons hi hl
    rw [List.nodup_cons] at hnd
    have hl' : lookupName st.byName n = some s.node := h1 ▸ hl
    have hb := removeStep_byName st n s
    obtain ⟨e1, e2, e3⟩ := ih (removeStep_preInv hi hs hl') hnd.2 (fun k hk => by
      rw [hb, filter_lookup, if_neg]
      · exact hreg k (by simp [hk])
      · rintro rfl; exact hnd.1 hk)
    rw [h3]
    exact ⟨e1, e2, by rw [e3, hb, filter_filter_names]⟩

theorem removeArguments_runs {st : State D} (hi : GInv full st) {names : List Str} (hne : names ≠ [])
    (hnd : names.Nodup) (hreg : ∀ n ∈ names, (lookupName st.byName n).isSome = true) :
    st.removeArguments names =
      ({ (State.removeLoop names st).1 with
          arguments := stableSort slotLt (State.removeLoop names st).1.arguments }, .ok ()) := by
  obtain ⟨e1, e2, _⟩ := removeLoop_runs names hi.toPreInv hnd hreg
  have e : names.isEmpty = false := by cases names <;> simp_all
  unfold State.removeArguments
  rw [e, firstUnknown_none.2 hreg]
  generalize State.removeLoop names st = r at e1 e2
  obtain ⟨st1, r⟩ := r
  simp only at e1 e2
  subst e1
  simp only [Bool.false_eq_true, if_false]
  rw [(sortArguments_ok e2).1]

/-- A result of `removeArguments` that goes on leaves the invariant true, also with repeated names: an
iteration either is regular or is undefined behaviour. -/
theorem removeLoop_inv (rm : List Str) {st : State D} (hi : GPre full st) :
    (∃ w, (State.removeLoop rm st).2 = .ub w) ∨
    ((State.removeLoop rm st).2 = .ok () ∧ GPre full (State.removeLoop rm st).1) := by
  induction rm generalizing st with
  | nil => exact .inr ⟨rfl, hi⟩
  | cons n ns ih =>
    cases hl : lookupName st.byName n with
    | none => left; unfold State.removeLoop; rw [hl]; exact ⟨_, rfl⟩
    | some node =>
      obtain ⟨s, hs, h1, h2, h3⟩ := removeLoop_cons hi hl
      rw [h3]
      exact ih (removeStep_preInv hi hs (h1 ▸ hl))

theorem removeArguments_inv {st : State D} (hi : GInv full st) (names : List Str)
    (hg : (st.removeArguments names).2.goesOn = true) : GInv full (st.removeArguments names).1 := by
  unfold State.removeArguments at hg ⊢
  split
  · exact hi
  · rename_i hne
    rw [if_neg hne] at hg
    split
    · exact hi
    · rename_i hf
      rw [hf] at hg
      simp only at hg
      rcases removeLoop_inv names hi.toPreInv with ⟨w, h⟩ | ⟨h1, h2⟩
      · generalize State.removeLoop names st = r at h hg ⊢
        obtain ⟨st1, r⟩ := r
        simp only at h
        subst h
        simp [Res.goesOn] at hg
      · generalize State.removeLoop names st = r at h1 h2 hg ⊢
        obtain ⟨st1, r⟩ := r
        simp only at h1 h2
        subst h1
        simp only
        rw [(sortArguments_ok h2).1]
        exact (sortArguments_ok h2).2

end BletArgs
