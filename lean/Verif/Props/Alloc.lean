import Verif.Spec.Alloc
import Verif.Lemmas.Chain
/-
C82: nothing depends on the addresses the memory allocator gives out.
-/
namespace BletArgs
open Spec
variable {D : Type}

/-! ### Renamings that agree with a finite one -/

/-- Every one-to-one map on a list is part of a one-to-one map on all numbers. -/
theorem extend_inj (l : List Nat) (f : Nat → Nat) (hf : ∀ a ∈ l, ∀ b ∈ l, f a = f b → a = b) :
    ∃ g : Nat → Nat, (∀ a b, g a = g b → a = b) ∧ ∀ a ∈ l, g a = f a := by
  have hb : ∃ m, ∀ a ∈ l, f a < m := by
    clear hf
    induction l with
    | nil => exact ⟨0, by simp⟩
    | cons x xs ih =>
      obtain ⟨m, hm⟩ := ih
      refine ⟨max m (f x + 1), fun a ha => ?_⟩
      rcases List.mem_cons.1 ha with rfl | ha
      · omega
      · have := hm a ha; omega
  obtain ⟨m, hm⟩ := hb
  refine ⟨fun a => if a ∈ l then f a else m + a, fun a b e => ?_, fun a ha => if_pos ha⟩
  simp only at e
  split at e <;> split at e
  · next h1 h2 => exact hf a h1 b h2 e
  · next h1 _ => have := hm a h1; omega
  · next _ h2 => have := hm b h2; omega
  · omega

/-- Only the next address is known to correspond; the books are kept. -/
def Room.one (s : State D) : Room := ⟨(· = s.nextNode), (· = s.nextObj), True⟩

theorem RenamedIn.room {ok ok' : Room} {r : Ren} {s s' : State D} (h : RenamedIn ok r s s') (h1 : ∀ k, ¬ok'.n k)
    (h2 : ∀ k, ¬ok'.o k) (h3 : ok'.books → ok.books) : RenamedIn ok' r s s' :=
  ⟨h.args, h.look, h.keys, h.keys', h.help, h.version, fun _ hk => absurd hk (h1 _), fun _ hk => absurd hk (h2 _), h.plain,
    fun hb => h.books (h3 hb)⟩

/-- No call creates more than one object. -/
theorem step_creates {scan : Str → Option D} {st : State D} (hi : Inv st) (op : Op)
    (hg : (step scan st op).2.goesOn = true) : (step scan st op).1.nextObj ≤ st.nextObj + 1 := by
  by_cases ht : op.isTweak = true
  · rw [(tweak_sameReg (scan := scan) hi op ht).nextObj]; omega
  have wr : ∀ {α : Type} {ref : Nat} {f : Slot D → State D × Res α}, (∀ s, (f s).1.nextObj ≤ st.nextObj + 1) →
      (st.withRef ref f).1.nextObj ≤ st.nextObj + 1 := by
    intro α ref f h
    unfold State.withRef
    split
    · simp only; omega
    · exact h _
  cases op with
  | add names =>
    have ho := addArgument_outcome hi names
    change (st.addArgument names).1.nextObj ≤ _
    generalize st.addArgument names = r at ho
    cases ho with
    | positional n st' _ _ _ e _ => subst e; exact Nat.le_refl _
    | option f rest fs st' _ _ _ _ _ e _ => subst e; exact Nat.le_refl _
    | _ => exact Nat.le_succ _
  | remove names =>
    change (st.removeArguments names).1.nextObj ≤ _
    unfold State.removeArguments
    split
    · exact Nat.le_succ _
    · split
      · exact Nat.le_succ _
      · have h := (removeLoop_old names hi.toPreInv).1
        revert h
        generalize State.removeLoop names st = x
        obtain ⟨y, res⟩ := x
        intro h
        have h : y.nextObj = st.nextObj := h
        cases res with
        | ok u => simp only; rw [sortArguments_next, h]; exact Nat.le_succ _
        | _ => simp only; rw [h]; exact Nat.le_succ _
  | clear => exact Nat.le_succ _
  | flag ref f =>
    refine wr fun s => ?_
    split
    · exact Nat.le_succ _
    · split
      · exact Nat.le_succ _
      · split
        · exact Nat.le_succ _
        · rw [sortArguments_next]; exact Nat.le_succ _
  | required ref b => exact wr fun s => (by rw [sortArguments_next]; exact Nat.le_succ _)
  | dest ref _ => exact wr fun s => Nat.le_refl _
  | parse argv =>
    rcases parse_sameReg hi argv hg with e | ⟨_, _, e⟩
    · exact e.nextObj ▸ Nat.le_succ _
    · change (st.parseArguments scan argv).1.nextObj ≤ _
      rw [e.nextObj]; exact Nat.le_refl _
  | _ => exact absurd rfl ht

/-- Forget the books. -/
def State.unbooked (s : State D) : State D := { s with freedObjs := [], freedValids := [] }

theorem step_books (scan : Str → Option D) (s : State D) (op : Op) :
    step scan s op =
      ({ (step scan s.unbooked op).1 with
          freedObjs := s.freedObjs ++ (step scan s.unbooked op).1.freedObjs
          freedValids := s.freedValids ++ (step scan s.unbooked op).1.freedValids }, (step scan s.unbooked op).2) := by
  have h := Move.step ⟨0, 0, s.freedObjs, s.freedValids, []⟩ scan s.unbooked op
  have id1 : ∀ l : List (Slot D), l.map (Move.slot ⟨0, 0, s.freedObjs, s.freedValids, []⟩) = l := fun l => by
    conv => rhs; rw [← List.map_id l]
    exact List.map_congr_left fun x _ => rfl
  have id2 : ∀ l : List (Str × Nat), Move.names ⟨0, 0, s.freedObjs, s.freedValids, []⟩ l = l := fun l => by
    unfold Move.names
    conv => rhs; rw [← List.map_id l]
    exact List.map_congr_left fun x _ => rfl
  have id3 : ∀ l : List Nat, l.map (· + 0) = l := fun l => by
    conv => rhs; rw [← List.map_id l]
    exact List.map_congr_left fun x _ => rfl
  have id4 : ∀ p : Option Nat, Move.ptr ⟨0, 0, s.freedObjs, s.freedValids, []⟩ p = p := fun p => by cases p <;> rfl
  have e0 : Move.op ⟨0, 0, s.freedObjs, s.freedValids, []⟩ op = op := by cases op <;> rfl
  have e1 : ∀ x : State D, Move.st ⟨0, 0, s.freedObjs, s.freedValids, []⟩ x =
      { x with freedObjs := s.freedObjs ++ x.freedObjs, freedValids := s.freedValids ++ x.freedValids } := by
    intro x
    unfold Move.st
    rw [id1, id2, id4, id4, id3]
    rfl
  have e2 : Move.st ⟨0, 0, s.freedObjs, s.freedValids, []⟩ s.unbooked = s := by
    rw [e1]
    unfold State.unbooked
    simp only [List.append_nil]
  rw [e0, e2] at h
  rw [h]
  unfold Move.out
  rw [e1]

/-- The correspondence, with the addresses of the objects. -/
structure Mirror (place : Nat → Nat) (s s' : State D) : Prop where
  ren : ∃ r : Ren, RenamedIn ⟨fun _ => False, fun _ => False, False⟩ r s s' ∧ ∀ t ∈ s.arguments, r.o t.obj = place t.obj
  freed : s'.freedObjs = s.freedObjs.map place
  freedValids : s'.freedValids = s.freedValids

/-- Before a call, a renaming can be chosen that also sends the next addresses to those chosen by the allocator. -/
theorem Mirror.aim {place : Nat → Nat} {s s' : State D} (h : Mirror place s s') (hi : Inv s) (hp : s.Ptrs) {n o : Nat}
    (hu : Unused s' n o) : ∃ q : Ren, (∀ t ∈ s.arguments, q.o t.obj = place t.obj) ∧ q.o s.nextObj = o ∧
      RenamedIn (Room.one s) q s.unbooked { s'.unbooked with nextNode := n, nextObj := o } := by
  obtain ⟨r, hr, hpl⟩ := h.ren
  have live : ∀ t ∈ s.arguments, r.slot t ∈ s'.arguments := fun t ht => by rw [hr.args]; exact List.mem_map.2 ⟨t, ht, rfl⟩
  obtain ⟨gn, gninj, hgn⟩ := extend_inj (s.nextNode :: s.arguments.map (·.node)) (fun k => if k = s.nextNode then n else r.n k) (by
    have key : ∀ t ∈ s.arguments, t.node ≠ s.nextNode ∧ r.n t.node ≠ n := fun t ht =>
      ⟨Nat.ne_of_lt (hi.nodesLt t ht), (hu _ (live t ht)).1⟩
    intro a ha b hb e
    rcases List.mem_cons.1 ha with rfl | ha <;> rcases List.mem_cons.1 hb with rfl | hb
    · rfl
    · obtain ⟨t, ht, rfl⟩ := List.mem_map.1 hb
      simp only [if_true, if_neg (key t ht).1] at e
      exact absurd e.symm (key t ht).2
    · obtain ⟨t, ht, rfl⟩ := List.mem_map.1 ha
      simp only [if_true, if_neg (key t ht).1] at e
      exact absurd e (key t ht).2
    · obtain ⟨t, ht, rfl⟩ := List.mem_map.1 ha
      obtain ⟨u, hu, rfl⟩ := List.mem_map.1 hb
      simp only [if_neg (key t ht).1, if_neg (key u hu).1] at e
      exact r.ninj _ _ e)
  obtain ⟨go, goinj, hgo⟩ := extend_inj (s.nextObj :: s.arguments.map (·.obj)) (fun k => if k = s.nextObj then o else r.o k) (by
    have key : ∀ t ∈ s.arguments, t.obj ≠ s.nextObj ∧ r.o t.obj ≠ o := fun t ht =>
      ⟨Nat.ne_of_lt (hi.objsLt t ht), (hu _ (live t ht)).2⟩
    intro a ha b hb e
    rcases List.mem_cons.1 ha with rfl | ha <;> rcases List.mem_cons.1 hb with rfl | hb
    · rfl
    · obtain ⟨t, ht, rfl⟩ := List.mem_map.1 hb
      simp only [if_true, if_neg (key t ht).1] at e
      exact absurd e.symm (key t ht).2
    · obtain ⟨t, ht, rfl⟩ := List.mem_map.1 ha
      simp only [if_true, if_neg (key t ht).1] at e
      exact absurd e (key t ht).2
    · obtain ⟨t, ht, rfl⟩ := List.mem_map.1 ha
      obtain ⟨u, hu, rfl⟩ := List.mem_map.1 hb
      simp only [if_neg (key t ht).1, if_neg (key u hu).1] at e
      exact r.oinj _ _ e)
  have qn : ∀ t ∈ s.arguments, gn t.node = r.n t.node := fun t ht => by
    rw [hgn _ (List.mem_cons.2 (.inr (List.mem_map.2 ⟨t, ht, rfl⟩))), if_neg (Nat.ne_of_lt (hi.nodesLt t ht))]
  have qo : ∀ t ∈ s.arguments, go t.obj = r.o t.obj := fun t ht => by
    rw [hgo _ (List.mem_cons.2 (.inr (List.mem_map.2 ⟨t, ht, rfl⟩))), if_neg (Nat.ne_of_lt (hi.objsLt t ht))]
  have nn : gn s.nextNode = n := by rw [hgn _ List.mem_cons_self, if_pos rfl]
  have no : go s.nextObj = o := by rw [hgo _ List.mem_cons_self, if_pos rfl]
  have ptr : ∀ p : Option Nat, (∀ x, p = some x → ∃ t ∈ s.arguments, t.obj = x) → p.map r.o = p.map go := by
    intro p h
    cases p with
    | none => rfl
    | some x => obtain ⟨t, ht, rfl⟩ := h x rfl; exact congrArg some (qo t ht).symm
  refine ⟨⟨gn, go, gninj, goinj⟩, fun t ht => (qo t ht).trans (hpl t ht), no, ⟨?_, ?_, hr.keys, hr.keys', ?_, ?_, ?_, ?_, ?_, fun _ => ⟨rfl, rfl⟩⟩⟩
  · show s'.arguments = s.arguments.map _
    rw [hr.args]
    refine List.map_congr_left fun t ht => ?_
    show (⟨r.n t.node, r.o t.obj, t.arg⟩ : Slot D) = ⟨gn t.node, go t.obj, t.arg⟩
    rw [qn t ht, qo t ht]
  · intro x
    show lookupName s'.byName x = (lookupName s.byName x).map gn
    rw [hr.look]
    cases hx : lookupName s.byName x with
    | none => rfl
    | some k =>
      obtain ⟨t, ht, e, _⟩ := hi.entries _ (lookupName_mem hx)
      have e : t.node = k := e
      subst e
      exact congrArg some (qn t ht).symm
  · show s'.helpOption = s.helpOption.map go
    rw [hr.help]
    exact ptr _ fun x hx => by obtain ⟨t, ht, e, _⟩ := hp.help x hx; exact ⟨t, ht, e⟩
  · show s'.versionOption = s.versionOption.map go
    rw [hr.version]
    exact ptr _ fun x hx => by obtain ⟨t, ht, e, _⟩ := hp.version x hx; exact ⟨t, ht, e⟩
  · intro k hk
    have hk : s.nextNode + k = s.nextNode := hk
    obtain rfl : k = 0 := by omega
    exact nn
  · intro k hk
    have hk : s.nextObj + k = s.nextObj := hk
    obtain rfl : k = 0 := by omega
    exact no
  · exact hr.plain

/-- A correct call on corresponding states. -/
theorem Mirror.call {scan : Str → Option D} {place : Nat → Nat} {s s' : State D} (h : Mirror place s s') (hi : Inv s)
    (hp : s.Ptrs) {op : Op} (hop : Proper s op) {n o : Nat} (hu : Unused s' n o) :
    (stepAt scan n o s' (Op.rename place op)).2 = (step scan s op).2 ∧
    ((step scan s op).2.goesOn = true → Mirror (fun i => if i = s.nextObj then o else place i)
      (step scan s op).1 (stepAt scan n o s' (Op.rename place op)).1) := by
  obtain ⟨q, hq, hqo, hqr⟩ := h.aim hi hp hu
  have hs := hqr.step scan (op := op) ⟨rfl, rfl⟩
  have eop : q.op op = Op.rename place op := by
    rw [Ren.op_eq]
    have : ∀ ref, op.ref = some ref → q.o ref = place ref := by
      intro ref hr
      cases ht : s.atObj ref with
      | none => exact absurd ht (hop.live ref hr)
      | some t =>
        obtain ⟨hm, rfl⟩ := State.atObj_some ht
        exact hq t hm
    cases op <;> simp only [Op.rename] <;> rw [this _ rfl]
  rw [eop] at hs
  have b1 := step_books scan s op
  have b2 := step_books scan { s' with nextNode := n, nextObj := o } (Op.rename place op)
  rw [show State.unbooked { s' with nextNode := n, nextObj := o } = { s'.unbooked with nextNode := n, nextObj := o } from rfl] at b2
  have e2 : (stepAt scan n o s' (Op.rename place op)).2 = (step scan s op).2 := by
    unfold stepAt
    rw [b2, b1]
    exact hs.2
  refine ⟨e2, fun hg => ?_⟩
  have hi' : Inv (step scan s op).1 := step_inv hi op hg
  have obj : ∀ t ∈ (step scan s op).1.arguments, q.o t.obj = if t.obj = s.nextObj then o else place t.obj := by
    intro t ht
    rcases step_slots hi op hg ht with ⟨u, hu, hc⟩ | hf
    · rcases hc.obj with e | ⟨_, e⟩
      · rw [e, if_neg (Nat.ne_of_lt (hi.objsLt u hu))]; exact hq u hu
      · rw [e, if_pos rfl]; exact hqo
    · rw [hf.obj, if_pos rfl]; exact hqo
  have hnext := step_creates hi op hg
  have fr1 : (step scan s op).1.freedObjs = s.freedObjs ++ (step scan s.unbooked op).1.freedObjs := by rw [b1]
  have fr2 : (stepAt scan n o s' (Op.rename place op)).1.freedObjs =
      s'.freedObjs ++ (step scan { s'.unbooked with nextNode := n, nextObj := o } (Op.rename place op)).1.freedObjs := by
    unfold stepAt; rw [b2]
  have fv1 : (step scan s op).1.freedValids = s.freedValids ++ (step scan s.unbooked op).1.freedValids := by rw [b1]
  have fv2 : (stepAt scan n o s' (Op.rename place op)).1.freedValids =
      s'.freedValids ++ (step scan { s'.unbooked with nextNode := n, nextObj := o } (Op.rename place op)).1.freedValids := by
    unfold stepAt; rw [b2]
  obtain ⟨k1, k2⟩ := hs.1.books trivial
  refine ⟨⟨q, ?_, obj⟩, ?_, ?_⟩
  · have hr := hs.1
    unfold stepAt
    rw [b2, b1]
    exact ⟨hr.args, hr.look, hr.keys, hr.keys', hr.help, hr.version, fun _ h => h.elim, fun _ h => h.elim, hr.plain, fun h => h.elim⟩
  · rw [fr1, fr2, List.map_append, h.freed, k1]
    congr 1
    · refine List.map_congr_left fun x hx => ?_
      rw [if_neg (Nat.ne_of_lt (hi.freedLt x hx))]
    · refine List.map_congr_left fun x hx => ?_
      have hnd := hi'.freedNodup
      rw [fr1, List.nodup_append] at hnd
      have hlt := hi'.freedLt x (by rw [fr1]; exact List.mem_append.2 (.inr hx))
      by_cases e : x = s.nextObj
      · rw [if_pos e, e]; exact hqo
      · rw [if_neg e]
        rcases hi.noLeak x (by omega) with hf | ⟨t, ht, rfl⟩
        · exact absurd rfl (hnd.2.2 x hf x hx)
        · exact hq t ht
  · rw [fv1, fv2, h.freedValids, k2]

theorem Spec.SideBySide.history {scan : Str → Option D} {place : Nat → Nat} {s s' : State D} (h : SideBySide scan place s s') :
    ReachableBy scan (fun st op _ => Proper st op) s := by
  induction h with
  | init => exact .init
  | step op n o _ hop hg _ ih => exact .step op ih hg hop

theorem Spec.SideBySide.mirror {scan : Str → Option D} {place : Nat → Nat} {s s' : State D} (h : SideBySide scan place s s') :
    Mirror place s s' := by
  induction h with
  | init place =>
    refine ⟨⟨⟨id, id, fun _ _ e => e, fun _ _ e => e⟩, ⟨rfl, fun _ => rfl, List.nodup_nil, List.nodup_nil, rfl, rfl, fun _ h => h.elim,
      fun _ h => h.elim, rfl, fun h => h.elim⟩, ?_⟩, rfl, rfl⟩
    intro t ht; cases ht
  | step op n o h hop hg hu ih =>
    have hp : State.Ptrs _ := (h.history.mono (Q := PtrSafe) fun st op r hp => hp.keepsHelp).ptrs
    exact (ih.call h.history.reachable.inv hp hop hu).2 hg

/-! ### C82 -/

/-- C82. A correct program cannot find out where the allocator puts the objects, nor that it uses the addresses of
deleted objects again: at every moment of the two runs the parsers show the same arguments, values, settings and usage
text, the same values were written to the destinations, corresponding references lead to the same argument, and the next
call – whatever it is, and wherever it puts a new object – ends in the same way, with the same exception or output. So
all that is proved of the model (where addresses are not used again) holds with any allocator. -/
theorem C82_any_allocator {scan : Str → Option D} {place : Nat → Nat} {s s' : State D} (h : SideBySide scan place s s') :
    visible s' = visible s ∧ s'.destLog = s.destLog ∧
    (∀ ref, s.atObj ref ≠ none → (s'.atObj (place ref)).map (·.arg) = (s.atObj ref).map (·.arg)) ∧
    ∀ op, Proper s op → ∀ n o, Unused s' n o → (stepAt scan n o s' (Op.rename place op)).2 = (step scan s op).2 := by
  have hm := h.mirror
  obtain ⟨r, hr, hpl⟩ := hm.ren
  have hp : s.Ptrs := (h.history.mono (Q := PtrSafe) fun st op r hp => hp.keepsHelp).ptrs
  refine ⟨hr.visible, hr.get (fun x => x.destLog) fun _ => rfl, fun ref hl => ?_, fun op hop n o hu =>
    (hm.call h.history.reachable.inv hp hop hu).1⟩
  cases ht : s.atObj ref with
  | none => exact absurd ht hl
  | some t =>
    obtain ⟨hmem, rfl⟩ := State.atObj_some ht
    rw [← hpl t hmem, hr.atObj, ht]
    rfl

/-- The references handed out correspond: a call that returns the next reference of the first run returns the address
chosen by the allocator in the second. -/
theorem C82_references {scan : Str → Option D} {place : Nat → Nat} {s s' : State D} (h : SideBySide scan place s s')
    {n o : Nat} (hu : Unused s' n o) :
    (∀ names, (∀ v, (s.addArgument names).2 = .ok v → v = s.nextObj ∧
        ({ s' with nextNode := n, nextObj := o }.addArgument names).2 = .ok o) ∧
      ∀ e, (s.addArgument names).2 = .throw e → ({ s' with nextNode := n, nextObj := o }.addArgument names).2 = .throw e) ∧
    ∀ ref d, s.atObj ref ≠ none → (s.setDest ref d).2 = .ok s.nextObj ∧
      ({ s' with nextNode := n, nextObj := o }.setDest (place ref) d).2 = .ok o := by
  have hm := h.mirror
  have hi := h.history.reachable.inv
  have hp : s.Ptrs := (h.history.mono (Q := PtrSafe) fun st op r hp => hp.keepsHelp).ptrs
  obtain ⟨q, hq, hqo, hqr⟩ := hm.aim hi hp hu
  have hr : RenamedIn ⟨(· = s.nextNode), (· = s.nextObj), False⟩ q s { s' with nextNode := n, nextObj := o } :=
    ⟨hqr.args, hqr.look, hqr.keys, hqr.keys', hqr.help, hqr.version, hqr.node, hqr.obj, hqr.plain, fun h => h.elim⟩
  have ids : ∀ names v, (s.addArgument names).2 = .ok v → v = s.nextObj := by
    intro names v e
    have ho := addArgument_outcome hi names
    revert e
    generalize s.addArgument names = x at ho
    intro e
    cases ho <;> cases e <;> rfl
  refine ⟨fun names => ⟨fun v e => ?_, fun e he => ?_⟩, fun ref d hl => ?_⟩
  · have := (hr.add ⟨rfl, rfl⟩ names).2
    rw [e] at this
    obtain rfl := ids names v e
    exact ⟨rfl, this.trans (congrArg Res.ok hqo)⟩
  · have := (hr.add ⟨rfl, rfl⟩ names).2
    rw [he] at this
    exact this
  · cases ht : s.atObj ref with
    | none => exact absurd ht hl
    | some t =>
      obtain ⟨hmem, rfl⟩ := State.atObj_some ht
      have h1 : (s.setDest t.obj d).2 = .ok s.nextObj := by rw [setDest_eq ht]
      have := (hr.setDest rfl t.obj d).2
      rw [h1, hq t hmem] at this
      exact ⟨h1, this.trans (congrArg Res.ok hqo)⟩

/-- Two live references of the program are never at the same address; and what the second run has deleted so far is, in
order, what the first run has deleted – each object at most once (C54), the validators handed over included. -/
theorem C82_memory {scan : Str → Option D} {place : Nat → Nat} {s s' : State D} (h : SideBySide scan place s s') :
    (∀ a b, s.atObj a ≠ none → s.atObj b ≠ none → place a = place b → a = b) ∧
    s'.freedObjs = s.freedObjs.map place ∧ s'.freedValids = s.freedValids := by
  have hm := h.mirror
  obtain ⟨r, hr, hpl⟩ := hm.ren
  refine ⟨fun a b ha hb e => ?_, hm.freed, hm.freedValids⟩
  cases hta : s.atObj a with
  | none => exact absurd hta ha
  | some t =>
    cases htb : s.atObj b with
    | none => exact absurd htb hb
    | some u =>
      obtain ⟨h1, rfl⟩ := State.atObj_some hta
      obtain ⟨h2, rfl⟩ := State.atObj_some htb
      rw [← hpl t h1, ← hpl u h2] at e
      exact r.oinj _ _ e

/-- Two runs side by side: each call with the addresses the allocator would choose. -/
def runBeside (scan : Str → Option D) : (Nat → Nat) × State D × State D → List (Op × Nat × Nat) →
    (Nat → Nat) × State D × State D
  | x, [] => x
  | (place, s, s'), (op, n, o) :: l =>
    runBeside scan (fun i => if i = s.nextObj then o else place i, (step scan s op).1,
      (stepAt scan n o s' (Op.rename place op)).1) l

def besideOk (scan : Str → Option D) : (Nat → Nat) × State D × State D → List (Op × Nat × Nat) → Bool
  | _, [] => true
  | (place, s, s'), (op, n, o) :: l =>
    properB s op && (step scan s op).2.goesOn && s'.arguments.all (fun t => t.node != n && t.obj != o) &&
    besideOk scan (fun i => if i = s.nextObj then o else place i, (step scan s op).1,
      (stepAt scan n o s' (Op.rename place op)).1) l

theorem beside {scan : Str → Option D} {x : (Nat → Nat) × State D × State D} (h : SideBySide scan x.1 x.2.1 x.2.2)
    (l : List (Op × Nat × Nat)) (hl : besideOk scan x l = true) :
    SideBySide scan (runBeside scan x l).1 (runBeside scan x l).2.1 (runBeside scan x l).2.2 := by
  induction l generalizing x with
  | nil => exact h
  | cons c l ih =>
    obtain ⟨place, s, s'⟩ := x
    obtain ⟨op, n, o⟩ := c
    simp only [besideOk, Bool.and_eq_true] at hl
    obtain ⟨⟨⟨h1, h2⟩, h3⟩, h4⟩ := hl
    refine ih (.step op n o h (properB_sound h1) h2 ?_) h4
    intro t ht
    simpa using List.all_eq_true.1 h3 t ht

/-- A program, and an allocator that always takes the first free address: the option `-w` gets the address of `-v`. -/
def stingy : List (Op × Nat × Nat) :=
  [(.add ["-v".toList], 0, 0), (.add ["-o".toList, "--out".toList], 1, 1), (.nargs 1 1, 2, 2),
   (.dest 1 ⟨7, .scalar, false, true, fun _ => none⟩, 2, 2), (.remove ["-v".toList], 2, 1), (.add ["-w".toList], 0, 0),
   (.action 3 .version, 2, 1), (.parse (["prog", "-o", "x"].map String.toList), 2, 1),
   (.remove ["-h".toList, "--help".toList], 3, 3), (.add ["-q".toList], 2, 1)]

def stingyRun : (Nat → Nat) × State Unit × State Unit := runBeside demoScan (id, State.init, State.init) stingy

/-- The two runs: reference 3 (`-w`) is at the address 0, where reference 0 (`-v`) was before, and reference 5 (`-q`) at the
address of both 1 and 4. -/
example : SideBySide demoScan stingyRun.1 stingyRun.2.1 stingyRun.2.2 ∧ stingyRun.1 3 = stingyRun.1 0 ∧
    stingyRun.1 5 = 1 ∧ stingyRun.1 4 = 1 ∧ stingyRun.1 1 = 1 ∧ stingyRun.2.1.destLog ≠ [] ∧
    stingyRun.2.1.freedObjs = [1, 0, 4] ∧ stingyRun.2.2.freedObjs = [1, 0, 1] ∧
    Proper stingyRun.2.1 (.flag 5 "--quick".toList) ∧ Unused stingyRun.2.2 5 5 :=
  ⟨beside (x := (id, State.init, State.init)) (.init id) _ (by decide +kernel), by decide +kernel, by decide +kernel,
    by decide +kernel, by decide +kernel, by decide +kernel, by decide +kernel, by decide +kernel,
    properB_sound (by decide +kernel), by
      have : stingyRun.2.2.arguments.all (fun t => t.node != 5 && t.obj != 5) = true := by decide +kernel
      intro t ht; simpa using List.all_eq_true.1 this t ht⟩

/-- The condition on `dest()` is needed: a program that gives a destination to its help option and then declares another
help option is refused or not, according to the address of the new one. -/
def careless : State Unit :=
  runOps demoScan State.init [.add ["-h".toList], .action 0 .help, .dest 0 ⟨7, .scalar, false, true, fun _ => none⟩]

theorem C82_stale_help :
    Reachable demoScan careless ∧ Unused careless 1 0 ∧ Unused careless 1 2 ∧
    (∃ e, (step demoScan (stepAt demoScan 1 2 careless (.add ["-x".toList])).1 (.action 2 .help)).2 = .throw e) ∧
    (step demoScan (stepAt demoScan 1 0 careless (.add ["-x".toList])).1 (.action 0 .help)).2 = .ok () := by
  refine ⟨reachable_runOps .init _ (by decide +kernel), ?_, ?_, ?_, by decide +kernel⟩
  · have : careless.arguments.all (fun t => t.node != 1 && t.obj != 0) = true := by decide +kernel
    intro t ht; simpa using List.all_eq_true.1 this t ht
  · have : careless.arguments.all (fun t => t.node != 1 && t.obj != 2) = true := by decide +kernel
    intro t ht; simpa using List.all_eq_true.1 this t ht
  · have : ((step demoScan (stepAt demoScan 1 2 careless (.add ["-x".toList])).1 (.action 2 .help)).2 matches .throw _) = true := by
      decide +kernel
    revert this
    generalize (step demoScan (stepAt demoScan 1 2 careless (.add ["-x".toList])).1 (.action 2 .help)).2 = x
    intro h
    cases x with
    | throw e => exact ⟨e, rfl⟩
    | _ => cases h

end BletArgs
