import Verif.Lemmas.Withdraw
import Verif.Props.Within
/-
C100: names may be withdrawn in several calls of `removeArguments`, in any order.
-/
namespace BletArgs
open Spec
variable {D : Type}

theorem afterRemove_some {rm : List Str} {m : List (Str × Nat)} {s x : Slot D} (h : afterRemove rm m s = some x) :
    x.node = s.node ∧ x.obj = s.obj ∧ x.arg.isPositional = s.arg.isPositional ∧ x.arg.isRequired = s.arg.isRequired := by
  unfold afterRemove at h
  split at h
  · cases h; exact ⟨rfl, rfl, rfl, rfl⟩
  · cases h

theorem contains_perm {rm rm' : List Str} (hp : rm.Perm rm') (x : Str) : rm.contains x = rm'.contains x := by
  rw [Bool.eq_iff_iff, List.contains_iff_mem, List.contains_iff_mem, hp.mem_iff]

theorem afterRemove_perm {rm rm' : List Str} (hp : rm.Perm rm') (m : List (Str × Nat)) (s : Slot D) :
    afterRemove rm m s = afterRemove rm' m s := by
  unfold afterRemove
  have h1 : (rm.filter fun n => lookupName m n == some s.node).foldl List.erase s.arg.names =
      (rm'.filter fun n => lookupName m n == some s.node).foldl List.erase s.arg.names :=
    (hp.filter _).foldl_eq' (fun x _ y _ z => List.erase_comm x y) _
  simp only [contains_perm hp, h1]

theorem afterRemove_append {a b : List Str} (hn : (a ++ b).Nodup) (m : List (Str × Nat)) (s : Slot D) :
    (afterRemove a m s).bind (afterRemove b (m.filter (fun p => !a.contains p.1))) = afterRemove (a ++ b) m s := by
  induction a generalizing m s with
  | nil =>
    have e : m.filter (fun p => !([] : List Str).contains p.1) = m := by rw [List.filter_eq_self]; simp
    rw [e, List.nil_append]
    cases hc : m.any (fun p => p.2 == s.node) with
    | true =>
      have : afterRemove [] m s = some s := by
        unfold afterRemove
        simp [hc]
      rw [this]; rfl
    | false =>
      have h1 : afterRemove [] m s = none := by
        unfold afterRemove
        simp [hc]
      have h2 : afterRemove b m s = none := by
        unfold afterRemove
        rw [if_neg]
        intro h
        rw [List.any_eq_true] at h
        obtain ⟨p, hp, h⟩ := h
        rw [List.any_eq_false] at hc
        simp only [Bool.and_eq_true] at h
        exact hc p hp h.1
      rw [h1, h2]; rfl
  | cons n a ih =>
    rw [List.cons_append, List.nodup_cons] at hn
    have h1 : n ∉ a := fun h => hn.1 (by simp [h])
    rw [← afterRemove_comp m n a h1 s, Option.bind_assoc]
    rw [show ((n :: a) ++ b) = n :: (a ++ b) from rfl, ← afterRemove_comp m n (a ++ b) hn.1 s]
    congr 1
    funext x
    rw [← ih hn.2, filter_filter_names]

/-- The argument behind the reference loses its last name. -/
def gone (st : State D) (rm : List Str) (o : Nat) : Prop :=
  ∃ s ∈ st.arguments, s.obj = o ∧ afterRemove rm st.byName s = none

/-- What removing names does, but for the order of the arguments. -/
structure Removed (st : State D) (rm : List Str) (s' : State D) : Prop where
  mem : ∀ x, x ∈ s'.arguments ↔ ∃ s ∈ st.arguments, afterRemove rm st.byName s = some x
  map : s'.byName = st.byName.filter (fun p => !rm.contains p.1)
  help : ∀ o, s'.helpOption = some o ↔ st.helpOption = some o ∧ ¬gone st rm o
  version : ∀ o, s'.versionOption = some o ↔ st.versionOption = some o ∧ ¬(gone st rm o ∧ st.helpOption ≠ some o)
  node : s'.nextNode = st.nextNode
  obj : s'.nextObj = st.nextObj
  plain : s'.plain = st.plain

theorem Removed.gone_append {st s1 : State D} {a b : List Str} (h : Removed st a s1) (hn : (a ++ b).Nodup) (o : Nat) :
    gone st (a ++ b) o ↔ gone st a o ∨ gone s1 b o := by
  unfold gone
  constructor
  · rintro ⟨s, hs, ho, hg⟩
    rw [← afterRemove_append hn] at hg
    cases hx : afterRemove a st.byName s with
    | none => exact .inl ⟨s, hs, ho, hx⟩
    | some x =>
      rw [hx] at hg
      refine .inr ⟨x, (h.mem x).2 ⟨s, hs, hx⟩, (afterRemove_some hx).2.1.trans ho, ?_⟩
      rw [h.map]
      exact hg
  · rintro (⟨s, hs, ho, hg⟩ | ⟨x, hx, ho, hg⟩)
    · exact ⟨s, hs, ho, by rw [← afterRemove_append hn, hg]; rfl⟩
    · obtain ⟨s, hs, e⟩ := (h.mem x).1 hx
      refine ⟨s, hs, (afterRemove_some e).2.1.symm.trans ho, ?_⟩
      rw [← afterRemove_append hn, e, ← h.map]
      exact hg

theorem Removed.comp {st s1 s2 : State D} {a b : List Str} (hi : PreInvS st) (h : Removed st a s1) (h' : Removed s1 b s2)
    (hn : (a ++ b).Nodup) : Removed st (a ++ b) s2 := by
  refine ⟨fun x => ?_, ?_, fun o => ?_, fun o => ?_, h'.node.trans h.node, h'.obj.trans h.obj, h'.plain.trans h.plain⟩
  · rw [h'.mem]
    constructor
    · rintro ⟨y, hy, e⟩
      obtain ⟨s, hs, e1⟩ := (h.mem y).1 hy
      exact ⟨s, hs, by rw [← afterRemove_append hn, e1, ← h.map]; exact e⟩
    · rintro ⟨s, hs, e⟩
      rw [← afterRemove_append hn] at e
      obtain ⟨y, e1, e2⟩ := Option.bind_eq_some_iff.1 e
      exact ⟨y, (h.mem y).2 ⟨s, hs, e1⟩, by rw [h.map]; exact e2⟩
  · rw [h'.map, h.map, List.filter_filter]
    congr 1
    funext p
    rw [List.contains_append]
    cases a.contains p.1 <;> simp
  · rw [h'.help, h.help, h.gone_append hn]
    constructor
    · rintro ⟨⟨h1, h2⟩, h3⟩
      exact ⟨h1, fun h => h.elim h2 h3⟩
    · rintro ⟨h1, h2⟩
      exact ⟨⟨h1, fun h => h2 (.inl h)⟩, fun h => h2 (.inr h)⟩
  · rw [h'.version, h.version, h.gone_append hn]
    have hh := h.help o
    have both : gone st a o → ¬gone s1 b o := by
      rintro ⟨s, hs, ho, hg⟩ ⟨x, hx, hxo, -⟩
      obtain ⟨t, ht, e⟩ := (h.mem x).1 hx
      have : t = s := inj_of_nodup Slot.obj hi.objs ht hs (by rw [← (afterRemove_some e).2.1, hxo, ho])
      rw [this, hg] at e
      cases e
    constructor
    · rintro ⟨⟨h1, h2⟩, h3⟩
      refine ⟨h1, ?_⟩
      rintro ⟨h4 | h4, h5⟩
      · exact h2 ⟨h4, h5⟩
      · exact h3 ⟨h4, fun h => h5 (hh.1 h).1⟩
    · rintro ⟨h1, h2⟩
      refine ⟨⟨h1, fun h => h2 ⟨.inl h.1, h.2⟩⟩, ?_⟩
      rintro ⟨h3, h4⟩
      exact h2 ⟨.inr h3, fun h5 => h4 (hh.2 ⟨h5, fun h6 => both h6 h3⟩)⟩

theorem Removed.nothing {st : State D} (hi : PreInvS st) : Removed st [] st := by
  have key : ∀ s ∈ st.arguments, afterRemove [] st.byName s = some s := by
    intro s hs
    obtain ⟨k, _, h⟩ := hi.named s hs
    unfold afterRemove
    rw [if_pos (List.any_eq_true.2 ⟨_, h, by simp⟩)]
    rfl
  have hg : ∀ o, ¬gone st [] o := by
    rintro o ⟨s, hs, -, e⟩
    rw [key s hs] at e; cases e
  refine ⟨fun x => ⟨fun hx => ⟨x, hx, key x hx⟩, ?_⟩, ?_, fun o => ?_, fun o => ?_, rfl, rfl, rfl⟩
  · rintro ⟨s, hs, e⟩
    rw [key s hs] at e; cases e; exact hs
  · symm; rw [List.filter_eq_self]; simp
  · simp [hg]
  · simp [hg]

theorem Removed.one {st : State D} (hi : PreInvS st) {n : Str} {s : Slot D} (hs : s ∈ st.arguments)
    (hl : lookupName st.byName n = some s.node) : Removed st [n] (st.removeStep n s) := by
  have hsame : ∀ t ∈ st.arguments, t.node = s.node → t = s := fun t ht e => inj_of_nodup Slot.node hi.nodes ht hs e
  have hg : ∀ o, gone st [n] o ↔ o = s.obj ∧ (st.byName.filter (fun p => !(p.1 == n))).any (fun p => p.2 == s.node) = false := by
    intro o
    have hany : (st.byName.any fun p => p.2 == s.node && ![n].contains p.1) =
        (st.byName.filter (fun p => !(p.1 == n))).any (fun p => p.2 == s.node) := by
      rw [List.any_filter]
      congr 1
      funext p
      simp only [List.contains_cons, List.contains_nil, Bool.or_false]
      rw [Bool.and_comm]
    rw [← hany]
    constructor
    · rintro ⟨t, ht, rfl, e⟩
      unfold afterRemove at e
      split at e
      · cases e
      · rename_i hc
        by_cases hts : t.node = s.node
        · obtain rfl := hsame t ht hts
          exact ⟨rfl, by simpa using hc⟩
        · exfalso
          obtain ⟨k, h3, h4⟩ := hi.named t ht
          have hk : k ≠ n := by
            rintro rfl
            have := lookupName_of_mem hi.keys h4
            rw [hl] at this
            exact hts (Option.some.inj this).symm
          exact hc (List.any_eq_true.2 ⟨_, h4, by simp [hk]⟩)
    · rintro ⟨rfl, e⟩
      refine ⟨s, hs, rfl, ?_⟩
      unfold afterRemove
      rw [e]
      rfl
  refine ⟨fun x => ?_, ?_, ?_, ?_, ?_, ?_, ?_⟩
  · rw [removeStep_arguments hi hs hl, List.mem_filterMap]
  · rw [removeStep_byName]
    congr 1
    funext p
    by_cases e : p.1 = n <;> simp [e]
  · unfold State.removeStep
    simp only
    cases c : (st.byName.filter (fun p => !(p.1 == n))).any (fun p => p.2 == s.node) with
    | true => simp [hg, c]
    | false =>
      simp only [hg, c, Bool.false_eq_true, if_false, and_true]
      intro o
      by_cases e : st.helpOption = some s.obj
      · simp only [e, beq_self_eq_true, if_true]
        constructor
        · intro h; cases h
        · rintro ⟨h, h2⟩; cases h; exact absurd rfl h2
      · have : (st.helpOption == some s.obj) = false := by simpa using e
        simp only [this, Bool.false_eq_true, if_false]
        exact ⟨fun h => ⟨h, by rintro rfl; exact e h⟩, fun h => h.1⟩
  · unfold State.removeStep
    simp only
    cases c : (st.byName.filter (fun p => !(p.1 == n))).any (fun p => p.2 == s.node) with
    | true => simp [hg, c]
    | false =>
      simp only [hg, c, Bool.false_eq_true, if_false, and_true]
      intro o
      by_cases e : st.helpOption = some s.obj
      · simp only [e, beq_self_eq_true, if_true]
        exact ⟨fun h => ⟨h, by rintro ⟨rfl, h2⟩; exact h2 rfl⟩, fun h => h.1⟩
      · have : (st.helpOption == some s.obj) = false := by simpa using e
        simp only [this, Bool.false_eq_true, if_false]
        by_cases e2 : st.versionOption = some s.obj
        · simp only [e2, beq_self_eq_true, if_true]
          constructor
          · intro h; cases h
          · rintro ⟨h, h2⟩; cases h; exact absurd ⟨rfl, e⟩ h2
        · have : (st.versionOption == some s.obj) = false := by simpa using e2
          simp only [this, Bool.false_eq_true, if_false]
          exact ⟨fun h => ⟨h, by rintro ⟨rfl, -⟩; exact e2 h⟩, fun h => h.1⟩
  · unfold State.removeStep; simp only; split <;> rfl
  · unfold State.removeStep; simp only; split <;> rfl
  · unfold State.removeStep; simp only; split <;> rfl

theorem Removed.loop (rm : List Str) {st : State D} (hi : PreInvS st) (hnd : rm.Nodup)
    (hreg : ∀ n ∈ rm, (lookupName st.byName n).isSome = true) : Removed st rm (State.removeLoop rm st).1 := by
  induction rm generalizing st with
  | nil => exact .nothing hi
  | cons n ns ih =>
    obtain ⟨node, hl⟩ := Option.isSome_iff_exists.1 (hreg n (by simp))
    obtain ⟨s, hs, h1, h2, h3⟩ := removeLoop_cons hi hl
    have hnd' := hnd
    rw [List.nodup_cons] at hnd
    have hl' : lookupName st.byName n = some s.node := h1 ▸ hl
    have hp := removeStep_preInv hi hs hl'
    rw [h3]
    exact (Removed.one hi hs hl').comp (a := [n]) hi (ih hp hnd.2 (fun k hk => by
      rw [removeStep_byName, filter_lookup, if_neg]
      · exact hreg k (by simp [hk])
      · rintro rfl; exact hnd.1 hk)) hnd'

theorem Removed.statement {st : State D} (hi : Inv st) {rm : List Str} (hne : rm ≠ []) (hnd : rm.Nodup)
    (hreg : ∀ n ∈ rm, (lookupName st.byName n).isSome = true) :
    (st.removeArguments rm).2 = .ok () ∧ Inv (st.removeArguments rm).1 ∧ Removed st rm (st.removeArguments rm).1 ∧
    ∀ b, queue b (st.removeArguments rm).1.arguments = (queue b st.arguments).filter (fun n => !rm.contains n) := by
  obtain ⟨s', e, i, m, a⟩ := removeArguments_ok hi hne hnd hreg
  have r := Removed.loop rm hi.toPreInv hnd hreg
  have e' := removeArguments_runs hi hne hnd hreg
  refine ⟨by rw [e], by rw [e]; exact i, ?_, ?_⟩
  · rw [e']
    refine ⟨fun x => ?_, r.map, r.help, r.version, r.node, r.obj, r.plain⟩
    show x ∈ stableSort slotLt _ ↔ _
    rw [mem_stableSort, r.mem]
  · intro b
    rw [e]
    simp only
    rw [a, queue_sort]
    unfold queue
    have key : ∀ l : List (Slot D), (∀ s ∈ l, s ∈ st.arguments) →
        ((l.filterMap (afterRemove rm st.byName)).filter (inClass b)).map (·.arg.front) =
          ((l.filter (inClass b)).map (·.arg.front)).filter (fun n => !rm.contains n) := by
      intro l hl
      induction l with
      | nil => rfl
      | cons s l ih =>
        have ih := ih fun t ht => hl t (by simp [ht])
        have hs := hl s (by simp)
        have hcls : ∀ x, afterRemove rm st.byName s = some x → inClass b x = inClass b s := by
          intro x hx
          obtain ⟨-, -, h3, h4⟩ := afterRemove_some hx
          unfold inClass
          rw [h3, h4]
        rw [List.filterMap_cons, List.filter_cons]
        by_cases hc : inClass b s = true
        · rw [if_pos hc, List.map_cons, List.filter_cons]
          have hp : s.arg.isPositional = true := by
            unfold inClass at hc
            simp only [Bool.and_eq_true] at hc
            exact hc.1
          obtain ⟨k, hk, -⟩ := (hi.forms s hs).positional hp
          have hf : s.arg.front = k := by unfold Argument.front; rw [hk]; rfl
          have hent : ∀ q, (q, s.node) ∈ st.byName → q = k := by
            intro q hq
            obtain ⟨u, hu, g1, g2⟩ := hi.entries _ hq
            obtain rfl := eq_of_node hi hs hu g1
            rw [hk] at g2
            simpa using g2
          have hkm : (k, s.node) ∈ st.byName := by
            obtain ⟨q, -, hq⟩ := hi.named s hs
            rwa [hent q hq] at hq
          rw [hf]
          by_cases hin : k ∈ rm
          · have : afterRemove rm st.byName s = none := by
              unfold afterRemove
              rw [if_neg]
              intro h
              obtain ⟨p, hp, h⟩ := List.any_eq_true.1 h
              simp only [Bool.and_eq_true, beq_iff_eq, Bool.not_eq_true'] at h
              obtain ⟨h1, h2⟩ := h
              have := hent p.1 (by rw [← h1]; exact hp)
              rw [this] at h2
              rw [← List.contains_iff_mem] at hin
              rw [hin] at h2
              cases h2
            rw [this]
            simp only
            rw [ih]
            simp [hin]
          · have : afterRemove rm st.byName s = some s := by
              unfold afterRemove
              rw [if_pos]
              · have : (rm.filter fun n => lookupName st.byName n == some s.node) = [] := by
                  rw [List.filter_eq_nil_iff]
                  intro q hq h
                  simp only [beq_iff_eq] at h
                  exact hin (hent q (lookupName_mem h) ▸ hq)
                rw [this]
                rfl
              · exact List.any_eq_true.2 ⟨_, hkm, by simp [hin]⟩
            rw [this]
            simp only
            rw [List.filter_cons, if_pos hc, List.map_cons, ih, hf]
            simp [hin]
        · rw [if_neg hc]
          cases hx : afterRemove rm st.byName s with
          | none => exact ih
          | some x =>
            simp only
            rw [List.filter_cons, hcls x hx, if_neg hc]
            exact ih
    exact key _ fun _ h => h

theorem removals {scan : Str → Option D} (rms : List (List Str)) {st : State D} (hi : Inv st)
    (hs : Succeeds scan st (rms.map .remove)) :
    Inv (Spec.after scan st (rms.map .remove)) ∧ rms.flatten.Nodup ∧
    (∀ n ∈ rms.flatten, (lookupName st.byName n).isSome = true) ∧
    Removed st rms.flatten (Spec.after scan st (rms.map .remove)) ∧
    ∀ b, queue b (Spec.after scan st (rms.map .remove)).arguments =
      (queue b st.arguments).filter (fun n => !rms.flatten.contains n) := by
  induction rms generalizing st with
  | nil =>
    refine ⟨hi, List.nodup_nil, by simp, .nothing hi.toPreInv, fun b => ?_⟩
    exact (List.filter_eq_self.2 (by simp)).symm
  | cons rm rms ih =>
    rw [List.map_cons, succeeds_cons] at hs
    obtain ⟨h1, h2⟩ := hs
    have h1' : (st.removeArguments rm).2 = .ok () := h1
    rw [List.map_cons, after_cons_ok _ h1]
    rw [show (step scan st (.remove rm)).1 = (st.removeArguments rm).1 from rfl] at h2 ⊢
    rcases removeArguments_cases hi rm with ⟨_, h⟩ | ⟨n, _, h⟩ | ⟨_, _, _, w, h⟩ | ⟨c1, c2, c3, -⟩
    · rw [h] at h1'; cases h1'
    · rw [h] at h1'; cases h1'
    · rw [h] at h1'; cases h1'
    · obtain ⟨-, i, r, q⟩ := Removed.statement hi c1 c3 c2
      obtain ⟨j1, j2, j3, j4, j5⟩ := ih i h2
      rw [List.flatten_cons]
      have hlook : ∀ n, (lookupName (st.removeArguments rm).1.byName n).isSome = true →
          n ∉ rm ∧ (lookupName st.byName n).isSome = true := by
        intro n h
        obtain ⟨k, hk⟩ := Option.isSome_iff_exists.1 h
        have := lookupName_mem hk
        rw [r.map, List.mem_filter] at this
        refine ⟨by simpa using this.2, ?_⟩
        rw [lookupName_of_mem hi.keys this.1]
        rfl
      have hnd : (rm ++ rms.flatten).Nodup := by
        rw [List.nodup_append]
        refine ⟨c3, j2, ?_⟩
        rintro x hx y hy rfl
        exact (hlook x (j3 x hy)).1 hx
      refine ⟨j1, hnd, ?_, r.comp hi.toPreInv j4 hnd, ?_⟩
      · intro n hn
        rcases List.mem_append.1 hn with h | h
        · exact c2 n h
        · exact (hlook n (j3 n h)).2
      · intro b
        rw [j5, q, List.filter_filter]
        congr 1
        funext x
        rw [List.contains_append]
        cases rm.contains x <;> simp

theorem removals_succeed {scan : Str → Option D} (rms : List (List Str)) {st : State D} (hi : Inv st)
    (hne : ∀ rm ∈ rms, rm ≠ []) (hnd : rms.flatten.Nodup)
    (hreg : ∀ n ∈ rms.flatten, (lookupName st.byName n).isSome = true) : Succeeds scan st (rms.map .remove) := by
  induction rms generalizing st with
  | nil => intro r hr; cases hr
  | cons rm rms ih =>
    rw [List.flatten_cons] at hnd hreg
    rw [List.nodup_append] at hnd
    obtain ⟨n1, n2, n3⟩ := hnd
    obtain ⟨h1, i, r, -⟩ := Removed.statement hi (hne rm (by simp)) n1 (fun n hn => hreg n (by simp [hn]))
    rw [List.map_cons, succeeds_cons]
    refine ⟨h1, ?_⟩
    show Succeeds scan (st.removeArguments rm).1 _
    refine ih i (fun x hx => hne x (by simp [hx])) n2 fun n hn => ?_
    obtain ⟨k, hk⟩ := Option.isSome_iff_exists.1 (hreg n (by simp [hn]))
    rw [lookupName_of_mem (v := k) i.keys]
    · rfl
    · rw [r.map, List.mem_filter]
      refine ⟨lookupName_mem hk, ?_⟩
      have : n ∉ rm := fun h => n3 n h n hn rfl
      simpa using this

/-- The parsers after the same removals. -/
theorem Removed.same {st s s' : State D} {rm rm' : List Str} (hp : rm.Perm rm') (hi : Inv s) (hi' : Inv s') (ow : Owned s)
    (h : Removed st rm s) (h' : Removed st rm' s') (hq : ∀ b, queue b s.arguments = queue b s'.arguments) :
    Renamed Ren.refl s s' := by
  have hfix : (Ren.refl.slot : Slot D → Slot D) = id := rfl
  have hgone : ∀ o, gone st rm' o ↔ gone st rm o := by
    intro o
    unfold gone
    simp only [afterRemove_perm hp]
  have args : s.arguments = s'.arguments := by
    refine list_determined hi.sorted hi'.sorted (nodup_of_map hi.nodes) (nodup_of_map hi'.nodes) ?_ ?_ hq
    · intro x
      rw [h.mem, h'.mem]
      simp only [afterRemove_perm hp]
    · exact fun x hx y hy e => front_unique hi ow hx hy e
  have hmap : s'.byName = s.byName := by
    rw [h.map, h'.map]
    simp only [contains_perm hp]
  refine ⟨?_, ?_, hi.keys, hi'.keys, ?_, ?_, ?_, ?_, ?_, fun h => h.elim⟩
  · rw [hfix, List.map_id, args]
  · intro x
    show _ = (lookupName s.byName x).map id
    rw [Option.map_id, id, hmap]
  · show _ = s.helpOption.map id
    rw [Option.map_id, id]
    refine Option.ext fun o => ?_
    rw [h.help, h'.help, hgone]
  · show _ = s.versionOption.map id
    rw [Option.map_id, id]
    refine Option.ext fun o => ?_
    rw [h.version, h'.version, hgone]
  · intro k _
    show s.nextNode + k = _
    rw [h.node, h'.node]
  · intro k _
    show s.nextObj + k = _
    rw [h.obj, h'.obj]
  · rw [h.plain, h'.plain]

end BletArgs
