import Verif.Props.Repeated
import Verif.Props.Within
import Verif.Lemmas.Pointers
import Verif.Spec.Redirected
/-
Only the last of repeated destinations counts.
-/
namespace BletArgs
open Spec
variable {D : Type}

/-- The renaming that leaves out one object. -/
def skipRen (k : Nat) : Ren := ⟨id, skipping k, fun _ _ e => e, fun a b e => by
  unfold skipping at e; split at e <;> split at e <;> omega⟩

theorem skip_ptr {k : Nat} {p : Option Nat} (h : ∀ o, p = some o → o < k) : p = p.map (skipRen k).o := by
  cases p with
  | none => rfl
  | some o =>
    show some o = some (skipping k o)
    unfold skipping; rw [if_pos (h o rfl)]

theorem redirected_base {scan : Str → Option D} {st : State D} (hr : Reachable scan st) {cur : Nat} {t : Slot D}
    (ht : st.atObj cur = some t) (d1 d2 : Dest) :
    (st.setDest cur d2).2 = .ok st.nextObj ∧ (st.setDest cur d1).2 = .ok st.nextObj ∧
    ((st.setDest cur d1).1.setDest st.nextObj d2).2 = .ok (st.nextObj + 1) ∧
    Renamed (skipRen st.nextObj) (st.setDest cur d2).1 ((st.setDest cur d1).1.setDest st.nextObj d2).1 := by
  have hi := hr.inv
  obtain ⟨hm, hob⟩ := State.atObj_some ht
  have e1 := setDest_eq ht d1
  have hr1 : Reachable scan (st.setDest cur d1).1 := .step (.dest cur d1) hr (by
    show (st.setDest cur d1).2.void.goesOn = true
    rw [e1]; rfl)
  have hat : (st.setDest cur d1).1.atObj st.nextObj =
      some { t with obj := st.nextObj, arg := { t.arg with defaults := [], dest := some d1 } } := by
    refine State.atObj_of_mem (s := ⟨t.node, st.nextObj, { t.arg with defaults := [], dest := some d1 }⟩) hr1.inv.objs ?_
    rw [e1]
    exact List.mem_map.2 ⟨t, hm, by simp⟩
  rw [setDest_eq hat d2, setDest_eq ht d2]
  refine ⟨rfl, by rw [e1], by rw [e1], ?_⟩
  have hp := hr.ptrsOld
  refine ⟨?_, ?_, hi.keys, ?_, ?_, ?_, ?_, ?_, ?_, False.elim⟩
  · simp only
    rw [e1]
    simp only [List.map_map]
    refine List.map_congr_left fun x hx => ?_
    simp only [Function.comp_apply]
    by_cases hn : x.node = t.node
    · simp [hn, Ren.slot, skipRen, skipping]
    · have : x.obj < st.nextObj := hi.objsLt x hx
      simp [hn, Ren.slot, skipRen, skipping, this]
  · intro x; rw [e1]
    show _ = (lookupName st.byName x).map id
    rw [Option.map_id]; rfl
  · rw [e1]; exact hi.keys
  · rw [e1]; exact skip_ptr fun o ho => hp o (.inl ho)
  · rw [e1]; exact skip_ptr fun o ho => hp o (.inr ho)
  · intro k _; rw [e1]; rfl
  · intro k _
    rw [e1]
    show skipping st.nextObj (st.nextObj + 1 + k) = st.nextObj + 1 + 1 + k
    unfold skipping; rw [if_neg (by omega)]; omega
  · rw [e1]; rfl

theorem redirected_calls {scan : Str → Option D} {d1 d2 : Dest} (b : List Call) : ∀ (a : List Call) {st : State D} {cur : Nat}
    {t : Slot D}, ReachableBy scan CleanAdds st → st.atObj cur = some t →
    (Succeeds scan st (chained cur st.nextObj (a ++ .dest d2 :: b)) ↔
      Succeeds scan st (chained cur st.nextObj (a ++ .dest d1 :: .dest d2 :: b))) ∧
    (Succeeds scan st (chained cur st.nextObj (a ++ .dest d2 :: b)) →
      Renamed (skipRen (st.nextObj + a.countP Call.isDest)) (Spec.after scan st (chained cur st.nextObj (a ++ .dest d2 :: b)))
        (Spec.after scan st (chained cur st.nextObj (a ++ .dest d1 :: .dest d2 :: b))))
  | [], st, cur, t, hr, ht => by
    obtain ⟨r1, r2, r3, hren⟩ := redirected_base hr.reachable ht d1 d2
    have o1 : (step scan st (.dest cur d2)).2 = .ok () := by
      show (st.setDest cur d2).2.void = _
      rw [r1]; rfl
    have o2 : (step scan st (.dest cur d1)).2 = .ok () := by
      show (st.setDest cur d1).2.void = _
      rw [r2]; rfl
    have o3 : (step scan (step scan st (.dest cur d1)).1 (.dest st.nextObj d2)).2 = .ok () := by
      show ((st.setDest cur d1).1.setDest st.nextObj d2).2.void = _
      rw [r3]; rfl
    have c1 : chained cur st.nextObj ([] ++ .dest d2 :: b) = .dest cur d2 :: chained st.nextObj (st.nextObj + 1) b := rfl
    have c2 : chained cur st.nextObj ([] ++ .dest d1 :: .dest d2 :: b) =
        .dest cur d1 :: .dest st.nextObj d2 :: chained (st.nextObj + 1) (st.nextObj + 2) b := rfl
    have hc : (chained st.nextObj (st.nextObj + 1) b).map (Spec.Op.rename (skipRen st.nextObj).o) =
        chained (st.nextObj + 1) (st.nextObj + 2) b := by
      rw [chained_rename (next' := st.nextObj + 2) (fun k => by
        show skipping st.nextObj (st.nextObj + 1 + k) = st.nextObj + 2 + k
        unfold skipping; rw [if_neg (by omega)]; omega)]
      congr 1
      show skipping st.nextObj st.nextObj = st.nextObj + 1
      unfold skipping; rw [if_neg (by omega)]
    have hk := hren.after scan (chained st.nextObj (st.nextObj + 1) b)
    rw [hc] at hk
    rw [c1, c2]
    rw [succeeds_cons, succeeds_cons, succeeds_cons, after_cons_ok _ o1, after_cons_ok _ o2, after_cons_ok _ o3]
    refine ⟨?_, fun _ => hk.1⟩
    refine ⟨fun h => ⟨o2, o3, ?_⟩, fun h => ⟨o1, ?_⟩⟩
    · have h2 := h.2
      unfold Succeeds at h2 ⊢
      exact hk.2.symm ▸ h2
    · have h2 := h.2.2
      unfold Succeeds at h2 ⊢
      exact hk.2 ▸ h2
  | c :: a, st, cur, t, hr, ht => by
    obtain rfl : t.obj = cur := (State.atObj_some ht).2
    obtain ⟨hs, hres⟩ := edit_step hr.reachable (c.on t.obj) (Call.on_ref c _)
      (by intro r items; cases c <;> exact fun e => by cases e) ht
    obtain ⟨a1, a2, a3, a4, a5⟩ := edit_shape t st.argumentExists st.helpOption st.versionOption st.nextObj c t.obj
    revert hs hres a1 a2 a3 a4 a5
    generalize t.edit st.argumentExists st.helpOption st.versionOption st.nextObj (c.on t.obj) = x
    obtain ⟨e, res⟩ := x
    intro hs hres a1 a2 a3 a4 a5
    simp only at hs hres a1 a2 a3 a4 a5
    have hch : ∀ cs, chained t.obj st.nextObj (c :: cs) = c.on t.obj :: chained e.obj (st.nextObj + e.dob) cs := by
      intro cs
      show c.on t.obj :: _ = _
      rw [a3, a4]
      cases c.isDest <;> rfl
    rw [List.cons_append, List.cons_append, hch, hch, succeeds_cons, succeeds_cons]
    by_cases hok : res = .ok ()
    · rw [hok] at hres
      have hr' : ReachableBy scan CleanAdds (step scan st (c.on t.obj)).1 :=
        .step _ hr (by rw [hres]; rfl) (Call.clean c _ _ _)
      have key := redirected_calls (d1 := d1) (d2 := d2) b a hr' (hs.found hr'.reachable.inv)
      rw [hs.obj] at key
      rw [after_cons_ok _ hres, after_cons_ok _ hres]
      have hn : st.nextObj + (c :: a).countP Call.isDest = st.nextObj + e.dob + a.countP Call.isDest := by
        rw [List.countP_cons, a4]; omega
      rw [hn]
      exact ⟨⟨fun h => ⟨h.1, key.1.1 h.2⟩, fun h => ⟨h.1, key.1.2 h.2⟩⟩, fun h => key.2 h.2⟩
    · have hno : ¬ (step scan st (c.on t.obj)).2 = .ok () := fun h => hok (hres.symm.trans h)
      exact ⟨⟨fun h => absurd h.1 hno, fun h => absurd h.1 hno⟩, fun h => absurd h.1 hno⟩

theorem redirected_new {scan : Str → Option D} {st : State D} (hr : ReachableBy scan CleanAdds st) {d1 d2 : Dest}
    {names : List Str} (a b : List Call) (hu : ∀ n ∈ names, st.argumentExists n = false) :
    (Succeeds scan st ((Chain.new names (a ++ .dest d2 :: b)).ops st.nextObj) ↔
      Succeeds scan st ((Chain.new names (a ++ .dest d1 :: .dest d2 :: b)).ops st.nextObj)) ∧
    (Succeeds scan st ((Chain.new names (a ++ .dest d2 :: b)).ops st.nextObj) →
      Alike (skipping (st.nextObj + 1 + a.countP Call.isDest))
        (Spec.after scan st ((Chain.new names (a ++ .dest d2 :: b)).ops st.nextObj))
        (Spec.after scan st ((Chain.new names (a ++ .dest d1 :: .dest d2 :: b)).ops st.nextObj))) := by
  have hi := hr.reachable.inv
  have hadd : step scan st (.add names) = ((st.addArgument names).1, (st.addArgument names).2.void) := rfl
  have hnew := add_new st names
  unfold Chain.ops
  simp only
  rw [succeeds_cons, succeeds_cons]
  cases ha : newArg (D := D) st.argumentExists names with
  | error e =>
    rw [ha] at hnew
    have hno : ¬ (step scan st (.add names)).2 = .ok () := by
      rw [hadd, hnew]; intro h; cases h
    exact ⟨⟨fun h => absurd h.1 hno, fun h => absurd h.1 hno⟩, fun h => absurd h.1 hno⟩
  | ok x =>
    rw [ha] at hnew
    simp only at hnew
    obtain ⟨n1, n2, n3, n4, n5⟩ := newArg_names ha
    obtain ⟨l1, l2⟩ := link_edited hi n1 n3
    rw [← hnew] at l1 l2
    have hok : (step scan st (.add names)).2 = .ok () := by rw [hadd]; exact void_ok l2
    have hr' : ReachableBy scan CleanAdds (step scan st (.add names)).1 := .step _ hr (by rw [hok]; rfl) hu
    have l1' : Edited st (addEdit st.nextNode st.nextObj st.helpOption st.versionOption x) (step scan st (.add names)).1 := l1
    have key := redirected_calls (scan := scan) (d1 := d1) (d2 := d2) b a hr' (l1'.found hr'.reachable.inv)
    have e4 : (step scan st (.add names)).1.nextObj = st.nextObj + 1 := l1'.obj
    rw [e4] at key
    rw [after_cons_ok _ hok, after_cons_ok _ hok]
    exact ⟨⟨fun h => ⟨h.1, key.1.1 h.2⟩, fun h => ⟨h.1, key.1.2 h.2⟩⟩, fun h => (key.2 h.2).alike⟩

theorem Alike.same {o : Nat → Nat} {s s' s'' : State D} (h : Alike o s s') (h' : Alike id s' s'') : Alike o s s'' := by
  have e : ∀ ops : List Op, ops.map (Spec.Op.rename id) = ops := op_rename_id
  refine ⟨fun scan ops => ?_, fun scan ops => ?_, fun scan ops => ?_, fun scan ops ref => ?_, fun scan ops names v => ?_,
    fun scan ops ref d v => ?_⟩
  · have := h'.outcomes scan (ops.map (Spec.Op.rename o)); rw [e] at this; rw [this, h.outcomes]
  · have := h'.visible scan (ops.map (Spec.Op.rename o)); rw [e] at this; rw [this, h.visible]
  · have := h'.writes scan (ops.map (Spec.Op.rename o)); rw [e] at this; rw [this, h.writes]
  · have := h'.references scan (ops.map (Spec.Op.rename o)) (o ref); rw [e] at this
    exact this.trans (h.references scan ops ref)
  · have := h'.added scan (ops.map (Spec.Op.rename o)) names (o v); rw [e] at this
    exact (h.added scan ops names v).trans this
  · have := h'.redirected scan (ops.map (Spec.Op.rename o)) (o ref) d (o v); rw [e] at this
    exact (h.redirected scan ops ref d v).trans this

theorem countP_free {m : List Call} (hm : ∀ c ∈ m, c.concern ≠ .kind) : m.countP Call.isDest = 0 := by
  rw [List.countP_eq_zero]
  intro c hc h
  have := hm c hc
  cases c <;> first | exact absurd rfl this | cases h

/-- A call about the kind, moved over calls that are not. -/
theorem moved {a m b : List Call} {d1 d2 : Dest} (hm : ∀ c ∈ m, c.concern ≠ .kind) :
    Rearranged (a ++ .dest d1 :: (m ++ .dest d2 :: b)) (a ++ m ++ .dest d1 :: .dest d2 :: b) where
  perm := by
    rw [List.append_assoc]
    exact List.Perm.append_left a List.perm_middle.symm
  order k _ := by
    by_cases hk : k = .kind
    · have : m.filter (fun c => decide (c.concern = k)) = [] := by
        rw [List.filter_eq_nil_iff]
        intro c hc h
        exact hm c hc (by rw [of_decide_eq_true h, hk])
      simp [List.filter_append, List.filter_cons, this]
    · have e : (Call.dest d1).concern ≠ k := fun e => hk e.symm
      simp [List.filter_append, List.filter_cons, e]

/-- C94, destinations: of two calls of `dest()` – with no call of `action`, `nargs` or `defaults` in between – only the last one
counts: it is as if the first had not been made, but for the numbers of the references – the one the first call returned is
dead. All calls return in the one case iff they do in the other, and the two parsers cannot be told apart. -/
theorem C94_destinations {scan : Str → Option D} {st : State D} (hr : ReachableBy scan CleanAdds st) {d1 d2 : Dest} {k : Nat}
    {c c' : Chain} (h : RedirectedTwice st d1 d2 k c c') :
    (Succeeds scan st (c.ops st.nextObj) ↔ Succeeds scan st (c'.ops st.nextObj)) ∧
    (Succeeds scan st (c.ops st.nextObj) →
      Alike (skipping k) (Spec.after scan st (c.ops st.nextObj)) (Spec.after scan st (c'.ops st.nextObj))) := by
  cases h with
  | @through ref t a m b ht hm =>
    obtain ⟨k1, k2⟩ := redirected_calls (scan := scan) (d1 := d1) (d2 := d2) b (a ++ m) hr ht
    rw [List.countP_append, countP_free hm, Nat.add_zero] at k2
    rw [← List.append_assoc]
    have mv := moved (a := a) (b := b) (d1 := d1) (d2 := d2) hm
    have live : ∀ cs r, (Chain.through ref cs).target = some r → st.atObj r ≠ none := by
      rintro cs r h
      cases h
      rw [ht]; exact fun h => nomatch h
    have p1 := fun hs => C90_calls (scan := scan) hr (live _) (fun _ h => nomatch h) (.through ref mv) hs
    have p2 := fun hs => C90_calls (scan := scan) hr (live _) (fun _ h => nomatch h) (.through ref mv.symm) hs
    exact ⟨⟨fun h => (p2 (k1.1 h)).1, fun h => k1.2 (p1 h).1⟩, fun h => Alike.same (k2 h).alike (p2 (k1.1 h)).2⟩
  | @new names a m b hu hm =>
    obtain ⟨k1, k2⟩ := redirected_new (scan := scan) hr (d1 := d1) (d2 := d2) (a ++ m) b hu
    rw [List.countP_append, countP_free hm, Nat.add_zero] at k2
    rw [← List.append_assoc]
    have mv := moved (a := a) (b := b) (d1 := d1) (d2 := d2) hm
    have p1 := fun hs => C90_calls (scan := scan) hr (c := .new names _) (c' := .new names _) (fun _ h => by cases h) hu (.new names mv) hs
    have p2 := fun hs => C90_calls (scan := scan) hr (c := .new names _) (c' := .new names _) (fun _ h => by cases h) hu (.new names mv.symm) hs
    exact ⟨⟨fun h => (p2 (k1.1 h)).1, fun h => k1.2 (p1 h).1⟩, fun h => Alike.same (k2 h) (p2 (k1.1 h)).2⟩

/-! ### Examples -/

/-- `addArgument("-o").dest(x).help("h").dest(y).nargs(2)` does what `addArgument("-o").help("h").dest(y).nargs(2)` does; the reference 1 is dead. -/
example (x y : Dest) : Alike (skipping 1)
    (Spec.after demoScan State.init ((Chain.new ["-o".toList] [.help "h".toList, .dest y, .nargs 2]).ops 0))
    (Spec.after demoScan State.init ((Chain.new ["-o".toList] [.dest x, .help "h".toList, .dest y, .nargs 2]).ops 0)) :=
  (C94_destinations (scan := demoScan) .init (.new [] [.help "h".toList] [.nargs 2] (fun _ _ => rfl) (by intro c hc; obtain rfl := List.mem_singleton.1 hc; decide))).2
    (fun r hr => by
      have : outcomes demoScan (State.init (D := Unit)) ((Chain.new ["-o".toList] [.help "h".toList, .dest y, .nargs 2]).ops 0) =
        [.ok (), .ok (), .ok (), .ok ()] := rfl
      rw [show (State.init (D := Unit)).nextObj = 0 from rfl, List.nil_append, List.singleton_append, this] at hr
      simpa using hr)

end BletArgs
