import Verif.Props.Within
import Verif.Lemmas.Alias
import Verif.Spec.Spread
/-
C100: the names of a new option may be given to `addArgument` or to `flag`, in any order.
-/
namespace BletArgs
open Spec
variable {D : Type}

/-- What calls of `flag` do, and when they return. -/
theorem run_only_flags (fs : List Str) {t : Slot D} {known : Str → Bool} {h v : Option Nat} {no : Nat} {e : Edit D}
    (he : t.run known h v no (fs.map .flag) = some e) :
    e.obj = t.obj ∧ e.arg = t.arg.called e.arg.names ∧ e.help = h ∧ e.version = v ∧ (∀ q, e.queue q = q) ∧
      (∀ x, x ∈ e.flags ↔ x ∈ fs) ∧ ∀ f ∈ fs, validFormatFlag f = none ∧ known f = false := by
  induction fs generalizing t known h v no e with
  | nil =>
    cases he
    exact ⟨rfl, rfl, rfl, rfl, fun _ => rfl, by simp [Slot.same], by simp⟩
  | cons f fs ih =>
    rw [List.map_cons] at he
    unfold Slot.run at he
    simp only at he
    change (if (t.flagEdit known h v f).2 = .ok () then _ else _) = _ at he
    split at he
    · rename_i hok
      obtain ⟨g, hg, rfl⟩ := Option.map_eq_some_iff.1 he
      change Slot.run (t.flagEdit known h v f).1.slot (fun n => known n || decide (n ∈ (t.flagEdit known h v f).1.flags))
        (t.flagEdit known h v f).1.help (t.flagEdit known h v f).1.version _ _ = some g at hg
      show ((t.flagEdit known h v f).1.then g).obj = _ ∧ _
      have hf : t.flagEdit known h v f =
          ({ t.same h v with arg := { t.arg with names := sortNames (t.arg.names ++ [f]) }, flags := [f] }, .ok ()) ∧
          validFormatFlag f = none ∧ known f = false := by
        revert hok
        unfold Slot.flagEdit
        split
        · intro e; cases e
        · split
          · intro e; cases e
          · rename_i hv
            split
            · intro e; cases e
            · rename_i hkn
              intro _; exact ⟨rfl, hv, by simpa using hkn⟩
      obtain ⟨hf, hv, hkn⟩ := hf
      rw [hf] at hg
      obtain ⟨a1, a2, a3, a4, a5, a6, a7⟩ := ih hg
      rw [hf]
      refine ⟨a1, ?_, a3, a4, fun q => ?_, fun x => ?_, fun x hx => ?_⟩
      · show g.arg = t.arg.called g.arg.names
        rw [a2]
        rfl
      · show ((t.flagEdit known h v f).1.then g).queue q = q
        rw [hf]
        exact a5 q
      · show x ∈ ((t.flagEdit known h v f).1.then g).flags ↔ _
        rw [hf]
        show x ∈ [f] ++ g.flags ↔ _
        rw [List.mem_append, a6]
        simp
      · rcases List.mem_cons.1 hx with rfl | hx
        · exact ⟨hv, hkn⟩
        · obtain ⟨b1, b2⟩ := a7 x hx
          refine ⟨b1, ?_⟩
          cases c : known x with
          | false => rfl
          | true => simp [c] at b2
    · cases he

theorem run_flags_ok (fs : List Str) {t : Slot D} {known : Str → Bool} {h v : Option Nat} {no : Nat}
    (hp : t.arg.isPositional = false) (hv : ∀ f ∈ fs, validFormatFlag f = none) (hk : ∀ f ∈ fs, known f = false) (hn : fs.Nodup) :
    ∃ e, t.run known h v no (fs.map .flag) = some e := by
  induction fs generalizing t known h v no with
  | nil => exact ⟨_, rfl⟩
  | cons f fs ih =>
    rw [List.nodup_cons] at hn
    have hf : t.flagEdit known h v f =
        ({ t.same h v with arg := { t.arg with names := sortNames (t.arg.names ++ [f]) }, flags := [f] }, .ok ()) := by
      unfold Slot.flagEdit
      rw [hp, hv f (by simp), hk f (by simp)]
      rfl
    rw [List.map_cons]
    unfold Slot.run
    simp only
    show ∃ e, (if (t.flagEdit known h v f).2 = .ok () then (Slot.run (t.flagEdit known h v f).1.slot
        (fun n => known n || decide (n ∈ (t.flagEdit known h v f).1.flags))
        (t.flagEdit known h v f).1.help (t.flagEdit known h v f).1.version (no + (t.flagEdit known h v f).1.dob) _).map
          (t.flagEdit known h v f).1.then else _) = _
    obtain ⟨E, hE⟩ : ∃ E : Edit D, E = { t.same h v with arg := { t.arg with names := sortNames (t.arg.names ++ [f]) }, flags := [f] } :=
      ⟨_, rfl⟩
    rw [← hE] at hf
    rw [hf, if_pos rfl]
    have e1 : E.slot.arg.isPositional = false := by rw [hE]; exact hp
    have e2 : E.flags = [f] := by rw [hE]
    obtain ⟨e, he⟩ := ih (t := E.slot) (known := fun n => known n || decide (n ∈ E.flags)) (h := E.help) (v := E.version)
      (no := no + E.dob) e1 (fun g hg => hv g (by simp [hg]))
      (fun g hg => by
        have : g ≠ f := by rintro rfl; exact hn.1 hg
        simp [hk g (by simp [hg]), this, e2]) hn.2
    exact ⟨_, Option.map_eq_some_iff.2 ⟨e, he, rfl⟩⟩

theorem checkFlags_accepts {m : List (Str × Nat)} {front : Str} {fs acc : List Str} (hv : ∀ f ∈ fs, validFormatFlag f = none)
    (hl : lookupName m front = none) : ∃ out, checkFlags m front fs acc = .ok out := by
  induction fs generalizing acc with
  | nil => exact ⟨_, rfl⟩
  | cons f fs ih =>
    unfold checkFlags
    rw [hv f (by simp)]
    simp only
    rw [hl]
    exact ih fun g hg => hv g (by simp [hg])

/-- A new option: the names given to `addArgument`, those given to `flag`. -/
structure Made (st : State D) (names : List Str) (s : State D) : Prop where
  found : ∃ a, Edited st (addEdit st.nextNode st.nextObj st.helpOption st.versionOption a) s ∧ a.isPositional = false ∧
    a = ({ names := a.names } : Argument D) ∧ ∀ n, n ∈ a.names ↔ n ∈ names
  forms : ∀ n ∈ names, validFormatFlag n = none
  fresh : ∀ n ∈ names, st.argumentExists n = false

theorem flags_chained (fs : List Str) (cur next : Nat) (cs : List Call) :
    chained cur next (fs.map .flag ++ cs) = chained cur next (fs.map .flag) ++ chained cur next cs := by
  induction fs with
  | nil => rfl
  | cons f fs ih =>
    show Op.flag cur f :: chained cur next (fs.map .flag ++ cs) = Op.flag cur f :: (chained cur next (fs.map .flag) ++ _)
    rw [ih]

theorem newArg_option {known : Str → Bool} {ns : List Str} {a : Argument D} (h : newArg known ns = .ok a)
    (hp : asksPositional ns = false) :
    a = ({ names := a.names } : Argument D) ∧ ∀ n ∈ ns, validFormatFlag n = none := by
  cases ns with
  | nil => cases h
  | cons f rest =>
    unfold newArg at h
    simp only at h
    split at h
    · rename_i hc
      simp only [Bool.and_eq_true, List.isEmpty_iff] at hc
      obtain ⟨rfl, hc⟩ := hc
      have : asksPositional [f] = true := by
        show (f.head? != some '-') = true
        rw [← hc]
        cases f <;> rfl
      rw [hp] at this; cases this
    · split at h
      · cases h
      · rename_i fs he
        cases h
        obtain ⟨h1, h2, h3, h4⟩ := checkFlags_ok he (by simp)
        exact ⟨rfl, h3⟩

theorem newArg_accepts {known : Str → Bool} {ns : List Str} (hne : ns ≠ []) (hp : asksPositional ns = false)
    (hv : ∀ n ∈ ns, validFormatFlag n = none) (hk : ∀ n ∈ ns, known n = false) : ∃ a : Argument D, newArg known ns = .ok a := by
  cases ns with
  | nil => exact absurd rfl hne
  | cons f rest =>
    unfold newArg
    simp only
    rw [if_neg]
    · rw [hk f (by simp)]
      obtain ⟨out, e⟩ := checkFlags_accepts (m := []) (front := f) (fs := f :: rest) (acc := []) hv rfl
      rw [show checkFlags (if false = true then [(f, 0)] else []) f (f :: rest) [] = .ok out from e]
      exact ⟨_, rfl⟩
    · intro hc
      simp only [Bool.and_eq_true, List.isEmpty_iff] at hc
      obtain ⟨rfl, hc⟩ := hc
      have : asksPositional [f] = true := by
        show (f.head? != some '-') = true
        rw [← hc]
        cases f <;> rfl
      rw [hp] at this; cases this

section
variable {scan : Str → Option D} {st : State D}

theorem made (hr : ReachableBy scan CleanAdds st) {ns fs : List Str} (hu : ∀ n ∈ ns, st.argumentExists n = false)
    (hp : asksPositional ns = false) (hs : Succeeds scan st ((Chain.new ns (fs.map .flag)).ops st.nextObj)) :
    Made st (ns ++ fs) (Spec.after scan st ((Chain.new ns (fs.map .flag)).ops st.nextObj)) ∧
    ReachableBy scan CleanAdds (Spec.after scan st ((Chain.new ns (fs.map .flag)).ops st.nextObj)) := by
  unfold Chain.ops at *
  simp only at *
  rw [succeeds_cons] at hs
  obtain ⟨h1, h2⟩ := hs
  rw [after_cons_ok _ h1]
  have hr' : ReachableBy scan CleanAdds (step scan st (.add ns)).1 := .step _ hr (by rw [h1]; rfl) hu
  have hadd : step scan st (.add ns) = ((st.addArgument ns).1, (st.addArgument ns).2.void) := rfl
  have hnew := add_new st ns
  cases hna : newArg (D := D) st.argumentExists ns with
  | error e =>
    rw [hna] at hnew
    rw [hadd, hnew] at h1
    cases h1
  | ok a =>
    rw [hna] at hnew
    simp only at hnew
    obtain ⟨n1, n2, n3, n4, n5⟩ := newArg_names hna
    obtain ⟨o1, o2⟩ := newArg_option hna hp
    obtain ⟨l1, l2⟩ := link_edited hr.reachable.inv n1 n3
    rw [← hnew] at l1 l2
    have l1' : Edited st (addEdit st.nextNode st.nextObj st.helpOption st.versionOption a) (step scan st (.add ns)).1 := l1
    have e4 : (step scan st (.add ns)).1.nextObj = st.nextObj + 1 := l1'.obj
    have found := l1'.found hr'.reachable.inv
    have found : (step scan st (.add ns)).1.atObj st.nextObj = some ⟨st.nextNode, st.nextObj, a⟩ := found
    rw [← e4] at h2 ⊢
    have k := run_spec hr' found (fs.map .flag)
    cases hrun : (⟨st.nextNode, st.nextObj, a⟩ : Slot D).run (step scan st (.add ns)).1.argumentExists
        (step scan st (.add ns)).1.helpOption (step scan st (.add ns)).1.versionOption (step scan st (.add ns)).1.nextObj
        (fs.map .flag) with
    | none => rw [hrun] at k; exact absurd h2 k
    | some e =>
      rw [hrun] at k
      obtain ⟨-, ed, hr2⟩ := k
      obtain ⟨a1, a2, a3, a4, a5, a6, a7⟩ := run_only_flags fs hrun
      obtain ⟨b1, b2, b3, b4⟩ := run_shape hrun
      have hthen := l1'.then ed b1
      have hlook : ∀ x, x ∈ e.arg.names ↔ x ∈ a.names ++ e.flags := by
        intro x
        have ow := hr2.owned
        have hi2 := hr2.reachable.inv
        have hslot : e.slot ∈ _ := (ed.mem _).2 (.inl rfl)
        have hnode : e.node = st.nextNode := b1
        have hL := hthen.look x
        have hfl : (Edit.then (addEdit st.nextNode st.nextObj st.helpOption st.versionOption a) e).flags = a.names ++ e.flags := rfl
        rw [hfl] at hL
        constructor
        · intro hx
          have h3 := ow.own _ hslot x hx
          rw [hL] at h3
          by_cases c : x ∈ a.names ++ e.flags
          · exact c
          · rw [if_neg c, Option.or_none] at h3
            obtain ⟨u, hu, g1, g2⟩ := hr.reachable.inv.entries _ (lookupName_mem h3)
            have := hr.reachable.inv.nodesLt u hu
            simp only at g1
            have : u.node = st.nextNode := g1.trans hnode
            omega
        · intro hx
          rw [if_pos hx] at hL
          have hnone : lookupName st.byName x = none := by
            rcases List.mem_append.1 hx with h | h
            · have := hu x ((n2 x).1 h)
              unfold State.argumentExists at this
              simpa using this
            · cases hc : lookupName st.byName x with
              | none => rfl
              | some k =>
                rw [hc] at hL
                have hL : lookupName _ x = some k := hL
                have hflag : e.flags = e.flags := rfl
                have he := ed.look x
                rw [if_pos h, hL] at he
                have hx2 := l1'.look x
                rw [hc] at hx2
                have hkn : (step scan st (.add ns)).1.argumentExists x = true := by
                  unfold State.argumentExists; rw [hx2]; rfl
                exact absurd hkn (by rw [(a7 x ((a6 x).1 h)).2]; simp)
          rw [hnone] at hL
          obtain ⟨u, hu, g1, g2⟩ := hi2.entries _ (lookupName_mem hL)
          have := eq_of_node hi2 hslot hu g1
          rw [this] at g2
          exact g2
      refine ⟨⟨⟨e.arg, ?_, ?_, ?_, ?_⟩, ?_, ?_⟩, hr2⟩
      · have hq : a.isPositional = false := n5.trans hp
        have hq' : e.arg.isPositional = false := by rw [a2]; exact hq
        refine ⟨?_, ?_, ?_, ?_, hthen.node.trans ?_, hthen.obj.trans ?_, hthen.plain, ?_⟩
        · intro x
          rw [hthen.mem]
          show x = ⟨e.node, e.obj, e.arg⟩ ∨ _ ∧ x.node ≠ e.node ↔ _
          rw [b1, a1]
          exact Iff.rfl
        · intro x
          rw [hthen.look]
          congr 1
          show (if x ∈ a.names ++ e.flags then some e.node else none) = if x ∈ e.arg.names then some st.nextNode else none
          rw [show e.node = st.nextNode from b1]
          simp only [hlook x]
        · rw [hthen.help]
          show e.help = st.helpOption
          rw [a3]; exact l1'.help
        · rw [hthen.version]
          show e.version = st.versionOption
          rw [a4]; exact l1'.version
        · show st.nextNode + (1 + e.dn) = _
          rw [b2]; rfl
        · show st.nextObj + (1 + e.dob) = _
          rw [b3, List.countP_eq_zero.2]
          · rfl
          · intro c hc
            obtain ⟨f, _, rfl⟩ := List.mem_map.1 hc
            simp [Call.isDest]
        · rw [hthen.queue]
          show e.queue (if a.isPositional then _ else _) = if e.arg.isPositional then _ else _
          rw [hq, hq', a5]
          rfl
      · rw [a2]; exact n5.trans hp
      · rw [a2]
        conv => lhs; rw [o1]
        rfl
      · intro n
        rw [hlook, List.mem_append, List.mem_append, n2, a6]
      · intro n hn
        rcases List.mem_append.1 hn with h | h
        · exact o2 n h
        · exact (a7 n h).1
      · intro n hn
        rcases List.mem_append.1 hn with h | h
        · exact hu n h
        · have k := (a7 n h).2
          rw [l1'.known] at k
          cases c : st.argumentExists n with
          | false => rfl
          | true => rw [c] at k; cases k

theorem made_again (hr : ReachableBy scan CleanAdds st) {ns fs : List Str} (hne : ns ≠ []) (hp : asksPositional ns = false)
    (hv : ∀ n ∈ ns ++ fs, validFormatFlag n = none) (hk : ∀ n ∈ ns ++ fs, st.argumentExists n = false) (hn : fs.Nodup)
    (hd : ∀ f ∈ fs, f ∉ ns) : Succeeds scan st ((Chain.new ns (fs.map .flag)).ops st.nextObj) := by
  unfold Chain.ops
  simp only
  obtain ⟨a, hna⟩ := newArg_accepts (D := D) (known := st.argumentExists) hne hp (fun n h => hv n (by simp [h]))
    (fun n h => hk n (by simp [h]))
  have hadd : step scan st (.add ns) = ((st.addArgument ns).1, (st.addArgument ns).2.void) := rfl
  have hnew := add_new st ns
  rw [hna] at hnew
  simp only at hnew
  obtain ⟨n1, n2, n3, n4, n5⟩ := newArg_names hna
  obtain ⟨l1, l2⟩ := link_edited hr.reachable.inv n1 n3
  rw [← hnew] at l1 l2
  have h1 : (step scan st (.add ns)).2 = .ok () := by rw [hadd, l2]; rfl
  have hr' : ReachableBy scan CleanAdds (step scan st (.add ns)).1 :=
    .step _ hr (by rw [h1]; rfl) (fun n h => hk n (by simp [h]))
  have l1' : Edited st (addEdit st.nextNode st.nextObj st.helpOption st.versionOption a) (step scan st (.add ns)).1 := l1
  have e4 : (step scan st (.add ns)).1.nextObj = st.nextObj + 1 := l1'.obj
  have found := l1'.found hr'.reachable.inv
  have found : (step scan st (.add ns)).1.atObj st.nextObj = some ⟨st.nextNode, st.nextObj, a⟩ := found
  rw [succeeds_cons]
  refine ⟨h1, ?_⟩
  rw [← e4]
  have k := run_spec hr' found (fs.map .flag)
  obtain ⟨e, he⟩ := run_flags_ok fs (t := ⟨st.nextNode, st.nextObj, a⟩) (known := (step scan st (.add ns)).1.argumentExists)
    (h := (step scan st (.add ns)).1.helpOption) (v := (step scan st (.add ns)).1.versionOption)
    (no := (step scan st (.add ns)).1.nextObj) (n5.trans hp) (fun f h => hv f (by simp [h])) (fun f h => by
      rw [l1'.known, hk f (by simp [h])]
      have : f ∉ a.names := fun c => hd f h ((n2 f).1 c)
      show (false || decide (f ∈ a.names)) = false
      simp [this]) hn
  rw [he] at k
  exact k.1

theorem split_flags (cs : List Call) : Rearranged cs ((flagsOf cs).map .flag ++ othersOf cs) where
  perm := by
    have : ∀ cs : List Call, (flagsOf cs).map Call.flag = cs.filter (fun c => !decide (c.concern ≠ .flag)) := by
      intro cs
      induction cs with
      | nil => rfl
      | cons c cs ih => cases c <;> simp [flagsOf, Call.concern] at ih ⊢ <;> exact ih
    rw [this]
    exact (List.perm_append_comm.trans (List.filter_append_perm _ cs)).symm
  order k hk := by
    rw [List.filter_append]
    have h1 : ((flagsOf cs).map Call.flag).filter (·.concern = k) = [] := by
      rw [List.filter_eq_nil_iff]
      intro c hc
      obtain ⟨f, -, rfl⟩ := List.mem_map.1 hc
      have : Concern.flag ≠ k := Ne.symm hk
      simp [Call.concern, this]
    rw [h1, List.nil_append]
    unfold othersOf
    rw [List.filter_filter]
    congr 1
    funext c
    by_cases e : c.concern = k
    · simp [e, hk]
    · simp [e]

theorem Spec.Rearranged.trans {a b c : List Call} (h : Rearranged a b) (h' : Rearranged b c) : Rearranged a c :=
  ⟨h.perm.trans h'.perm, fun k hk => (h'.order k hk).trans (h.order k hk)⟩

theorem Spec.Rearranged.after (l : List Call) {b c : List Call} (h : Rearranged b c) : Rearranged (l ++ b) (l ++ c) :=
  ⟨h.perm.append_left l, fun k hk => by rw [List.filter_append, List.filter_append, h.order k hk]⟩

theorem spread (hr : ReachableBy scan CleanAdds st) {ns ns' : List Str} {cs cs' : List Call}
    (hu : ∀ n ∈ ns, st.argumentExists n = false) (h : SameFlags ns cs ns' cs')
    (hs : Succeeds scan st ((Chain.new ns cs).ops st.nextObj)) :
    Succeeds scan st ((Chain.new ns' cs').ops st.nextObj) ∧
    Renamed Ren.refl (Spec.after scan st ((Chain.new ns cs).ops st.nextObj))
      (Spec.after scan st ((Chain.new ns' cs').ops st.nextObj)) := by
  have cut : ∀ (l : List Str) (fs : List Str) (ds : List Call),
      (Chain.new l (fs.map .flag ++ ds)).ops st.nextObj =
        (Chain.new l (fs.map .flag)).ops st.nextObj ++ chained st.nextObj (st.nextObj + 1) ds := by
    intro l fs ds
    unfold Chain.ops
    simp only
    rw [flags_chained]
    rfl
  -- the flags first, the other calls in the order of the second statement
  obtain ⟨p1, p2⟩ := chain_rearranged hr (c := .new ns cs) (fun ref h => by cases h) hu
    (.new ns ((split_flags cs).trans (h.others.after _))) hs
  rw [cut] at p1 p2
  rw [succeeds_append] at p1
  obtain ⟨q1, q2⟩ := p1
  rw [after_append q1] at p2
  obtain ⟨m1, r1⟩ := made hr hu h.option q1
  have both : ∀ n, n ∈ ns' ++ flagsOf cs' ↔ n ∈ ns ++ flagsOf cs := by
    intro n
    rw [List.mem_append, List.mem_append]
    exact h.flags n
  have q1' := made_again (scan := scan) hr h.given' h.option' (fun n hn => m1.forms n ((both n).1 hn))
    (fun n hn => m1.fresh n ((both n).1 hn)) h.once h.news
  obtain ⟨m2, r2⟩ := made hr (fun n hn => m1.fresh n ((both n).1 (by simp [hn]))) h.option' q1'
  have hren : Renamed Ren.refl (Spec.after scan st ((Chain.new ns ((flagsOf cs).map .flag)).ops st.nextObj))
      (Spec.after scan st ((Chain.new ns' ((flagsOf cs').map .flag)).ops st.nextObj)) := by
    obtain ⟨a, f1, f2, f3, f4⟩ := m1.found
    obtain ⟨b, g1, g2, g3, g4⟩ := m2.found
    have ma := (f1.mem (addEdit st.nextNode st.nextObj st.helpOption st.versionOption a).slot).2 (.inl rfl)
    have mb := (g1.mem (addEdit st.nextNode st.nextObj st.helpOption st.versionOption b).slot).2 (.inl rfl)
    have hab : a.names = b.names := by
      have na : a.names.Nodup := r1.owned.nodup _ ma
      have nb : b.names.Nodup := r2.owned.nodup _ mb
      have sa : SortedBy compareFlag a.names := (r1.reachable.inv.forms _ ma).sorted
      have sb : SortedBy compareFlag b.names := (r2.reachable.inv.forms _ mb).sorted
      have perm : a.names.Perm b.names := (List.perm_ext_iff_of_nodup na nb).2 fun n => by rw [f4, g4, both]
      have := sortNames_perm perm
      unfold sortNames at this
      rwa [stableSort_of_sorted _ sa, stableSort_of_sorted _ sb] at this
    have e : a = b := by rw [f3, g3, hab]
    subst e
    exact similar_states r1.reachable.inv r2.reachable.inv r1.owned f1 g1 (.refl false _) rfl
  have t1 := hren.succeeds q2
  rw [show Ren.refl.o = id from rfl, op_rename_id] at t1
  have t2 := (hren.after scan (chained st.nextObj (st.nextObj + 1) (othersOf cs'))).1
  rw [show Ren.refl.o = id from rfl, op_rename_id] at t2
  have p3 : Succeeds scan st ((Chain.new ns' ((flagsOf cs').map .flag ++ othersOf cs')).ops st.nextObj) := by
    rw [cut, succeeds_append]
    exact ⟨q1', t1⟩
  obtain ⟨z1, z2⟩ := chain_rearranged hr (fun ref h => by cases h) (fun n hn => m1.fresh n ((both n).1 (by
    have : n ∈ ns' := hn
    simp [this]))) (.new ns' (split_flags cs').symm) p3
  rw [cut, after_append q1'] at z2
  exact ⟨z1, (p2.trans t2).trans z2⟩

end

end BletArgs
