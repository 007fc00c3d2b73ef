import Verif.Lemmas.ChainSwap
/-
Removing an argument under all its names.
-/
namespace BletArgs
open Spec
variable {D : Type}

/-- Removing all names of one argument. -/
theorem removeLoop_whole (rm : List Str) {st : State D} (hi : PreInvS st) {s : Slot D} (hs : s ∈ st.arguments) (hne : rm ≠ [])
    (hnd : rm.Nodup) (hall : ∀ n ∈ rm, lookupName st.byName n = some s.node)
    (hcov : ∀ p ∈ st.byName, p.2 = s.node → p.1 ∈ rm) :
    ∃ st', State.removeLoop rm st = (st', .ok ()) ∧
      st'.arguments = st.arguments.filter (fun t => !(t.node == s.node)) ∧ st'.plain = st.plain ∧
      st'.nextNode = st.nextNode ∧ st'.nextObj = st.nextObj ∧
      st'.helpOption = (if st.helpOption == some s.obj then none else st.helpOption) ∧
      st'.versionOption = (if st.helpOption == some s.obj then st.versionOption
        else if st.versionOption == some s.obj then none else st.versionOption) := by
  induction rm generalizing st s with
  | nil => exact absurd rfl hne
  | cons n ns ih =>
    have hl := hall n (by simp)
    obtain ⟨u, hu, h1, h2, h3⟩ := removeLoop_cons hi hl
    obtain rfl : u = s := inj_of_nodup Slot.node hi.nodes hu hs h1
    rw [h3]
    have hp := removeStep_preInv hi hs hl
    have hb := removeStep_byName st n u
    rw [List.nodup_cons] at hnd
    cases hns : ns with
    | nil =>
      subst hns
      have hany : (st.byName.filter (fun p => !(p.1 == n))).any (fun p => p.2 == u.node) = false := by
        rw [List.any_eq_false]
        intro p hp'
        rw [mem_filter_name] at hp'
        intro e
        have := hcov p hp'.1 (by simpa using e)
        simp at this
        exact hp'.2 this
      refine ⟨_, rfl, ?_⟩
      unfold State.removeStep
      simp only [hany, Bool.false_eq_true, if_false]
      exact ⟨trivial, rfl, trivial, trivial, trivial, trivial⟩
    | cons m ms =>
      rw [← hns]
      have hm : m ∈ ns := by rw [hns]; simp
      have hany : (st.byName.filter (fun p => !(p.1 == n))).any (fun p => p.2 == u.node) = true := by
        rw [List.any_eq_true]
        have := lookupName_mem (hall m (by simp [hm]))
        refine ⟨_, mem_filter_name.2 ⟨this, ?_⟩, by simp⟩
        rintro rfl
        exact hnd.1 hm
      have e : st.removeStep n u = { st with
          byName := st.byName.filter (fun p => !(p.1 == n))
          arguments := updNode st.arguments u.node fun a => { a with names := a.names.erase n } } := by
        unfold State.removeStep
        simp only [hany, if_true]
      have hs' : ({ u with arg := { u.arg with names := u.arg.names.erase n } } : Slot D) ∈ (st.removeStep n u).arguments := by
        rw [e]
        exact List.mem_map.2 ⟨u, hs, by simp⟩
      obtain ⟨st', e1, e2, e3, e4, e5, e6, e7⟩ := ih hp hs' (by rw [hns]; simp) hnd.2
        (fun k hk => by
          rw [hb, filter_lookup, if_neg]
          · exact hall k (by simp [hk])
          · rintro rfl; exact hnd.1 hk)
        (fun p hp' hn => by
          rw [hb, mem_filter_name] at hp'
          rcases List.mem_cons.1 (hcov p hp'.1 hn) with e | e
          · exact absurd e hp'.2
          · exact e)
      refine ⟨st', e1, ?_, ?_, ?_, ?_, ?_, ?_⟩
      · rw [e2, e]
        exact updNode_filter st.arguments u.node fun a => { a with names := a.names.erase n }
      · rw [e3, e]; rfl
      · rw [e4, e]
      · rw [e5, e]
      · rw [e6, e]
      · rw [e7, e]

theorem removeArguments_whole (rm : List Str) {st : State D} (hi : Inv st) {s : Slot D} (hs : s ∈ st.arguments) (hne : rm ≠ [])
    (hnd : rm.Nodup) (hall : ∀ n ∈ rm, lookupName st.byName n = some s.node)
    (hcov : ∀ p ∈ st.byName, p.2 = s.node → p.1 ∈ rm) :
    ∃ st', st.removeArguments rm = (st', .ok ()) ∧ Inv st' ∧
      st'.byName = st.byName.filter (fun p => !rm.contains p.1) ∧
      (∀ t, t ∈ st'.arguments ↔ t ∈ st.arguments ∧ t.node ≠ s.node) ∧ st'.plain = st.plain ∧
      st'.nextNode = st.nextNode ∧ st'.nextObj = st.nextObj ∧
      st'.helpOption = (if st.helpOption == some s.obj then none else st.helpOption) ∧
      st'.versionOption = (if st.helpOption == some s.obj then st.versionOption
        else if st.versionOption == some s.obj then none else st.versionOption) := by
  have hreg : ∀ n ∈ rm, (lookupName st.byName n).isSome = true := fun n hn => by rw [hall n hn]; rfl
  obtain ⟨st1, e1, e2, e3, e4⟩ := removeLoop_ok rm hi.toPreInv hnd hreg
  obtain ⟨st2, f1, f2, f3, f4, f5, f6, f7⟩ := removeLoop_whole rm hi.toPreInv hs hne hnd hall hcov
  rw [e1] at f1
  obtain rfl : st1 = st2 := congrArg Prod.fst f1
  have key := sortArguments_ok e2
  refine ⟨_, ?_, key.2, e3, ?_, f3, f4, f5, f6, f7⟩
  · unfold State.removeArguments
    have : rm.isEmpty = false := by cases rm <;> simp_all
    rw [this, firstUnknown_none.2 hreg]
    simp only [Bool.false_eq_true, if_false, e1, key.1]
  · intro t
    simp only
    rw [mem_stableSort, f2, List.mem_filter]
    simp

/-! ### The names a statement gives -/

theorem run_flags {t : Slot D} {known : Str → Bool} {h v : Option Nat} {no : Nat} {cs : List Call} {e : Edit D}
    (he : t.run known h v no cs = some e) {f : Str} (hf : .flag f ∈ cs) : f ∈ e.flags := by
  induction cs generalizing t known h v no e with
  | nil => cases hf
  | cons c cs ih =>
    unfold Slot.run at he
    simp only at he
    have key : (t.edit known h v no (c.on t.obj)).2 = .ok () → c = .flag f → f ∈ (t.edit known h v no (c.on t.obj)).1.flags := by
      rintro hok rfl
      revert hok
      show (t.flagEdit known h v f).2 = .ok () → f ∈ (t.flagEdit known h v f).1.flags
      unfold Slot.flagEdit
      split
      · intro e; cases e
      · split
        · intro e; cases e
        · split
          · intro e; cases e
          · intro _; simp
    generalize t.edit known h v no (c.on t.obj) = x at he key
    split at he
    · rename_i hok
      obtain ⟨g, hg, rfl⟩ := Option.map_eq_some_iff.1 he
      show f ∈ x.1.flags ++ g.flags
      rw [List.mem_append]
      rcases List.mem_cons.1 hf with e | hf
      · exact .inl (key hok e.symm)
      · exact .inr (ih hg hf)
    · cases he

theorem chain_flags {names : List Str} {cs : List Call} {find : Nat → Option (Slot D)} {known : Str → Bool} {h v : Option Nat}
    {nn no : Nat} {e : Edit D} (he : (Chain.new names cs).edit find known h v nn no = some e) (f : Str) :
    f ∈ e.flags ↔ f ∈ (Chain.new names cs).names := by
  refine ⟨(chain_shape he).2.2.1 f, ?_⟩
  unfold Chain.edit at he
  simp only at he
  split at he
  · cases he
  · rename_i a ha
    obtain ⟨g, hg, rfl⟩ := Option.map_eq_some_iff.1 he
    intro hf
    show f ∈ a.names ++ g.flags
    rw [List.mem_append]
    unfold Chain.names at hf
    rcases List.mem_append.1 hf with hf | hf
    · exact .inl (((newArg_names ha).2.1 f).2 hf)
    · right
      obtain ⟨c, hc, e⟩ := List.mem_filterMap.1 hf
      refine run_flags hg ?_
      cases c with
      | flag f' => cases e; exact hc
      | _ => cases e

/-! ### The positionals besides -/

theorem filter_erase_out {l : List Str} {a : Str} {p : Str → Bool} (h : p a = false) : (l.erase a).filter p = l.filter p := by
  induction l with
  | nil => rfl
  | cons b l ih =>
    by_cases e : b = a
    · subst e
      rw [List.erase_cons_head, List.filter_cons_of_neg (by rw [h]; simp)]
    · rw [List.erase_cons_tail (by simpa using e), List.filter_cons, List.filter_cons, ih]

def outside (p : Str → Bool) (q : List Str × List Str) : List Str × List Str := (q.1.filter p, q.2.filter p)

theorem edit_queue_own (t : Slot D) (known : Str → Bool) (h v : Option Nat) (no : Nat) (c : Call) (ref : Nat)
    {p : Str → Bool} (hp : p t.arg.front = false) (q : List Str × List Str) :
    outside p ((t.edit known h v no (c.on ref)).1.queue q) = outside p q := by
  cases c with
  | flag f =>
    unfold Call.on Slot.edit
    dsimp only
    unfold Slot.flagEdit
    split
    · rfl
    · split
      · rfl
      · split <;> rfl
  | required b =>
    show outside p (if b = true ∧ t.arg.front ∈ q.2 then _ else if b = false ∧ t.arg.front ∈ q.1 then _ else q) = _
    split
    · unfold outside
      simp only [List.filter_append, filter_erase_out hp, List.filter_cons, hp, Bool.false_eq_true, if_false, List.filter_nil,
        List.append_nil]
    · split
      · unfold outside
        simp only [filter_erase_out hp, List.filter_cons, hp, Bool.false_eq_true, if_false]
      · rfl
  | _ => rfl

theorem run_queue_own {t : Slot D} {known : Str → Bool} {h v : Option Nat} {no : Nat} {cs : List Call} {e : Edit D}
    (he : t.run known h v no cs = some e) {p : Str → Bool} (hne : t.arg.names ≠ []) (hn : ∀ n ∈ t.arg.names, p n = false)
    (hf : ∀ f, .flag f ∈ cs → p f = false) (q : List Str × List Str) : outside p (e.queue q) = outside p q := by
  induction cs generalizing t known h v no e q with
  | nil => cases he; rfl
  | cons c cs ih =>
    unfold Slot.run at he
    simp only at he
    have a1 := edit_queue_own t known h v no c t.obj (hn _ (front_mem hne)) q
    obtain ⟨-, a3⟩ := edit_names t known h v no c t.obj
    generalize t.edit known h v no (c.on t.obj) = x at he a1 a3
    split at he
    · obtain ⟨g, hg, rfl⟩ := Option.map_eq_some_iff.1 he
      show outside p (g.queue (x.1.queue q)) = _
      rw [← a1]
      refine ih hg ?_ ?_ (fun f hm => hf f (by simp [hm])) _
      · show x.1.arg.names ≠ []
        rcases a3 with e | ⟨g, _, _, e⟩
        · rw [e]; exact hne
        · rw [e]; exact sortNames_ne_nil (by simp)
      · show ∀ n ∈ x.1.arg.names, p n = false
        rcases a3 with e | ⟨g, rfl, _, e⟩
        · rw [e]; exact hn
        · rw [e]
          intro n hm
          rw [mem_sortNames, List.mem_append, List.mem_singleton] at hm
          rcases hm with hm | rfl
          · exact hn n hm
          · exact hf n (by simp)
    · cases he

/-! ### The help and version options -/

/-- The pointer is not set, or to the argument, which then has that action. -/
def Mine (t : Slot D) (x : Action) (cur : Option Nat) : Prop := cur = none ∨ (cur = some t.obj ∧ t.arg.action = x)

theorem typed_mine (t : Slot D) (h v : Option Nat) (a : Argument D) :
    ((h = none ∨ (h = some t.obj ∧ a.action = .help)) → Mine (t.typed h v a).1.slot .help (t.typed h v a).1.help) ∧
    ((v = none ∨ (v = some t.obj ∧ a.action = .version)) → Mine (t.typed h v a).1.slot .version (t.typed h v a).1.version) := by
  have keep : ∀ x, (x = .help ∨ x = .version) → a.action = x → (a.retyped t.obj h v).action = x := by
    intro x hx e
    rcases retyped_action t.obj h v a with e' | ⟨e', _⟩
    · rw [e', e]
    · rw [e] at e'
      rcases hx with rfl | rfl <;> rcases e' with e' | e' <;> cases e'
  constructor
  · intro hh
    show (a.typeConstructor t.obj h v).2.1 = none ∨ _
    rcases tc_help t.obj h v a with e | ⟨e, e', _⟩
    · rcases hh with hh | ⟨hh, e'⟩
      · exact .inl (e.trans hh)
      · exact .inr ⟨e.trans hh, keep _ (.inl rfl) e'⟩
    · exact .inr ⟨e, keep _ (.inl rfl) e'⟩
  · intro hh
    show (a.typeConstructor t.obj h v).2.2.1 = none ∨ _
    rcases tc_version t.obj h v a with e | ⟨e, e', _⟩
    · rcases hh with hh | ⟨hh, e'⟩
      · exact .inl (e.trans hh)
      · exact .inr ⟨e.trans hh, keep _ (.inr rfl) e'⟩
    · exact .inr ⟨e, keep _ (.inr rfl) e'⟩

theorem edit_mine (t : Slot D) (known : Str → Bool) (h v : Option Nat) (no : Nat) (c : Call) (ref : Nat)
    (hc : c.isDest = false) :
    (Mine t .help h → Mine (t.edit known h v no (c.on ref)).1.slot .help (t.edit known h v no (c.on ref)).1.help) ∧
    (Mine t .version v → Mine (t.edit known h v no (c.on ref)).1.slot .version (t.edit known h v no (c.on ref)).1.version) := by
  cases c with
  | dest d => cases hc
  | flag f =>
    show (_ → Mine (t.flagEdit known h v f).1.slot _ (t.flagEdit known h v f).1.help) ∧
      (_ → Mine (t.flagEdit known h v f).1.slot _ (t.flagEdit known h v f).1.version)
    unfold Slot.flagEdit
    split
    · exact ⟨id, id⟩
    · split
      · exact ⟨id, id⟩
      · split <;> exact ⟨id, id⟩
  | action a =>
    have key := typed_mine t (if t.arg.action == .help then none else h) (if t.arg.action == .version then none else v)
      { t.arg with action := a }
    refine ⟨fun hm => key.1 (.inl ?_), fun hm => key.2 (.inl ?_)⟩
    · rcases hm with rfl | ⟨_, e⟩
      · split <;> rfl
      · rw [e]; rfl
    · rcases hm with rfl | ⟨_, e⟩
      · split <;> rfl
      · rw [e]; rfl
  | nargs n =>
    have key := typed_mine t h v { t.arg with nargs := n }
    exact ⟨fun hm => key.1 hm, fun hm => key.2 hm⟩
  | defaults ds =>
    have e := (defaultsConstructor_frame ({ t.arg with defaults := ds } : Argument D)).2.2.2.1
    have key : ∀ x cur, Mine t x cur →
        Mine ({ t with arg := ({ t.arg with defaults := ds } : Argument D).defaultsConstructor.1 } : Slot D) x cur := by
      rintro x cur (h | ⟨h1, h2⟩)
      · exact .inl h
      · exact .inr ⟨h1, e.trans h2⟩
    exact ⟨key _ _, key _ _⟩
  | _ => exact ⟨id, id⟩

theorem run_mine {t : Slot D} {known : Str → Bool} {h v : Option Nat} {no : Nat} {cs : List Call} {e : Edit D}
    (he : t.run known h v no cs = some e) (hc : ∀ c ∈ cs, c.isDest = false) :
    (Mine t .help h → Mine e.slot .help e.help) ∧ (Mine t .version v → Mine e.slot .version e.version) := by
  induction cs generalizing t known h v no e with
  | nil => cases he; exact ⟨id, id⟩
  | cons c cs ih =>
    unfold Slot.run at he
    simp only at he
    have a1 := edit_mine t known h v no c t.obj (hc c (by simp))
    generalize t.edit known h v no (c.on t.obj) = x at he a1
    split at he
    · obtain ⟨g, hg, rfl⟩ := Option.map_eq_some_iff.1 he
      have := ih hg fun c hm => hc c (by simp [hm])
      exact ⟨fun hm => this.1 (a1.1 hm), fun hm => this.2 (a1.2 hm)⟩
    · cases he

/-- The pointers after the argument is removed again. -/
theorem released {e : Edit D} {p q : Option Nat} (hp : p ≠ some e.obj) (hq : q ≠ some e.obj)
    (hh : e.help = p ∨ (p = none ∧ Mine e.slot .help e.help)) (hv : e.version = q ∨ (q = none ∧ Mine e.slot .version e.version)) :
    (if e.help == some e.obj then none else e.help) = p ∧
    (if e.help == some e.obj then e.version else if e.version == some e.obj then none else e.version) = q := by
  have b1 : ∀ {x : Option Nat}, x ≠ some e.obj → (x == some e.obj) = false := fun h => beq_eq_false_iff_ne.2 h
  have nm : ∀ {x : Action} {cur : Option Nat}, Mine e.slot x cur → cur = none ∨ (cur = some e.obj ∧ e.arg.action = x) := id
  have vers : e.help ≠ some e.obj → (if e.version == some e.obj then none else e.version) = q := by
    intro _
    rcases hv with hv | ⟨rfl, hv⟩
    · rw [hv, b1 hq]; rfl
    · rcases nm hv with hv | ⟨hv, _⟩
      · rw [hv]; rfl
      · rw [hv]; simp
  rcases hh with hh | ⟨rfl, hh⟩
  · have := vers (by rw [hh]; exact hp)
    rw [hh, b1 hp]
    exact ⟨rfl, this⟩
  · rcases nm hh with hh | ⟨hh, ha⟩
    · have := vers (by rw [hh]; simp)
      rw [hh]
      exact ⟨rfl, this⟩
    · rw [hh]
      simp only [beq_self_eq_true, if_true]
      refine ⟨trivial, ?_⟩
      rcases hv with hv | ⟨rfl, hv⟩
      · exact hv
      · rcases nm hv with hv | ⟨_, hv⟩
        · exact hv
        · rw [ha] at hv; cases hv

/-! ### An argument declared and removed -/

/-- Numbers from `k` on move up by `m`. -/
def shiftRen (k m l p : Nat) : Ren where
  n x := if x < k then x else x + m
  o x := if x < l then x else x + p
  ninj a b h := by
    split at h <;> split at h <;> omega
  oinj a b h := by
    split at h <;> split at h <;> omega

theorem run_obj {t : Slot D} {known : Str → Bool} {h v : Option Nat} {no : Nat} {cs : List Call} {e : Edit D}
    (he : t.run known h v no cs = some e) : e.obj = t.obj ∨ no ≤ e.obj := by
  induction cs generalizing t known h v no e with
  | nil => cases he; exact .inl rfl
  | cons c cs ih =>
    unfold Slot.run at he
    simp only at he
    obtain ⟨-, -, a3, a4, -⟩ := edit_shape t known h v no c t.obj
    generalize t.edit known h v no (c.on t.obj) = x at he a3 a4
    split at he
    · obtain ⟨g, hg, rfl⟩ := Option.map_eq_some_iff.1 he
      show g.obj = t.obj ∨ no ≤ g.obj
      rcases ih hg with e | e
      · have e : g.obj = x.1.obj := e
        rw [e, a3]
        cases c.isDest
        · exact .inl rfl
        · exact .inr (Nat.le_refl _)
      · exact .inr (by omega)
    · cases he

theorem names_lookup {m : List (Str × Nat)} (hk : (m.map (·.1)).Nodup) (rm : List Str) (n : Str) :
    lookupName (m.filter (fun p => !rm.contains p.1)) n = if n ∈ rm then none else lookupName m n := by
  by_cases hn : n ∈ rm
  · rw [if_pos hn, lookupName_none]
    intro p hp e
    rw [List.mem_filter] at hp
    have := hp.2
    rw [e] at this
    simp [hn] at this
  · rw [if_neg hn]
    cases hl : lookupName m n with
    | none =>
      rw [lookupName_none] at hl ⊢
      exact fun p hp => hl p (List.mem_filter.1 hp).1
    | some v =>
      refine lookupName_of_mem (hk.sublist (List.filter_sublist.map _)) ?_
      rw [List.mem_filter]
      exact ⟨lookupName_mem hl, by simpa using hn⟩

theorem positionals_exist {st : State D} (hi : Inv st) (ow : Owned st) (b : Bool) {x : Str} (hx : x ∈ positionals st b) :
    st.argumentExists x = true := by
  unfold positionals at hx
  obtain ⟨a, ha, rfl⟩ := List.mem_map.1 hx
  rw [List.mem_filter] at ha
  obtain ⟨s, hs, rfl⟩ := List.mem_map.1 ha.1
  have := ow.own s hs _ (front_mem (hi.forms s hs).ne_nil)
  unfold State.argumentExists
  rw [this]; rfl

theorem front_unique {st : State D} (hi : Inv st) (ow : Owned st) {x y : Slot D} (hx : x ∈ st.arguments) (hy : y ∈ st.arguments)
    (e : x.arg.front = y.arg.front) : x = y := by
  have a1 := ow.own x hx _ (front_mem (hi.forms x hx).ne_nil)
  have a2 := ow.own y hy _ (front_mem (hi.forms y hy).ne_nil)
  rw [e, a2] at a1
  exact eq_of_node hi hy hx (Option.some.inj a1).symm

theorem withdrawn {scan : Str → Option D} {st : State D} (hr : ReachableBy scan CleanAdds st) {names : List Str} {cs : List Call}
    (hu : ∀ n ∈ (Chain.new names cs).names, st.argumentExists n = false)
    (hh : .action .help ∉ cs ∨ (st.helpOption = none ∧ ∀ c ∈ cs, c.isDest = false))
    (hv : .action .version ∉ cs ∨ (st.versionOption = none ∧ ∀ c ∈ cs, c.isDest = false))
    (hs : Succeeds scan st ((Chain.new names cs).ops st.nextObj)) {rm : List Str} (hnd : rm.Nodup)
    (hrm : ∀ n, n ∈ rm ↔ n ∈ (Chain.new names cs).names) :
    Succeeds scan st ((Chain.new names cs).ops st.nextObj ++ [.remove rm]) ∧
    Renamed (shiftRen st.nextNode 1 st.nextObj (Chain.new names cs).creates) st
      (Spec.after scan st ((Chain.new names cs).ops st.nextObj ++ [.remove rm])) := by
  have inv := hr.reachable.inv
  have k1 := chain_spec hr (.new names cs) (fun ref h => by cases h) (fun n h => hu n (Chain.added_names h))
  rw [succeeds_append, after_append hs]
  cases he : (Chain.new names cs).editAt st with
  | none => rw [he] at k1; exact absurd hs k1
  | some e =>
  rw [he] at k1
  obtain ⟨-, ed, hr1⟩ := k1
  obtain ⟨d1, o1, f1, g1⟩ := chain_shape he
  have g1 : e.node = st.nextNode := g1
  have d1 : e.dn = 1 := d1
  have fl := chain_flags he
  generalize hs1 : Spec.after scan st ((Chain.new names cs).ops st.nextObj) = s1 at *
  have inv1 := hr1.reachable.inv
  have hm1 : e.slot ∈ s1.arguments := (ed.mem _).2 (.inl rfl)
  have none_of : ∀ n, st.argumentExists n = false → lookupName st.byName n = none := by
    intro n h
    unfold State.argumentExists at h
    simpa using h
  have hall : ∀ n ∈ rm, lookupName s1.byName n = some e.slot.node := by
    intro n hn
    have hn' := (hrm n).1 hn
    rw [ed.look, none_of n (hu n hn'), if_pos ((fl n).2 hn')]
    rfl
  have hcov : ∀ p ∈ s1.byName, p.2 = e.slot.node → p.1 ∈ rm := by
    intro p hp hn
    have := lookupName_of_mem inv1.keys hp
    rw [ed.look] at this
    cases hl : lookupName st.byName p.1 with
    | some k =>
      exfalso
      rw [hl] at this
      have this : k = p.2 := by simpa using this
      obtain ⟨s, hs, e1, _⟩ := inv.entries _ (lookupName_mem hl)
      have e1 : s.node = k := e1
      have := inv.nodesLt s hs
      have hn : p.2 = e.node := hn
      omega
    | none =>
      rw [hl] at this
      by_cases hf : p.1 ∈ e.flags
      · exact (hrm _).2 ((fl _).1 hf)
      · rw [if_neg hf] at this; cases this
  have hne : rm ≠ [] := by
    intro h0
    obtain ⟨n, hn, h'⟩ := inv1.named e.slot hm1
    have := hcov _ h' rfl
    rw [h0] at this
    cases this
  obtain ⟨s2, hr2, inv2, hb2, hm2, hp2, hn2, ho2, hh2, hv2⟩ := removeArguments_whole rm inv1 hm1 hne hnd hall hcov
  have hstep : step scan s1 (.remove rm) = (s2, .ok ()) := hr2
  have hq := C11_positional_queues hr1.reachable (.remove rm) (by rw [hstep]; rfl)
  rw [hstep] at hq
  have ha : Spec.after scan s1 [.remove rm] = s2 := by
    show (if (step scan s1 (.remove rm)).2.goesOn then _ else _) = _
    rw [hstep]; rfl
  rw [ha]
  refine ⟨⟨hs, ?_⟩, ?_⟩
  · rw [succeeds_cons, hstep]
    exact ⟨rfl, fun _ h => nomatch h⟩
  -- pointers
  have old := hr.reachable.ptrsOld
  unfold Chain.editAt Chain.edit at he
  simp only at he
  split at he
  · cases he
  rename_i a ha'
  obtain ⟨na1, na2, na3, na4, na5⟩ := newArg_names ha'
  obtain ⟨g, hg, hge⟩ := Option.map_eq_some_iff.1 he
  have ego : e.obj = g.obj := by rw [← hge]; rfl
  have hobj : st.nextObj ≤ e.obj := by
    rw [ego]
    rcases run_obj hg with h | h
    · have h : g.obj = st.nextObj := h
      omega
    · omega
  have mine := run_mine hg
  have fresh : ∀ x : Action, x ≠ .none → a.action ≠ x := by
    intro x hx e; rw [na4] at e; exact hx e.symm
  have hhelp : e.help = st.helpOption ∨ (st.helpOption = none ∧ Mine e.slot .help e.help) := by
    rcases hh with hh | ⟨h0, hd⟩
    · left
      have := run_helpFree (t := ⟨st.nextNode, st.nextObj, a⟩) (fresh .help (by simp)) hh
        (fun n => st.argumentExists n || decide (n ∈ a.names)) st.helpOption st.versionOption st.helpOption (st.nextObj + 1)
      rw [hg] at this
      rw [← hge]
      exact congrArg Edit.help (Option.some.inj this)
    · right
      refine ⟨h0, ?_⟩
      rw [← hge]
      exact (mine hd).1 (.inl h0)
  have hvers : e.version = st.versionOption ∨ (st.versionOption = none ∧ Mine e.slot .version e.version) := by
    rcases hv with hv | ⟨h0, hd⟩
    · left
      have := run_versionFree (t := ⟨st.nextNode, st.nextObj, a⟩) (fresh .version (by simp)) hv
        (fun n => st.argumentExists n || decide (n ∈ a.names)) st.helpOption st.versionOption st.versionOption (st.nextObj + 1)
      rw [hg] at this
      rw [← hge]
      exact congrArg Edit.version (Option.some.inj this)
    · right
      refine ⟨h0, ?_⟩
      rw [← hge]
      exact (mine hd).2 (.inl h0)
  have rel := released (e := e) (p := st.helpOption) (q := st.versionOption)
    (fun h => by have := old _ (.inl h); omega) (fun h => by have := old _ (.inr h); omega) hhelp hvers
  rw [show e.slot.obj = e.obj from rfl, ed.help] at hh2 hv2
  rw [ed.version] at hv2
  rw [rel.1] at hh2
  rw [rel.2] at hv2
  -- the queues
  have outq : outside (fun n => !rm.contains n) (e.queue (positionals st true, positionals st false)) =
      (positionals st true, positionals st false) := by
    have e1 : e.queue = fun q => g.queue (if a.isPositional then (q.1, q.2 ++ [a.front]) else q) := by rw [← hge]; rfl
    have inrm : ∀ n, n ∈ a.names → (!rm.contains n) = false := by
      intro n hn
      have := (hrm n).2 (Chain.added_names (c := .new names cs) ((na2 n).1 hn))
      simpa using this
    rw [e1]
    rw [run_queue_own (p := fun n => !rm.contains n) hg na1 inrm (fun f hf => by
      have := (hrm f).2 (Chain.flag_names (c := .new names cs) hf)
      simpa using this)]
    have e2 : outside (fun n => !rm.contains n) (if a.isPositional then (positionals st true, positionals st false ++ [a.front])
        else (positionals st true, positionals st false)) =
        outside (fun n => !rm.contains n) (positionals st true, positionals st false) := by
      split
      · unfold outside
        simp only [List.filter_append, List.filter_cons, inrm _ (front_mem na1), Bool.false_eq_true, if_false, List.filter_nil,
          List.append_nil]
      · rfl
    rw [e2]
    have keepq : ∀ b, (positionals st b).filter (fun n => !rm.contains n) = positionals st b := by
      intro b
      rw [List.filter_eq_self]
      intro n hn
      have h1 := positionals_exist inv hr.owned b hn
      cases hc : rm.contains n with
      | false => rfl
      | true =>
        have hc : n ∈ rm := by simpa using hc
        rw [hu n ((hrm n).1 hc)] at h1
        cases h1
    unfold outside
    simp only [keepq]
  have hq2 : ∀ b, positionals s2 b = positionals st b := by
    have hq : (positionals s2 true, positionals s2 false) =
        outside (fun n => !rm.contains n) (positionals s1 true, positionals s1 false) := hq
    rw [ed.queue, outq] at hq
    intro b
    cases b with
    | true => exact congrArg Prod.fst hq
    | false => exact congrArg Prod.snd hq
  have args : st.arguments = s2.arguments := by
    refine list_determined inv.sorted inv2.sorted (nodup_of_map inv.nodes) (nodup_of_map inv2.nodes) ?_
      (fun x hx y hy => front_unique inv hr.owned hx hy) ?_
    · intro x
      rw [hm2, ed.mem]
      constructor
      · intro hx
        have : x.node ≠ e.node := by rw [g1]; exact Nat.ne_of_lt (inv.nodesLt x hx)
        exact ⟨.inr ⟨hx, this⟩, this⟩
      · rintro ⟨rfl | hx, h⟩
        · exact absurd rfl h
        · exact hx.1
    · intro b
      rw [← positionals_eq, ← positionals_eq, hq2]
  have fixn : ∀ k, k < st.nextNode → (shiftRen st.nextNode 1 st.nextObj (Chain.new names cs).creates).n k = k :=
    fun k hk => if_pos hk
  have fixo : ∀ k, k < st.nextObj → (shiftRen st.nextNode 1 st.nextObj (Chain.new names cs).creates).o k = k :=
    fun k hk => if_pos hk
  refine ⟨?_, ?_, inv.keys, inv2.keys, ?_, ?_, ?_, ?_, ?_, fun h => h.elim⟩
  · rw [← args]
    symm
    conv => rhs; rw [← List.map_id st.arguments]
    refine List.map_congr_left fun x hx => ?_
    unfold Ren.slot
    rw [fixn _ (inv.nodesLt x hx), fixo _ (inv.objsLt x hx)]
    rfl
  · intro x
    rw [hb2, names_lookup inv1.keys, ed.look]
    cases hl : lookupName st.byName x with
    | none =>
      rw [Option.map_none, Option.none_or]
      split
      · rfl
      · rename_i hx
        rw [if_neg]
        exact fun h => hx ((hrm x).2 ((fl x).1 h))
    | some k =>
      obtain ⟨s, hs, e1, _⟩ := inv.entries _ (lookupName_mem hl)
      have e1 : s.node = k := e1
      rw [Option.map_some, fixn k (e1 ▸ inv.nodesLt s hs), if_neg]
      · rfl
      · intro hx
        have := none_of x (hu x ((hrm x).1 hx))
        rw [hl] at this
        cases this
  · rw [hh2]
    exact map_fix (fun x e => old x (.inl e)) fixo
  · rw [hv2]
    exact map_fix (fun x e => old x (.inr e)) fixo
  · intro k _
    rw [hn2, ed.node, d1]
    show (if st.nextNode + k < st.nextNode then st.nextNode + k else st.nextNode + k + 1) = _
    rw [if_neg (by omega)]
    omega
  · intro k _
    rw [ho2, ed.obj, o1]
    show (if st.nextObj + k < st.nextObj then st.nextObj + k else st.nextObj + k + _) = _
    rw [if_neg (by omega)]
    omega
  · rw [hp2, ed.plain]

end BletArgs
