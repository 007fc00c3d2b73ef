import Verif.Lemmas.Chain
/-
What a statement made of chained calls does to one argument, and why two such statements commute.
-/
namespace BletArgs
open Spec
variable {D : Type}

/-! ### Composing edits -/

def Edit.then (e f : Edit D) : Edit D :=
  { f with flags := e.flags ++ f.flags, dn := e.dn + f.dn, dob := e.dob + f.dob, queue := fun q => f.queue (e.queue q) }

theorem Edited.then {st s1 s2 : State D} {e f : Edit D} (h : Edited st e s1) (h' : Edited s1 f s2) (hn : f.node = e.node) :
    Edited st (e.then f) s2 := by
  refine ⟨?_, ?_, h'.help, h'.version, ?_, ?_, h'.plain.trans h.plain, ?_⟩
  · intro x
    rw [h'.mem, h.mem]
    show x = f.slot ∨ _ ↔ x = f.slot ∨ (x ∈ st.arguments ∧ x.node ≠ f.node)
    constructor
    · rintro (rfl | ⟨rfl | hx, hne⟩)
      · exact .inl rfl
      · exact absurd hn.symm hne
      · exact .inr ⟨hx.1, hne⟩
    · rintro (rfl | ⟨hx, hne⟩)
      · exact .inl rfl
      · exact .inr ⟨.inr ⟨hx, hn ▸ hne⟩, hne⟩
  · intro x
    rw [h'.look, h.look]
    show _ = (lookupName st.byName x).or (if x ∈ e.flags ++ f.flags then some f.node else none)
    cases lookupName st.byName x with
    | some k => simp
    | none =>
      by_cases h1 : x ∈ e.flags <;> by_cases h2 : x ∈ f.flags <;> simp [h1, h2, hn]
  · rw [h'.node, h.node]; show _ = st.nextNode + (e.dn + f.dn); omega
  · rw [h'.obj, h.obj]; show _ = st.nextObj + (e.dob + f.dob); omega
  · rw [h'.queue, h.queue]; rfl

/-! ### Chained calls -/

theorem edit_shape (t : Slot D) (known : Str → Bool) (h v : Option Nat) (no : Nat) (c : Call) (ref : Nat) :
    (t.edit known h v no (c.on ref)).1.node = t.node ∧
    (t.edit known h v no (c.on ref)).1.dn = 0 ∧
    (t.edit known h v no (c.on ref)).1.obj = (if c.isDest then no else t.obj) ∧
    (t.edit known h v no (c.on ref)).1.dob = (if c.isDest then 1 else 0) ∧
    (∀ f ∈ (t.edit known h v no (c.on ref)).1.flags, c = .flag f) := by
  cases c with
  | flag f =>
    show (t.flagEdit known h v f).1.node = _ ∧ _
    unfold Call.on Slot.edit
    dsimp only
    unfold Slot.flagEdit
    split
    · exact ⟨rfl, rfl, rfl, rfl, by simp [Slot.same]⟩
    · split
      · exact ⟨rfl, rfl, rfl, rfl, by simp [Slot.same]⟩
      · split
        · exact ⟨rfl, rfl, rfl, rfl, by simp [Slot.same]⟩
        · refine ⟨rfl, rfl, rfl, rfl, ?_⟩
          intro g hg
          rw [List.mem_singleton] at hg
          rw [hg]
  | action a => exact ⟨rfl, rfl, rfl, rfl, by simp [Call.on, Slot.edit, Slot.typed]⟩
  | nargs a => exact ⟨rfl, rfl, rfl, rfl, by simp [Call.on, Slot.edit, Slot.typed]⟩
  | _ => exact ⟨rfl, rfl, rfl, rfl, by simp [Call.on, Slot.edit, Slot.same]⟩

theorem edit_no (t : Slot D) (known : Str → Bool) (h v : Option Nat) (no no' : Nat) (c : Call) (ref ref' : Nat)
    (hc : c.isDest = false) : t.edit known h v no (c.on ref) = t.edit known h v no' (c.on ref') := by
  cases c with
  | dest d => cases hc
  | _ => rfl

/-- What chained calls do; `none` if one of them does not return. -/
def Slot.run (t : Slot D) (known : Str → Bool) (h v : Option Nat) (no : Nat) : List Call → Option (Edit D)
  | [] => some (t.same h v)
  | c :: cs =>
    let x := t.edit known h v no (c.on t.obj)
    if x.2 = .ok () then
      (Slot.run x.1.slot (fun n => known n || decide (n ∈ x.1.flags)) x.1.help x.1.version (no + x.1.dob) cs).map x.1.then
    else none

theorem run_shape {t : Slot D} {known : Str → Bool} {h v : Option Nat} {no : Nat} {cs : List Call} {e : Edit D}
    (he : t.run known h v no cs = some e) :
    e.node = t.node ∧ e.dn = 0 ∧ e.dob = cs.countP Call.isDest ∧ (∀ f ∈ e.flags, .flag f ∈ cs) := by
  induction cs generalizing t known h v no e with
  | nil => cases he; exact ⟨rfl, rfl, rfl, by simp [Slot.same]⟩
  | cons c cs ih =>
    unfold Slot.run at he
    simp only at he
    obtain ⟨a1, a2, a3, a4, a5⟩ := edit_shape t known h v no c t.obj
    revert he a1 a2 a3 a4 a5
    generalize t.edit known h v no (c.on t.obj) = x
    intro he a1 a2 a3 a4 a5
    split at he
    · obtain ⟨f, hf, rfl⟩ := Option.map_eq_some_iff.1 he
      obtain ⟨b1, b2, b3, b4⟩ := ih hf
      refine ⟨b1.trans a1, ?_, ?_, ?_⟩
      · show x.1.dn + f.dn = 0
        omega
      · show x.1.dob + f.dob = _
        rw [a4, b3, List.countP_cons]
        omega
      · intro g hg
        rcases List.mem_append.1 hg with hg | hg
        · rw [a5 g hg]; simp
        · simp [b4 g hg]
    · cases he

theorem Call.on_ref (c : Call) (ref : Nat) : (c.on ref).ref = some ref := by cases c <;> rfl

theorem Call.clean (c : Call) (ref : Nat) (st : State D) (res : Res Unit) : CleanAdds st (c.on ref) res := by
  cases c <;> exact trivial

theorem succeeds_cons {scan : Str → Option D} {st : State D} {op : Op} {ops : List Op} :
    Succeeds scan st (op :: ops) ↔ (step scan st op).2 = .ok () ∧ Succeeds scan (step scan st op).1 ops := by
  unfold Succeeds
  rw [show outcomes scan st (op :: ops) = (step scan st op).2 ::
    if (step scan st op).2.goesOn then outcomes scan (step scan st op).1 ops else [] from rfl]
  rw [List.forall_mem_cons]
  constructor
  · rintro ⟨h1, h2⟩
    rw [h1] at h2
    exact ⟨h1, h2⟩
  · rintro ⟨h1, h2⟩
    refine ⟨h1, ?_⟩
    rw [h1]
    exact h2

theorem after_cons_ok {scan : Str → Option D} {st : State D} {op : Op} (ops : List Op) (h : (step scan st op).2 = .ok ()) :
    Spec.after scan st (op :: ops) = Spec.after scan (step scan st op).1 ops := by
  show (if (step scan st op).2.goesOn then _ else _) = _
  rw [h]; rfl

theorem succeeds_append {scan : Str → Option D} {st : State D} {ops ops' : List Op} :
    Succeeds scan st (ops ++ ops') ↔ Succeeds scan st ops ∧ Succeeds scan (Spec.after scan st ops) ops' := by
  induction ops generalizing st with
  | nil =>
    refine ⟨fun h => ⟨?_, h⟩, fun h => h.2⟩
    intro r hr
    cases hr
  | cons op ops ih =>
    rw [List.cons_append, succeeds_cons, succeeds_cons, ih]
    constructor
    · rintro ⟨h1, h2, h3⟩
      refine ⟨⟨h1, h2⟩, ?_⟩
      rwa [after_cons_ok _ h1]
    · rintro ⟨⟨h1, h2⟩, h3⟩
      rw [after_cons_ok _ h1] at h3
      exact ⟨h1, h2, h3⟩

theorem after_append {scan : Str → Option D} {st : State D} {ops : List Op} (h : Succeeds scan st ops) (ops' : List Op) :
    Spec.after scan st (ops ++ ops') = Spec.after scan (Spec.after scan st ops) ops' := by
  induction ops generalizing st with
  | nil => rfl
  | cons op ops ih =>
    rw [succeeds_cons] at h
    rw [List.cons_append, after_cons_ok _ h.1, after_cons_ok _ h.1, ih h.2]

theorem Edited.known {st st' : State D} {e : Edit D} (h : Edited st e st') (n : Str) :
    st'.argumentExists n = (st.argumentExists n || decide (n ∈ e.flags)) := by
  unfold State.argumentExists
  rw [h.look]
  cases lookupName st.byName n <;> by_cases c : n ∈ e.flags <;> simp [c]

theorem Edited.found {st st' : State D} {e : Edit D} (hi : Inv st') (h : Edited st e st') : st'.atObj e.obj = some e.slot :=
  State.atObj_of_mem hi.objs ((h.mem _).2 (.inl rfl))

theorem run_spec {scan : Str → Option D} {st : State D} (hr : ReachableBy scan CleanAdds st) {t : Slot D} {ref : Nat}
    (ht : st.atObj ref = some t) (cs : List Call) :
    match t.run st.argumentExists st.helpOption st.versionOption st.nextObj cs with
    | none => ¬ Succeeds scan st (chained ref st.nextObj cs)
    | some e => Succeeds scan st (chained ref st.nextObj cs) ∧
        Edited st e (Spec.after scan st (chained ref st.nextObj cs)) ∧
        ReachableBy scan CleanAdds (Spec.after scan st (chained ref st.nextObj cs)) := by
  induction cs generalizing st t ref with
  | nil =>
    refine ⟨(fun _ h => nomatch h), ?_, hr⟩
    have hi := hr.reachable.inv
    have hm := (State.atObj_some ht).1
    refine ⟨?_, fun _ => or_none_iff _ _ _, rfl, rfl, rfl, rfl, rfl, rfl⟩
    intro x
    constructor
    · intro hx
      by_cases e : x.node = t.node
      · exact .inl (eq_of_node hi hm hx e)
      · exact .inr ⟨hx, e⟩
    · rintro (rfl | hx)
      · exact hm
      · exact hx.1
  | cons c cs ih =>
    obtain rfl : t.obj = ref := (State.atObj_some ht).2
    obtain ⟨hs, hres⟩ := edit_step hr.reachable (c.on t.obj) (Call.on_ref c _) (by intro r items; cases c <;> exact fun e => by cases e) ht
    obtain ⟨a1, a2, a3, a4, a5⟩ := edit_shape t st.argumentExists st.helpOption st.versionOption st.nextObj c t.obj
    unfold Slot.run
    simp only
    revert hs hres a1 a2 a3 a4 a5
    generalize t.edit st.argumentExists st.helpOption st.versionOption st.nextObj (c.on t.obj) = x
    obtain ⟨e, res⟩ := x
    intro hs hres a1 a2 a3 a4 a5
    simp only at hs hres a1 a2 a3 a4 a5 ⊢
    have hch : chained t.obj st.nextObj (c :: cs) = c.on t.obj :: chained e.obj (st.nextObj + e.dob) cs := by
      show c.on t.obj :: _ = _
      rw [a3, a4]
      cases c.isDest <;> rfl
    rw [hch]
    by_cases hok : res = .ok ()
    · rw [if_pos hok]
      rw [hok] at hres
      have hr' : ReachableBy scan CleanAdds (step scan st (c.on t.obj)).1 :=
        .step _ hr (by rw [hres]; rfl) (Call.clean c _ _ _)
      have e1 : (fun n => st.argumentExists n || decide (n ∈ e.flags)) = (step scan st (c.on t.obj)).1.argumentExists :=
        funext fun n => (hs.known n).symm
      have key := ih hr' (hs.found hr'.reachable.inv)
      rw [← hs.help, ← hs.version, ← hs.obj, e1]
      revert key
      cases hrun : e.slot.run (step scan st (c.on t.obj)).1.argumentExists (step scan st (c.on t.obj)).1.helpOption
          (step scan st (c.on t.obj)).1.versionOption (step scan st (c.on t.obj)).1.nextObj cs with
      | none =>
        intro key
        simp only [Option.map_none]
        rw [succeeds_cons]
        exact fun h => key h.2
      | some f =>
        rintro ⟨k1, k2, k3⟩
        simp only [Option.map_some]
        rw [succeeds_cons, after_cons_ok _ hres]
        exact ⟨⟨hres, k1⟩, hs.then k2 (run_shape hrun).1, k3⟩
    · rw [if_neg hok]
      rw [succeeds_cons]
      exact fun h => hok (hres.symm.trans h.1)

/-! ### What the outcome of chained calls depends on -/

theorem run_known {t : Slot D} {known known' : Str → Bool} (h v : Option Nat) (no : Nat) {cs : List Call}
    (hk : ∀ f, .flag f ∈ cs → known f = known' f) : t.run known h v no cs = t.run known' h v no cs := by
  induction cs generalizing t known known' h v no with
  | nil => rfl
  | cons c cs ih =>
    have e : t.edit known h v no (c.on t.obj) = t.edit known' h v no (c.on t.obj) := by
      refine edit_known ?_ h v no
      intro r f e
      refine hk f ?_
      cases c with
      | flag g => cases e; simp
      | _ => cases e
    unfold Slot.run
    simp only
    rw [e]
    split
    · congr 1
      refine ih _ _ _ fun f hf => ?_
      rw [hk f (by simp [hf])]
    · rfl

theorem Edit.then_help (e f : Edit D) (x : Option Nat) : e.then { f with help := x } = { e.then f with help := x } := rfl

/-- Not concerned with the help option. -/
theorem touches_of {t : Slot D} {c : Call} {x : Action} (ha : t.arg.action ≠ x) (hc : c ≠ .action x) (ref : Nat) :
    t.touches x (c.on ref) = false := by
  cases c with
  | action a =>
    have : a ≠ x := fun e => hc (by rw [e])
    show (a == x || t.arg.action == x) = false
    rw [beq_eq_false_iff_ne.2 this, beq_eq_false_iff_ne.2 ha]; rfl
  | nargs n => exact beq_eq_false_iff_ne.2 ha
  | _ => rfl

theorem run_helpFree {t : Slot D} {cs : List Call} (ha : t.arg.action ≠ .help) (hc : .action .help ∉ cs) (known : Str → Bool)
    (h v h' : Option Nat) (no : Nat) :
    t.run known h v no cs = (t.run known h' v no cs).map fun e => { e with help := h } := by
  induction cs generalizing t known h v h' no with
  | nil => rfl
  | cons c cs ih =>
    have hn : c ≠ .action .help := fun e => hc (by simp [e])
    have tt := touches_of ha hn t.obj
    have ea := edit_action t known h' v no (c.on t.obj) .help (.inl rfl) tt ha
    have e := edit_helpFree tt known h v h' no
    unfold Slot.run
    simp only
    rw [e]
    generalize t.edit known h' v no (c.on t.obj) = x at ea ⊢
    simp only
    split
    · have := ih (t := x.1.slot) ea (fun hm => hc (by simp [hm])) (fun n => known n || decide (n ∈ x.1.flags)) h x.1.version
        x.1.help (no + x.1.dob)
      rw [show ({ x.1 with help := h } : Edit D).slot = x.1.slot from rfl, this, Option.map_map, Option.map_map]
      rfl
    · rfl

theorem run_versionFree {t : Slot D} {cs : List Call} (ha : t.arg.action ≠ .version) (hc : .action .version ∉ cs)
    (known : Str → Bool) (h v v' : Option Nat) (no : Nat) :
    t.run known h v no cs = (t.run known h v' no cs).map fun e => { e with version := v } := by
  induction cs generalizing t known h v v' no with
  | nil => rfl
  | cons c cs ih =>
    have hn : c ≠ .action .version := fun e => hc (by simp [e])
    have tt := touches_of ha hn t.obj
    have ea := edit_action t known h v' no (c.on t.obj) .version (.inr rfl) tt ha
    have e := edit_versionFree tt known h v v' no
    unfold Slot.run
    simp only
    rw [e]
    generalize t.edit known h v' no (c.on t.obj) = x at ea ⊢
    simp only
    split
    · have := ih (t := x.1.slot) ea (fun hm => hc (by simp [hm])) (fun n => known n || decide (n ∈ x.1.flags)) x.1.help v
        x.1.version (no + x.1.dob)
      rw [show ({ x.1 with version := v } : Edit D).slot = x.1.slot from rfl, this, Option.map_map, Option.map_map]
      rfl
    · rfl

theorem run_ren (r : Ren) {t : Slot D} {cs : List Call} (known : Str → Bool) (h v : Option Nat) {no no' : Nat}
    (ho : ∀ k, k < cs.countP Call.isDest → r.o (no + k) = no' + k) :
    (r.slot t).run known (h.map r.o) (v.map r.o) no' cs = (t.run known h v no cs).map (Edit.ren r) := by
  induction cs generalizing t known h v no no' with
  | nil => rfl
  | cons c cs ih =>
    have e : (r.slot t).edit known (h.map r.o) (v.map r.o) no' (c.on (r.slot t).obj) =
        ((t.edit known h v no (c.on t.obj)).1.ren r, (t.edit known h v no (c.on t.obj)).2) := by
      have key := edit_ren r t known h v no (c.on t.obj)
      cases hd : c.isDest with
      | false =>
        rw [← key]
        exact edit_no _ _ _ _ _ _ c _ _ hd
      | true =>
        have := ho 0 (by rw [List.countP_cons, hd]; simp)
        rw [← key]
        rw [Nat.add_zero, Nat.add_zero] at this
        rw [this]
        cases c <;> first | rfl | cases hd
    have a4 := (edit_shape t known h v no c t.obj).2.2.2.1
    unfold Slot.run
    simp only
    rw [e]
    generalize t.edit known h v no (c.on t.obj) = x at a4 ⊢
    simp only
    split
    · have := ih (t := x.1.slot) (fun n => known n || decide (n ∈ x.1.flags)) x.1.help x.1.version (no := no + x.1.dob)
        (no' := no' + x.1.dob) (by
          intro k hk
          have := ho (x.1.dob + k) (by
            rw [List.countP_cons]
            rw [a4]
            cases c.isDest <;> simp <;> omega)
          rw [Nat.add_assoc, this, Nat.add_assoc])
      rw [show (x.1.ren r).slot = r.slot x.1.slot from rfl, show (x.1.ren r).flags = x.1.flags from rfl,
        show (x.1.ren r).help = x.1.help.map r.o from rfl, show (x.1.ren r).version = x.1.version.map r.o from rfl,
        show (x.1.ren r).dob = x.1.dob from rfl, this, Option.map_map, Option.map_map]
      rfl
    · rfl

end BletArgs
