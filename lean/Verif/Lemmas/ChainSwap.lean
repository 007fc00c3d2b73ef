import Verif.Lemmas.ChainEdit
/-
Two statements that have nothing to do with each other commute.
-/
namespace BletArgs
open Spec
variable {D : Type}

/-! ### The order of the positionals -/

theorem edit_names (t : Slot D) (known : Str → Bool) (h v : Option Nat) (no : Nat) (c : Call) (ref : Nat) :
    (t.edit known h v no (c.on ref)).1.arg.isPositional = t.arg.isPositional ∧
    ((t.edit known h v no (c.on ref)).1.arg.names = t.arg.names ∨
      ∃ f, c = .flag f ∧ FlagForm f ∧ (t.edit known h v no (c.on ref)).1.arg.names = sortNames (t.arg.names ++ [f])) := by
  cases c with
  | flag f =>
    unfold Call.on Slot.edit
    dsimp only
    unfold Slot.flagEdit
    split
    · exact ⟨rfl, .inl rfl⟩
    · split
      · exact ⟨rfl, .inl rfl⟩
      · rename_i hv
        split
        · exact ⟨rfl, .inl rfl⟩
        · exact ⟨rfl, .inr ⟨f, rfl, (C03_flag_syntax f).1 hv, rfl⟩⟩
  | action a =>
    have := retype_names t.obj (if t.arg.action == .help then none else h) (if t.arg.action == .version then none else v)
      { t.arg with action := a }
    exact ⟨this.2.1, .inl this.1⟩
  | nargs n =>
    have := retype_names t.obj h v { t.arg with nargs := n }
    exact ⟨this.2.1, .inl this.1⟩
  | defaults ds =>
    have := defaultsConstructor_frame ({ t.arg with defaults := ds } : Argument D)
    refine ⟨?_, .inl this.1⟩
    show ({ t.arg with defaults := ds } : Argument D).defaultsConstructor.1.isPositional = _
    unfold Argument.isPositional
    rw [this.2.1]
  | _ => exact ⟨rfl, .inl rfl⟩

theorem flagForm_head {f : Str} (h : FlagForm f) : f.head? = some '-' := by
  rcases h with ⟨c, _, rfl⟩ | h
  · rfl
  · obtain ⟨d, r, rfl, _⟩ := h
    rfl

theorem nameForm_head {f : Str} (h : NameForm f) : f.head? ≠ some '-' := by
  obtain ⟨c, r, rfl, hc⟩ := h
  simpa using hc

theorem edit_queue (t : Slot D) (known : Str → Bool) (h v : Option Nat) (no : Nat) (c : Call) (ref : Nat)
    (hp : t.arg.isPositional = true → ∀ b, c ≠ .required b)
    (hn : t.arg.isPositional = false → t.arg.front.head? = some '-') (q : List Str × List Str)
    (hq : ∀ x, x ∈ q.1 ∨ x ∈ q.2 → x.head? ≠ some '-') : (t.edit known h v no (c.on ref)).1.queue q = q := by
  cases c with
  | flag f =>
    unfold Call.on Slot.edit
    dsimp only
    unfold Slot.flagEdit
    split
    · rfl
    · split
      · rfl
      · split <;> rfl
  | required b =>
    cases hpos : t.arg.isPositional with
    | true => exact absurd rfl (hp hpos b)
    | false =>
      show (if b = true ∧ t.arg.front ∈ q.2 then _ else if b = false ∧ t.arg.front ∈ q.1 then _ else q) = q
      rw [if_neg fun e => hq _ (.inr e.2) (hn hpos), if_neg fun e => hq _ (.inl e.2) (hn hpos)]
  | _ => rfl

theorem front_mem {a : Argument D} (h : a.names ≠ []) : a.front ∈ a.names := by
  unfold Argument.front
  cases hn : a.names with
  | nil => exact absurd hn h
  | cons n ns => simp

theorem run_queue {t : Slot D} {known : Str → Bool} {h v : Option Nat} {no : Nat} {cs : List Call} {e : Edit D}
    (he : t.run known h v no cs = some e) (hp : t.arg.isPositional = true → ∀ b, .required b ∉ cs)
    (hn : t.arg.isPositional = false → t.arg.names ≠ [] ∧ ∀ f ∈ t.arg.names, FlagForm f) (q : List Str × List Str)
    (hq : ∀ x, x ∈ q.1 ∨ x ∈ q.2 → x.head? ≠ some '-') : e.queue q = q := by
  induction cs generalizing t known h v no e with
  | nil => cases he; rfl
  | cons c cs ih =>
    unfold Slot.run at he
    simp only at he
    have a1 := edit_queue t known h v no c t.obj (fun p b e => hp p b (by simp [e]))
      (fun p => flagForm_head ((hn p).2 _ (front_mem (hn p).1))) q hq
    obtain ⟨a2, a3⟩ := edit_names t known h v no c t.obj
    generalize t.edit known h v no (c.on t.obj) = x at he a1 a2 a3
    split at he
    · obtain ⟨f, hf, rfl⟩ := Option.map_eq_some_iff.1 he
      show f.queue (x.1.queue q) = q
      rw [a1]
      refine ih hf ?_ ?_
      · intro p b hm
        exact hp (a2 ▸ p) b (by simp [hm])
      · intro p
        obtain ⟨n1, n2⟩ := hn (a2 ▸ p)
        show x.1.arg.names ≠ [] ∧ ∀ f ∈ x.1.arg.names, FlagForm f
        rcases a3 with e | ⟨g, _, hg, e⟩
        · rw [e]; exact ⟨n1, n2⟩
        · rw [e]
          refine ⟨sortNames_ne_nil (by simp), ?_⟩
          intro f hf
          rw [mem_sortNames, List.mem_append, List.mem_singleton] at hf
          rcases hf with hf | rfl
          · exact n2 f hf
          · exact hg
    · cases he

theorem positionals_undashed {st : State D} (hi : Inv st) (b : Bool) {x : Str} (hx : x ∈ positionals st b) :
    x.head? ≠ some '-' := by
  unfold positionals at hx
  obtain ⟨a, ha, rfl⟩ := List.mem_map.1 hx
  rw [List.mem_filter, Bool.and_eq_true] at ha
  obtain ⟨s, hs, rfl⟩ := List.mem_map.1 ha.1
  obtain ⟨n, hn, hf⟩ := (hi.forms s hs).positional ha.2.1
  unfold Argument.front
  rw [hn]
  exact nameForm_head hf

/-! ### A statement -/

def Spec.Chain.edit (find : Nat → Option (Slot D)) (known : Str → Bool) (h v : Option Nat) (nn no : Nat) :
    Chain → Option (Edit D)
  | .new names cs =>
    match newArg known names with
    | .error _ => none
    | .ok a =>
      (Slot.run ⟨nn, no, a⟩ (fun n => known n || decide (n ∈ a.names)) h v (no + 1) cs).map (addEdit nn no h v a).then
  | .through ref cs => (find ref).bind fun t => t.run known h v no cs

def Spec.Chain.editAt (st : State D) (c : Chain) : Option (Edit D) :=
  c.edit st.atObj st.argumentExists st.helpOption st.versionOption st.nextNode st.nextObj

def Spec.Chain.nodes : Chain → Nat
  | .new _ _ => 1
  | .through _ _ => 0

theorem Spec.Chain.flag_names {c : Chain} {f : Str} (h : .flag f ∈ c.calls) : f ∈ c.names := by
  unfold Chain.names
  rw [List.mem_append, List.mem_filterMap]
  exact .inr ⟨_, h, rfl⟩

theorem Spec.Chain.added_names {c : Chain} {f : Str} (h : f ∈ c.added) : f ∈ c.names := by
  unfold Chain.names
  rw [List.mem_append]
  exact .inl h

theorem chain_shape {c : Chain} {find : Nat → Option (Slot D)} {known : Str → Bool} {h v : Option Nat} {nn no : Nat}
    {e : Edit D} (he : c.edit find known h v nn no = some e) :
    e.dn = c.nodes ∧ e.dob = c.creates ∧ (∀ f ∈ e.flags, f ∈ c.names) ∧
    (match c with | .new _ _ => e.node = nn | .through ref _ => ∃ t, find ref = some t ∧ e.node = t.node) := by
  cases c with
  | new names cs =>
    unfold Chain.edit at he
    simp only at he
    split at he
    · cases he
    · rename_i a ha
      obtain ⟨f, hf, rfl⟩ := Option.map_eq_some_iff.1 he
      obtain ⟨b1, b2, b3, b4⟩ := run_shape hf
      refine ⟨?_, ?_, ?_, b1⟩
      · show 1 + f.dn = 1
        omega
      · show 1 + f.dob = 1 + cs.countP Call.isDest
        omega
      · intro g hg
        rcases List.mem_append.1 hg with hg | hg
        · exact Chain.added_names (c := .new names cs) (((newArg_names ha).2.1 g).1 hg)
        · exact Chain.flag_names (c := .new names cs) (b4 g hg)
  | through ref cs =>
    obtain ⟨t, ht, he⟩ := Option.bind_eq_some_iff.1 he
    obtain ⟨b1, b2, b3, b4⟩ := run_shape he
    exact ⟨b2, b3, fun g hg => Chain.flag_names (c := .through ref cs) (b4 g hg), t, ht, b1⟩

theorem void_ok {α : Type} {x : Res α} {r : α} (h : x = .ok r) : x.void = .ok () := by rw [h]; rfl

theorem chain_spec {scan : Str → Option D} {st : State D} (hr : ReachableBy scan CleanAdds st) (c : Chain)
    (hl : ∀ ref, c.target = some ref → st.atObj ref ≠ none) (hu : ∀ n ∈ c.added, st.argumentExists n = false) :
    match c.editAt st with
    | none => ¬ Succeeds scan st (c.ops st.nextObj)
    | some e => Succeeds scan st (c.ops st.nextObj) ∧ Edited st e (Spec.after scan st (c.ops st.nextObj)) ∧
        ReachableBy scan CleanAdds (Spec.after scan st (c.ops st.nextObj)) := by
  cases c with
  | through ref cs =>
    cases ht : st.atObj ref with
    | none => exact absurd ht (hl ref rfl)
    | some t =>
      have := run_spec hr ht cs
      unfold Chain.editAt Chain.edit Chain.ops
      simp only
      rw [ht]
      exact this
  | new names cs =>
    have hi := hr.reachable.inv
    have hadd : step scan st (.add names) = ((st.addArgument names).1, (st.addArgument names).2.void) := rfl
    have hnew := add_new st names
    unfold Chain.editAt Chain.edit Chain.ops
    simp only
    cases ha : newArg (D := D) st.argumentExists names with
    | error e =>
      simp only
      rw [ha] at hnew
      rw [succeeds_cons, hadd, hnew]
      rintro ⟨h, _⟩
      cases h
    | ok a =>
      simp only
      rw [ha] at hnew
      simp only at hnew
      obtain ⟨n1, n2, n3, n4, n5⟩ := newArg_names ha
      obtain ⟨l1, l2⟩ := link_edited hi n1 n3
      rw [← hnew] at l1 l2
      have hok : (step scan st (.add names)).2 = .ok () := by rw [hadd]; exact void_ok l2
      have hr' : ReachableBy scan CleanAdds (step scan st (.add names)).1 := .step _ hr (by rw [hok]; rfl) hu
      have l1' : Edited st (addEdit st.nextNode st.nextObj st.helpOption st.versionOption a) (step scan st (.add names)).1 := l1
      have key := run_spec hr' (l1'.found hr'.reachable.inv) cs
      have e1 : (fun n => st.argumentExists n || decide (n ∈ a.names)) = (step scan st (.add names)).1.argumentExists :=
        funext fun n => (l1'.known n).symm
      have e2 : (step scan st (.add names)).1.helpOption = st.helpOption := l1'.help
      have e3 : (step scan st (.add names)).1.versionOption = st.versionOption := l1'.version
      have e4 : (step scan st (.add names)).1.nextObj = st.nextObj + 1 := l1'.obj
      rw [← e1, e2, e3, e4] at key
      rw [succeeds_cons, after_cons_ok _ hok]
      revert key
      show (match Slot.run ⟨st.nextNode, st.nextObj, a⟩ _ _ _ _ _ with | none => _ | some e => _) → _
      cases hrun : Slot.run ⟨st.nextNode, st.nextObj, a⟩ (fun n => st.argumentExists n || decide (n ∈ a.names)) st.helpOption
          st.versionOption (st.nextObj + 1) cs with
      | none =>
        intro key
        exact fun h => key h.2
      | some f =>
        rintro ⟨k1, k2, k3⟩
        exact ⟨⟨hok, k1⟩, l1'.then k2 (run_shape hrun).1, k3⟩

theorem chain_queue {scan : Str → Option D} {st : State D} (hr : ReachableBy scan CleanAdds st) {c : Chain} {e : Edit D}
    (he : c.editAt st = some e) (hq : ¬ c.requeues st) :
    e.queue (positionals st true, positionals st false) = (positionals st true, positionals st false) := by
  have hi := hr.reachable.inv
  have und : ∀ x, x ∈ (positionals st true, positionals st false).1 ∨ x ∈ (positionals st true, positionals st false).2 →
      x.head? ≠ some '-' := by
    rintro x (h | h)
    · exact positionals_undashed hi true h
    · exact positionals_undashed hi false h
  cases c with
  | through ref cs =>
    obtain ⟨t, ht, he⟩ := Option.bind_eq_some_iff.1 he
    refine run_queue he ?_ (fun p => (hi.forms t (State.atObj_some ht).1).option p) _ und
    intro p b hm
    exact hq (.inr ⟨ref, t, b, rfl, ht, p, hm⟩)
  | new names cs =>
    unfold Chain.editAt Chain.edit at he
    simp only at he
    split at he
    · cases he
    · rename_i a ha
      obtain ⟨f, hf, rfl⟩ := Option.map_eq_some_iff.1 he
      obtain ⟨n1, n2, n3, n4, n5⟩ := newArg_names ha
      have np : a.isPositional = false := by
        rw [n5]
        exact Bool.eq_false_iff.2 fun h => hq (.inl h)
      show f.queue (if a.isPositional then _ else _) = _
      rw [np]
      refine run_queue hf ?_ ?_ _ und
      · intro p
        have p : a.isPositional = true := p
        rw [np] at p
        cases p
      · intro p
        have hnew := add_new st names
        rw [ha] at hnew
        simp only at hnew
        obtain ⟨l1, l2⟩ := link_edited hi n1 n3
        rw [← hnew] at l1 l2
        have hg : (step scan st (.add names)).2.goesOn = true := by
          show (st.addArgument names).2.void.goesOn = true
          rw [l2]; rfl
        have hi' := (Reachable.step (.add names) hr.reachable hg).inv
        have l1' : Edited st _ (step scan st (.add names)).1 := l1
        exact (hi'.forms _ ((l1'.mem _).2 (.inl rfl))).option p

/-! ### The same statement at another state -/

/-- Not concerned with the help (version) option. -/
def Spec.Chain.free (find : Nat → Option (Slot D)) (x : Action) (c : Chain) : Prop :=
  .action x ∉ c.calls ∧ ∀ ref t, c.target = some ref → find ref = some t → t.arg.action ≠ x

theorem chain_helpFree {c : Chain} {find : Nat → Option (Slot D)} (hc : c.free find .help) (known : Str → Bool)
    (h v h' : Option Nat) (nn no : Nat) :
    c.edit find known h v nn no = (c.edit find known h' v nn no).map fun e => { e with help := h } := by
  cases c with
  | new names cs =>
    unfold Chain.edit
    simp only
    cases ha : newArg (D := D) known names with
    | error e => rfl
    | ok a =>
      simp only
      rw [run_helpFree (t := ⟨nn, no, a⟩) (by show a.action ≠ _; rw [(newArg_names ha).2.2.2.1]; simp) (cs := cs) hc.1 _ h v h',
        Option.map_map, Option.map_map]
      rfl
  | through ref cs =>
    unfold Chain.edit
    simp only
    cases ht : find ref with
    | none => rfl
    | some t => exact run_helpFree (hc.2 ref t rfl ht) hc.1 _ h v h' _

theorem chain_versionFree {c : Chain} {find : Nat → Option (Slot D)} (hc : c.free find .version) (known : Str → Bool)
    (h v v' : Option Nat) (nn no : Nat) :
    c.edit find known h v nn no = (c.edit find known h v' nn no).map fun e => { e with version := v } := by
  cases c with
  | new names cs =>
    unfold Chain.edit
    simp only
    cases ha : newArg (D := D) known names with
    | error e => rfl
    | ok a =>
      simp only
      rw [run_versionFree (t := ⟨nn, no, a⟩) (by show a.action ≠ _; rw [(newArg_names ha).2.2.2.1]; simp) (cs := cs) hc.1 _ h v v',
        Option.map_map, Option.map_map]
      rfl
  | through ref cs =>
    unfold Chain.edit
    simp only
    cases ht : find ref with
    | none => rfl
    | some t => exact run_versionFree (hc.2 ref t rfl ht) hc.1 _ h v v' _

theorem chain_known {c : Chain} {find : Nat → Option (Slot D)} {known known' : Str → Bool} (h v : Option Nat) (nn no : Nat)
    (hk : ∀ n ∈ c.names, known n = known' n) : c.edit find known h v nn no = c.edit find known' h v nn no := by
  cases c with
  | new names cs =>
    unfold Chain.edit
    simp only
    rw [newArg_known (ns := names) fun n hn => hk n (Chain.added_names (c := .new names cs) hn)]
    cases ha : newArg (D := D) known' names with
    | error e => rfl
    | ok a =>
      simp only
      congr 1
      refine run_known _ _ _ fun f hf => ?_
      rw [hk f (Chain.flag_names (c := .new names cs) hf)]
  | through ref cs =>
    unfold Chain.edit
    simp only
    congr 1
    funext t
    exact run_known _ _ _ fun f hf => hk f (Chain.flag_names (c := .through ref cs) hf)

theorem chain_ren (r : Ren) {c : Chain} {find find' : Nat → Option (Slot D)} (known : Str → Bool) (h v : Option Nat)
    {nn nn' no no' : Nat} (hf : ∀ ref, c.target = some ref → find' ref = (find ref).map r.slot)
    (hn : c.target = none → r.n nn = nn') (ho : ∀ k, k < c.creates → r.o (no + k) = no' + k) :
    c.edit find' known (h.map r.o) (v.map r.o) nn' no' = (c.edit find known h v nn no).map (Edit.ren r) := by
  cases c with
  | new names cs =>
    unfold Chain.edit
    simp only
    cases ha : newArg (D := D) known names with
    | error e => rfl
    | ok a =>
      simp only
      have e0 : r.o no = no' := ho 0 (by unfold Chain.creates; simp only; omega)
      have en : r.n nn = nn' := hn rfl
      have := run_ren r (t := ⟨nn, no, a⟩) (cs := cs) (fun n => known n || decide (n ∈ a.names)) h v (no := no + 1)
        (no' := no' + 1) (by
          intro k hk
          have := ho (1 + k) (by unfold Chain.creates; simp only; omega)
          rw [← Nat.add_assoc, ← Nat.add_assoc] at this
          exact this)
      rw [show r.slot (⟨nn, no, a⟩ : Slot D) = ⟨nn', no', a⟩ by unfold Ren.slot; simp only; rw [e0, en]] at this
      rw [this, Option.map_map, Option.map_map]
      rw [← e0, ← en]
      rfl
  | through ref cs =>
    unfold Chain.edit
    simp only
    rw [hf ref rfl]
    cases find ref with
    | none => rfl
    | some t => exact run_ren r known h v ho

/-- A statement made at another state, where the same names are in use: it does the same. -/
theorem chain_transport (r : Ren) {c : Chain} {find find' : Nat → Option (Slot D)} {known known' : Str → Bool}
    {h v h' v' : Option Nat} {nn nn' no no' : Nat} {e : Edit D}
    (hf : ∀ ref, c.target = some ref → find' ref = (find ref).map r.slot)
    (hk : ∀ n ∈ c.names, known n = known' n) (hn : c.target = none → r.n nn = nn')
    (ho : ∀ k, k < c.creates → r.o (no + k) = no' + k)
    (hh : c.free find .help ∨ h' = h.map r.o) (hv : c.free find .version ∨ v' = v.map r.o)
    (he : c.edit find known h v nn no = some e) :
    ∃ e', c.edit find' known' h' v' nn' no' = some e' ∧ e'.slot = r.slot e.slot ∧ e'.flags = e.flags ∧ e'.dn = e.dn ∧
      e'.dob = e.dob ∧ e'.queue = e.queue ∧
      (h' = h.map r.o → e'.help = e.help.map r.o) ∧ (v' = v.map r.o → e'.version = e.version.map r.o) := by
  have free' : ∀ x, c.free find x → c.free find' x := by
    rintro x ⟨h1, h2⟩
    refine ⟨h1, fun ref t ht hf' => ?_⟩
    rw [hf ref ht] at hf'
    obtain ⟨u, hu, rfl⟩ := Option.map_eq_some_iff.1 hf'
    exact h2 ref u ht hu
  have base := chain_ren r (c := c) (find := find) (find' := find') known h v hf hn ho
  rw [he, chain_known _ _ _ _ hk] at base
  have b2 : ∃ x, c.edit find' known' (h.map r.o) v' nn' no' = some { e.ren r with version := x } ∧
      (v' = v.map r.o → x = e.version.map r.o) := by
    by_cases hc : v' = v.map r.o
    · rw [hc]
      exact ⟨_, base, fun _ => rfl⟩
    · have hv' := free' _ (hv.resolve_right hc)
      have := chain_versionFree hv' known' (h.map r.o) v' (v.map r.o) nn' no'
      rw [base] at this
      exact ⟨_, this, fun e => absurd e hc⟩
  obtain ⟨x, b2, hx⟩ := b2
  have b3 : ∃ y, c.edit find' known' h' v' nn' no' = some { e.ren r with version := x, help := y } ∧
      (h' = h.map r.o → y = e.help.map r.o) := by
    by_cases hc : h' = h.map r.o
    · rw [hc]
      exact ⟨_, b2, fun _ => rfl⟩
    · have hh' := free' _ (hh.resolve_right hc)
      have := chain_helpFree hh' known' h' v' (h.map r.o) nn' no'
      rw [b2] at this
      exact ⟨_, this, fun e => absurd e hc⟩
  obtain ⟨y, b3, hy⟩ := b3
  exact ⟨_, b3, rfl, rfl, rfl, rfl, rfl, hy, hx⟩

theorem chain_pass {c : Chain} {find : Nat → Option (Slot D)} {known : Str → Bool} {h v : Option Nat} {nn no : Nat}
    {e : Edit D} (he : c.edit find known h v nn no = some e) :
    (c.free find .help → e.help = h) ∧ (c.free find .version → e.version = v) := by
  constructor
  · intro hc
    have := chain_helpFree hc known h v h nn no
    rw [he] at this
    exact congrArg Edit.help (Option.some.inj this)
  · intro hc
    have := chain_versionFree hc known h v v nn no
    rw [he] at this
    exact congrArg Edit.version (Option.some.inj this)

theorem free_of {st : State D} {x : Action} {c : Chain} (h : ¬ c.about st x) : c.free st.atObj x :=
  ⟨fun e => h (.inl e), fun ref t h1 h2 h3 => h (.inr ⟨ref, t, h1, h2, h3⟩)⟩

/-! ### Two statements -/

theorem exchange_inj (k m n a b : Nat) (h : exchange k m n a = exchange k m n b) : a = b := by
  unfold exchange at h
  repeat' split at h
  all_goals omega

def exchangeRen (k m n l p q : Nat) : Ren := ⟨exchange k m n, exchange l p q, exchange_inj k m n, exchange_inj l p q⟩

theorem map_fix {o : Nat → Nat} {k : Nat} {p : Option Nat} (hp : ∀ x, p = some x → x < k) (ho : ∀ x, x < k → o x = x) :
    p = p.map o := by
  cases p with
  | none => rfl
  | some x => rw [Option.map_some, ho x (hp x rfl)]

theorem Edited.other {st st' : State D} {e : Edit D} (hi' : Inv st') (h : Edited st e st') {ref : Nat} {t : Slot D}
    (ht : st.atObj ref = some t) (hne : t.node ≠ e.node) : st'.atObj ref = some t := by
  obtain ⟨h1, rfl⟩ := State.atObj_some ht
  exact State.atObj_of_mem hi'.objs ((h.mem t).2 (.inr ⟨h1, hne⟩))

theorem Spec.Independent.symm {st : State D} {a b : Chain} (h : Independent st a b) : Independent st b a where
  live ref h' := h.live ref h'.symm
  targets ref h1 h2 := h.targets ref h2 h1
  names n h1 h2 := h.names n h2 h1
  unused n h' := h.unused n h'.symm
  queues h' := h.queues h'.symm
  help h' := h.help h'.symm
  version h' := h.version h'.symm

/-- What the second statement finds after the first. -/
theorem Spec.Independent.view {st s1 : State D} (inv : Inv st) (inv1 : Inv s1) {a b : Chain} (hi : Independent st a b) {e1 : Edit D}
    (he1 : a.editAt st = some e1) (ed1 : Edited st e1 s1) :
    (∀ ref, b.target = some ref → s1.atObj ref = st.atObj ref) ∧
    (∀ n ∈ b.names, s1.argumentExists n = st.argumentExists n) ∧
    (¬ a.about st .help → s1.helpOption = st.helpOption) ∧ (¬ a.about st .version → s1.versionOption = st.versionOption) ∧
    s1.nextObj = st.nextObj + a.creates ∧ s1.nextNode = st.nextNode + a.nodes ∧
    (∀ ref t, b.target = some ref → st.atObj ref = some t → e1.node ≠ t.node) := by
  obtain ⟨d1, o1, f1, g1⟩ := chain_shape he1
  have nodes : ∀ ref t, b.target = some ref → st.atObj ref = some t → e1.node ≠ t.node := by
    intro ref t h ht
    cases a with
    | new names cs =>
      have g1 : e1.node = st.nextNode := g1
      rw [g1]
      exact (Nat.ne_of_lt (inv.nodesLt t (State.atObj_some ht).1)).symm
    | through ref' cs =>
      obtain ⟨u, hu, g1⟩ := g1
      rw [g1]
      intro e
      obtain ⟨m1, rfl⟩ := State.atObj_some hu
      obtain ⟨m2, rfl⟩ := State.atObj_some ht
      obtain rfl := eq_of_node inv m1 m2 e.symm
      exact hi.targets _ rfl h
  refine ⟨?_, ?_, ?_, ?_, ?_, ?_, nodes⟩
  · intro ref h
    cases ht : st.atObj ref with
    | none => exact absurd ht (hi.live ref (.inr h))
    | some t => exact ed1.other inv1 ht (nodes ref t h ht).symm
  · intro n hn
    rw [ed1.known, decide_eq_false (fun h => hi.names n (f1 n h) hn), Bool.or_false]
  · intro h
    rw [ed1.help]
    exact (chain_pass he1).1 (free_of h)
  · intro h
    rw [ed1.version]
    exact (chain_pass he1).2 (free_of h)
  · rw [ed1.obj, o1]
  · rw [ed1.node, d1]

theorem Spec.Chain.nodes_new {c : Chain} (h : c.target = none) : c.nodes = 1 := by
  cases c with
  | new _ _ => rfl
  | through _ _ => cases h

theorem about_eq {st s1 : State D} {c : Chain} (h : ∀ ref, c.target = some ref → s1.atObj ref = st.atObj ref) (x : Action) :
    c.about s1 x ↔ c.about st x := by
  unfold Chain.about
  constructor
  · rintro (h1 | ⟨ref, t, h1, h2, h3⟩)
    · exact .inl h1
    · rw [h ref h1] at h2; exact .inr ⟨ref, t, h1, h2, h3⟩
  · rintro (h1 | ⟨ref, t, h1, h2, h3⟩)
    · exact .inl h1
    · rw [← h ref h1] at h2; exact .inr ⟨ref, t, h1, h2, h3⟩

theorem requeues_eq {st s1 : State D} {c : Chain} (h : ∀ ref, c.target = some ref → s1.atObj ref = st.atObj ref) :
    c.requeues s1 ↔ c.requeues st := by
  unfold Chain.requeues
  constructor
  · rintro (h1 | ⟨ref, t, b, h1, h2, h3⟩)
    · exact .inl h1
    · rw [h ref h1] at h2; exact .inr ⟨ref, t, b, h1, h2, h3⟩
  · rintro (h1 | ⟨ref, t, b, h1, h2, h3⟩)
    · exact .inl h1
    · rw [← h ref h1] at h2; exact .inr ⟨ref, t, b, h1, h2, h3⟩

theorem chains_commute {scan : Str → Option D} {st : State D} (hr : ReachableBy scan CleanAdds st) {a b : Chain}
    (hi : Independent st a b) (hs : Succeeds scan st (a.ops st.nextObj ++ b.ops (st.nextObj + a.creates))) :
    Succeeds scan st (b.ops st.nextObj ++ a.ops (st.nextObj + b.creates)) ∧
    Renamed (exchangeRen st.nextNode a.nodes b.nodes st.nextObj a.creates b.creates)
      (Spec.after scan st (a.ops st.nextObj ++ b.ops (st.nextObj + a.creates)))
      (Spec.after scan st (b.ops st.nextObj ++ a.ops (st.nextObj + b.creates))) := by
  have inv := hr.reachable.inv
  rw [succeeds_append] at hs
  obtain ⟨hs1, hs2⟩ := hs
  rw [after_append hs1]
  -- the first statement
  have k1 := chain_spec hr a (fun ref h => hi.live ref (.inl h)) (fun n h => hi.unused n (.inl h))
  cases he1 : a.editAt st with
  | none => rw [he1] at k1; exact absurd hs1 k1
  | some e1 =>
  rw [he1] at k1
  obtain ⟨-, ed1, hr1⟩ := k1
  obtain ⟨d1, o1, f1, g1⟩ := chain_shape he1
  generalize Spec.after scan st (a.ops st.nextObj) = s1 at *
  have inv1 := hr1.reachable.inv
  obtain ⟨find1, known1, help1, version1, no1, nn1, tn1⟩ := hi.view inv inv1 he1 ed1
  rw [← no1] at hs2 ⊢
  -- the second statement after the first
  have k2 := chain_spec hr1 b (fun ref h => by rw [find1 ref h]; exact hi.live ref (.inr h))
    (fun n h => by rw [known1 n (Chain.added_names h)]; exact hi.unused n (.inr h))
  cases he2' : b.editAt s1 with
  | none => rw [he2'] at k2; exact absurd hs2 k2
  | some e2' =>
  rw [he2'] at k2
  obtain ⟨-, ed2', hr12⟩ := k2
  obtain ⟨d2', o2', f2', g2'⟩ := chain_shape he2'
  have inv12 := hr12.reachable.inv
  generalize Spec.after scan s1 (b.ops s1.nextObj) = s12 at *
  -- the renaming
  have hN : (exchangeRen st.nextNode a.nodes b.nodes st.nextObj a.creates b.creates).n = exchange st.nextNode a.nodes b.nodes :=
    rfl
  have hO : (exchangeRen st.nextNode a.nodes b.nodes st.nextObj a.creates b.creates).o =
    exchange st.nextObj a.creates b.creates := rfl
  generalize exchangeRen st.nextNode a.nodes b.nodes st.nextObj a.creates b.creates = r at hN hO ⊢
  have fixn : ∀ k, k < st.nextNode → r.n k = k := by
    intro k hk; rw [hN]; unfold exchange; rw [if_pos hk]
  have fixo : ∀ k, k < st.nextObj → r.o k = k := by
    intro k hk; rw [hO]; unfold exchange; rw [if_pos hk]
  have fixs : ∀ (c : Chain) ref, c.target = some ref → st.atObj ref = (st.atObj ref).map r.slot := by
    intro c ref _
    cases ht : st.atObj ref with
    | none => rfl
    | some t =>
      have m := (State.atObj_some ht).1
      rw [Option.map_some]
      unfold Ren.slot
      rw [fixn _ (inv.nodesLt t m), fixo _ (inv.objsLt t m)]
  have old := hr.reachable.ptrsOld
  have hfix : st.helpOption = st.helpOption.map r.o := map_fix (fun x e => old x (.inl e)) fixo
  have vfix : st.versionOption = st.versionOption.map r.o := map_fix (fun x e => old x (.inr e)) fixo
  -- the second statement first
  have hb : ∀ x, ¬ b.about st x → b.free s1.atObj x := fun x h => free_of fun h' => h ((about_eq find1 x).1 h')
  have caseh : (¬ b.about st .help) ∨ (b.about st .help ∧ ¬ a.about st .help) := by
    by_cases h : b.about st .help
    · exact .inr ⟨h, fun h' => hi.help ⟨h', h⟩⟩
    · exact .inl h
  have casev : (¬ b.about st .version) ∨ (b.about st .version ∧ ¬ a.about st .version) := by
    by_cases h : b.about st .version
    · exact .inr ⟨h, fun h' => hi.version ⟨h', h⟩⟩
    · exact .inl h
  obtain ⟨e2, he2, sl2, fl2, dn2, do2, qu2, hl2, vs2⟩ := chain_transport r (c := b) (find := s1.atObj) (find' := st.atObj)
    (known := s1.argumentExists) (known' := st.argumentExists) (h := s1.helpOption) (h' := st.helpOption)
    (v := s1.versionOption) (v' := st.versionOption) (nn := s1.nextNode) (nn' := st.nextNode) (no := s1.nextObj)
    (no' := st.nextObj) (fun ref h => by rw [find1 ref h]; exact fixs b ref h) known1
    (fun h => by rw [hN, nn1, Chain.nodes_new h]; unfold exchange; repeat' split
                 all_goals omega)
    (fun k h => by rw [hO, no1]; unfold exchange; repeat' split
                   all_goals omega)
    (by
      rcases caseh with h | ⟨_, h⟩
      · exact .inl (hb _ h)
      · right; rw [help1 h]; exact hfix)
    (by
      rcases casev with h | ⟨_, h⟩
      · exact .inl (hb _ h)
      · right; rw [version1 h]; exact vfix) he2'
  have he2 : b.editAt st = some e2 := he2
  have k2 := chain_spec hr b (fun ref h => hi.live ref (.inr h)) (fun n h => hi.unused n (.inr h))
  rw [he2] at k2
  obtain ⟨hs3, ed2, hr2⟩ := k2
  rw [after_append hs3, succeeds_append]
  have inv2 := hr2.reachable.inv
  generalize Spec.after scan st (b.ops st.nextObj) = s2 at *
  obtain ⟨find2, known2, help2, version2, no2, nn2, tn2⟩ := hi.symm.view inv inv2 he2 ed2
  rw [← no2]
  -- and the first second
  obtain ⟨e1', he1', sl1, fl1, dn1, do1, qu1, hl1, vs1⟩ := chain_transport r (c := a) (find := st.atObj) (find' := s2.atObj)
    (known := st.argumentExists) (known' := s2.argumentExists) (h := st.helpOption) (h' := s2.helpOption)
    (v := st.versionOption) (v' := s2.versionOption) (nn := st.nextNode) (nn' := s2.nextNode) (no := st.nextObj)
    (no' := s2.nextObj) (fun ref h => by rw [find2 ref h]; exact fixs a ref h) (fun n h => (known2 n h).symm)
    (fun h => by rw [hN, nn2, Chain.nodes_new h]; unfold exchange; repeat' split
                 all_goals omega)
    (fun k h => by rw [hO, no2]; unfold exchange; repeat' split
                   all_goals omega)
    (by
      rcases caseh with h | ⟨_, h⟩
      · right; rw [help2 h]; exact hfix
      · exact .inl (free_of h))
    (by
      rcases casev with h | ⟨_, h⟩
      · right; rw [version2 h]; exact vfix
      · exact .inl (free_of h)) he1
  have he1' : a.editAt s2 = some e1' := he1'
  have k1 := chain_spec hr2 a (fun ref h => by rw [find2 ref h]; exact hi.live ref (.inl h))
    (fun n h => by rw [known2 n (Chain.added_names h)]; exact hi.unused n (.inl h))
  rw [he1'] at k1
  obtain ⟨hs4, ed1', hr21⟩ := k1
  refine ⟨⟨hs3, hs4⟩, ?_⟩
  have inv21 := hr21.reachable.inv
  generalize Spec.after scan s2 (a.ops s2.nextObj) = s21 at *
  refine edits_commute inv ed1 ed2' ed2 ed1' fixn fixo ?_ ?_ sl1 sl2 ⟨dn1, do1⟩ ⟨dn2.symm, do2.symm⟩ fl1 fl2.symm ?_ ?_ ?_ ?_
    inv12 inv21 hr12.owned ?_
  · intro k
    rw [hN, ed2'.node, nn1, d2']
    unfold exchange; repeat' split
    all_goals omega
  · intro k
    rw [hO, ed2'.obj, no1, o2']
    unfold exchange; repeat' split
    all_goals omega
  · cases b with
    | new names cs =>
      have g2' : e2'.node = s1.nextNode := g2'
      rw [g2', nn1]
      have := inv1.nodesLt e1.slot ((ed1.mem _).2 (.inl rfl))
      rw [nn1] at this
      exact Nat.ne_of_lt this
    | through ref cs =>
      obtain ⟨t, ht, g2'⟩ := g2'
      rw [find1 ref rfl] at ht
      rw [g2']
      exact tn1 ref t rfl ht
  · intro x h1 h2
    rw [fl2] at h2
    exact hi.names x (f1 x h1) (f2' x h2)
  · rw [ed1'.help, ed2'.help]
    rcases caseh with h | ⟨_, h⟩
    · rw [hl1 (by rw [help2 h]; exact hfix), (chain_pass he2').1 (hb _ h), ed1.help]
    · rw [(chain_pass he1').1 (free_of fun h' => h ((about_eq find2 _).1 h')), ed2.help]
      exact hl2 (by rw [help1 h]; exact hfix)
  · rw [ed1'.version, ed2'.version]
    rcases casev with h | ⟨_, h⟩
    · rw [vs1 (by rw [version2 h]; exact vfix), (chain_pass he2').2 (hb _ h), ed1.version]
    · rw [(chain_pass he1').2 (free_of fun h' => h ((about_eq find2 _).1 h')), ed2.version]
      exact vs2 (by rw [version1 h]; exact vfix)
  · by_cases h : b.requeues st
    · have h' : ¬ a.requeues st := fun e => hi.queues ⟨e, h⟩
      rw [chain_queue hr he1 h', qu2, ← ed1.queue.trans (chain_queue hr he1 h')]
      have := chain_queue hr2 he1' (fun e => h' ((requeues_eq find2).1 e))
      rw [ed2.queue] at this
      rw [← qu2, ed1.queue, chain_queue hr he1 h', this]
    · rw [chain_queue hr he2 h, qu1]
      have := chain_queue hr1 he2' (fun e => h ((requeues_eq find1).1 e))
      rw [ed1.queue] at this
      rw [this]

end BletArgs
