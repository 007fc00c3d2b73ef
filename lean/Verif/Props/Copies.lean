import Verif.Spec.Copies
import Verif.Props.Memory
import Verif.Props.Clear
import Verif.Props.Registry2
import Verif.Props.Settings
import Verif.Lemmas.Commute
import Verif.Lemmas.Calls
import Verif.Props.Tokens
/-
C75: copies of arguments.
-/
namespace BletArgs
open Spec
variable {D : Type}

/-! ### snapshots -/

theorem World.withCopy_other {w : World D} {i j : Nat} {f : Copy D → World D × Res Unit} (h : ∀ c, (f c).1.copies[j]? = w.copies[j]?) :
    (w.withCopy i f).1.copies[j]? = w.copies[j]? := by
  unfold World.withCopy
  split
  · exact h _
  · rfl

theorem World.set_other {w : World D} {i j : Nat} (h : i ≠ j) (c : Copy D) : (w.set i c).copies[j]? = w.copies[j]? := by
  unfold World.set
  simp only
  rw [List.getElem?_set_ne h]

theorem World.retype_other {w : World D} {i j : Nat} (h : i ≠ j) (c : Copy D) (a : Argument D) :
    (w.retype i c a).1.copies[j]? = w.copies[j]? := by
  unfold World.retype
  split
  · split
    · rfl
    · exact World.set_other h _
  · exact World.set_other h _

/-- A step about something else leaves a copy alone. -/
theorem World.step_other (scan : Str → Option D) (w : World D) (op : CopyOp) {j : Nat} (hj : j < w.copies.length)
    (h : op.on ≠ some j) : (w.step scan op).1.copies[j]? = w.copies[j]? := by
  cases op with
  | call op => unfold World.step; simp only; split <;> rfl
  | copy ref =>
    unfold World.step World.copy
    simp only
    split
    · rfl
    · simp only; rw [List.getElem?_append_left hj]
  | _ i =>
    have hij : i ≠ j := fun e => h (by rw [e]; rfl)
    unfold World.step
    simp only
    refine World.withCopy_other fun c => ?_
    first
    | exact World.retype_other hij _ _
    | exact World.set_other hij _
    | (simp only; rw [List.getElem?_set_ne hij])
    | (simp only
       split
       · rfl
       · split
         · rfl
         · split
           · rfl
           · exact World.set_other hij _)

theorem World.withCopy_length {w : World D} {i : Nat} {f : Copy D → World D × Res Unit}
    (h : ∀ c, (f c).1.copies.length = w.copies.length) : (w.withCopy i f).1.copies.length = w.copies.length := by
  unfold World.withCopy
  split
  · exact h _
  · rfl

theorem World.set_length {w : World D} {i : Nat} (c : Copy D) : (w.set i c).copies.length = w.copies.length :=
  List.length_set

theorem World.retype_length {w : World D} {i : Nat} (c : Copy D) (a : Argument D) :
    (w.retype i c a).1.copies.length = w.copies.length := by
  unfold World.retype
  split
  · split
    · rfl
    · exact World.set_length _
  · exact World.set_length _

theorem World.step_length (scan : Str → Option D) (w : World D) (op : CopyOp) :
    w.copies.length ≤ (w.step scan op).1.copies.length := by
  cases op with
  | call op => unfold World.step; simp only; split <;> exact Nat.le_refl _
  | copy ref =>
    unfold World.step World.copy
    simp only
    split
    · exact Nat.le_refl _
    · simp
  | _ i =>
    refine Nat.le_of_eq (Eq.symm ?_)
    unfold World.step
    simp only
    refine World.withCopy_length fun c => ?_
    first
    | exact World.retype_length _ _
    | exact World.set_length _
    | exact List.length_set
    | (simp only
       split
       · rfl
       · split
         · rfl
         · split
           · rfl
           · exact World.set_length _)

theorem worldAfter_other (scan : Str → Option D) (ops : List CopyOp) {w : World D} {j : Nat} (hj : j < w.copies.length)
    (h : ∀ op ∈ ops, op.on ≠ some j) : (worldAfter scan w ops).copies[j]? = w.copies[j]? := by
  induction ops generalizing w with
  | nil => rfl
  | cons op ops ih =>
    unfold worldAfter
    have h0 := World.step_other scan w op hj (h op List.mem_cons_self)
    split
    · rw [ih (Nat.lt_of_lt_of_le hj (World.step_length scan w op)) (fun o ho => h o (List.mem_cons_of_mem _ ho)), h0]
    · exact h0

/-- C75, snapshot. A copy of an argument reads as the argument read when it was copied (only `getDefaults()` is empty), and
goes on doing so whatever happens to the parser afterwards: other parses, changes of the configuration, removal of the
argument, `clear()`; as long as no call is made on the copy itself. -/
theorem C75_snapshot (scan : Str → Option D) (w : World D) {ref : Nat} {s : Slot D} (h : w.st.atObj ref = some s)
    (ops : List CopyOp) (hops : ∀ op ∈ ops, op.on ≠ some w.copies.length) :
    ∃ c, (worldAfter scan w (.copy ref :: ops)).copies[w.copies.length]? = some (some c) ∧ SameReads c.arg s.arg ∧
      c.arg.defaults = [] := by
  have e : w.step scan (.copy ref) = ({ w with copies := w.copies ++ [some s.copied] }, .ok ()) := by
    unfold World.step World.copy
    simp only [h]
  refine ⟨s.copied, ?_, ?_, rfl⟩
  · unfold worldAfter
    rw [e]
    simp only [Res.goesOn, if_true]
    rw [worldAfter_other scan ops (by simp) hops]
    simp
  · exact ⟨rfl, rfl, rfl, rfl, rfl, rfl, rfl, rfl, rfl, rfl, rfl, rfl, rfl, rfl, rfl, fun _ => rfl⟩

/-! ### copies that stay apart -/

/-- The copies own and have deleted only validators the parser does not have. -/
structure World.Own (ids : List Nat) (w : World D) : Prop where
  freed : ∀ v ∈ w.freed, v ∈ ids
  none : ∀ c, some c ∈ w.copies → ∀ v ∈ c.arg.ownedValid, v ∈ ids
  parser : HasNoneOf ids w.st

theorem World.not_dangling {ids : List Nat} {w : World D} (h : w.Own ids) : w.dangling = false := by
  unfold World.dangling
  rw [List.any_eq_false]
  intro s hs
  split
  · rename_i v hv
    simp only [List.contains_iff_mem]
    exact fun hc => h.parser s hs v hv (h.freed _ hc)
  · simp

theorem World.Own.set {ids : List Nat} {w : World D} (h : w.Own ids) (i : Nat) {c : Copy D} (hc : ∀ v ∈ c.arg.ownedValid, v ∈ ids) :
    (w.set i c).Own ids := by
  refine ⟨h.freed, fun d hd => ?_, h.parser⟩
  rcases List.mem_or_eq_of_mem_set hd with hd | hd
  · exact h.none d hd
  · cases hd; exact hc

theorem typeConstructor_apart {self : Nat} {h v : Option Nat} {a : Argument D} (h1 : a.action ≠ .help) (h2 : a.action ≠ .version) :
    (a.typeConstructor self h v).2.1 = h ∧ (a.typeConstructor self h v).2.2.1 = v := by
  constructor
  · rw [typeConstructor_helpFree h1 self h v h]
  · rw [typeConstructor_versionFree h2 self h v v]

/-- What `nargs()` and `action()` do to a copy that has nothing to do with help and version. -/
theorem World.retype_apart (w : World D) (i : Nat) (c : Copy D) {a : Argument D} (h1 : a.action ≠ .help) (h2 : a.action ≠ .version) :
    ∃ b, (w.retype i c a).1 = w.set i { c with arg := b } ∧ b.ownedValid = a.ownedValid ∧ (w.retype i c a).2.goesOn = true := by
  obtain ⟨e1, e2⟩ := typeConstructor_apart (self := w.st.nextObj) (h := w.st.helpOption) (v := w.st.versionOption) h1 h2
  have e3 := typeConstructor_goesOn w.st.nextObj w.st.helpOption w.st.versionOption a
  obtain ⟨t, n, act, e4, _⟩ := typeConstructor_shape w.st.nextObj w.st.helpOption w.st.versionOption a
  unfold World.retype
  generalize a.typeConstructor w.st.nextObj w.st.helpOption w.st.versionOption = r at e1 e2 e3 e4
  obtain ⟨a1, h, v, res⟩ := r
  simp only at e1 e2 e3 e4
  subst e1 e2
  have e5 : a1.ownedValid = a.ownedValid := by rw [e4]; rfl
  cases res with
  | ok u =>
    simp only [bne_self_eq_false, Bool.or_self, Bool.false_eq_true, if_false]
    refine ⟨_, rfl, ?_, defaultsConstructor_goesOn a1⟩
    rw [← e5]
    rw [defaultsConstructor_alters a1]
    rfl
  | throw e => exact ⟨a1, rfl, e5, rfl⟩
  | _ => exact nomatch e3

theorem World.withCopy_live {w : World D} {i : Nat} {c : Copy D} (h : Live w i c) (f : Copy D → World D × Res Unit) :
    w.withCopy i f = f c := by
  unfold World.withCopy
  rw [h]

theorem World.Own.live {ids : List Nat} {w : World D} (h : w.Own ids) {i : Nat} {c : Copy D} (hc : Live w i c) :
    ∀ v ∈ c.arg.ownedValid, v ∈ ids :=
  h.none c (List.mem_of_getElem? hc)

/-- A step that is not a call on the parser leaves the parser alone, returns or throws, and keeps the copies apart. -/
theorem World.step_apart (scan : Str → Option D) {ids : List Nat} {w : World D} (hi : Inv w.st) (ho : w.Own ids) {op : CopyOp}
    (ha : Apart ids w op) (hn : ∀ o, op ≠ .call o) :
    (w.step scan op).1.st = w.st ∧ (w.step scan op).2.goesOn = true ∧ (w.step scan op).1.Own ids := by
  cases op with
  | call o => exact absurd rfl (hn o)
  | flag i f => exact ha.elim
  | copy ref =>
    obtain ⟨s, hs, hv⟩ := ha
    have e : w.step scan (.copy ref) = ({ w with copies := w.copies ++ [some s.copied] }, .ok ()) := by
      unfold World.step World.copy
      simp only [hs]
    rw [e]
    refine ⟨rfl, rfl, ho.freed, fun c hc => ?_, ho.parser⟩
    rcases List.mem_append.1 hc with hc | hc
    · exact ho.none c hc
    · simp only [List.mem_singleton, Option.some.injEq] at hc
      subst hc
      have : s.copied.arg.ownedValid = [] := by
        show s.arg.ownedValid = []
        unfold Argument.ownedValid
        split
        · rename_i v hsv
          rw [hv v hsv]; rfl
        · rfl
      rw [this]
      exact fun _ h => nomatch h
  | drop i =>
    obtain ⟨c, hc⟩ := ha
    unfold World.step World.drop
    simp only
    rw [World.withCopy_live hc]
    refine ⟨rfl, rfl, fun v hv => ?_, fun d hd => ?_, ho.parser⟩
    · rcases List.mem_append.1 hv with hv | hv
      · exact ho.freed v hv
      · exact ho.live hc v hv
    · rcases List.mem_or_eq_of_mem_set hd with hd | hd
      · exact ho.none d hd
      · cases hd
  | action i a =>
    obtain ⟨c, hc, h1, h2, h3, h4⟩ := ha
    unfold World.step World.action
    simp only
    rw [World.withCopy_live hc]
    have e1 : (c.arg.action == .help) = false := by simpa using h1
    have e2 : (c.arg.action == .version) = false := by simpa using h2
    simp only [e1, e2, Bool.false_eq_true, if_false]
    obtain ⟨b, hb1, hb2, hb3⟩ := w.retype_apart i c (a := { c.arg with action := a }) h3 h4
    rw [hb1]
    exact ⟨rfl, hb3, ho.set i (by rw [hb2]; exact ho.live hc)⟩
  | nargs i n =>
    obtain ⟨c, hc, h1, h2⟩ := ha
    unfold World.step World.nargs
    simp only
    rw [World.withCopy_live hc]
    obtain ⟨b, hb1, hb2, hb3⟩ := w.retype_apart i c (a := { c.arg with nargs := n }) h1 h2
    rw [hb1]
    exact ⟨rfl, hb3, ho.set i (by rw [hb2]; exact ho.live hc)⟩
  | defaults i ds =>
    obtain ⟨c, hc⟩ := ha
    unfold World.step World.defaults
    simp only
    rw [World.withCopy_live hc]
    refine ⟨rfl, defaultsConstructor_goesOn _, ho.set i ?_⟩
    simp only
    rw [defaultsConstructor_alters]
    exact ho.live hc
  | required i b =>
    obtain ⟨c, hc⟩ := ha
    unfold World.step World.required
    simp only
    rw [World.withCopy_live hc]
    simp only [sortArguments_id hi]
    have hl := ho.live hc
    exact ⟨trivial, rfl, ⟨ho.freed, (ho.set i (c := ⟨{ c.arg with isRequired := b }, c.node⟩) hl).none, ho.parser⟩⟩
  | help i x =>
    obtain ⟨c, hc⟩ := ha
    unfold World.step World.help
    simp only
    rw [World.withCopy_live hc]
    have hl := ho.live hc
    exact ⟨rfl, rfl, ho.set i hl⟩
  | metavar i x =>
    obtain ⟨c, hc⟩ := ha
    unfold World.step World.metavar
    simp only
    rw [World.withCopy_live hc]
    have hl := ho.live hc
    exact ⟨rfl, rfl, ho.set i hl⟩
  | valid i v d =>
    obtain ⟨⟨c, hc⟩, hv⟩ := ha
    unfold World.step World.valid
    simp only
    rw [World.withCopy_live hc]
    refine ⟨rfl, rfl, fun x hx => ?_, (ho.set i (c := ⟨{ c.arg with valid := v, validDeletable := d }, c.node⟩) ?_).none, ho.parser⟩
    · rcases List.mem_append.1 hx with hx | hx
      · exact ho.freed x hx
      · exact ho.live hc x hx
    · intro x hx
      unfold Argument.ownedValid at hx
      rcases hv with rfl | rfl | ⟨y, rfl, hy⟩
      · cases hx
      · cases v <;> cases hx
      · cases d
        · cases hx
        · rw [List.mem_singleton.1 hx]; exact hy

theorem World.step_call (scan : Str → Option D) {w : World D} (ho : w.dangling = false) (op : Op) :
    w.step scan (.call op) = ({ w with st := (BletArgs.step scan w.st op).1 }, (BletArgs.step scan w.st op).2) := by
  unfold World.step
  simp only [ho, Bool.and_false, Bool.false_eq_true, if_false]

/-- A call gives the arguments no validators but its own. -/
theorem step_hasNoneOf (scan : Str → Option D) {ids : List Nat} {st : State D} (hr : Reachable scan st) (h : HasNoneOf ids st) (op : Op)
    (hg : (step scan st op).2.goesOn = true) (hop : ∀ v ∈ op.givesValid, v ∉ ids) : HasNoneOf ids (step scan st op).1 := by
  intro s' hs' v hv
  rcases step_slots hr.inv op hg hs' with ⟨s, hs, hc⟩ | hf
  · have old : s'.arg.valid = s.arg.valid → v.id ∉ ids := fun e => h s hs v (e ▸ hv)
    have cond : ∀ {p : Prop} [Decidable p] {x : Slot D}, s' = (if p then x else s) →
        x.arg.valid = s.arg.valid → v.id ∉ ids := by
      intro p _ x e hx
      refine old ?_
      rw [e]; split
      · exact hx
      · rfl
    cases op <;> simp only [ArgChange] at hc
    case action => exact cond hc (retyped_valid _ _ _ _).1
    case nargs => exact cond hc (retyped_valid _ _ _ _).1
    case defaults ref ds =>
      have hf := defaultsConstructor_frame ({ s.arg with defaults := ds } : Argument D)
      exact cond hc hf.2.2.2.2.2.1
    case valid ref w d =>
      by_cases e : s.obj = ref
      · rw [if_pos e] at hc
        subst hc
        simp only at hv
        subst hv
        exact hop v.id (List.mem_singleton.2 rfl)
      · rw [if_neg e] at hc
        exact old (by rw [hc])
    case behave =>
      split at hc
      · subst hc
        unfold Argument.behaving at hv
        simp only at hv
        cases hsv : s.arg.valid with
        | none => rw [hsv] at hv; cases hv
        | some x =>
          rw [hsv] at hv
          cases hv
          exact h s hs x hsv
      · exact old (by rw [hc])
    case parse =>
      refine old ?_
      have e : s'.arg.config = s.arg.config := (congrArg (fun x : Slot D => x.arg) hc :)
      exact (congrArg (fun x : Argument D => x.valid) e :)
    all_goals first
      | exact cond hc rfl
      | exact old (by rw [hc])
      | (obtain ⟨ns, e⟩ := hc; exact old (by rw [e]))
  · exfalso
    have none_valid : s'.arg.valid = none → False := by
      intro e; rw [e] at hv; cases hv
    cases op <;> simp only [ArgFresh] at hf
    case add =>
      rcases hf.2.2 with ⟨n, e⟩ | ⟨fs, e⟩ <;> exact none_valid (by rw [e])
    case parse =>
      have := (congrArg (fun x : Argument D => x.valid) hf.2.2.2 :)
      exact none_valid this

theorem world_apart (scan : Str → Option D) {ids : List Nat} (ops : List CopyOp) {w : World D} (hr : Reachable scan w.st) (ho : w.Own ids)
    (ha : ApartAll ids scan w ops) :
    (worldAfter scan w ops).st = after scan w.st (callsOf ops) ∧
    callOutcomes scan w ops = outcomes scan w.st (callsOf ops) ∧
    ((∀ r ∈ outcomes scan w.st (callsOf ops), r.goesOn = true) → (worldAfter scan w ops).Own ids) := by
  induction ops generalizing w with
  | nil => exact ⟨rfl, rfl, fun _ => ho⟩
  | cons op ops ih =>
    obtain ⟨h1, h2⟩ := ha
    by_cases hc : ∃ o, op = .call o
    · obtain ⟨o, rfl⟩ := hc
      have e := World.step_call scan (World.not_dangling ho) o
      unfold worldAfter callOutcomes
      have ec : callsOf (CopyOp.call o :: ops) = o :: callsOf ops := rfl
      rw [ec]
      unfold after outcomes
      rw [e] at h2 ⊢
      simp only at h2 ⊢
      by_cases hg : (BletArgs.step scan w.st o).2.goesOn = true
      · have := ih (w := { w with st := (BletArgs.step scan w.st o).1 }) (.step o hr hg)
          ⟨ho.freed, ho.none, step_hasNoneOf scan hr ho.parser o hg h1⟩ (h2 hg)
        simp only [hg, if_true]
        refine ⟨this.1, by rw [this.2.1]; rfl, fun h => this.2.2 fun r hr => h r ?_⟩
        simp only [List.mem_cons]
        exact .inr hr
      · simp only [hg]
        refine ⟨rfl, rfl, fun h => ?_⟩
        exact absurd (h _ List.mem_cons_self) hg
    · have hn : ∀ o, op ≠ .call o := fun o e => hc ⟨o, e⟩
      obtain ⟨e1, e2, e3⟩ := World.step_apart scan hr.inv ho h1 hn
      have ec : callsOf (op :: ops) = callsOf ops := by
        cases op with
        | call o => exact absurd rfl (hn o)
        | _ => rfl
      have eo : callOutcomes scan w (op :: ops) = callOutcomes scan (w.step scan op).1 ops := by
        cases op with
        | call o => exact absurd rfl (hn o)
        | _ => simp only [callOutcomes, e2, if_true, List.nil_append]
      have := ih (w := (w.step scan op).1) (e1 ▸ hr) e3 (h2 e2)
      unfold worldAfter
      rw [ec, eo, if_pos e2, this.1, this.2.1, e1]
      refine ⟨rfl, rfl, ?_⟩
      rw [e1] at this
      exact this.2.2

/-- C75, copies are apart. A program may copy arguments that own no validator, read the copies, destroy them, and call the
setters on them (except `flag()` and actions that concern help or version), also handing over validators (`ids`) that the parser does
not have: the parser goes exactly as in the program without the copies, and every call on it ends in the same way. In particular what is
configured on a copy (`auto a = args.addArgument(…); a.nargs(2);`) never reaches the parser. -/
theorem C75_copies_are_apart (scan : Str → Option D) {st : State D} (hr : Reachable scan st) (ops : List CopyOp)
    {ids : List Nat} (hids : HasNoneOf ids st) (ha : ApartAll ids scan ⟨st, [], []⟩ ops) :
    (worldAfter scan ⟨st, [], []⟩ ops).st = after scan st (callsOf ops) ∧
    callOutcomes scan ⟨st, [], []⟩ ops = outcomes scan st (callsOf ops) :=
  let h := world_apart scan ops hr (w := ⟨st, [], []⟩) ⟨fun _ h => (nomatch h), fun _ h => (nomatch h), hids⟩ ha
  ⟨h.1, h.2.1⟩

/-! ### the validators of copies -/

theorem ownedByCopies_eq (w : World D) :
    ownedByCopies w = w.copies.flatMap fun | some c => c.arg.ownedValid | none => [] := by
  unfold ownedByCopies
  congr 1

/-- Replacing what is at a place of a list, in the list of everything at all places. -/
theorem flatMap_set_perm {α β : Type} (f : α → List β) {l : List α} {i : Nat} {x : α} (h : l[i]? = some x) (y : α) :
    (f x ++ (l.set i y).flatMap f).Perm (f y ++ l.flatMap f) := by
  induction l generalizing i with
  | nil => cases h
  | cons a l ih =>
    cases i with
    | zero =>
      simp only [List.getElem?_cons_zero, Option.some.injEq] at h
      subst h
      simp only [List.set_cons_zero, List.flatMap_cons]
      rw [← List.append_assoc, ← List.append_assoc]
      exact List.perm_append_comm.append_right _
    | succ i =>
      simp only [List.getElem?_cons_succ] at h
      simp only [List.set_cons_succ, List.flatMap_cons]
      have := ih h
      refine List.perm_append_comm_assoc _ _ _ |>.trans ?_
      refine (this.append_left _).trans ?_
      exact List.perm_append_comm_assoc _ _ _

theorem World.set_bag {w : World D} {i : Nat} {c d : Copy D} (h : Live w i c) :
    (c.arg.ownedValid ++ ownedByCopies (w.set i d)).Perm (d.arg.ownedValid ++ ownedByCopies w) := by
  rw [ownedByCopies_eq, ownedByCopies_eq]
  exact flatMap_set_perm (fun | some c => c.arg.ownedValid | none => []) h (some d)

theorem World.retype_bag {w : World D} {i : Nat} {c : Copy D} (h : Live w i c) {a : Argument D} (ha : a.ownedValid = c.arg.ownedValid) :
    (w.retype i c a).1.freed = w.freed ∧ (ownedByCopies (w.retype i c a).1).Perm (ownedByCopies w) := by
  obtain ⟨t, n, act, e4, _⟩ := typeConstructor_shape w.st.nextObj w.st.helpOption w.st.versionOption a
  unfold World.retype
  generalize a.typeConstructor w.st.nextObj w.st.helpOption w.st.versionOption = r at e4
  obtain ⟨a1, hh, v, res⟩ := r
  simp only at e4
  have e5 : a1.ownedValid = c.arg.ownedValid := by rw [e4, ← ha]; rfl
  have key : ∀ b : Argument D, b.ownedValid = c.arg.ownedValid →
      (ownedByCopies (w.set i { c with arg := b })).Perm (ownedByCopies w) := by
    intro b hb
    have := World.set_bag (d := { c with arg := b }) h
    rw [show ({ c with arg := b } : Copy D).arg.ownedValid = c.arg.ownedValid from hb] at this
    exact (List.perm_append_left_iff _).1 this
  cases res with
  | ok u =>
    simp only
    split
    · exact ⟨rfl, .refl _⟩
    · refine ⟨rfl, key _ ?_⟩
      rw [defaultsConstructor_alters a1]
      exact e5
  | _ => exact ⟨rfl, key _ e5⟩

/-- What one step does to the validators of copies. -/
theorem World.step_bag (scan : Str → Option D) (w : World D) (op : CopyOp) :
    ((w.step scan op).1.freed ++ ownedByCopies (w.step scan op).1).Perm (w.freed ++ ownedByCopies w ++ takes w op) := by
  have keep : ∀ {w' : World D}, w'.freed = w.freed → (ownedByCopies w').Perm (ownedByCopies w) →
      (w'.freed ++ ownedByCopies w').Perm (w.freed ++ ownedByCopies w ++ []) := by
    intro w' h1 h2
    rw [h1, List.append_nil]
    exact h2.append_left _
  have live : ∀ i, (∃ c, Live w i c) ∨ ∀ f, w.withCopy i f = (w, .ub "destroyed copy") := by
    intro i
    unfold Live World.withCopy
    cases h : w.copies[i]? with
    | none => exact .inr fun f => rfl
    | some x =>
      cases x with
      | none => exact .inr fun f => rfl
      | some c => exact .inl ⟨c, rfl⟩
  have same : ∀ {i : Nat} {c d : Copy D}, Live w i c → d.arg.ownedValid = c.arg.ownedValid →
      (ownedByCopies (w.set i d)).Perm (ownedByCopies w) := by
    intro i c d h hb
    have := World.set_bag (d := d) h
    rw [hb] at this
    exact (List.perm_append_left_iff _).1 this
  cases op with
  | call op =>
    unfold World.step
    simp only
    split
    · exact keep rfl (.refl _)
    · exact keep rfl (.refl _)
  | copy ref =>
    show ((w.copy ref).1.freed ++ ownedByCopies (w.copy ref).1).Perm _
    unfold World.copy
    cases h : w.st.atObj ref with
    | none =>
      have ht : takes w (.copy ref) = [] := by unfold takes; simp only [h]
      rw [ht]; exact keep rfl (.refl _)
    | some s =>
      have ht : takes w (.copy ref) = s.arg.ownedValid := by unfold takes; simp only [h]; rfl
      rw [ht]
      simp only
      unfold ownedByCopies
      rw [List.flatMap_append, ← List.append_assoc]
      refine List.Perm.append_left _ ?_
      simp only [List.flatMap_cons, List.flatMap_nil, List.append_nil]
      exact .refl _
  | drop i =>
    show ((w.drop i).1.freed ++ ownedByCopies (w.drop i).1).Perm _
    unfold World.drop takes
    rcases live i with ⟨c, hc⟩ | hn
    · rw [World.withCopy_live hc]
      simp only [List.append_nil, List.append_assoc]
      refine List.Perm.append_left _ ?_
      have := flatMap_set_perm (fun o : Option (Copy D) => match o with | some c => c.arg.ownedValid | none => []) hc none
      rw [ownedByCopies_eq, ownedByCopies_eq]
      exact this
    · rw [hn]; exact keep rfl (.refl _)
  | flag i f =>
    show ((w.flag i f).1.freed ++ ownedByCopies (w.flag i f).1).Perm _
    unfold World.flag takes
    rcases live i with ⟨c, hc⟩ | hn
    · rw [World.withCopy_live hc]
      simp only
      split
      · exact keep rfl (.refl _)
      · split
        · exact keep rfl (.refl _)
        · split
          · exact keep rfl (.refl _)
          · refine keep rfl ?_
            exact same (d := ⟨{ c.arg with names := sortNames (c.arg.names ++ [f]) }, c.node⟩) hc rfl
    · rw [hn]; exact keep rfl (.refl _)
  | action i a =>
    show ((w.action i a).1.freed ++ ownedByCopies (w.action i a).1).Perm _
    unfold World.action takes
    rcases live i with ⟨c, hc⟩ | hn
    · rw [World.withCopy_live hc]
      simp only
      generalize (if c.arg.action == Action.version then _ else _ : State D) = st2
      have := World.retype_bag (w := { w with st := st2 }) (i := i) (c := c) hc (a := { c.arg with action := a }) rfl
      exact keep this.1 this.2
    · rw [hn]; exact keep rfl (.refl _)
  | nargs i n =>
    show ((w.nargs i n).1.freed ++ ownedByCopies (w.nargs i n).1).Perm _
    unfold World.nargs takes
    rcases live i with ⟨c, hc⟩ | hn
    · rw [World.withCopy_live hc]
      have := World.retype_bag (w := w) (i := i) (c := c) hc (a := { c.arg with nargs := n }) rfl
      exact keep this.1 this.2
    · rw [hn]; exact keep rfl (.refl _)
  | defaults i ds =>
    show ((w.defaults i ds).1.freed ++ ownedByCopies (w.defaults i ds).1).Perm _
    unfold World.defaults takes
    rcases live i with ⟨c, hc⟩ | hn
    · rw [World.withCopy_live hc]
      refine keep rfl (same hc ?_)
      simp only
      rw [defaultsConstructor_alters]
      rfl
    · rw [hn]; exact keep rfl (.refl _)
  | required i b =>
    show ((w.required i b).1.freed ++ ownedByCopies (w.required i b).1).Perm _
    unfold World.required takes
    rcases live i with ⟨c, hc⟩ | hn
    · rw [World.withCopy_live hc]
      refine keep rfl ?_
      exact same (d := ⟨{ c.arg with isRequired := b }, c.node⟩) hc rfl
    · rw [hn]; exact keep rfl (.refl _)
  | help i x =>
    show ((w.help i x).1.freed ++ ownedByCopies (w.help i x).1).Perm _
    unfold World.help takes
    rcases live i with ⟨c, hc⟩ | hn
    · rw [World.withCopy_live hc]
      exact keep rfl (same (d := ⟨{ c.arg with help := x }, c.node⟩) hc rfl)
    · rw [hn]; exact keep rfl (.refl _)
  | metavar i x =>
    show ((w.metavar i x).1.freed ++ ownedByCopies (w.metavar i x).1).Perm _
    unfold World.metavar takes
    rcases live i with ⟨c, hc⟩ | hn
    · rw [World.withCopy_live hc]
      exact keep rfl (same (d := ⟨{ c.arg with metavar := x }, c.node⟩) hc rfl)
    · rw [hn]; exact keep rfl (.refl _)
  | valid i v d =>
    show ((w.valid i v d).1.freed ++ ownedByCopies (w.valid i v d).1).Perm _
    unfold World.valid
    rcases live i with ⟨c, hc⟩ | hn
    · rw [World.withCopy_live hc]
      have ht : takes w (.valid i v d) = ({ c.arg with valid := v, validDeletable := d } : Argument D).ownedValid := by
        unfold takes Argument.ownedValid
        cases v with
        | none => rfl
        | some v =>
          cases d with
          | false => rfl
          | true =>
            have hc' : w.copies[i]? = some (some c) := hc
            simp only [hc', if_true]
      rw [ht]
      simp only [List.append_assoc]
      refine List.Perm.append_left _ ?_
      refine (World.set_bag (d := ⟨{ c.arg with valid := v, validDeletable := d }, c.node⟩) hc).trans ?_
      exact List.perm_append_comm
    · have ht : takes w (.valid i v d) = [] := by
        have hx := hn fun _ => (w, .ok ())
        unfold World.withCopy at hx
        unfold takes
        cases v with
        | none => rfl
        | some v =>
          cases d with
          | false => rfl
          | true =>
            simp only
            split
            · rename_i c hc
              rw [hc] at hx
              cases (congrArg Prod.snd hx)
            · rfl
      rw [hn, ht]; exact keep rfl (.refl _)

theorem world_bag (scan : Str → Option D) (ops : List CopyOp) (w : World D) :
    ((worldAfter scan w ops).freed ++ ownedByCopies (worldAfter scan w ops)).Perm
      (w.freed ++ ownedByCopies w ++ takesAll scan w ops) := by
  induction ops generalizing w with
  | nil => simp [worldAfter, takesAll]
  | cons op ops ih =>
    have h1 := World.step_bag scan w op
    unfold worldAfter takesAll
    split
    · refine (ih _).trans ?_
      rw [← List.append_assoc]
      exact h1.append_right _
    · rw [List.append_nil]; exact h1

/-- C75, the validators of copies. In any program, the validators deleted by copies together with those the copies still
own are those that copies ever came to own, counted as often as they did (with the argument copied, or by `valid()` on
the copy): a copy deletes each of them exactly once, when it is replaced or when the copy is destroyed. Once all copies
are destroyed everything was deleted; and if the validators are distinct, none is deleted twice, and none is deleted
that a copy still owns. -/
theorem C75_validators_of_copies (scan : Str → Option D) (st : State D) (ops : List CopyOp) :
    let w := worldAfter scan ⟨st, [], []⟩ ops
    let taken := takesAll scan ⟨st, [], []⟩ ops
    (w.freed ++ ownedByCopies w).Perm taken ∧
    ((∀ i c, ¬ Live w i c) → w.freed.Perm taken) ∧
    (taken.Nodup → w.freed.Nodup ∧ (ownedByCopies w).Nodup ∧ ∀ v ∈ w.freed, v ∉ ownedByCopies w) := by
  intro w taken
  have h : (w.freed ++ ownedByCopies w).Perm taken := world_bag scan ops ⟨st, [], []⟩
  refine ⟨h, fun hn => ?_, fun hd => ?_⟩
  · have : ownedByCopies w = [] := by
      rw [ownedByCopies_eq, List.flatMap_eq_nil_iff]
      intro o ho
      cases o with
      | none => rfl
      | some c =>
        obtain ⟨i, hi⟩ := List.mem_iff_getElem?.1 ho
        exact absurd hi (hn i c)
    rw [this, List.append_nil] at h
    exact h
  · have := h.nodup_iff.2 hd
    rw [List.nodup_append] at this
    exact ⟨this.1, this.2.1, fun v hv hv' => this.2.2 v hv v hv' rfl⟩

/-- C75, a validator for a copy. A validator that copies own (one of `ids`, that the parser does not have) is never deleted
by the parser, and what copies delete is never a validator of the parser, at the end of any program as in
`C75_copies_are_apart` whose calls on the parser return or throw. -/
theorem C75_validators_apart (scan : Str → Option D) {st : State D} (hr : Reachable scan st) (ops : List CopyOp)
    {ids : List Nat} (hids : HasNoneOf ids st) (ha : ApartAll ids scan ⟨st, [], []⟩ ops)
    (hg : ∀ r ∈ outcomes scan st (callsOf ops), r.goesOn = true) :
    let w := worldAfter scan ⟨st, [], []⟩ ops
    (∀ v ∈ w.freed, v ∈ ids) ∧ (∀ v ∈ ownedByCopies w, v ∈ ids) ∧ HasNoneOf ids w.st := by
  intro w
  have h := (world_apart scan ops hr (w := ⟨st, [], []⟩) ⟨fun _ h => (nomatch h), fun _ h => (nomatch h), hids⟩ ha).2.2 hg
  refine ⟨h.freed, fun v hv => ?_, h.parser⟩
  rw [ownedByCopies_eq, List.mem_flatMap] at hv
  obtain ⟨o, ho, hv⟩ := hv
  cases o with
  | none => cases hv
  | some c => exact h.none c ho v hv


/-! ### what does not stay apart -/

/-- C75, validators. Destroying a copy of an argument that owns its validator deletes the validator, while the parser still
has it: it is deleted once more with the parser, and the next call that parses, removes, clears or replaces validators is
undefined behaviour. -/
theorem C75_deleted_twice (scan : Str → Option D) (w : World D) {ref : Nat} {s : Slot D} (h : w.st.atObj ref = some s)
    {v : Validator} (hv : s.arg.valid = some v) (hd : s.arg.validDeletable = true) :
    let w' := worldAfter scan w [.copy ref, .drop w.copies.length]
    w'.st = w.st ∧ v.id ∈ w'.freed ∧ v.id ∈ w'.st.deleteAll.freedValids ∧
    ∀ op : Op, op.touchesValids = true → ∃ why, (w'.step scan (.call op)).2 = .ub why := by
  have e1 : w.step scan (.copy ref) = ({ w with copies := w.copies ++ [some s.copied] }, .ok ()) := by
    unfold World.step World.copy
    simp only [h]
  have hm : s ∈ w.st.arguments := by
    unfold State.atObj at h
    exact List.mem_of_find?_eq_some h
  have ho : s.arg.ownedValid = [v.id] := by
    unfold Argument.ownedValid
    rw [hv, hd]; rfl
  have e2 : ({ w with copies := w.copies ++ [some s.copied] } : World D).step scan (.drop w.copies.length) =
      ({ w with copies := (w.copies ++ [some s.copied]).set w.copies.length none, freed := w.freed ++ [v.id] }, .ok ()) := by
    have hl : Live ({ w with copies := w.copies ++ [some s.copied] } : World D) w.copies.length s.copied := by
      unfold Live; simp
    unfold World.step World.drop
    simp only
    rw [World.withCopy_live hl]
    have : s.copied.arg.ownedValid = [v.id] := ho
    rw [this]
  have e : worldAfter scan w [.copy ref, .drop w.copies.length] =
      { w with copies := (w.copies ++ [some s.copied]).set w.copies.length none, freed := w.freed ++ [v.id] } := by
    simp only [worldAfter, e1, e2, Res.goesOn, if_true]
  intro w'
  have ew : w' = _ := e
  rw [ew]
  refine ⟨rfl, by simp, ?_, fun op ht => ?_⟩
  · unfold State.deleteAll
    simp only [List.mem_append, List.mem_flatMap]
    exact .inr ⟨s, hm, by rw [ho]; exact List.mem_singleton.2 rfl⟩
  · refine ⟨"deleted validator", ?_⟩
    unfold World.step
    simp only
    have : ({ w with copies := (w.copies ++ [some s.copied]).set w.copies.length none, freed := w.freed ++ [v.id] } : World D).dangling = true := by
      unfold World.dangling
      rw [List.any_eq_true]
      refine ⟨s, hm, ?_⟩
      rw [hv]
      simp
    rw [this, ht]
    rfl

/-- C75, `flag()`. A new flag given to the copy of an option is registered in the parser: it leads to the original, which
does not list it among its flags; removing it from the parser is undefined behaviour. -/
theorem C75_flag_on_copy {scan : Str → Option D} {st : State D} (hr : Reachable scan st) {s : Slot D} (hs : s ∈ st.arguments)
    (hp : s.arg.isPositional = false) {f : Str} (hf : FlagForm f) (hn : st.argumentExists f = false) (hnot : f ∉ s.arg.names) :
    let w' := worldAfter scan ⟨st, [], []⟩ [.copy s.obj, .flag 0 f]
    w'.st.arguments = st.arguments ∧ w'.st.getArgument f = .ok s ∧
    ∃ why, (w'.step scan (.call (.remove [f]))).2 = .ub why := by
  have hi := hr.inv
  have h : st.atObj s.obj = some s := State.atObj_of_mem hi.objs hs
  have e1 : (⟨st, [], []⟩ : World D).step scan (.copy s.obj) = (⟨st, [some s.copied], []⟩, .ok ()) := by
    unfold World.step World.copy
    simp only [h]
    rfl
  have hl : Live (⟨st, [some s.copied], []⟩ : World D) 0 s.copied := rfl
  have es : ({ st with byName := insertName st.byName f s.node } : State D).sortArguments =
      ({ st with byName := insertName st.byName f s.node }, .ok ()) := by
    have := sortArguments_id hi
    unfold State.sortArguments at this ⊢
    simp only at this ⊢
    rw [hi.no_empty] at this ⊢
    simp only [Bool.false_eq_true, if_false, Prod.mk.injEq, and_true] at this ⊢
    have e : stableSort (fun a b => a.arg.compareOption b.arg) st.arguments = st.arguments := congrArg State.arguments this
    rw [e]
  have e2 : (⟨st, [some s.copied], []⟩ : World D).step scan (.flag 0 f) =
      (⟨{ st with byName := insertName st.byName f s.node },
        [some ⟨{ s.copied.arg with names := sortNames (s.copied.arg.names ++ [f]) }, s.node⟩], []⟩, .ok ()) := by
    unfold World.step World.flag
    simp only
    rw [World.withCopy_live hl]
    have hp' : s.copied.arg.isPositional = false := hp
    have hn' : s.copied.node = s.node := rfl
    simp only [hp', (C03_flag_syntax f).2 hf, hn, Bool.false_eq_true, if_false, hn', es]
    rfl
  have e : worldAfter scan ⟨st, [], []⟩ [.copy s.obj, .flag 0 f] =
      ⟨{ st with byName := insertName st.byName f s.node },
        [some ⟨{ s.copied.arg with names := sortNames (s.copied.arg.names ++ [f]) }, s.node⟩], []⟩ := by
    simp only [worldAfter, e1, e2, Res.goesOn, if_true]
  have hln : lookupName st.byName f = none := by
    unfold State.argumentExists at hn
    cases hh : lookupName st.byName f with
    | none => rfl
    | some x => rw [hh] at hn; cases hn
  have hlk : lookupName (insertName st.byName f s.node) f = some s.node := by
    rw [insertName_lookup, hln]; simp
  have hat : ({ st with byName := insertName st.byName f s.node } : State D).atNode s.node = some s :=
    State.atNode_of_mem (st := { st with byName := insertName st.byName f s.node }) hi.nodes hs
  intro w'
  have ew : w' = _ := e
  rw [ew]
  refine ⟨rfl, ?_, "erase(end())", ?_⟩
  · unfold State.getArgument
    simp only [hlk, hat]
  · rw [World.step_call scan (by unfold World.dangling; rw [List.any_eq_false]; intro s _; split <;> simp)]
    · show (State.removeArguments _ [f]).2 = _
      unfold State.removeArguments State.firstUnknown State.removeLoop
      simp only [List.isEmpty_cons, Bool.false_eq_true, if_false, List.find?, hlk, Option.isSome_some, Bool.not_true, hat]
      have : s.arg.names.contains f = false := by simpa using hnot
      simp only [this, Bool.false_eq_true, if_false]

/-! ### concrete cases -/

/-- `Apart` as a program, to check it on concrete cases. -/
def apartB (ids : List Nat) (w : World D) : CopyOp → Bool
  | .call op => op.givesValid.all fun v => !ids.contains v
  | .copy ref => match w.st.atObj ref with | some s => s.arg.valid.isNone || !s.arg.validDeletable | none => false
  | .drop i | .defaults i _ | .required i _ | .help i _ | .metavar i _ =>
    match w.copies[i]? with | some (some _) => true | _ => false
  | .flag _ _ => false
  | .action i a =>
    match w.copies[i]? with
    | some (some c) => decide (c.arg.action ≠ .help ∧ c.arg.action ≠ .version ∧ a ≠ .help ∧ a ≠ .version)
    | _ => false
  | .nargs i _ =>
    match w.copies[i]? with
    | some (some c) => decide (c.arg.action ≠ .help ∧ c.arg.action ≠ .version)
    | _ => false
  | .valid i v d => (match w.copies[i]? with | some (some _) => true | _ => false) &&
    (v.isNone || !d || (match v with | some x => ids.contains x.id | none => false))

theorem apart_of_B {ids : List Nat} {w : World D} {op : CopyOp} (h : apartB ids w op = true) : Apart ids w op := by
  cases op <;> simp only [apartB] at h <;> unfold Apart Live
  case copy ref =>
    split at h
    · rename_i s hs
      refine ⟨s, hs, fun v hv => ?_⟩
      rw [hv] at h
      simpa using h
    · cases h
  case valid i v d =>
    rw [Bool.and_eq_true] at h
    obtain ⟨h1, h2⟩ := h
    split at h1
    · rename_i c hc
      refine ⟨⟨c, hc⟩, ?_⟩
      cases v with
      | none => exact .inl rfl
      | some v =>
        cases d with
        | false => exact .inr (.inl rfl)
        | true => exact .inr (.inr ⟨v, rfl, by simpa using h2⟩)
    · cases h1
  case call op =>
    intro v hv
    have := List.all_eq_true.1 h v hv
    simpa using this
  case flag => cases h
  all_goals
    split at h
    · rename_i c hc
      first
      | exact ⟨c, hc⟩
      | exact ⟨c, hc, of_decide_eq_true h⟩
    · cases h

def apartAllB (ids : List Nat) (scan : Str → Option D) : World D → List CopyOp → Bool
  | _, [] => true
  | w, op :: ops => apartB ids w op && apartAllB ids scan (w.step scan op).1 ops

theorem apartAll_of_B {ids : List Nat} {scan : Str → Option D} {w : World D} {ops : List CopyOp}
    (h : apartAllB ids scan w ops = true) : ApartAll ids scan w ops := by
  induction ops generalizing w with
  | nil => trivial
  | cons op ops ih =>
    unfold apartAllB at h
    rw [Bool.and_eq_true] at h
    exact ⟨apart_of_B h.1, fun _ => ih h.2⟩

/-- `auto a = args.addArgument({"-o", "--out"}); a.nargs(2); a.required(); a.help("x");` then `-v` through a second copy, and a
parse that reads `-o` with the one value it still takes; the first copy gets a validator of its own, which is replaced. -/
def copyOps : List CopyOp :=
  [.copy 0, .nargs 0 2, .required 0 true, .help 0 "x".toList, .copy 2, .action 1 .append, .valid 0 (some ⟨5, .accept⟩) true, .drop 1,
   .call (.parse ["prog".toList, "-o".toList, "1".toList, "f".toList]), .copy 0, .valid 0 (some ⟨6, fun _ => .reject⟩) true,
   .call .clear, .metavar 2 "M".toList, .defaults 0 []]

theorem demo_noValids : HasNoneOf [5, 6] demo := by
  intro s hs v hv
  have : demo.arguments.all (fun s => s.arg.valid.isNone) = true := by decide +kernel
  have := List.all_eq_true.1 this s hs
  rw [hv] at this
  cases this

example : Reachable demoScan demo ∧ HasNoneOf [5, 6] demo ∧ ApartAll [5, 6] demoScan ⟨demo, [], []⟩ copyOps ∧
    (callOutcomes demoScan ⟨demo, [], []⟩ copyOps) = [.ok (), .ok ()] ∧
    (∀ r ∈ outcomes demoScan demo (callsOf copyOps), r.goesOn = true) ∧
    takesAll demoScan ⟨demo, [], []⟩ copyOps = [5, 6] ∧
    (worldAfter demoScan ⟨demo, [], []⟩ copyOps).freed = [5] ∧
    (worldAfter demoScan ⟨demo, [], []⟩ copyOps).copies.map (fun c => c.map fun c => (c.arg.nargs, c.arg.isExist, c.arg.getString)) =
      [some (2, false, []), none, some (1, true, "1".toList)] :=
  ⟨demo_reachable, demo_noValids, apartAll_of_B (by decide +kernel), by decide +kernel, by decide +kernel, by decide +kernel,
    by decide +kernel, by decide +kernel⟩

/-- An argument that owns its validator, and a new flag for the copy of an option. -/
example : ((runOps demoScan demo [.valid 0 (some ⟨7, fun _ => .reject⟩) true]).atObj 0).map
      (fun s => (s.arg.valid.map (·.id), s.arg.validDeletable)) = some (some 7, true) ∧
    FlagForm "-x".toList ∧ demo.argumentExists "-x".toList = false ∧
    demo.arguments.any (fun s => !s.arg.isPositional && !s.arg.names.contains "-x".toList) = true :=
  ⟨by decide +kernel, .inl ⟨'x', by decide, rfl⟩, by decide +kernel, by decide +kernel⟩

end BletArgs
