import Verif.Props.Within
import Verif.Spec.Repeated
/-
A call followed by another about the same thing can be dropped.
-/
namespace BletArgs
open Spec
variable {D : Type}

/-- The calls of which a later one replaces an earlier one. -/
def Spec.Call.plain (p : Bool) (c : Call) : Bool :=
  match c.concern with
  | .help | .metavar | .valid => true
  | .required => !p
  | _ => false

/-- `Serves`, for positional arguments or for options. -/
def ServesOn (D : Type) (p : Bool) (cs cs' : List Call) : Prop :=
  ∀ (t : Slot D) known h v no e, t.arg.isPositional = p → t.run known h v no cs = some e →
    ∃ e', t.run known h v no cs' = some e' ∧ Similar p e e'

theorem Serves.on {cs cs' : List Call} (h : Serves D cs cs') (p : Bool) : ServesOn D p cs cs' := by
  intro t known hh v no e hp he
  obtain ⟨e', h1, h2⟩ := h t known hh v no e he
  rw [hp] at h2
  exact ⟨e', h1, h2⟩

theorem ServesOn.trans {p : Bool} {as bs cs : List Call} (h : ServesOn D p as bs) (h' : ServesOn D p bs cs) :
    ServesOn D p as cs := by
  intro t known hh v no e hp he
  obtain ⟨e', he', s⟩ := h t known hh v no e hp he
  obtain ⟨e2, he2, s2⟩ := h' t known hh v no e' hp he'
  exact ⟨e2, he2, s.trans s2⟩

theorem ServesOn.cons {p : Bool} {as bs : List Call} (c : Call) (h : ServesOn D p as bs) :
    ServesOn D p (c :: as) (c :: bs) := by
  intro t known hh v no e hq he
  rw [run_cons] at he ⊢
  have hp := edit_positional t known hh v no c t.obj
  split at he
  · rename_i hok
    rw [if_pos hok]
    obtain ⟨f, hf, rfl⟩ := Option.map_eq_some_iff.1 he
    obtain ⟨f', hf', s⟩ := h _ _ _ _ _ f (hp.trans hq) hf
    exact ⟨_, by rw [hf']; rfl, s.after⟩
  · cases he

theorem plain_allowed {p : Bool} {c : Call} (hc : c.plain p = true) (q : Bool) (known : Str → Bool) :
    c.allowed q known ∧ c.given = [] ∧ c.concern ≠ .kind ∧ c.concern ≠ .flag := by
  cases c <;> first
    | (cases hc; done)
    | exact ⟨trivial, rfl, fun h => (by cases h), fun h => (by cases h)⟩

theorem dressed_over {p : Bool} {c d : Call} (hc : c.plain p = true) (he : d.concern = c.concern) (w : Dress) :
    d.dressed (c.dressed w) = d.dressed w := by
  cases c <;> first
    | (cases hc; done)
    | (cases d <;> first
        | rfl
        | cases he)

theorem moves_over {p : Bool} {c d : Call} (hc : c.plain p = true) (he : d.concern = c.concern) (hp : p = true) (w : Dress)
    (q : List Str × List Str) : d.moves (c.dressed w) (c.moves w q) = d.moves w q := by
  subst hp
  cases c <;> first
    | (cases hc; done)
    | (cases d <;> first
        | rfl
        | cases he)

/-- The earlier of two neighbouring calls about the same thing has no effect. -/
theorem over_two (t : Slot D) (known : Str → Bool) (h v : Option Nat) (no : Nat) {c d : Call}
    (hc : c.plain t.arg.isPositional = true) (he : d.concern = c.concern) :
    (t.edit known h v no (c.on t.obj)).2 = .ok () ∧ (t.second known h v no c d).2 = .ok () ∧
    (t.edit known h v no (d.on t.obj)).2 = .ok () ∧
    Similar t.arg.isPositional ((t.edit known h v no (c.on t.obj)).1.then (t.second known h v no c d).1)
      (t.edit known h v no (d.on t.obj)).1 := by
  obtain ⟨a1, a2, a3, a4⟩ := plain_allowed hc t.arg.isPositional known
  have hd : d.plain t.arg.isPositional = true := by
    unfold Call.plain at hc ⊢; rw [he]; exact hc
  obtain ⟨b1, b2, b3, b4⟩ := plain_allowed hd t.arg.isPositional known
  obtain ⟨c1, c2⟩ := dress_edit t known h v no t.obj a3
  obtain ⟨d1, d2⟩ := dress_edit t known h v no t.obj b3
  have second : (t.second known h v no c d).2 = .ok () ∧ (t.second known h v no c d).1 = { t.same h v with
      arg := t.arg.wear (d.dressed (c.dressed t.arg.dress)), flags := d.given, queue := d.moves (c.dressed t.arg.dress) } := by
    unfold Slot.second
    simp only
    rw [c2 a1]
    have k := dress_edit (Slot.mk t.node t.obj (t.arg.wear (c.dressed t.arg.dress)))
      (fun n => known n || decide (n ∈ c.given)) h v no t.obj b3
    have al := (plain_allowed hd t.arg.isPositional fun n => known n || decide (n ∈ c.given)).1
    exact ⟨k.1.2 al, k.2 al⟩
  refine ⟨c1.2 a1, second.1, d1.2 b1, ?_⟩
  rw [second.2, c2 a1, d2 b1]
  refine ⟨?_, rfl, rfl, rfl, rfl, ?_, ?_⟩
  · show Slot.mk t.node t.obj (t.arg.wear (d.dressed t.arg.dress)) =
      Slot.mk t.node t.obj (t.arg.wear (d.dressed (c.dressed t.arg.dress)))
    rw [dressed_over hc he]
  · intro x
    show x ∈ d.given ↔ x ∈ c.given ++ d.given
    rw [a2, List.nil_append]
  · intro hp
    show d.moves t.arg.dress = fun q => d.moves (c.dressed t.arg.dress) (c.moves t.arg.dress q)
    funext q
    exact (moves_over hc he hp _ q).symm

theorem Similar.symm {p : Bool} {e f : Edit D} (h : Similar p e f) : Similar p f e :=
  ⟨h.slot.symm, h.help.symm, h.version.symm, h.dn.symm, h.dob.symm, fun x => (h.flags x).symm, fun q => (h.queue q).symm⟩

theorem run_similar {known : Str → Bool} {no : Nat} {p : Bool} {x y : Edit D} (s : Similar p x y)
    {cs : List Call} {e : Edit D}
    (he : (Slot.run x.slot (fun n => known n || decide (n ∈ x.flags)) x.help x.version (no + x.dob) cs).map x.then = some e) :
    ∃ e', (Slot.run y.slot (fun n => known n || decide (n ∈ y.flags)) y.help y.version (no + y.dob) cs).map y.then = some e' ∧
      Similar p e e' := by
  have e2 : (fun n => known n || decide (n ∈ y.flags)) = fun n => known n || decide (n ∈ x.flags) := by
    funext n
    rw [decide_eq_decide.2 (s.flags n)]
  rw [s.slot, s.help, s.version, s.dob, e2]
  obtain ⟨f, hf, rfl⟩ := Option.map_eq_some_iff.1 he
  exact ⟨_, by rw [hf]; rfl, s.then⟩

theorem over_drop {p : Bool} {c d : Call} (hc : c.plain p = true) (he : d.concern = c.concern) (cs : List Call) :
    ServesOn D p (c :: d :: cs) (d :: cs) ∧ ServesOn D p (d :: cs) (c :: d :: cs) := by
  constructor
  · intro t known h v no e hp hrun
    subst hp
    obtain ⟨k1, k2, k3, k4⟩ := over_two t known h v no hc he
    rw [run_two, if_pos ⟨k1, k2⟩] at hrun
    rw [run_cons, if_pos k3]
    exact run_similar k4 hrun
  · intro t known h v no e hp hrun
    subst hp
    obtain ⟨k1, k2, k3, k4⟩ := over_two t known h v no hc he
    rw [run_cons, if_pos k3] at hrun
    rw [run_two, if_pos ⟨k1, k2⟩]
    exact run_similar k4.symm hrun

theorem free_symm {c d : Call} (h : c.concern ≠ d.concern) : c.free d ∧ d.free c := ⟨.inl h, .inl fun e => h e.symm⟩

/-- A call followed, sooner or later, by another about the same thing has no effect. -/
theorem over_any {p : Bool} {c : Call} (hc : c.plain p = true) : ∀ {cs : List Call}, (∃ d ∈ cs, d.concern = c.concern) →
    ServesOn D p (c :: cs) cs ∧ ServesOn D p cs (c :: cs)
  | [], h => by obtain ⟨d, hd, -⟩ := h; cases hd
  | x :: cs, h => by
    by_cases he : x.concern = c.concern
    · exact over_drop hc he cs
    · have h' : ∃ d ∈ cs, d.concern = c.concern := by
        obtain ⟨d, hd, e⟩ := h
        rcases List.mem_cons.1 hd with rfl | hd
        · exact absurd e he
        · exact ⟨d, hd, e⟩
      obtain ⟨i1, i2⟩ := over_any hc h'
      have hf := free_symm (c := c) (d := x) fun e => he e.symm
      exact ⟨((Serves.swap hf.1 cs).on p).trans (i1.cons x), (i2.cons x).trans ((Serves.swap hf.2 cs).on p)⟩

/-- Without the calls that are replaced by later ones. -/
def trimmed (p : Bool) : List Call → List Call
  | [] => []
  | c :: cs => if c.plain p && cs.any (fun d => d.concern = c.concern) then trimmed p cs else c :: trimmed p cs

theorem trimmed_serves (p : Bool) : ∀ cs : List Call, ServesOn D p cs (trimmed p cs) ∧ ServesOn D p (trimmed p cs) cs
  | [] => ⟨(Serves.refl _).on p, (Serves.refl _).on p⟩
  | c :: cs => by
    obtain ⟨i1, i2⟩ := trimmed_serves p cs
    unfold trimmed
    split
    · rename_i h
      rw [Bool.and_eq_true] at h
      obtain ⟨h1, h2⟩ := h
      rw [List.any_eq_true] at h2
      obtain ⟨d, hd, e⟩ := h2
      obtain ⟨o1, o2⟩ := over_any (D := D) h1 ⟨d, hd, of_decide_eq_true e⟩
      exact ⟨o1.trans i1, i2.trans o2⟩
    · exact ⟨i1.cons c, i2.cons c⟩

theorem trimmed_keeps (p : Bool) {k : Concern} (hk : ∀ c : Call, c.concern = k → c.plain p = false) :
    ∀ cs : List Call, callsAbout k (trimmed p cs) = callsAbout k cs
  | [] => rfl
  | c :: cs => by
    have ih := trimmed_keeps p hk cs
    unfold callsAbout at *
    unfold trimmed
    split
    · rename_i h
      rw [Bool.and_eq_true] at h
      have : c.concern ≠ k := fun e => by rw [hk c e] at h; cases h.1
      rw [ih, List.filter_cons_of_neg (by simpa using this)]
    · by_cases e : c.concern = k
      · rw [List.filter_cons_of_pos (by simpa using e), List.filter_cons_of_pos (by simpa using e), ih]
      · rw [List.filter_cons_of_neg (by simpa using e), List.filter_cons_of_neg (by simpa using e), ih]

theorem trimmed_last (p : Bool) {k : Concern} (hk : ∀ c : Call, c.concern = k → c.plain p = true) :
    ∀ cs : List Call, callsAbout k (trimmed p cs) = (callsAbout k cs).getLast?.toList
  | [] => rfl
  | c :: cs => by
    have ih := trimmed_last p hk cs
    unfold callsAbout at *
    unfold trimmed
    by_cases e : c.concern = k
    · have hp := hk c e
      by_cases ha : cs.any (fun d => d.concern = c.concern) = true
      · rw [hp, ha, Bool.and_self, if_pos rfl, ih, List.filter_cons_of_pos (by simpa using e)]
        rw [List.any_eq_true] at ha
        obtain ⟨d, hd, e'⟩ := ha
        have hne : cs.filter (fun x => decide (x.concern = k)) ≠ [] :=
          List.ne_nil_of_mem (List.mem_filter.2 ⟨hd, by simpa [e] using e'⟩)
        cases hf : cs.filter (fun x => decide (x.concern = k)) with
        | nil => exact absurd hf hne
        | cons y ys => rw [List.getLast?_cons_cons]
      · rw [Bool.not_eq_true] at ha
        rw [ha, Bool.and_false, if_neg (by simp), List.filter_cons_of_pos (by simpa using e), ih,
          List.filter_cons_of_pos (by simpa using e)]
        have hnil : cs.filter (fun x => decide (x.concern = k)) = [] := by
          rw [List.filter_eq_nil_iff]
          intro d hd e'
          rw [List.any_eq_false] at ha
          exact ha d hd (by simpa [e] using e')
        rw [hnil]
        rfl
    · rw [List.filter_cons_of_neg (by simpa using e)]
      split
      · exact ih
      · rw [List.filter_cons_of_neg (by simpa using e), ih]

theorem perm_of_concerns : ∀ {cs cs' : List Call}, (∀ k, (callsAbout k cs).Perm (callsAbout k cs')) → cs.Perm cs'
  | [], cs', h => by
    cases cs' with
    | nil => exact .refl _
    | cons c cs' =>
      have := (h c.concern).nil_eq
      unfold callsAbout at this
      rw [List.filter_cons_of_pos (by simp)] at this
      cases this
  | c :: cs, cs', h => by
    have hc : c ∈ callsAbout c.concern cs' :=
      (h c.concern).mem_iff.1 (List.mem_filter.2 ⟨by simp, by simp⟩)
    obtain ⟨pre, post, rfl⟩ := List.append_of_mem (List.mem_filter.1 hc).1
    refine (List.Perm.cons c (perm_of_concerns fun k => ?_)).trans List.perm_middle.symm
    have := h k
    unfold callsAbout at *
    rw [List.filter_append] at this ⊢
    by_cases e : c.concern = k
    · rw [List.filter_cons_of_pos (by simpa using e), List.filter_cons_of_pos (by simpa using e)] at this
      exact (this.trans List.perm_middle).cons_inv
    · rw [List.filter_cons_of_neg (by simpa using e), List.filter_cons_of_neg (by simpa using e)] at this
      exact this

theorem serves_end {p : Bool} {cs cs' : List Call} (h : SameInTheEnd p cs cs') : ServesOn D p cs cs' := by
  refine (trimmed_serves p cs).1.trans (.trans (Serves.on (Serves.any ⟨?_, ?_⟩) p) (trimmed_serves p cs').2)
  all_goals
    have keep : ∀ k, k ≠ .flag → callsAbout k (trimmed p cs') = callsAbout k (trimmed p cs) := by
      intro k hk
      cases k with
      | flag => exact absurd rfl hk
      | kind =>
        have : ∀ c : Call, c.concern = .kind → c.plain p = false := fun c e => by unfold Call.plain; rw [e]
        rw [trimmed_keeps p this, trimmed_keeps p this, h.kind]
      | help =>
        have : ∀ c : Call, c.concern = .help → c.plain p = true := fun c e => by unfold Call.plain; rw [e]
        rw [trimmed_last p this, trimmed_last p this, h.help]
      | metavar =>
        have : ∀ c : Call, c.concern = .metavar → c.plain p = true := fun c e => by unfold Call.plain; rw [e]
        rw [trimmed_last p this, trimmed_last p this, h.metavar]
      | valid =>
        have : ∀ c : Call, c.concern = .valid → c.plain p = true := fun c e => by unfold Call.plain; rw [e]
        rw [trimmed_last p this, trimmed_last p this, h.valid]
      | required =>
        cases p with
        | false =>
          have : ∀ c : Call, c.concern = .required → c.plain false = true := fun c e => by unfold Call.plain; rw [e]; rfl
          rw [trimmed_last false this, trimmed_last false this, h.required]
        | true =>
          have : ∀ c : Call, c.concern = .required → c.plain true = false := fun c e => by unfold Call.plain; rw [e]; rfl
          rw [trimmed_keeps true this, trimmed_keeps true this, h.moves rfl]
  · refine perm_of_concerns fun k => ?_
    by_cases hk : k = .flag
    · subst hk
      have : ∀ c : Call, c.concern = .flag → c.plain p = false := fun c e => by unfold Call.plain; rw [e]
      rw [trimmed_keeps p this, trimmed_keeps p this]
      exact h.flag
    · rw [keep k hk]
  · exact keep

theorem through_same {scan : Str → Option D} {st : State D} (hr : ReachableBy scan CleanAdds st) {ref : Nat} {t : Slot D}
    (ht : st.atObj ref = some t) {cs cs' : List Call} (ha : SameInTheEnd t.arg.isPositional cs cs')
    (hs : Succeeds scan st (chained ref st.nextObj cs)) :
    Succeeds scan st (chained ref st.nextObj cs') ∧
    Renamed Ren.refl (Spec.after scan st (chained ref st.nextObj cs)) (Spec.after scan st (chained ref st.nextObj cs')) := by
  have inv := hr.reachable.inv
  have hm := (State.atObj_some ht).1
  have k1 := run_spec hr ht cs
  have k2 := run_spec hr ht cs'
  cases he : t.run st.argumentExists st.helpOption st.versionOption st.nextObj cs with
  | none => rw [he] at k1; exact absurd hs k1
  | some e =>
    rw [he] at k1
    obtain ⟨-, ed, hr1⟩ := k1
    obtain ⟨e', he', sim⟩ := serves_end ha t _ _ _ _ e rfl he
    rw [he'] at k2
    obtain ⟨hs', ed', hr2⟩ := k2
    refine ⟨hs', similar_states hr1.reachable.inv hr2.reachable.inv hr1.owned ed ed' sim ?_⟩
    cases hp : t.arg.isPositional with
    | true => rw [sim.queue hp]
    | false =>
      have forms : t.arg.isPositional = false → t.arg.names ≠ [] ∧ ∀ f ∈ t.arg.names, FlagForm f :=
        fun hp => (inv.forms t hm).option hp
      have und : ∀ x, x ∈ (positionals st true, positionals st false).1 ∨ x ∈ (positionals st true, positionals st false).2 →
          x.head? ≠ some '-' := by
        rintro x (hx | hx)
        · exact positionals_undashed inv true hx
        · exact positionals_undashed inv false hx
      rw [run_queue he (fun h => by rw [hp] at h; cases h) forms _ und,
        run_queue he' (fun h => by rw [hp] at h; cases h) forms _ und]

theorem new_same {scan : Str → Option D} {st : State D} (hr : ReachableBy scan CleanAdds st) {names : List Str}
    (hu : ∀ n ∈ names, st.argumentExists n = false) {cs cs' : List Call} (ha : SameInTheEnd (asksPositional names) cs cs')
    (hs : Succeeds scan st ((Chain.new names cs).ops st.nextObj)) :
    Succeeds scan st ((Chain.new names cs').ops st.nextObj) ∧
    Renamed Ren.refl (Spec.after scan st ((Chain.new names cs).ops st.nextObj))
      (Spec.after scan st ((Chain.new names cs').ops st.nextObj)) := by
  unfold Chain.ops at *
  simp only at *
  rw [succeeds_cons] at hs ⊢
  obtain ⟨h1, h2⟩ := hs
  rw [after_cons_ok _ h1, after_cons_ok _ h1]
  have hr' : ReachableBy scan CleanAdds (step scan st (.add names)).1 := .step _ hr (by rw [h1]; rfl) hu
  have hadd : step scan st (.add names) = ((st.addArgument names).1, (st.addArgument names).2.void) := rfl
  have hnew := add_new st names
  cases hna : newArg (D := D) st.argumentExists names with
  | error e =>
    rw [hna] at hnew
    rw [hadd, hnew] at h1
    cases h1
  | ok a =>
    rw [hna] at hnew
    simp only at hnew
    obtain ⟨n1, n2, n3, n4, n5⟩ := newArg_names hna
    obtain ⟨l1, l2⟩ := link_edited hr.reachable.inv n1 n3
    rw [← hnew] at l1 l2
    have l1' : Edited st (addEdit st.nextNode st.nextObj st.helpOption st.versionOption a) (step scan st (.add names)).1 := l1
    have e4 : (step scan st (.add names)).1.nextObj = st.nextObj + 1 := l1'.obj
    have found := l1'.found hr'.reachable.inv
    have found : (step scan st (.add names)).1.atObj st.nextObj = some ⟨st.nextNode, st.nextObj, a⟩ := found
    rw [← e4] at h2 ⊢
    rw [← n5] at ha
    have := through_same hr' found ha h2
    exact ⟨⟨h1, this.1⟩, this.2⟩

theorem creates_same {p : Bool} {cs cs' : List Call} (h : SameInTheEnd p cs cs') :
    cs'.countP Call.isDest = cs.countP Call.isDest := by
  have key : ∀ l : List Call, l.countP Call.isDest = (callsAbout .kind l).countP Call.isDest := by
    intro l
    unfold callsAbout
    rw [List.countP_filter]
    refine congrArg (List.countP · l) (funext fun c => ?_)
    cases c <;> rfl
  rw [key cs', key cs, h.kind]

end BletArgs
