import Verif.Spec.Promise
import Verif.Props.Usage
import Verif.Props.Write
import Verif.Props.Values
/-
C89: the usage text tells the truth about what can be written on the command line.
-/
namespace BletArgs
open Spec
variable {D : Type}

/-! ### The action agrees with the kind -/

/-- The action and `nargs` of an argument that takes values are those of its kind. -/
def Told (a : Argument D) : Prop := TakesValues a.type → kindOf a.isPositional a.action a.nargs = some (a.type, a.nargs)

theorem Told.congr {a b : Argument D} (h : Told a) (h1 : b.type = a.type) (h2 : b.nargs = a.nargs) (h3 : b.action = a.action) :
    Told b := by
  unfold Told Argument.isPositional at *
  rw [h1, h2, h3]; exact h

theorem kindOf_again {p : Bool} {act : Action} {n : Nat} {k : Ty} {m : Nat} (h : kindOf p act n = some (k, m)) (hk : TakesValues k) :
    kindOf p (if k = .infinite ∨ k = .infinitePos then .infinite else act) m = some (k, m) := by
  obtain ⟨_, k1, k2, k3, k4⟩ := hk
  unfold kindOf at h ⊢
  cases p <;> cases act <;> simp only [Bool.false_eq_true, if_false, if_true] at h ⊢ <;> (repeat' split at h) <;>
    first
    | (cases h; done)
    | (obtain ⟨rfl, rfl⟩ := Prod.mk.inj (Option.some.inj h); first | exact absurd rfl k1 | exact absurd rfl k2 | exact absurd rfl k3 | exact absurd rfl k4 | simp_all)

theorem told_retyped {st : State D} {s : Slot D} {a : Argument D} (h : (st.retype s a).2 = .ok ()) :
    Told (a.retyped s.obj st.helpOption st.versionOption) := by
  obtain ⟨k, n, g0, g1, g2, g3, g4, _⟩ := retype_ok h
  intro ht
  rw [g1] at ht
  rw [g3, g4, g2, g1]
  exact kindOf_again g0 ht

theorem step_told {scan : Str → Option D} {st : State D} {full : Prop} (hi : GInv full st) (hs : ∀ s ∈ st.arguments, Told s.arg)
    (op : Op) (hg : (step scan st op).2.goesOn = true) (hc : KindsAccepted st op (step scan st op).2) :
    ∀ s ∈ (step scan st op).1.arguments, Told s.arg := by
  intro s' hs'
  rcases step_slots hi op hg hs' with ⟨s, hm, h⟩ | h
  · have h0 := hs s hm
    cases op with
    | action ref act =>
      simp only [ArgChange] at h
      split at h
      · rename_i e
        have hat : st.atObj ref = some s := e ▸ State.atObj_of_mem hi.objs hm
        simp only [KindsAccepted, step] at hc
        rw [action_eq hat] at hc
        rw [h]
        exact told_retyped (st := { st with helpOption := st.helpBut s, versionOption := st.versionBut s })
          (s := s) (a := { s.arg with action := act }) hc
      · rw [h]; exact h0
    | nargs ref n =>
      simp only [ArgChange] at h
      split at h
      · rename_i e
        have hat : st.atObj ref = some s := e ▸ State.atObj_of_mem hi.objs hm
        simp only [KindsAccepted, step] at hc
        unfold State.nargs State.withRef at hc
        rw [hat] at hc
        rw [h]
        exact told_retyped (st := st) (s := s) (a := { s.arg with nargs := n }) hc
      · rw [h]; exact h0
    | defaults ref ds =>
      simp only [ArgChange] at h
      split at h
      · have hf := defaultsConstructor_frame ({ s.arg with defaults := ds } : Argument D)
        rw [h]
        exact h0.congr hf.2.1 hf.2.2.2.2.1 hf.2.2.2.1
      · rw [h]; exact h0
    | flag ref f | remove ns =>
      simp only [ArgChange] at h
      obtain ⟨ms, rfl⟩ := h
      exact h0.congr rfl rfl rfl
    | parse argv =>
      simp only [ArgChange] at h
      exact h0.congr (congrArg (fun x : Slot D => x.arg.type) h :) (congrArg (fun x : Slot D => x.arg.nargs) h :)
        (congrArg (fun x : Slot D => x.arg.action) h :)
    | required ref _ | help ref _ | metavar ref _ | behave ref _ _ | edit ref _ | valid ref _ _ | dest ref _ =>
      simp only [ArgChange] at h
      split at h <;> (rw [h]; exact h0.congr rfl rfl rfl)
    | _ => simp only [ArgChange] at h; rw [h]; exact h0
  · cases op with
    | add names =>
      simp only [ArgFresh] at h
      rcases h.2.2 with ⟨n, e⟩ | ⟨fs, e⟩
      · rw [e]; exact fun _ => rfl
      · rw [e]; exact fun _ => rfl
    | parse argv =>
      simp only [ArgFresh] at h
      have : Told (helpArgument (helpFlags st) : Argument D) := fun ht => absurd rfl ht.2.1
      exact this.congr (congrArg (fun x : Argument D => x.type) h.2.2.2 :) (congrArg (fun x : Argument D => x.nargs) h.2.2.2 :)
        (congrArg (fun x : Argument D => x.action) h.2.2.2 :)
    | _ => exact h.elim

theorem ReachableBy.told {scan : Str → Option D} {st : State D} (h : ReachableBy scan KindsAccepted st) :
    ∀ s ∈ st.arguments, Told s.arg := by
  induction h with
  | init => intro s hs; cases hs
  | step op hr hg hc ih => exact step_told hr.reachable.inv ih op hg hc

/-- The cases of an option that takes values. -/
theorem told_option {a : Argument D} (h : Told a) (ho : a.isPositional = false) (hv : TakesValues a.type) :
    (a.action = .none ∧ a.type = .simple ∧ a.nargs = 1) ∨
    (a.action = .none ∧ a.type = .number ∧ 1 < a.nargs ∧ a.nargs ≠ 43) ∨
    (a.action = .infinite ∧ a.type = .infinite ∧ a.nargs = 1) ∨
    (a.action = .append ∧ a.type = .multi ∧ a.nargs = 1) ∨
    (a.action = .append ∧ a.type = .multiNumber ∧ 1 < a.nargs) ∨
    (a.action = .extend ∧ a.type = .multiInfinite ∧ a.nargs = 1) ∨
    (a.action = .extend ∧ a.type = .multiNumberInfinite ∧ 1 < a.nargs) := by
  have h1 := h hv
  obtain ⟨_, v1, v2, v3, v4⟩ := hv
  rw [ho] at h1
  unfold kindOf at h1
  simp only [Bool.false_eq_true, if_false] at h1
  generalize a.type = k at *
  generalize a.nargs = n at *
  generalize a.action = act at *
  split at h1
  · obtain ⟨rfl, rfl⟩ := Prod.mk.inj (Option.some.inj h1); exact absurd rfl v3
  · rename_i hn
    cases act <;> simp only at h1 <;> (repeat' split at h1) <;>
      (obtain ⟨rfl, e⟩ := Prod.mk.inj (Option.some.inj h1)) <;>
      first
      | exact absurd rfl v1 | exact absurd rfl v2 | exact absurd rfl v3 | exact absurd rfl v4
      | (exfalso; omega)
      | (simp; done)
      | (simp; omega)

theorem valuesShown_eq {a : Argument D} (hm : a.metavar = []) (hv : TakesValues a.type) :
    valuesShown a = if a.action = .infinite ∨ a.nargs = 43 then Promise.any.text (shownName a)
      else (Promise.times (max a.nargs 1)).text (shownName a) := by
  obtain ⟨v0, v1, v2, v3, v4⟩ := hv
  have : valuesShown a = ' ' :: metavarShown a := by
    unfold valuesShown
    cases h : a.type <;> first | rfl | (exfalso; exact absurd h ‹_›)
  rw [this]
  unfold metavarShown shownName
  rw [if_neg (by rw [hm]; simp)]
  split <;> rfl

theorem valueless_iff (k : Ty) : Valueless k ↔ ¬TakesValues k := by
  unfold Valueless TakesValues
  cases k <;> simp

theorem dvd_flatten {n : Nat} {gs : List (List Str)} (h : ∀ g ∈ gs, g.length = n) : n ∣ gs.flatten.length := by
  induction gs with
  | nil => simp
  | cons g gs ih =>
    rw [List.flatten_cons, List.length_append, h g (by simp)]
    exact Nat.dvd_add (Nat.dvd_refl n) (ih fun g hg => h g (by simp [hg]))

theorem groups_of_length {n : Nat} (k : Nat) : ∀ vs : List Str, vs.length = n * k →
    ∃ gs : List (List Str), gs.flatten = vs ∧ ∀ g ∈ gs, g.length = n := by
  induction k with
  | zero => intro vs h; exact ⟨[], (List.length_eq_zero_iff.1 (by simpa using h)).symm, by simp⟩
  | succ k ih =>
    intro vs h
    rw [Nat.mul_succ] at h
    obtain ⟨gs, h1, h2⟩ := ih (vs.drop n) (by rw [List.length_drop]; omega)
    refine ⟨vs.take n :: gs, by rw [List.flatten_cons, h1, List.take_append_drop], ?_⟩
    intro g hg
    rcases List.mem_cons.1 hg with rfl | hg
    · rw [List.length_take]; omega
    · exact h2 g hg

theorem groups_of_dvd {n : Nat} {vs : List Str} (h : n ∣ vs.length) :
    ∃ gs : List (List Str), gs.flatten = vs ∧ ∀ g ∈ gs, g.length = n := by
  obtain ⟨k, hk⟩ := h
  exact groups_of_length k vs hk

/-- C89, the values. For an option without custom metavar and with a documented kind (no exception of `action()` or `nargs()`
ignored), the usage shows nothing, its name `n` times, or `NAME...`, and this is the truth: on every command line, every use of
the option takes no value, exactly `n` values, or as many as there are; and every list of values of a promised length can be
given to it, provided none of them looks like an option. (Two kinds are shown wrongly: `C89_extend`, `C89_append_43`.) -/
theorem C89_values {scan : Str → Option D} {st : State D} (hr : ReachableBy scan KindsAccepted st) {s : Slot D}
    (hs : s ∈ st.arguments) (ho : s.arg.isPositional = false) (hm : s.arg.metavar = [])
    (hx : s.arg.action = .extend → Valueless s.arg.type) (h43 : s.arg.type = .multiNumber → s.arg.nargs ≠ 43) :
    ∃ p : Promise, valuesShown s.arg = p.text (shownName s.arg) ∧
      (∀ argv evs err, Ready scan st argv → Line st.sig st.places (argv.drop 1) evs err →
        ∀ u ∈ uses s.node evs, p.Kept u.2.flat) ∧
      ∀ vs : List Str, p.Kept vs → (∀ v ∈ vs, ¬EndTok v ∧ ¬OptionForm st.sig v) →
        ∃ vals : Values, vals.flat = vs ∧ Sayable st.sig s.entry vals := by
  by_cases hv : TakesValues s.arg.type
  · have hsh := valuesShown_eq hm hv
    have ht := told_option (hr.told s hs) ho hv
    have hfit : ∀ argv evs err, Ready scan st argv → Line st.sig st.places (argv.drop 1) evs err →
        ∀ u ∈ uses s.node evs, ValuesFit s.arg.nargs s.arg.type u.2 := fun argv evs err h hl => (C27_arity h hl hs).1
    rcases ht with ⟨h1, h2, h3⟩ | ⟨h1, h2, h3, h4⟩ | ⟨h1, h2, h3⟩ | ⟨h1, h2, h3⟩ | ⟨h1, h2, h3⟩ | ⟨h1, h2, h3⟩ | ⟨h1, h2, h3⟩
    · refine ⟨.times 1, by rw [hsh, h1, h3]; rfl, ?_, ?_⟩
      · intro argv evs err h hl u hu
        have := hfit argv evs err h hl u hu
        rw [h2] at this
        generalize u.2 = vals at this
        cases this with
        | nothing h => rcases h with h | h | h | h | h <;> cases h
        | single v _ => rfl
        | fixed _ h => rcases h with h | h <;> cases h
        | many _ h => rcases h with h | h | h <;> cases h
        | groups _ h => rcases h with h | h <;> cases h
      · intro vs hk _
        obtain ⟨v, rfl⟩ := List.length_eq_one_iff.1 hk
        exact ⟨.single v, rfl, .single v h2⟩
    · refine ⟨.times s.arg.nargs, by rw [hsh, h1, if_neg (by simp [h4]), Nat.max_eq_left (by omega)], ?_, ?_⟩
      · intro argv evs err h hl u hu
        have := hfit argv evs err h hl u hu
        rw [h2] at this
        generalize u.2 = vals at this
        cases this with
        | nothing h => rcases h with h | h | h | h | h <;> cases h
        | single v h => rcases h with h | h <;> cases h
        | fixed _ _ h => exact h
        | many _ h => rcases h with h | h | h <;> cases h
        | groups _ h => rcases h with h | h <;> cases h
      · intro vs hk hvs
        exact ⟨.list vs, rfl, .fixed h2 hk fun v hv => (hvs v hv).1⟩
    · refine ⟨.any, by rw [hsh, h1, if_pos (.inl rfl)], fun _ _ _ _ _ _ _ => trivial, ?_⟩
      intro vs _ hvs
      exact ⟨.list vs, rfl, .many (.inl h2) hvs⟩
    · refine ⟨.times 1, by rw [hsh, h1, h3]; rfl, ?_, ?_⟩
      · intro argv evs err h hl u hu
        have := hfit argv evs err h hl u hu
        rw [h2] at this
        generalize u.2 = vals at this
        cases this with
        | nothing h => rcases h with h | h | h | h | h <;> cases h
        | single v h => rcases h with h | h <;> cases h
        | one v => rfl
        | fixed _ h => rcases h with h | h <;> cases h
        | many _ h => rcases h with h | h | h <;> cases h
        | groups _ h => rcases h with h | h <;> cases h
      · intro vs hk _
        obtain ⟨v, rfl⟩ := List.length_eq_one_iff.1 hk
        exact ⟨.list [v], rfl, .one v (.inl h2)⟩
    · refine ⟨.times s.arg.nargs, by rw [hsh, h1, if_neg (by simp [h43 h2]), Nat.max_eq_left (by omega)], ?_, ?_⟩
      · intro argv evs err h hl u hu
        have := hfit argv evs err h hl u hu
        rw [h2] at this
        generalize u.2 = vals at this
        cases this with
        | nothing h => rcases h with h | h | h | h | h <;> cases h
        | single v h => rcases h with h | h <;> cases h
        | fixed _ h => rcases h with h | h <;> cases h
        | many _ h => rcases h with h | h | h <;> cases h
        | group g h => simpa [Promise.Kept, Values.flat] using h
        | groups _ h => rcases h with h | h <;> cases h
      · intro vs hk hvs
        exact ⟨.groups [vs], by simp [Values.flat], .group h2 hk fun v hv => (hvs v hv).1⟩
    · exact absurd hv ((valueless_iff _).1 (hx h1))
    · exact absurd hv ((valueless_iff _).1 (hx h1))
  · have hn := (valueless_iff _).2 hv
    refine ⟨.nothing, ?_, ?_, ?_⟩
    · unfold valuesShown
      rcases hn with h | h | h | h | h <;> rw [h] <;> rfl
    · intro argv evs err h hl u hu
      have := (C27_arity h hl hs).1 u hu
      generalize u.2 = vals at this
      generalize s.arg.type = k at *
      cases this with
      | nothing _ => rfl
      | single v h => exact absurd (by rcases h with rfl | rfl <;> simp [TakesValues]) hv
      | one v => exact absurd (by simp [TakesValues]) hv
      | fixed _ h => exact absurd (by rcases h with rfl | rfl <;> simp [TakesValues]) hv
      | many _ h => exact absurd (by rcases h with rfl | rfl | rfl <;> simp [TakesValues]) hv
      | group _ _ => exact absurd (by simp [TakesValues]) hv
      | groups _ h => exact absurd (by rcases h with rfl | rfl <;> simp [TakesValues]) hv
    · intro vs hk _
      rw [show vs = [] from hk]
      exact ⟨.nothing, rfl, .nothing hn⟩

/-- C89, where the usage is wrong (i): an option with the action EXTEND is shown with its name `n` times, once for `nargs` 1,
but every use takes any multiple of `n` values, also none. -/
theorem C89_extend {scan : Str → Option D} {st : State D} (hr : ReachableBy scan KindsAccepted st) {s : Slot D}
    (hs : s ∈ st.arguments) (ho : s.arg.isPositional = false) (hm : s.arg.metavar = [])
    (hx : s.arg.action = .extend) (hv : TakesValues s.arg.type) :
    valuesShown s.arg =
      (if s.arg.nargs = 43 then Promise.any else .times s.arg.nargs).text (shownName s.arg) ∧ 0 < s.arg.nargs ∧
    (∀ argv evs err, Ready scan st argv → Line st.sig st.places (argv.drop 1) evs err →
      ∀ u ∈ uses s.node evs, s.arg.nargs ∣ u.2.flat.length) ∧
    ∀ vs : List Str, s.arg.nargs ∣ vs.length → (∀ v ∈ vs, ¬EndTok v ∧ ¬OptionForm st.sig v) →
      ∃ vals : Values, vals.flat = vs ∧ Sayable st.sig s.entry vals := by
  have hsh := valuesShown_eq hm hv
  have hfit : ∀ argv evs err, Ready scan st argv → Line st.sig st.places (argv.drop 1) evs err →
      ∀ u ∈ uses s.node evs, ValuesFit s.arg.nargs s.arg.type u.2 := fun argv evs err h hl => (C27_arity h hl hs).1
  rcases told_option (hr.told s hs) ho hv with ⟨h1, h2, h3⟩ | ⟨h1, h2, h3, h4⟩ | ⟨h1, h2, h3⟩ | ⟨h1, h2, h3⟩ | ⟨h1, h2, h3⟩ |
    ⟨h1, h2, h3⟩ | ⟨h1, h2, h3⟩
  iterate 5 · rw [hx] at h1; cases h1
  · refine ⟨by rw [hsh, h1, h3]; rfl, by omega, fun _ _ _ _ _ _ _ => by rw [h3]; exact Nat.one_dvd _, ?_⟩
    intro vs _ hvs
    exact ⟨.list vs, rfl, .many (.inr h2) hvs⟩
  · refine ⟨?_, by omega, ?_, ?_⟩
    · rw [hsh, h1]
      simp only [reduceCtorEq, false_or]
      rw [Nat.max_eq_left (by omega)]
      split <;> rfl
    · intro argv evs err h hl u hu
      have := hfit argv evs err h hl u hu
      rw [h2] at this
      generalize u.2 = vals at this
      cases this with
      | nothing h => rcases h with h | h | h | h | h <;> cases h
      | single v h => rcases h with h | h <;> cases h
      | fixed _ h => rcases h with h | h <;> cases h
      | many _ h => rcases h with h | h | h <;> cases h
      | groups gs _ h => exact dvd_flatten h
    · intro vs hd hvs
      obtain ⟨gs, rfl, hg⟩ := groups_of_dvd hd
      refine ⟨.groups gs, rfl, .groups h2 fun g hm => ⟨hg g hm, fun v hv => (hvs v (List.mem_flatten.2 ⟨g, hm, hv⟩)).1, ?_⟩⟩
      intro v hv
      exact (hvs v (List.mem_flatten.2 ⟨g, hm, List.mem_of_head? hv⟩)).2

/-- C89, where the usage is wrong (ii): an option with the action APPEND and `nargs` 43 is shown with `NAME...` – 43 is the
code of `'+'` – but every use takes 43 values, neither more nor less. -/
theorem C89_append_43 {scan : Str → Option D} {st : State D} (hr : ReachableBy scan KindsAccepted st) {s : Slot D}
    (hs : s ∈ st.arguments) (ho : s.arg.isPositional = false) (hm : s.arg.metavar = [])
    (hx : s.arg.action = .append) (hv : TakesValues s.arg.type) (h43 : s.arg.nargs = 43) :
    valuesShown s.arg = Promise.any.text (shownName s.arg) ∧
    ∀ argv evs err, Ready scan st argv → Line st.sig st.places (argv.drop 1) evs err →
      ∀ u ∈ uses s.node evs, u.2.flat.length = 43 := by
  have hsh := valuesShown_eq hm hv
  refine ⟨by rw [hsh, if_pos (.inr h43)], ?_⟩
  intro argv evs err h hl u hu
  have := (C27_arity h hl hs).1 u hu
  have h2 : s.arg.type = .multiNumber := by
    rcases told_option (hr.told s hs) ho hv with ⟨h1, h2, h3⟩ | ⟨h1, h2, h3, h4⟩ | ⟨h1, h2, h3⟩ | ⟨h1, h2, h3⟩ | ⟨h1, h2, h3⟩ |
      ⟨h1, h2, h3⟩ | ⟨h1, h2, h3⟩
    iterate 3 · rw [hx] at h1; cases h1
    · rw [h43] at h3; cases h3
    · exact h2
    iterate 2 · rw [hx] at h1; cases h1
  rw [h2, h43] at this
  generalize u.2 = vals at this
  cases this with
  | nothing h => rcases h with h | h | h | h | h <;> cases h
  | single v h => rcases h with h | h <;> cases h
  | fixed _ h => rcases h with h | h <;> cases h
  | many _ h => rcases h with h | h | h <;> cases h
  | group g h => simpa [Values.flat] using h
  | groups _ h => rcases h with h | h <;> cases h

/-! ### Positional arguments -/

/-- The place belongs to a positional argument of a documented kind. -/
def PlaceGood (p : Place) : Prop := TakesValues p.kind ∧ 0 < p.arity

theorem takes_nonempty {stop : Str → Prop} {p : Place} (hp : PlaceGood p) {t : Str} {ts rest : List Str} {vals : Values}
    (hn : ¬stop t) (h : Takes stop p.arity p.kind (t :: ts) vals rest) : vals.flat ≠ [] := by
  obtain ⟨h1, h2⟩ := hp
  generalize hk : p.kind = k at h h1
  generalize hl : t :: ts = l at h
  cases h with
  | nothing _ hv => exact absurd h1 ((valueless_iff _).1 hv)
  | one v _ _ => simp [Values.flat]
  | oneMore v => simp [Values.flat]
  | fixed vs _ _ e =>
    intro e'
    rw [show vs = [] from e'] at e
    simp at e; omega
  | fixedMore vs _ e =>
    intro e'
    have : vs = [] := by simpa [Values.flat] using e'
    rw [this] at e
    simp at e; omega
  | many vs _ _ e =>
    intro e'
    rw [show vs = [] from e'] at hl
    refine hn (e.2 t ?_)
    rw [List.nil_append] at hl
    rw [← hl]; rfl
  | manyGroups gs _ _ e e2 =>
    intro e'
    rw [show gs.flatten = [] from e'] at hl
    refine hn (e2 t ?_)
    rw [List.nil_append] at hl
    rw [← hl]; rfl

theorem wordReads_nonempty {stop : Str → Prop} {strict : Bool} {q q' : List Place} {t : Str} {ts rest : List Str} {ev : Event}
    (hq : ∀ p ∈ q, PlaceGood p) (hn : ¬stop t) (h : WordReads stop strict q (t :: ts) ev q' rest) :
    (∀ id vals, ev = .positional id vals → vals.flat ≠ []) ∧ ∀ p ∈ q', PlaceGood p := by
  generalize hl : t :: ts = l at h
  cases h with
  | fill ht =>
    subst hl
    refine ⟨?_, fun p hp => hq p (by simp [hp])⟩
    intro id vals e
    injection e with _ e
    subst e
    exact takes_nonempty (hq _ (by simp)) hn ht
  | surplus w => exact ⟨fun _ _ e => (nomatch e), hq⟩

theorem optionReads_only {stop : Str → Prop} {name : Str} {e : Entry} {att : Bool} {eq : Option Str} {ts : List Str} {evs : List Event}
    {out : Out} (h : OptionReads stop name e att eq ts evs out) : ∀ id vals, .positional id vals ∉ evs := by
  cases h <;> simp

theorem clusterReads_only {sig : Sig} {stop : Str → Prop} {eq : Option Str} {ts : List Str} {cs : List Char} {evs : List Event}
    {out : Out} (h : ClusterReads sig stop eq ts cs evs out) : ∀ id vals, .positional id vals ∉ evs := by
  induction h with
  | none => simp
  | unknown => simp
  | last _ h => exact optionReads_only h
  | attached _ _ _ _ h => exact optionReads_only h
  | notLast => simp
  | switch _ _ _ _ ih =>
    intro id vals hm
    rcases List.mem_cons.1 hm with h | h
    · cases h
    · exact ih id vals h

theorem tokenReads_only {sig : Sig} {stop : Str → Prop} {tok : Str} {ts : List Str} {evs : List Event}
    {out : Out} (h : TokenReads sig stop tok ts evs out) : ∀ id vals, .positional id vals ∉ evs := by
  cases h with
  | long _ _ _ h => exact optionReads_only h
  | unknownLong => simp
  | alternative _ _ _ _ h => exact optionReads_only h
  | cluster _ _ _ h => exact clusterReads_only h

theorem reads_nonempty {sig : Sig} {q q' : List Place} {ts : List Str} {evs : List Event} {err : Option Exn}
    (h : Reads sig q ts evs q' err) (hq : ∀ p ∈ q, PlaceGood p) :
    (∀ id vals, .positional id vals ∈ evs → vals.flat ≠ []) ∧ ∀ p ∈ q', PlaceGood p := by
  induction h with
  | nil => exact ⟨by simp, hq⟩
  | option ht _ ih =>
    refine ⟨?_, (ih hq).2⟩
    intro id vals hm
    rcases List.mem_append.1 hm with h | h
    · exact absurd h (tokenReads_only ht id vals)
    · exact (ih hq).1 id vals h
  | badOption ht => exact ⟨fun id vals hm => absurd hm (tokenReads_only ht id vals), hq⟩
  | word hw hr _ ih =>
    obtain ⟨h1, h2⟩ := wordReads_nonempty hq (word_not_option hw) hr
    refine ⟨?_, (ih h2).2⟩
    intro id vals hm
    rcases List.mem_cons.1 hm with h | h
    · exact h1 id vals h.symm
    · exact (ih h2).1 id vals h
  | badWord => exact ⟨by simp, hq⟩

theorem readsWords_nonempty {strict : Bool} {q q' : List Place} {ts : List Str} {evs : List Event} {err : Option Exn}
    (h : ReadsWords strict q ts evs q' err) (hq : ∀ p ∈ q, PlaceGood p) :
    ∀ id vals, .positional id vals ∈ evs → vals.flat ≠ [] := by
  induction h with
  | nil => simp
  | word hr _ ih =>
    obtain ⟨h1, h2⟩ := wordReads_nonempty hq (fun h => h) hr
    intro id vals hm
    rcases List.mem_cons.1 hm with h | h
    · exact h1 id vals h.symm
    · exact ih h2 id vals h
  | badWord => simp

theorem line_nonempty {sig : Sig} {q : List Place} {ts : List Str} {evs : List Event} {err : Option Exn}
    (h : Line sig q ts evs err) (hq : ∀ p ∈ q, PlaceGood p) :
    ∀ id vals, .positional id vals ∈ evs → vals.flat ≠ [] := by
  cases h with
  | whole _ h => exact (reads_nonempty h hq).1
  | split _ h1 h2 =>
    obtain ⟨g1, g2⟩ := reads_nonempty h1 hq
    intro id vals hm
    rcases List.mem_append.1 hm with h | h
    · exact g1 id vals h
    · exact readsWords_nonempty h2 g2 id vals h
  | splitBad _ h => exact (reads_nonempty h hq).1

theorem settled_positional {a : Argument D} (h : Settled a) (hp : a.isPositional = true) :
    (a.type = .pos ∧ a.nargs = 1) ∨ (a.type = .numberPos ∧ 1 < a.nargs) ∨ (a.type = .infinitePos ∧ a.nargs = 1) ∨
    (a.type = .infiniteNumberPos ∧ 1 < a.nargs) := by
  obtain ⟨act, n, h⟩ := h
  rw [hp] at h
  unfold kindOf at h
  simp only [if_true] at h
  cases act <;> simp only [reduceCtorEq] at h <;> (repeat' split at h) <;>
    first
    | (cases h; done)
    | (obtain ⟨e1, e2⟩ := Prod.mk.inj (Option.some.inj h); rw [← e1, ← e2]; simp; done)
    | (obtain ⟨e1, e2⟩ := Prod.mk.inj (Option.some.inj h); rw [← e1, ← e2]; simp; omega)

theorem Ready.places_good {scan : Str → Option D} {st : State D} {argv : List Str} (h : Ready scan st argv) :
    ∀ p ∈ st.places, PlaceGood p := by
  intro p hp
  unfold State.places at hp
  obtain ⟨s, hs, rfl⟩ := List.mem_map.1 hp
  obtain ⟨h1, h2⟩ := List.mem_filter.1 hs
  have h3 := h.settled s h1
  change TakesValues s.arg.type ∧ 0 < s.arg.nargs
  rcases settled_positional h3 h2 with ⟨e1, e2⟩ | ⟨e1, e2⟩ | ⟨e1, e2⟩ | ⟨e1, e2⟩ <;> rw [e1] <;>
    exact ⟨by simp [TakesValues], by omega⟩

/-- C89, positional arguments. In the usage line a positional argument is shown as its name, once per word it takes;
`{…}...` marks the words that may be repeated. This is the truth: on every command line on which the argument is filled, it
takes one word (`name`), `n` words (`name … name`), one word or more (`name {name}...`), or one group of `n` words or more
(`{name … name}...`). -/
theorem C89_positional {scan : Str → Option D} {st : State D} {argv : List Str} (h : Ready scan st argv) {s : Slot D}
    (hs : s ∈ st.arguments) (hp : s.arg.isPositional = true) {evs : List Event} {err : Option Exn}
    (hl : Line st.sig st.places (argv.drop 1) evs err) {vals : Values} (hv : vals ∈ fills s.node evs) :
    let name := s.arg.names.headD []
    let n := s.arg.nargs
    (item s.arg = maybe s.arg name ∧ vals.flat.length = 1) ∨
    (item s.arg = maybe s.arg (copies n name) ∧ vals.flat.length = n ∧ 1 < n) ∨
    (item s.arg = maybe s.arg (name ++ " {".toList ++ name ++ "}...".toList) ∧ 1 ≤ vals.flat.length) ∨
    (item s.arg = maybe s.arg ("{".toList ++ copies n name ++ "}...".toList) ∧ n ∣ vals.flat.length ∧ 1 ≤ vals.flat.length) := by
  have hfit := (C27_arity h hl hs).2.1 vals hv
  have hne := line_nonempty hl h.places_good s.node vals (mem_fills.1 hv)
  have hpos : 1 ≤ vals.flat.length := List.length_pos_iff.2 hne
  simp only
  unfold item
  rcases settled_positional (h.settled s hs) hp with ⟨e1, e2⟩ | ⟨e1, e2⟩ | ⟨e1, e2⟩ | ⟨e1, e2⟩ <;> rw [e1] at hfit ⊢ <;> simp only
  · left
    refine ⟨trivial, ?_⟩
    cases hfit with
    | nothing h => rcases h with h | h | h | h | h <;> cases h
    | single v _ => rfl
    | fixed _ h => rcases h with h | h <;> cases h
    | many _ h => rcases h with h | h | h <;> cases h
    | groups _ h => rcases h with h | h <;> cases h
  · right; left
    refine ⟨trivial, ?_, e2⟩
    cases hfit with
    | nothing h => rcases h with h | h | h | h | h <;> cases h
    | single v h => rcases h with h | h <;> cases h
    | fixed _ _ h => exact h
    | many _ h => rcases h with h | h | h <;> cases h
    | groups _ h => rcases h with h | h <;> cases h
  · right; right; left
    exact ⟨trivial, hpos⟩
  · right; right; right
    refine ⟨trivial, ?_, hpos⟩
    cases hfit with
    | nothing h => rcases h with h | h | h | h | h <;> cases h
    | single v h => rcases h with h | h <;> cases h
    | fixed _ h => rcases h with h | h <;> cases h
    | many _ h => rcases h with h | h | h <;> cases h
    | groups gs _ h => exact dvd_flatten h

/-- C89, brackets. An argument that an accepted command line leaves out is shown in square brackets, and an argument in
brackets is one that `required()` does not ask for. -/
theorem C89_brackets {scan : Str → Option D} {st : State D} {argv : List Str} (h : Ready scan st argv)
    {evs : List Event} (hl : Line st.sig st.places (argv.drop 1) evs none) (hok : (st.parseArguments scan argv).2 = .ok ())
    {s : Slot D} (hs : s ∈ st.arguments) :
    (¬Occurs s.node evs → ∃ x, item s.arg = ['['] ++ x ++ [']']) ∧
    (s.arg.isRequired = true → Occurs s.node evs ∧ ∀ x, maybe s.arg x = x) := by
  refine ⟨?_, fun hq => ⟨C33_required h hl hok hs hq, fun x => by unfold maybe; rw [if_pos hq]⟩⟩
  intro hno
  have hq : s.arg.isRequired = false := by
    cases hq : s.arg.isRequired with
    | false => rfl
    | true => exact absurd (C33_required h hl hok hs hq) hno
  unfold item maybe
  rw [hq]
  exact ⟨_, rfl⟩

/-! ### Flags -/

theorem infix_commaSep {f : Str} {l : List Str} (h : f ∈ l) : f <:+: commaSep l := by
  unfold commaSep
  induction l with
  | nil => cases h
  | cons g l ih =>
    cases l with
    | nil =>
      rw [List.mem_singleton.1 h]
      exact ⟨[], [], by simp [List.intercalate]⟩
    | cons g' l =>
      have e : List.intercalate [',', ' '] (g :: g' :: l) = g ++ [',', ' '] ++ List.intercalate [',', ' '] (g' :: l) := by
        simp [List.intercalate, List.intersperse]
      rw [e]
      rcases List.mem_cons.1 h with rfl | h
      · exact ⟨[], [',', ' '] ++ List.intercalate [',', ' '] (g' :: l), by simp⟩
      · obtain ⟨a, b, hab⟩ := ih h
        exact ⟨g ++ [',', ' '] ++ a, b, by rw [← hab]; simp⟩

/-- C89, every flag that is shown works. If no flag was given to `addArgument` that was already in use, each flag in the row
of an option, with values that can be given to it, says exactly this to the parser – unless it holds a `=`, or is a letter
that the alternative mode gives to another option. -/
theorem C89_shown_works {scan : Str → Option D} {st : State D} {prog : Str} (hc : ReachableBy scan CleanAdds st)
    (hus : st.usage = []) {s : Slot D} (hs : s ∈ st.arguments) (ho : s.arg.isPositional = false) {f : Str} (hf : f ∈ s.arg.names)
    (heq : '=' ∉ f) (hshort : ∀ c, f = ['-', c] → st.isAlternative = true → ∀ t, st.getArgument ['-', '-', c] ≠ .ok t)
    {vals : Values} (hv : Sayable st.sig s.entry vals) (h : Ready scan st (prog :: Use.tokens ⟨s.entry, f, vals⟩)) :
    (∃ row, Row st.padWidth st.argsWidth st.sepWidth st.helpWidth (label s.arg) (helpShown s.arg) row ∧ row <:+: st.getUsage) ∧
    f <:+: label s.arg ∧
    (∀ evs err, Line st.sig st.places (Use.tokens ⟨s.entry, f, vals⟩) evs err ↔ evs = [.option s.node false vals] ∧ err = none) := by
  have hr := hc.reachable
  have hg := (C07_flag_unique hc).1 s hs f hf
  have hw := C69_flags hr hg ho heq hshort
  refine ⟨(C46_every_argument hr hus (List.mem_map_of_mem hs)).2.1, ?_, ?_⟩
  · unfold label
    rw [ho]
    obtain ⟨a, b, hab⟩ := infix_commaSep hf
    refine ⟨a, b ++ valuesShown s.arg, ?_⟩
    simp only [Bool.false_eq_true, if_false]
    rw [← hab]; simp
  · have h' : Ready scan st (prog :: ([⟨s.entry, f, vals⟩] : List Use).flatMap Use.tokens) := by
      simpa using h
    have hl := (C69_options (us := [⟨s.entry, f, vals⟩]) h' (by
      intro u hu
      rw [List.mem_singleton.1 hu]
      exact ⟨hw, hv⟩)).1
    have e : ([⟨s.entry, f, vals⟩] : List Use).flatMap Use.tokens = Use.tokens ⟨s.entry, f, vals⟩ := by simp
    rw [e] at hl
    intro evs err
    constructor
    · intro h1
      have := line_unique (sane_sized h.sane) (sane_places h.sane) h1 hl
      exact ⟨this.1, this.2⟩
    · rintro ⟨rfl, rfl⟩
      exact hl

/-- C89, everything that works is shown: a flag by which an option can be written is one of the flags in the row of this
option. -/
theorem C89_working_is_shown {scan : Str → Option D} {st : State D} (hr : Reachable scan st) (hus : st.usage = [])
    {f : Str} {e : Entry} (hf : st.sig.flag f = some e) (hd : f.head? = some '-') :
    ∃ s ∈ st.arguments, s.entry = e ∧ f ∈ s.arg.names ∧ f <:+: label s.arg ∧
      ∃ row, Row st.padWidth st.argsWidth st.sepWidth st.helpWidth (label s.arg) (helpShown s.arg) row ∧ row <:+: st.getUsage := by
  have hi := hr.inv
  rcases flag_cases hi f with ⟨_, h⟩ | ⟨s, hs, _, _, h, hn⟩
  · rw [h] at hf; cases hf
  · rw [h] at hf
    injection hf with hf
    refine ⟨s, hs, hf, hn, ?_, (C46_every_argument hr hus (List.mem_map_of_mem hs)).2.1⟩
    obtain ⟨r, rfl⟩ : ∃ r, f = '-' :: r := by
      cases f with
      | nil => cases hd
      | cons c r => exact ⟨r, by injection hd with hd; rw [hd]⟩
    unfold label
    rw [dashed_option hi hs hn]
    obtain ⟨a, b, hab⟩ := infix_commaSep hn
    refine ⟨a, b ++ valuesShown s.arg, ?_⟩
    simp only [Bool.false_eq_true, if_false]
    rw [← hab]; simp

/-! ### Concrete cases -/

section
attribute [local irreducible] parser

/-- The arguments of the demo parser by name. -/
theorem parser_named {n : Str} {s : Slot Unit} (h : parser.getArgument n = .ok s) : s ∈ parser.arguments :=
  (entry_of_getArgument h).2

example : ∃ s ∈ parser.arguments, "-n".toList ∈ s.arg.names ∧ valuesShown s.arg = " N N".toList ∧
    ∃ p : Promise, valuesShown s.arg = p.text (shownName s.arg) ∧
      (∀ argv evs err, Ready demoScan parser argv → Line parser.sig parser.places (argv.drop 1) evs err →
        ∀ u ∈ uses s.node evs, p.Kept u.2.flat) ∧
      ∀ vs : List Str, p.Kept vs → (∀ v ∈ vs, ¬EndTok v ∧ ¬OptionForm parser.sig v) →
        ∃ vals : Values, vals.flat = vs ∧ Sayable parser.sig s.entry vals := by
  have hr : ReachableBy demoScan KindsAccepted parser := parser_history.mono fun _ _ _ => Disciplined.kinds
  obtain ⟨s, hs, h1, h2, h3, h4, h5, h6⟩ : ∃ s ∈ parser.arguments, "-n".toList ∈ s.arg.names ∧ valuesShown s.arg = " N N".toList ∧
      s.arg.isPositional = false ∧ s.arg.metavar = [] ∧ s.arg.action ≠ .extend ∧ s.arg.nargs ≠ 43 := by decide +kernel
  exact ⟨s, hs, h1, h2, C89_values hr hs h3 h4 (fun h => absurd h h5) (fun _ => h6)⟩

example : ∃ s ∈ parser.arguments, "-x".toList ∈ s.arg.names ∧ valuesShown s.arg = " X X".toList ∧
    ∀ argv evs err, Ready demoScan parser argv → Line parser.sig parser.places (argv.drop 1) evs err →
      ∀ u ∈ uses s.node evs, 2 ∣ u.2.flat.length := by
  have hr : ReachableBy demoScan KindsAccepted parser := parser_history.mono fun _ _ _ => Disciplined.kinds
  obtain ⟨s, hs, h1, h2, h3, h4, h5, h6, h7⟩ : ∃ s ∈ parser.arguments, "-x".toList ∈ s.arg.names ∧ valuesShown s.arg = " X X".toList ∧
      s.arg.isPositional = false ∧ s.arg.metavar = [] ∧ s.arg.action = .extend ∧ s.arg.nargs = 2 ∧ s.arg.type = .multiNumberInfinite := by
    decide +kernel
  have := C89_extend hr hs h3 h4 h5 (by rw [h7]; simp [TakesValues])
  rw [h6] at this
  exact ⟨s, hs, h1, h2, this.2.2.1⟩

end

/-- A parser with an option that accumulates groups of 43 values. -/
def manyValues : State Unit :=
  runOps demoScan State.init [.add ["-a".toList, "--all".toList], .nargs 0 43, .action 0 .none, .nargs 0 43, .add ["-p".toList],
    .action 1 .append, .nargs 1 43, .add ["-h".toList], .action 2 .help]

section
attribute [local irreducible] manyValues

theorem manyValues_history : ReachableBy demoScan Disciplined manyValues := by
  unfold manyValues
  exact reachableBy_runOps .init _ (by decide +kernel)

example : ∃ s ∈ manyValues.arguments, "-p".toList ∈ s.arg.names ∧ valuesShown s.arg = " P...".toList ∧
    ∀ argv evs err, Ready demoScan manyValues argv → Line manyValues.sig manyValues.places (argv.drop 1) evs err →
      ∀ u ∈ uses s.node evs, u.2.flat.length = 43 := by
  have hr : ReachableBy demoScan KindsAccepted manyValues := manyValues_history.mono fun _ _ _ => Disciplined.kinds
  obtain ⟨s, hs, h1, h2, h3, h4, h5, h6, h7⟩ : ∃ s ∈ manyValues.arguments, "-p".toList ∈ s.arg.names ∧
      valuesShown s.arg = " P...".toList ∧
      s.arg.isPositional = false ∧ s.arg.metavar = [] ∧ s.arg.action = .append ∧ s.arg.nargs = 43 ∧ s.arg.type = .multiNumber := by
    decide +kernel
  exact ⟨s, hs, h1, h2, (C89_append_43 hr hs h3 h4 h5 (by rw [h7]; simp [TakesValues]) h6).2⟩

end

section
attribute [local irreducible] parser

/-- The positional arguments of `parserLine`: one word for `file`, shown once and without brackets; two for `rest`, which is
shown `[rest {rest}...]`. -/
example : ∃ s ∈ parser.arguments, item s.arg = "[rest {rest}...]".toList ∧ ∃ evs vals,
    Line parser.sig parser.places (parserLine.drop 1) evs none ∧ vals ∈ fills s.node evs ∧ 1 ≤ vals.flat.length := by
  obtain ⟨s, hs, h1, h2, h3, h4⟩ : ∃ s ∈ parser.arguments, item s.arg = "[rest {rest}...]".toList ∧ s.arg.isPositional = true ∧
      s.node = 8 ∧ s.arg.names.headD [] = "rest".toList := by decide +kernel
  obtain ⟨vals, hv⟩ : ∃ v, v ∈ fills 8 parserSays := ⟨.list ["k".toList, "l".toList], by decide +kernel⟩
  refine ⟨s, hs, h1, _, vals, parserLine_says, by rw [h3]; exact hv, ?_⟩
  have := C89_positional parserLine_ready hs h2 parserLine_says (by rw [h3]; exact hv)
  simp only at this
  rcases this with ⟨_, h⟩ | ⟨_, h, h'⟩ | ⟨_, h⟩ | ⟨_, _, h⟩ <;> omega

/-- `-q` is shown in brackets or used; `file` is required, hence used. -/
example : (∃ s ∈ parser.arguments, s.arg.names = ["file".toList] ∧ item s.arg = "file".toList ∧ Occurs s.node parserSays) := by
  obtain ⟨s, hs, h1, h2, h3⟩ : ∃ s ∈ parser.arguments, s.arg.names = ["file".toList] ∧ item s.arg = "file".toList ∧
    s.arg.isRequired = true := by decide +kernel
  exact ⟨s, hs, h1, h2, ((C89_brackets parserLine_ready parserLine_says parserLine_ok hs).2 h3).1⟩

/-- Executable form of a history in which `addArgument` is given new flags only. -/
def opsClean (scan : Str → Option D) : State D → List Op → Bool
  | _, [] => true
  | st, op :: ops =>
    (step scan st op).2.goesOn && (match op with | .add names => names.all fun n => !st.argumentExists n | _ => true) &&
      opsClean scan (step scan st op).1 ops

theorem reachable_clean {scan : Str → Option D} {st : State D} (h : ReachableBy scan CleanAdds st)
    (ops : List Op) (hg : opsClean scan st ops = true) : ReachableBy scan CleanAdds (runOps scan st ops) := by
  induction ops generalizing st with
  | nil => exact h
  | cons op ops ih =>
    simp only [opsClean, Bool.and_eq_true] at hg
    obtain ⟨⟨h1, h2⟩, h3⟩ := hg
    refine ih (.step op h h1 ?_) h3
    cases op with
    | add names =>
      intro n hn
      simpa using (List.all_eq_true.1 h2) n hn
    | _ => trivial

theorem parser_clean : ReachableBy demoScan CleanAdds parser := by
  unfold parser
  exact reachable_clean .init _ (by decide +kernel)

/-- `-o` and `--out` are shown as `-o, --out OUT`, and `--out=` with any text says it. -/
example (v : Str) : ∃ s ∈ parser.arguments, label s.arg = "-o, --out OUT".toList ∧
    Line parser.sig parser.places ["--out=".toList ++ v] [.option s.node false (.single v)] none := by
  obtain ⟨s, hs, h1, h2, h3, h4⟩ : ∃ s ∈ parser.arguments, label s.arg = "-o, --out OUT".toList ∧
    s.arg.isPositional = false ∧ "--out".toList ∈ s.arg.names ∧ s.arg.type = .simple := by decide +kernel
  refine ⟨s, hs, h1, ?_⟩
  have := (C89_shown_works parser_clean (by decide +kernel) (prog := "prog".toList) hs h2 h3 (by decide +kernel)
    (fun c hc => absurd (congrArg List.length hc) (by simp)) (vals := .single v) (.single v h4)
    (parser_ready (by simp [Use.tokens]) ⟨_, rfl, by decide +kernel⟩)).2.2 [.option s.node false (.single v)] none
  have h5 := this.2 ⟨rfl, rfl⟩
  simpa [Use.tokens] using h5

example : ∃ s ∈ parser.arguments, "--list".toList <:+: label s.arg := by
  have h : ∃ e, parser.sig.flag "--list".toList = some e := ⟨_, (by decide +kernel : parser.sig.flag "--list".toList = some ⟨4, .infinite, 1⟩)⟩
  obtain ⟨e, he⟩ := h
  obtain ⟨s, hs, _, _, h, _⟩ := C89_working_is_shown parser_history.reachable (by decide +kernel) he rfl
  exact ⟨s, hs, h⟩

end

end BletArgs
