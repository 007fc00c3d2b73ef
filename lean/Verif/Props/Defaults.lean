import Verif.Lemmas.Shape
import Verif.Props.Values
import Verif.Props.After
/-
C35 (absent arguments read their defaults) and the shape of the values (used by C49).
-/
namespace BletArgs
open Spec
variable {D : Type}

/-- The discipline of a history for the properties about default values: no exception of `action()`,
`nargs()` or `defaults()` was ignored, the values given to `nargs()` are below `2^64 - 2^31`, the kind of an
argument is not changed while it holds values that do not come from its `defaults()`, elements put into an argument through
its `std::vector` have the shape of its kind, and command lines have less than `2^31` tokens. -/
def Careful (st : State D) (op : Op) (r : Res Unit) : Prop :=
  match op with
  | .action ref _ => r = .ok () ∧ ∀ s, st.atObj ref = some s → s.arg.elems = [] ∨ s.arg.defaults ≠ []
  | .nargs ref n => r = .ok () ∧ n < 2 ^ 64 - 2 ^ 31 ∧ ∀ s, st.atObj ref = some s → s.arg.elems = [] ∨ s.arg.defaults ≠ []
  | .defaults _ _ => r = .ok ()
  | .edit ref items => ∀ s, st.atObj ref = some s → (SingleKind s.arg.type → items = []) ∧
      (ListKind s.arg.type → ∀ i ∈ items, i.subs = []) ∧ (GroupKind s.arg.type → ∀ i ∈ items, i.subs.length = s.arg.nargs)
  | .parse argv => argv.length < 2 ^ 31
  | _ => True

/-- The same, before the first parse, and without elements put in by the user. -/
def CarefulSetup (st : State D) (op : Op) (r : Res Unit) : Prop :=
  Careful st op r ∧ (∀ argv, op ≠ .parse argv) ∧ ∀ ref items, op ≠ .edit ref items

theorem Careful.disciplined {st : State D} {op : Op} {r : Res Unit} (h : Careful st op r) : Disciplined st op r := by
  cases op with
  | action => exact h.1
  | nargs => exact ⟨h.1, h.2.1⟩
  | _ => trivial

theorem retype_split {st : State D} {s : Slot D} {a : Argument D} (h1 : (st.retype s a).2 = .ok ()) :
    ∃ k n act, Settled ({ a with type := k, nargs := n, action := act } : Argument D) ∧
      a.retyped s.obj st.helpOption st.versionOption =
        ({ a with type := k, nargs := n, action := act } : Argument D).defaultsConstructor.1 ∧
      ({ a with type := k, nargs := n, action := act } : Argument D).defaultsConstructor.2 = .ok () := by
  have hset := settled_retyped h1
  unfold State.retype at h1
  unfold Argument.retyped at hset ⊢
  rw [typeConstructor_core] at h1 hset ⊢
  generalize tcCore _ _ _ _ _ = t at h1 hset ⊢
  cases t <;> simp only [TC.apply, if_true] at h1 hset ⊢
  case set k n act =>
    have hf := defaultsConstructor_frame ({ a with type := k, nargs := n, action := act } : Argument D)
    exact ⟨k, n, act, hset.congr hf.2.1.symm hf.2.2.2.2.1.symm, rfl, h1⟩
  case setHelp =>
    have hf := defaultsConstructor_frame ({ a with type := .help, nargs := 0 } : Argument D)
    exact ⟨.help, 0, a.action, hset.congr hf.2.1.symm hf.2.2.2.2.1.symm, rfl, h1⟩
  case setVersion =>
    have hf := defaultsConstructor_frame ({ a with type := .version, nargs := 0 } : Argument D)
    exact ⟨.version, 0, a.action, hset.congr hf.2.1.symm hf.2.2.2.2.1.symm, rfl, h1⟩
  case keep =>
    have hf := defaultsConstructor_frame a
    exact ⟨a.type, a.nargs, a.action, hset.congr hf.2.1.symm hf.2.2.2.2.1.symm, rfl, h1⟩
  all_goals cases h1

theorem defaults_shaped {a : Argument D} (h : a.nargs = 0 ∨ a.defaults = [] → Shaped a) : Shaped a.defaultsConstructor.1 := by
  unfold Argument.defaultsConstructor
  by_cases h0 : 0 < a.nargs
  · by_cases h1 : a.defaults = []
    · rw [if_neg (by simp [h1])]; exact h (.inr h1)
    · rw [if_pos (by simp [h0, List.length_pos_iff.2 h1])]
      simp only
      have flat : ∀ e ∈ (a.defaults.map dfltElem : List (Elem D)), e.subs = [] := by
        intro e he; obtain ⟨v, _, rfl⟩ := List.mem_map.1 he; rfl
      cases ht : a.type <;> simp only
      case pos | simple => split <;> exact .nil rfl
      case numberPos | number =>
        split
        · exact .nil rfl
        · exact ⟨by simp [SingleKind], fun _ => flat, by simp [GroupKind]⟩
      case infinitePos | multi | infinite | multiInfinite =>
        exact ⟨by simp [SingleKind], fun _ => flat, by simp [GroupKind]⟩
      case infiniteNumberPos | multiNumber | multiNumberInfinite =>
        split
        · exact .nil rfl
        · next hd =>
          have hdv : a.nargs ∣ a.defaults.length := Nat.dvd_of_mod_eq_zero (by simpa using hd)
          refine ⟨by simp [SingleKind], by simp [ListKind], ?_⟩
          intro _ e he
          obtain ⟨g, hg, rfl⟩ := List.mem_map.1 he
          simpa [dfltGroup] using (groupsOf_flatten h0 _ hdv).2 g hg
      all_goals exact .nil rfl
  · rw [if_neg (by simp [h0])]; exact h (.inl (by omega))

/-- What an argument holds before the first parse. -/
structure Pristine (a : Argument D) : Prop where
  single : a.elems = [] → a.argument = a.dflt
  elems : ∀ e ∈ a.elems, (e.subs = [] → e.argument = e.dflt) ∧ ∀ l ∈ e.subs, l.argument = l.dflt
  absent : a.isExist = false
  reads : 0 < a.nargs → a.defaults ≠ [] → a.toVector = some a.defaults ∧
    (Grouped a.type → ∃ gs, a.toVecVec = some gs ∧ gs.flatten = a.defaults ∧ ∀ g ∈ gs, g.length = a.nargs)

theorem Settled.takes {a : Argument D} (h : Settled a) (h1 : 0 < a.nargs) :
    TakesValues a.type ∧ ((a.type = .pos ∨ a.type = .simple) → a.nargs = 1) := by
  obtain ⟨act, n, hk⟩ := h
  revert hk h1
  generalize a.isPositional = p
  generalize a.type = t
  generalize a.nargs = m
  unfold kindOf TakesValues
  cases p <;> cases act <;> simp <;> grind

theorem Settled.valueless {a : Argument D} (h : Settled a) (h1 : a.nargs = 0) :
    a.type = .help ∨ a.type = .version ∨ a.type = .boolean ∨ a.type = .reverse := by
  obtain ⟨act, n, hk⟩ := h
  revert hk h1
  generalize a.isPositional = p
  generalize a.type = t
  generalize a.nargs = m
  unfold kindOf
  cases p <;> cases act <;> simp <;> grind

theorem defaults_defaults (a : Argument D) : a.defaultsConstructor.1.defaults = a.defaults ∧
    a.defaultsConstructor.1.isExist = a.isExist := by
  unfold Argument.defaultsConstructor
  repeat' split
  all_goals simp only
  all_goals repeat' split
  all_goals constructor <;> first | rfl | trivial

theorem defaults_pristine {a : Argument D} (hset : Settled a) (hok : a.defaultsConstructor.2 = .ok ())
    (habs : a.isExist = false)
    (h : a.nargs = 0 ∨ a.defaults = [] → (a.elems = [] → a.argument = a.dflt) ∧
      ∀ e ∈ a.elems, (e.subs = [] → e.argument = e.dflt) ∧ ∀ l ∈ e.subs, l.argument = l.dflt) :
    Pristine a.defaultsConstructor.1 := by
  have hf := defaultsConstructor_frame a
  have hd := defaults_defaults a
  by_cases h0 : a.nargs = 0 ∨ a.defaults = []
  · obtain ⟨g1, g2⟩ := h h0
    have e : a.defaultsConstructor.1 = a := by
      unfold Argument.defaultsConstructor
      rw [if_neg (by rcases h0 with h0 | h0 <;> simp [h0])]
    rw [e]
    refine ⟨g1, g2, habs, fun x y => ?_⟩
    rcases h0 with h0 | h0
    · omega
    · exact absurd h0 y
  · rw [not_or] at h0
    obtain ⟨h0, h1⟩ := h0
    have h0 : 0 < a.nargs := by omega
    have hfit : DefaultsFit a.type a.nargs a.defaults.length := by
      rcases badDefaults_cases a with ⟨_, e⟩ | ⟨hm, _⟩
      · rw [e] at hok; cases hok
      · exact Classical.byContradiction fun hc => hm ⟨h0, h1, hc⟩
    have hv := defaults_value a h0 h1 (hset.takes h0).1 hfit (hset.takes h0).2
    refine ⟨?_, ?_, by rw [hd.2, habs], fun _ _ => ?_⟩
    · unfold Argument.defaultsConstructor
      rw [if_pos (by simp [h0, List.length_pos_iff.2 h1])]
      simp only
      have hne : (a.defaults.map dfltElem : List (Elem D)) ≠ [] := by simpa using h1
      have htk := (hset.takes h0).1
      unfold TakesValues at htk
      cases ht : a.type <;> simp only <;> rw [ht] at hfit htk <;> simp only [DefaultsFit] at hfit
      case pos | simple => rw [if_neg (by simp [hfit])]; intro _; rfl
      case numberPos | number => rw [if_neg (by simp [hfit])]; intro he; exact absurd he hne
      case infinitePos | multi | infinite | multiInfinite => intro he; exact absurd he hne
      case infiniteNumberPos | multiNumber | multiNumberInfinite =>
        rw [if_neg (by simp [Nat.mod_eq_zero_of_dvd hfit])]
        intro he
        have hg := (groupsOf_flatten h0 _ hfit).1
        rw [List.map_eq_nil_iff.1 he] at hg
        exact absurd hg.symm h1
      all_goals exfalso; simp at htk
    · unfold Argument.defaultsConstructor
      rw [if_pos (by simp [h0, List.length_pos_iff.2 h1])]
      simp only
      have flat : ∀ e ∈ (a.defaults.map dfltElem : List (Elem D)),
          (e.subs = [] → e.argument = e.dflt) ∧ ∀ l ∈ e.subs, l.argument = l.dflt := by
        intro e he; obtain ⟨v, _, rfl⟩ := List.mem_map.1 he; exact ⟨fun _ => rfl, fun l hl => by cases hl⟩
      cases ht : a.type <;> simp only <;> rw [ht] at hfit <;> simp only [DefaultsFit] at hfit
      case pos | simple => rw [if_neg (by simp [hfit])]; intro e he; cases he
      case numberPos | number => rw [if_neg (by simp [hfit])]; exact flat
      case infinitePos | multi | infinite | multiInfinite => exact flat
      case infiniteNumberPos | multiNumber | multiNumberInfinite =>
        rw [if_neg (by simp [Nat.mod_eq_zero_of_dvd hfit])]
        intro e he
        obtain ⟨g, hg, rfl⟩ := List.mem_map.1 he
        have hgl := (groupsOf_flatten h0 _ hfit).2 g hg
        refine ⟨fun hs => ?_, fun l hl => ?_⟩
        · simp only [dfltGroup, List.map_eq_nil_iff] at hs
          rw [hs] at hgl; simp at hgl; omega
        · obtain ⟨v, _, rfl⟩ := List.mem_map.1 hl; rfl
      all_goals exact fun e he => (by cases he)
    · rw [hd.1, hf.2.1, hf.2.2.2.2.1]
      exact hv

/-- Histories that keep the shapes. -/
theorem ReachableBy.shaped {scan : Str → Option D} {st : State D} (h : ReachableBy scan Careful st) :
    ∀ s ∈ st.arguments, Shaped s.arg := by
  have hsmall := fun (st : State D) (h : ReachableBy scan Careful st) =>
    (h.mono fun _ _ _ => Careful.disciplined).small
  have hset := fun (st : State D) (h : ReachableBy scan Careful st) =>
    (h.mono fun _ _ _ hc => (Careful.disciplined hc).kinds).settled
  induction h with
  | init => intro s hs; cases hs
  | @step st op hr hg hc ih =>
    have hi := hr.reachable.inv
    intro s' hs'
    by_cases hp : ∃ argv, op = .parse argv
    · obtain ⟨argv, rfl⟩ := hp
      have := parse_all (shaped_keeps scan (argv := argv) hc) hi (fun s hs => ⟨ih s hs, hsmall st hr s hs⟩)
      exact (this s' hs').1
    by_cases hed : ∃ ref items, op = .edit ref items
    · obtain ⟨ref, items, rfl⟩ := hed
      change s' ∈ (st.edit scan ref items).1.arguments at hs'
      unfold State.edit State.withRef at hs'
      cases hat : st.atObj ref with
      | none => rw [hat] at hs'; exact ih s' hs'
      | some s =>
        rw [hat] at hs'
        obtain ⟨t, ht, rfl⟩ := List.mem_map.1 hs'
        split
        · rename_i e
          obtain rfl := eq_of_node hi (State.atObj_some hat).1 ht (by simpa using e)
          obtain ⟨c1, c2, c3⟩ := hc t hat
          refine ⟨fun hk => by simp [c1 hk], fun hk e he => ?_, fun hk e he => ?_⟩
          all_goals
            obtain ⟨i, hi', rfl⟩ := List.mem_map.1 he
            first
            | simp [NewElem.elem, c2 hk i hi']
            | simp [NewElem.elem, c3 hk i hi']
        · exact ih t ht
    rcases step_slots hi op hg hs' with ⟨s, hm, h⟩ | h
    · have h0 := ih s hm
      have hset0 := hset st hr s hm
      cases op with
      | parse argv => exact absurd ⟨argv, rfl⟩ hp
      | edit ref items => exact absurd ⟨ref, items, rfl⟩ hed
      | action ref act =>
        simp only [ArgChange] at h
        split at h
        · rename_i e
          have hat : st.atObj ref = some s := e ▸ State.atObj_of_mem hi.objs hm
          obtain ⟨hc, hc2⟩ := hc
          simp only [BletArgs.step] at hc
          rw [action_eq hat] at hc
          rw [h]
          obtain ⟨k, n, ac, g1, g2, g3⟩ := retype_split hc
          simp only at g2 ⊢
          rw [g2]
          refine defaults_shaped ?_
          rintro (hn | hn)
          · simp only at hn
            have := g1.valueless hn
            simp only at this
            refine ⟨?_, ?_, ?_⟩ <;> intro hk <;> exfalso <;> simp only [SingleKind, ListKind, GroupKind] at hk <;> grind
          · simp only at hn
            rcases hc2 s hat with e | e
            · exact .nil e
            · exact absurd hn e
        · rw [h]; exact h0
      | nargs ref m =>
        simp only [ArgChange] at h
        split at h
        · rename_i e
          have hat : st.atObj ref = some s := e ▸ State.atObj_of_mem hi.objs hm
          obtain ⟨hc, _, hc2⟩ := hc
          simp only [BletArgs.step] at hc
          unfold State.nargs State.withRef at hc
          rw [hat] at hc
          rw [h]
          obtain ⟨k, n, ac, g1, g2, g3⟩ := retype_split hc
          simp only at g2 ⊢
          rw [g2]
          refine defaults_shaped ?_
          rintro (hn | hn)
          · simp only at hn
            have := g1.valueless hn
            simp only at this
            refine ⟨?_, ?_, ?_⟩ <;> intro hk <;> exfalso <;> simp only [SingleKind, ListKind, GroupKind] at hk <;> grind
          · simp only at hn
            rcases hc2 s hat with e | e
            · exact .nil e
            · exact absurd hn e
        · rw [h]; exact h0
      | defaults ref ds =>
        simp only [ArgChange] at h
        split at h
        · rw [h]
          exact defaults_shaped (a := { s.arg with defaults := ds }) (fun _ => h0.congr rfl rfl rfl)
        · rw [h]; exact h0
      | flag ref f | remove ns =>
        simp only [ArgChange] at h
        obtain ⟨ms, rfl⟩ := h
        exact h0.congr rfl rfl rfl
      | required ref _ | help ref _ | metavar ref _ | behave ref _ _ | valid ref _ _ | dest ref _ =>
        simp only [ArgChange] at h
        split at h <;> (rw [h]; exact h0.congr rfl rfl rfl)
      | _ => simp only [ArgChange] at h; rw [h]; exact h0
    · cases op with
      | parse argv => exact absurd ⟨argv, rfl⟩ hp
      | add names =>
        simp only [ArgFresh] at h
        rcases h.2.2 with ⟨n, e⟩ | ⟨fs, e⟩ <;> rw [e] <;> exact .nil rfl
      | _ => exact h.elim

theorem Pristine.congr {a b : Argument D} (h : Pristine a) (h1 : b.type = a.type) (h2 : b.nargs = a.nargs)
    (h3 : b.elems = a.elems) (h4 : b.argument = a.argument) (h5 : b.dflt = a.dflt) (h6 : b.isExist = a.isExist)
    (h7 : b.defaults = a.defaults ∨ b.defaults = []) : Pristine b := by
  refine ⟨by rw [h3, h4, h5]; exact h.single, by rw [h3]; exact h.elems, by rw [h6]; exact h.absent, ?_⟩
  intro hn hd
  have hv := toVector_of h1 h4 (by rw [h3]) (by rw [h3])
  rcases h7 with h7 | h7
  · rw [h7] at hd ⊢
    rw [hv.1, hv.2, h1, h2]
    exact h.reads (h2 ▸ hn) hd
  · exact absurd h7 hd

theorem ReachableBy.pristine {scan : Str → Option D} {st : State D} (h : ReachableBy scan CarefulSetup st) :
    ∀ s ∈ st.arguments, Pristine s.arg := by
  have hset := fun (st : State D) (h : ReachableBy scan CarefulSetup st) =>
    (h.mono fun _ _ _ hc => (Careful.disciplined hc.1).kinds).settled
  induction h with
  | init => intro s hs; cases hs
  | @step st op hr hg hc ih =>
    have hi := hr.reachable.inv
    obtain ⟨hc, hp, he⟩ := hc
    intro s' hs'
    rcases step_slots hi op hg hs' with ⟨s, hm, h⟩ | h
    · have h0 := ih s hm
      have hset0 := hset st hr s hm
      cases op with
      | parse argv => exact absurd rfl (hp argv)
      | action ref act =>
        simp only [ArgChange] at h
        split at h
        · rename_i e
          have hat : st.atObj ref = some s := e ▸ State.atObj_of_mem hi.objs hm
          obtain ⟨hc, hc2⟩ := hc
          simp only [BletArgs.step] at hc
          rw [action_eq hat] at hc
          rw [h]
          obtain ⟨k, n, ac, g1, g2, g3⟩ := retype_split hc
          simp only at g2 ⊢
          rw [g2]
          exact defaults_pristine g1 g3 h0.absent (fun _ => ⟨h0.single, h0.elems⟩)
        · rw [h]; exact h0
      | nargs ref m =>
        simp only [ArgChange] at h
        split at h
        · rename_i e
          have hat : st.atObj ref = some s := e ▸ State.atObj_of_mem hi.objs hm
          obtain ⟨hc, _, hc2⟩ := hc
          simp only [BletArgs.step] at hc
          unfold State.nargs State.withRef at hc
          rw [hat] at hc
          rw [h]
          obtain ⟨k, n, ac, g1, g2, g3⟩ := retype_split hc
          simp only at g2 ⊢
          rw [g2]
          exact defaults_pristine g1 g3 h0.absent (fun _ => ⟨h0.single, h0.elems⟩)
        · rw [h]; exact h0
      | defaults ref ds =>
        simp only [ArgChange] at h
        split at h
        · rename_i e
          have hat : st.atObj ref = some s := e ▸ State.atObj_of_mem hi.objs hm
          simp only [Careful, BletArgs.step] at hc
          rw [setDefaults_eq hat] at hc
          rw [h]
          exact defaults_pristine (a := { s.arg with defaults := ds }) (hset0.congr rfl rfl) hc h0.absent
            (fun _ => ⟨h0.single, h0.elems⟩)
        · rw [h]; exact h0
      | flag ref f | remove ns =>
        simp only [ArgChange] at h
        obtain ⟨ms, rfl⟩ := h
        exact h0.congr rfl rfl rfl rfl rfl rfl (.inl rfl)
      | edit ref items => exact absurd rfl (he ref items)
      | required ref _ | help ref _ | metavar ref _ | behave ref _ _ | valid ref _ _ =>
        simp only [ArgChange] at h
        split at h <;> (rw [h]; exact h0.congr rfl rfl rfl rfl rfl rfl (.inl rfl))
      | dest ref _ =>
        simp only [ArgChange] at h
        split at h
        · rw [h]; exact h0.congr rfl rfl rfl rfl rfl rfl (.inr rfl)
        · rw [h]; exact h0
      | _ => simp only [ArgChange] at h; rw [h]; exact h0
    · cases op with
      | parse argv => exact absurd rfl (hp argv)
      | add names =>
        simp only [ArgFresh] at h
        rcases h.2.2 with ⟨n, e⟩ | ⟨fs, e⟩ <;> rw [e] <;>
          exact ⟨fun _ => rfl, fun e he => (by cases he), rfl, fun _ hd => absurd rfl hd⟩
      | _ => exact h.elim

/-! ### Reading an absent argument -/

theorem getString_congr {a b : Argument D} (h1 : b.type = a.type) (h2 : b.isExist = a.isExist)
    (h3 : a.elems = [] → b.argument = a.argument)
    (h4 : b.elems.map (fun e => (e.subs.map (·.argument), if e.subs.isEmpty then e.argument else [])) =
      a.elems.map (fun e => (e.subs.map (·.argument), if e.subs.isEmpty then e.argument else []))) :
    b.getString = a.getString := by
  have key : ∀ l : List (Elem D), (l.map fun e =>
      if e.subs.isEmpty then e.argument else "(".toList ++ joinComma (e.subs.map (·.argument)) ++ ")".toList) =
      (l.map (fun e => (e.subs.map (·.argument), if e.subs.isEmpty then e.argument else []))).map
        (fun p => if p.1.isEmpty then p.2 else "(".toList ++ joinComma p.1 ++ ")".toList) := by
    intro l
    rw [List.map_map]
    refine List.map_congr_left fun e _ => ?_
    simp only [Function.comp, List.isEmpty_map]
    split <;> simp_all
  have he : b.elems.isEmpty = a.elems.isEmpty := by
    have := congrArg List.isEmpty h4
    simpa using this
  have hl : (if b.elems.isEmpty then b.argument else joinComma (b.elems.map fun e =>
      if e.subs.isEmpty then e.argument else "(".toList ++ joinComma (e.subs.map (·.argument)) ++ ")".toList)) =
      (if a.elems.isEmpty then a.argument else joinComma (a.elems.map fun e =>
      if e.subs.isEmpty then e.argument else "(".toList ++ joinComma (e.subs.map (·.argument)) ++ ")".toList)) := by
    rw [he]
    split
    · rename_i e; exact h3 (List.isEmpty_iff.1 e)
    · rw [key, key, h4]
  unfold Argument.getString
  rw [h1, h2]
  split
  · rfl
  · rfl
  · exact hl

theorem toNumber_getString (scan : Str → Option D) (a : Argument D) : (a.toNumber scan).getString = a.getString := by
  obtain ⟨h1, _, h3, h4, _, _⟩ := toNumber_marks scan a
  refine getString_congr h4 h1 (fun _ => h3) ?_
  unfold Argument.toNumber
  split
  · rfl
  · split
    · rfl
    · simp only [List.map_map]
      refine List.map_congr_left fun e _ => ?_
      simp only [Function.comp]
      split <;> simp_all

theorem Pristine.reset_reads {a : Argument D} (h : Pristine a) (hs : Shaped a) :
    a.reset.toVector = a.toVector ∧ a.reset.toVecVec = a.toVecVec ∧ a.reset.getString = a.getString := by
  have hsubs : ∀ e ∈ a.elems, (e.subs.map fun l => ({ l with argument := l.dflt, num := none } : Leaf D)).map (·.argument) =
      e.subs.map (·.argument) := by
    intro e he
    rw [List.map_map]
    exact List.map_congr_left fun l hl => ((h.elems e he).2 l hl).symm
  have h3 : a.reset.elems.map (fun e => e.subs.map (·.argument)) = a.elems.map (fun e => e.subs.map (·.argument)) := by
    unfold Argument.reset
    simp only [List.map_map]
    exact List.map_congr_left fun e he => hsubs e he
  refine ⟨?_, ?_, ?_⟩
  · have h4 : (a.reset.elems.flatMap fun e => e.subs.map (·.argument)) = a.elems.flatMap fun e => e.subs.map (·.argument) := by
      rw [List.flatMap_def, List.flatMap_def, h3]
    have h5 : ListKind a.type → a.reset.elems.map (·.argument) = a.elems.map (·.argument) := by
      intro hk
      unfold Argument.reset
      simp only [List.map_map]
      exact List.map_congr_left fun e he => ((h.elems e he).1 (hs.list hk e he)).symm
    have h6 : SingleKind a.type → a.reset.argument = a.argument := fun hk => (h.single (hs.single hk)).symm
    have ht : a.reset.type = a.type := rfl
    unfold Argument.toVector
    rw [ht, h4]
    unfold ListKind SingleKind at *
    cases hk : a.type <;> simp only <;> first | rfl | rw [h6 (by simp [hk])] | rw [h5 (by simp [hk])]
  · have ht : a.reset.type = a.type := rfl
    unfold Argument.toVecVec
    rw [ht, h3]
  · refine getString_congr rfl h.absent.symm (fun he => (h.single he).symm) ?_
    unfold Argument.reset
    simp only [List.map_map]
    refine List.map_congr_left fun e he => ?_
    simp only [Function.comp]
    rw [hsubs e he, List.isEmpty_map]
    congr 1
    split
    · rename_i hem; exact ((h.elems e he).1 (List.isEmpty_iff.1 hem)).symm
    · rfl

/-- An argument that does not occur on the command line is only reset and converted. -/
theorem absent_result {scan : Str → Option D} {st : State D} {argv : List Str} (h : Ready scan st argv)
    {evs : List Event} (hl : Line st.sig st.places (argv.drop 1) evs none)
    (hok : (st.parseArguments scan argv).2 = .ok ()) {s : Slot D} (hs : s ∈ st.arguments)
    (habs : ¬Occurs s.node evs) :
    (st.parseArguments scan argv).1.atObj s.obj = some { s with arg := s.arg.reset.toNumber scan } := by
  rw [parse_atObj h hl hok hs]
  have hn : uses s.node evs = [] ∧ fills s.node evs = [] := by
    unfold Occurs at habs
    rw [not_or] at habs
    exact ⟨Classical.not_not.1 habs.1, Classical.not_not.1 habs.2⟩
  have e : s.arg.afterTokens s.node evs = s.arg.reset := by
    cases hp : s.arg.isPositional with
    | false => rw [afterTokens_option h.inv hs hp hl, hn.1]; rfl
    | true =>
      rcases afterTokens_positional h.inv hs hp hl with ⟨_, e⟩ | ⟨v, hv, _⟩
      · exact e
      · rw [hn.2] at hv; cases hv
  rw [e]
  congr 2
  unfold Argument.finished Argument.finish
  have : s.arg.reset.runValid = (s.arg.reset, .ok ()) := by
    unfold Argument.runValid
    cases hv : s.arg.reset.valid with
    | none => rfl
    | some v => simp only; rw [if_neg (by simp [Argument.reset])]
  rw [this]

/-- C35. On the first successful parse of a carefully set up parser, an argument that does not occur reads
(as string, list, list of lists) as it did before the parse; if it has `defaults()`, those values are what it
reads as a list, and a grouped argument reads them in groups of `nargs`. -/
theorem C35_absent_reads_defaults {scan : Str → Option D} {st : State D} (hr : ReachableBy scan CarefulSetup st)
    {argv : List Str} (h : Ready scan st argv) {evs : List Event}
    (hl : Line st.sig st.places (argv.drop 1) evs none)
    (hok : (st.parseArguments scan argv).2 = .ok ()) {s : Slot D} (hs : s ∈ st.arguments)
    (habs : ¬Occurs s.node evs) :
    ∃ s', (st.parseArguments scan argv).1.atObj s.obj = some s' ∧
      s'.arg.getString = s.arg.getString ∧ s'.arg.toVector = s.arg.toVector ∧ s'.arg.toVecVec = s.arg.toVecVec ∧
      (0 < s.arg.nargs → s.arg.defaults ≠ [] → s'.arg.toVector = some s.arg.defaults ∧
        (Grouped s.arg.type → ∃ gs, s'.arg.toVecVec = some gs ∧ gs.flatten = s.arg.defaults ∧
          ∀ g ∈ gs, g.length = s.arg.nargs)) := by
  have hp := hr.pristine s hs
  have hsh := (hr.mono fun _ _ _ hc => hc.1).shaped s hs
  obtain ⟨h1, h2, h3⟩ := hp.reset_reads hsh
  have hv := toNumber_vectors scan s.arg.reset
  refine ⟨_, absent_result h hl hok hs habs, ?_, ?_, ?_, ?_⟩
  · simp only; rw [toNumber_getString, h3]
  · simp only; rw [hv.1, h1]
  · simp only; rw [hv.2, h2]
  · intro hn hd
    simp only
    rw [hv.1, hv.2, h1, h2]
    exact hp.reads hn hd

/-! ### Witnesses -/

/-- Executable form of a careful history. -/
def opsCareful (scan : Str → Option D) : State D → List Op → Bool
  | _, [] => true
  | st, op :: ops =>
    (let ok := match (step scan st op).2 with | .ok () => true | _ => false
     let holds := fun ref => match st.atObj ref with | some s => s.arg.elems.isEmpty || !s.arg.defaults.isEmpty | none => true
     match op with
      | .action ref _ => ok && holds ref
      | .nargs ref n => decide (n < 2 ^ 64 - 2 ^ 31) && (ok && holds ref)
      | .defaults _ _ => ok
      | .parse _ | .edit .. => false
      | _ => (step scan st op).2.goesOn) && opsCareful scan (step scan st op).1 ops

theorem careful_runOps {scan : Str → Option D} {st : State D} (h : ReachableBy scan CarefulSetup st)
    (ops : List Op) (hg : opsCareful scan st ops = true) : ReachableBy scan CarefulSetup (runOps scan st ops) := by
  induction ops generalizing st with
  | nil => exact h
  | cons op ops ih =>
    simp only [opsCareful, Bool.and_eq_true] at hg
    have okOf : (match (step scan st op).2 with | .ok () => true | _ => false) = true →
        (step scan st op).2 = .ok () := by
      intro e
      split at e
      · assumption
      · cases e
    have holdsOf : ∀ ref, (match st.atObj ref with
        | some s => s.arg.elems.isEmpty || !s.arg.defaults.isEmpty | none => true) = true →
        ∀ s, st.atObj ref = some s → s.arg.elems = [] ∨ s.arg.defaults ≠ [] := by
      intro ref e s hs
      rw [hs] at e
      simpa using e
    have key : (step scan st op).2.goesOn = true ∧ CarefulSetup st op (step scan st op).2 := by
      have hg := hg.1
      cases op with
      | action ref a =>
        simp only [Bool.and_eq_true] at hg
        have e := okOf hg.1
        exact ⟨by rw [e]; rfl, ⟨e, holdsOf ref hg.2⟩, ⟨fun _ e => (by cases e), fun _ _ e => (by cases e)⟩⟩
      | nargs ref n =>
        simp only [Bool.and_eq_true, decide_eq_true_eq] at hg
        have e := okOf hg.2.1
        exact ⟨by rw [e]; rfl, ⟨e, hg.1, holdsOf ref hg.2.2⟩, ⟨fun _ e => (by cases e), fun _ _ e => (by cases e)⟩⟩
      | defaults ref ds =>
        have e := okOf hg
        exact ⟨by rw [e]; rfl, e, ⟨fun _ e => (by cases e), fun _ _ e => (by cases e)⟩⟩
      | parse argv => cases hg
      | edit ref items => cases hg
      | _ => exact ⟨hg, trivial, ⟨fun _ e => (by cases e), fun _ _ e => (by cases e)⟩⟩
    exact ih (.step op h key.1 key.2) hg.2

/-- A parser with default values of all shapes. -/
def defaultsOps : List Op :=
  [.add ["-o".toList, "--out".toList], .defaults 0 ["x".toList],
   .add ["-g".toList], .nargs 1 2, .action 1 .append, .defaults 1 ["a".toList, "b".toList, "c".toList, "d".toList],
   .add ["-h".toList], .action 2 .help,
   .add ["rest".toList], .nargs 3 43, .defaults 3 ["m".toList, "n".toList],
   .dest 3 ⟨0, .vector, false, true, fun _ => none⟩]

def defaultsParser : State Unit := runOps demoScan State.init defaultsOps

theorem defaultsParser_careful : ReachableBy demoScan CarefulSetup defaultsParser :=
  careful_runOps .init _ (by decide +kernel)

theorem defaultsParser_ready : Ready demoScan defaultsParser ["prog".toList] :=
  .of_history (defaultsParser_careful.mono fun _ _ _ h => h.1.disciplined) (by decide +kernel) (by decide)
    ⟨"prog".toList, rfl, by decide +kernel⟩

/-- The hypotheses of `C35_absent_reads_defaults` are met: all the arguments are absent and three of them have
values. -/
example : ReachableBy demoScan CarefulSetup defaultsParser ∧ Ready demoScan defaultsParser ["prog".toList] ∧
    Line defaultsParser.sig defaultsParser.places (["prog".toList].drop 1) [] none ∧
    (defaultsParser.parseArguments demoScan ["prog".toList]).2 = .ok () ∧
    (defaultsParser.arguments.map fun s => (s.node, s.arg.toVector)) =
      [(1, some ["a".toList, "b".toList, "c".toList, "d".toList]), (2, none), (0, some ["x".toList]),
       (3, some ["m".toList, "n".toList])] :=
  ⟨defaultsParser_careful, defaultsParser_ready, .whole (fun _ h => (by cases h)) (.nil _), by decide +kernel,
    by decide +kernel⟩

/-- Why the kind must not be changed under values that no longer come from `defaults()`: an option of two values
with defaults, whose defaults are then emptied and which becomes a single-value option, reads nothing before the
parse and the stale text `a, b` after it. -/
theorem C35_stale_default :
    let st : State Unit := runOps demoScan State.init
      [.add ["-o".toList], .nargs 0 2, .defaults 0 ["a".toList, "b".toList], .defaults 0 [], .nargs 0 1];
    (st.atObj 0).map (fun s => (s.arg.type, s.arg.toVector)) = some (.simple, some [[]]) ∧
    (((st.parseArguments demoScan ["prog".toList]).1.atObj 0).map fun s => (s.arg.type, s.arg.toVector)) =
      some (.simple, some ["a, b".toList]) := by
  decide +kernel

/-- C35 is about the first parse: a value given on the first command line is gone on the second one, but the
default of a list is not restored (the list keeps an empty element). -/
theorem C35_only_first_parse :
    let st := runOps demoScan defaultsParser [.parse (["prog", "r"].map String.toList)];
    ((st.parseArguments demoScan ["prog".toList]).1.atObj 4).map (fun s => s.arg.toVector) =
      some (some ["m".toList, "n".toList, []]) := by
  decide +kernel

/-! ### C49 for careful histories -/

/-- C49, without hypothesis on the shape: for careful histories the destinations receive exactly the strings or
groups of the argument. -/
theorem C49_vector_careful {scan : Str → Option D} {st : State D} (hr : ReachableBy scan Careful st) {argv : List Str}
    (h : Ready scan st argv) (hlen : argv.length < 2 ^ 31)
    {evs : List Event} (hl : Line st.sig st.places (argv.drop 1) evs none)
    (hok : (st.parseArguments scan argv).2 = .ok ()) {s : Slot D} (hs : s ∈ st.arguments)
    {d : Dest} (hd : s.arg.dest = some d) (hown : OwnSlot st s d) (hc : d.custom = false) :
    ∃ s' log, (st.parseArguments scan argv).1.atObj s.obj = some s' ∧
      (st.parseArguments scan argv).1.destLog = st.destLog ++ log ∧
      (ListKind s.arg.type → ∀ vs, s'.arg.toVector = some vs → vs ≠ [] →
        (d.kind = .vector → writesTo d.slot log = vs.map fun v => .append d.slot (.temp v)) ∧
        (d.kind = .vecvec → writesTo d.slot log = vs.map fun v => .appendVec d.slot [.temp v])) ∧
      (GroupKind s.arg.type → ∀ gs, s'.arg.toVecVec = some gs → gs ≠ [] →
        (d.kind = .vector → writesTo d.slot log = gs.flatten.map fun v => .append d.slot (.temp v)) ∧
        (d.kind = .vecvec → writesTo d.slot log = gs.map fun g => .appendVec d.slot (g.map .temp))) ∧
      (SingleKind s.arg.type → ∀ v, s'.arg.toVector = some [v] →
        (d.kind = .vector → writesTo d.slot log = [.append d.slot (.str v)]) ∧
        (d.kind = .vecvec → writesTo d.slot log = [.appendVec d.slot [.str v]])) := by
  have hr' : ReachableBy scan Careful (st.parseArguments scan argv).1 :=
    .step (.parse argv) hr (by show (st.parseArguments scan argv).2.goesOn = true; rw [hok]; rfl) hlen
  obtain ⟨s', log, h1, h2, h3, h4, h5⟩ := C49_vector h hl hok hs hd hown hc
  have hsh := hr'.shaped s' (State.atObj_some h1).1
  have hty : s'.arg.type = s.arg.type := by
    have := parse_atObj h hl hok hs
    rw [h1] at this
    rw [Option.some.inj this]
    simp only
    rw [finished_type]
    exact (congrArg (fun x : Argument D => x.type) (afterTokens_config s.node evs s.arg) :)
  refine ⟨s', log, h1, h2, fun hk => h4 hk hsh, fun hk => h5 hk hsh, ?_⟩
  intro hk v hv
  have he := hsh.single (hty ▸ hk)
  have := h3 he
  have hsv : s'.arg.singleValue = .str v := by
    unfold Argument.toVector at hv
    unfold Argument.singleValue
    rw [hty] at hv ⊢
    rcases hk with e | e <;> rw [e] at hv ⊢ <;> simp_all
  rw [hsv] at this
  exact this

end BletArgs
