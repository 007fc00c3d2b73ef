import Verif.Lemmas.TypeCore
import Verif.Props.Registry2
import Verif.Lemmas.Slots
import Verif.Spec.Outcome
/-
C14, C15, C17: kinds of arguments, repeated settings, default values.
-/
namespace BletArgs
open Spec
variable {D : Type}

/-- What the user sees of the kind of the argument behind a reference. -/
def State.kindAt (st : State D) (ref : Nat) : Option (Ty × Nat) :=
  (st.atObj ref).map fun s => (s.arg.type, s.arg.nargs)

/-- `st'` differs from `st`, as far as arguments are concerned, only in the argument behind `ref`. -/
def OnlyChanges (st st' : State D) (ref : Nat) : Prop :=
  st'.byName = st.byName ∧ st'.arguments.length = st.arguments.length ∧
  ∀ (i : Nat) (s s' : Slot D), st.arguments[i]? = some s → st'.arguments[i]? = some s' →
    s'.node = s.node ∧ s'.obj = s.obj ∧ (s.obj ≠ ref → s' = s)

theorem atObj_updNode {st st' : State D} {full : Prop} (hi : GInv full st) {ref : Nat} {s : Slot D} (h : st.atObj ref = some s)
    {a : Argument D} (e : st'.arguments = updNode st.arguments s.node fun _ => a) :
    st'.atObj ref = some { s with arg := a } := by
  obtain ⟨hs, ho⟩ := State.atObj_some h
  have hm : ({ s with arg := a } : Slot D) ∈ st'.arguments := by
    rw [e]
    exact List.mem_map.2 ⟨s, hs, by simp⟩
  have hn : (st'.arguments.map (·.obj)).Nodup := by
    have : st'.arguments.map (·.obj) = st.arguments.map (·.obj) := by
      rw [e]; unfold updNode; rw [List.map_map]
      refine List.map_congr_left fun t _ => ?_
      simp only [Function.comp_def]; split <;> rfl
    rw [this]; exact hi.objs
  have := State.atObj_of_mem hn hm
  rw [← ho]; exact this

theorem onlyChanges_updNode {st st' : State D} {full : Prop} (hi : GInv full st) {ref : Nat} {s : Slot D} (h : st.atObj ref = some s)
    {f : Argument D → Argument D} (e : st'.arguments = updNode st.arguments s.node f) (hb : st'.byName = st.byName) :
    OnlyChanges st st' ref := by
  obtain ⟨hs, ho⟩ := State.atObj_some h
  refine ⟨hb, ?_, ?_⟩
  · rw [e]; unfold updNode; simp
  · intro i t t' h1 h2
    rw [e] at h2
    unfold updNode at h2
    rw [List.getElem?_map, h1] at h2
    simp only [Option.map_some, Option.some.injEq] at h2
    subst h2
    refine ⟨by split <;> rfl, by split <;> rfl, fun hne => ?_⟩
    split
    · rename_i hc
      have := eq_of_node hi hs (List.mem_of_getElem? h1) (by simpa using hc)
      rw [this] at hne; exact absurd ho hne
    · rfl

/-- The default values do not fit the kind of argument. -/
def Misfit (kind : Ty) (nargs : Nat) (defaults : List Str) : Prop :=
  0 < nargs ∧ defaults ≠ [] ∧ ¬DefaultsFit kind nargs defaults.length

theorem badDefaults_cases (a : Argument D) :
    (Misfit a.type a.nargs a.defaults ∧ a.defaultsConstructor.2 = .throw a.badDefaults) ∨
    (¬Misfit a.type a.nargs a.defaults ∧ a.defaultsConstructor.2 = .ok ()) := by
  unfold Misfit Argument.defaultsConstructor
  by_cases h0 : 0 < a.nargs
  · by_cases h1 : a.defaults = []
    · right; simp [h1]
    · have h2 : 0 < a.defaults.length := List.length_pos_iff.2 h1
      have hb : (decide (a.nargs > 0) && decide (a.defaults.length > 0)) = true := by simp [h0, h2]
      rw [if_pos hb]
      simp only [h0, true_and, ne_eq, h1, not_false_eq_true]
      unfold DefaultsFit
      cases ht : a.type <;> simp only [not_true_eq_false, not_false_eq_true, and_true,
        false_and, false_or]
      all_goals first
        | trivial
        | (by_cases hl : a.defaults.length = a.nargs
           · right; simp [hl]
           · left; simp [hl, Argument.badDefaults, Argument.front])
        | (by_cases hl : a.nargs ∣ a.defaults.length
           · right; simp [hl, Nat.mod_eq_zero_of_dvd hl]
           · left
             have : a.defaults.length % a.nargs ≠ 0 := fun e => hl (Nat.dvd_of_mod_eq_zero e)
             simp [hl, this, Argument.badDefaults, Argument.front])
        | skip
  · right
    simp [h0]

/-- How setting the kind of the argument `s` (with settings already changed to `a`) ends and what it leaves. -/
theorem retype_outcome {st : State D} {full : Prop} (hi : GInv full st) {ref : Nat} {s : Slot D} (h : st.atObj ref = some s)
    (a : Argument D) (hn : a.names = s.arg.names) :
    match kindOf a.isPositional a.action a.nargs with
    | none => (st.retype s a).2 = .throw ⟨.argument, s.arg.front,
        "positional argument cannot use with this action or this nargs".toList⟩
    | some (k, n) =>
      (k = .help ∧ st.helpOption ≠ none ∧ st.helpOption ≠ some ref ∧
        (st.retype s a).2 = .throw ⟨.argument, s.arg.front, "help action already defined".toList⟩) ∨
      (k = .version ∧ st.versionOption ≠ none ∧ st.versionOption ≠ some ref ∧
        (st.retype s a).2 = .throw ⟨.argument, s.arg.front, "version action already defined".toList⟩) ∨
      (Misfit k n a.defaults ∧ (st.retype s a).1.kindAt ref = some (k, n) ∧
        (st.retype s a).2 = .throw ⟨.argument, s.arg.front,
          "invalid number of argument with number of default argument".toList⟩) ∨
      (¬Misfit k n a.defaults ∧ (st.retype s a).1.kindAt ref = some (k, n) ∧
        (k = .help → (st.helpOption = none ∨ st.helpOption = some ref) ∧
          (st.retype s a).1.helpOption = some ref) ∧
        (k = .version → (st.versionOption = none ∨ st.versionOption = some ref) ∧
          (st.retype s a).1.versionOption = some ref) ∧
        (st.retype s a).2 = .ok ()) := by
  obtain ⟨hs, ho⟩ := State.atObj_some h
  have hfr : a.front = s.arg.front := by unfold Argument.front; rw [hn]
  have hat := atObj_updNode hi h (st' := (st.retype s a).1)
    (a := a.retyped s.obj st.helpOption st.versionOption) (by rw [retype_eq])
  have hk := tcCore_kind a.isPositional a.action a.nargs (st.helpOption == none || st.helpOption == some s.obj)
    (st.versionOption == none || st.versionOption == some s.obj)
  have hcore := typeConstructor_core s.obj st.helpOption st.versionOption a
  -- a generic continuation for the cases where the kind is set
  have fin : ∀ (a1 : Argument D) (hh vv : Option Nat) (k : Ty) (n : Nat),
      a.typeConstructor s.obj st.helpOption st.versionOption = (a1, hh, vv, .ok ()) →
      a1.type = k → a1.nargs = n → a1.defaults = a.defaults → a1.names = a.names →
      (Misfit k n a.defaults ∧ (st.retype s a).1.kindAt ref = some (k, n) ∧
        (st.retype s a).2 = .throw ⟨.argument, s.arg.front,
          "invalid number of argument with number of default argument".toList⟩) ∨
      (¬Misfit k n a.defaults ∧ (st.retype s a).1.kindAt ref = some (k, n) ∧
        (st.retype s a).1.helpOption = hh ∧ (st.retype s a).1.versionOption = vv ∧
        (st.retype s a).2 = .ok ()) := by
    intro a1 hh vv k n e ek en ed enm
    have e2 : (st.retype s a).2 = a1.defaultsConstructor.2 := by unfold State.retype; rw [e]
    have hka : (st.retype s a).1.kindAt ref = some (k, n) := by
      unfold State.kindAt
      rw [hat]
      have hr : a.retyped s.obj st.helpOption st.versionOption = a1.defaultsConstructor.1 := by
        unfold Argument.retyped; rw [e]; simp
      have hd := defaultsConstructor_frame a1
      simp only [Option.map_some, hr, hd.2.1, hd.2.2.2.2.1, ek, en]
    have hb := badDefaults_cases a1
    rw [ek, en, ed] at hb
    rcases hb with ⟨h1, h2⟩ | ⟨h1, h2⟩
    · left
      refine ⟨h1, hka, ?_⟩
      rw [e2, h2]
      have : a1.front = s.arg.front := by rw [← hfr]; unfold Argument.front; rw [enm]
      unfold Argument.badDefaults; rw [this]
    · right
      refine ⟨h1, hka, ?_, ?_, e2.trans h2⟩
      · rw [retype_eq, e]
      · rw [retype_eq, e]
  have thr : ∀ (a1 : Argument D) (hh vv : Option Nat) (x : Exn),
      a.typeConstructor s.obj st.helpOption st.versionOption = (a1, hh, vv, .throw x) →
      (st.retype s a).2 = .throw x := by
    intro a1 hh vv x e
    unfold State.retype; rw [e]
  generalize kindOf a.isPositional a.action a.nargs = kk at hk ⊢
  cases kk with
  | none =>
    simp only at hk ⊢
    rw [hk] at hcore
    rw [thr _ _ _ _ hcore, posExn, hfr]
  | some kn =>
    obtain ⟨k, n⟩ := kn
    simp only
    by_cases hkh : k = .help
    · subst hkh
      simp only at hk
      obtain ⟨hk, rfl, _, _⟩ := hk
      rw [hk] at hcore
      by_cases hfree : st.helpOption = none ∨ st.helpOption = some s.obj
      · have hb : (st.helpOption == none || st.helpOption == some s.obj) = true := by
          rcases hfree with e | e <;> simp [e]
        rw [hb] at hcore
        rw [ho] at hfree
        rcases fin _ _ _ .help 0 hcore rfl rfl rfl rfl with h | ⟨h1, h2, h3, h4, h5⟩
        · exact .inr (.inr (.inl h))
        · exact .inr (.inr (.inr ⟨h1, h2, fun _ => ⟨hfree, h3.trans (by rw [ho])⟩, fun e => (nomatch e), h5⟩))
      · have hb : (st.helpOption == none || st.helpOption == some s.obj) = false := by
          rw [Bool.eq_false_iff]; simpa using hfree
        rw [hb] at hcore
        left
        rw [not_or, ho] at hfree
        refine ⟨rfl, hfree.1, hfree.2, ?_⟩
        rw [thr _ _ _ _ hcore, helpExn, hfr]
    · by_cases hkv : k = .version
      · subst hkv
        simp only at hk
        obtain ⟨hk, rfl, _, _⟩ := hk
        rw [hk] at hcore
        by_cases hfree : st.versionOption = none ∨ st.versionOption = some s.obj
        · have hb : (st.versionOption == none || st.versionOption == some s.obj) = true := by
            rcases hfree with e | e <;> simp [e]
          rw [hb] at hcore
          rw [ho] at hfree
          rcases fin _ _ _ .version 0 hcore rfl rfl rfl rfl with h | ⟨h1, h2, h3, h4, h5⟩
          · exact .inr (.inr (.inl h))
          · exact .inr (.inr (.inr ⟨h1, h2, fun e => (nomatch e), fun _ => ⟨hfree, h4.trans (by rw [ho])⟩, h5⟩))
        · have hb : (st.versionOption == none || st.versionOption == some s.obj) = false := by
            rw [Bool.eq_false_iff]; simpa using hfree
          rw [hb] at hcore
          right; left
          rw [not_or, ho] at hfree
          refine ⟨rfl, hfree.1, hfree.2, ?_⟩
          rw [thr _ _ _ _ hcore, versionExn, hfr]
      · have hset : ∃ act, tcCore a.isPositional a.action a.nargs (st.helpOption == none || st.helpOption == some s.obj)
            (st.versionOption == none || st.versionOption == some s.obj) = .set k n act := by
          cases k <;> first | exact absurd rfl hkh | exact absurd rfl hkv | exact ⟨_, hk⟩
        obtain ⟨act, hset⟩ := hset
        rw [hset] at hcore
        rcases fin _ _ _ k n hcore rfl rfl rfl rfl with h | ⟨h1, h2, h3, h4, h5⟩
        · exact .inr (.inr (.inl h))
        · exact .inr (.inr (.inr ⟨h1, h2, fun e => absurd e hkh, fun e => absurd e hkv, h5⟩))

/-- C14, `action`. Through a live reference, the kind of the argument becomes the documented function of
"positional or option", action and number of values (`Spec.kindOf`), or the call throws for one of the
documented reasons: unsupported combination on a positional, another help/version option, default values
that do not fit. The call has no other outcome and touches no other argument. -/
theorem C14_action {scan : Str → Option D} {st : State D} (hr : Reachable scan st) {ref : Nat} {s : Slot D}
    (h : st.atObj ref = some s) (act : Action) :
    OnlyChanges st (st.action ref act).1 ref ∧
    match kindOf s.arg.isPositional act s.arg.nargs with
    | none => (st.action ref act).2 = .throw ⟨.argument, s.arg.front,
        "positional argument cannot use with this action or this nargs".toList⟩
    | some (k, n) =>
      (k = .help ∧ st.helpBut s ≠ none ∧ st.helpBut s ≠ some ref ∧
        (st.action ref act).2 = .throw ⟨.argument, s.arg.front, "help action already defined".toList⟩) ∨
      (k = .version ∧ st.versionBut s ≠ none ∧ st.versionBut s ≠ some ref ∧
        (st.action ref act).2 = .throw ⟨.argument, s.arg.front, "version action already defined".toList⟩) ∨
      (Misfit k n s.arg.defaults ∧ (st.action ref act).1.kindAt ref = some (k, n) ∧
        (st.action ref act).2 = .throw ⟨.argument, s.arg.front,
          "invalid number of argument with number of default argument".toList⟩) ∨
      (¬Misfit k n s.arg.defaults ∧ (st.action ref act).1.kindAt ref = some (k, n) ∧
        (k = .help → (st.helpBut s = none ∨ st.helpBut s = some ref) ∧
          (st.action ref act).1.helpOption = some ref) ∧
        (k = .version → (st.versionBut s = none ∨ st.versionBut s = some ref) ∧
          (st.action ref act).1.versionOption = some ref) ∧
        (st.action ref act).2 = .ok ()) := by
  have hi := hr.inv
  rw [action_eq h]
  have hi' : Inv ({ st with helpOption := st.helpBut s, versionOption := st.versionBut s } : State D) :=
    inv_of_eq hi rfl rfl rfl rfl rfl
  refine ⟨?_, ?_⟩
  · exact onlyChanges_updNode hi h (by rw [retype_eq]) (by rw [retype_eq])
  · exact retype_outcome (st := { st with helpOption := st.helpBut s, versionOption := st.versionBut s }) hi' h
      { s.arg with action := act } rfl

/-- C14, `nargs`. As `C14_action`, with the action kept and the number of values changed. -/
theorem C14_nargs {scan : Str → Option D} {st : State D} (hr : Reachable scan st) {ref : Nat} {s : Slot D}
    (h : st.atObj ref = some s) (m : Nat) :
    OnlyChanges st (st.nargs ref m).1 ref ∧
    match kindOf s.arg.isPositional s.arg.action m with
    | none => (st.nargs ref m).2 = .throw ⟨.argument, s.arg.front,
        "positional argument cannot use with this action or this nargs".toList⟩
    | some (k, n) =>
      (k = .help ∧ st.helpOption ≠ none ∧ st.helpOption ≠ some ref ∧
        (st.nargs ref m).2 = .throw ⟨.argument, s.arg.front, "help action already defined".toList⟩) ∨
      (k = .version ∧ st.versionOption ≠ none ∧ st.versionOption ≠ some ref ∧
        (st.nargs ref m).2 = .throw ⟨.argument, s.arg.front, "version action already defined".toList⟩) ∨
      (Misfit k n s.arg.defaults ∧ (st.nargs ref m).1.kindAt ref = some (k, n) ∧
        (st.nargs ref m).2 = .throw ⟨.argument, s.arg.front,
          "invalid number of argument with number of default argument".toList⟩) ∨
      (¬Misfit k n s.arg.defaults ∧ (st.nargs ref m).1.kindAt ref = some (k, n) ∧
        (k = .help → (st.helpOption = none ∨ st.helpOption = some ref) ∧
          (st.nargs ref m).1.helpOption = some ref) ∧
        (k = .version → (st.versionOption = none ∨ st.versionOption = some ref) ∧
          (st.nargs ref m).1.versionOption = some ref) ∧
        (st.nargs ref m).2 = .ok ()) := by
  have hi := hr.inv
  have e : st.nargs ref m = st.retype s { s.arg with nargs := m } := by
    unfold State.nargs State.withRef; rw [h]
  rw [e]
  refine ⟨?_, ?_⟩
  · exact onlyChanges_updNode hi h (by rw [retype_eq]) (by rw [retype_eq])
  · exact retype_outcome hi h { s.arg with nargs := m } rfl

/-- The hypotheses are met, and the table is exercised: an option made APPEND of 2, a positional made
infinite, a refused positional. -/
example :
    (∃ s, demo.atObj 0 = some s ∧ kindOf s.arg.isPositional .append 2 = some (.multiNumber, 2)) ∧
    ((demo.nargs 0 2).1.action 0 .append).1.kindAt 0 = some (.multiNumber, 2) ∧
    (demo.nargs 1 43).1.kindAt 1 = some (.infinitePos, 1) ∧
    (demo.action 1 .storeTrue).2 = .throw ⟨.argument, "file".toList,
      "positional argument cannot use with this action or this nargs".toList⟩ := by
  refine ⟨⟨_, rfl, ?_⟩, ?_, ?_, ?_⟩ <;> decide +kernel

/-! ### C15 -/

/-- Kinds whose values are grouped by `nargs`. -/
def Grouped (k : Ty) : Prop := k = .infiniteNumberPos ∨ k = .multiNumber ∨ k = .multiNumberInfinite

theorem defaultsConstructor_twice (a : Argument D) (hok : a.defaultsConstructor.2 = .ok ())
    (hg : Grouped a.type → a.defaults = []) :
    a.defaultsConstructor.1.defaultsConstructor = (a.defaultsConstructor.1, .ok ()) := by
  unfold Argument.defaultsConstructor at hok ⊢
  unfold Grouped at hg
  by_cases hb : (decide (a.nargs > 0) && decide (a.defaults.length > 0)) = true
  · rw [if_pos hb] at hok ⊢
    have hne : a.defaults ≠ [] := by
      intro e; rw [e] at hb; simp at hb
    cases ht : a.type <;> rw [ht] at hg <;> simp only [ht] at hok ⊢
    all_goals first
      | exact absurd (hg (.inl rfl)) hne
      | exact absurd (hg (.inr (.inl rfl))) hne
      | exact absurd (hg (.inr (.inr rfl))) hne
      | (by_cases hl : (a.defaults.length != a.nargs) = true
         · simp only [hl, if_true] at hok; cases hok
         · simp only [hl, hb, if_true, ht, Bool.false_eq_true, if_false])
      | (simp only [hb, if_true, ht])
  · simp only [hb, Bool.false_eq_true, if_false]

theorem updNode_twice {l : List (Slot D)} {n : Nat} {a : Argument D} :
    updNode (updNode l n fun _ => a) n (fun _ => a) = updNode l n fun _ => a := by
  unfold updNode
  rw [List.map_map]
  refine List.map_congr_left fun t _ => ?_
  simp only [Function.comp_def]
  by_cases h : (t.node == n) = true
  · simp only [h, if_true]
  · simp only [h, Bool.false_eq_true, if_false]

theorem retype_again {st : State D} {s : Slot D} {a b : Argument D}
    (h1 : (st.retype s a).2 = .ok ())
    (h2 : b.typeConstructor s.obj (st.retype s a).1.helpOption (st.retype s a).1.versionOption =
      (a.retyped s.obj st.helpOption st.versionOption, (st.retype s a).1.helpOption,
        (st.retype s a).1.versionOption, .ok ()))
    (hg : Grouped (a.retyped s.obj st.helpOption st.versionOption).type → a.defaults = []) :
    (st.retype s a).1.retype { s with arg := a.retyped s.obj st.helpOption st.versionOption } b =
      ((st.retype s a).1, .ok ()) := by
  have e1 := retype_eq st s a
  obtain ⟨t, n, act, hsh, _⟩ := typeConstructor_shape s.obj st.helpOption st.versionOption a
  have hok : (a.typeConstructor s.obj st.helpOption st.versionOption).2.2.2 = .ok () := by
    unfold State.retype at h1
    generalize a.typeConstructor s.obj st.helpOption st.versionOption = r at *
    obtain ⟨x, y, z, r⟩ := r
    cases r with
    | ok u => rfl
    | _ => simp at h1
  have hret : a.retyped s.obj st.helpOption st.versionOption =
      (a.typeConstructor s.obj st.helpOption st.versionOption).1.defaultsConstructor.1 := by
    unfold Argument.retyped; rw [if_pos hok]
  have hd : (a.typeConstructor s.obj st.helpOption st.versionOption).1.defaultsConstructor.2 = .ok () := by
    unfold State.retype at h1
    generalize a.typeConstructor s.obj st.helpOption st.versionOption = r at *
    obtain ⟨x, y, z, r⟩ := r
    cases r with
    | ok u => exact h1
    | _ => cases hok
  have htw := defaultsConstructor_twice _ hd (by
    have hf := (defaultsConstructor_frame (a.typeConstructor s.obj st.helpOption st.versionOption).1).2.1
    rw [hret, hf] at hg
    intro hgr
    have := hg hgr
    rw [hsh]; exact this)
  rw [← hret] at htw
  have e2 := retype_eq (st.retype s a).1 { s with arg := a.retyped s.obj st.helpOption st.versionOption } b
  simp only at e2
  have hb : b.retyped s.obj (st.retype s a).1.helpOption (st.retype s a).1.versionOption =
      a.retyped s.obj st.helpOption st.versionOption := by
    rw [Argument.retyped, h2, if_pos rfl, htw]
  refine Prod.ext ?_ ?_
  · rw [e2, h2, hb]
    have hargs : (st.retype s a).1.arguments =
        updNode st.arguments s.node fun _ => a.retyped s.obj st.helpOption st.versionOption := by rw [e1]
    simp only [hargs, updNode_twice]
    rw [e1]
  · show (State.retype _ _ _).2 = _
    rw [State.retype, h2]
    simp only
    rw [htw]

theorem argument_eta (a : Argument D) {t : Ty} {n : Nat} {act x : Action} {m : Nat}
    (h1 : a.type = t) (h2 : a.nargs = n) (h3 : a.action = act) :
    ({ a with action := x, nargs := m, type := t } : Argument D) =
      { ({ a with action := x, nargs := m, type := t } : Argument D) with action := x } ∧
    ({ ({ a with action := x } : Argument D) with type := t, nargs := n, action := act } : Argument D) = a ∧
    ({ ({ a with nargs := m } : Argument D) with type := t, nargs := n, action := act } : Argument D) = a ∧
    ({ ({ a with nargs := m } : Argument D) with type := t, nargs := n } : Argument D) = a := by
  subst h1 h2 h3
  exact ⟨rfl, rfl, rfl, rfl⟩

/-- After a successful call the kind recorded is the documented one. -/
theorem retype_ok {st : State D} {s : Slot D} {a : Argument D} (h1 : (st.retype s a).2 = .ok ()) :
    ∃ k n, kindOf a.isPositional a.action a.nargs = some (k, n) ∧
      (a.retyped s.obj st.helpOption st.versionOption).type = k ∧
      (a.retyped s.obj st.helpOption st.versionOption).nargs = n ∧
      (a.retyped s.obj st.helpOption st.versionOption).isPositional = a.isPositional ∧
      (a.retyped s.obj st.helpOption st.versionOption).action =
        (if k = .infinite ∨ k = .infinitePos then .infinite else a.action) ∧
      (k ≠ .help → (st.retype s a).1.helpOption = st.helpOption) ∧
      (k = .help → (st.retype s a).1.helpOption = some s.obj) ∧
      (k ≠ .version → (st.retype s a).1.versionOption = st.versionOption) ∧
      (k = .version → (st.retype s a).1.versionOption = some s.obj) := by
  have hk := tcCore_kind a.isPositional a.action a.nargs (st.helpOption == none || st.helpOption == some s.obj)
    (st.versionOption == none || st.versionOption == some s.obj)
  have hcore := typeConstructor_core s.obj st.helpOption st.versionOption a
  have hnames := retype_names s.obj st.helpOption st.versionOption a
  have hthr : ∀ x y z e, a.typeConstructor s.obj st.helpOption st.versionOption = (x, y, z, .throw e) → False := by
    intro x y z e he
    unfold State.retype at h1; rw [he] at h1; cases h1
  have hok : ∀ x y z, a.typeConstructor s.obj st.helpOption st.versionOption = (x, y, z, .ok ()) →
      (a.retyped s.obj st.helpOption st.versionOption).type = x.type ∧
      (a.retyped s.obj st.helpOption st.versionOption).nargs = x.nargs ∧
      (a.retyped s.obj st.helpOption st.versionOption).action = x.action ∧
      (st.retype s a).1.helpOption = y ∧ (st.retype s a).1.versionOption = z := by
    intro x y z he
    have hf := defaultsConstructor_frame x
    refine ⟨?_, ?_, ?_, ?_, ?_⟩
    · unfold Argument.retyped; rw [he, if_pos rfl]; exact hf.2.1
    · unfold Argument.retyped; rw [he, if_pos rfl]; exact hf.2.2.2.2.1
    · unfold Argument.retyped; rw [he, if_pos rfl]; exact hf.2.2.2.1
    · rw [retype_eq, he]
    · rw [retype_eq, he]
  generalize kindOf a.isPositional a.action a.nargs = kk at hk ⊢
  cases kk with
  | none =>
    simp only at hk
    rw [hk] at hcore
    exact (hthr _ _ _ _ hcore).elim
  | some kn =>
    obtain ⟨k, n⟩ := kn
    refine ⟨k, n, rfl, ?_⟩
    by_cases hkh : k = .help
    · subst hkh
      simp only at hk
      obtain ⟨hk, rfl, ha, _⟩ := hk
      rw [hk] at hcore
      split at hcore
      · obtain ⟨g1, g2, g3, g4, g5⟩ := hok _ _ _ hcore
        refine ⟨g1, g2, hnames.2.1, ?_, fun e => absurd rfl e, fun _ => g4, fun _ => g5, fun e => (nomatch e)⟩
        rw [g3, if_neg (by simp)]
      · exact (hthr _ _ _ _ hcore).elim
    · by_cases hkv : k = .version
      · subst hkv
        simp only at hk
        obtain ⟨hk, rfl, ha, _⟩ := hk
        rw [hk] at hcore
        split at hcore
        · obtain ⟨g1, g2, g3, g4, g5⟩ := hok _ _ _ hcore
          refine ⟨g1, g2, hnames.2.1, ?_, fun _ => g4, fun e => (nomatch e), fun e => absurd rfl e, fun _ => g5⟩
          rw [g3, if_neg (by simp)]
        · exact (hthr _ _ _ _ hcore).elim
      · have hset : tcCore a.isPositional a.action a.nargs (st.helpOption == none || st.helpOption == some s.obj)
            (st.versionOption == none || st.versionOption == some s.obj) =
              .set k n (if k = .infinite ∨ k = .infinitePos then .infinite else a.action) := by
          cases k <;> first | exact absurd rfl hkh | exact absurd rfl hkv | exact hk
        rw [hset] at hcore
        obtain ⟨g1, g2, g3, g4, g5⟩ := hok _ _ _ hcore
        exact ⟨g1, g2, hnames.2.1, g3, fun _ => g4, fun e => absurd e hkh, fun _ => g5, fun e => absurd e hkv⟩

/-- Setting the documented kind again does nothing. -/
theorem typeConstructor_same {a b : Argument D} {o : Nat} {h v : Option Nat} {k : Ty} {n : Nat}
    (hk : kindOf b.isPositional b.action b.nargs = some (k, n))
    (hh : k = .help → h = some o) (hv : k = .version → v = some o)
    (h1 : a.type = k) (h2 : a.nargs = n)
    (h3 : a.action = if k = .infinite ∨ k = .infinitePos then .infinite else b.action)
    (hb : ∃ x m, b = { a with action := x, nargs := m }) :
    b.typeConstructor o h v = (a, h, v, .ok ()) := by
  have hc := tcCore_kind b.isPositional b.action b.nargs (h == none || h == some o) (v == none || v == some o)
  rw [hk] at hc
  rw [typeConstructor_core]
  obtain ⟨x, m, rfl⟩ := hb
  by_cases hkh : k = .help
  · subst hkh
    simp only at hc
    obtain ⟨hc, rfl, _⟩ := hc
    rw [hc, hh rfl]
    simp only [beq_self_eq_true, Bool.or_true, if_true, TC.apply]
    rw [if_neg (by simp)] at h3
    subst h3
    cases a
    simp only at h1 h2
    subst h1 h2
    rfl
  · by_cases hkv : k = .version
    · subst hkv
      simp only at hc
      obtain ⟨hc, rfl, _⟩ := hc
      rw [hc, hv rfl]
      simp only [beq_self_eq_true, Bool.or_true, if_true, TC.apply]
      rw [if_neg (by simp)] at h3
      subst h3
      cases a
      simp only at h1 h2
      subst h1 h2
      rfl
    · have hset : tcCore (Argument.isPositional { a with action := x, nargs := m }) x m (h == none || h == some o)
            (v == none || v == some o) =
              .set k n (if k = .infinite ∨ k = .infinitePos then .infinite else x) := by
        cases k <;> first | exact absurd rfl hkh | exact absurd rfl hkv | exact hc
      rw [hset]
      simp only at h3
      rw [← h3]
      simp only [TC.apply]
      subst h1 h2
      rfl

theorem kindOf_action_again {p : Bool} {act : Action} {m n : Nat} {k : Ty} (g0 : kindOf p act m = some (k, n))
    (h1 : act ≠ .storeFalse) (h2 : act ≠ .help) (h3 : act ≠ .version) (h4 : ¬(act = .none ∧ m = 43)) :
    kindOf p act n = some (k, n) := by
  unfold kindOf at g0 ⊢
  cases p <;> cases act <;> simp at g0 h1 h2 h3 h4 ⊢ <;> grind

theorem kindOf_nargs_again {p : Bool} {act : Action} {m n : Nat} {k : Ty} (g0 : kindOf p act m = some (k, n))
    (h4 : ¬(p = true ∧ act = .none ∧ m = 43)) :
    kindOf p (if k = .infinite ∨ k = .infinitePos then .infinite else act) m = some (k, n) ∧
    (if k = .infinite ∨ k = .infinitePos then Action.infinite else act) =
      if k = .infinite ∨ k = .infinitePos then .infinite
      else (if k = .infinite ∨ k = .infinitePos then .infinite else act) := by
  refine ⟨?_, by split <;> rfl⟩
  unfold kindOf at g0 ⊢
  cases p <;> cases act <;> simp at g0 h4 ⊢ <;> grind

/-- Part of C15 for `action` (see `C15_action_twice`), with the exceptions of the code: STORE_FALSE, HELP and VERSION change an argument's
number of values to 0, which a second call takes for a plain boolean; NONE on an option with `nargs('+')`
turns the number of values into 1; grouped default values are displayed twice. Otherwise a second call
changes nothing. -/
theorem action_twice {scan : Str → Option D} {st : State D} (hr : Reachable scan st) {ref : Nat}
    {s : Slot D} (h : st.atObj ref = some s) {act : Action} (hok : (st.action ref act).2 = .ok ())
    (h1 : act ≠ .storeFalse) (h2 : act ≠ .help) (h3 : act ≠ .version)
    (h4 : ¬(act = .none ∧ s.arg.nargs = 43))
    (h5 : ∀ k n, kindOf s.arg.isPositional act s.arg.nargs = some (k, n) → Grouped k → s.arg.defaults = []) :
    (st.action ref act).1.action ref act = ((st.action ref act).1, .ok ()) := by
  have hi := hr.inv
  have ea := action_eq h act
  generalize hst0 : ({ st with helpOption := st.helpBut s, versionOption := st.versionBut s } : State D) = st0 at ea
  rw [ea] at hok ⊢
  have hi0 : Inv st0 := hst0 ▸ inv_of_eq hi rfl rfl rfl rfl rfl
  have h0 : st0.atObj ref = some s := hst0 ▸ h
  obtain ⟨k, n, g0, g1, g2, g3, g4, g5, _, g7, _⟩ := retype_ok hok
  have hat := atObj_updNode hi0 h0 (st' := (st0.retype s { s.arg with action := act }).1)
    (a := Argument.retyped s.obj st0.helpOption st0.versionOption { s.arg with action := act }) (by rw [retype_eq])
  simp only at g0 g4
  have hkh : k ≠ .help := by
    rintro rfl
    have hp : Argument.isPositional ({ s.arg with action := act } : Argument D) = s.arg.isPositional := rfl
    rw [hp] at g0
    unfold kindOf at g0
    cases hpp : s.arg.isPositional <;> cases act <;> simp [hpp] at g0 h2 <;> (repeat' split at g0) <;> simp at g0
  have hkv : k ≠ .version := by
    rintro rfl
    have hp : Argument.isPositional ({ s.arg with action := act } : Argument D) = s.arg.isPositional := rfl
    rw [hp] at g0
    unfold kindOf at g0
    cases hpp : s.arg.isPositional <;> cases act <;> simp [hpp] at g0 h3 <;> (repeat' split at g0) <;> simp at g0
  have hact : (Argument.retyped s.obj st0.helpOption st0.versionOption { s.arg with action := act }).action ≠ .help ∧
      (Argument.retyped s.obj st0.helpOption st0.versionOption { s.arg with action := act }).action ≠ .version := by
    rw [g4]; split
    · simp
    · exact ⟨h2, h3⟩
  rw [action_eq hat]
  have hb : (State.helpBut (st0.retype s { s.arg with action := act }).1
      { s with arg := Argument.retyped s.obj st0.helpOption st0.versionOption { s.arg with action := act } }) =
      (st0.retype s { s.arg with action := act }).1.helpOption := by
    unfold State.helpBut
    rw [if_neg (by simpa using hact.1)]
  have hb' : (State.versionBut (st0.retype s { s.arg with action := act }).1
      { s with arg := Argument.retyped s.obj st0.helpOption st0.versionOption { s.arg with action := act } }) =
      (st0.retype s { s.arg with action := act }).1.versionOption := by
    unfold State.versionBut
    rw [if_neg (by simpa using hact.2)]
  rw [hb, hb']
  refine retype_again hok ?_ ?_
  · refine typeConstructor_same (k := k) (n := n) ?_ (fun e => absurd e hkh) (fun e => absurd e hkv) g1 g2 g4
      ⟨act, _, rfl⟩
    show kindOf (Argument.isPositional (Argument.retyped s.obj st0.helpOption st0.versionOption { s.arg with action := act }))
      act (Argument.retyped s.obj st0.helpOption st0.versionOption { s.arg with action := act }).nargs = _
    rw [g3, g2]
    have hp : Argument.isPositional ({ s.arg with action := act } : Argument D) = s.arg.isPositional := rfl
    rw [hp] at g0 ⊢
    exact kindOf_action_again g0 h1 h2 h3 h4
  · intro hgr
    rw [g1] at hgr
    exact h5 k n g0 hgr

/-- Part of C15 for `nargs` (see `C15_nargs_twice`), with the exceptions of the code: `'+'` on a positional (the second call makes it a
list of groups of 43), and grouped default values, which are displayed twice. -/
theorem nargs_twice {scan : Str → Option D} {st : State D} (hr : Reachable scan st) {ref : Nat}
    {s : Slot D} (h : st.atObj ref = some s) {m : Nat} (hok : (st.nargs ref m).2 = .ok ())
    (h4 : ¬(s.arg.isPositional = true ∧ s.arg.action = .none ∧ m = 43))
    (h5 : ∀ k n, kindOf s.arg.isPositional s.arg.action m = some (k, n) → Grouped k → s.arg.defaults = []) :
    (st.nargs ref m).1.nargs ref m = ((st.nargs ref m).1, .ok ()) := by
  have hi := hr.inv
  have ea : st.nargs ref m = st.retype s { s.arg with nargs := m } := by
    unfold State.nargs State.withRef; rw [h]
  rw [ea] at hok ⊢
  obtain ⟨k, n, g0, g1, g2, g3, g4, g5, g6, g7, g8⟩ := retype_ok hok
  have hat := atObj_updNode hi h (st' := (st.retype s { s.arg with nargs := m }).1)
    (a := Argument.retyped s.obj st.helpOption st.versionOption { s.arg with nargs := m }) (by rw [retype_eq])
  simp only at g0 g4
  have ea2 : ∀ st' : State D, ∀ s' : Slot D, st'.atObj ref = some s' →
      st'.nargs ref m = st'.retype s' { s'.arg with nargs := m } := by
    intro st' s' h'
    unfold State.nargs State.withRef; rw [h']
  rw [ea2 _ _ hat]
  refine retype_again hok ?_ ?_
  · have hp : Argument.isPositional ({ s.arg with nargs := m } : Argument D) = s.arg.isPositional := rfl
    rw [hp] at g0 g3
    have hk2 : kindOf s.arg.isPositional
        (Argument.retyped s.obj st.helpOption st.versionOption { s.arg with nargs := m }).action m = some (k, n) ∧
        (Argument.retyped s.obj st.helpOption st.versionOption { s.arg with nargs := m }).action =
        (if k = .infinite ∨ k = .infinitePos then .infinite
          else (Argument.retyped s.obj st.helpOption st.versionOption { s.arg with nargs := m }).action) := by
      rw [g4]
      exact kindOf_nargs_again g0 h4
    refine typeConstructor_same (k := k) (n := n) ?_ g6 g8 g1 g2 hk2.2 ⟨_, m, rfl⟩
    show kindOf (Argument.isPositional (Argument.retyped s.obj st.helpOption st.versionOption { s.arg with nargs := m }))
      (Argument.retyped s.obj st.helpOption st.versionOption { s.arg with nargs := m }).action m = _
    rw [g3]; exact hk2.1
  · intro hgr
    rw [g1] at hgr
    exact h5 k n g0 hgr

/-- The hypotheses of the two theorems are met. -/
example : (demo.action 0 .append).2 = .ok () ∧ (demo.nargs 0 3).2 = .ok () ∧ (demo.nargs 1 3).2 = .ok () := by
  decide +kernel

/-- C15 fails for the excepted calls: a second STORE_FALSE makes the option a STORE_TRUE one, a second
HELP makes the help option a plain boolean that the parser no longer knows as its help option, a second
NONE after `nargs('+')` leaves a single-value option, a second `nargs('+')` on a positional makes it a list
of groups of 43. -/
theorem C15_not_idempotent :
    Reachable demoScan demo ∧
    ((demo.action 0 .storeFalse).1.kindAt 0 = some (.reverse, 0) ∧
      ((demo.action 0 .storeFalse).1.action 0 .storeFalse).1.kindAt 0 = some (.boolean, 0)) ∧
    ((demo.action 0 .help).1.kindAt 0 = some (.help, 0) ∧ (demo.action 0 .help).1.helpOption = some 0 ∧
      ((demo.action 0 .help).1.action 0 .help).1.kindAt 0 = some (.boolean, 0) ∧
      ((demo.action 0 .help).1.action 0 .help).1.helpOption = none) ∧
    (((demo.nargs 0 43).1.kindAt 0 = some (.infinite, 1) ∧
      ((demo.nargs 0 43).1.action 0 .none).1.kindAt 0 = some (.simple, 1))) ∧
    ((demo.nargs 1 43).1.kindAt 1 = some (.infinitePos, 1) ∧
      ((demo.nargs 1 43).1.nargs 1 43).1.kindAt 1 = some (.infiniteNumberPos, 43)) := by
  refine ⟨demo_reachable, ?_⟩
  decide +kernel

/-! ### C17 -/

theorem groupsOf_flatten {n : Nat} (hn : 0 < n) (l : List Str) (h : n ∣ l.length) :
    (groupsOf n l).flatten = l ∧ ∀ g ∈ groupsOf n l, g.length = n := by
  obtain ⟨k, hk⟩ := h
  have hdiv : l.length / n = k := by rw [hk]; exact Nat.mul_div_cancel_left k hn
  unfold groupsOf
  rw [hdiv]
  constructor
  · have : ∀ j, j ≤ k → ((List.range j).map fun i => (l.drop (i * n)).take n).flatten = l.take (j * n) := by
      intro j
      induction j with
      | zero => simp
      | succ j ih =>
        intro hj
        rw [List.range_succ, List.map_append, List.flatten_append, ih (by omega)]
        simp only [List.map_cons, List.map_nil, List.flatten_cons, List.flatten_nil, List.append_nil]
        rw [Nat.succ_mul, List.take_add]
    rw [this k (Nat.le_refl k)]
    refine List.take_of_length_le ?_
    rw [hk, Nat.mul_comm]; exact Nat.le_refl _
  · intro g hg
    obtain ⟨i, hi, rfl⟩ := List.mem_map.1 hg
    rw [List.mem_range] at hi
    rw [List.length_take, List.length_drop]
    have : (i + 1) * n ≤ k * n := Nat.mul_le_mul_right n (by omega)
    rw [Nat.succ_mul] at this
    have : i * n + n ≤ l.length := by rw [hk, Nat.mul_comm n k]; exact this
    omega

theorem map_comp_id {α β : Type} {l : List α} {f : α → β} {g : β → α} (h : ∀ x, g (f x) = x) :
    (l.map f).map g = l := by
  rw [List.map_map]
  conv => rhs; rw [← List.map_id l]
  exact List.map_congr_left fun x _ => h x

/-- The value of an argument whose default values were accepted. -/
theorem defaults_value (a : Argument D) (h1 : 0 < a.nargs) (h2 : a.defaults ≠ []) (h3 : TakesValues a.type)
    (hfit : DefaultsFit a.type a.nargs a.defaults.length)
    (hone : a.type = .pos ∨ a.type = .simple → a.nargs = 1) :
    a.defaultsConstructor.1.toVector = some a.defaults ∧
    (Grouped a.type → ∃ gs, a.defaultsConstructor.1.toVecVec = some gs ∧ gs.flatten = a.defaults ∧
      ∀ g ∈ gs, g.length = a.nargs) := by
  have hb : (decide (a.nargs > 0) && decide (a.defaults.length > 0)) = true := by
    simp [h1, List.length_pos_iff.2 h2]
  have hlist : ((a.defaults.map dfltElem : List (Elem D)).map (·.argument)) = a.defaults :=
    map_comp_id fun _ => rfl
  unfold Argument.defaultsConstructor
  rw [if_pos hb]
  unfold Argument.toVector Argument.toVecVec
  have single : (a.type = .pos ∨ a.type = .simple) → [a.defaults.headD []] = a.defaults := by
    intro ht
    have hl : a.defaults.length = 1 := by
      rw [← hone ht]
      rcases ht with ht | ht <;> rw [ht] at hfit <;> exact hfit
    match hd : a.defaults with
    | [x] => rfl
    | [] => rw [hd] at hl; cases hl
    | _ :: _ :: _ => rw [hd] at hl; simp at hl
  have grp : a.nargs ∣ a.defaults.length →
      ((groupsOf a.nargs a.defaults).map dfltGroup : List (Elem D)).flatMap (fun e => e.subs.map (·.argument)) =
        a.defaults ∧
      ((groupsOf a.nargs a.defaults).map dfltGroup : List (Elem D)).map (fun e => e.subs.map (·.argument)) =
        groupsOf a.nargs a.defaults := by
    intro hdv
    have e : ((groupsOf a.nargs a.defaults).map dfltGroup : List (Elem D)).map (fun e => e.subs.map (·.argument)) =
        groupsOf a.nargs a.defaults := by
      refine map_comp_id fun g => ?_
      exact map_comp_id fun _ => rfl
    refine ⟨?_, e⟩
    rw [List.flatMap_def, e]
    exact (groupsOf_flatten h1 _ hdv).1
  unfold TakesValues at h3
  unfold Grouped
  cases ht : a.type <;> rw [ht] at h3 hfit single <;> simp only [ne_eq, not_true_eq_false, false_and, and_false] at h3 <;>
    unfold DefaultsFit at hfit <;> simp only at hfit <;> simp only
  case pos | simple =>
    rw [if_neg (by simp [hfit])]
    simp only [reduceCtorEq, false_or, or_false]
    exact ⟨by rw [single (by simp)], fun h => h.elim⟩
  case number | numberPos =>
    rw [if_neg (by simp [hfit])]
    simp only [reduceCtorEq, false_or]
    exact ⟨by rw [hlist], fun h => h.elim⟩
  case infinite | multi | multiInfinite | infinitePos =>
    simp only [reduceCtorEq, false_or]
    exact ⟨by rw [hlist], fun h => h.elim⟩
  all_goals
    rw [if_neg (by simp [Nat.mod_eq_zero_of_dvd hfit])]
    simp only
    refine ⟨by rw [(grp hfit).1], fun _ => ⟨_, rfl, ?_⟩⟩
    rw [(grp hfit).2]
    exact groupsOf_flatten h1 _ hfit

theorem setDefaults_eq {st : State D} {ref : Nat} {s : Slot D} (h : st.atObj ref = some s) (ds : List Str) :
    st.setDefaults ref ds =
      (st.modNode s.node (fun _ => ({ s.arg with defaults := ds } : Argument D).defaultsConstructor.1),
        ({ s.arg with defaults := ds } : Argument D).defaultsConstructor.2) := by
  unfold State.setDefaults State.withRef; rw [h]

/-- C17, acceptance: `defaults()` throws exactly when the number of values does not fit; an empty list, or
an argument without values, accepts anything. It touches no other argument. -/
theorem C17_defaults_outcome {scan : Str → Option D} {st : State D} (hr : Reachable scan st) {ref : Nat}
    {s : Slot D} (h : st.atObj ref = some s) (ds : List Str) :
    OnlyChanges st (st.setDefaults ref ds).1 ref ∧
    ((s.arg.nargs = 0 ∨ ds = [] ∨ DefaultsFit s.arg.type s.arg.nargs ds.length) →
      (st.setDefaults ref ds).2 = .ok ()) ∧
    (¬(s.arg.nargs = 0 ∨ ds = [] ∨ DefaultsFit s.arg.type s.arg.nargs ds.length) →
      (st.setDefaults ref ds).2 = .throw ⟨.argument, s.arg.front,
        "invalid number of argument with number of default argument".toList⟩) := by
  have hi := hr.inv
  rw [setDefaults_eq h]
  refine ⟨onlyChanges_updNode hi h (st' := st.modNode s.node _) (f := fun _ => _) rfl rfl, ?_, ?_⟩
  · intro hf
    rcases badDefaults_cases ({ s.arg with defaults := ds } : Argument D) with ⟨⟨h1, h2, h3⟩, _⟩ | ⟨_, h2⟩
    · rcases hf with hf | hf | hf
      · simp only at h1; omega
      · exact absurd hf h2
      · exact absurd hf h3
    · exact h2
  · intro hf
    rw [not_or, not_or] at hf
    rcases badDefaults_cases ({ s.arg with defaults := ds } : Argument D) with ⟨_, h2⟩ | ⟨h1, _⟩
    · exact h2
    · exact absurd ⟨Nat.pos_of_ne_zero hf.1, hf.2.1, hf.2.2⟩ h1

/-- Discipline: no exception of `action()` or `nargs()` was ignored. -/
def KindsAccepted (_ : State D) (op : Op) (r : Res Unit) : Prop :=
  match op with
  | .action _ _ | .nargs _ _ => r = .ok ()
  | _ => True

theorem Settled.congr {a b : Argument D} (h : Settled a) (h1 : b.type = a.type) (h2 : b.nargs = a.nargs) :
    Settled b := by
  unfold Settled Argument.isPositional at *
  rw [h1, h2]; exact h

theorem settled_retyped {st : State D} {s : Slot D} {a : Argument D} (h : (st.retype s a).2 = .ok ()) :
    Settled (a.retyped s.obj st.helpOption st.versionOption) := by
  obtain ⟨k, n, g0, g1, g2, g3, _⟩ := retype_ok h
  exact ⟨a.action, a.nargs, by rw [g3, g1, g2]; exact g0⟩

theorem step_settled {scan : Str → Option D} {st : State D} {full : Prop} (hi : GInv full st) (hs : ∀ s ∈ st.arguments, Settled s.arg)
    (op : Op) (hg : (step scan st op).2.goesOn = true) (hc : KindsAccepted st op (step scan st op).2) :
    ∀ s ∈ (step scan st op).1.arguments, Settled s.arg := by
  intro s' hs'
  rcases step_slots hi op hg hs' with ⟨s, hm, h⟩ | h
  · have h0 := hs s hm
    cases op with
    | action ref act =>
      simp only [ArgChange] at h
      split at h
      · rename_i e
        have hat : st.atObj ref = some s := e ▸ State.atObj_of_mem hi.objs hm
        simp only [KindsAccepted, step] at hc
        rw [action_eq hat] at hc
        rw [h]
        exact settled_retyped (st := { st with helpOption := st.helpBut s, versionOption := st.versionBut s })
          (s := s) (a := { s.arg with action := act }) hc
      · rw [h]; exact h0
    | nargs ref n =>
      simp only [ArgChange] at h
      split at h
      · rename_i e
        have hat : st.atObj ref = some s := e ▸ State.atObj_of_mem hi.objs hm
        simp only [KindsAccepted, step] at hc
        unfold State.nargs State.withRef at hc
        rw [hat] at hc
        rw [h]
        exact settled_retyped (st := st) (s := s) (a := { s.arg with nargs := n }) hc
      · rw [h]; exact h0
    | defaults ref ds =>
      simp only [ArgChange] at h
      split at h
      · have hf := defaultsConstructor_frame ({ s.arg with defaults := ds } : Argument D)
        rw [h]
        exact h0.congr hf.2.1 hf.2.2.2.2.1
      · rw [h]; exact h0
    | flag ref f | remove ns =>
      simp only [ArgChange] at h
      obtain ⟨ms, rfl⟩ := h
      exact h0.congr rfl rfl
    | parse argv =>
      simp only [ArgChange] at h
      exact h0.congr (congrArg (fun x : Slot D => x.arg.type) h :) (congrArg (fun x : Slot D => x.arg.nargs) h :)
    | required ref _ | help ref _ | metavar ref _ | behave ref _ _ | edit ref _ | valid ref _ _ | dest ref _ =>
      simp only [ArgChange] at h
      split at h <;> (rw [h]; exact h0.congr rfl rfl)
    | _ => simp only [ArgChange] at h; rw [h]; exact h0
  · cases op with
    | add names =>
      simp only [ArgFresh] at h
      rcases h.2.2 with ⟨n, e⟩ | ⟨fs, e⟩
      · rw [e]; exact ⟨.none, 1, rfl⟩
      · rw [e]; exact ⟨.none, 1, rfl⟩
    | parse argv =>
      simp only [ArgFresh] at h
      have : Settled (helpArgument (helpFlags st) : Argument D) := ⟨.help, 1, rfl⟩
      exact this.congr (congrArg (fun x : Argument D => x.type) h.2.2.2 :) (congrArg (fun x : Argument D => x.nargs) h.2.2.2 :)
    | _ => exact h.elim

theorem ReachableBy.settled {scan : Str → Option D} {st : State D} (h : ReachableBy scan KindsAccepted st) :
    ∀ s ∈ st.arguments, Settled s.arg := by
  induction h with
  | init => intro s hs; cases hs
  | step op hr hg hc ih => exact step_settled hr.reachable.inv ih op hg hc

/-- C17, reading back: accepted values are what the argument then reads, flat and (for grouped kinds) in
groups of `nargs`; an empty list changes no value; the kind stays. `Settled` holds in every state reached
without ignoring an exception of `action()`/`nargs()` (`ReachableBy.settled`). -/
theorem C17_defaults_value {scan : Str → Option D} {st : State D} (hr : Reachable scan st) {ref : Nat}
    {s : Slot D} (h : st.atObj ref = some s) (hset : Settled s.arg) (ds : List Str)
    (hok : (st.setDefaults ref ds).2 = .ok ()) :
    ∃ s', (st.setDefaults ref ds).1.atObj ref = some s' ∧ s'.arg.type = s.arg.type ∧
      s'.arg.nargs = s.arg.nargs ∧ s'.arg.defaults = ds ∧
      (s.arg.nargs = 0 ∨ ds = [] → s'.arg = { s.arg with defaults := ds }) ∧
      (0 < s.arg.nargs → ds ≠ [] →
        s'.arg.toVector = some ds ∧
        (Grouped s.arg.type →
          ∃ gs, s'.arg.toVecVec = some gs ∧ gs.flatten = ds ∧ ∀ g ∈ gs, g.length = s.arg.nargs)) := by
  have hi := hr.inv
  have hfit : s.arg.nargs = 0 ∨ ds = [] ∨ DefaultsFit s.arg.type s.arg.nargs ds.length :=
    Classical.byContradiction fun hc => by
      rw [(C17_defaults_outcome hr h ds).2.2 hc] at hok; cases hok
  rw [setDefaults_eq h]
  have hat := atObj_updNode hi h (st' := st.modNode s.node
    (fun _ => ({ s.arg with defaults := ds } : Argument D).defaultsConstructor.1)) rfl
  have hd := defaultsConstructor_frame ({ s.arg with defaults := ds } : Argument D)
  refine ⟨_, hat, hd.2.1, hd.2.2.2.2.1, ?_, ?_, ?_⟩
  · simp only
    unfold Argument.defaultsConstructor
    repeat' split
    all_goals simp only
    all_goals repeat' split
    all_goals rfl
  · intro h0
    simp only
    unfold Argument.defaultsConstructor
    rw [if_neg]
    rcases h0 with e | e <;> simp [e]
  · intro h1 h2
    have hfit : DefaultsFit s.arg.type s.arg.nargs ds.length := by
      rcases hfit with e | e | e
      · omega
      · exact absurd e h2
      · exact e
    obtain ⟨act, n, hk⟩ := hset
    have hspec : TakesValues s.arg.type ∧ ((s.arg.type = .pos ∨ s.arg.type = .simple) → s.arg.nargs = 1) := by
      revert hk h1
      generalize s.arg.isPositional = p
      generalize s.arg.type = t
      generalize s.arg.nargs = m
      unfold kindOf TakesValues
      cases p <;> cases act <;> simp <;> grind
    exact defaults_value ({ s.arg with defaults := ds } : Argument D) h1 h2 hspec.1 hfit hspec.2

/-- The hypotheses are met by a non-trivial state: an option taking groups of two values. -/
def demoGroups : State Unit := runOps demoScan demo [.nargs 0 2, .action 0 .append]

theorem demoGroups_settled : Reachable demoScan demoGroups ∧ demoGroups.kindAt 0 = some (.multiNumber, 2) ∧
    (demoGroups.setDefaults 0 ["a".toList, "b".toList, "c".toList, "d".toList]).2 = .ok () ∧
    (demoGroups.setDefaults 0 ["a".toList, "b".toList, "c".toList]).2.goesOn = true ∧
    (demoGroups.setDefaults 0 ["a".toList, "b".toList, "c".toList]).2 ≠ .ok () := by
  refine ⟨reachable_runOps demo_reachable _ (by decide +kernel), ?_⟩
  decide +kernel

end BletArgs
