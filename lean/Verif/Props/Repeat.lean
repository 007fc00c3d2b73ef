import Verif.Props.Kinds
/-
C15: exactly when a repeated `action` or `nargs` call is harmless.
-/
namespace BletArgs
open Spec
variable {D : Type}

/-- The cases in which calling `action(act)` a second time on the argument `a` is not harmless. -/
inductive ActionSpoils (st : State D) (a : Argument D) : Action → Prop
  /-- STORE_FALSE sets the number of values to 0, which a second call takes for STORE_TRUE. -/
  | storeFalse : a.nargs ≠ 0 → ActionSpoils st a .storeFalse
  /-- So do HELP and VERSION. -/
  | help : a.nargs ≠ 0 → ActionSpoils st a .help
  | version : a.nargs ≠ 0 → ActionSpoils st a .version
  /-- HELP on an argument that takes no value does not make it the help option, but the second call
  believes it is and forgets the real one. -/
  | helpOfOther : a.nargs = 0 → a.action ≠ .help → st.helpOption ≠ none → ActionSpoils st a .help
  | versionOfOther : a.nargs = 0 → a.action ≠ .version → st.versionOption ≠ none → ActionSpoils st a .version
  /-- NONE after `nargs('+')` makes a list, and the second NONE a single value. -/
  | plus : a.nargs = 43 → ActionSpoils st a .none
  /-- The display of grouped defaults is extended by every call. -/
  | grouped (act : Action) (k : Ty) (n : Nat) : kindOf a.isPositional act a.nargs = some (k, n) → Grouped k →
      a.defaults ≠ [] → ActionSpoils st a act

/-- The cases in which calling `nargs(m)` a second time on the argument `a` is not harmless. -/
inductive NargsSpoils (a : Argument D) (m : Nat) : Prop
  /-- `nargs('+')` on a positional: the second call makes it a list of groups of 43. -/
  | plus : a.isPositional = true → a.action = .none → m = 43 → NargsSpoils a m
  | grouped (k : Ty) (n : Nat) : kindOf a.isPositional a.action m = some (k, n) → Grouped k →
      a.defaults ≠ [] → NargsSpoils a m

/-- An unchanged second outcome: the object is the same and its kind is that of the second call. -/
theorem again_same {st : State D} {full : Prop} (hi : GInv full st) {ref : Nat} {s : Slot D} (h : st.atObj ref = some s)
    {a b : Argument D} {st2 : State D} (h2 : st2.arguments = (st.retype s a).1.arguments)
    (he : st2.retype { s with arg := a.retyped s.obj st.helpOption st.versionOption } b = ((st.retype s a).1, .ok ())) :
    b.retyped s.obj st2.helpOption st2.versionOption = a.retyped s.obj st.helpOption st.versionOption := by
  have hat := atObj_updNode hi h (st' := (st.retype s a).1)
    (a := a.retyped s.obj st.helpOption st.versionOption) (by rw [retype_eq])
  have hargs : (st.retype s a).1.arguments =
      updNode st.arguments s.node fun _ => a.retyped s.obj st.helpOption st.versionOption := by rw [retype_eq]
  have e2 : (st2.retype { s with arg := a.retyped s.obj st.helpOption st.versionOption } b).1.arguments =
      updNode st2.arguments s.node fun _ => b.retyped s.obj st2.helpOption st2.versionOption := by rw [retype_eq]
  have hat2 := atObj_updNode hi h (st' := (st.retype s a).1) (a := b.retyped s.obj st2.helpOption st2.versionOption) (by
    have : (st.retype s a).1.arguments = updNode st2.arguments s.node fun _ => b.retyped s.obj st2.helpOption st2.versionOption := by
      rw [← e2, he]
    rw [this, h2, hargs]
    unfold updNode
    rw [List.map_map]
    refine List.map_congr_left fun t _ => ?_
    simp only [Function.comp_def]
    by_cases hn : (t.node == s.node) = true
    · simp only [hn, if_true]
    · simp only [hn, Bool.false_eq_true, if_false])
  rw [hat] at hat2
  simpa using (Option.some.inj hat2).symm

theorem kindOf_grouped {p : Bool} {act : Action} {m : Nat} {k : Ty} {n : Nat} (h : kindOf p act m = some (k, n))
    (hg : Grouped k) : 0 < n := by
  unfold kindOf at h
  rcases hg with rfl | rfl | rfl <;> cases p <;> cases act <;> simp at h <;> grind

theorem kindOf_true {act : Action} {m : Nat} {r : Ty × Nat} (h : kindOf true act m = some r) :
    act = .none ∨ act = .infinite := by
  unfold kindOf at h; cases act <;> simp at h ⊢

theorem kindOf_true_zero (act : Action) : kindOf true act 0 = none := by
  unfold kindOf; cases act <;> simp

theorem kindOf_false_zero (act : Action) : kindOf false act 0 = some (.boolean, 0) := by
  unfold kindOf; simp

theorem kindOf_storeFalse0 {m : Nat} (h : m ≠ 0) : kindOf false .storeFalse m = some (.reverse, 0) := by
  unfold kindOf; simp [h]

theorem kindOf_help0 {m : Nat} (h : m ≠ 0) : kindOf false .help m = some (.help, 0) := by
  unfold kindOf; simp [h]

theorem kindOf_version0 {m : Nat} (h : m ≠ 0) : kindOf false .version m = some (.version, 0) := by
  unfold kindOf; simp [h]

theorem joinComma_cons_ne (g : Str) (gs : List Str) (h : g ≠ []) : joinComma (g :: gs) ≠ [] := by
  cases gs with
  | nil => exact h
  | cons _ _ => simp [joinComma, h]

/-- Grouped defaults make the displayed text longer. -/
theorem defaultsConstructor_longer (a : Argument D) (hok : a.defaultsConstructor.2 = .ok ()) (hg : Grouped a.type)
    (hn : 0 < a.nargs) (hd : a.defaults ≠ []) : a.defaultsConstructor.1.dflt ≠ a.dflt := by
  have hl : 0 < a.defaults.length := List.length_pos_iff.2 hd
  unfold Argument.defaultsConstructor at hok ⊢
  have hc : (decide (a.nargs > 0) && decide (a.defaults.length > 0)) = true := by simp [hn, hl]
  rw [if_pos hc] at hok ⊢
  have key : ∀ (hm : ¬(a.defaults.length % a.nargs != 0) = true),
      joinComma ((groupsOf a.nargs a.defaults).map fun g => "(".toList ++ joinComma g ++ ")".toList) ≠ [] := by
    intro hm
    have hm : a.defaults.length % a.nargs = 0 := by simpa using hm
    have hdiv : 0 < a.defaults.length / a.nargs :=
      Nat.div_pos (Nat.le_of_dvd hl (Nat.dvd_of_mod_eq_zero hm)) hn
    unfold groupsOf
    obtain ⟨k, hk⟩ := Nat.exists_eq_succ_of_ne_zero (Nat.ne_of_gt hdiv)
    rw [hk, List.range_succ_eq_map, List.map_cons, List.map_cons]
    exact joinComma_cons_ne _ _ (by simp)
  rcases hg with ht | ht | ht <;> simp only [ht] at hok ⊢ <;>
    (by_cases hm : (a.defaults.length % a.nargs != 0) = true
     · simp only [hm, if_true] at hok; cases hok
     · simp only [hm, Bool.false_eq_true, if_false]
       intro e
       exact key hm (by simpa using e))

theorem retype_defaults_ok {st : State D} {s : Slot D} {a : Argument D} (h1 : (st.retype s a).2 = .ok ()) :
    a.retyped s.obj st.helpOption st.versionOption =
      (a.typeConstructor s.obj st.helpOption st.versionOption).1.defaultsConstructor.1 ∧
    (a.typeConstructor s.obj st.helpOption st.versionOption).1.defaultsConstructor.2 = .ok () := by
  unfold State.retype at h1
  unfold Argument.retyped
  generalize a.typeConstructor s.obj st.helpOption st.versionOption = r at *
  obtain ⟨x, y, z, r⟩ := r
  cases r with
  | ok u => exact ⟨by rw [if_pos rfl], h1⟩
  | _ => simp at h1

theorem defaultsConstructor_defaults (a : Argument D) : a.defaultsConstructor.1.defaults = a.defaults := by
  unfold Argument.defaultsConstructor
  split
  · cases a.type <;> simp only <;> (try split) <;> rfl
  · rfl

/-- An unchanged second outcome with grouped values: there were no defaults. -/
theorem again_grouped {st : State D} {full : Prop} (hi : GInv full st) {ref : Nat} {s : Slot D} (h : st.atObj ref = some s)
    {a b : Argument D} {st2 : State D} (h2 : st2.arguments = (st.retype s a).1.arguments)
    (he : st2.retype { s with arg := a.retyped s.obj st.helpOption st.versionOption } b = ((st.retype s a).1, .ok ()))
    (hb : b.dflt = (a.retyped s.obj st.helpOption st.versionOption).dflt) (hbd : b.defaults = a.defaults)
    (hg : Grouped (a.retyped s.obj st.helpOption st.versionOption).type)
    (hn : 0 < (a.retyped s.obj st.helpOption st.versionOption).nargs) :
    a.defaults = [] := by
  have hsame := again_same hi h h2 he
  have hok2 : (st2.retype { s with arg := a.retyped s.obj st.helpOption st.versionOption } b).2 = .ok () := by rw [he]
  obtain ⟨r1, r2⟩ := retype_defaults_ok hok2
  simp only at r1 r2
  rw [hsame] at r1
  obtain ⟨t, n, act, hsh, _⟩ := typeConstructor_shape s.obj st2.helpOption st2.versionOption b
  have hf := defaultsConstructor_frame (b.typeConstructor s.obj st2.helpOption st2.versionOption).1
  refine Classical.byContradiction fun hd => ?_
  refine defaultsConstructor_longer _ r2 ?_ ?_ ?_ ?_
  · rw [← hf.2.1, ← r1]; exact hg
  · rw [← hf.2.2.2.2.1, ← r1]; exact hn
  · rw [hsh]; simp only; rw [hbd]; exact hd
  · rw [← r1, ← hb, hsh]

/-- C15 for `nargs`: after a successful `nargs(m)`, calling it again changes nothing, except exactly in the
cases listed by `NargsSpoils`, where it does. -/
theorem C15_nargs_twice {scan : Str → Option D} {st : State D} (hr : Reachable scan st) {ref : Nat}
    {s : Slot D} (h : st.atObj ref = some s) {m : Nat} (hok : (st.nargs ref m).2 = .ok ()) :
    (st.nargs ref m).1.nargs ref m = ((st.nargs ref m).1, .ok ()) ↔ ¬NargsSpoils s.arg m := by
  have hi := hr.inv
  constructor
  · intro he hsp
    have ea : st.nargs ref m = st.retype s { s.arg with nargs := m } := by
      unfold State.nargs State.withRef; rw [h]
    rw [ea] at hok he
    have hat := atObj_updNode hi h (st' := (st.retype s { s.arg with nargs := m }).1)
      (a := Argument.retyped s.obj st.helpOption st.versionOption { s.arg with nargs := m }) (by rw [retype_eq])
    have ea2 : ∀ st' : State D, ∀ s' : Slot D, st'.atObj ref = some s' →
        st'.nargs ref m = st'.retype s' { s'.arg with nargs := m } := by
      intro st' s' h'
      unfold State.nargs State.withRef; rw [h']
    rw [ea2 _ _ hat] at he
    obtain ⟨k, n, g0, g1, g2, g3, g4, _⟩ := retype_ok hok
    cases hsp with
    | plus hp ha hm =>
      have hs := again_same hi h rfl he
      have hok2 : ((st.retype s { s.arg with nargs := m }).1.retype
          { s with arg := Argument.retyped s.obj st.helpOption st.versionOption { s.arg with nargs := m } }
          { Argument.retyped s.obj st.helpOption st.versionOption { s.arg with nargs := m } with nargs := m }).2 = .ok () := by
        rw [he]
      obtain ⟨k2, n2, f0, f1, _⟩ := retype_ok hok2
      simp only at f1
      rw [hs, g1] at f1
      have e0 : kindOf true .none 43 = some (k, n) := by
        rw [← hp, ← ha, ← hm]; exact g0
      have hk : k = .infinitePos := by
        have : kindOf true .none 43 = some (.infinitePos, 1) := by decide
        rw [this] at e0; simp at e0; exact e0.1.symm
      subst hk
      have hact : (Argument.retyped s.obj st.helpOption st.versionOption { s.arg with nargs := m }).action = .infinite := by
        rw [g4]; simp
      have hpos : (Argument.retyped s.obj st.helpOption st.versionOption { s.arg with nargs := m }).isPositional = true := by
        rw [g3]; exact hp
      have e1 : kindOf true .infinite 43 = some (k2, n2) := by
        rw [← f0]
        show _ = kindOf (Argument.isPositional (Argument.retyped s.obj st.helpOption st.versionOption { s.arg with nargs := m }))
          (Argument.retyped s.obj st.helpOption st.versionOption { s.arg with nargs := m }).action m
        rw [hact, hpos, hm]
      have : kindOf true .infinite 43 = some (.infiniteNumberPos, 43) := by decide
      rw [this] at e1
      simp only [Option.some.injEq, Prod.mk.injEq] at e1
      rw [← e1.1] at f1
      cases f1
    | grouped k' n' hk' hg hd =>
      have : some (k', n') = some (k, n) := hk'.symm.trans g0
      simp only [Option.some.injEq, Prod.mk.injEq] at this
      obtain ⟨rfl, rfl⟩ := this
      exact hd (again_grouped (a := { s.arg with nargs := m }) hi h rfl he rfl (by
        obtain ⟨r1, _⟩ := retype_defaults_ok hok
        obtain ⟨t, n, act, hsh, _⟩ := typeConstructor_shape s.obj st.helpOption st.versionOption ({ s.arg with nargs := m } : Argument D)
        simp only
        rw [r1, defaultsConstructor_defaults, hsh]) (g1 ▸ hg) (g2 ▸ kindOf_grouped hk' hg))
  · intro hn
    refine nargs_twice hr h hok (fun ⟨h1, h2, h3⟩ => hn (.plus h1 h2 h3)) fun k n hk hg => ?_
    exact Classical.byContradiction fun hd => hn (.grouped k n hk hg hd)

/-- C15 for `action`: after a successful `action(act)`, calling it again changes nothing, except exactly in
the cases listed by `ActionSpoils`, where it does. -/
theorem C15_action_twice {scan : Str → Option D} {st : State D} (hr : Reachable scan st) {ref : Nat}
    {s : Slot D} (h : st.atObj ref = some s) {act : Action} (hok : (st.action ref act).2 = .ok ()) :
    (st.action ref act).1.action ref act = ((st.action ref act).1, .ok ()) ↔ ¬ActionSpoils st s.arg act := by
  have hi := hr.inv
  have ea := action_eq h act
  generalize hst0 : ({ st with helpOption := st.helpBut s, versionOption := st.versionBut s } : State D) = st0 at ea
  rw [ea] at hok ⊢
  have hi0 : Inv st0 := hst0 ▸ inv_of_eq hi rfl rfl rfl rfl rfl
  have h0 : st0.atObj ref = some s := hst0 ▸ h
  have hH : st0.helpOption = st.helpBut s := by rw [← hst0]
  have hV : st0.versionOption = st.versionBut s := by rw [← hst0]
  obtain ⟨k, n, g0, g1, g2, g3, g4, g5, g6, g7, g8⟩ := retype_ok hok
  have hat := atObj_updNode hi0 h0 (st' := (st0.retype s { s.arg with action := act }).1)
    (a := Argument.retyped s.obj st0.helpOption st0.versionOption { s.arg with action := act }) (by rw [retype_eq])
  simp only at g0 g4
  have hp : Argument.isPositional ({ s.arg with action := act } : Argument D) = s.arg.isPositional := rfl
  rw [hp] at g0 g3
  have hdef : (Argument.retyped s.obj st0.helpOption st0.versionOption { s.arg with action := act }).defaults = s.arg.defaults := by
    obtain ⟨r1, _⟩ := retype_defaults_ok hok
    obtain ⟨t, n, act, hsh, _⟩ := typeConstructor_shape s.obj st0.helpOption st0.versionOption ({ s.arg with action := act } : Argument D)
    rw [r1, defaultsConstructor_defaults, hsh]
  rw [action_eq hat]
  generalize hA : Argument.retyped s.obj st0.helpOption st0.versionOption { s.arg with action := act } = A at *
  generalize hst2 : ({ (st0.retype s { s.arg with action := act }).1 with
    helpOption := (st0.retype s { s.arg with action := act }).1.helpBut { s with arg := A },
    versionOption := (st0.retype s { s.arg with action := act }).1.versionBut { s with arg := A } } : State D) = st2
  have h2args : st2.arguments = (st0.retype s { s.arg with action := act }).1.arguments := by rw [← hst2]
  have h2H : st2.helpOption = if A.action == .help then none else (st0.retype s { s.arg with action := act }).1.helpOption := by
    rw [← hst2]; rfl
  have h2V : st2.versionOption = if A.action == .version then none else (st0.retype s { s.arg with action := act }).1.versionOption := by
    rw [← hst2]; rfl
  constructor
  · intro he hsp
    have hok2 : (st2.retype { s with arg := A } { A with action := act }).2 = .ok () := by rw [he]
    have hs := again_same hi0 h0 (a := { s.arg with action := act }) (st2 := st2) h2args (by rw [hA]; exact he)
    rw [hA] at hs
    obtain ⟨k2, n2, f0, f1, f2, f3, f4, f5, f6, f7, f8⟩ := retype_ok hok2
    simp only at f0 f1 f2
    rw [hs, g1] at f1
    rw [hs, g2] at f2
    subst f1 f2
    have f0' : kindOf s.arg.isPositional act n = some (k, n) := by
      rw [← f0, ← g3, g2]; rfl
    have hpos : ∀ x, act = x → x ≠ .none → x ≠ .infinite → s.arg.isPositional = false := by
      intro x e h1 h2
      subst e
      cases hq : s.arg.isPositional with
      | false => rfl
      | true => rw [hq] at g0; rcases kindOf_true g0 with e | e <;> contradiction
    cases hsp with
    | storeFalse hn =>
      rw [hpos _ rfl (by simp) (by simp)] at g0 f0'
      rw [kindOf_storeFalse0 hn] at g0
      simp only [Option.some.injEq, Prod.mk.injEq] at g0
      obtain ⟨rfl, rfl⟩ := g0
      rw [kindOf_false_zero] at f0'
      simp at f0'
    | help hn =>
      rw [hpos _ rfl (by simp) (by simp)] at g0 f0'
      rw [kindOf_help0 hn] at g0
      simp only [Option.some.injEq, Prod.mk.injEq] at g0
      obtain ⟨rfl, rfl⟩ := g0
      rw [kindOf_false_zero] at f0'
      simp at f0'
    | version hn =>
      rw [hpos _ rfl (by simp) (by simp)] at g0 f0'
      rw [kindOf_version0 hn] at g0
      simp only [Option.some.injEq, Prod.mk.injEq] at g0
      obtain ⟨rfl, rfl⟩ := g0
      rw [kindOf_false_zero] at f0'
      simp at f0'
    | helpOfOther hn ha hne =>
      rw [hpos _ rfl (by simp) (by simp), hn, kindOf_false_zero] at g0
      simp only [Option.some.injEq, Prod.mk.injEq] at g0
      obtain ⟨rfl, rfl⟩ := g0
      have e1 := f5 (by simp)
      have e2 := g5 (by simp)
      rw [he, e2, hH] at e1
      rw [h2H, g4] at e1
      unfold State.helpBut at e1
      rw [if_neg (by simpa using ha)] at e1
      simp at e1
      exact hne e1
    | versionOfOther hn ha hne =>
      rw [hpos _ rfl (by simp) (by simp), hn, kindOf_false_zero] at g0
      simp only [Option.some.injEq, Prod.mk.injEq] at g0
      obtain ⟨rfl, rfl⟩ := g0
      have e1 := f7 (by simp)
      have e2 := g7 (by simp)
      rw [he, e2, hV] at e1
      rw [h2V, g4] at e1
      unfold State.versionBut at e1
      rw [if_neg (by simpa using ha)] at e1
      simp at e1
      exact hne e1
    | plus hn =>
      rw [hn] at g0
      cases hq : s.arg.isPositional <;> rw [hq] at g0 f0'
      · rw [show kindOf false .none 43 = some (.infinite, 1) by decide] at g0
        simp only [Option.some.injEq, Prod.mk.injEq] at g0
        obtain ⟨rfl, rfl⟩ := g0
        rw [show kindOf false .none 1 = some (.simple, 1) by decide] at f0'
        simp at f0'
      · rw [show kindOf true .none 43 = some (.infinitePos, 1) by decide] at g0
        simp only [Option.some.injEq, Prod.mk.injEq] at g0
        obtain ⟨rfl, rfl⟩ := g0
        rw [show kindOf true .none 1 = some (.pos, 1) by decide] at f0'
        simp at f0'
    | grouped _ k' n' hk' hg hd =>
      have : some (k', n') = some (k, n) := hk'.symm.trans g0
      simp only [Option.some.injEq, Prod.mk.injEq] at this
      obtain ⟨rfl, rfl⟩ := this
      exact hd (again_grouped (a := { s.arg with action := act }) (b := { A with action := act }) hi0 h0 h2args
        (by rw [hA]; exact he) (by rw [hA]) hdef (by rw [hA, g1]; exact hg) (by rw [hA, g2]; exact kindOf_grouped hk' hg))
  · intro hn
    have hst2' : st2 = (st0.retype s { s.arg with action := act }).1 := by
      have hb : A.action = .help → (st0.retype s { s.arg with action := act }).1.helpOption = none := by
        intro e
        rw [g4] at e
        split at e
        · cases e
        · subst e
          by_cases hz : s.arg.nargs = 0
          · have hk : k ≠ .help := by
              rintro rfl
              rw [hz] at g0
              cases hq : s.arg.isPositional <;> rw [hq] at g0
              · rw [kindOf_false_zero] at g0; simp at g0
              · rw [kindOf_true_zero] at g0; cases g0
            rw [g5 hk, hH]
            unfold State.helpBut
            split
            · rfl
            · rename_i hx
              exact Classical.byContradiction fun hc => hn (.helpOfOther hz (by simpa using hx) hc)
          · exact absurd (.help hz) hn
      have hb' : A.action = .version → (st0.retype s { s.arg with action := act }).1.versionOption = none := by
        intro e
        rw [g4] at e
        split at e
        · cases e
        · subst e
          by_cases hz : s.arg.nargs = 0
          · have hk : k ≠ .version := by
              rintro rfl
              rw [hz] at g0
              cases hq : s.arg.isPositional <;> rw [hq] at g0
              · rw [kindOf_false_zero] at g0; simp at g0
              · rw [kindOf_true_zero] at g0; cases g0
            rw [g7 hk, hV]
            unfold State.versionBut
            split
            · rfl
            · rename_i hx
              exact Classical.byContradiction fun hc => hn (.versionOfOther hz (by simpa using hx) hc)
          · exact absurd (.version hz) hn
      have e1 : (st0.retype s { s.arg with action := act }).1.helpBut { s with arg := A } =
          (st0.retype s { s.arg with action := act }).1.helpOption := by
        unfold State.helpBut
        split
        · rename_i hx; rw [hb (by simpa using hx)]
        · rfl
      have e2 : (st0.retype s { s.arg with action := act }).1.versionBut { s with arg := A } =
          (st0.retype s { s.arg with action := act }).1.versionOption := by
        unfold State.versionBut
        split
        · rename_i hx; rw [hb' (by simpa using hx)]
        · rfl
      rw [← hst2, e1, e2]
    rw [hst2', ← hA]
    have hk2 : kindOf s.arg.isPositional act n = some (k, n) := by
      by_cases hz : s.arg.nargs = 0
      · rw [hz] at g0
        cases hq : s.arg.isPositional with
        | true => rw [hq, kindOf_true_zero] at g0; cases g0
        | false =>
          rw [hq, kindOf_false_zero] at g0
          simp only [Option.some.injEq, Prod.mk.injEq] at g0
          obtain ⟨rfl, rfl⟩ := g0
          exact kindOf_false_zero _
      · refine kindOf_action_again g0 ?_ ?_ ?_ ?_
        · rintro rfl; exact hn (.storeFalse hz)
        · rintro rfl; exact hn (.help hz)
        · rintro rfl; exact hn (.version hz)
        · rintro ⟨rfl, h43⟩; exact hn (.plus h43)
    refine retype_again hok ?_ ?_
    · rw [hA]
      have hk3 : kindOf (Argument.isPositional ({ A with action := act } : Argument D)) act A.nargs = some (k, n) := by
        rw [g2, ← hk2]
        congr 1
      exact typeConstructor_same hk3 g6 g8 g1 g2 g4 ⟨act, A.nargs, rfl⟩
    · intro hgr
      rw [hA, g1] at hgr
      exact Classical.byContradiction fun hd => hn (.grouped act k n g0 hgr hd)

/-- Both sides of C15 occur: APPEND is harmless, STORE_FALSE is not, and HELP on a plain boolean is not
when another argument is the help option. -/
example : (∃ s, demo.atObj 0 = some s ∧ s.arg.nargs ≠ 0 ∧ (demo.action 0 .storeFalse).2 = .ok ()) ∧
    (demo.action 0 .append).1.action 0 .append = ((demo.action 0 .append).1, .ok ()) ∧
    ((demo.action 0 .help).1.nargs 2 0).1.helpOption = some 0 ∧
    (((demo.action 0 .help).1.nargs 2 0).1.action 2 .help).1.helpOption = some 0 ∧
    ((((demo.action 0 .help).1.nargs 2 0).1.action 2 .help).1.action 2 .help).1.helpOption = none := by
  refine ⟨⟨_, rfl, ?_, ?_⟩, rfl, ?_, ?_, ?_⟩ <;> decide +kernel

end BletArgs
