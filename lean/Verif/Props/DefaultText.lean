import Verif.Props.Settings
import Verif.Props.Alloc
import Verif.Props.Convert
import Verif.Props.Registry
import Verif.Props.Parse
/-
C98: what getDefault() and getDefaults() tell.
-/
namespace BletArgs
namespace Spec
variable {D : Type}

/-- The parser after the calls `ops`, the first one first, of a program that went on after each of them (some may have thrown). -/
inductive History (scan : Str → Option D) : List Op → State D → Prop
  | start : History scan [] State.init
  | call {ops : List Op} {st : State D} (op : Op) : History scan ops st → (step scan st op).2.goesOn = true →
      History scan (ops ++ [op]) (step scan st op).1

/-- The list of the last call of `defaults` through the reference, empty if there was none. -/
def lastDefaults (ref : Nat) (ops : List Op) : List Str :=
  ((ops.filterMap fun
    | .defaults r ds => if r = ref then some ds else none
    | _ => none).getLast?).getD []

/-- The text of a group of values. -/
def bracketed (g : List Str) : Str := "(".toList ++ commaSep g ++ ")".toList

/-- The calls that can change what `getDefault()` tells for the argument `s`: `defaults` with values, and `nargs` and `action` if
the argument remembers defaults. -/
def Retells (s : Slot D) : Op → Prop
  | .defaults r ds => r = s.obj ∧ ds ≠ []
  | .nargs r _ => r = s.obj ∧ s.arg.defaults ≠ []
  | .action r _ => r = s.obj ∧ s.arg.defaults ≠ []
  | _ => False

end Spec

open Spec
variable {D : Type} {full : Prop}

theorem Spec.History.reachable {scan : Str → Option D} {ops : List Op} {st : State D} (h : History scan ops st) : Reachable scan st := by
  induction h with
  | start => exact .init
  | call op _ hg ih => exact .step op ih hg

theorem step_nextObj {scan : Str → Option D} {st : State D} (hi : Inv st) (op : Op)
    (hg : (step scan st op).2.goesOn = true) : st.nextObj ≤ (step scan st op).1.nextObj := by
  by_cases hk : op.keepsPtrs = true
  · exact step_next hi op hk
  by_cases ht : op.isTweak = true
  · rw [(tweak_sameReg (scan := scan) hi op ht).nextObj]
    exact Nat.le_refl _
  cases op with
  | remove names =>
    change _ ≤ (st.removeArguments names).1.nextObj
    unfold State.removeArguments
    split
    · exact Nat.le_refl _
    · split
      · exact Nat.le_refl _
      · have h := (removeLoop_old names hi.toPreInv).1
        revert h
        generalize State.removeLoop names st = x
        obtain ⟨y, res⟩ := x
        intro h
        have h : y.nextObj = st.nextObj := h
        cases res with
        | ok u => simp only; rw [sortArguments_next, h]; exact Nat.le_refl _
        | _ => simp only; rw [h]; exact Nat.le_refl _
  | clear => exact Nat.le_refl _
  | parse argv =>
    rcases parse_sameReg hi argv hg with e | ⟨_, _, e⟩
    · exact e.nextObj ▸ Nat.le_refl _
    · change _ ≤ (st.parseArguments scan argv).1.nextObj
      rw [e.nextObj]; exact Nat.le_succ _
  | _ => first | exact absurd rfl ht | exact absurd rfl hk

theorem retyped_untold (self : Nat) (h v : Option Nat) (a : Argument D) (hd : a.defaults = []) :
    (a.retyped self h v).dflt = a.dflt := by
  unfold Argument.retyped
  obtain ⟨t, n, act, e, _⟩ := typeConstructor_shape self h v a
  rw [e]
  split
  · unfold Argument.defaultsConstructor
    rw [if_neg (by simp [hd])]
  · rfl

theorem retyped_defaults (self : Nat) (h v : Option Nat) (a : Argument D) : (a.retyped self h v).defaults = a.defaults := by
  rw [retyped_alters]

theorem defaultsConstructor_untold (a : Argument D) (hd : a.defaults = []) : a.defaultsConstructor.1.dflt = a.dflt := by
  unfold Argument.defaultsConstructor
  rw [if_neg (by simp [hd])]

theorem defaultsConstructor_defaults (a : Argument D) : a.defaultsConstructor.1.defaults = a.defaults := by
  rw [defaultsConstructor_alters]

theorem defaultsConstructor_refused (a : Argument D) (h : a.defaultsConstructor.2 ≠ .ok ()) : a.defaultsConstructor.1.dflt = a.dflt := by
  revert h
  unfold Argument.defaultsConstructor
  split
  · simp only
    split <;> (try split) <;> intro h <;> first | rfl | exact absurd rfl h
  · intro _; rfl

/-- What a call does to the remembered defaults of an argument. -/
theorem step_defaults {scan : Str → Option D} {st : State D} (hi : GInv full st) (op : Op)
    (hg : (step scan st op).2.goesOn = true) {s' : Slot D} (hs' : s' ∈ (step scan st op).1.arguments) :
    (s'.obj = st.nextObj ∧ s'.arg.defaults = []) ∨
    ∃ s ∈ st.arguments, s.obj = s'.obj ∧
      ((∃ ds, op = .defaults s.obj ds ∧ s'.arg.defaults = ds) ∨ ((∀ ds, op ≠ .defaults s.obj ds) ∧ s'.arg.defaults = s.arg.defaults)) := by
  rcases step_slots hi op hg hs' with ⟨s, hm, h⟩ | h
  · cases op with
    | action ref act =>
      simp only [ArgChange] at h
      refine .inr ⟨s, hm, ?_, .inr ⟨fun _ e => (by cases e), ?_⟩⟩
      · rw [h]; split <;> rfl
      · rw [h]; split
        · exact retyped_defaults ..
        · rfl
    | nargs ref n =>
      simp only [ArgChange] at h
      refine .inr ⟨s, hm, ?_, .inr ⟨fun _ e => (by cases e), ?_⟩⟩
      · rw [h]; split <;> rfl
      · rw [h]; split
        · exact retyped_defaults ..
        · rfl
    | defaults ref ds =>
      simp only [ArgChange] at h
      refine .inr ⟨s, hm, ?_, ?_⟩
      · rw [h]; split <;> rfl
      · by_cases e : s.obj = ref
        · rw [if_pos e] at h
          exact .inl ⟨ds, by rw [e], by rw [h]; exact defaultsConstructor_defaults _⟩
        · rw [if_neg e] at h
          refine .inr ⟨fun ds' e' => ?_, by rw [h]⟩
          injection e' with e1 _
          exact e e1.symm
    | dest ref d =>
      simp only [ArgChange] at h
      by_cases e : s.obj = ref
      · rw [if_pos e] at h
        exact .inl ⟨by rw [h], by rw [h]⟩
      · rw [if_neg e] at h
        exact .inr ⟨s, hm, by rw [h], .inr ⟨fun _ e => (by cases e), by rw [h]⟩⟩
    | flag ref f | remove ns =>
      simp only [ArgChange] at h
      obtain ⟨ms, rfl⟩ := h
      exact .inr ⟨s, hm, rfl, .inr ⟨fun _ e => (by cases e), rfl⟩⟩
    | parse argv =>
      simp only [ArgChange] at h
      exact .inr ⟨s, hm, (congrArg (fun x : Slot D => x.obj) h.symm :), .inr ⟨fun _ e => (by cases e),
        (congrArg (fun x : Slot D => x.arg.defaults) h :)⟩⟩
    | required ref _ | help ref _ | metavar ref _ | behave ref _ _ | edit ref _ | valid ref _ _ =>
      simp only [ArgChange] at h
      refine .inr ⟨s, hm, ?_, .inr ⟨fun _ e => (by cases e), ?_⟩⟩ <;> rw [h] <;> split <;> rfl
    | _ =>
      simp only [ArgChange] at h
      exact .inr ⟨s, hm, by rw [h], .inr ⟨fun _ e => (by cases e), by rw [h]⟩⟩
  · left
    cases op with
    | add names =>
      simp only [ArgFresh] at h
      refine ⟨h.2.1, ?_⟩
      rcases h.2.2 with ⟨n, e⟩ | ⟨fs, e⟩ <;> rw [e]
    | parse argv =>
      simp only [ArgFresh] at h
      exact ⟨h.2.2.1, (congrArg (fun x : Argument D => x.defaults) h.2.2.2 :)⟩
    | _ => exact h.elim

theorem lastDefaults_snoc (ref : Nat) (ops : List Op) (op : Op) :
    lastDefaults ref (ops ++ [op]) = match op with
      | .defaults r ds => if r = ref then ds else lastDefaults ref ops
      | _ => lastDefaults ref ops := by
  unfold lastDefaults
  rw [List.filterMap_append]
  cases op with
  | defaults r ds =>
    simp only
    by_cases e : r = ref
    · simp [e]
    · simp [e]
  | _ => simp

/-- C98, `getDefaults()`. After any history of calls an argument tells the list of the last `defaults(...)` made through its
reference, whether it was accepted or not, and the empty list if there was none (`dest` makes a new reference, for which there
was none). -/
theorem C98_list {scan : Str → Option D} {ops : List Op} {st : State D} (h : History scan ops st) {ref : Nat} {s : Slot D}
    (hs : st.atObj ref = some s) : s.arg.defaults = lastDefaults ref ops := by
  have key : (∀ s ∈ st.arguments, s.arg.defaults = lastDefaults s.obj ops) ∧ ∀ o, st.nextObj ≤ o → lastDefaults o ops = [] := by
    clear hs s ref
    induction h with
    | start => exact ⟨fun s hs => (by cases hs), fun _ _ => rfl⟩
    | @call ops st op hh hg ih =>
      obtain ⟨i1, i2⟩ := ih
      have hi : GInv True st := hh.reachable.inv
      have hle := step_nextObj (scan := scan) hi op hg
      have hold : ∀ r ds, op = .defaults r ds → r < st.nextObj := by
        intro r ds e
        subst e
        cases ha : st.atObj r with
        | none =>
          exfalso
          revert hg
          show Res.goesOn (st.setDefaults r ds).2 = true → False
          unfold State.setDefaults State.withRef
          rw [ha]
          intro hg; cases hg
        | some t =>
          obtain ⟨h1, h2⟩ := State.atObj_some ha
          rw [← h2]
          exact hi.objsLt t h1
      refine ⟨fun s' hs' => ?_, fun o ho => ?_⟩
      · rw [lastDefaults_snoc]
        rcases step_defaults hi op hg hs' with ⟨e1, e2⟩ | ⟨s, hm, e1, ⟨ds, rfl, e3⟩ | ⟨e2, e3⟩⟩
        · rw [e2]
          have := i2 s'.obj (by rw [e1]; exact Nat.le_refl _)
          split
          · rename_i r ds
            rw [if_neg, this]
            intro e
            have := hold r ds rfl
            omega
          · exact this.symm
        · simp only
          rw [if_pos e1, e3]
        · rw [e3, i1 s hm, ← e1]
          split
          · rename_i r ds
            rw [if_neg]
            intro e
            exact e2 ds (by rw [e])
          · rfl
      · have := i2 o (Nat.le_trans hle ho)
        rw [lastDefaults_snoc]
        split
        · rename_i r ds
          rw [if_neg, this]
          intro e
          have := hold r ds rfl
          omega
        · exact this
  have hm := State.atObj_some hs
  rw [key.1 s hm.1, hm.2]

/-- What `defaultsConstructor` writes. -/
theorem default_text (a : Argument D) (h1 : 0 < a.nargs) (h2 : a.defaults ≠ []) (h3 : TakesValues a.type)
    (hfit : DefaultsFit a.type a.nargs a.defaults.length) (hone : a.type = .pos ∨ a.type = .simple → a.nargs = 1) :
    ((a.type = .pos ∨ a.type = .simple) → a.defaults = [a.defaultsConstructor.1.dflt]) ∧
    (a.type ≠ .pos → a.type ≠ .simple → ¬Grouped a.type → a.defaultsConstructor.1.dflt = commaSep a.defaults ∧
      a.defaultsConstructor.1.elems.map (fun e => (e.dflt, e.subs.length)) = a.defaults.map fun d => (d, 0)) ∧
    (Grouped a.type → ∃ gs, a.defaultsConstructor.1.toVecVec = some gs ∧ gs.flatten = a.defaults ∧ (∀ g ∈ gs, g.length = a.nargs) ∧
      a.defaultsConstructor.1.dflt = a.dflt ++ commaSep (gs.map bracketed) ∧
      a.defaultsConstructor.1.elems.map (fun e => (e.dflt, e.subs.map fun l => l.dflt)) = gs.map fun g => (commaSep g, g)) := by
  have hb : (decide (a.nargs > 0) && decide (a.defaults.length > 0)) = true := by
    simp [h1, List.length_pos_iff.2 h2]
  have single : (a.type = .pos ∨ a.type = .simple) → a.defaults = [a.defaults.headD []] := by
    intro ht
    have hl : a.defaults.length = 1 := by
      rw [← hone ht]
      rcases ht with ht | ht <;> rw [ht] at hfit <;> exact hfit
    match hd : a.defaults with
    | [x] => rfl
    | [] => rw [hd] at hl; cases hl
    | _ :: _ :: _ => rw [hd] at hl; simp at hl
  have hlist : ((a.defaults.map dfltElem : List (Elem D)).map fun e => (e.dflt, e.subs.length)) = a.defaults.map fun d => (d, 0) := by
    rw [List.map_map]; rfl
  have hgr : ∀ gs : List (List Str), ((gs.map dfltGroup : List (Elem D)).map fun e => (e.dflt, e.subs.map fun l => l.dflt)) =
      gs.map fun g => (commaSep g, g) := by
    intro gs
    rw [List.map_map]
    refine List.map_congr_left fun g _ => ?_
    show (joinComma g, _) = _
    rw [joinComma_eq]
    refine Prod.ext rfl ?_
    exact map_comp_id fun _ => rfl
  have hbr : ∀ gs : List (List Str), joinComma (gs.map fun g => "(".toList ++ joinComma g ++ ")".toList) = commaSep (gs.map bracketed) := by
    intro gs
    rw [joinComma_eq]
    congr 1
    refine List.map_congr_left fun g _ => ?_
    rw [joinComma_eq]
    rfl
  have hvv : ∀ gs : List (List Str), ((gs.map dfltGroup : List (Elem D)).map fun e => e.subs.map (·.argument)) = gs := by
    intro gs
    refine map_comp_id fun g => ?_
    exact map_comp_id fun _ => rfl
  unfold Argument.defaultsConstructor
  rw [if_pos hb]
  unfold Argument.toVecVec
  unfold TakesValues at h3
  unfold Grouped
  cases ht : a.type <;> rw [ht] at h3 hfit single <;> simp only [ne_eq, not_true_eq_false, false_and, and_false] at h3 <;>
    unfold DefaultsFit at hfit <;> simp only at hfit <;> simp only
  case pos | simple =>
    rw [if_neg (by simp [hfit])]
    simp only [reduceCtorEq, false_or, or_false]
    exact ⟨fun _ => single (by simp), fun h => by simp at *, fun h => h.elim⟩
  case number | numberPos =>
    rw [if_neg (by simp [hfit])]
    simp only [reduceCtorEq, false_or]
    exact ⟨fun h => h.elim, fun _ _ _ => ⟨joinComma_eq _, hlist⟩, fun h => h.elim⟩
  case infinite | multi | multiInfinite | infinitePos =>
    simp only [reduceCtorEq, false_or]
    exact ⟨fun h => h.elim, fun _ _ _ => ⟨joinComma_eq _, hlist⟩, fun h => h.elim⟩
  all_goals
    rw [if_neg (by simp [Nat.mod_eq_zero_of_dvd hfit])]
    simp only
    refine ⟨fun h => by simp at h, fun _ _ h => absurd (by simp) h, fun _ => ⟨groupsOf a.nargs a.defaults, ?_, ?_⟩⟩
    · rw [hvv]
    · obtain ⟨g1, g2⟩ := groupsOf_flatten h1 _ hfit
      exact ⟨g1, g2, by rw [hbr], hgr _⟩

/-- C98, `getDefault()` after `defaults`. When `defaults(ds)` is accepted, `getDefault()` tells the value of an argument with one
value, the values separated by commas for a list, and for groups what it told before, followed by the groups in brackets,
separated by commas; each element tells its own value or those of its group. When it is refused, or the list is empty or the
argument holds no values, `getDefault()` tells what it told before. -/
theorem C98_text {scan : Str → Option D} {st : State D} (hr : Reachable scan st) {ref : Nat}
    {s : Slot D} (h : st.atObj ref = some s) (hset : Settled s.arg) (ds : List Str) :
    ∃ s', (st.setDefaults ref ds).1.atObj ref = some s' ∧
      ((st.setDefaults ref ds).2 ≠ .ok () ∨ s.arg.nargs = 0 ∨ ds = [] → s'.arg.dflt = s.arg.dflt) ∧
      ((st.setDefaults ref ds).2 = .ok () → 0 < s.arg.nargs → ds ≠ [] →
        ((s.arg.type = .pos ∨ s.arg.type = .simple) → ds = [s'.arg.dflt]) ∧
        (s.arg.type ≠ .pos → s.arg.type ≠ .simple → ¬Grouped s.arg.type → s'.arg.dflt = commaSep ds ∧
          s'.arg.elems.map (fun e => (e.dflt, e.subs.length)) = ds.map fun d => (d, 0)) ∧
        (Grouped s.arg.type → ∃ gs, s'.arg.toVecVec = some gs ∧ gs.flatten = ds ∧ (∀ g ∈ gs, g.length = s.arg.nargs) ∧
          s'.arg.dflt = s.arg.dflt ++ commaSep (gs.map bracketed) ∧
          s'.arg.elems.map (fun e => (e.dflt, e.subs.map fun l => l.dflt)) = gs.map fun g => (commaSep g, g))) := by
  have hi := hr.inv
  have hfit : (st.setDefaults ref ds).2 = .ok () → s.arg.nargs = 0 ∨ ds = [] ∨ DefaultsFit s.arg.type s.arg.nargs ds.length := fun hok =>
    Classical.byContradiction fun hc => by
      rw [(C17_defaults_outcome hr h ds).2.2 hc] at hok; cases hok
  rw [setDefaults_eq h] at hfit ⊢
  have hat := atObj_updNode hi h (st' := st.modNode s.node
    (fun _ => ({ s.arg with defaults := ds } : Argument D).defaultsConstructor.1)) rfl
  refine ⟨_, hat, ?_, ?_⟩
  · rintro (hn | h0)
    · exact defaultsConstructor_refused ({ s.arg with defaults := ds } : Argument D) hn
    · simp only
      unfold Argument.defaultsConstructor
      rw [if_neg]
      rcases h0 with e | e <;> simp [e]
  · intro hok h1 h2
    have hfit : DefaultsFit s.arg.type s.arg.nargs ds.length := by
      rcases hfit hok with e | e | e
      · omega
      · exact absurd e h2
      · exact e
    obtain ⟨act, n, hk⟩ := hset
    have hspec : TakesValues s.arg.type ∧ ((s.arg.type = .pos ∨ s.arg.type = .simple) → s.arg.nargs = 1) := by
      revert hk h1
      generalize s.arg.isPositional = p
      generalize s.arg.type = t
      generalize s.arg.nargs = m
      unfold kindOf TakesValues
      cases p <;> cases act <;> simp <;> grind
    exact default_text ({ s.arg with defaults := ds } : Argument D) h1 h2 hspec.1 hfit hspec.2

/-- C98, `getDefault()` otherwise. No call changes what `getDefault()` tells for an argument, on whatever it is made and whatever
it does, but `defaults` with values on it, and `nargs` and `action` on it while it remembers defaults; in particular no parse does. -/
theorem C98_kept {scan : Str → Option D} {st : State D} (hr : Reachable scan st) (op : Op) (hg : (step scan st op).2.goesOn = true)
    {ref : Nat} {s s' : Slot D} (hs : st.atObj ref = some s) (hs' : (step scan st op).1.atObj ref = some s') (hn : ¬Retells s op) :
    s'.arg.dflt = s.arg.dflt := by
  have hi := hr.inv
  have hm := State.atObj_some hs
  have hm' := State.atObj_some hs'
  have lt := hi.objsLt s hm.1
  have one : ∀ {t : Slot D}, t ∈ st.arguments → t.obj = s'.obj → t = s := fun ht e =>
    eq_of_obj hi hm.1 ht (by rw [e, hm'.2, hm.2])
  rcases step_slots hi op hg hm'.1 with ⟨t, ht, h⟩ | h
  · cases op with
    | action r act =>
      simp only [ArgChange] at h
      obtain rfl := one ht (by rw [h]; split <;> rfl)
      rw [h]
      split
      · rename_i e
        exact retyped_untold _ _ _ _ (Classical.byContradiction fun hc => hn ⟨e.symm, hc⟩)
      · rfl
    | nargs r n =>
      simp only [ArgChange] at h
      obtain rfl := one ht (by rw [h]; split <;> rfl)
      rw [h]
      split
      · rename_i e
        exact retyped_untold _ _ _ _ (Classical.byContradiction fun hc => hn ⟨e.symm, hc⟩)
      · rfl
    | defaults r ds =>
      simp only [ArgChange] at h
      obtain rfl := one ht (by rw [h]; split <;> rfl)
      rw [h]
      split
      · rename_i e
        exact defaultsConstructor_untold _ (Classical.byContradiction fun hc => hn ⟨e.symm, hc⟩)
      · rfl
    | dest r d =>
      simp only [ArgChange] at h
      by_cases e : t.obj = r
      · rw [if_pos e] at h
        have : s'.obj = st.nextObj := by rw [h]
        rw [hm'.2, ← hm.2] at this
        omega
      · rw [if_neg e] at h
        obtain rfl := one ht (by rw [h])
        rw [h]
    | flag r f | remove ns =>
      simp only [ArgChange] at h
      obtain ⟨ms, rfl⟩ := h
      obtain rfl := one ht rfl
      rfl
    | parse argv =>
      simp only [ArgChange] at h
      obtain rfl := one ht (congrArg (fun x : Slot D => x.obj) h.symm :)
      exact (congrArg (fun x : Slot D => x.arg.dflt) h :)
    | required r _ | help r _ | metavar r _ | behave r _ _ | edit r _ | valid r _ _ =>
      simp only [ArgChange] at h
      obtain rfl := one ht (by rw [h]; split <;> rfl)
      rw [h]; split <;> rfl
    | _ =>
      simp only [ArgChange] at h
      obtain rfl := one ht (by rw [h])
      rw [h]
  · have := h.obj
    rw [hm'.2, ← hm.2] at this
    omega

/-- C98, the beginning. While no call of `defaults` had values, `getDefault()` tells the empty text for every argument. -/
theorem C98_empty {scan : Str → Option D} {st : State D}
    (h : ReachableBy scan (fun _ op _ => ∀ r ds, op = .defaults r ds → ds = []) st) {s : Slot D} (hs : s ∈ st.arguments) :
    s.arg.dflt = [] ∧ s.arg.defaults = [] := by
  induction h generalizing s with
  | init => cases hs
  | @step st op hh hg hp ih =>
    have hi := hh.reachable.inv
    rcases step_slots hi op hg hs with ⟨t, ht, h⟩ | h
    · obtain ⟨i1, i2⟩ := ih ht
      cases op with
      | action r act =>
        simp only [ArgChange] at h
        rw [h]
        split
        · exact ⟨(retyped_untold _ _ _ ({ t.arg with action := act } : Argument D) i2).trans i1, (retyped_defaults ..).trans i2⟩
        · exact ⟨i1, i2⟩
      | nargs r n =>
        simp only [ArgChange] at h
        rw [h]
        split
        · exact ⟨(retyped_untold _ _ _ ({ t.arg with nargs := n } : Argument D) i2).trans i1, (retyped_defaults ..).trans i2⟩
        · exact ⟨i1, i2⟩
      | defaults r ds =>
        simp only [ArgChange] at h
        rw [h]
        split
        · have := hp r ds rfl
          exact ⟨(defaultsConstructor_untold _ this).trans i1, (defaultsConstructor_defaults _).trans this⟩
        · exact ⟨i1, i2⟩
      | dest r d =>
        simp only [ArgChange] at h
        rw [h]
        split
        · exact ⟨i1, rfl⟩
        · exact ⟨i1, i2⟩
      | flag r f | remove ns =>
        simp only [ArgChange] at h
        obtain ⟨ms, rfl⟩ := h
        exact ⟨i1, i2⟩
      | parse argv =>
        simp only [ArgChange] at h
        exact ⟨(congrArg (fun x : Slot D => x.arg.dflt) h :).trans i1, (congrArg (fun x : Slot D => x.arg.defaults) h :).trans i2⟩
      | required r _ | help r _ | metavar r _ | behave r _ _ | edit r _ | valid r _ _ =>
        simp only [ArgChange] at h
        rw [h]; split <;> exact ⟨i1, i2⟩
      | _ =>
        simp only [ArgChange] at h
        rw [h]; exact ⟨i1, i2⟩
    · cases op with
      | add names =>
        simp only [ArgFresh] at h
        rcases h.2.2 with ⟨n, e⟩ | ⟨fs, e⟩ <;> rw [e] <;> exact ⟨rfl, rfl⟩
      | parse argv =>
        simp only [ArgFresh] at h
        exact ⟨(congrArg (fun x : Argument D => x.dflt) h.2.2.2 :), (congrArg (fun x : Argument D => x.defaults) h.2.2.2 :)⟩
      | _ => exact h.elim

/-! ### The hypotheses are met by concrete cases -/

theorem history_runOps {scan : Str → Option D} (ops : List Op) : ∀ {pre : List Op} {st : State D}, History scan pre st →
    opsGoOn scan st ops = true → History scan (pre ++ ops) (runOps scan st ops) := by
  induction ops with
  | nil => intro pre st h _; rw [List.append_nil]; exact h
  | cons op ops ih =>
    intro pre st h hg
    unfold opsGoOn at hg
    rw [Bool.and_eq_true] at hg
    have := ih (.call op h hg.1) hg.2
    rw [List.append_assoc] at this
    exact this

/-- Groups, a list, and one value. -/
def tellingOps : List Op :=
  [.add ["-g".toList], .nargs 0 2, .action 0 .append, .defaults 0 (["a", "b", "c", "d"].map String.toList),
   .add ["-l".toList], .nargs 1 43, .defaults 1 (["x", "y"].map String.toList),
   .add ["-o".toList], .defaults 2 ["1".toList], .defaults 2 (["1", "2"].map String.toList),
   .add ["-h".toList], .action 3 .help, .parse ["prog".toList]]

def telling : State Unit := runOps demoScan State.init tellingOps

theorem telling_history : History demoScan tellingOps telling := history_runOps _ .start (by decide +kernel)

/-- The last `defaults` of `-o` was refused, `getDefaults()` tells its list all the same, `getDefault()` the one before. -/
example : telling.arguments.map (fun s => (s.arg.names, s.arg.dflt, s.arg.defaults)) =
    [(["-g".toList], "(a, b), (c, d)".toList, ["a", "b", "c", "d"].map String.toList),
     (["-h".toList], [], []),
     (["-l".toList], "x, y".toList, ["x", "y"].map String.toList),
     (["-o".toList], "1".toList, ["1", "2"].map String.toList)] := by decide +kernel

section
attribute [local irreducible] telling
example : (argOf telling 2).arg.defaults = ["1", "2"].map String.toList :=
  (C98_list telling_history (argOf_at telling 2 (by decide +kernel))).trans (by decide +kernel)
example := C98_text telling_history.reachable (argOf_at telling 0 (by decide +kernel)) ⟨.append, 2, by decide +kernel⟩
  (["e", "f"].map String.toList)
example := C98_text telling_history.reachable (argOf_at telling 1 (by decide +kernel)) ⟨.none, 43, by decide +kernel⟩
  (["e", "f"].map String.toList)
example : (telling.setDefaults 0 (["e", "f"].map String.toList)).2 = .ok () ∧ Grouped (argOf telling 0).arg.type ∧
    ((telling.setDefaults 0 (["e", "f"].map String.toList)).1.atObj 0).map (fun s => s.arg.dflt) =
      some "(a, b), (c, d)(e, f)".toList ∧
    (telling.setDefaults 1 (["e", "f"].map String.toList)).2 = .ok () ∧
    (telling.setDefaults 2 (["e", "f"].map String.toList)).2 ≠ .ok () := by
  refine ⟨by decide +kernel, .inr (.inl (by decide +kernel)), by decide +kernel, by decide +kernel, by decide +kernel⟩
example : ∀ s', (step demoScan telling (.flag 0 "--groups".toList)).1.atObj 0 = some s' → s'.arg.dflt = "(a, b), (c, d)".toList :=
  fun s' h => (C98_kept telling_history.reachable (.flag 0 "--groups".toList) (by decide +kernel)
    (argOf_at telling 0 (by decide +kernel)) h id).trans (by decide +kernel)
/-- The exceptions are there: `nargs` on groups with defaults writes their text again. -/
example : ((telling.nargs 0 2).1.atObj 0).map (fun s => s.arg.dflt) = some "(a, b), (c, d)(a, b), (c, d)".toList := by decide +kernel
end

/-- No `defaults` with values. -/
def untoldOps : List Op := [.add ["-g".toList], .nargs 0 2, .action 0 .append, .defaults 0 [], .parse ["prog".toList, "-g".toList, "1".toList, "2".toList]]

theorem reachableBy_untold {scan : Str → Option D} (ops : List Op) : ∀ {st : State D},
    ReachableBy scan (fun _ op _ => ∀ r ds, op = .defaults r ds → ds = []) st → opsGoOn scan st ops = true →
    (∀ op ∈ ops, ∀ r ds, op = .defaults r ds → ds = []) →
    ReachableBy scan (fun _ op _ => ∀ r ds, op = .defaults r ds → ds = []) (runOps scan st ops) := by
  induction ops with
  | nil => intro st h _ _; exact h
  | cons op ops ih =>
    intro st h hg hp
    unfold opsGoOn at hg
    rw [Bool.and_eq_true] at hg
    exact ih (.step op h hg.1 (hp op List.mem_cons_self)) hg.2 fun o ho => hp o (List.mem_cons_of_mem _ ho)

example : ∀ s ∈ (runOps demoScan State.init untoldOps : State Unit).arguments, s.arg.dflt = [] ∧ s.arg.defaults = [] := by
  intro s hs
  refine C98_empty (reachableBy_untold untoldOps .init (by decide +kernel) ?_) hs
  intro op hop r ds e
  subst e
  unfold untoldOps at hop
  simp at hop
  exact hop.2
example : ((runOps demoScan State.init untoldOps : State Unit).arguments.map fun s => s.arg.toVector) ≠ [] := by decide +kernel

end BletArgs
