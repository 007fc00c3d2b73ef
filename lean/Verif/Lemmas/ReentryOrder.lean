import Verif.Lemmas.Reentry
import Verif.Lemmas.Calls
/-
Lemmas: the last loop with user code that makes no calls, or only calls that leave the arguments where they are.
-/
namespace BletArgs
open Spec
variable {D : Type} {U R : Type} {full : Prop}

namespace Reentry

theorem modNode_self {st : State D} (hn : (st.arguments.map (·.node)).Nodup) {s : Slot D} {node : Nat} (hs : st.atNode node = some s) :
    (st.modNode node fun _ => s.arg) = st := by
  have hm := State.atNode_some hs
  have : st.arguments.map (fun t => if t.node == node then { t with arg := s.arg } else t) = st.arguments := by
    conv => rhs; rw [← List.map_id st.arguments]
    refine List.map_congr_left fun t ht => ?_
    split
    · rename_i e
      have h2 := State.atNode_of_mem hn ht
      rw [show t.node = node by simpa using e, hs] at h2
      cases h2
      rfl
    · rfl
  unfold State.modNode
  rw [this]

theorem modNode_at {done ss : List (Slot D)} {s : Slot D} (st : State D) (h : st.arguments = done ++ s :: ss)
    (hn : (st.arguments.map (·.node)).Nodup) (f : Argument D → Argument D) :
    st.modNode s.node f = { st with arguments := done ++ { s with arg := f s.arg } :: ss } := by
  unfold State.modNode
  congr 1
  rw [h] at hn ⊢
  rw [List.map_append, List.map_cons]
  rw [List.map_append, List.map_cons, List.nodup_append, List.nodup_cons] at hn
  obtain ⟨_, ⟨h2, _⟩, h3⟩ := hn
  congr 1
  · conv => rhs; rw [← List.map_id done]
    refine List.map_congr_left fun t ht => ?_
    rw [if_neg]
    · rfl
    · intro e
      exact h3 t.node (List.mem_map.2 ⟨t, ht, rfl⟩) s.node (by simp) (by simpa using e)
  · congr 1
    · simp
    · conv => rhs; rw [← List.map_id ss]
      refine List.map_congr_left fun t ht => ?_
      rw [if_neg]
      · rfl
      · intro e
        exact h2 (List.mem_map.2 ⟨t, ht, by simpa using e⟩)

theorem atNode_at {done ss : List (Slot D)} {s : Slot D} (st : State D) (h : st.arguments = done ++ s :: ss)
    (hn : (st.arguments.map (·.node)).Nodup) : st.atNode s.node = some s :=
  State.atNode_of_mem hn (by rw [h]; simp)

theorem next_at {done ss : List (Slot D)} {s : Slot D} (st : State D) (h : st.arguments = done ++ s :: ss)
    (hn : (st.arguments.map (·.node)).Nodup) : st.nextNodeOf s.node = some (ss.head?.map (·.node)) := by
  have e : st.arguments.dropWhile (fun t => t.node != s.node) = s :: ss := by
    rw [h] at hn ⊢
    rw [List.map_append, List.nodup_append] at hn
    rw [List.dropWhile_append_of_pos]
    · rw [List.dropWhile_cons_of_neg]
      simp
    · intro t ht
      have := hn.2.2 t.node (List.mem_map.2 ⟨t, ht, rfl⟩) s.node (by simp)
      simpa using this
  unfold State.nextNodeOf
  rw [e]
  cases ss <;> rfl

/-! ### Code that makes no calls -/

theorem check_silent {scan : Str → Option D} (code : LookingCode D U) (p : ParseFn D U) {st : State D}
    (hn : (st.arguments.map (·.node)).Nodup) {node : Nat} {s : Slot D} (hs : st.atNode node = some s) (u : U) :
    st.checkCalling scan (silentCode code) p node u =
      (st.modNode node (fun _ => (s.arg.runValidIn (code st.visible) u).1), (s.arg.runValidIn (code st.visible) u).2.1,
        (s.arg.runValidIn (code st.visible) u).2.2) := by
  unfold State.checkCalling
  rw [hs, Tune.runValidIn_eq]
  simp only
  cases s.arg.valid with
  | none => simp only; rw [modNode_self hn hs]
  | some v =>
    simp only
    split
    · simp only [silentCode, Script.run]
      generalize (code st.visible).check v.id _ u = x
      obtain ⟨r, u1⟩ := x
      cases r with
      | throwOther e => simp only [Tune.react]; rw [modNode_self hn hs]
      | _ => simp only [hs]; rfl
    · simp only; rw [modNode_self hn hs]

theorem dest_silent {scan : Str → Option D} (code : LookingCode D U) (p : ParseFn D U) {st : State D} {node : Nat} {s : Slot D}
    (hs : st.atNode node = some s) (u : U) :
    st.destCalling scan (silentCode code) p node u =
      ({ st with destLog := st.destLog ++ (s.arg.toDestIn (code st.visible) u).1 }, (s.arg.toDestIn (code st.visible) u).2) := by
  unfold State.destCalling
  rw [hs]
  simp only
  cases hd : s.arg.dest with
  | none =>
    simp only [Argument.toDestIn, hd, List.append_nil]
  | some d =>
    simp only
    cases hc : d.custom with
    | true =>
      have e : s.arg.toDestIn (code st.visible) u = (code st.visible).invoke u (s.arg.callbackCall d) := by
        unfold Argument.toDestIn Argument.callbackCall
        rw [hd]
        simp only
        cases d.kind <;> simp only [hc, if_true]
      rw [e]
      simp only [if_true, silentCode, Script.run, UserCode.invoke]
      generalize (code st.visible).call _ u = x
      obtain ⟨r, u1⟩ := x
      cases r <;> rfl
    | false =>
      have e : ∀ c1 c2 : UserCode U, c1.assigned = c2.assigned → s.arg.toDestIn c1 u = s.arg.toDestIn c2 u := by
        intro c1 c2 h
        unfold Argument.toDestIn UserCode.assign
        rw [hd, h]
        simp only
        cases d.kind <;> simp only [hc, Bool.false_eq_true, if_false]
      simp only [Bool.false_eq_true, if_false]
      have e' := e ⟨fun _ _ u => (.reject, u), fun _ u => (none, u), fun w => (silentCode code).assigned w st.visible⟩ (code st.visible) rfl
      rw [e']

theorem lastLoop_silent (scan : Str → Option D) (code : LookingCode D U) (st0 : State D) (l done : List (Slot D)) (log : List DestWrite)
    (u : U) (hn : ((done ++ l).map (·.node)).Nodup) (f : Nat) (hf : l.length ≤ f) :
    let r := finishAllLooking scan (fun v => code { v with destLog := [] }) st0.readable u done l
    ∃ visited, State.lastLoop scan (silentCode code) f (l.head?.map (·.node)) { st0 with arguments := done ++ l, destLog := log } u =
      ({ st0 with arguments := done ++ r.1, destLog := log ++ r.2.1 }, r.2.2.1, r.2.2.2, visited) := by
  induction l generalizing done log u f with
  | nil =>
    refine ⟨[], ?_⟩
    unfold State.lastLoop finishAllLooking
    simp
  | cons s ss ih =>
    cases f with
    | zero => simp at hf
    | succ f =>
      simp only [List.head?_cons, Option.map_some]
      rw [lastLoop_succ]
      generalize hst : ({ st0 with arguments := done ++ s :: ss, destLog := log } : State D) = st
      have ha : st.arguments = done ++ s :: ss := by rw [← hst]
      have hn' : (st.arguments.map (·.node)).Nodup := by rw [ha]; exact hn
      rw [check_silent code _ hn' (atNode_at st ha hn') u]
      unfold finishAllLooking Argument.finishLooking
      have hv : code st.visible = (fun v : State D => code { v with destLog := [] }) (st0.readable (done ++ { s with arg := s.arg } :: ss)) := by
        rw [← hst]; rfl
      rw [hv]
      generalize hx : s.arg.runValidIn _ u = x
      obtain ⟨a1, r, u1⟩ := x
      simp only
      rw [modNode_at st ha hn']
      cases r with
      | ok _ =>
        simp only
        have hn1 : ((done ++ ({ s with arg := a1 } : Slot D) :: ss).map (·.node)).Nodup := by simpa using hn
        rw [show s.node = ({ s with arg := a1 } : Slot D).node from rfl,
          modNode_at ({ st with arguments := done ++ ({ s with arg := a1 } : Slot D) :: ss } : State D) rfl hn1]
        generalize hs2 : ({ { st with arguments := done ++ ({ s with arg := a1 } : Slot D) :: ss } with
          arguments := done ++ { ({ s with arg := a1 } : Slot D) with arg := a1.toNumber scan } :: ss } : State D) = st2
        have ha2 : st2.arguments = done ++ ({ s with arg := a1.toNumber scan } : Slot D) :: ss := by rw [← hs2]
        have hn2 : (st2.arguments.map (·.node)).Nodup := by rw [ha2]; simpa using hn
        have hat : st2.atNode s.node = some { s with arg := a1.toNumber scan } :=
          atNode_at (s := { s with arg := a1.toNumber scan }) st2 ha2 hn2
        simp only
        rw [dest_silent code _ hat u1]
        have hv2 : code st2.visible = (fun v : State D => code { v with destLog := [] })
            (st0.readable (done ++ { s with arg := a1.toNumber scan } :: ss)) := by
          rw [← hs2, ← hst]; rfl
        rw [hv2]
        generalize (a1.toNumber scan).toDestIn _ u1 = y
        obtain ⟨ws, r, u2⟩ := y
        simp only
        have e3 : ({ st2 with destLog := st2.destLog ++ ws } : State D) =
            { st0 with arguments := (done ++ [{ s with arg := a1.toNumber scan }]) ++ ss, destLog := log ++ ws } := by
          rw [← hs2, ← hst]; simp
        cases r with
        | ok _ =>
          simp only
          have hnx := next_at (s := { s with arg := a1.toNumber scan }) ({ st2 with destLog := st2.destLog ++ ws } : State D) ha2 hn2
          simp only at hnx
          rw [hnx]
          simp only
          rw [e3]
          obtain ⟨vis, e⟩ := ih (done ++ [{ s with arg := a1.toNumber scan }]) (log ++ ws) u2 (by simpa using hn) f
            (by simp only [List.length_cons] at hf; omega)
          refine ⟨s.node :: vis, ?_⟩
          rw [e]
          generalize finishAllLooking scan _ st0.readable u2 _ ss = z
          simp only [List.append_assoc, List.singleton_append]
        | _ => refine ⟨[s.node], ?_⟩; rw [e3]; simp
      | _ => refine ⟨[s.node], ?_⟩; rw [← hst]; simp

/-! ### Code whose calls leave the arguments where they are -/

theorem modNode_nodes (st : State D) (n : Nat) (f : Argument D → Argument D) :
    (st.modNode n f).arguments.map (·.node) = st.arguments.map (·.node) := by
  unfold State.modNode
  simp only [List.map_map]
  refine List.map_congr_left fun t _ => ?_
  simp only [Function.comp_apply]
  split <;> rfl

theorem retype_place (st : State D) (s : Slot D) (a : Argument D) : (st.retype s a).2.goesOn = true ∧
    (st.retype s a).1.arguments.map (·.node) = st.arguments.map (·.node) := by
  unfold State.retype
  have h1 : ∀ b : Argument D, b.defaultsConstructor.2.goesOn = true := by
    exact defaultsConstructor_goesOn
  have h2 : (a.typeConstructor s.obj st.helpOption st.versionOption).2.2.2.goesOn = true := by
    exact typeConstructor_goesOn _ _ _ _
  generalize a.typeConstructor s.obj st.helpOption st.versionOption = x at h2 ⊢
  obtain ⟨a1, h, v, r⟩ := x
  cases r with
  | ok _ => exact ⟨h1 a1, modNode_nodes ..⟩
  | throw e => exact ⟨rfl, modNode_nodes ..⟩
  | _ => cases h2

theorem step_place {scan : Str → Option D} {st : State D} {op : Op} (h : InPlace st op) :
    (step scan st op).2.goesOn = true ∧ (step scan st op).1.arguments.map (·.node) = st.arguments.map (·.node) := by
  have wr : ∀ {f : Slot D → State D × Res Unit} {r : Nat}, (st.atObj r).isSome = true →
      (∀ s, (f s).2.goesOn = true ∧ (f s).1.arguments.map (·.node) = st.arguments.map (·.node)) →
      (st.withRef r f).2.goesOn = true ∧ (st.withRef r f).1.arguments.map (·.node) = st.arguments.map (·.node) := by
    intro f r hr hf
    unfold State.withRef
    cases hx : st.atObj r with
    | none => rw [hx] at hr; cases hr
    | some s => exact hf s
  cases op with
  | add _ => exact h.elim
  | remove _ => exact h.elim
  | clear => exact h.elim
  | flag _ _ => exact h.elim
  | required _ _ => exact h.elim
  | parse _ => exact h.elim
  | action r a =>
    refine wr (show (st.atObj r).isSome = true from h) fun s => ?_
    have := fun st' : State D => retype_place st' s { s.arg with action := a }
    simp only
    refine ⟨(this _).1, (this _).2.trans ?_⟩
    split <;> split <;> rfl
  | nargs r n => exact wr (show (st.atObj r).isSome = true from h) fun s => retype_place st s _
  | defaults r ds =>
    refine wr (show (st.atObj r).isSome = true from h) fun s => ⟨?_, modNode_nodes ..⟩
    simp only
    exact defaultsConstructor_goesOn _
  | help r _ => exact wr (show (st.atObj r).isSome = true from h) fun s => ⟨rfl, modNode_nodes ..⟩
  | metavar r _ => exact wr (show (st.atObj r).isSome = true from h) fun s => ⟨rfl, modNode_nodes ..⟩
  | valid r _ _ => exact wr (show (st.atObj r).isSome = true from h) fun s => ⟨rfl, modNode_nodes ..⟩
  | behave r _ _ => exact wr (show (st.atObj r).isSome = true from h) fun s => ⟨rfl, modNode_nodes ..⟩
  | edit r _ => exact wr (show (st.atObj r).isSome = true from h) fun s => ⟨rfl, modNode_nodes ..⟩
  | dest r d =>
    show ((st.setDest r d).2.void).goesOn = true ∧ (st.setDest r d).1.arguments.map (·.node) = _
    unfold State.setDest State.withRef
    have h' : (st.atObj r).isSome = true := h
    cases hx : st.atObj r with
    | none => rw [hx] at h'; cases h'
    | some s =>
      refine ⟨rfl, ?_⟩
      simp only [List.map_map]
      refine List.map_congr_left fun t _ => ?_
      simp only [Function.comp_apply]
      split <;> rfl
  | _ => exact ⟨rfl, rfl⟩

theorem step_keeps {scan : Str → Option D} {st : State D} (hi : GInv full st) {op : Op} (h : RemovesNone st op) :
    (step scan st op).2.goesOn = true ∧ ∀ n ∈ st.arguments.map (·.node), n ∈ (step scan st op).1.arguments.map (·.node) := by
  have upd : ∀ (l : List (Slot D)) (node : Nat) (f : Argument D → Argument D), ∀ n ∈ l.map (·.node),
      n ∈ (stableSort slotLt (updNode l node f)).map (·.node) := by
    intro l node f n hn
    obtain ⟨s, hs, rfl⟩ := List.mem_map.1 hn
    refine List.mem_map.2 ⟨_, mem_stableSort.2 (List.mem_map.2 ⟨s, hs, rfl⟩), ?_⟩
    split <;> rfl
  have app : ∀ (l : List (Slot D)) (x : Slot D), ∀ n ∈ l.map (·.node), n ∈ (stableSort slotLt (l ++ [x])).map (·.node) := by
    intro l x n hn
    obtain ⟨s, hs, rfl⟩ := List.mem_map.1 hn
    exact List.mem_map.2 ⟨s, mem_stableSort.2 (List.mem_append_left _ hs), rfl⟩
  have plc : ∀ {op : Op}, InPlace st op → (step scan st op).2.goesOn = true ∧
      ∀ n ∈ st.arguments.map (·.node), n ∈ (step scan st op).1.arguments.map (·.node) := by
    intro op h
    obtain ⟨h1, h2⟩ := step_place (scan := scan) h
    exact ⟨h1, fun n hn => by rw [h2]; exact hn⟩
  cases op with
  | add names =>
    have h := addArgument_outcome hi names
    show (st.addArgument names).2.void.goesOn = true ∧ ∀ n ∈ _, n ∈ (st.addArgument names).1.arguments.map (·.node)
    generalize st.addArgument names = r at h
    cases h with
    | positional n st' _ _ _ e _ => subst e; exact ⟨rfl, app _ _⟩
    | option f rest fs st' _ _ _ _ _ e _ => subst e; exact ⟨rfl, app _ _⟩
    | _ => exact ⟨rfl, fun _ h => h⟩
  | flag r f =>
    have h' : (st.atObj r).isSome = true := h
    show (st.flag r f).2.goesOn = true ∧ ∀ n ∈ _, n ∈ (st.flag r f).1.arguments.map (·.node)
    cases hx : st.atObj r with
    | none => rw [hx] at h'; cases h'
    | some t =>
      rcases flag_outcome hi hx f with ⟨_, e⟩ | ⟨_, _, _, e⟩ | ⟨_, _, _, e⟩ | ⟨_, _, _, e, _⟩ <;> rw [e]
      · exact ⟨rfl, fun _ h => h⟩
      · exact ⟨rfl, fun _ h => h⟩
      · exact ⟨rfl, fun _ h => h⟩
      · exact ⟨rfl, upd st.arguments t.node (fun a => { a with names := sortNames (a.names ++ [f]) })⟩
  | required r b =>
    have h' : (st.atObj r).isSome = true := h
    show (st.required r b).2.goesOn = true ∧ ∀ n ∈ _, n ∈ (st.required r b).1.arguments.map (·.node)
    cases hx : st.atObj r with
    | none => rw [hx] at h'; cases h'
    | some t => rw [(required_ok hi hx b).1]; exact ⟨rfl, upd _ _ _⟩
  | _ => exact plc h

/-- What user code does to the parser: a relation of the states before and after each of its calls. -/
structure Effect (scan : Str → Option D) (P : State D → Op → Prop) (T : State D → State D → Prop) : Prop where
  same : ∀ {st st' : State D}, st'.arguments.map (·.node) = st.arguments.map (·.node) → T st st'
  trans : ∀ {a b c : State D}, T a b → T b c → T a c
  mem : ∀ {st st' : State D}, T st st' → ∀ n ∈ st.arguments.map (·.node), n ∈ st'.arguments.map (·.node)
  step : ∀ {st : State D} {op : Op} {full : Prop}, GInv full st → P st op → (∀ argv, op ≠ .parse argv) ∧ (step scan st op).2.goesOn = true ∧
    T st (BletArgs.step scan st op).1

theorem inPlace_effect (scan : Str → Option D) :
    Effect scan InPlace fun st st' => st'.arguments.map (·.node) = st.arguments.map (·.node) where
  same h := h
  trans h1 h2 := h2.trans h1
  mem h n hn := by rw [h]; exact hn
  step {st op _} _ h := ⟨fun argv e => by subst e; exact h, step_place h⟩

theorem keeps_effect (scan : Str → Option D) :
    Effect scan RemovesNone fun st st' => ∀ n ∈ st.arguments.map (·.node), n ∈ st'.arguments.map (·.node) where
  same h n hn := by rw [h]; exact hn
  trans h1 h2 n hn := h2 n (h1 n hn)
  mem h := h
  step {st op _} hi h := ⟨fun argv e => by subst e; exact h, step_keeps hi h⟩

theorem nodes_of_config {st st' : State D} (h : st'.config = st.config) : st'.arguments.map (·.node) = st.arguments.map (·.node) := by
  have e : st'.arguments.map Slot.config = st.arguments.map Slot.config := congrArg State.arguments h
  have := congrArg (List.map (fun s : Slot D => s.node)) e
  simpa [Function.comp_def, Slot.config] using this

variable {scan : Str → Option D} {P : State D → Op → Prop} {T : State D → State D → Prop} {I : State D → Prop}

theorem run_only (ht : Effect scan P T) (p : ParseFn D U) (s : Script D U R) {st : State D} (hi : GInv full st) (hI : I st)
    (h : s.Obeys scan (fun st op => P st op ∧ I (step scan st op).1) st) :
    T st (s.run scan p st).1 ∧ GInv full (s.run scan p st).1 ∧ I (s.run scan p st).1 ∧ ∃ r, (s.run scan p st).2.1 = .ok r := by
  induction s generalizing st with
  | answer r u => exact ⟨ht.same rfl, hi, hI, r, rfl⟩
  | call op u next ih =>
    obtain ⟨⟨h1, hI'⟩, h2⟩ := h
    obtain ⟨h0, h3, h4⟩ := ht.step hi h1
    have e : stepWith scan p st u op = ((step scan st op).1, (step scan st op).2, u) := by
      cases op <;> first | rfl | exact absurd rfl (h0 _)
    unfold Script.run
    simp only [e, h3, if_true]
    obtain ⟨h5, h6⟩ := ih _ _ _ (step_inv hi op h3) hI' (h2 h3)
    exact ⟨ht.trans h4 h5, h6⟩

theorem _root_.BletArgs.Spec.CallsOnly.of_config {code : CallingCode D U} (hc : CallsOnly scan P I code) {st st' : State D}
    (h : st'.config = st.config) : I st → I st' :=
  hc.values (name := st.binaryName) (by rw [h]; rfl)

theorem visible_log (st : State D) (log : List DestWrite) : ({ st with destLog := log } : State D).visible = st.visible := rfl

theorem some_of {node : Nat} {st : State D} (h : node ∈ st.arguments.map (·.node)) : ∃ s, st.atNode node = some s := by
  obtain ⟨s, hs, e⟩ := List.mem_map.1 h
  cases hx : st.atNode node with
  | some s => exact ⟨s, rfl⟩
  | none =>
    unfold State.atNode at hx
    rw [List.find?_eq_none] at hx
    exact absurd (by simpa using e) (hx s hs)

theorem check_only {code : CallingCode D U} (ht : Effect scan P T) (hc : CallsOnly scan P I code) (p : ParseFn D U) {node : Nat}
    {st : State D} (hi : GInv full st) (hI : I st) (hm : node ∈ st.arguments.map (·.node)) (u : U) :
    T st (st.checkCalling scan code p node u).1 ∧ GInv full (st.checkCalling scan code p node u).1 ∧
    I (st.checkCalling scan code p node u).1 ∧ (st.checkCalling scan code p node u).2.1.goesOn = true := by
  obtain ⟨s, hs⟩ := some_of hm
  unfold State.checkCalling
  rw [hs]
  simp only
  cases s.arg.valid with
  | none => exact ⟨ht.same rfl, hi, hI, rfl⟩
  | some v =>
    simp only
    split
    · obtain ⟨h1, h2, h3, r, h4⟩ := run_only ht p _ hi hI (hc.check v.id (s.arg.toVector.getD []) st u hI)
      generalize Script.run scan p _ st = x at h1 h2 h3 h4 ⊢
      obtain ⟨st1, r', u1⟩ := x
      simp only at h1 h2 h3 h4
      subst h4
      obtain ⟨s1, hs1⟩ := some_of (ht.mem h1 _ hm)
      have ans : (s1.arg.answered r).2.goesOn = true := by
        unfold Argument.answered
        repeat' split
        all_goals rfl
      have hm1 := State.atNode_some hs1
      have hcf := modNode_config_const h2.nodes hm1.1 (answered_config s1.arg r)
      rw [hm1.2] at hcf
      cases r with
      | throwOther e => exact ⟨h1, h2, h3, rfl⟩
      | _ =>
        simp only [hs1]
        exact ⟨ht.trans h1 (ht.same (nodes_of_config hcf)), inv_of_config hcf h2, hc.of_config hcf h3, ans⟩
    · exact ⟨ht.same rfl, hi, hI, rfl⟩

theorem dest_only {code : CallingCode D U} (ht : Effect scan P T) (hc : CallsOnly scan P I code) (p : ParseFn D U) {node : Nat}
    {st : State D} (hi : GInv full st) (hI : I st) (hm : node ∈ st.arguments.map (·.node)) (u : U) :
    T st (st.destCalling scan code p node u).1 ∧ GInv full (st.destCalling scan code p node u).1 ∧
    I (st.destCalling scan code p node u).1 ∧ (st.destCalling scan code p node u).2.1.goesOn = true := by
  obtain ⟨s, hs⟩ := some_of hm
  have log : ∀ log, T st { st with destLog := log } ∧ GInv full { st with destLog := log } ∧ I { st with destLog := log } := fun log =>
    ⟨ht.same rfl, inv_of_config rfl hi, hc.of_config (st := st) rfl hI⟩
  unfold State.destCalling
  rw [hs]
  simp only
  cases hd : s.arg.dest with
  | none => exact ⟨ht.same rfl, hi, hI, rfl⟩
  | some d =>
    simp only
    split
    · obtain ⟨l1, l2, l3⟩ := log (st.destLog ++ [s.arg.callbackCall d])
      have hob := hc.call (s.arg.callbackCall d) { st with destLog := st.destLog ++ [s.arg.callbackCall d] } u l3
      rw [visible_log] at hob
      obtain ⟨h1, h2, h3, r, h4⟩ := run_only ht p _ l2 l3 hob
      generalize Script.run scan p _ _ = x at h1 h2 h3 h4 ⊢
      obtain ⟨st1, r', u1⟩ := x
      simp only at h1 h2 h3 h4
      subst h4
      cases r <;> exact ⟨ht.trans l1 h1, h2, h3, rfl⟩
    · rename_i hcu
      refine ⟨(log _).1, (log _).2.1, (log _).2.2, ?_⟩
      have hcf : d.custom = false := by simpa using hcu
      unfold Argument.toDestIn
      rw [hd]
      simp only [hcf, Bool.false_eq_true, if_false]
      cases d.kind <;> cases d.supported <;> rfl

theorem next_of_mem {st : State D} {n : Nat} (hn : (st.arguments.map (·.node)).Nodup) (hm : n ∈ st.arguments.map (·.node)) :
    ∃ it, st.nextNodeOf n = some it ∧ ∀ k, it = some k → k ∈ st.arguments.map (·.node) := by
  obtain ⟨s, hs, rfl⟩ := List.mem_map.1 hm
  obtain ⟨l1, l2, e⟩ := List.append_of_mem hs
  refine ⟨_, next_at st e hn, fun k hk => ?_⟩
  rw [e]
  cases l2 with
  | nil => cases hk
  | cons t l => cases hk; simp

/-- Code that removes nothing: the last loop ends properly, if it ends. -/
theorem lastLoop_keeps {code : CallingCode D U} (ht : Effect scan P T) (hc : CallsOnly scan P I code) (f : Nat) (it : Option Nat)
    {st : State D} (hi : GInv full st) (hI : I st) (u : U) (hm : ∀ n, it = some n → n ∈ st.arguments.map (·.node)) :
    let r := State.lastLoop scan code f it st u
    T st r.1 ∧ GInv full r.1 ∧ I r.1 ∧ (r.2.1.goesOn = true ∨ r.2.1 = .diverge) ∧ ∀ n ∈ r.2.2.2, n ∈ r.1.arguments.map (·.node) := by
  induction f generalizing it st u with
  | zero =>
    cases it with
    | none => exact ⟨ht.same rfl, hi, hI, .inl rfl, nofun⟩
    | some n => exact ⟨ht.same rfl, hi, hI, .inr rfl, nofun⟩
  | succ f ih =>
    cases it with
    | none => exact ⟨ht.same rfl, hi, hI, .inl rfl, nofun⟩
    | some n =>
      intro r
      have hr : r = State.lastLoop scan code (f + 1) (some n) st u := rfl
      rw [lastLoop_succ] at hr
      have hmn := hm n rfl
      obtain ⟨h1, h2, h3, h4⟩ := check_only ht hc (inner scan code f) hi hI hmn u
      generalize st.checkCalling scan code (inner scan code f) n u = x at h1 h2 h3 h4 hr
      obtain ⟨st1, r1, u1⟩ := x
      simp only at h1 h2 h3 h4
      have one : ∀ {st' : State D}, T st st' → ∀ k ∈ [n], k ∈ st'.arguments.map (·.node) := fun h k hk => by
        rw [List.mem_singleton] at hk
        subst hk
        exact ht.mem h _ hmn
      cases r1 with
      | ok _ =>
        simp only at hr
        have hcf : (st1.modNode n fun a => a.toNumber scan).config = st1.config :=
          modNode_config_fun n fun a => Argument.toNumber_config scan a
        have hT1 : T st (st1.modNode n fun a => a.toNumber scan) := ht.trans h1 (ht.same (nodes_of_config hcf))
        obtain ⟨h5, h6, h7, h8⟩ := dest_only ht hc (inner scan code f) (inv_of_config hcf h2) (hc.of_config hcf h3)
          (ht.mem hT1 _ hmn) u1
        generalize State.destCalling scan code (inner scan code f) n _ u1 = x at h5 h6 h7 h8 hr
        obtain ⟨st2, r2, u2⟩ := x
        simp only at h5 h6 h7 h8
        have hT2 := ht.trans hT1 h5
        cases r2 with
        | ok _ =>
          simp only at hr
          obtain ⟨it, e1, e2⟩ := next_of_mem h6.nodes (ht.mem hT2 _ hmn)
          rw [e1] at hr
          simp only at hr
          obtain ⟨a1, a2, a3, a4, a5⟩ := ih it h6 h7 u2 e2
          generalize State.lastLoop scan code f it st2 u2 = y at a1 a2 a3 a4 a5 hr
          rw [hr]
          refine ⟨ht.trans hT2 a1, a2, a3, a4, fun k hk => ?_⟩
          rcases List.mem_cons.1 hk with rfl | hk
          · exact ht.mem (ht.trans hT2 a1) _ hmn
          · exact a5 k hk
        | throw e => rw [hr]; exact ⟨hT2, h6, h7, .inl rfl, one hT2⟩
        | _ => cases h8
      | throw e => rw [hr]; exact ⟨h1, h2, h3, .inl rfl, one h1⟩
      | _ => cases h4

/-- Code that leaves the arguments where they are: the last loop visits each argument once, in order. -/
theorem lastLoop_place {code : CallingCode D U} (hc : CallsOnly scan InPlace I code) (post pre : List Nat) {st : State D}
    (hi : GInv full st) (hI : I st) (u : U) (h : st.arguments.map (·.node) = pre ++ post) (f : Nat) (hf : post.length ≤ f) :
    let r := State.lastLoop scan code f post.head? st u
    r.1.arguments.map (·.node) = st.arguments.map (·.node) ∧ r.2.1.goesOn = true ∧ r.2.2.2 <+: post ∧
    (r.2.1 = .ok () → r.2.2.2 = post) := by
  have ht := inPlace_effect (D := D) scan
  induction post generalizing pre st u f with
  | nil =>
    intro r
    have : r = (st, .ok (), u, []) := by show State.lastLoop scan code f none st u = _; unfold State.lastLoop; rfl
    rw [this]
    exact ⟨rfl, rfl, List.prefix_refl _, fun _ => rfl⟩
  | cons n post ih =>
    cases f with
    | zero => simp at hf
    | succ f =>
      intro r
      have hr : r = State.lastLoop scan code (f + 1) (some n) st u := rfl
      rw [lastLoop_succ] at hr
      have hm : n ∈ st.arguments.map (·.node) := by rw [h]; simp
      obtain ⟨h1, hi1, hI1, h2⟩ := check_only ht hc (inner scan code f) hi hI hm u
      have one : [n] <+: n :: post := ⟨post, rfl⟩
      generalize st.checkCalling scan code (inner scan code f) n u = x at h1 hi1 hI1 h2 hr
      obtain ⟨st1, r1, u1⟩ := x
      simp only at h1 hi1 hI1 h2
      cases r1 with
      | ok _ =>
        simp only at hr
        have hcf : (st1.modNode n fun a => a.toNumber scan).config = st1.config :=
          modNode_config_fun n fun a => Argument.toNumber_config scan a
        have hm1 : n ∈ (st1.modNode n fun a => a.toNumber scan).arguments.map (·.node) := by rw [modNode_nodes, h1]; exact hm
        obtain ⟨h3, hi2, hI2, h4⟩ := dest_only ht hc (inner scan code f) (inv_of_config hcf hi1) (hc.of_config hcf hI1) hm1 u1
        generalize State.destCalling scan code (inner scan code f) n _ u1 = x at h3 hi2 hI2 h4 hr
        obtain ⟨st2, r2, u2⟩ := x
        simp only at h3 hi2 hI2 h4
        rw [modNode_nodes, h1] at h3
        cases r2 with
        | ok _ =>
          simp only at hr
          have hnx : st2.nextNodeOf n = some post.head? := by
            have hsp := h3.trans h
            obtain ⟨l1, l2, e1, e2, e3⟩ := List.map_eq_append_iff.1 hsp
            obtain ⟨t, l3, e4, e5, e6⟩ := List.map_eq_cons_iff.1 e3
            subst e4
            have := next_at st2 e1 hi2.nodes
            rw [e5] at this
            rw [this, ← e6]
            cases l3 <;> rfl
          rw [hnx] at hr
          simp only at hr
          have := ih (pre ++ [n]) hi2 hI2 u2 (by rw [h3, h]; simp) f (by simp only [List.length_cons] at hf; omega)
          simp only at this
          generalize State.lastLoop scan code f post.head? st2 u2 = y at this hr
          obtain ⟨a1, a2, a3, a4⟩ := this
          rw [hr]
          refine ⟨a1.trans h3, a2, ?_, fun e => ?_⟩
          · exact List.cons_prefix_cons.2 ⟨rfl, a3⟩
          · simp only at e ⊢; rw [a4 e]
        | throw e => rw [hr]; exact ⟨h3, rfl, one, nofun⟩
        | _ => cases h4
      | throw e => rw [hr]; exact ⟨h1, rfl, one, nofun⟩
      | _ => cases h2

end Reentry
end BletArgs
