import Verif.Spec.Calling
import Verif.Lemmas.Looking
import Verif.Lemmas.ParseFrame
/-
Lemmas: the last loop with user code that calls the parser.
-/
namespace BletArgs
open Spec
variable {D : Type} {U R : Type} {full : Prop}

namespace Reentry

abbrev ParseFn (D U : Type) := State D → U → List Str → State D × Res Unit × U

/-! ### The bound on iterations does not matter -/

/-- Apart from running out of fuel, the same. -/
def Le {X : Type} (x y : State D × Res R × X) : Prop := x.2.1 = .diverge ∨ x = y

theorem Le.refl {X : Type} (x : State D × Res R × X) : Le x x := .inr rfl

theorem Le.trans {X : Type} {x y z : State D × Res R × X} (h1 : Le x y) (h2 : Le y z) : Le x z := by
  rcases h1 with h | rfl
  · exact .inl h
  · exact h2

theorem run_le {scan : Str → Option D} {p q : ParseFn D U} (h : ∀ st u argv, Le (p st u argv) (q st u argv))
    (s : Script D U R) (st : State D) : Le (s.run scan p st) (s.run scan q st) := by
  induction s generalizing st with
  | answer r u => exact .refl _
  | call op u next ih =>
    have hs : Le (stepWith scan p st u op) (stepWith scan q st u op) := by
      cases op <;> first | exact h _ _ _ | exact .refl _
    unfold Script.run
    simp only
    generalize stepWith scan p st u op = x at hs
    generalize stepWith scan q st u op = y at hs
    rcases hs with hs | rfl
    · obtain ⟨st1, r, u1⟩ := x
      simp only at hs
      subst hs
      exact .inl rfl
    · split
      · exact ih _ _ _ _
      · exact .refl _

theorem check_le {scan : Str → Option D} (code : CallingCode D U) {p q : ParseFn D U}
    (h : ∀ st u argv, Le (p st u argv) (q st u argv)) (node : Nat) (st : State D) (u : U) :
    Le (st.checkCalling scan code p node u) (st.checkCalling scan code q node u) := by
  unfold State.checkCalling
  cases st.atNode node with
  | none => exact .refl _
  | some s =>
    simp only
    cases s.arg.valid with
    | none => exact .refl _
    | some v =>
      simp only
      split
      · have := run_le (scan := scan) h (code.check v.id (s.arg.toVector.getD []) st.visible u) st
        generalize Script.run scan p _ st = x at this ⊢
        generalize Script.run scan q _ st = y at this ⊢
        rcases this with e | rfl
        · obtain ⟨st1, r, u1⟩ := x
          simp only at e
          subst e
          exact .inl rfl
        · exact .refl _
      · exact .refl _

theorem dest_le {scan : Str → Option D} (code : CallingCode D U) {p q : ParseFn D U}
    (h : ∀ st u argv, Le (p st u argv) (q st u argv)) (node : Nat) (st : State D) (u : U) :
    Le (st.destCalling scan code p node u) (st.destCalling scan code q node u) := by
  unfold State.destCalling
  cases st.atNode node with
  | none => exact .refl _
  | some s =>
    simp only
    cases s.arg.dest with
    | none => exact .refl _
    | some d =>
      simp only
      split
      · have := run_le (scan := scan) h (code.call (s.arg.callbackCall d) st.visible u)
          { st with destLog := st.destLog ++ [s.arg.callbackCall d] }
        generalize Script.run scan p _ _ = x at this ⊢
        generalize Script.run scan q _ _ = y at this ⊢
        rcases this with e | rfl
        · obtain ⟨st1, r, u1⟩ := x
          simp only at e
          subst e
          exact .inl rfl
        · exact .refl _
      · exact .refl _

theorem afterLoop_le {p q : State D → U → State D × Res Unit × U × List Nat} (h : ∀ st u, Le (p st u) (q st u)) (st : State D) (u : U) :
    Le (st.afterLoopWith p u) (st.afterLoopWith q u) := by
  unfold State.afterLoopWith
  cases st.optionSeen st.helpOption with
  | none => exact .refl _
  | some b =>
    cases b with
    | true => exact .refl _
    | false =>
      simp only
      cases st.optionSeen st.versionOption with
      | none => exact .refl _
      | some b =>
        cases b with
        | true => exact .refl _
        | false =>
          simp only
          cases firstMissing st.arguments with
          | some e => exact .refl _
          | none => exact h st u

theorem parse_le {p q : State D → U → State D × Res Unit × U × List Nat} (h : ∀ st u, Le (p st u) (q st u)) (st : State D) (u : U)
    (argv : List Str) : Le (st.parseWith p u argv) (st.parseWith q u argv) := by
  unfold State.parseWith
  generalize st.resetAll.autoHelp = x
  obtain ⟨st1, r⟩ := x
  cases r with
  | ok b =>
    cases b with
    | false => exact .refl _
    | true =>
      simp only
      generalize st1.setBinaryIfEmpty argv = x
      obtain ⟨st2, r⟩ := x
      cases r with
      | ok b =>
        simp only
        generalize State.mainLoop argv (endOptionIndex argv) (st2.loopBudget argv) 1 st2 = x
        obtain ⟨st3, r⟩ := x
        cases r with
        | ok b => exact afterLoop_le h st3 u
        | _ => exact .refl _
      | _ => exact .refl _
  | _ => exact .refl _

/-- `parseArguments` as it is called from inside the last loop. -/
def inner (scan : Str → Option D) (code : CallingCode D U) (f : Nat) : ParseFn D U := fun st u argv =>
  let r := State.parseWith (fun st u => State.lastLoop scan code f st.firstNode st u) st u argv
  (r.1, r.2.1, r.2.2.1)

theorem lastLoop_succ (scan : Str → Option D) (code : CallingCode D U) (f node : Nat) (st : State D) (u : U) :
    State.lastLoop scan code (f + 1) (some node) st u =
    match st.checkCalling scan code (inner scan code f) node u with
    | (st1, .ok (), u1) =>
      match (st1.modNode node fun a => a.toNumber scan).destCalling scan code (inner scan code f) node u1 with
      | (st2, .ok (), u2) =>
        match st2.nextNodeOf node with
        | none => (st2, .ub "++ of the iterator of an erased element", u2, [node])
        | some it =>
          let r := State.lastLoop scan code f it st2 u2
          (r.1, r.2.1, r.2.2.1, node :: r.2.2.2)
      | (st2, r, u2) => (st2, r, u2, [node])
    | (st1, r, u1) => (st1, r, u1, [node]) := rfl

theorem lastLoop_le (scan : Str → Option D) (code : CallingCode D U) (f : Nat) (it : Option Nat) (st : State D) (u : U) :
    Le (State.lastLoop scan code f it st u) (State.lastLoop scan code (f + 1) it st u) := by
  induction f generalizing it st u with
  | zero =>
    cases it with
    | none => exact .refl _
    | some n => exact .inl rfl
  | succ f ih =>
    cases it with
    | none => exact .refl _
    | some n =>
      have hp : ∀ st u argv, Le (inner scan code f st u argv) (inner scan code (f + 1) st u argv) := by
        intro st u argv
        have := parse_le (p := fun st u => State.lastLoop scan code f st.firstNode st u)
          (q := fun st u => State.lastLoop scan code (f + 1) st.firstNode st u) (fun st u => ih _ _ _) st u argv
        unfold inner
        rcases this with e | e
        · exact .inl e
        · right; simp only [e]
      rw [lastLoop_succ scan code f, lastLoop_succ scan code (f + 1)]
      have h1 := check_le (scan := scan) code hp n st u
      generalize st.checkCalling scan code (inner scan code f) n u = x at h1 ⊢
      generalize st.checkCalling scan code (inner scan code (f + 1)) n u = y at h1 ⊢
      rcases h1 with e | rfl
      · obtain ⟨st1, r, u1⟩ := x
        simp only at e
        subst e
        exact .inl rfl
      · obtain ⟨st1, r, u1⟩ := x
        cases r with
        | ok _ =>
          simp only
          have h2 := dest_le (scan := scan) code hp n (st1.modNode n fun a => a.toNumber scan) u1
          generalize State.destCalling scan code (inner scan code f) n _ u1 = x at h2 ⊢
          generalize State.destCalling scan code (inner scan code (f + 1)) n _ u1 = y at h2 ⊢
          rcases h2 with e | rfl
          · obtain ⟨st2, r, u2⟩ := x
            simp only at e
            subst e
            exact .inl rfl
          · obtain ⟨st2, r, u2⟩ := x
            cases r with
            | ok _ =>
              simp only
              cases st2.nextNodeOf n with
              | none => exact .refl _
              | some it =>
                simp only
                rcases ih it st2 u2 with e | e
                · exact .inl e
                · rw [e]; exact .refl _
            | _ => exact .refl _
        | _ => exact .refl _

theorem parseCalling_le (scan : Str → Option D) (code : CallingCode D U) {f f' : Nat} (h : f ≤ f') (st : State D) (u : U)
    (argv : List Str) : Le (st.parseCalling scan code f u argv) (st.parseCalling scan code f' u argv) := by
  induction h with
  | refl => exact .refl _
  | step _ ih => exact ih.trans (parse_le (fun st u => lastLoop_le scan code _ _ _ _) st u argv)

/-! ### The registry stays consistent -/

/-- If the program goes on, the parser is consistent. -/
def Good (full : Prop) {X : Type} (x : State D × Res R × X) : Prop := x.2.1.goesOn = true → GInv full x.1

theorem goesOn_cast {r : Res R} {R' : Type} (h : r.goesOn = false) : (r.cast : Res R').goesOn = false := by
  cases r <;> first | rfl | cases h

theorem run_inv {scan : Str → Option D} {p : ParseFn D U} (hp : ∀ st u argv, GInv full st → Good full (p st u argv)) (s : Script D U R)
    {st : State D} (hi : GInv full st) : Good full (s.run scan p st) := by
  induction s generalizing st with
  | answer r u => exact fun _ => hi
  | call op u next ih =>
    have hs : Good full (stepWith scan p st u op) := by
      cases op <;> first | exact hp _ _ _ hi | exact fun hg => step_inv hi _ hg
    unfold Script.run
    simp only
    generalize stepWith scan p st u op = x at hs
    split
    · rename_i hg; exact ih _ _ _ (hs hg)
    · rename_i hg
      intro h
      rw [goesOn_cast (by simpa using hg)] at h
      cases h

theorem answered_config (a : Argument D) (r : VRes) : (a.answered r).1.config = a.config := by
  cases r with
  | accept args =>
    unfold Argument.answered
    obtain ⟨_, _, _, _, _, type, _, _, _, _, _, _, _, _, _, _, _⟩ := a
    cases type <;> first | rfl | (cases args <;> rfl)
  | _ => rfl

theorem modNode_config_const {st : State D} (hn : (st.arguments.map (·.node)).Nodup) {s : Slot D} (hs : s ∈ st.arguments)
    {b : Argument D} (hb : b.config = s.arg.config) : (st.modNode s.node fun _ => b).config = st.config := by
  unfold State.config State.modNode
  simp only [List.map_map]
  congr 1
  refine List.map_congr_left fun t ht => ?_
  simp only [Function.comp_apply]
  split
  · rename_i e
    have h1 := State.atNode_of_mem hn hs
    have h2 := State.atNode_of_mem hn ht
    rw [show t.node = s.node by simpa using e] at h2
    rw [h1] at h2
    cases h2
    unfold Slot.config
    rw [hb]
  · rfl

theorem modNode_config_fun {st : State D} (node : Nat) {f : Argument D → Argument D} (hf : ∀ a, (f a).config = a.config) :
    (st.modNode node f).config = st.config := by
  unfold State.config State.modNode
  simp only [List.map_map]
  congr 1
  refine List.map_congr_left fun t ht => ?_
  simp only [Function.comp_apply]
  split
  · unfold Slot.config; rw [hf]
  · rfl

theorem check_inv {scan : Str → Option D} (code : CallingCode D U) {p : ParseFn D U} (hp : ∀ st u argv, GInv full st → Good full (p st u argv))
    (node : Nat) {st : State D} (hi : GInv full st) (u : U) : Good full (st.checkCalling scan code p node u) := by
  unfold State.checkCalling
  cases st.atNode node with
  | none => exact nofun
  | some s =>
    simp only
    cases s.arg.valid with
    | none => exact fun _ => hi
    | some v =>
      simp only
      split
      · have h := run_inv (scan := scan) hp (code.check v.id (s.arg.toVector.getD []) st.visible u) hi
        generalize Script.run scan p _ st = x at h ⊢
        obtain ⟨st1, r, u1⟩ := x
        cases r with
        | ok r =>
          have hi1 : GInv full st1 := h rfl
          have main : Good full (match st1.atNode node with
            | none => (st1, (.ub "iterator of an erased element" : Res Unit), u1)
            | some s1 => (st1.modNode node fun _ => (s1.arg.answered r).1, (s1.arg.answered r).2, u1)) := by
            cases hn : st1.atNode node with
            | none => exact nofun
            | some s1 =>
              intro _
              have hm := State.atNode_some hn
              have := modNode_config_const hi1.nodes hm.1 (answered_config s1.arg r)
              rw [hm.2] at this
              exact inv_of_config this hi1
          cases r with
          | throwOther e => exact fun _ => hi1
          | _ => exact main
        | throw e => exact fun _ => h rfl
        | _ => exact nofun
      · exact fun _ => hi

theorem dest_inv {scan : Str → Option D} (code : CallingCode D U) {p : ParseFn D U} (hp : ∀ st u argv, GInv full st → Good full (p st u argv))
    (node : Nat) {st : State D} (hi : GInv full st) (u : U) : Good full (st.destCalling scan code p node u) := by
  unfold State.destCalling
  cases st.atNode node with
  | none => exact nofun
  | some s =>
    simp only
    cases s.arg.dest with
    | none => exact fun _ => hi
    | some d =>
      simp only
      split
      · have h := run_inv (scan := scan) hp (code.call (s.arg.callbackCall d) st.visible u)
          (st := { st with destLog := st.destLog ++ [s.arg.callbackCall d] }) (inv_of_eq hi rfl rfl rfl rfl rfl)
        generalize Script.run scan p _ _ = x at h ⊢
        obtain ⟨st1, r, u1⟩ := x
        cases r with
        | ok r => cases r <;> exact fun _ => h rfl
        | throw e => exact fun _ => h rfl
        | _ => exact nofun
      · exact fun _ => inv_of_eq hi rfl rfl rfl rfl rfl

theorem afterLoopWith_inv {last : State D → U → State D × Res Unit × U × List Nat} (hl : ∀ st u, GInv full st → Good full (last st u))
    {st : State D} (hi : GInv full st) (u : U) : Good full (st.afterLoopWith last u) := by
  unfold State.afterLoopWith
  cases st.optionSeen st.helpOption with
  | none => exact nofun
  | some b =>
    cases b with
    | true => simp only; split <;> first | exact fun _ => hi | exact nofun
    | false =>
      simp only
      cases st.optionSeen st.versionOption with
      | none => exact nofun
      | some b =>
        cases b with
        | true => simp only; split <;> first | exact fun _ => hi | exact nofun
        | false =>
          simp only
          cases firstMissing st.arguments with
          | some e => exact fun _ => hi
          | none => exact hl st u hi

theorem parseWith_inv {last : State D → U → State D × Res Unit × U × List Nat} (hl : ∀ st u, GInv full st → Good full (last st u))
    {st : State D} (hi : GInv full st) (u : U) (argv : List Str) : Good full (st.parseWith last u argv) := by
  have hr : GInv full st.resetAll := inv_of_config (resetAll_config st) hi
  have ha := autoHelp_inv hr
  unfold State.parseWith
  generalize st.resetAll.autoHelp = x at ha ⊢
  obtain ⟨st1, r⟩ := x
  cases r with
  | ok b =>
    cases b with
    | false => exact fun _ => ha
    | true =>
      simp only
      obtain ⟨b, hb⟩ := setBinaryIfEmpty_config st1 argv
      generalize st1.setBinaryIfEmpty argv = x at hb ⊢
      obtain ⟨st2, r⟩ := x
      simp only at hb
      have hi2 : GInv full st2 := by rw [hb]; exact inv_of_eq ha rfl rfl rfl rfl rfl
      cases r with
      | ok b =>
        simp only
        have hm := mainLoop_config argv (endOptionIndex argv) (st2.loopBudget argv) 1 hi2.nodes
        generalize State.mainLoop argv (endOptionIndex argv) (st2.loopBudget argv) 1 st2 = x at hm ⊢
        obtain ⟨st3, r⟩ := x
        have hi3 : GInv full st3 := inv_of_config hm hi2
        cases r with
        | ok b => exact afterLoopWith_inv hl hi3 u
        | _ => exact fun _ => hi3
      | _ => exact fun _ => hi2
  | _ => exact fun _ => ha

theorem lastLoop_inv (scan : Str → Option D) (code : CallingCode D U) (f : Nat) (it : Option Nat) {st : State D} (hi : GInv full st)
    (u : U) : Good full (State.lastLoop scan code f it st u) := by
  induction f generalizing it st u with
  | zero =>
    cases it with
    | none => exact fun _ => hi
    | some n => exact nofun
  | succ f ih =>
    cases it with
    | none => exact fun _ => hi
    | some n =>
      have hp : ∀ st u argv, GInv full st → Good full (inner scan code f st u argv) := fun st u argv h =>
        parseWith_inv (last := fun st u => State.lastLoop scan code f st.firstNode st u) (fun st u h => ih _ h u) h u argv
      rw [lastLoop_succ]
      have h1 := check_inv (scan := scan) code hp n hi u
      generalize st.checkCalling scan code (inner scan code f) n u = x at h1 ⊢
      obtain ⟨st1, r, u1⟩ := x
      cases r with
      | ok _ =>
        simp only
        have hi1 : GInv full (st1.modNode n fun a => a.toNumber scan) :=
          inv_of_config (modNode_config_fun n fun a => Argument.toNumber_config scan a) (h1 rfl)
        have h2 := dest_inv (scan := scan) code hp n hi1 u1
        generalize State.destCalling scan code (inner scan code f) n _ u1 = x at h2 ⊢
        obtain ⟨st2, r, u2⟩ := x
        cases r with
        | ok _ =>
          simp only
          cases st2.nextNodeOf n with
          | none => exact nofun
          | some it => exact ih it (h2 rfl) u2
        | throw e => exact fun _ => h2 rfl
        | _ => exact nofun
      | throw e => exact fun _ => h1 rfl
      | _ => exact nofun

theorem _root_.BletArgs.Spec.ReachableCalling.inv {scan : Str → Option D} {code : CallingCode D U} {st : State D} {u : U}
    (h : ReachableCalling scan code st u) : Inv st := by
  induction h with
  | init => exact inv_init
  | step op _ _ hg ih => exact step_inv ih op hg
  | elsewhere _ _ ih => exact ih
  | @parse st u argv st' r u' visited _ hp hg ih =>
    obtain ⟨_, f, e⟩ := hp
    have := parseWith_inv (last := fun st u => State.lastLoop scan code f st.firstNode st u)
      (fun st u h => lastLoop_inv scan code f _ h u) ih u argv
    unfold State.parseCalling at e
    rw [e] at this
    exact this hg

end Reentry
end BletArgs
