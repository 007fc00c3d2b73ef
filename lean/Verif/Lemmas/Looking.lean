import Verif.Model.Looking
import Verif.Lemmas.Stateful
/-
User code that consults the parser: what it does in one parse is what code that does not, chosen for that parse, does.
-/
namespace BletArgs
open Spec
variable {D : Type} {U : Type}

namespace Tune

/-- The code that runs in one iteration: the check sees the parser before, the callback after. -/
def mixed (scan : Str → Option D) (code : LookingCode D U) (view : Argument D → State D) (u : U) (a : Argument D) : UserCode U :=
  let last := code (view ((a.runValidIn (code (view a)) u).1.toNumber scan))
  ⟨(code (view a)).check, last.call, last.assigned⟩

theorem runValidIn_check (c : UserCode U) (call : DestWrite → U → Option Exn × U) (asg : DestWrite → U → U) (u : U) (a : Argument D) :
    a.runValidIn ⟨c.check, call, asg⟩ u = a.runValidIn c u := rfl

theorem toDestIn_call (c : UserCode U) (check : Nat → List Str → U → VRes × U) (u : U) (a : Argument D) :
    a.toDestIn ⟨check, c.call, c.assigned⟩ u = a.toDestIn c u := rfl

theorem finishLooking_eq (scan : Str → Option D) (code : LookingCode D U) (view : Argument D → State D) (u : U) (a : Argument D) :
    a.finishLooking scan code view u = a.finishIn scan (mixed scan code view u a) u := by
  unfold Argument.finishLooking Argument.finishIn mixed
  simp only [runValidIn_check, toDestIn_call]
  generalize a.runValidIn (code (view a)) u = x
  obtain ⟨a1, res, u1⟩ := x
  cases res <;> rfl

/-- The code the arguments of a list would need, to do what looking code does in the last loop. -/
def codeForLooking (scan : Str → Option D) (code : LookingCode D U) (view : List (Slot D) → State D) :
    U → List (Slot D) → List (Slot D) → Nat → UserFns
  | _, _, [] => fun _ => silent
  | u, done, s :: ss => fun n =>
    let c := mixed scan code (fun a => view (done ++ { s with arg := a } :: ss)) u s.arg
    let r := s.arg.finishIn scan c u
    if n = s.node then
      (fun vs => (c.check ((s.arg.valid.map (·.id)).getD 0) vs u).1, fun w => (c.call w (s.arg.runValidIn c u).2.2).1)
    else codeForLooking scan code view r.2.2.2 (done ++ [{ s with arg := r.1 }]) ss n

theorem finishAllLooking_nodes (scan : Str → Option D) (code : LookingCode D U) (view : List (Slot D) → State D) (u : U)
    (done l : List (Slot D)) :
    (BletArgs.finishAllLooking scan code view u done l).1.map (·.node) = l.map (·.node) := by
  induction l generalizing u done with
  | nil => rfl
  | cons s ss ih =>
    unfold BletArgs.finishAllLooking
    generalize s.arg.finishLooking scan code _ u = x
    obtain ⟨b, w, res, u1⟩ := x
    cases res with
    | ok _ => simp only [List.map_cons]; rw [ih]
    | _ => rfl

theorem finishAllLooking_same (scan : Str → Option D) (code : LookingCode D U) (view : List (Slot D) → State D) (u : U)
    (done l : List (Slot D)) (hn : (l.map (·.node)).Nodup) :
    BletArgs.finishAll scan (l.map (Slot.tune (codeForLooking scan code view u done l))) =
      ((BletArgs.finishAllLooking scan code view u done l).1.map (Slot.tune (codeForLooking scan code view u done l)),
        (BletArgs.finishAllLooking scan code view u done l).2.1, (BletArgs.finishAllLooking scan code view u done l).2.2.1) := by
  induction l generalizing u done with
  | nil => rfl
  | cons s ss ih =>
    rw [List.map_cons, List.nodup_cons] at hn
    have e0 := congrFun (codeForLooking.eq_2 scan code view u done s ss) s.node
    have e1 : ∀ n ∈ ss.map (·.node), codeForLooking scan code view u done (s :: ss) n =
        codeForLooking scan code view
          (s.arg.finishIn scan (mixed scan code (fun a => view (done ++ { s with arg := a } :: ss)) u s.arg) u).2.2.2
          (done ++ [{ s with arg := (s.arg.finishIn scan (mixed scan code (fun a => view (done ++ { s with arg := a } :: ss)) u s.arg) u).1 }]) ss n := by
      intro n hm
      have : n ≠ s.node := by rintro rfl; exact hn.1 hm
      simp only [codeForLooking, if_neg this]
    simp only [if_true] at e0
    unfold BletArgs.finishAllLooking
    simp only [finishLooking_eq]
    generalize mixed scan code (fun a => view (done ++ { s with arg := a } :: ss)) u s.arg = c at e0 e1
    have hf := finish_same scan c u (codeForLooking scan code view u done (s :: ss) s.node) s.arg (by rw [e0]) (by rw [e0])
    generalize codeForLooking scan code view u done (s :: ss) = k at e1 hf
    simp only [List.map_cons]
    unfold BletArgs.finishAll
    rw [show (s.tune k).arg = s.arg.tune (k s.node) from rfl, hf]
    generalize s.arg.finishIn scan c u = x at e1
    obtain ⟨b, w, res, u1⟩ := x
    cases res with
    | ok _ =>
      simp only at e1 ⊢
      have i := ih u1 (done ++ [{ s with arg := b }]) hn.2
      rw [tune_congr e1, i]
      simp only
      rw [← tune_congr (k := k) (fun n hm => e1 n ((finishAllLooking_nodes scan code view u1 _ ss) ▸ hm))]
      rfl
    | _ => rfl

theorem afterLoopLooking_same (scan : Str → Option D) (code : LookingCode D U) (u : U) (s : State D)
    (hn : (s.arguments.map (·.node)).Nodup) :
    ∃ k, (s.tune k).afterLoop scan = ((s.afterLoopLooking scan code u).1.tune k, (s.afterLoopLooking scan code u).2.1) := by
  refine ⟨codeForLooking scan code s.readable u [] s.arguments, ?_⟩
  have hf := finishAllLooking_same scan code s.readable u [] s.arguments hn
  generalize codeForLooking scan code s.readable u [] s.arguments = k at hf
  unfold State.afterLoop State.afterLoopLooking
  rw [optionSeen, optionSeen, getUsage, clear]
  simp only [show (s.tune k).isHelpException = s.isHelpException from rfl, show (s.tune k).version = s.version from rfl,
    show (s.tune k).isVersionException = s.isVersionException from rfl, show (s.tune k).helpOption = s.helpOption from rfl,
    show (s.tune k).versionOption = s.versionOption from rfl]
  cases s.optionSeen s.helpOption with
  | none => rfl
  | some b =>
    cases b with
    | true => simp only; cases s.isHelpException <;> rfl
    | false =>
      simp only
      cases s.optionSeen s.versionOption with
      | none => rfl
      | some b =>
        cases b with
        | true => simp only; cases s.isVersionException <;> rfl
        | false =>
          simp only
          unfold State.finishParse State.finishParseLooking
          rw [show (s.tune k).arguments = s.arguments.map (Slot.tune k) from rfl, firstMissing]
          cases BletArgs.firstMissing s.arguments with
          | some e => rfl
          | none => simp only; rw [hf]; rfl

/-- One parse with code that consults the parser is a parse with code that does not. -/
theorem parseLooking_same (scan : Str → Option D) (code : LookingCode D U) (u : U) {s : State D} {full : Prop} (hi : GInv full s) (argv : List Str) :
    ∃ k, (s.tune k).parseArguments scan argv =
      ((s.parseLooking scan code u argv).1.tune k, (s.parseLooking scan code u argv).2.1) := by
  have ha := autoHelp_inv (inv_of_config (resetAll_config s) hi)
  unfold State.parseArguments State.parseLooking
  simp only [resetAll, autoHelp]
  generalize s.resetAll.autoHelp = x at ha
  obtain ⟨s1, res⟩ := x
  cases res with
  | ok b =>
    cases b with
    | false => exact ⟨fun _ => silent, rfl⟩
    | true =>
      simp only [out, setBinary]
      obtain ⟨b, hb⟩ := setBinaryIfEmpty_config s1 argv
      generalize s1.setBinaryIfEmpty argv = x at hb
      obtain ⟨s2, res⟩ := x
      obtain rfl : s2 = { s1 with binaryName := b } := hb
      cases res with
      | ok _ =>
        simp only [loopBudget, mainLoop]
        have hl := mainLoop_config argv (endOptionIndex argv)
          (State.loopBudget { s1 with binaryName := b } argv) 1 (st := { s1 with binaryName := b }) ha.nodes
        generalize State.mainLoop _ _ _ _ _ = x at hl
        obtain ⟨s3, res⟩ := x
        have hn : (s3.arguments.map (·.node)).Nodup :=
          (inv_of_config (st := { s1 with binaryName := b }) hl (inv_of_eq ha rfl rfl rfl rfl rfl)).nodes
        cases res with
        | ok _ => exact afterLoopLooking_same scan code u s3 hn
        | _ => exact ⟨fun _ => silent, rfl⟩
      | _ => exact ⟨fun _ => silent, rfl⟩
  | _ => exact ⟨fun _ => silent, rfl⟩

/-! ### The code attached to the arguments is not used -/

theorem readable_tune (k : Nat → UserFns) (s : State D) (l : List (Slot D)) :
    (s.tune k).readable (l.map (Slot.tune k)) = s.readable l :=
  mute_tune k { s with arguments := l }

theorem finishLooking_tune (scan : Str → Option D) (code : LookingCode D U) {view view' : Argument D → State D} (u : U) (p : UserFns)
    (a : Argument D) (hv : ∀ b, view' (b.tune p) = view b) :
    (a.tune p).finishLooking scan code view' u =
      ((a.finishLooking scan code view u).1.tune p, (a.finishLooking scan code view u).2) := by
  unfold Argument.finishLooking
  rw [hv, runValidIn]
  generalize a.runValidIn (code (view a)) u = x
  obtain ⟨b, res, u1⟩ := x
  cases res with
  | ok _ => simp only; rw [toNumber, toDestIn, hv]
  | _ => rfl

theorem finishAllLooking_tune (scan : Str → Option D) (code : LookingCode D U) {view view' : List (Slot D) → State D}
    (k : Nat → UserFns) (u : U) (done l : List (Slot D)) (hv : ∀ l, view' (l.map (Slot.tune k)) = view l) :
    BletArgs.finishAllLooking scan code view' u (done.map (Slot.tune k)) (l.map (Slot.tune k)) =
      ((BletArgs.finishAllLooking scan code view u done l).1.map (Slot.tune k),
        (BletArgs.finishAllLooking scan code view u done l).2) := by
  induction l generalizing u done with
  | nil => rfl
  | cons s ss ih =>
    simp only [List.map_cons]
    unfold BletArgs.finishAllLooking
    rw [show (s.tune k).arg = s.arg.tune (k s.node) from rfl,
      finishLooking_tune scan code (view := fun a => view (done ++ { s with arg := a } :: ss)) u (k s.node) s.arg (fun b => by
        rw [← hv]
        simp only [List.map_append, List.map_cons]
        rfl)]
    generalize s.arg.finishLooking scan code _ u = x
    obtain ⟨b, w, res, u1⟩ := x
    cases res with
    | ok _ =>
      simp only
      have := ih u1 (done ++ [{ s with arg := b }])
      rw [List.map_append] at this
      have e : List.map (Slot.tune k) [{ s with arg := b }] = [{ s.tune k with arg := b.tune (k s.node) }] := rfl
      rw [e] at this
      rw [this]
      rfl
    | _ => rfl

theorem afterLoopLooking_tune (scan : Str → Option D) (code : LookingCode D U) (k : Nat → UserFns) (u : U) (s : State D) :
    (s.tune k).afterLoopLooking scan code u = outIn k (s.afterLoopLooking scan code u) := by
  unfold State.afterLoopLooking
  rw [optionSeen, optionSeen, getUsage, clear]
  simp only [show (s.tune k).isHelpException = s.isHelpException from rfl, show (s.tune k).version = s.version from rfl,
    show (s.tune k).isVersionException = s.isVersionException from rfl, show (s.tune k).helpOption = s.helpOption from rfl,
    show (s.tune k).versionOption = s.versionOption from rfl]
  cases s.optionSeen s.helpOption with
  | none => rfl
  | some b =>
    cases b with
    | true => simp only; cases s.isHelpException <;> rfl
    | false =>
      simp only
      cases s.optionSeen s.versionOption with
      | none => rfl
      | some b =>
        cases b with
        | true => simp only; cases s.isVersionException <;> rfl
        | false =>
          simp only
          unfold State.finishParseLooking
          rw [show (s.tune k).arguments = s.arguments.map (Slot.tune k) from rfl, firstMissing]
          cases BletArgs.firstMissing s.arguments with
          | some e => rfl
          | none =>
            simp only
            have := finishAllLooking_tune scan code (view := s.readable) (view' := (s.tune k).readable) k u [] s.arguments
              (readable_tune k s)
            rw [List.map_nil] at this
            rw [this]
            rfl

theorem parseLooking_tune (scan : Str → Option D) (code : LookingCode D U) (k : Nat → UserFns) (u : U) (s : State D) (argv : List Str) :
    (s.tune k).parseLooking scan code u argv = outIn k (s.parseLooking scan code u argv) := by
  unfold State.parseLooking
  rw [resetAll, autoHelp]
  generalize s.resetAll.autoHelp = x
  obtain ⟨s1, res⟩ := x
  cases res with
  | ok b =>
    cases b with
    | false => rfl
    | true =>
      simp only [out]
      rw [setBinary]
      generalize s1.setBinaryIfEmpty argv = x
      obtain ⟨s2, res⟩ := x
      cases res with
      | ok _ =>
        simp only [out]
        rw [loopBudget, mainLoop]
        generalize State.mainLoop _ _ _ _ s2 = x
        obtain ⟨s3, res⟩ := x
        cases res with
        | ok _ => exact afterLoopLooking_tune scan code k u s3
        | _ => rfl
      | _ => rfl
  | _ => rfl

end Tune
end BletArgs
