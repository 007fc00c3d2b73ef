import Verif.Lemmas.Commute
import Verif.Spec.Chain
/-
Statements made of chained calls, and their effect on one argument.
-/
namespace BletArgs
open Spec
variable {D : Type}

/-! ### Renamed parsers are alike -/

theorem Ren.op_eq (r : Ren) (op : Op) : r.op op = Spec.Op.rename r.o op := by cases op <;> rfl

theorem Renamed.after {r : Ren} {s s' : State D} (h : Renamed r s s') (scan : Str → Option D) (ops : List Op) :
    Renamed r (Spec.after scan s ops) (Spec.after scan s' (ops.map (Spec.Op.rename r.o))) ∧
    Spec.outcomes scan s' (ops.map (Spec.Op.rename r.o)) = Spec.outcomes scan s ops := by
  induction ops generalizing s s' with
  | nil => exact ⟨h, rfl⟩
  | cons op ops ih =>
    rw [List.map_cons]
    unfold Spec.after Spec.outcomes
    have hs := h.step scan (Room.all_has s) op
    rw [r.op_eq op] at hs
    revert hs
    generalize BletArgs.step scan s op = x
    generalize BletArgs.step scan s' (Spec.Op.rename r.o op) = x'
    obtain ⟨u, res⟩ := x
    obtain ⟨u', res'⟩ := x'
    rintro ⟨hs, rfl : res' = res⟩
    have e := ih hs
    cases res' with
    | ok _ => exact ⟨e.1, congrArg _ e.2⟩
    | throw _ => exact ⟨e.1, congrArg _ e.2⟩
    | _ => exact ⟨hs, rfl⟩

theorem RenamedIn.visible {ok : Room} {r : Ren} {s s' : State D} (h : RenamedIn ok r s s') : Spec.visible s' = Spec.visible s := by
  have ha : s'.arguments.map (·.arg) = s.arguments.map (·.arg) := by
    rw [h.args, List.map_map]; rfl
  have hb : ∀ n, ((lookupName s'.byName n).bind s'.atNode).map (·.arg) = ((lookupName s.byName n).bind s.atNode).map (·.arg) := by
    intro n
    rw [h.look]
    cases lookupName s.byName n with
    | none => rfl
    | some k =>
      show (s'.atNode (r.n k)).map _ = _
      rw [h.atNode, Option.map_map]; rfl
  have hp : ∀ p : Option Nat, ((p.map r.o).bind s'.atObj).map (·.arg) = (p.bind s.atObj).map (·.arg) := by
    intro p
    cases p with
    | none => rfl
    | some o =>
      show (s'.atObj (r.o o)).map _ = _
      rw [h.atObj, Option.map_map]; rfl
  have e1 : s'.usage = s.usage := h.get (fun x => x.usage) fun _ => rfl
  have e2 : s'.description = s.description := h.get (fun x => x.description) fun _ => rfl
  have e3 : s'.epilog = s.epilog := h.get (fun x => x.epilog) fun _ => rfl
  have e4 : s'.padWidth = s.padWidth := h.get (fun x => x.padWidth) fun _ => rfl
  have e5 : s'.argsWidth = s.argsWidth := h.get (fun x => x.argsWidth) fun _ => rfl
  have e6 : s'.sepWidth = s.sepWidth := h.get (fun x => x.sepWidth) fun _ => rfl
  have e7 : s'.helpWidth = s.helpWidth := h.get (fun x => x.helpWidth) fun _ => rfl
  have e8 : s'.binaryName = s.binaryName := h.get (fun x => x.binaryName) fun _ => rfl
  have e9 : s'.version = s.version := h.get (fun x => x.version) fun _ => rfl
  have e10 : s'.isAlternative = s.isAlternative := h.get (fun x => x.isAlternative) fun _ => rfl
  have e11 : s'.isStrict = s.isStrict := h.get (fun x => x.isStrict) fun _ => rfl
  have e12 : s'.isHelpException = s.isHelpException := h.get (fun x => x.isHelpException) fun _ => rfl
  have e13 : s'.isVersionException = s.isVersionException := h.get (fun x => x.isVersionException) fun _ => rfl
  have e14 : s'.additional = s.additional := h.get (fun x => x.additional) fun _ => rfl
  unfold Spec.visible
  rw [h.getUsage, ha, funext hb, h.help, h.version, hp, hp, e1, e2, e3, e4, e5, e6, e7, e8, e9, e10, e11, e12, e13, e14]

theorem Renamed.alike {r : Ren} {s s' : State D} (h : Renamed r s s') : Alike r.o s s' := by
  have ref : ∀ (x : Res Nat) (v : Nat), x = .ok v ↔ r.ref x = .ok (r.o v) := by
    intro x v
    cases x with
    | ok u =>
      simp only [Ren.ref, Res.ok.injEq]
      exact ⟨congrArg _, r.oinj u v⟩
    | _ => simp [Ren.ref]
  refine ⟨fun scan ops => (h.after scan ops).2, fun scan ops => (h.after scan ops).1.visible, fun scan ops => ?_,
    fun scan ops ref => ?_, fun scan ops names v => ?_, fun scan ops rf d v => ?_⟩
  · exact (h.after scan ops).1.get (fun x => x.destLog) fun _ => rfl
  · rw [(h.after scan ops).1.atObj, Option.map_map]; rfl
  · rw [((h.after scan ops).1.add (Room.all_has _) names).2]
    exact ref _ v
  · rw [((h.after scan ops).1.setDest trivial rf d).2]
    exact ref _ v

end BletArgs
