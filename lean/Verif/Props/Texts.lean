import Verif.Lemmas.Bare
import Verif.Props.Clear
import Verif.Model.Read
/-
C72: the texts of the usage have no influence on anything else.
-/
namespace BletArgs
open Spec
variable {D : Type}

namespace Spec

/-- The calls of a program that were made and how they ended, without those that concern the usage. -/
def told (scan : Str → Option D) (st : State D) (ops : List Op) : List (Op × Res Unit) :=
  (ops.zip (outcomes scan st ops)).filter fun x => !Op.isText x.1

/-- The same calls one after the other, with the same outcomes up to the text of the usage. -/
def SameTold (D : Type) : List (Op × Res Unit) → List (Op × Res Unit) → Prop
  | [], [] => True
  | x :: xs, y :: ys => y.1 = x.1 ∧ SameOutcome D x.2 y.2 ∧ SameTold D xs ys
  | _, _ => False

/-- No call that concerns the usage is made through a dead reference (`help` and `metavar` are the only ones to use a
reference). -/
def TextsAlive (scan : Str → Option D) (st : State D) (ops : List Op) : Prop :=
  ∀ x ∈ ops.zip (outcomes scan st ops), Op.isText x.1 = true → x.2 = .ok ()

end Spec

theorem Spec.SameButTexts.trans {s t u : State D} (h : SameButTexts s t) (k : SameButTexts t u) : SameButTexts s u := by
  show _ = _; rw [show u.bare = t.bare from k, show t.bare = s.bare from h]

theorem Spec.SameButTexts.symm {s t : State D} (h : SameButTexts s t) : SameButTexts t s := Eq.symm h

theorem Spec.SameOutcome.goesOn {r r' : Res Unit} (h : SameOutcome D r r') : r'.goesOn = r.goesOn := by
  rcases h with h | ⟨_, _, _, ⟨h, h'⟩ | ⟨h, h'⟩⟩
  · rw [h]
  · rw [h, h']; rfl
  · rw [h, h']; rfl

theorem told_text {scan : Str → Option D} {st : State D} {op : Op} {ops : List Op} (ht : Op.isText op = true)
    (ha : TextsAlive scan st (op :: ops)) :
    told scan st (op :: ops) = told scan (step scan st op).1 ops ∧
    after scan st (op :: ops) = after scan (step scan st op).1 ops ∧ TextsAlive scan (step scan st op).1 ops := by
  have ea : after scan st (op :: ops) =
      if (step scan st op).2.goesOn then after scan (step scan st op).1 ops else (step scan st op).1 := rfl
  unfold TextsAlive told at *
  rw [show outcomes scan st (op :: ops) =
    (step scan st op).2 :: if (step scan st op).2.goesOn then outcomes scan (step scan st op).1 ops else [] from rfl] at *
  have h0 : (step scan st op).2 = .ok () := ha (op, (step scan st op).2) (by rw [List.zip_cons_cons]; exact List.mem_cons_self ..) ht
  rw [h0] at ha ea ⊢
  refine ⟨?_, ea, fun x hx => ha x ?_⟩
  · rw [List.zip_cons_cons, List.filter_cons]
    simp only [ht]
    rfl
  · rw [List.zip_cons_cons]; exact List.mem_cons_of_mem _ hx

theorem told_texts {scan : Str → Option D} {st : State D} {ops : List Op} (ht : ∀ op ∈ ops, Op.isText op = true)
    (ha : TextsAlive scan st ops) : told scan st ops = [] ∧ SameButTexts st (after scan st ops) := by
  induction ops generalizing st with
  | nil => exact ⟨rfl, rfl⟩
  | cons op ops ih =>
    have h1 := ht op (List.mem_cons_self ..)
    obtain ⟨e1, e2, e3⟩ := told_text h1 ha
    obtain ⟨i1, i2⟩ := ih (st := (step scan st op).1) (fun o ho => ht o (List.mem_cons_of_mem _ ho)) e3
    exact ⟨by rw [e1, i1], by rw [e2]; exact (Bare.text scan st h1).trans i2⟩

/-- A program whose first call is not about the usage. -/
theorem told_call {scan : Str → Option D} {st : State D} {op : Op} {ops : List Op} (ht : Op.isText op = false) :
    told scan st (op :: ops) =
      (op, (step scan st op).2) :: if (step scan st op).2.goesOn then told scan (step scan st op).1 ops else [] := by
  unfold told
  rw [show outcomes scan st (op :: ops) =
    (step scan st op).2 :: if (step scan st op).2.goesOn then outcomes scan (step scan st op).1 ops else [] from rfl,
    List.zip_cons_cons, List.filter_cons]
  simp only [ht]
  cases (step scan st op).2.goesOn <;> simp

/-- C72. Two programs that make the same calls, except for those that concern the usage (`help`, `metavar`,
`setUsage`, `setDescription`, `setEpilog`, `setUsageWidth`), which may be different, in other places, missing in one of
them or more numerous, run in the same way: the other calls end in the same way, with the same exception if any, up to
the text of the usage shown, and the two parsers end up the same in everything but these texts: names, kinds, values,
counts, settings, defaults, references and writes to destinations. -/
theorem C72_texts_do_not_matter {scan : Str → Option D} {st st' : State D} {ops ops' : List Op}
    (hs : SameButTexts st st')
    (same : ops'.filter (fun op => !Op.isText op) = ops.filter fun op => !Op.isText op)
    (ha : TextsAlive scan st ops) (ha' : TextsAlive scan st' ops') :
    SameTold D (told scan st ops) (told scan st' ops') ∧
    SameButTexts (after scan st ops) (after scan st' ops') := by
  induction ops generalizing st st' ops' with
  | nil =>
    have ht : ∀ op ∈ ops', Op.isText op = true := by
      intro op ho
      have := List.filter_eq_nil_iff.1 same op ho
      revert this
      cases Op.isText op <;> simp
    obtain ⟨e1, e2⟩ := told_texts ht ha'
    rw [e1]
    exact ⟨trivial, hs.trans e2⟩
  | cons op ops ih =>
    cases ht : Op.isText op with
    | true =>
      obtain ⟨e1, e2, e3⟩ := told_text ht ha
      rw [e1, e2]
      refine ih ((Bare.text scan st ht).symm.trans hs) ?_ e3 ha'
      rw [same, List.filter_cons]
      simp [ht]
    | false =>
      rw [List.filter_cons] at same
      simp only [ht, Bool.not_false, if_true] at same
      induction ops' generalizing st' with
      | nil => exact absurd same (by simp)
      | cons op' ops' ih' =>
        cases ht' : Op.isText op' with
        | true =>
          obtain ⟨e1, e2, e3⟩ := told_text ht' ha'
          rw [e1, e2]
          refine ih' (hs.trans (Bare.text scan st' ht')) e3 ?_
          rw [List.filter_cons] at same
          simpa [ht'] using same
        | false =>
          rw [List.filter_cons] at same
          simp only [ht', Bool.not_false, if_true] at same
          have same2 := (List.cons.inj same).2
          have heq := (List.cons.inj same).1
          subst heq
          rw [told_call ht, told_call ht]
          obtain ⟨h1, h2⟩ := Bare.step scan op' hs
          have hg := SameOutcome.goesOn h2
          unfold after
          rw [hg]
          cases hgo : (step scan st op').2.goesOn with
          | false => exact ⟨⟨rfl, h2, trivial⟩, h1⟩
          | true =>
            have tl : ∀ (x : State D) (l : List Op), (step scan x op').2.goesOn = true → TextsAlive scan x (op' :: l) →
                TextsAlive scan (step scan x op').1 l := by
              intro x l hx hl y hy hyt
              unfold TextsAlive at hl
              unfold outcomes at hl
              rw [hx] at hl
              exact hl y (by rw [List.zip_cons_cons]; exact List.mem_cons_of_mem _ hy) hyt
            obtain ⟨i1, i2⟩ := ih h1 same2 (tl st ops hgo ha) (tl st' ops' (by rw [hg]; exact hgo) ha')
            exact ⟨⟨rfl, h2, i1⟩, i2⟩

/-- What a program reads of the argument a name leads to, except its texts. -/
def Spec.readings (st : State D) (name : Str) : Res (Bool × Nat × Str × Res D × Res (List Str) × Res (List (List Str)) × Bool) :=
  match st.getArgument name with
  | .ok s => .ok (s.arg.isExist, s.arg.count, s.arg.getString, s.arg.readNumber, s.arg.readVector, s.arg.readVecVec, s.arg.toBool)
  | r => r.cast

/-- C72. In particular the program reads the same values, numbers, lists, groups, presence and counts under every name,
the same additional words, and the same writes have been made to its variables. -/
theorem C72_same_readings {scan : Str → Option D} {st st' : State D} {ops ops' : List Op}
    (hs : SameButTexts st st')
    (same : ops'.filter (fun op => !Op.isText op) = ops.filter fun op => !Op.isText op)
    (ha : TextsAlive scan st ops) (ha' : TextsAlive scan st' ops') :
    let a := after scan st ops
    let a' := after scan st' ops'
    (∀ name, readings a' name = readings a name) ∧ a'.additional = a.additional ∧ a'.destLog = a.destLog ∧
    a'.arguments.map (·.arg.names) = a.arguments.map (·.arg.names) := by
  intro a a'
  have h : a'.bare = a.bare := (C72_texts_do_not_matter hs same ha ha').2
  have hb : ∀ (x : State D) name, readings x.bare name = readings x name := by
    intro x name
    unfold readings State.getArgument
    rw [show x.bare.byName = x.byName from rfl]
    cases lookupName x.byName name with
    | none => rfl
    | some n =>
      simp only
      rw [Bare.atNode]
      cases x.atNode n <;> rfl
  have hn : ∀ x : State D, x.bare.arguments.map (·.arg.names) = x.arguments.map (·.arg.names) := by
    intro x
    show (x.arguments.map Slot.bare).map _ = _
    rw [List.map_map]; rfl
  refine ⟨fun name => by rw [← hb, h, hb], (congrArg (fun x : State D => x.additional) h :),
    (congrArg (fun x : State D => x.destLog) h :), by rw [← hn, h, hn]⟩

/-! ### A concrete case -/

/-- A program with texts. -/
def dressed : List Op :=
  [.setDescription "copies files".toList, .add ["-v".toList, "--verbose".toList], .action 0 .storeTrue,
   .help 0 "say more".toList, .add ["FILE".toList], .required 1 true, .metavar 1 "<file>".toList,
   .setUsageWidth 4 30 4 100, .parse (["prog", "-v", "a"].map String.toList), .setEpilog "bye".toList,
   .setHelpException true, .parse (["prog", "a", "-h"].map String.toList)]

/-- The same program with other texts, in other places. -/
def undressed : List Op :=
  [.add ["-v".toList, "--verbose".toList], .metavar 0 "V".toList, .action 0 .storeTrue,
   .add ["FILE".toList], .required 1 true, .parse (["prog", "-v", "a"].map String.toList), .setHelpException true,
   .setUsage "see the manual".toList, .parse (["prog", "a", "-h"].map String.toList), .help 1 "file".toList]

theorem textsAlive_of_check {scan : Str → Option D} {st : State D} {ops : List Op}
    (h : (ops.zip (outcomes scan st ops)).all (fun x => !Op.isText x.1 || match x.2 with | .ok _ => true | _ => false) = true) :
    TextsAlive scan st ops := by
  intro x hx ht
  have := List.all_eq_true.1 h x hx
  rw [ht] at this
  revert this
  cases x.2 with
  | ok u => intro _; rfl
  | _ => intro h; exact Bool.noConfusion h

/-- The two programs make the same calls apart from the texts, and all their texts are set through live references:
C72 applies. Seven calls are told, the last of which shows the usage, with different texts. -/
example :
    SameButTexts (State.init : State Unit) State.init ∧
    undressed.filter (fun op => !Op.isText op) = dressed.filter (fun op => !Op.isText op) ∧
    TextsAlive demoScan State.init dressed ∧ TextsAlive demoScan State.init undressed ∧
    (told demoScan State.init dressed).length = 7 ∧ (told demoScan State.init undressed).length = 7 ∧
    (after demoScan State.init dressed).getUsage ≠ (after demoScan State.init undressed).getUsage :=
  ⟨rfl, rfl, textsAlive_of_check (by decide +kernel), textsAlive_of_check (by decide +kernel), by decide +kernel,
    by decide +kernel, by decide +kernel⟩

/-- The reference has to be alive: a text set through a dead one is undefined behaviour. -/
example :
    ¬TextsAlive demoScan State.init [.add ["-v".toList], .remove ["-v".toList], .help 0 "gone".toList] := by
  intro h
  exact nomatch h (.help 0 "gone".toList, .ub "dangling Argument&") (.tail _ (.tail _ (.head _))) rfl

end BletArgs
