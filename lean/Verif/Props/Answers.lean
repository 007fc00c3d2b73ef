import Verif.Lemmas.Answers
import Verif.Props.Clear
import Verif.Props.Parse
/-
C101: what the modes change: how help and version are answered, and strict mode.
-/
namespace BletArgs
open Spec
variable {D : Type}

namespace Spec

/-- The calls of a program that were made and how they ended, without those that say how help and version are answered. -/
def heard (scan : Str → Option D) (st : State D) (ops : List Op) : List (Op × Res Unit) :=
  (ops.zip (outcomes scan st ops)).filter fun x => !Op.isAnswer x.1

/-- The same calls one after the other, with the same outcomes up to the answers to help and version, until one of the two
programs ends at a call at which the other goes on. -/
def SameHeard : List (Op × Res Unit) → List (Op × Res Unit) → Prop
  | [], [] => True
  | x :: xs, y :: ys => y.1 = x.1 ∧ SameAnswer x.2 y.2 ∧ (x.2.goesOn = y.2.goesOn → SameHeard xs ys)
  | _, _ => False

/-- Every call of the program is made and the last one returns or throws. -/
def RunsThrough (scan : Str → Option D) (st : State D) (ops : List Op) : Prop :=
  ∀ r ∈ outcomes scan st ops, r.goesOn = true

end Spec

theorem outcomes_cons (scan : Str → Option D) (st : State D) (op : Op) (ops : List Op) :
    outcomes scan st (op :: ops) =
      (step scan st op).2 :: if (step scan st op).2.goesOn then outcomes scan (step scan st op).1 ops else [] := rfl

theorem heard_answer {scan : Str → Option D} {st : State D} {op : Op} {ops : List Op} (ht : Op.isAnswer op = true) :
    heard scan st (op :: ops) = heard scan (step scan st op).1 ops ∧
    after scan st (op :: ops) = after scan (step scan st op).1 ops ∧
    (RunsThrough scan st (op :: ops) → RunsThrough scan (step scan st op).1 ops) := by
  have h0 := (answer_step scan st ht).2
  have ea : after scan st (op :: ops) =
      if (step scan st op).2.goesOn then after scan (step scan st op).1 ops else (step scan st op).1 := rfl
  unfold heard RunsThrough
  rw [outcomes_cons, ea, h0]
  refine ⟨?_, rfl, fun h r hr => h r (List.mem_cons_of_mem _ hr)⟩
  rw [List.zip_cons_cons, List.filter_cons]
  simp only [ht]
  rfl

theorem heard_answers {scan : Str → Option D} {st : State D} {ops : List Op} (ht : ∀ op ∈ ops, Op.isAnswer op = true) :
    heard scan st ops = [] ∧ SameButAnswers st (after scan st ops) := by
  induction ops generalizing st with
  | nil => exact ⟨rfl, _, _, _, rfl⟩
  | cons op ops ih =>
    have h1 := ht op (List.mem_cons_self ..)
    obtain ⟨e1, e2, -⟩ := heard_answer (scan := scan) (st := st) (ops := ops) h1
    obtain ⟨i1, i2⟩ := ih (st := (step scan st op).1) (fun o ho => ht o (List.mem_cons_of_mem _ ho))
    exact ⟨by rw [e1, i1], by rw [e2]; exact (answer_step scan st h1).1.trans i2⟩

theorem heard_call {scan : Str → Option D} {st : State D} {op : Op} {ops : List Op} (ht : Op.isAnswer op = false) :
    heard scan st (op :: ops) =
      (op, (step scan st op).2) :: if (step scan st op).2.goesOn then heard scan (step scan st op).1 ops else [] := by
  unfold heard
  rw [outcomes_cons, List.zip_cons_cons, List.filter_cons]
  simp only [ht]
  cases (step scan st op).2.goesOn <;> simp

/-- C101. Two programs that make the same calls, except for those that say how help and version are answered (`setVersion`,
`setHelpException`, `setVersionException`), which may be different, in other places, missing in one of them or more
numerous, run in the same way: the other calls end in the same way, with the same exception if any, up to the answer to a
command line that asks for help or for the version, which is in both the usage, with the same text, or in both the
version, each time printed by a program that then exits or thrown. That holds up to the first exit; and if neither
program exits the two parsers end up the same in everything but these three settings: names, kinds, values, counts,
references, additional words and writes to destinations. -/
theorem C101_answers_do_not_matter {scan : Str → Option D} {st st' : State D} {ops ops' : List Op}
    (hs : SameButAnswers st st')
    (same : ops'.filter (fun op => !Op.isAnswer op) = ops.filter fun op => !Op.isAnswer op) :
    SameHeard (heard scan st ops) (heard scan st' ops') ∧
    (RunsThrough scan st ops → RunsThrough scan st' ops' → SameButAnswers (after scan st ops) (after scan st' ops')) := by
  induction ops generalizing st st' ops' with
  | nil =>
    have ht : ∀ op ∈ ops', Op.isAnswer op = true := by
      intro op ho
      have := List.filter_eq_nil_iff.1 same op ho
      revert this
      cases Op.isAnswer op <;> simp
    obtain ⟨e1, e2⟩ := heard_answers (scan := scan) (st := st') ht
    rw [e1]
    exact ⟨trivial, fun _ _ => hs.trans e2⟩
  | cons op ops ih =>
    cases ht : Op.isAnswer op with
    | true =>
      obtain ⟨e1, e2, e3⟩ := heard_answer (scan := scan) (st := st) (ops := ops) ht
      rw [e1, e2]
      obtain ⟨i1, i2⟩ := ih (st := (step scan st op).1) (ops' := ops') ((answer_step scan st ht).1.symm.trans hs) (by
        rw [same, List.filter_cons]
        simp [ht])
      exact ⟨i1, fun a b => i2 (e3 a) b⟩
    | false =>
      rw [List.filter_cons] at same
      simp only [ht, Bool.not_false, if_true] at same
      induction ops' generalizing st' with
      | nil => exact absurd same (by simp)
      | cons op' ops' ih' =>
        cases ht' : Op.isAnswer op' with
        | true =>
          obtain ⟨e1, e2, e3⟩ := heard_answer (scan := scan) (st := st') (ops := ops') ht'
          rw [e1, e2]
          obtain ⟨i1, i2⟩ := ih' (hs.trans (answer_step scan st' ht').1) (by
            rw [List.filter_cons] at same
            simpa [ht'] using same)
          exact ⟨i1, fun a b => i2 a (e3 b)⟩
        | false =>
          rw [List.filter_cons] at same
          simp only [ht', Bool.not_false, if_true] at same
          have same2 := (List.cons.inj same).2
          have heq := (List.cons.inj same).1
          subst heq
          rw [heard_call ht, heard_call ht]
          obtain ⟨h1, h2⟩ := step_answers scan op' hs
          have tl : ∀ (x : State D) (l : List Op), (step scan x op').2.goesOn = true → RunsThrough scan x (op' :: l) →
              RunsThrough scan (step scan x op').1 l := by
            intro x l hx hl r hr
            refine hl r ?_
            rw [outcomes_cons, hx]
            exact List.mem_cons_of_mem _ hr
          have hd : ∀ (x : State D) (l : List Op), RunsThrough scan x (op' :: l) → (step scan x op').2.goesOn = true :=
            fun x l hl => hl _ (by rw [outcomes_cons]; exact List.mem_cons_self ..)
          refine ⟨⟨rfl, h2, fun hg => ?_⟩, fun ha ha' => ?_⟩
          · simp only at hg
            rw [← hg]
            cases hgo : (step scan st op').2.goesOn with
            | false => exact trivial
            | true => exact (ih (h1 hg) same2).1
          · have g := hd st ops ha
            have g' := hd st' ops' ha'
            unfold after
            rw [g, g']
            exact (ih (h1 (g.trans g'.symm)) same2).2 (tl st ops g ha) (tl st' ops' g' ha')

/-- C101, one parse. From any two parsers that differ in the version text and the two exception modes at most, on any
command line, the same thing happens up to the answer to help (in both the usage, with the same text) or version (in each
its own version text), printed by a program that exits or thrown; and unless exactly one of them exits they are
left the same up to these settings. -/
theorem C101_parse (scan : Str → Option D) {st st' : State D} (hs : SameButAnswers st st') (argv : List Str) :
    SameParse st.version st'.version (st.parseArguments scan argv).2 (st'.parseArguments scan argv).2 ∧
    ((st.parseArguments scan argv).2.goesOn = (st'.parseArguments scan argv).2.goesOn →
      SameButAnswers (st.parseArguments scan argv).1 (st'.parseArguments scan argv).1) := by
  obtain ⟨v, h, x, rfl⟩ := hs
  have e := Answers.parse v h x scan st argv
  exact ⟨e.2, e.1⟩

/-- C101, strict mode. From any parser that is not strict and on any command line there are words, in order, such that: if
the parse returns or throws, it adds exactly these to the additional words. Without any, the same parser in strict mode
does the same and is left the same, but strict. With some, it throws the exception about the first of them. -/
theorem C101_strict (scan : Str → Option D) {st : State D} (hs : st.isStrict = false) (argv : List Str) :
    let strict : State D := { st with isStrict := true }
    ∃ ws : List Str,
      ((st.parseArguments scan argv).2.goesOn = true → (st.parseArguments scan argv).1.additional = st.additional ++ ws) ∧
      (ws = [] → (strict.parseArguments scan argv).2 = (st.parseArguments scan argv).2 ∧
        ((st.parseArguments scan argv).2.goesOn = true →
          (strict.parseArguments scan argv).1 = { (st.parseArguments scan argv).1 with isStrict := true })) ∧
      ∀ w rest, ws = w :: rest →
        (strict.parseArguments scan argv).2 = .throw ⟨.parse, w, "invalid additional argument".toList⟩ := by
  exact parse_strictly scan st hs argv

/-! ### Concrete cases -/

/-- A program that asks for the version, then for help. -/
def answering : List Op :=
  [.add ["-V".toList], .action 0 .version, .add ["-h".toList], .action 1 .help, .setVersion "1.0".toList,
   .setVersionException true, .setHelpException true, .parse (["prog", "a", "-V"].map String.toList),
   .parse (["prog", "-h", "b"].map String.toList), .parse (["prog", "b"].map String.toList)]

/-- The same program with another version text, set later, and a change of mode. -/
def answeringToo : List Op :=
  [.setHelpException false, .setVersionException true, .add ["-V".toList], .action 0 .version, .add ["-h".toList],
   .action 1 .help, .parse (["prog", "a", "-V"].map String.toList), .setHelpException true, .setVersion "2".toList,
   .parse (["prog", "-h", "b"].map String.toList), .parse (["prog", "b"].map String.toList)]

/-- The same program again, which prints the version and exits. -/
def answeringOnce : List Op :=
  answering.filter fun op => !Op.isAnswer op

/-- The two programs make the same calls, run through, are told seven calls, of which two end in an exception. -/
example :
    SameButAnswers (State.init : State Unit) State.init ∧
    answeringToo.filter (fun op => !Op.isAnswer op) = answering.filter (fun op => !Op.isAnswer op) ∧
    RunsThrough demoScan State.init answering ∧ RunsThrough demoScan State.init answeringToo ∧
    (heard demoScan State.init answering).length = 7 ∧
    (outcomes demoScan State.init answering)[7]? = some (.throw ⟨.version, [], "1.0".toList⟩) ∧
    (outcomes demoScan State.init answeringToo)[6]? = some (.throw ⟨.version, [], []⟩) ∧
    (after demoScan State.init answering).version ≠ (after demoScan State.init answeringToo).version := by
  have all : ∀ l : List (Res Unit), l.all Res.goesOn = true → ∀ r ∈ l, r.goesOn = true := fun l h => List.all_eq_true.1 h
  exact ⟨⟨_, _, _, rfl⟩, rfl, all _ (by decide +kernel), all _ (by decide +kernel), by decide +kernel, by decide +kernel,
    by decide +kernel, by decide +kernel⟩

/-- With an exit: the program is told five calls, the last one being the version. -/
example :
    answeringOnce.filter (fun op => !Op.isAnswer op) = answering.filter (fun op => !Op.isAnswer op) ∧
    (heard demoScan State.init answeringOnce).length = 5 ∧
    (outcomes demoScan State.init answeringOnce)[4]? = some (.exit "\n".toList) := ⟨rfl, by decide +kernel, by decide +kernel⟩

/-- The reference parser on a line with help, and two of the modes. -/
example :=
  C101_parse demoScan (st := parser) (st' := { parser with isHelpException := true, version := "3".toList })
    ⟨_, _, _, rfl⟩ (["prog", "in", "-h"].map String.toList)

example :
    (parser.parseArguments demoScan (["prog", "in", "-h"].map String.toList)).2.goesOn = false ∧
    (({ parser with isHelpException := true } : State Unit).parseArguments demoScan (["prog", "in", "-h"].map String.toList)).2.goesOn =
      true := by decide +kernel

/-- A line with two surplus words, and one without. -/
example : (let st := runOps demoScan (State.init : State Unit) [.add ["file".toList], .add ["-h".toList], .action 1 .help]
    st.isStrict = false ∧
    (st.parseArguments demoScan (["prog", "a", "b", "c"].map String.toList)).1.additional = st.additional ++ ["b".toList, "c".toList] ∧
    (({ st with isStrict := true } : State Unit).parseArguments demoScan (["prog", "a", "b", "c"].map String.toList)).2 =
      .throw ⟨.parse, "b".toList, "invalid additional argument".toList⟩ ∧
    (st.parseArguments demoScan (["prog", "a"].map String.toList)).1.additional = st.additional ++ [] ∧
    (({ st with isStrict := true } : State Unit).parseArguments demoScan (["prog", "a"].map String.toList)).2 = .ok ()) := by
  decide +kernel

end BletArgs
