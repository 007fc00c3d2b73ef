import Verif.Props.Faults
import Verif.Lemmas.Finish
/-
C63: which calls can throw what.
-/
namespace BletArgs
open Spec
variable {D : Type}

/-- No `exit`, and no exceptions but `ParseArgumentException`s. -/
def OnlyParse {α : Type} : Res α → Prop
  | .throw e => e.kind = .parse
  | .exit _ => False
  | _ => True

theorem OnlyParse.cast {α β : Type} {r : Res α} (h : OnlyParse r) : OnlyParse (r.cast : Res β) := by
  cases r <;> exact h

theorem Argument.parseArgument_only (stop : Str → Bool) (argv : List Str) (max index : Nat) (hasArg : Bool)
    (option arg : Str) (a : Argument D) : OnlyParse (a.parseArgument stop argv max index hasArg option arg).2 := by
  unfold Argument.parseArgument
  cases hasArg <;> simp only [if_true, Bool.false_eq_true, if_false] <;> cases ht : a.type <;> simp only <;>
    (repeat' split) <;> first | exact trivial | rfl

theorem Argument.parsePositional_only (stop : Str → Bool) (argv : List Str) (argc index : Nat)
    (a : Argument D) : OnlyParse (a.parsePositional stop argv argc index).2 := by
  unfold Argument.parsePositional
  cases ht : a.type <;> simp only <;> (repeat' split) <;> first | exact trivial | rfl

theorem parseAt_only (st : State D) (argv : List Str) (max index : Nat) (hasArg : Bool) (option arg : Str)
    (node : Nat) : OnlyParse (st.parseAt argv max index hasArg option arg node).2 := by
  unfold State.parseAt
  split
  · trivial
  · exact Argument.parseArgument_only ..

theorem parseCluster_only (argv : List Str) (max index : Nat) (hasArg : Bool) (arg : Str)
    (cs : List Char) (st : State D) : OnlyParse (State.parseCluster argv max index hasArg arg cs st).2 := by
  induction cs generalizing st with
  | nil =>
    unfold State.parseCluster
    split
    · rfl
    · exact parseAt_only ..
  | cons c cs ih =>
    cases cs with
    | nil =>
      unfold State.parseCluster
      split
      · rfl
      · exact parseAt_only ..
    | cons c2 rest =>
      unfold State.parseCluster
      split
      · rfl
      · split
        · trivial
        · split
          · exact parseAt_only ..
          · split
            · rfl
            · exact ih _

theorem parseShort_only (st : State D) (argv : List Str) (max index : Nat) (tok : Str) :
    OnlyParse (st.parseShort argv max index tok).2 := by
  unfold State.parseShort
  split
  next options arg hasArg _ =>
  split
  · exact parseAt_only ..
  · exact parseCluster_only ..

theorem parseLong_only (st : State D) (argv : List Str) (max index : Nat) (tok : Str) :
    OnlyParse (st.parseLong argv max index tok).2 := by
  unfold State.parseLong
  split
  next options arg hasArg _ =>
  split
  · rfl
  · exact parseAt_only ..

theorem parsePositionalTok_only (st : State D) (argv : List Str) (argc index : Nat) (hasEnd : Bool) :
    OnlyParse (st.parsePositionalTok argv argc index hasEnd).2 := by
  unfold State.parsePositionalTok
  split
  · exact Argument.parsePositional_only ..
  · split
    · trivial
    · split
      · rfl
      · trivial

theorem endLoop_only (argv : List Str) (f i : Nat) (st : State D) : OnlyParse (State.endLoop argv f i st).2 := by
  induction f generalizing i st with
  | zero => trivial
  | succ f ih =>
    unfold State.endLoop
    split
    · have hc := parsePositionalTok_only st argv argv.length i true
      generalize st.parsePositionalTok argv argv.length i true = r at hc ⊢
      obtain ⟨st1, r⟩ := r
      cases r with
      | ok i1 => exact ih _ _
      | _ => exact OnlyParse.cast hc
    · trivial

theorem mainLoop_only (argv : List Str) (ei f i : Nat) (st : State D) :
    OnlyParse (State.mainLoop argv ei f i st).2 := by
  induction f generalizing i st with
  | zero => trivial
  | succ f ih =>
    have key : ∀ r : State D × Res Nat, OnlyParse r.2 →
        OnlyParse (match r with
          | (st1, .ok i1) => State.mainLoop argv ei f i1 st1
          | (st1, r) => (st1, r.cast)).2 := by
      intro r hc
      obtain ⟨st1, r⟩ := r
      cases r with
      | ok i1 => exact ih _ _
      | _ => exact OnlyParse.cast hc
    unfold State.mainLoop
    split
    · split
      · trivial
      · split
        · exact key _ (parseShort_only ..)
        · split
          · exact key _ (parseLong_only ..)
          · split
            · exact endLoop_only ..
            · exact key _ (parsePositionalTok_only ..)
    · trivial

theorem finishAll_no_exit (scan : Str → Option D) (l : List (Slot D)) (o : Str) : (finishAll scan l).2.2 ≠ .exit o := by
  have hd : ∀ a : Argument D, a.toDest.2 ≠ .exit o := by
    intro a
    rcases toDest_ends a with e | ⟨x, e⟩ <;> rw [e] <;> simp
  have hv : ∀ a : Argument D, a.runValid.2 ≠ .exit o := by
    intro a
    unfold Argument.runValid
    repeat' split
    all_goals simp
  induction l with
  | nil => intro h; cases h
  | cons s l ih =>
    unfold finishAll
    have hf : (s.arg.finish scan).2.2 ≠ .exit o := by
      unfold Argument.finish
      have := hv s.arg
      generalize s.arg.runValid = r at this ⊢
      obtain ⟨a1, r⟩ := r
      cases r with
      | ok u => exact hd _
      | _ => exact this
    generalize s.arg.finish scan = r at hf ⊢
    obtain ⟨a1, w, r⟩ := r
    cases r with
    | ok u => exact ih
    | _ => exact hf

/-- The program's own code threw `e`: a validator registered by one of the arguments threw it, and it is not one of the
library's `ParseArgumentValidException`s, or the callback of one of the destinations did. -/
def UserThrew (l : List (Slot D)) (e : Exn) : Prop :=
  ∃ s ∈ l, (∃ v, s.arg.valid = some v ∧ ∃ values, v.check values = .throwOther e) ∨
    ∃ d, s.arg.dest = some d ∧ d.custom = true ∧ ∃ w, d.refuses w = some e

theorem runValid_only {a : Argument D} {e : Exn} (he : a.runValid.2 = .throw e) :
    e.kind = .valid ∨ ∃ v, a.valid = some v ∧ ∃ values, v.check values = .throwOther e := by
  unfold Argument.runValid at he
  cases hv : a.valid with
  | none => rw [hv] at he; cases he
  | some v =>
    rw [hv] at he
    simp only at he
    split at he
    · generalize hc : v.check (a.toVector.getD []) = r at he
      cases r with
      | throwValid msg => cases he; exact .inl rfl
      | throwOther x => cases he; exact .inr ⟨v, rfl, _, hc⟩
      | reject => cases he; exact .inl rfl
      | accept l =>
        simp only at he
        cases ht : a.type <;> rw [ht] at he <;> simp only at he <;> cases he <;> exact .inl rfl
    · cases he

theorem finish_only {scan : Str → Option D} {a : Argument D} {e : Exn} (he : (a.finish scan).2.2 = .throw e) :
    e = noConversion ∨ e.kind = .valid ∨ (∃ v, a.valid = some v ∧ ∃ values, v.check values = .throwOther e) ∨
      ∃ d, a.dest = some d ∧ d.custom = true ∧ ∃ w, d.refuses w = some e := by
  unfold Argument.finish at he
  have hd := runValid_dest a
  generalize hr : a.runValid = r at he hd
  obtain ⟨a1, r⟩ := r
  cases r with
  | ok u =>
    obtain ⟨d, g1, g2⟩ := toDest_throw he
    rw [toNumber_dest, hd] at g1
    rcases g2 with ⟨g2, g3⟩ | ⟨_, _, g2⟩
    · exact .inr (.inr (.inr ⟨d, g1, g2, _, g3⟩))
    · exact .inl g2
  | throw x => exact .inr ((runValid_only (by rw [hr]; exact he)).imp id .inl)
  | _ => cases he

theorem finishAll_only {scan : Str → Option D} {l : List (Slot D)} {e : Exn}
    (he : (finishAll scan l).2.2 = .throw e) : e.kind = .parse ∨ e.kind = .valid ∨ UserThrew l e := by
  induction l with
  | nil => cases he
  | cons s l ih =>
    unfold finishAll at he
    generalize hr : s.arg.finish scan = r at he
    obtain ⟨a1, w, r⟩ := r
    cases r with
    | ok u =>
      rcases ih he with h | h | ⟨t, ht, h⟩
      · exact .inl h
      · exact .inr (.inl h)
      · exact .inr (.inr ⟨t, List.mem_cons_of_mem _ ht, h⟩)
    | throw x =>
      simp only [Res.throw.injEq] at he
      subst he
      rcases finish_only (by rw [hr]) with h | h | h
      · rw [h]; exact .inl rfl
      · exact .inr (.inl h)
      · exact .inr (.inr ⟨s, List.mem_cons_self .., h⟩)
    | _ => cases he

theorem UserThrew.config {l l' : List (Slot D)} {e : Exn} (h : UserThrew l e)
    (hc : l.map Slot.config = l'.map Slot.config) : UserThrew l' e := by
  obtain ⟨s, hs, hx⟩ := h
  have : Slot.config s ∈ l'.map Slot.config := by rw [← hc]; exact List.mem_map.2 ⟨s, hs, rfl⟩
  obtain ⟨t, ht, e⟩ := List.mem_map.1 this
  have e1 := (congrArg (fun x : Slot D => x.arg.valid) e :)
  have e2 := (congrArg (fun x : Slot D => x.arg.dest) e :)
  refine ⟨t, ht, hx.imp ?_ ?_⟩
  · rintro ⟨v, hv, h⟩; exact ⟨v, e1.trans hv, h⟩
  · rintro ⟨d, hd, h⟩; exact ⟨d, e2.trans hd, h⟩

/-- What `parseArguments` can throw, and what it prints before `exit(0)`. -/
theorem parse_classes {scan : Str → Option D} {st : State D} {full : Prop} (hi : GInv full st) (argv : List Str) :
    (∀ e, (st.parseArguments scan argv).2 = .throw e →
      e.kind.isParse = true ∨ (e.kind = .help ∧ e.argument = [] ∧ st.isHelpException = true) ∨
        (e = ⟨.version, [], st.version⟩ ∧ st.isVersionException = true) ∨ UserThrew st.arguments e) ∧
    (∀ o, (st.parseArguments scan argv).2 = .exit o →
      st.isHelpException = false ∨ (st.isVersionException = false ∧ o = st.version ++ "\n".toList)) := by
  unfold State.parseArguments
  -- what the automatic help option leaves
  have h1 : ∃ b st1, st.resetAll.autoHelp = (st1, .ok b) ∧ GInv full st1 ∧ st1.isHelpException = st.isHelpException ∧
      st1.isVersionException = st.isVersionException ∧ st1.version = st.version ∧
      ∀ e, UserThrew st1.arguments e → UserThrew st.arguments e := by
    have hr : GInv full st.resetAll := inv_of_config (resetAll_config st) hi
    have hv : ∀ e, UserThrew st.resetAll.arguments e → UserThrew st.arguments e :=
      fun e he => he.config (congrArg State.arguments (resetAll_config st) :)
    rcases autoHelp_cases hr with ⟨_, e⟩ | ⟨_, _, e⟩ | ⟨h1, h2, e⟩
    · exact ⟨true, _, e, hr, rfl, rfl, rfl, hv⟩
    · exact ⟨false, _, e, hr, rfl, rfl, rfl, hv⟩
    · refine ⟨true, _, e, withHelp_inv hr h2 h1, rfl, rfl, rfl, ?_⟩
      rintro x ⟨s, hs, hx⟩
      refine hv x ?_
      unfold State.withHelp at hs
      simp only [mem_stableSort, List.mem_append, List.mem_singleton] at hs
      rcases hs with hs | rfl
      · exact ⟨s, hs, hx⟩
      · rcases hx with ⟨v, hv, _⟩ | ⟨d, hd, _⟩
        · cases hv
        · cases hd
  obtain ⟨b, st1, e1, hi1, hhe, hve, hver, hthrew⟩ := h1
  rw [e1]
  cases b with
  | false => exact ⟨fun e he => (by cases he), fun o ho => (by cases ho)⟩
  | true =>
    simp only
    have hb : (∃ w, (st1.setBinaryIfEmpty argv) = (st1, .ub w)) ∨
        ∃ b, st1.setBinaryIfEmpty argv = ({ st1 with binaryName := b }, .ok ()) := by
      unfold State.setBinaryIfEmpty
      split
      · split
        · exact .inl ⟨_, rfl⟩
        · exact .inr ⟨_, rfl⟩
      · exact .inr ⟨st1.binaryName, rfl⟩
    rcases hb with ⟨w, e2⟩ | ⟨b, e2⟩
    · rw [e2]; exact ⟨fun e he => (by cases he), fun o ho => (by cases ho)⟩
    · rw [e2]
      simp only
      have hc := mainLoop_config argv (endOptionIndex argv) (State.loopBudget { st1 with binaryName := b } argv) 1
        (st := { st1 with binaryName := b }) hi1.nodes
      have ho := mainLoop_only argv (endOptionIndex argv) (State.loopBudget { st1 with binaryName := b } argv) 1
        { st1 with binaryName := b }
      generalize State.mainLoop argv (endOptionIndex argv) (State.loopBudget { st1 with binaryName := b } argv) 1
        { st1 with binaryName := b } = r at hc ho ⊢
      obtain ⟨st3, r⟩ := r
      have e1 : st3.isHelpException = st.isHelpException := ((congrArg (fun x : State D => x.isHelpException) hc :) : _).trans hhe
      have e2 : st3.isVersionException = st.isVersionException := ((congrArg (fun x : State D => x.isVersionException) hc :) : _).trans hve
      have e3 : st3.version = st.version := ((congrArg (fun x : State D => x.version) hc :) : _).trans hver
      have e4 : st3.arguments.map Slot.config = st1.arguments.map Slot.config := (congrArg (fun x : State D => x.arguments) hc :)
      cases r with
      | ok u =>
        simp only
        unfold State.afterLoop
        split
        · exact ⟨fun e he => (by cases he), fun o ho => (by cases ho)⟩
        · split
          · rename_i hf
            refine ⟨fun e he => ?_, fun o ho => (by cases ho)⟩
            cases he
            exact .inr (.inl ⟨rfl, rfl, e1 ▸ hf⟩)
          · rename_i hf
            refine ⟨fun e he => (by cases he), fun o ho => .inl ?_⟩
            rw [← e1]; simpa using hf
        · split
          · exact ⟨fun e he => (by cases he), fun o ho => (by cases ho)⟩
          · split
            · rename_i hf
              refine ⟨fun e he => ?_, fun o ho => (by cases ho)⟩
              cases he
              exact .inr (.inr (.inl ⟨by rw [e3], e2 ▸ hf⟩))
            · rename_i hf
              refine ⟨fun e he => (by cases he), fun o ho => .inr ?_⟩
              cases ho
              exact ⟨by rw [← e2]; simpa using hf, by rw [e3]⟩
          · unfold State.finishParse
            split
            · rename_i x hx
              refine ⟨fun e he => ?_, fun o ho => (by cases ho)⟩
              cases he
              unfold firstMissing at hx
              cases hfi : st3.arguments.find? (fun s => s.arg.isRequired && !s.arg.isExist) with
              | none => rw [hfi] at hx; cases hx
              | some s =>
                rw [hfi] at hx
                simp only [Option.map_some, Option.some.injEq] at hx
                left
                rw [← hx]
                split <;> rfl
            · refine ⟨fun e he => ?_, fun o ho => ?_⟩
              · rcases finishAll_only he with h | h | h
                · left; rw [h]; rfl
                · left; rw [h]; rfl
                · exact .inr (.inr (.inr (hthrew e (h.config e4))))
              · exact absurd ho (finishAll_no_exit _ _ o)
      | throw x =>
        refine ⟨fun e he => ?_, fun o ho => (by cases ho)⟩
        cases he
        left; rw [show x.kind = .parse from ho]; rfl
      | exit o => exact ho.elim
      | _ => exact ⟨fun e he => (by cases he), fun o ho => (by cases ho)⟩

/-- The exceptions a call may end with. -/
def MayThrow (st : State D) (op : Op) (e : Exn) : Prop :=
  match op with
  | .add _ | .remove _ | .flag _ _ | .action _ _ | .nargs _ _ | .defaults _ _ => e.kind = .argument
  | .parse _ =>
    -- `ParseArgumentException` or one of its subclasses
    e.kind.isParse = true ∨
    (e.kind = .help ∧ e.argument = [] ∧ st.isHelpException = true) ∨
    (e = ⟨.version, [], st.version⟩ ∧ st.isVersionException = true) ∨
    UserThrew st.arguments e
  | _ => False

/-- C63. In every reachable state, a call can only end with the exceptions of its class: `ArgumentException`s
for the registry and configuration calls, `ParseArgumentException`s (or subclasses), `HelpException`,
`VersionException` – the latter two only if asked for – and the exceptions of the validators
and callbacks for `parseArguments`; all other calls never throw. -/
theorem C63_classes {scan : Str → Option D} {st : State D} (h : Reachable scan st) (op : Op) {e : Exn}
    (he : (step scan st op).2 = .throw e) : MayThrow st op e := by
  have dead : ∀ {α : Type} {ref : Nat} {f : Slot D → State D × Res α}, st.atObj ref = none →
      (st.withRef ref f).2 = .ub "dangling Argument&" := by
    intro α ref f h0; unfold State.withRef; rw [h0]
  cases op with
  | add names =>
    show e.kind = .argument
    rcases C05_add_refused h names with ⟨_, x, hx, hq⟩ | ⟨_, r, hr⟩
    · simp only [step, hq] at he; cases he; exact hx
    · simp only [step, hr] at he; cases he
  | remove names =>
    show e.kind = .argument
    simp only [step] at he
    rcases C10_remove_outcome h names with ⟨_, hq⟩ | ⟨_, n, _, _, _, _, hq⟩ | ⟨_, _, _, w, hq⟩ | ⟨_, _, _, hq⟩ <;>
      rw [hq] at he <;> cases he <;> rfl
  | flag ref f =>
    show e.kind = .argument
    simp only [step] at he
    cases ha : st.atObj ref with
    | none => unfold State.flag at he; rw [dead ha] at he; cases he
    | some s =>
      obtain ⟨hs, rfl⟩ := State.atObj_some ha
      rcases C08_flag_refused h hs f with ⟨_, msg, hq⟩ | ⟨_, _, _, hq⟩ <;> rw [hq] at he <;> cases he
      rfl
  | action ref act =>
    show e.kind = .argument
    simp only [step] at he
    cases ha : st.atObj ref with
    | none => unfold State.action at he; rw [dead ha] at he; cases he
    | some s =>
      have hq := (C14_action h ha act).2
      split at hq
      · rw [hq] at he; cases he; rfl
      · rcases hq with ⟨_, _, _, hq⟩ | ⟨_, _, _, hq⟩ | ⟨_, _, hq⟩ | ⟨_, _, _, _, hq⟩ <;> rw [hq] at he <;> cases he <;> rfl
  | nargs ref m =>
    show e.kind = .argument
    simp only [step] at he
    cases ha : st.atObj ref with
    | none => unfold State.nargs at he; rw [dead ha] at he; cases he
    | some s =>
      have hq := (C14_nargs h ha m).2
      split at hq
      · rw [hq] at he; cases he; rfl
      · rcases hq with ⟨_, _, _, hq⟩ | ⟨_, _, _, hq⟩ | ⟨_, _, hq⟩ | ⟨_, _, _, _, hq⟩ <;> rw [hq] at he <;> cases he <;> rfl
  | defaults ref ds =>
    show e.kind = .argument
    simp only [step] at he
    cases ha : st.atObj ref with
    | none => unfold State.setDefaults at he; rw [dead ha] at he; cases he
    | some s =>
      obtain ⟨_, h1, h2⟩ := C17_defaults_outcome h ha ds
      by_cases hf : s.arg.nargs = 0 ∨ ds = [] ∨ DefaultsFit s.arg.type s.arg.nargs ds.length
      · rw [h1 hf] at he; cases he
      · rw [h2 hf] at he; cases he; rfl
  | required ref b =>
    simp only [step] at he
    cases ha : st.atObj ref with
    | none => unfold State.required at he; rw [dead ha] at he; cases he
    | some s => rw [(required_ok h.inv ha b).1] at he; cases he
  | help ref t =>
    simp only [step] at he
    unfold State.setHelp at he
    cases ha : st.atObj ref with
    | none => rw [dead ha] at he; cases he
    | some s => unfold State.withRef at he; rw [ha] at he; cases he
  | metavar ref t =>
    simp only [step] at he
    unfold State.setMetavar at he
    cases ha : st.atObj ref with
    | none => rw [dead ha] at he; cases he
    | some s => unfold State.withRef at he; rw [ha] at he; cases he
  | edit ref items =>
    simp only [step] at he
    unfold State.edit at he
    cases ha : st.atObj ref with
    | none => rw [dead ha] at he; cases he
    | some s => unfold State.withRef at he; rw [ha] at he; cases he
  | behave ref c x =>
    simp only [step] at he
    unfold State.behave at he
    cases ha : st.atObj ref with
    | none => rw [dead ha] at he; cases he
    | some s => unfold State.withRef at he; rw [ha] at he; cases he
  | valid ref v d =>
    simp only [step] at he
    unfold State.setValid at he
    cases ha : st.atObj ref with
    | none => rw [dead ha] at he; cases he
    | some s => unfold State.withRef at he; rw [ha] at he; cases he
  | dest ref d =>
    simp only [step] at he
    unfold State.setDest at he
    cases ha : st.atObj ref with
    | none => rw [dead ha] at he; cases he
    | some s => unfold State.withRef at he; rw [ha] at he; cases he
  | parse argv => exact (parse_classes h.inv argv).1 e he
  | _ => cases he

/-- C63, exits. Only `parseArguments` can end the process, only with the text of the version if the help is to be
thrown as an exception, and never if both exceptions are asked for. -/
theorem C63_exit {scan : Str → Option D} {st : State D} (h : Reachable scan st) (op : Op) {o : Str}
    (he : (step scan st op).2 = .exit o) : (∃ argv, op = .parse argv) ∧
      (st.isHelpException = false ∨ (st.isVersionException = false ∧ o = st.version ++ "\n".toList)) := by
  have dead : ∀ {α : Type} {ref : Nat} {f : Slot D → State D × Res α}, st.atObj ref = none →
      (st.withRef ref f).2 = .ub "dangling Argument&" := by
    intro α ref f h0; unfold State.withRef; rw [h0]
  cases op with
  | add names =>
    rcases C05_add_refused h names with ⟨_, x, hx, hq⟩ | ⟨_, r, hr⟩
    · simp only [step, hq] at he; cases he
    · simp only [step, hr] at he; cases he
  | remove names =>
    simp only [step] at he
    rcases C10_remove_outcome h names with ⟨_, hq⟩ | ⟨_, n, _, _, _, _, hq⟩ | ⟨_, _, _, w, hq⟩ | ⟨_, _, _, hq⟩ <;>
      rw [hq] at he <;> cases he
  | flag ref f =>
    simp only [step] at he
    cases ha : st.atObj ref with
    | none => unfold State.flag at he; rw [dead ha] at he; cases he
    | some s =>
      obtain ⟨hs, rfl⟩ := State.atObj_some ha
      rcases C08_flag_refused h hs f with ⟨_, msg, hq⟩ | ⟨_, _, _, hq⟩ <;> rw [hq] at he <;> cases he
  | action ref act =>
    simp only [step] at he
    cases ha : st.atObj ref with
    | none => unfold State.action at he; rw [dead ha] at he; cases he
    | some s =>
      have hq := (C14_action h ha act).2
      split at hq
      · rw [hq] at he; cases he
      · rcases hq with ⟨_, _, _, hq⟩ | ⟨_, _, _, hq⟩ | ⟨_, _, hq⟩ | ⟨_, _, _, _, hq⟩ <;> rw [hq] at he <;> cases he
  | nargs ref m =>
    simp only [step] at he
    cases ha : st.atObj ref with
    | none => unfold State.nargs at he; rw [dead ha] at he; cases he
    | some s =>
      have hq := (C14_nargs h ha m).2
      split at hq
      · rw [hq] at he; cases he
      · rcases hq with ⟨_, _, _, hq⟩ | ⟨_, _, _, hq⟩ | ⟨_, _, hq⟩ | ⟨_, _, _, _, hq⟩ <;> rw [hq] at he <;> cases he
  | defaults ref ds =>
    simp only [step] at he
    cases ha : st.atObj ref with
    | none => unfold State.setDefaults at he; rw [dead ha] at he; cases he
    | some s =>
      obtain ⟨_, h1, h2⟩ := C17_defaults_outcome h ha ds
      by_cases hf : s.arg.nargs = 0 ∨ ds = [] ∨ DefaultsFit s.arg.type s.arg.nargs ds.length
      · rw [h1 hf] at he; cases he
      · rw [h2 hf] at he; cases he
  | required ref b =>
    simp only [step] at he
    cases ha : st.atObj ref with
    | none => unfold State.required at he; rw [dead ha] at he; cases he
    | some s => rw [(required_ok h.inv ha b).1] at he; cases he
  | help ref t =>
    simp only [step] at he
    unfold State.setHelp at he
    cases ha : st.atObj ref with
    | none => rw [dead ha] at he; cases he
    | some s => unfold State.withRef at he; rw [ha] at he; cases he
  | metavar ref t =>
    simp only [step] at he
    unfold State.setMetavar at he
    cases ha : st.atObj ref with
    | none => rw [dead ha] at he; cases he
    | some s => unfold State.withRef at he; rw [ha] at he; cases he
  | edit ref items =>
    simp only [step] at he
    unfold State.edit at he
    cases ha : st.atObj ref with
    | none => rw [dead ha] at he; cases he
    | some s => unfold State.withRef at he; rw [ha] at he; cases he
  | behave ref c x =>
    simp only [step] at he
    unfold State.behave at he
    cases ha : st.atObj ref with
    | none => rw [dead ha] at he; cases he
    | some s => unfold State.withRef at he; rw [ha] at he; cases he
  | valid ref v d =>
    simp only [step] at he
    unfold State.setValid at he
    cases ha : st.atObj ref with
    | none => rw [dead ha] at he; cases he
    | some s => unfold State.withRef at he; rw [ha] at he; cases he
  | dest ref d =>
    simp only [step] at he
    unfold State.setDest at he
    cases ha : st.atObj ref with
    | none => rw [dead ha] at he; cases he
    | some s => unfold State.withRef at he; rw [ha] at he; cases he
  | parse argv => exact ⟨⟨argv, rfl⟩, (parse_classes h.inv argv).2 o he⟩
  | _ => cases he

/-- Looking an argument up only throws `AccessDeniedException`. -/
theorem C63_lookup {scan : Str → Option D} {st : State D} (h : Reachable scan st) (n : Str) {e : Exn}
    (he : st.getArgument n = .throw e) : e.kind = .accessDenied := by
  rcases C13_lookup h n with ⟨_, s, _, hs, _⟩ | ⟨_, hn⟩
  · rw [hs] at he; cases he
  · rw [hn] at he; cases he; rfl

/-- The class of what a call threw. -/
def thrown : Res Unit → Option ExnKind
  | .throw e => some e.kind
  | _ => none

/-- The classes of `C63_classes` and the exit occur. -/
example :
    thrown (step demoScan demo (.flag 1 "-z".toList)).2 = some .argument ∧
    thrown (step demoScan demo (.parse ["p".toList, "-zzz".toList])).2 = some .parse ∧
    thrown (step demoScan (step demoScan demo (.setHelpException true)).1 (.parse ["p".toList, "--help".toList])).2 =
      some .help ∧
    (match (step demoScan demo (.parse ["p".toList, "--help".toList])).2 with | .exit _ => true | _ => false) = true := by
  decide +kernel

end BletArgs
