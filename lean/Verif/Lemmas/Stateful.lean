import Verif.Lemmas.Tune
import Verif.Lemmas.ParseFrame
/-
User code with a state: what it does in one parse is what code without a state, chosen for that parse, does.
-/
namespace BletArgs
open Spec
variable {D : Type} {U : Type}

namespace Tune

/-- The code that is forgotten. -/
def silent : UserFns := (fun _ => .reject, fun _ => none)

theorem mute_arg (a : Argument D) : a.mute = a.tune silent := rfl

theorem mute_eq (s : State D) : s.mute = s.tune (fun _ => silent) := rfl

theorem tune_arg_tune (p q : UserFns) (a : Argument D) : (a.tune p).tune q = a.tune q := by
  unfold Argument.tune Argument.behaving
  simp only [Option.map_map]
  rfl

theorem tune_tune (k k' : Nat → UserFns) (s : State D) : (s.tune k).tune k' = s.tune k' := by
  unfold State.tune
  simp only [List.map_map]
  congr 1
  refine List.map_congr_left fun t _ => ?_
  exact congrArg (fun a => (⟨t.node, t.obj, a⟩ : Slot D)) (tune_arg_tune _ _ t.arg)

theorem mute_tune (k : Nat → UserFns) (s : State D) : (s.tune k).mute = s.mute :=
  tune_tune k (fun _ => silent) s

theorem mute_mute (s : State D) : s.mute.mute = s.mute :=
  tune_tune (fun _ => silent) (fun _ => silent) s

/-- A function of the parser that commutes with forgetting the code does the same on parsers that differ in it only. -/
theorem lift {α : Type} {f : State D → State D × Res α}
    (hf : ∀ s, (f s.mute).1.mute = (f s).1.mute ∧ (f s.mute).2 = (f s).2) {s s' : State D}
    (h : SameButCode s s') : SameButCode (f s).1 (f s').1 ∧ (f s').2 = (f s).2 := by
  obtain ⟨a1, a2⟩ := hf s
  obtain ⟨b1, b2⟩ := hf s'
  rw [show s'.mute = s.mute from h] at b1 b2
  exact ⟨by show _ = _; rw [← b1, a1], by rw [← b2, a2]⟩

theorem of_out {α : Type} {f : State D → State D × Res α} (hf : ∀ s, f s.mute = out (fun _ => silent) (f s)) (s : State D) :
    (f s.mute).1.mute = (f s).1.mute ∧ (f s.mute).2 = (f s).2 := by
  rw [hf]
  exact ⟨mute_mute _, rfl⟩

theorem modMute (s : State D) (n : Nat) {f : Argument D → Argument D} (h : ∀ a, (f a.mute).mute = (f a).mute) :
    (s.mute.modNode n f).mute = (s.modNode n f).mute := by
  unfold State.modNode State.mute
  simp only [List.map_map]
  congr 1
  refine List.map_congr_left fun t _ => ?_
  simp only [Function.comp_apply, show ∀ u : Slot D, u.mute.node = u.node from fun _ => rfl]
  cases t.node == n with
  | true => exact congrArg (fun a => (⟨t.node, t.obj, a⟩ : Slot D)) (h t.arg)
  | false => exact congrArg (fun a => (⟨t.node, t.obj, a⟩ : Slot D)) (tune_arg_tune silent silent t.arg)

theorem atObj_mute (s : State D) (r : Nat) : s.mute.atObj r = (s.atObj r).map Slot.mute :=
  atObj (k0 := fun _ => silent) s r

theorem setValid (s : State D) (ref : Nat) (v : Option Validator) (d : Bool) :
    (s.mute.setValid ref v d).1.mute = (s.setValid ref v d).1.mute ∧ (s.mute.setValid ref v d).2 = (s.setValid ref v d).2 := by
  unfold State.setValid State.withRef
  rw [atObj_mute]
  cases s.atObj ref with
  | none => exact ⟨mute_mute s, rfl⟩
  | some t =>
    refine ⟨?_, rfl⟩
    simp only [Option.map_some]
    have e : ({ s.mute with freedValids := s.mute.freedValids ++ t.mute.arg.ownedValid } : State D) =
        State.mute { s with freedValids := s.freedValids ++ t.arg.ownedValid } := by
      rw [show t.mute.arg.ownedValid = t.arg.ownedValid from ownedValid silent _]
      rfl
    rw [e]
    refine modMute _ t.node (f := fun a => { a with valid := v, validDeletable := d }) fun a => ?_
    unfold Argument.mute
    simp only [Option.map_map]
    rfl

theorem setDest (s : State D) (ref : Nat) (d : Dest) :
    (s.mute.setDest ref d).1.mute = (s.setDest ref d).1.mute ∧ (s.mute.setDest ref d).2 = (s.setDest ref d).2 := by
  unfold State.setDest State.withRef
  rw [atObj_mute]
  cases s.atObj ref with
  | none => exact ⟨mute_mute s, rfl⟩
  | some t =>
    refine ⟨?_, rfl⟩
    simp only [Option.map_some]
    unfold State.mute
    simp only [List.map_map]
    congr 1
    refine List.map_congr_left fun x _ => ?_
    simp only [Function.comp_apply, show ∀ u : Slot D, u.mute.node = u.node from fun _ => rfl]
    cases x.node == t.node with
    | true =>
      simp only [if_true]
      unfold Slot.mute Argument.mute
      simp only [Option.map_map]
      rfl
    | false => exact congrArg (fun a => (⟨x.node, x.obj, a⟩ : Slot D)) (tune_arg_tune silent silent x.arg)

/-- Every call other than a parse does the same on parsers that differ in the code of validators and callbacks only. -/
theorem step (scan : Str → Option D) {s s' : State D} (op : Op) (hp : ∀ argv, op ≠ .parse argv) (hb : ∀ r c x, op ≠ .behave r c x)
    (h : SameButCode s s') :
    SameButCode (BletArgs.step scan s op).1 (BletArgs.step scan s' op).1 ∧
    (BletArgs.step scan s' op).2 = (BletArgs.step scan s op).2 := by
  have any : ∀ {α : Type} {f : State D → State D × Res α}, (∀ s k, f (s.tune k) = out k (f s)) →
      SameButCode (f s).1 (f s').1 ∧ (f s').2 = (f s).2 :=
    fun hf => lift (of_out fun s => hf s (fun _ => silent)) h
  cases op with
  | parse argv => exact absurd rfl (hp argv)
  | behave r c x => exact absurd rfl (hb r c x)
  | add ns =>
    have := any (f := fun s => s.addArgument ns) fun s k => addArgument s ns
    exact ⟨this.1, congrArg Res.void this.2⟩
  | dest ref d =>
    have := lift (f := fun s => s.setDest ref d) (fun s => setDest s ref d) h
    exact ⟨this.1, congrArg Res.void this.2⟩
  | valid ref v d => exact lift (f := fun s => s.setValid ref v d) (fun s => setValid s ref v d) h
  | remove ns => exact any (f := fun s => s.removeArguments ns) fun s k => removeArguments s ns
  | clear => exact any (f := fun s => (s.clear, .ok ())) fun s k => Prod.ext (clear s) rfl
  | flag ref f => exact any (f := fun s => s.flag ref f) fun s k => flag s ref f
  | action ref a => exact any (f := fun s => s.action ref a) fun s k => action s ref a
  | nargs ref n => exact any (f := fun s => s.nargs ref n) fun s k => nargs s ref n
  | defaults ref ds => exact any (f := fun s => s.setDefaults ref ds) fun s k => setDefaults s ref ds
  | required ref b => exact any (f := fun s => s.required ref b) fun s k => required s ref b
  | help ref x => exact any (f := fun s => s.setHelp ref x) fun s k => setHelp s ref x
  | edit ref items => exact any (f := fun s => s.edit scan ref items) fun s k => edit scan s ref items
  | metavar ref x => exact any (f := fun s => s.setMetavar ref x) fun s k => setMetavar s ref x
  | setBinaryName x => exact any (f := fun s => ({ s with binaryName := x }, .ok ())) fun s k => rfl
  | setVersion x => exact any (f := fun s => ({ s with version := x }, .ok ())) fun s k => rfl
  | setAlternative x => exact any (f := fun s => ({ s with isAlternative := x }, .ok ())) fun s k => rfl
  | setStrict x => exact any (f := fun s => ({ s with isStrict := x }, .ok ())) fun s k => rfl
  | setHelpException x => exact any (f := fun s => ({ s with isHelpException := x }, .ok ())) fun s k => rfl
  | setVersionException x => exact any (f := fun s => ({ s with isVersionException := x }, .ok ())) fun s k => rfl
  | setUsage x => exact any (f := fun s => ({ s with usage := x }, .ok ())) fun s k => rfl
  | setDescription x => exact any (f := fun s => ({ s with description := x }, .ok ())) fun s k => rfl
  | setEpilog x => exact any (f := fun s => ({ s with epilog := x }, .ok ())) fun s k => rfl
  | setUsageWidth p a w x =>
    exact any (f := fun s => ({ s with padWidth := p, argsWidth := a, sepWidth := w, helpWidth := x }, .ok ())) fun s k => rfl

/-! ### The last loop, with a state -/

theorem toVector (p : UserFns) (a : Argument D) : (a.tune p).toVector = a.toVector := rfl

/-- What the last loop does with the answer of a validator. -/
def react (a : Argument D) : VRes → Argument D × Res Unit
  | .throwValid msg => (a, .throw (a.validExn msg))
  | .throwOther e => (a, .throw e)
  | .reject => (a, .throw (a.validExn "invalid check function".toList))
  | .accept args =>
    match a.type with
    | .pos | .simple =>
      ((match args with | [] => a | s :: _ => { a with argument := s }), .ok ())
    | .number | .multi | .infinite | .multiInfinite | .numberPos | .infinitePos =>
      ({ a with elems := writeElems a.elems args }, .ok ())
    | .multiNumber | .multiNumberInfinite | .infiniteNumberPos =>
      ({ a with elems := writeGroups a.elems args }, .ok ())
    | _ => (a, .throw (a.validExn "invalid type option for use valid".toList))

theorem react_tune (p : UserFns) (a : Argument D) (r : VRes) : react (a.tune p) r = ((react a r).1.tune p, (react a r).2) := by
  cases r with
  | accept args =>
    unfold react
    rw [show (a.tune p).type = a.type from rfl]
    cases a.type <;> first | rfl | (cases args <;> rfl)
  | _ => rfl

theorem runValid_eq (a : Argument D) : a.runValid = match a.valid with
    | none => (a, .ok ())
    | some v => if a.isExist then react a (v.check (a.toVector.getD [])) else (a, .ok ()) := by
  obtain ⟨_, _, _, _, _, type, exist, _, _, _, _, _, valid, _, _, _, _⟩ := a
  cases valid with
  | none => rfl
  | some v =>
    cases exist with
    | false => rfl
    | true =>
      simp only [Argument.runValid, if_true]
      generalize v.check _ = r
      cases r with
      | accept args => cases type <;> rfl
      | _ => rfl

theorem runValidIn_eq (code : UserCode U) (u : U) (a : Argument D) : a.runValidIn code u = match a.valid with
    | none => (a, .ok (), u)
    | some v =>
      if a.isExist then ((react a (code.check v.id (a.toVector.getD []) u).1).1,
        (react a (code.check v.id (a.toVector.getD []) u).1).2, (code.check v.id (a.toVector.getD []) u).2)
      else (a, .ok (), u) := by
  obtain ⟨_, _, _, _, _, type, exist, _, _, _, _, _, valid, _, _, _, _⟩ := a
  cases valid with
  | none => rfl
  | some v =>
    cases exist with
    | false => rfl
    | true =>
      simp only [Argument.runValidIn, if_true]
      generalize code.check v.id _ u = x
      obtain ⟨r, u1⟩ := x
      cases r with
      | accept args => cases type <;> rfl
      | _ => rfl

/-- With the code of the user, the code attached to the argument is not used. -/
theorem runValidIn (code : UserCode U) (u : U) (p : UserFns) (a : Argument D) :
    (a.tune p).runValidIn code u = ((a.runValidIn code u).1.tune p, (a.runValidIn code u).2) := by
  rw [runValidIn_eq, runValidIn_eq]
  rw [show (a.tune p).valid = a.valid.map (fun v => { v with check := p.1 }) from rfl, show (a.tune p).isExist = a.isExist from rfl,
    toVector]
  cases a.valid with
  | none => rfl
  | some v =>
    simp only [Option.map_some]
    rw [react_tune]
    cases a.isExist <;> rfl

theorem toDestIn (code : UserCode U) (u : U) (p : UserFns) (a : Argument D) : (a.tune p).toDestIn code u = a.toDestIn code u := by
  unfold Argument.toDestIn
  rw [show (a.tune p).dest = a.dest.map (fun d => { d with refuses := p.2 }) from rfl]
  cases a.dest with
  | none => rfl
  | some d => rfl

theorem finishIn (scan : Str → Option D) (code : UserCode U) (u : U) (p : UserFns) (a : Argument D) :
    (a.tune p).finishIn scan code u = ((a.finishIn scan code u).1.tune p, (a.finishIn scan code u).2) := by
  unfold Argument.finishIn
  rw [runValidIn]
  generalize a.runValidIn code u = x
  obtain ⟨b, res, u1⟩ := x
  cases res with
  | ok _ => simp only; rw [toNumber, toDestIn]
  | _ => rfl

theorem finishAllIn (scan : Str → Option D) (code : UserCode U) (k : Nat → UserFns) (u : U) (l : List (Slot D)) :
    BletArgs.finishAllIn scan code u (l.map (Slot.tune k)) =
      ((BletArgs.finishAllIn scan code u l).1.map (Slot.tune k), (BletArgs.finishAllIn scan code u l).2) := by
  induction l generalizing u with
  | nil => rfl
  | cons s ss ih =>
    simp only [List.map_cons]
    unfold BletArgs.finishAllIn
    rw [show (s.tune k).arg = s.arg.tune (k s.node) from rfl, finishIn]
    generalize s.arg.finishIn scan code u = x
    obtain ⟨b, w, res, u1⟩ := x
    cases res with
    | ok _ => simp only; rw [ih]; rfl
    | _ => rfl

/-- The outcome of a parse with user code. -/
def outIn (k : Nat → UserFns) (x : State D × Res Unit × U) : State D × Res Unit × U := (x.1.tune k, x.2)

theorem afterLoopIn (scan : Str → Option D) (code : UserCode U) (k : Nat → UserFns) (u : U) (s : State D) :
    (s.tune k).afterLoopIn scan code u = outIn k (s.afterLoopIn scan code u) := by
  unfold State.afterLoopIn
  rw [optionSeen, optionSeen, getUsage, clear]
  simp only [show (s.tune k).isHelpException = s.isHelpException from rfl, show (s.tune k).version = s.version from rfl,
    show (s.tune k).isVersionException = s.isVersionException from rfl, show (s.tune k).helpOption = s.helpOption from rfl,
    show (s.tune k).versionOption = s.versionOption from rfl]
  cases s.optionSeen s.helpOption with
  | none => rfl
  | some b =>
    cases b with
    | true => simp only; cases s.isHelpException <;> rfl
    | false =>
      simp only
      cases s.optionSeen s.versionOption with
      | none => rfl
      | some b =>
        cases b with
        | true => simp only; cases s.isVersionException <;> rfl
        | false =>
          simp only
          unfold State.finishParseIn
          rw [show (s.tune k).arguments = s.arguments.map (Slot.tune k) from rfl, firstMissing]
          cases BletArgs.firstMissing s.arguments with
          | some e => rfl
          | none => simp only; rw [finishAllIn]; rfl

theorem loopBudget (k : Nat → UserFns) (s : State D) (argv : List Str) : (s.tune k).loopBudget argv = s.loopBudget argv := by
  unfold State.loopBudget State.tune
  simp only [List.length_map]

/-- The steps of `parseArguments`, up to what is done after the tokens are read. -/
theorem parseIn (scan : Str → Option D) (code : UserCode U) (k : Nat → UserFns) (u : U) (s : State D) (argv : List Str) :
    (s.tune k).parseIn scan code u argv = outIn k (s.parseIn scan code u argv) := by
  unfold State.parseIn
  rw [resetAll, autoHelp]
  generalize s.resetAll.autoHelp = x
  obtain ⟨s1, res⟩ := x
  cases res with
  | ok b =>
    cases b with
    | false => rfl
    | true =>
      simp only [out]
      rw [setBinary]
      generalize s1.setBinaryIfEmpty argv = x
      obtain ⟨s2, res⟩ := x
      cases res with
      | ok _ =>
        simp only [out]
        rw [loopBudget, mainLoop]
        generalize State.mainLoop _ _ _ _ s2 = x
        obtain ⟨s3, res⟩ := x
        cases res with
        | ok _ => exact afterLoopIn scan code k u s3
        | _ => rfl
      | _ => rfl
  | _ => rfl

/-! ### Code without a state that does the same -/

/-- The code the arguments of a list would need, to do without a state what the code of the user does in the last loop. -/
def codeFor (scan : Str → Option D) (code : UserCode U) : U → List (Slot D) → Nat → UserFns
  | _, [] => fun _ => silent
  | u, s :: ss => fun n =>
    if n = s.node then
      (fun vs => (code.check ((s.arg.valid.map (·.id)).getD 0) vs u).1, fun w => (code.call w (s.arg.runValidIn code u).2.2).1)
    else codeFor scan code (s.arg.finishIn scan code u).2.2.2 ss n

theorem runValid_same (code : UserCode U) (u : U) (p : UserFns) (a : Argument D)
    (hp : p.1 = fun vs => (code.check ((a.valid.map (·.id)).getD 0) vs u).1) :
    (a.tune p).runValid = ((a.runValidIn code u).1.tune p, (a.runValidIn code u).2.1) := by
  rw [runValidIn_eq, runValid_eq]
  rw [show (a.tune p).valid = a.valid.map (fun v => { v with check := p.1 }) from rfl, show (a.tune p).isExist = a.isExist from rfl,
    toVector]
  cases h : a.valid with
  | none => rfl
  | some v =>
    rw [h] at hp
    simp only [Option.map_some, Option.getD_some] at hp ⊢
    rw [react_tune, hp]
    cases a.isExist <;> rfl

theorem invoke_same (code : UserCode U) (u : U) (d : Dest) (r : DestWrite → Option Exn) (w : DestWrite)
    (hr : r = fun w => (code.call w u).1) :
    Dest.invoke { d with refuses := r } w = ((code.invoke u w).1, (code.invoke u w).2.1) := by
  unfold Dest.invoke UserCode.invoke
  rw [hr]
  simp only
  generalize code.call w u = x
  obtain ⟨r, u1⟩ := x
  cases r <;> rfl

theorem toDest_same (code : UserCode U) (u : U) (p : UserFns) (a : Argument D) (hp : p.2 = fun w => (code.call w u).1) :
    (a.tune p).toDest = ((a.toDestIn code u).1, (a.toDestIn code u).2.1) := by
  unfold Argument.toDest Argument.toDestIn
  rw [show (a.tune p).dest = a.dest.map (fun d => { d with refuses := p.2 }) from rfl]
  cases a.dest with
  | none => rfl
  | some d =>
    simp only [Option.map_some]
    rw [invoke_same code u d p.2 _ hp, invoke_same code u d p.2 _ hp, invoke_same code u d p.2 _ hp]
    cases d.kind <;> cases d.custom <;> cases d.supported <;> rfl

theorem finish_same (scan : Str → Option D) (code : UserCode U) (u : U) (p : UserFns) (a : Argument D)
    (h1 : p.1 = fun vs => (code.check ((a.valid.map (·.id)).getD 0) vs u).1)
    (h2 : p.2 = fun w => (code.call w (a.runValidIn code u).2.2).1) :
    (a.tune p).finish scan =
      ((a.finishIn scan code u).1.tune p, (a.finishIn scan code u).2.1, (a.finishIn scan code u).2.2.1) := by
  unfold Argument.finish Argument.finishIn
  rw [runValid_same code u p a h1]
  generalize a.runValidIn code u = x at h2
  obtain ⟨b, res, u1⟩ := x
  cases res with
  | ok _ => simp only; rw [toNumber, toDest_same code u1 p _ h2]
  | _ => rfl

theorem finishAllIn_nodes (scan : Str → Option D) (code : UserCode U) (u : U) (l : List (Slot D)) :
    (BletArgs.finishAllIn scan code u l).1.map (·.node) = l.map (·.node) := by
  induction l generalizing u with
  | nil => rfl
  | cons s ss ih =>
    unfold BletArgs.finishAllIn
    generalize s.arg.finishIn scan code u = x
    obtain ⟨b, w, res, u1⟩ := x
    cases res with
    | ok _ => simp only [List.map_cons]; rw [ih]
    | _ => rfl

theorem tune_congr {k k' : Nat → UserFns} {l : List (Slot D)} (h : ∀ n ∈ l.map (·.node), k n = k' n) :
    l.map (Slot.tune k) = l.map (Slot.tune k') := by
  refine List.map_congr_left fun s hs => ?_
  unfold Slot.tune
  rw [h s.node (List.mem_map_of_mem hs)]

theorem finishAll_same (scan : Str → Option D) (code : UserCode U) (u : U) (l : List (Slot D)) (hn : (l.map (·.node)).Nodup) :
    BletArgs.finishAll scan (l.map (Slot.tune (codeFor scan code u l))) =
      ((BletArgs.finishAllIn scan code u l).1.map (Slot.tune (codeFor scan code u l)),
        (BletArgs.finishAllIn scan code u l).2.1, (BletArgs.finishAllIn scan code u l).2.2.1) := by
  induction l generalizing u with
  | nil => rfl
  | cons s ss ih =>
    rw [List.map_cons, List.nodup_cons] at hn
    have e0 : codeFor scan code u (s :: ss) s.node =
        (fun vs => (code.check ((s.arg.valid.map (·.id)).getD 0) vs u).1, fun w => (code.call w (s.arg.runValidIn code u).2.2).1) := by
      simp only [codeFor, if_true]
    have e1 : ∀ n ∈ ss.map (·.node), codeFor scan code u (s :: ss) n =
        codeFor scan code (s.arg.finishIn scan code u).2.2.2 ss n := by
      intro n hm
      have : n ≠ s.node := by rintro rfl; exact hn.1 hm
      simp only [codeFor, if_neg this]
    have hf := finish_same scan code u (codeFor scan code u (s :: ss) s.node) s.arg (by rw [e0]) (by rw [e0])
    generalize codeFor scan code u (s :: ss) = k at e1 hf
    simp only [List.map_cons]
    unfold BletArgs.finishAll BletArgs.finishAllIn
    rw [show (s.tune k).arg = s.arg.tune (k s.node) from rfl, hf]
    generalize s.arg.finishIn scan code u = x at e1
    obtain ⟨b, w, res, u1⟩ := x
    cases res with
    | ok _ =>
      simp only
      have i := ih u1 hn.2
      rw [tune_congr e1, i]
      simp only
      rw [← tune_congr (k := k) (fun n hm => e1 n ((finishAllIn_nodes scan code u1 ss) ▸ hm))]
      rfl
    | _ => rfl

theorem afterLoop_same (scan : Str → Option D) (code : UserCode U) (u : U) (s : State D) (hn : (s.arguments.map (·.node)).Nodup) :
    ∃ k, (s.tune k).afterLoop scan = ((s.afterLoopIn scan code u).1.tune k, (s.afterLoopIn scan code u).2.1) := by
  refine ⟨codeFor scan code u s.arguments, ?_⟩
  have hf := finishAll_same scan code u s.arguments hn
  generalize codeFor scan code u s.arguments = k at hf
  unfold State.afterLoop State.afterLoopIn
  rw [optionSeen, optionSeen, getUsage, clear]
  simp only [show (s.tune k).isHelpException = s.isHelpException from rfl, show (s.tune k).version = s.version from rfl,
    show (s.tune k).isVersionException = s.isVersionException from rfl, show (s.tune k).helpOption = s.helpOption from rfl,
    show (s.tune k).versionOption = s.versionOption from rfl]
  cases s.optionSeen s.helpOption with
  | none => rfl
  | some b =>
    cases b with
    | true => simp only; cases s.isHelpException <;> rfl
    | false =>
      simp only
      cases s.optionSeen s.versionOption with
      | none => rfl
      | some b =>
        cases b with
        | true => simp only; cases s.isVersionException <;> rfl
        | false =>
          simp only
          unfold State.finishParse State.finishParseIn
          rw [show (s.tune k).arguments = s.arguments.map (Slot.tune k) from rfl, firstMissing]
          cases BletArgs.firstMissing s.arguments with
          | some e => rfl
          | none => simp only; rw [hf]; rfl

/-- One parse with user code that has a state is a parse with code that has none. -/
theorem parse_same (scan : Str → Option D) (code : UserCode U) (u : U) {s : State D} {full : Prop} (hi : GInv full s) (argv : List Str) :
    ∃ k, (s.tune k).parseArguments scan argv = ((s.parseIn scan code u argv).1.tune k, (s.parseIn scan code u argv).2.1) := by
  have ha := autoHelp_inv (inv_of_config (resetAll_config s) hi)
  unfold State.parseArguments State.parseIn
  simp only [resetAll, autoHelp]
  generalize s.resetAll.autoHelp = x at ha
  obtain ⟨s1, res⟩ := x
  cases res with
  | ok b =>
    cases b with
    | false => exact ⟨fun _ => silent, rfl⟩
    | true =>
      simp only [out, setBinary]
      obtain ⟨b, hb⟩ := setBinaryIfEmpty_config s1 argv
      generalize s1.setBinaryIfEmpty argv = x at hb
      obtain ⟨s2, res⟩ := x
      obtain rfl : s2 = { s1 with binaryName := b } := hb
      cases res with
      | ok _ =>
        simp only [loopBudget, mainLoop]
        have hl := mainLoop_config argv (endOptionIndex argv)
          (State.loopBudget { s1 with binaryName := b } argv) 1 (st := { s1 with binaryName := b }) ha.nodes
        generalize State.mainLoop _ _ _ _ _ = x at hl
        obtain ⟨s3, res⟩ := x
        have hn : (s3.arguments.map (·.node)).Nodup :=
          (inv_of_config (st := { s1 with binaryName := b }) hl (inv_of_eq ha rfl rfl rfl rfl rfl)).nodes
        cases res with
        | ok _ => exact afterLoop_same scan code u s3 hn
        | _ => exact ⟨fun _ => silent, rfl⟩
      | _ => exact ⟨fun _ => silent, rfl⟩
  | _ => exact ⟨fun _ => silent, rfl⟩

/-! ### It can be given to the parser -/

/-- The code of some of the arguments, replaced. -/
def tuneOn (k : Nat → UserFns) (l : List Nat) (s : State D) : State D :=
  { s with arguments := s.arguments.map fun t => if t.node ∈ l then t.tune k else t }

theorem tuneOn_all (k : Nat → UserFns) (s : State D) : tuneOn k (s.arguments.map (·.node)) s = s.tune k := by
  unfold tuneOn State.tune
  congr 1
  refine List.map_congr_left fun t ht => ?_
  rw [if_pos (List.mem_map_of_mem ht)]

theorem tuneOn_step (scan : Str → Option D) (k : Nat → UserFns) {s : State D} {full : Prop} (hi : GInv full s) (l : List Nat) {t : Slot D}
    (ht : t ∈ s.arguments) :
    BletArgs.step scan (tuneOn k l s) (.behave t.obj (k t.node).1 (k t.node).2) = (tuneOn k (t.node :: l) s, .ok ()) := by
  have ho : (tuneOn k l s).atObj t.obj = some (if t.node ∈ l then t.tune k else t) := by
    unfold State.atObj tuneOn
    simp only
    rw [List.find?_map]
    have : (fun x : Slot D => x.obj == t.obj) ∘ (fun x : Slot D => if x.node ∈ l then x.tune k else x) = fun x => x.obj == t.obj := by
      funext x
      simp only [Function.comp_apply]
      split <;> rfl
    rw [this]
    have h := State.atObj_of_mem hi.objs ht
    unfold State.atObj at h
    rw [h]
    rfl
  show (tuneOn k l s).behave _ _ _ = _
  unfold State.behave State.withRef
  rw [ho]
  refine Prod.ext ?_ rfl
  show (tuneOn k l s).modNode (if t.node ∈ l then t.tune k else t).node
    (fun a => a.behaving (k t.node).1 (k t.node).2) = tuneOn k (t.node :: l) s
  rw [show (if t.node ∈ l then t.tune k else t).node = t.node by split <;> rfl]
  unfold State.modNode tuneOn
  simp only [List.map_map]
  congr 1
  refine List.map_congr_left fun x _ => ?_
  simp only [Function.comp_apply, List.mem_cons]
  rw [show (if x.node ∈ l then x.tune k else x).node = x.node by split <;> rfl]
  by_cases e : x.node = t.node
  · rw [e, beq_self_eq_true, if_pos rfl, if_pos (Or.inl rfl : t.node = t.node ∨ t.node ∈ l), ← e]
    by_cases hl : x.node ∈ l
    · rw [if_pos hl]
      exact congrArg (fun a => (⟨x.node, x.obj, a⟩ : Slot D)) (tune_arg_tune (k x.node) (k x.node) x.arg)
    · rw [if_neg hl]; rfl
  · rw [beq_false_of_ne e]
    simp only [e, false_or, Bool.false_eq_true, if_false]

theorem reachable_tune {scan : Str → Option D} {s : State D} {full : Prop} (hi : GInv full s) (h : Reachable scan s) (k : Nat → UserFns) :
    Reachable scan (s.tune k) := by
  have : ∀ l : List (Slot D), (∀ t ∈ l, t ∈ s.arguments) → Reachable scan (tuneOn k (l.map (·.node)) s) := by
    intro l
    induction l with
    | nil =>
      intro _
      have e : tuneOn k ([] : List Nat) s = s := by
        unfold tuneOn
        simp only [List.not_mem_nil, if_false, List.map_id']
      rw [List.map_nil, e]
      exact h
    | cons t l ih =>
      intro hl
      have e := tuneOn_step scan k hi (l.map (·.node)) (hl t (List.mem_cons_self ..))
      have := Reachable.step _ (ih fun x hx => hl x (List.mem_cons_of_mem _ hx)) (by rw [e]; rfl)
      rw [e] at this
      exact this
  exact tuneOn_all k s ▸ this s.arguments fun _ h => h

end Tune
end BletArgs
