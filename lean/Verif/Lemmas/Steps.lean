import Verif.Lemmas.AutoHelp
/-
Uniform description of the calls that do not touch the registry.
-/
namespace BletArgs
open Spec
variable {D : Type} {full : Prop}

/-- The registry (names, addresses, order, requiredness, positional or not) is the same. -/
structure SameReg (st st' : State D) : Prop where
  sig : st'.arguments.map Slot.sig = st.arguments.map Slot.sig
  byName : st'.byName = st.byName
  nextNode : st'.nextNode = st.nextNode
  nextObj : st'.nextObj = st.nextObj
  freedObjs : st'.freedObjs = st.freedObjs

theorem SameReg.refl (st : State D) : SameReg st st := ⟨rfl, rfl, rfl, rfl, rfl⟩

theorem SameReg.trans {st st' st'' : State D} (h1 : SameReg st st') (h2 : SameReg st' st'') : SameReg st st'' :=
  ⟨h2.sig.trans h1.sig, h2.byName.trans h1.byName, h2.nextNode.trans h1.nextNode,
    h2.nextObj.trans h1.nextObj, h2.freedObjs.trans h1.freedObjs⟩

theorem SameReg.inv {full : Prop} {st st' : State D} (h : SameReg st st') (hi : GInv full st) : GInv full st' := by
  unfold GInv
  rw [h.byName, h.nextNode, h.nextObj, h.freedObjs]
  exact RegInv.congr h.sig hi

theorem SameReg.of_config {st st' : State D} {b : Str} (h : st'.config = { st.config with binaryName := b }) :
    SameReg st st' where
  sig := by
    have e : st'.arguments.map Slot.config = st.arguments.map Slot.config := (congrArg (fun x : State D => x.arguments) h :)
    have := congrArg (List.map Slot.sig) e
    rw [List.map_map, List.map_map] at this
    exact this
  byName := (congrArg (fun x : State D => x.byName) h :)
  nextNode := (congrArg (fun x : State D => x.nextNode) h :)
  nextObj := (congrArg (fun x : State D => x.nextObj) h :)
  freedObjs := (congrArg (fun x : State D => x.freedObjs) h :)

/-- Replacing the argument of one list element, keeping its names, requiredness and kind of name. -/
theorem SameReg.update {st st' : State D} (hi : GInv full st) {s : Slot D} (hs : s ∈ st.arguments) {a : Argument D}
    (h1 : a.names = s.arg.names) (h2 : a.isPositional = s.arg.isPositional)
    (h3 : a.isRequired = s.arg.isRequired)
    (e1 : st'.arguments = updNode st.arguments s.node fun _ => a)
    (e2 : st'.byName = st.byName) (e3 : st'.nextNode = st.nextNode) (e4 : st'.nextObj = st.nextObj)
    (e5 : st'.freedObjs = st.freedObjs) : SameReg st st' := by
  refine ⟨?_, e2, e3, e4, e5⟩
  rw [e1]
  refine updNode_sig fun t ht e => ?_
  obtain rfl := eq_of_node hi hs ht e
  exact sig_eq h1 h2 h3

/-- The argument left by `typeConstructor_` followed (if it did not throw) by `defaultsConstructor_`. -/
def Argument.retyped (self : Nat) (h v : Option Nat) (a : Argument D) : Argument D :=
  if (a.typeConstructor self h v).2.2.2 = .ok () then (a.typeConstructor self h v).1.defaultsConstructor.1
  else (a.typeConstructor self h v).1

/-- What `retype` leaves: one argument replaced and the help/version pointers. -/
theorem retype_eq (st : State D) (s : Slot D) (a : Argument D) :
    (st.retype s a).1 =
      { st with
        helpOption := (a.typeConstructor s.obj st.helpOption st.versionOption).2.1
        versionOption := (a.typeConstructor s.obj st.helpOption st.versionOption).2.2.1
        arguments := updNode st.arguments s.node fun _ =>
          a.retyped s.obj st.helpOption st.versionOption } := by
  unfold State.retype Argument.retyped
  generalize a.typeConstructor s.obj st.helpOption st.versionOption = r
  obtain ⟨a1, h, v, r⟩ := r
  cases r with
  | ok u => simp only [if_true]; rfl
  | _ => simp only [reduceCtorEq, if_false]; rfl

theorem retype_names (self : Nat) (h v : Option Nat) (a : Argument D) :
    (a.retyped self h v).names = a.names ∧ (a.retyped self h v).isPositional = a.isPositional ∧
    (a.retyped self h v).isRequired = a.isRequired := by
  unfold Argument.retyped
  have h1 := typeConstructor_frame self h v a
  have h2 := defaultsConstructor_frame (a.typeConstructor self h v).1
  split
  · refine ⟨h2.1.trans h1.1, ?_, h2.2.2.1.trans h1.2.2⟩
    rw [← h1.2.1]; unfold Argument.isPositional; rw [h2.2.1]
  · exact h1

/-- The help (version) pointer after `action` forgot the receiver's previous action. -/
def State.helpBut (st : State D) (s : Slot D) : Option Nat :=
  if s.arg.action == .help then none else st.helpOption
def State.versionBut (st : State D) (s : Slot D) : Option Nat :=
  if s.arg.action == .version then none else st.versionOption

theorem action_eq {st : State D} {ref : Nat} {s : Slot D} (h : st.atObj ref = some s) (act : Action) :
    st.action ref act =
      State.retype { st with helpOption := st.helpBut s, versionOption := st.versionBut s } s
        { s.arg with action := act } := by
  unfold State.action State.withRef State.helpBut State.versionBut
  rw [h]
  simp only
  congr 1
  split <;> split <;> rfl

/-- The calls that never change the registry. -/
def Op.isTweak : Op → Bool
  | .add _ | .remove _ | .clear | .flag _ _ | .required _ _ | .dest _ _ | .parse _ => false
  | _ => true

theorem withRef_sameReg {st : State D} {ref : Nat} {f : Slot D → State D × Res Unit}
    (h : ∀ s ∈ st.arguments, s.obj = ref → SameReg st (f s).1) : SameReg st (st.withRef ref f).1 := by
  unfold State.withRef
  split
  · exact .refl _
  · next s hs => exact h s (State.atObj_some hs).1 (State.atObj_some hs).2

theorem tweak_sameReg {scan : Str → Option D} {st : State D} (hi : GInv full st) (op : Op) (ht : op.isTweak = true) :
    SameReg st (step scan st op).1 := by
  cases op with
  | add | remove | clear | flag | required | dest | parse => cases ht
  | action ref act =>
    cases h : st.atObj ref with
    | none =>
      show SameReg st (st.action ref act).1
      unfold State.action State.withRef; rw [h]; exact .refl _
    | some s =>
      show SameReg st (st.action ref act).1
      rw [action_eq h, retype_eq]
      have hr := retype_names s.obj (st.helpBut s) (st.versionBut s) { s.arg with action := act }
      exact SameReg.update hi (State.atObj_some h).1 hr.1 hr.2.1 hr.2.2 rfl rfl rfl rfl rfl
  | nargs ref n =>
    refine withRef_sameReg fun s hs _ => ?_
    simp only
    rw [retype_eq]
    have hr := retype_names s.obj st.helpOption st.versionOption { s.arg with nargs := n }
    exact SameReg.update hi hs hr.1 hr.2.1 hr.2.2 rfl rfl rfl rfl rfl
  | defaults ref ds =>
    refine withRef_sameReg fun s hs _ => ?_
    have h2 := defaultsConstructor_frame { s.arg with defaults := ds }
    refine SameReg.update hi hs h2.1 ?_ h2.2.2.1 rfl rfl rfl rfl rfl
    unfold Argument.isPositional; rw [h2.2.1]
  | help ref h =>
    refine withRef_sameReg fun s hs _ => ⟨?_, rfl, rfl, rfl, rfl⟩
    refine updNode_sig (f := fun a => { a with help := h }) fun t _ _ => sig_eq rfl rfl rfl
  | metavar ref h =>
    refine withRef_sameReg fun s hs _ => ⟨?_, rfl, rfl, rfl, rfl⟩
    refine updNode_sig (f := fun a => { a with metavar := h }) fun t _ _ => sig_eq rfl rfl rfl
  | edit ref items =>
    refine withRef_sameReg fun s hs _ => ⟨?_, rfl, rfl, rfl, rfl⟩
    refine updNode_sig (f := fun a => { a with elems := items.map (NewElem.elem scan) }) fun t _ _ => sig_eq rfl rfl rfl
  | behave ref c r =>
    refine withRef_sameReg fun s hs _ => ⟨?_, rfl, rfl, rfl, rfl⟩
    refine updNode_sig (f := fun a => a.behaving c r) fun t _ _ => sig_eq rfl rfl rfl
  | valid ref v d =>
    refine withRef_sameReg fun s hs _ => ⟨?_, rfl, rfl, rfl, rfl⟩
    refine updNode_sig (f := fun a => { a with valid := v, validDeletable := d }) fun t _ _ => sig_eq rfl rfl rfl
  | _ => exact ⟨rfl, rfl, rfl, rfl, rfl⟩

/-- `parseArguments` either leaves the registry alone or adds the automatic help option to it. -/
theorem parse_sameReg {scan : Str → Option D} {st : State D} (hi : GInv full st) (argv : List Str)
    (hg : (st.parseArguments scan argv).2.goesOn = true) :
    SameReg st (st.parseArguments scan argv).1 ∨
    (st.helpOption = none ∧
      (st.argumentExists "-h".toList && st.argumentExists "--help".toList) = false ∧
      SameReg st.resetAll.withHelp (st.parseArguments scan argv).1) := by
  rcases parse_config (scan := scan) hi argv with ⟨o, h⟩ | ⟨b, h | ⟨h1, h2, h3⟩⟩
  · rw [h] at hg; cases hg
  · exact .inl (.of_config h)
  · exact .inr ⟨h1, h2, .of_config h3⟩

theorem resetAll_sameReg (st : State D) : SameReg st st.resetAll := by
  refine .of_config (b := st.binaryName) ?_
  rw [resetAll_config]; rfl

end BletArgs
