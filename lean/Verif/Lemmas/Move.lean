import Verif.Spec.Api
import Verif.Lemmas.AutoHelp
import Verif.Lemmas.After
import Verif.Lemmas.TypeCore
/-
Nothing depends on the addresses of the objects: a state in which every address is shifted, and in which other
objects were freed and other destinations written before, behaves in the same way.
-/
namespace BletArgs
open Spec
variable {D : Type}

/-- A change of addresses: shift of list elements, shift of objects, what was freed and written before. -/
structure Move where
  n : Nat
  o : Nat
  fo : List Nat := []
  fv : List Nat := []
  dl : List DestWrite := []

namespace Move

def slot (r : Move) (s : Slot D) : Slot D := { s with node := s.node + r.n, obj := s.obj + r.o }
def names (r : Move) (m : List (Str × Nat)) : List (Str × Nat) := m.map fun p => (p.1, p.2 + r.n)
def ptr (r : Move) (p : Option Nat) : Option Nat := p.map (· + r.o)

def st (r : Move) (st : State D) : State D :=
  { st with
    arguments := st.arguments.map r.slot
    byName := r.names st.byName
    helpOption := r.ptr st.helpOption
    versionOption := r.ptr st.versionOption
    nextNode := st.nextNode + r.n
    nextObj := st.nextObj + r.o
    freedObjs := r.fo ++ st.freedObjs.map (· + r.o)
    freedValids := r.fv ++ st.freedValids
    destLog := r.dl ++ st.destLog }

/-- The corresponding outcome: same result. -/
def out {α : Type} (r : Move) (x : State D × Res α) : State D × Res α := (r.st x.1, x.2)

/-- A returned reference is moved. -/
def ref (r : Move) : Res Nat → Res Nat
  | .ok v => .ok (v + r.o)
  | x => x

/-- The corresponding outcome of a call that returns a reference. -/
def outRef (r : Move) (x : State D × Res Nat) : State D × Res Nat := (r.st x.1, r.ref x.2)

/-- The corresponding call. -/
def op (r : Move) : Op → Op
  | .flag ref f => .flag (ref + r.o) f
  | .action ref a => .action (ref + r.o) a
  | .nargs ref n => .nargs (ref + r.o) n
  | .defaults ref ds => .defaults (ref + r.o) ds
  | .required ref b => .required (ref + r.o) b
  | .help ref h => .help (ref + r.o) h
  | .metavar ref m => .metavar (ref + r.o) m
  | .behave ref c x => .behave (ref + r.o) c x
  | .edit ref items => .edit (ref + r.o) items
  | .valid ref v d => .valid (ref + r.o) v d
  | .dest ref d => .dest (ref + r.o) d
  | x => x

variable (r : Move)

theorem lookup (m : List (Str × Nat)) (n : Str) : lookupName (r.names m) n = (lookupName m n).map (· + r.n) := by
  unfold lookupName names
  rw [List.find?_map]
  cases h : List.find? (fun p : Str × Nat => p.1 == n) m <;> simp [Function.comp_def, h]

theorem insert (m : List (Str × Nat)) (n : Str) (k : Nat) :
    insertName (r.names m) n (k + r.n) = r.names (insertName m n k) := by
  unfold insertName
  rw [r.lookup, Option.isSome_map]
  split
  · rfl
  · simp [names]

theorem insertAll (ns : List Str) (m : List (Str × Nat)) (k : Nat) :
    ns.foldl (fun m n => insertName m n (k + r.n)) (r.names m) = r.names (ns.foldl (fun m n => insertName m n k) m) := by
  induction ns generalizing m with
  | nil => rfl
  | cons n ns ih => simp only [List.foldl_cons]; rw [r.insert, ih]

theorem argumentExists (s : State D) (n : Str) : (r.st s).argumentExists n = s.argumentExists n := by
  unfold State.argumentExists
  show (lookupName (r.names s.byName) n).isSome = _
  rw [r.lookup, Option.isSome_map]

theorem atNode (s : State D) (n : Nat) : (r.st s).atNode (n + r.n) = (s.atNode n).map r.slot := by
  unfold State.atNode
  show List.find? _ (s.arguments.map r.slot) = _
  rw [List.find?_map]
  congr 2
  funext x
  simp only [Function.comp_apply, slot]
  rw [Bool.eq_iff_iff, beq_iff_eq, beq_iff_eq]
  omega

theorem atObj (s : State D) (n : Nat) : (r.st s).atObj (n + r.o) = (s.atObj n).map r.slot := by
  unfold State.atObj
  show List.find? _ (s.arguments.map r.slot) = _
  rw [List.find?_map]
  congr 2
  funext x
  simp only [Function.comp_apply, slot]
  rw [Bool.eq_iff_iff, beq_iff_eq, beq_iff_eq]
  omega

theorem modNode (s : State D) (n : Nat) (f : Argument D → Argument D) :
    (r.st s).modNode (n + r.n) f = r.st (s.modNode n f) := by
  unfold State.modNode
  have e : (s.arguments.map r.slot).map (fun t => if t.node == n + r.n then { t with arg := f t.arg } else t) =
      (s.arguments.map fun t => if t.node == n then { t with arg := f t.arg } else t).map r.slot := by
    rw [List.map_map, List.map_map]
    refine List.map_congr_left fun t _ => ?_
    simp only [Function.comp_apply, slot, Nat.add_right_cancel_iff, beq_iff_eq]
    split <;> rfl
  show ({ r.st s with arguments := _ } : State D) = _
  rw [show (r.st s).arguments = s.arguments.map r.slot from rfl, e]
  rfl

theorem sortArguments (s : State D) : (r.st s).sortArguments = r.out s.sortArguments := by
  unfold State.sortArguments
  have e1 : (r.st s).arguments = s.arguments.map r.slot := rfl
  have e : (s.arguments.map r.slot).any (fun s => s.arg.names.isEmpty) = s.arguments.any (fun s => s.arg.names.isEmpty) := by
    rw [List.any_map]; rfl
  rw [e1, e]
  split
  · rfl
  · rw [stableSort_map r.slot _ (fun _ _ _ _ => rfl)]
    rfl

theorem linkArgument (s : State D) (a : Argument D) : (r.st s).linkArgument a = r.outRef (s.linkArgument a) := by
  unfold State.linkArgument
  simp only
  have e : ({ r.st s with
      arguments := (r.st s).arguments ++ [{ node := (r.st s).nextNode, obj := (r.st s).nextObj, arg := a }]
      byName := a.names.foldl (fun m n => insertName m n (r.st s).nextNode) (r.st s).byName
      nextNode := (r.st s).nextNode + 1
      nextObj := (r.st s).nextObj + 1 } : State D) = r.st { s with
      arguments := s.arguments ++ [{ node := s.nextNode, obj := s.nextObj, arg := a }]
      byName := a.names.foldl (fun m n => insertName m n s.nextNode) s.byName
      nextNode := s.nextNode + 1
      nextObj := s.nextObj + 1 } := by
    have e2 : (r.st s).nextNode = s.nextNode + r.n := rfl
    have e3 : (r.st s).byName = r.names s.byName := rfl
    rw [e2, e3, r.insertAll]
    simp [st, slot, Nat.add_right_comm]
  rw [e, r.sortArguments]
  generalize State.sortArguments _ = x
  obtain ⟨y, res⟩ := x
  cases res <;> rfl

theorem addArgument (s : State D) (nof : List Str) : (r.st s).addArgument nof = r.outRef (s.addArgument nof) := by
  unfold State.addArgument
  cases nof with
  | nil => rfl
  | cons f rest =>
    simp only
    have e : ∀ n, (lookupName (r.st s).byName n).isSome = (lookupName s.byName n).isSome := fun n => r.argumentExists s n
    have ec : ∀ fs acc, checkFlags (r.st s).byName f fs acc = checkFlags s.byName f fs acc := by
      intro fs
      induction fs with
      | nil => intro acc; rfl
      | cons g gs ih => intro acc; unfold checkFlags; rw [e]; simp only [ih]
    rw [e, ec, r.linkArgument]
    split
    · split
      · rfl
      · split
        · rfl
        · rfl
    · split
      · rfl
      · rw [r.linkArgument]

theorem withRef (s : State D) {α : Type} (ref : Nat) (f g : Slot D → State D × Res α) (m : State D × Res α → State D × Res α)
    (hm : ∀ x w, m (x, .ub w) = (r.st x, .ub w))
    (h : ∀ t, s.atObj ref = some t → g (r.slot t) = m (f t)) : (r.st s).withRef (ref + r.o) g = m (s.withRef ref f) := by
  unfold State.withRef
  rw [r.atObj]
  cases e : s.atObj ref with
  | none => exact (hm _ _).symm
  | some t => exact h t e

theorem flag (s : State D) (ref : Nat) (f : Str) : (r.st s).flag (ref + r.o) f = r.out (s.flag ref f) := by
  unfold State.flag
  refine r.withRef s ref _ _ r.out (fun _ _ => rfl) fun t _ => ?_
  show (if t.arg.isPositional then _ else _) = _
  split
  · rfl
  · split
    · rfl
    · rw [r.argumentExists]
      split
      · rfl
      · simp only
        show State.sortArguments { (r.st s).modNode (t.node + r.n) _ with byName := _ } = _
        rw [r.modNode]
        show State.sortArguments { r.st _ with byName := insertName (r.names s.byName) f (t.node + r.n) } = _
        rw [r.insert, ← r.sortArguments]
        rfl

theorem ptr_eq (p : Option Nat) (o : Nat) : (r.ptr p == none || r.ptr p == some (o + r.o)) = (p == none || p == some o) := by
  cases p with
  | none => rfl
  | some q =>
    simp only [ptr, Option.map_some]
    rw [Bool.eq_iff_iff]
    simp

theorem typeConstructor (a : Argument D) (o : Nat) (h v : Option Nat) :
    a.typeConstructor (o + r.o) (r.ptr h) (r.ptr v) =
      ((a.typeConstructor o h v).1, r.ptr (a.typeConstructor o h v).2.1, r.ptr (a.typeConstructor o h v).2.2.1,
        (a.typeConstructor o h v).2.2.2) := by
  rw [typeConstructor_core, typeConstructor_core, r.ptr_eq, r.ptr_eq]
  cases tcCore a.isPositional a.action a.nargs (h == none || h == some o) (v == none || v == some o) <;> rfl

theorem retype (s : State D) (t : Slot D) (a : Argument D) : (r.st s).retype (r.slot t) a = r.out (s.retype t a) := by
  unfold State.retype
  have e := r.typeConstructor a t.obj s.helpOption s.versionOption
  rw [show a.typeConstructor (r.slot t).obj (r.st s).helpOption (r.st s).versionOption =
    a.typeConstructor (t.obj + r.o) (r.ptr s.helpOption) (r.ptr s.versionOption) from rfl, e]
  generalize a.typeConstructor t.obj s.helpOption s.versionOption = x
  obtain ⟨a1, h, v, res⟩ := x
  have em : ∀ f, ({ r.st s with helpOption := r.ptr h, versionOption := r.ptr v } : State D).modNode (r.slot t).node f =
      r.st (State.modNode { s with helpOption := h, versionOption := v } t.node f) := fun f =>
    r.modNode { s with helpOption := h, versionOption := v } t.node f
  cases res with
  | ok u => simp only; rw [em]; rfl
  | throw e => simp only; rw [em]; rfl
  | exit e => simp only; rw [em]; rfl
  | ub e => simp only; rw [em]; rfl
  | diverge => simp only; rw [em]; rfl

theorem action (s : State D) (ref : Nat) (act : Action) : (r.st s).action (ref + r.o) act = r.out (s.action ref act) := by
  unfold State.action
  refine r.withRef s ref _ _ r.out (fun _ _ => rfl) fun t _ => ?_
  simp only
  rw [← r.retype]
  congr 1
  show (if t.arg.action == .version then _ else _) = _
  have e1 : (if t.arg.action == .help then { r.st s with helpOption := none } else r.st s) =
      r.st (if t.arg.action == .help then { s with helpOption := none } else s) := by
    split <;> rfl
  have e2 : (r.slot t).arg = t.arg := rfl
  rw [e2, e1]
  generalize (if t.arg.action == .help then { s with helpOption := none } else s) = u
  split <;> rfl

theorem nargs (s : State D) (ref n : Nat) : (r.st s).nargs (ref + r.o) n = r.out (s.nargs ref n) := by
  unfold State.nargs
  exact r.withRef s ref _ _ r.out (fun _ _ => rfl) fun t _ => r.retype s t _

theorem setDefaults (s : State D) (ref : Nat) (ds : List Str) : (r.st s).setDefaults (ref + r.o) ds = r.out (s.setDefaults ref ds) := by
  unfold State.setDefaults
  refine r.withRef s ref _ _ r.out (fun _ _ => rfl) fun t _ => ?_
  simp only
  show ((r.st s).modNode (t.node + r.n) _, _) = _
  rw [r.modNode]; rfl

theorem required (s : State D) (ref : Nat) (b : Bool) : (r.st s).required (ref + r.o) b = r.out (s.required ref b) := by
  unfold State.required
  refine r.withRef s ref _ _ r.out (fun _ _ => rfl) fun t _ => ?_
  show ((r.st s).modNode (t.node + r.n) _).sortArguments = _
  rw [r.modNode, r.sortArguments]

theorem setHelp (s : State D) (ref : Nat) (h : Str) : (r.st s).setHelp (ref + r.o) h = r.out (s.setHelp ref h) := by
  unfold State.setHelp
  refine r.withRef s ref _ _ r.out (fun _ _ => rfl) fun t _ => ?_
  show ((r.st s).modNode (t.node + r.n) _, _) = _
  rw [r.modNode]; rfl

theorem setMetavar (s : State D) (ref : Nat) (h : Str) : (r.st s).setMetavar (ref + r.o) h = r.out (s.setMetavar ref h) := by
  unfold State.setMetavar
  refine r.withRef s ref _ _ r.out (fun _ _ => rfl) fun t _ => ?_
  show ((r.st s).modNode (t.node + r.n) _, _) = _
  rw [r.modNode]; rfl

theorem edit (scan : Str → Option D) (s : State D) (ref : Nat) (items : List NewElem) :
    (r.st s).edit scan (ref + r.o) items = r.out (s.edit scan ref items) := by
  unfold State.edit
  refine r.withRef s ref _ _ r.out (fun _ _ => rfl) fun t _ => ?_
  show ((r.st s).modNode (t.node + r.n) _, _) = _
  rw [r.modNode]; rfl

theorem behave (s : State D) (ref : Nat) (c : List Str → VRes) (x : DestWrite → Option Exn) :
    (r.st s).behave (ref + r.o) c x = r.out (s.behave ref c x) := by
  unfold State.behave
  refine r.withRef s ref _ _ r.out (fun _ _ => rfl) fun t _ => ?_
  show ((r.st s).modNode (t.node + r.n) _, _) = _
  rw [r.modNode]; rfl

theorem setValid (s : State D) (ref : Nat) (v : Option Validator) (d : Bool) :
    (r.st s).setValid (ref + r.o) v d = r.out (s.setValid ref v d) := by
  unfold State.setValid
  refine r.withRef s ref _ _ r.out (fun _ _ => rfl) fun t _ => ?_
  have e : ({ r.st s with freedValids := (r.st s).freedValids ++ (r.slot t).arg.ownedValid } : State D) =
      r.st { s with freedValids := s.freedValids ++ t.arg.ownedValid } := by
    simp [st, slot]
  rw [e]
  show (State.modNode (r.st _) (t.node + r.n) _, _) = _
  rw [r.modNode]; rfl

theorem setDest (s : State D) (ref : Nat) (d : Dest) : (r.st s).setDest (ref + r.o) d = r.outRef (s.setDest ref d) := by
  unfold State.setDest
  refine r.withRef s ref _ _ r.outRef (fun _ _ => rfl) fun t _ => ?_
  have e : (s.arguments.map r.slot).map (fun x => if x.node == t.node + r.n then
        { x with obj := s.nextObj + r.o, arg := { x.arg with defaults := [], dest := some d } } else x) =
      (s.arguments.map fun x => if x.node == t.node then
        { x with obj := s.nextObj, arg := { x.arg with defaults := [], dest := some d } } else x).map r.slot := by
    rw [List.map_map, List.map_map]
    refine List.map_congr_left fun x _ => ?_
    simp only [Function.comp_apply, slot, Nat.add_right_cancel_iff, beq_iff_eq]
    split <;> rfl
  have e2 : r.fo ++ s.freedObjs.map (· + r.o) ++ [t.obj + r.o] = r.fo ++ (s.freedObjs ++ [t.obj]).map (· + r.o) := by simp
  refine Prod.ext ?_ rfl
  show ({ r.st s with
      arguments := (s.arguments.map r.slot).map fun x => if x.node == t.node + r.n then
        { x with obj := s.nextObj + r.o, arg := { x.arg with defaults := [], dest := some d } } else x
      nextObj := s.nextObj + r.o + 1
      freedObjs := r.fo ++ s.freedObjs.map (· + r.o) ++ [t.obj + r.o] } : State D) = _
  rw [e, e2, Nat.add_right_comm]
  rfl

/-! ### Removal -/

theorem modNode' (s : State D) (t : Slot D) (f : Argument D → Argument D) :
    (r.st s).modNode (r.slot t).node f = r.st (s.modNode t.node f) := r.modNode s t.node f

/-- End of an iteration of the removal loop, once the name is out of the map. -/
def rmTail (ns : List Str) (node : Nat) (t : Slot D) (w : State D) : State D × Res Unit :=
  if w.byName.any (fun p => p.2 == node) then
    State.removeLoop ns (w.modNode node fun a => { a with names := sortNames a.names })
  else
    let x :=
      if w.helpOption == some t.obj then { w with helpOption := none }
      else if w.versionOption == some t.obj then { w with versionOption := none }
      else w
    State.removeLoop ns
      { x with
        freedObjs := x.freedObjs ++ [t.obj]
        freedValids := x.freedValids ++ t.arg.ownedValid
        arguments := x.arguments.filter (fun t => !(t.node == node)) }

theorem removeLoop_eq (n : Str) (ns : List Str) (s : State D) :
    State.removeLoop (n :: ns) s =
    match lookupName s.byName n with
    | none => (s, .ub "use of an erased map iterator")
    | some node =>
      match s.atNode node with
      | none => (s, .ub "dangling Argument**")
      | some t =>
        if t.arg.names.contains n then
          rmTail ns node t
            { s.modNode node (fun a => { a with names := a.names.erase n }) with
              byName := s.byName.filter (fun p => !(p.1 == n)) }
        else (s, .ub "erase(end())") := rfl

theorem tail (ns : List Str) (ih : ∀ s : State D, State.removeLoop ns (r.st s) = r.out (State.removeLoop ns s))
    (node : Nat) (t : Slot D) (w : State D) : rmTail ns (node + r.n) (r.slot t) (r.st w) = r.out (rmTail ns node t w) := by
  unfold rmTail
  have e2 : (r.st w).byName.any (fun p => p.2 == node + r.n) = w.byName.any (fun p => p.2 == node) := by
    show (r.names w.byName).any _ = _
    unfold names
    rw [List.any_map]
    congr 1
    funext p
    simp only [Function.comp_apply]
    rw [Bool.eq_iff_iff, beq_iff_eq, beq_iff_eq]
    omega
  rw [e2]
  split
  · rw [r.modNode, ih]
  · have hp : ∀ p : Option Nat, (r.ptr p == some (t.obj + r.o)) = (p == some t.obj) := by
      intro p; rw [Bool.eq_iff_iff]; cases p <;> simp [ptr]
    have e3 : (if (r.st w).helpOption == some (r.slot t).obj then { r.st w with helpOption := none }
        else if (r.st w).versionOption == some (r.slot t).obj then { r.st w with versionOption := none } else r.st w) =
        r.st (if w.helpOption == some t.obj then { w with helpOption := none }
        else if w.versionOption == some t.obj then { w with versionOption := none } else w) := by
      show (if r.ptr w.helpOption == some (t.obj + r.o) then _ else if r.ptr w.versionOption == some (t.obj + r.o) then _ else _) = _
      rw [hp, hp]
      split
      · rfl
      · split <;> rfl
    simp only
    rw [e3]
    generalize (if w.helpOption == some t.obj then { w with helpOption := none }
        else if w.versionOption == some t.obj then { w with versionOption := none } else w) = x
    rw [← ih]
    congr 1
    have e4 : (x.arguments.map r.slot).filter (fun y => !(y.node == node + r.n)) =
        (x.arguments.filter (fun y => !(y.node == node))).map r.slot := by
      rw [List.filter_map]
      congr 2
      funext y
      simp only [Function.comp_apply, slot]
      rw [Bool.eq_iff_iff, Bool.not_eq_true', Bool.not_eq_true', beq_eq_false_iff_ne, beq_eq_false_iff_ne]
      omega
    show ({ r.st x with
      freedObjs := r.fo ++ x.freedObjs.map (· + r.o) ++ [t.obj + r.o]
      freedValids := r.fv ++ x.freedValids ++ t.arg.ownedValid
      arguments := (x.arguments.map r.slot).filter (fun y => !(y.node == node + r.n)) } : State D) = _
    rw [e4]
    simp [st]

theorem removeLoop (ns : List Str) (s : State D) : State.removeLoop ns (r.st s) = r.out (State.removeLoop ns s) := by
  induction ns generalizing s with
  | nil => rfl
  | cons n ns ih =>
    rw [removeLoop_eq, removeLoop_eq]
    rw [show lookupName (r.st s).byName n = (lookupName s.byName n).map (· + r.n) from r.lookup s.byName n]
    cases h1 : lookupName s.byName n with
    | none => rfl
    | some node =>
      simp only [Option.map_some]
      rw [r.atNode]
      cases h2 : s.atNode node with
      | none => rfl
      | some t =>
        simp only [Option.map_some]
        rw [show (r.slot t).arg = t.arg from rfl]
        split
        · rw [r.modNode, ← r.tail ns ih]
          congr 1
          have : (r.names s.byName).filter (fun p => !(p.1 == n)) = r.names (s.byName.filter (fun p => !(p.1 == n))) := by
            unfold names; rw [List.filter_map]; rfl
          show ({ r.st _ with byName := (r.names s.byName).filter (fun p => !(p.1 == n)) } : State D) = _
          rw [this]; rfl
        · rfl

theorem removeArguments (s : State D) (ns : List Str) : (r.st s).removeArguments ns = r.out (s.removeArguments ns) := by
  unfold State.removeArguments
  have e : State.firstUnknown (r.st s).byName ns = State.firstUnknown s.byName ns := by
    unfold State.firstUnknown
    congr 1
    funext n
    have := r.argumentExists s n
    unfold State.argumentExists at this
    rw [this]
  rw [e]
  split
  · rfl
  · split
    · rfl
    · rw [r.removeLoop]
      generalize State.removeLoop ns s = x
      obtain ⟨y, res⟩ := x
      cases res with
      | ok u => exact r.sortArguments y
      | _ => rfl

theorem clear (s : State D) : (r.st s).clear = r.st s.clear := by
  unfold State.clear State.deleteAll
  have e1 : r.fo ++ s.freedObjs.map (· + r.o) ++ (s.arguments.map r.slot).map (·.obj) =
      r.fo ++ (s.freedObjs ++ s.arguments.map (·.obj)).map (· + r.o) := by
    simp [slot]
  have e2 : r.fv ++ s.freedValids ++ (s.arguments.map r.slot).flatMap (fun s => s.arg.ownedValid) =
      r.fv ++ (s.freedValids ++ s.arguments.flatMap (fun s => s.arg.ownedValid)) := by
    rw [List.flatMap_map, List.append_assoc]; rfl
  simp only [st] at *
  rw [e1, e2]
  rfl

/-! ### Parsing -/

theorem typeOf (s : State D) (n : Str) : (r.st s).typeOf n = s.typeOf n := by
  unfold State.typeOf
  rw [show lookupName (r.st s).byName n = (lookupName s.byName n).map (· + r.n) from r.lookup s.byName n]
  cases lookupName s.byName n with
  | none => rfl
  | some k =>
    simp only [Option.map_some]
    rw [r.atNode, Option.map_map]
    rfl

theorem endOfClusters (s : State D) (b : Bool) (cs : List Char) : (r.st s).endOfClusters b cs = s.endOfClusters b cs := by
  induction cs with
  | nil => exact r.argumentExists s _
  | cons c cs ih =>
    cases cs with
    | nil => exact r.argumentExists s _
    | cons c2 cs => unfold State.endOfClusters; rw [r.typeOf, ih]

theorem endOfInfinite (s : State D) : (r.st s).endOfInfinite = s.endOfInfinite := by
  funext tok
  unfold State.endOfInfinite
  simp only [r.argumentExists, r.endOfClusters]
  rfl

theorem parseAt (s : State D) (argv : List Str) (max index : Nat) (b : Bool) (o a : Str) (n : Nat) :
    (r.st s).parseAt argv max index b o a (n + r.n) = r.out (s.parseAt argv max index b o a n) := by
  unfold State.parseAt
  rw [r.atNode, r.endOfInfinite]
  cases s.atNode n with
  | none => rfl
  | some t =>
    simp only [Option.map_some]
    rw [r.modNode]
    rfl

theorem lookup' (s : State D) (n : Str) : lookupName (r.st s).byName n = (lookupName s.byName n).map (· + r.n) :=
  r.lookup s.byName n

theorem parseCluster (argv : List Str) (max index : Nat) (b : Bool) (a : Str) (cs : List Char) (s : State D) :
    State.parseCluster argv max index b a cs (r.st s) = r.out (State.parseCluster argv max index b a cs s) := by
  induction cs generalizing s with
  | nil =>
    unfold State.parseCluster
    rw [r.lookup']
    cases lookupName s.byName (shortFlag '-') with
    | none => rfl
    | some k => exact r.parseAt s ..
  | cons c cs ih =>
    cases cs with
    | nil =>
      unfold State.parseCluster
      rw [r.lookup']
      cases lookupName s.byName (shortFlag c) with
      | none => rfl
      | some k => exact r.parseAt s ..
    | cons c2 cs =>
      unfold State.parseCluster
      rw [r.lookup']
      cases lookupName s.byName (shortFlag c) with
      | none => rfl
      | some k =>
        simp only [Option.map_some]
        rw [r.atNode]
        cases s.atNode k with
        | none => rfl
        | some t =>
          simp only [Option.map_some]
          rw [show (r.slot t).arg = t.arg from rfl, r.modNode, r.parseAt, ih]
          split
          · rfl
          · split <;> rfl

theorem parseShort (s : State D) (argv : List Str) (max index : Nat) (tok : Str) :
    (r.st s).parseShort argv max index tok = r.out (s.parseShort argv max index tok) := by
  unfold State.parseShort
  generalize takeArg tok = x
  obtain ⟨o, a, b⟩ := x
  simp only
  rw [r.lookup', show (r.st s).isAlternative = s.isAlternative from rfl]
  cases s.isAlternative with
  | false => exact r.parseCluster ..
  | true =>
    simp only [if_true]
    cases lookupName s.byName ('-' :: o) with
    | none => exact r.parseCluster ..
    | some k => exact r.parseAt s ..

theorem parseLong (s : State D) (argv : List Str) (max index : Nat) (tok : Str) :
    (r.st s).parseLong argv max index tok = r.out (s.parseLong argv max index tok) := by
  unfold State.parseLong
  generalize takeArg tok = x
  obtain ⟨o, a, b⟩ := x
  simp only
  rw [r.lookup']
  cases lookupName s.byName o with
  | none => rfl
  | some k => exact r.parseAt s ..

theorem nextPositional (s : State D) : (r.st s).nextPositional = s.nextPositional.map r.slot := by
  unfold State.nextPositional
  show List.find? _ (s.arguments.map r.slot) = _
  rw [List.find?_map]
  rfl

theorem parsePositionalTok (s : State D) (argv : List Str) (argc index : Nat) (b : Bool) :
    (r.st s).parsePositionalTok argv argc index b = r.out (s.parsePositionalTok argv argc index b) := by
  unfold State.parsePositionalTok
  rw [r.nextPositional, r.endOfInfinite]
  cases s.nextPositional with
  | none =>
    simp only [Option.map_none]
    cases argv[index]? with
    | none => rfl
    | some v =>
      simp only
      rw [show (r.st s).isStrict = s.isStrict from rfl]
      split <;> rfl
  | some t =>
    simp only [Option.map_some]
    rw [r.modNode']
    rfl

theorem endLoop (argv : List Str) (f i : Nat) (s : State D) :
    State.endLoop argv f i (r.st s) = r.out (State.endLoop argv f i s) := by
  induction f generalizing i s with
  | zero => rfl
  | succ f ih =>
    unfold State.endLoop
    rw [r.parsePositionalTok]
    split
    · generalize s.parsePositionalTok argv argv.length i true = x
      obtain ⟨u, res⟩ := x
      cases res with
      | ok i1 => exact ih i1 u
      | _ => rfl
    · rfl

theorem mainLoop (argv : List Str) (e f i : Nat) (s : State D) :
    State.mainLoop argv e f i (r.st s) = r.out (State.mainLoop argv e f i s) := by
  induction f generalizing i s with
  | zero => rfl
  | succ f ih =>
    have next : ∀ x : State D × Res Nat,
        (match r.out x with
          | (st1, .ok i1) => State.mainLoop argv e f i1 st1
          | (st1, r) => (st1, r.cast)) =
        r.out (match x with
          | (st1, .ok i1) => State.mainLoop argv e f i1 st1
          | (st1, r) => (st1, r.cast)) := by
      rintro ⟨u, res⟩
      cases res with
      | ok i1 => exact ih i1 u
      | _ => rfl
    unfold State.mainLoop
    split
    · cases argv[i]? with
      | none => rfl
      | some tok =>
        simp only
        rw [r.parseShort, r.parseLong, r.parsePositionalTok, r.endLoop]
        split
        · exact next _
        · split
          · exact next _
          · split
            · rfl
            · exact next _
    · rfl

theorem finishAll (scan : Str → Option D) (l : List (Slot D)) :
    BletArgs.finishAll scan (l.map r.slot) =
      ((BletArgs.finishAll scan l).1.map r.slot, (BletArgs.finishAll scan l).2.1, (BletArgs.finishAll scan l).2.2) := by
  induction l with
  | nil => rfl
  | cons s l ih =>
    rw [List.map_cons]
    unfold BletArgs.finishAll
    rw [ih, show (r.slot s).arg = s.arg from rfl]
    generalize s.arg.finish scan = x
    obtain ⟨a, w, res⟩ := x
    cases res <;> rfl

theorem firstMissing (l : List (Slot D)) : BletArgs.firstMissing (l.map r.slot) = BletArgs.firstMissing l := by
  unfold BletArgs.firstMissing
  rw [List.find?_map, Option.map_map]
  rfl

theorem getUsage (s : State D) : (r.st s).getUsage = s.getUsage := by
  have ha : (r.st s).arguments.map (·.arg) = s.arguments.map (·.arg) := by
    show (s.arguments.map r.slot).map (·.arg) = _
    rw [List.map_map]
    rfl
  have he : (r.st s).arguments.isEmpty = s.arguments.isEmpty := by
    show (s.arguments.map r.slot).isEmpty = _
    rw [List.isEmpty_map]
  unfold State.getUsage State.usageLine State.sections
  rw [ha, he]
  rfl

theorem optionSeen (s : State D) (p : Option Nat) : (r.st s).optionSeen (r.ptr p) = s.optionSeen p := by
  cases p with
  | none => rfl
  | some o =>
    show ((r.st s).atObj (o + r.o)).map _ = _
    rw [r.atObj, Option.map_map]
    rfl

theorem finishParse (scan : Str → Option D) (s : State D) : (r.st s).finishParse scan = r.out (s.finishParse scan) := by
  unfold State.finishParse
  rw [show (r.st s).arguments = s.arguments.map r.slot from rfl, r.firstMissing]
  cases BletArgs.firstMissing s.arguments with
  | some e => rfl
  | none =>
    simp only
    rw [r.finishAll]
    simp [out, st]

theorem afterLoop (scan : Str → Option D) (s : State D) : (r.st s).afterLoop scan = r.out (s.afterLoop scan) := by
  unfold State.afterLoop
  rw [show (r.st s).helpOption = r.ptr s.helpOption from rfl, show (r.st s).versionOption = r.ptr s.versionOption from rfl,
    r.optionSeen, r.optionSeen, r.getUsage, r.finishParse, r.clear,
    show (r.st s).isHelpException = s.isHelpException from rfl,
    show (r.st s).isVersionException = s.isVersionException from rfl, show (r.st s).version = s.version from rfl]
  cases s.optionSeen s.helpOption with
  | none => rfl
  | some b =>
    cases b with
    | true => simp only; split <;> rfl
    | false =>
      simp only
      cases s.optionSeen s.versionOption with
      | none => rfl
      | some b =>
        cases b with
        | true => simp only; split <;> rfl
        | false => rfl

theorem resetAll (s : State D) : (r.st s).resetAll = r.st s.resetAll := by
  unfold State.resetAll
  have e : (s.arguments.map r.slot).map (fun s => { s with arg := s.arg.reset }) =
      (s.arguments.map fun s => { s with arg := s.arg.reset }).map r.slot := by
    rw [List.map_map, List.map_map]; rfl
  show ({ r.st s with arguments := (s.arguments.map r.slot).map (fun s => { s with arg := s.arg.reset }) } : State D) = _
  rw [e]
  rfl

theorem autoHelp (s : State D) : (r.st s).autoHelp = r.out s.autoHelp := by
  unfold State.autoHelp
  rw [show (r.st s).helpOption.isNone = s.helpOption.isNone by
    show (r.ptr s.helpOption).isNone = _; cases s.helpOption <;> rfl]
  simp only [r.argumentExists, r.addArgument]
  split
  · split
    · rfl
    · generalize s.addArgument _ = x
      obtain ⟨u, res⟩ := x
      cases res with
      | ok ref =>
        simp only [outRef, Move.ref]
        rw [r.action]
        generalize u.action ref .help = y
        obtain ⟨w, res⟩ := y
        cases res with
        | ok _ =>
          simp only [out]
          rw [r.setHelp]
          generalize w.setHelp ref _ = z
          obtain ⟨z, res⟩ := z
          cases res <;> rfl
        | _ => rfl
      | _ => rfl
  · rfl

theorem setBinary (s : State D) (argv : List Str) : (r.st s).setBinaryIfEmpty argv = r.out (s.setBinaryIfEmpty argv) := by
  unfold State.setBinaryIfEmpty
  rw [show (r.st s).binaryName = s.binaryName from rfl]
  split
  · cases argv[0]? <;> rfl
  · rfl

theorem parse (scan : Str → Option D) (s : State D) (argv : List Str) :
    (r.st s).parseArguments scan argv = r.out (s.parseArguments scan argv) := by
  unfold State.parseArguments
  rw [r.resetAll, r.autoHelp]
  generalize s.resetAll.autoHelp = x
  obtain ⟨u, res⟩ := x
  cases res with
  | ok b =>
    cases b with
    | false => rfl
    | true =>
      simp only [out]
      rw [r.setBinary]
      generalize u.setBinaryIfEmpty argv = y
      obtain ⟨w, res⟩ := y
      cases res with
      | ok _ =>
        simp only [out]
        rw [r.mainLoop, show (r.st w).loopBudget argv = w.loopBudget argv by
          unfold State.loopBudget; show (_ * ((w.arguments.map r.slot).length + 2)) = _; rw [List.length_map]]
        generalize State.mainLoop _ _ _ _ w = z
        obtain ⟨z, res⟩ := z
        cases res with
        | ok _ => exact r.afterLoop scan z
        | _ => rfl
      | _ => rfl
  | _ => rfl

/-- Every call behaves in the same way after a change of addresses. -/
theorem step (scan : Str → Option D) (s : State D) (op : Op) :
    BletArgs.step scan (r.st s) (r.op op) = r.out (BletArgs.step scan s op) := by
  have void : ∀ x : State D × Res Nat, ((r.outRef x).1, (r.outRef x).2.void) = r.out (x.1, x.2.void) := by
    rintro ⟨u, res⟩
    cases res <;> rfl
  cases op with
  | add ns =>
    show (((r.st s).addArgument ns).1, ((r.st s).addArgument ns).2.void) = _
    rw [r.addArgument]; exact void _
  | dest ref d =>
    show (((r.st s).setDest (ref + r.o) d).1, ((r.st s).setDest (ref + r.o) d).2.void) = _
    rw [r.setDest]; exact void _
  | remove ns => exact r.removeArguments s ns
  | clear => exact Prod.ext (r.clear s) rfl
  | flag ref f => exact r.flag s ref f
  | action ref a => exact r.action s ref a
  | nargs ref n => exact r.nargs s ref n
  | defaults ref ds => exact r.setDefaults s ref ds
  | required ref b => exact r.required s ref b
  | help ref h => exact r.setHelp s ref h
  | metavar ref m => exact r.setMetavar s ref m
  | edit ref items => exact r.edit scan s ref items
  | behave ref c x => exact r.behave s ref c x
  | valid ref v d => exact r.setValid s ref v d
  | parse argv => exact r.parse scan s argv
  | _ => rfl

end Move
end BletArgs
