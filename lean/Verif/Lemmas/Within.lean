import Verif.Lemmas.ChainSwap
import Verif.Lemmas.TypeCore
import Verif.Spec.Within
import Verif.Props.Declare
/-
Calls of one statement that are about different things commute.
-/
namespace BletArgs
open Spec
variable {D : Type}

/-! ### What the kind of an argument does not depend on -/

/-- What `typeConstructor_` and `defaultsConstructor_` do not touch. -/
structure Dress where
  names : List Str
  help : Str
  metavar : Str
  isRequired : Bool
  valid : Option Validator
  validDeletable : Bool

def Argument.dress (a : Argument D) : Dress := ⟨a.names, a.help, a.metavar, a.isRequired, a.valid, a.validDeletable⟩

def Argument.wear (a : Argument D) (w : Dress) : Argument D :=
  { a with names := w.names, help := w.help, metavar := w.metavar, isRequired := w.isRequired, valid := w.valid,
           validDeletable := w.validDeletable }

/-- Both return, or neither does. -/
def BothOk (r r' : Res Unit) : Prop := r = .ok () ↔ r' = .ok ()

theorem wear_typeConstructor (a : Argument D) (w : Dress) (o : Nat) (h v : Option Nat) :
    ((a.wear w).typeConstructor o h v).1 = ((a.typeConstructor o h v).1).wear w ∧
    ((a.wear w).typeConstructor o h v).2.1 = (a.typeConstructor o h v).2.1 ∧
    ((a.wear w).typeConstructor o h v).2.2.1 = (a.typeConstructor o h v).2.2.1 ∧
    BothOk ((a.wear w).typeConstructor o h v).2.2.2 (a.typeConstructor o h v).2.2.2 := by
  rw [typeConstructor_core, typeConstructor_core]
  rw [show (a.wear w).isPositional = a.isPositional from rfl, show (a.wear w).action = a.action from rfl,
    show (a.wear w).nargs = a.nargs from rfl]
  cases tcCore a.isPositional a.action a.nargs (h == none || h == some o) (v == none || v == some o) <;>
    exact ⟨rfl, rfl, rfl, ⟨fun e => (by cases e <;> rfl), fun e => (by cases e <;> rfl)⟩⟩

theorem wear_defaultsConstructor (a : Argument D) (w : Dress) :
    (a.wear w).defaultsConstructor.1 = a.defaultsConstructor.1.wear w ∧
    BothOk (a.wear w).defaultsConstructor.2 a.defaultsConstructor.2 := by
  unfold Argument.defaultsConstructor
  simp only [show (a.wear w).nargs = a.nargs from rfl, show (a.wear w).defaults = a.defaults from rfl,
    show (a.wear w).type = a.type from rfl]
  generalize (decide (a.nargs > 0) && decide (a.defaults.length > 0)) = c0
  generalize (a.defaults.length != a.nargs) = c1
  generalize (a.defaults.length % a.nargs != 0) = c2
  generalize a.type = t
  cases c0
  · exact ⟨rfl, Iff.rfl⟩
  · cases t <;> cases c1 <;> cases c2 <;>
      exact ⟨rfl, ⟨fun e => (by cases e <;> rfl), fun e => (by cases e <;> rfl)⟩⟩

theorem wear_retyped (a : Argument D) (w : Dress) (o : Nat) (h v : Option Nat) :
    (a.wear w).retyped o h v = (a.retyped o h v).wear w ∧
    BothOk ((a.wear w).retypeRes o h v) (a.retypeRes o h v) := by
  obtain ⟨h1, -, -, h4⟩ := wear_typeConstructor a w o h v
  unfold Argument.retyped Argument.retypeRes
  generalize (a.wear w).typeConstructor o h v = x at *
  generalize a.typeConstructor o h v = y at *
  obtain ⟨d1, d2⟩ := wear_defaultsConstructor y.1 w
  unfold BothOk at *
  by_cases c : y.2.2.2 = .ok ()
  · rw [if_pos c, if_pos (h4.2 c), if_pos c, if_pos (h4.2 c), h1]
    exact ⟨d1, d2⟩
  · rw [if_neg c, if_neg fun e => c (h4.1 e), if_neg c, if_neg fun e => c (h4.1 e), h1]
    exact ⟨rfl, h4⟩

theorem retyped_dress (a : Argument D) (o : Nat) (h v : Option Nat) : (a.retyped o h v).dress = a.dress := by
  have := (wear_retyped a a.dress o h v).1
  have e : a.wear a.dress = a := rfl
  rw [e] at this
  rw [this]
  rfl

theorem defaults_dress (a : Argument D) : a.defaultsConstructor.1.dress = a.dress := by
  have := (wear_defaultsConstructor a a.dress).1
  have e : a.wear a.dress = a := rfl
  rw [e] at this
  rw [this]
  rfl

/-! ### Calls about the kind, and others -/

/-- The call leaves the dress alone and does not depend on it; nothing is registered, nothing moves. -/
theorem kind_edit (t : Slot D) (w : Dress) (known known' : Str → Bool) (h v : Option Nat) (no : Nat) {c : Call} (ref : Nat)
    (hc : c.concern = .kind) :
    (Slot.edit ⟨t.node, t.obj, t.arg.wear w⟩ known' h v no (c.on ref)).1 =
      { (t.edit known h v no (c.on ref)).1 with arg := ((t.edit known h v no (c.on ref)).1.arg).wear w } ∧
    BothOk (Slot.edit ⟨t.node, t.obj, t.arg.wear w⟩ known' h v no (c.on ref)).2 (t.edit known h v no (c.on ref)).2 ∧
    (t.edit known h v no (c.on ref)).1.arg.dress = t.arg.dress ∧
    (t.edit known h v no (c.on ref)).1.flags = [] ∧ (t.edit known h v no (c.on ref)).1.queue = id := by
  cases c with
  | action a =>
    obtain ⟨h1, h2, h3, h4⟩ := wear_typeConstructor { t.arg with action := a } w t.obj
      (if t.arg.action == .help then none else h) (if t.arg.action == .version then none else v)
    obtain ⟨k1, k2⟩ := wear_retyped { t.arg with action := a } w t.obj
      (if t.arg.action == .help then none else h) (if t.arg.action == .version then none else v)
    refine ⟨?_, k2, retyped_dress .., rfl, rfl⟩
    show Edit.mk _ _ _ _ _ _ _ _ _ = Edit.mk _ _ _ _ _ _ _ _ _
    congr 1
  | nargs n =>
    obtain ⟨h1, h2, h3, h4⟩ := wear_typeConstructor { t.arg with nargs := n } w t.obj h v
    obtain ⟨k1, k2⟩ := wear_retyped { t.arg with nargs := n } w t.obj h v
    refine ⟨?_, k2, retyped_dress .., rfl, rfl⟩
    show Edit.mk _ _ _ _ _ _ _ _ _ = Edit.mk _ _ _ _ _ _ _ _ _
    congr 1
  | defaults ds =>
    obtain ⟨k1, k2⟩ := wear_defaultsConstructor { t.arg with defaults := ds } w
    refine ⟨?_, k2, defaults_dress .., rfl, rfl⟩
    show Edit.mk _ _ _ _ _ _ _ _ _ = Edit.mk _ _ _ _ _ _ _ _ _
    congr 1
  | dest d => exact ⟨rfl, Iff.rfl, rfl, rfl, rfl⟩
  | _ => cases hc


/-! ### Calls about something else -/

theorem sortNames_perm {l l' : List Str} (h : l.Perm l') : sortNames l = sortNames l' := by
  refine sorted_unique compareFlag_strictWeak _ _ (sortNames_sorted l) (sortNames_sorted l') fun x => ?_
  have hp : (sortNames l).Perm (sortNames l') := (stableSort_perm l).trans (h.trans (stableSort_perm l').symm)
  have key : ∀ m : List Str, m.filter (equivTo compareFlag x) = List.replicate (m.filter (equivTo compareFlag x)).length x := by
    intro m
    refine List.eq_replicate_of_mem ?_
    intro y hy
    have hy := (List.mem_filter.1 hy).2
    unfold equivTo at hy
    rcases compareFlag_total x y with c | c | c
    · simp [c] at hy
    · exact c.symm
    · simp [c] at hy
  rw [key (sortNames l), key (sortNames l'), (hp.filter _).length_eq]

/-- The dress the call leaves. -/
def Spec.Call.dressed (w : Dress) : Call → Dress
  | .flag f => { w with names := sortNames (w.names ++ [f]) }
  | .required b => { w with isRequired := b }
  | .help h => { w with help := h }
  | .metavar m => { w with metavar := m }
  | .valid v d => { w with valid := v, validDeletable := d }
  | _ => w

def Spec.Call.given : Call → List Str
  | .flag f => [f]
  | _ => []

def Spec.Call.moves (w : Dress) : Call → List Str × List Str → List Str × List Str
  | .required b => fun q =>
    if b = true ∧ w.names.headD [] ∈ q.2 then (q.1 ++ [w.names.headD []], q.2.erase (w.names.headD []))
    else if b = false ∧ w.names.headD [] ∈ q.1 then (q.1.erase (w.names.headD []), w.names.headD [] :: q.2)
    else q
  | _ => id

def Spec.Call.allowed (positional : Bool) (known : Str → Bool) : Call → Prop
  | .flag f => positional = false ∧ validFormatFlag f = none ∧ known f = false
  | _ => True

theorem dress_edit (t : Slot D) (known : Str → Bool) (h v : Option Nat) (no : Nat) {c : Call} (ref : Nat)
    (hc : c.concern ≠ .kind) :
    ((t.edit known h v no (c.on ref)).2 = .ok () ↔ c.allowed t.arg.isPositional known) ∧
    (c.allowed t.arg.isPositional known → (t.edit known h v no (c.on ref)).1 =
      { t.same h v with arg := t.arg.wear (c.dressed t.arg.dress), flags := c.given, queue := c.moves t.arg.dress }) := by
  cases c with
  | flag f =>
    show ((t.flagEdit known h v f).2 = _ ↔ t.arg.isPositional = false ∧ validFormatFlag f = none ∧ known f = false) ∧
      (t.arg.isPositional = false ∧ validFormatFlag f = none ∧ known f = false → (t.flagEdit known h v f).1 = _)
    unfold Slot.flagEdit
    cases t.arg.isPositional with
    | true => exact ⟨⟨fun e => (by cases e), fun e => (by cases e.1)⟩, fun e => (by cases e.1)⟩
    | false =>
      generalize validFormatFlag f = vf
      cases vf with
      | some m => exact ⟨⟨fun e => (by cases e), fun e => (by cases e.2.1)⟩, fun e => (by cases e.2.1)⟩
      | none =>
        generalize known f = kf
        cases kf with
        | true => exact ⟨⟨fun e => (by cases e), fun e => (by cases e.2.2)⟩, fun e => (by cases e.2.2)⟩
        | false => exact ⟨⟨fun _ => ⟨rfl, rfl, rfl⟩, fun _ => rfl⟩, fun _ => rfl⟩
  | required b => exact ⟨⟨fun _ => trivial, fun _ => rfl⟩, fun _ => rfl⟩
  | help b => exact ⟨⟨fun _ => trivial, fun _ => rfl⟩, fun _ => rfl⟩
  | metavar b => exact ⟨⟨fun _ => trivial, fun _ => rfl⟩, fun _ => rfl⟩
  | valid b d => exact ⟨⟨fun _ => trivial, fun _ => rfl⟩, fun _ => rfl⟩
  | _ => exact absurd rfl hc

/-! ### Two calls -/

/-- Both may be exchanged. -/
def Spec.Call.free (c d : Call) : Prop := c.concern ≠ d.concern ∨ c.concern = .flag

/-- The same effect. -/
structure Similar (positional : Bool) (e e' : Edit D) : Prop where
  slot : e'.slot = e.slot
  help : e'.help = e.help
  version : e'.version = e.version
  dn : e'.dn = e.dn
  dob : e'.dob = e.dob
  flags : ∀ x, x ∈ e'.flags ↔ x ∈ e.flags
  queue : positional = true → e'.queue = e.queue

/-- The second edit made by two calls. -/
def Slot.second (t : Slot D) (known : Str → Bool) (h v : Option Nat) (no : Nat) (c d : Call) : Edit D × Res Unit :=
  let x := t.edit known h v no (c.on t.obj)
  x.1.slot.edit (fun n => known n || decide (n ∈ x.1.flags)) x.1.help x.1.version (no + x.1.dob) (d.on x.1.slot.obj)

theorem dressed_comm {c d : Call} (hf : c.free d) (w : Dress) : d.dressed (c.dressed w) = c.dressed (d.dressed w) := by
  cases c <;> cases d <;> first
    | rfl
    | (unfold Call.free Call.concern at hf; simp at hf; done)
    | skip
  rename_i f g
  show Dress.mk _ _ _ _ _ _ = Dress.mk _ _ _ _ _ _
  congr 1
  show sortNames (sortNames (w.names ++ [f]) ++ [g]) = sortNames (sortNames (w.names ++ [g]) ++ [f])
  refine sortNames_perm ?_
  refine ((stableSort_perm _).append_right _).trans (.trans ?_ ((stableSort_perm _).append_right _).symm)
  simp only [List.append_assoc]
  exact List.Perm.append_left _ (List.Perm.swap _ _ _)


theorem edit_positional (t : Slot D) (known : Str → Bool) (h v : Option Nat) (no : Nat) (c : Call) (ref : Nat) :
    (t.edit known h v no (c.on ref)).1.slot.arg.isPositional = t.arg.isPositional := (edit_names ..).1

/-- A call about the kind, then one about something else – or the other way round. -/
theorem swap_kind (t : Slot D) (known : Str → Bool) (h v : Option Nat) (no : Nat) {c d : Call} (hc : c.concern = .kind)
    (hd : d.concern ≠ .kind) :
    ((t.edit known h v no (c.on t.obj)).2 = .ok () ∧ (t.second known h v no c d).2 = .ok () ↔
      (t.edit known h v no (d.on t.obj)).2 = .ok () ∧ (t.second known h v no d c).2 = .ok ()) ∧
    ((t.edit known h v no (c.on t.obj)).2 = .ok () ∧ (t.second known h v no c d).2 = .ok () →
      Similar t.arg.isPositional ((t.edit known h v no (c.on t.obj)).1.then (t.second known h v no c d).1)
        ((t.edit known h v no (d.on t.obj)).1.then (t.second known h v no d c).1)) := by
  obtain ⟨d1, d2⟩ := dress_edit t known h v no t.obj hd
  obtain ⟨-, -, k3, k4, k5⟩ := kind_edit t t.arg.dress known known h v no t.obj hc
  have pos := edit_positional t known h v no c t.obj
  have allow : ∀ kn : Str → Bool, (∀ f, kn f = known f) → (d.allowed t.arg.isPositional kn ↔ d.allowed t.arg.isPositional known) := by
    intro kn hk
    rw [funext hk]
  unfold Slot.second
  simp only
  -- the call about something else, second
  obtain ⟨e1, e2⟩ := dress_edit (t.edit known h v no (c.on t.obj)).1.slot
    (fun n => known n || decide (n ∈ (t.edit known h v no (c.on t.obj)).1.flags))
    (t.edit known h v no (c.on t.obj)).1.help (t.edit known h v no (c.on t.obj)).1.version
    (no + (t.edit known h v no (c.on t.obj)).1.dob) (t.edit known h v no (c.on t.obj)).1.slot.obj hd
  rw [pos] at e1 e2
  rw [allow _ fun f => by rw [k4]; simp] at e1 e2
  rw [e1, d1]
  -- the call about the kind, second
  have main : ∀ a : d.allowed t.arg.isPositional known,
      ((t.edit known h v no (d.on t.obj)).1.slot.edit
        (fun n => known n || decide (n ∈ (t.edit known h v no (d.on t.obj)).1.flags))
        (t.edit known h v no (d.on t.obj)).1.help (t.edit known h v no (d.on t.obj)).1.version
        (no + (t.edit known h v no (d.on t.obj)).1.dob) (c.on (t.edit known h v no (d.on t.obj)).1.slot.obj)).1 =
      { (t.edit known h v no (c.on t.obj)).1 with
          arg := ((t.edit known h v no (c.on t.obj)).1.arg).wear (d.dressed t.arg.dress) } ∧
      BothOk ((t.edit known h v no (d.on t.obj)).1.slot.edit
        (fun n => known n || decide (n ∈ (t.edit known h v no (d.on t.obj)).1.flags))
        (t.edit known h v no (d.on t.obj)).1.help (t.edit known h v no (d.on t.obj)).1.version
        (no + (t.edit known h v no (d.on t.obj)).1.dob) (c.on (t.edit known h v no (d.on t.obj)).1.slot.obj)).2
        (t.edit known h v no (c.on t.obj)).2 := by
    intro a
    rw [d2 a]
    have := kind_edit t (d.dressed t.arg.dress) known (fun n => known n || decide (n ∈ d.given)) h v no t.obj hc
    exact ⟨this.1, this.2.1⟩
  constructor
  · constructor
    · rintro ⟨c1, c2⟩
      exact ⟨c2, (main c2).2.2 c1⟩
    · rintro ⟨c2, c1⟩
      exact ⟨(main c2).2.1 c1, c2⟩
  · rintro ⟨c1, c2⟩
    rw [(main c2).1, e2 c2, d2 c2]
    have k3' : (t.edit known h v no (c.on t.obj)).1.slot.arg.dress = t.arg.dress := k3
    rw [k3']
    clear main e1 e2 d1 d2 allow pos
    generalize (t.edit known h v no (c.on t.obj)).1 = e at *
    obtain ⟨n, o, a, fl, hh, vv, dn, dob, q⟩ := e
    have k4 : fl = [] := k4
    have k5 : q = id := k5
    subst k4 k5
    refine ⟨rfl, rfl, rfl, ?_, ?_, ?_, fun _ => rfl⟩
    · show 0 + dn = dn + 0
      omega
    · show 0 + dob = dob + 0
      omega
    · intro x
      show x ∈ d.given ++ [] ↔ x ∈ [] ++ d.given
      simp


theorem allowed_swap {c d : Call} {p : Bool} {known : Str → Bool} (h1 : c.allowed p known)
    (h2 : d.allowed p fun n => known n || decide (n ∈ c.given)) :
    d.allowed p known ∧ c.allowed p fun n => known n || decide (n ∈ d.given) := by
  have weak : ∀ {x : Call} {fs : List Str}, x.allowed p (fun n => known n || decide (n ∈ fs)) → x.allowed p known := by
    intro x fs h
    cases x with
    | flag f =>
      obtain ⟨a, b, e⟩ := h
      exact ⟨a, b, (Bool.or_eq_false_iff.1 e).1⟩
    | _ => exact trivial
  refine ⟨weak h2, ?_⟩
  cases c with
  | flag f =>
    obtain ⟨a, b, e⟩ := h1
    refine ⟨a, b, ?_⟩
    show (known f || decide (f ∈ d.given)) = false
    rw [e]
    cases d with
    | flag g =>
      obtain ⟨-, -, e'⟩ := h2
      have := (Bool.or_eq_false_iff.1 e').2
      simp only [Call.given, List.mem_singleton, decide_eq_false_iff_not] at this
      simpa [Call.given] using fun x => this x.symm
    | _ => simp [Call.given]
  | _ => exact trivial

theorem moves_comm {c d : Call} (hf : c.free d) (hcd : c.concern ≠ .flag) (hd : d.concern ≠ .flag) (w : Dress) :
    (fun q => d.moves (c.dressed w) (c.moves w q)) = fun q => c.moves (d.dressed w) (d.moves w q) := by
  cases c <;> cases d <;> first
    | rfl
    | exact absurd rfl hcd
    | exact absurd rfl hd
    | (unfold Call.free Call.concern at hf; simp at hf; done)

theorem swap_dress (t : Slot D) (known : Str → Bool) (h v : Option Nat) (no : Nat) {c d : Call} (hf : c.free d)
    (hc : c.concern ≠ .kind) (hd : d.concern ≠ .kind) (h1 : (t.edit known h v no (c.on t.obj)).2 = .ok ())
    (h2 : (t.second known h v no c d).2 = .ok ()) :
    (t.edit known h v no (d.on t.obj)).2 = .ok () ∧ (t.second known h v no d c).2 = .ok () ∧
      Similar t.arg.isPositional ((t.edit known h v no (c.on t.obj)).1.then (t.second known h v no c d).1)
        ((t.edit known h v no (d.on t.obj)).1.then (t.second known h v no d c).1) := by
  have shape : ∀ {c d : Call}, c.concern ≠ .kind → d.concern ≠ .kind → c.allowed t.arg.isPositional known →
      ((t.second known h v no c d).2 = .ok () ↔
        d.allowed t.arg.isPositional fun n => known n || decide (n ∈ c.given)) ∧
      ((d.allowed t.arg.isPositional fun n => known n || decide (n ∈ c.given)) →
        (t.second known h v no c d).1 = { t.same h v with
          arg := t.arg.wear (d.dressed (c.dressed t.arg.dress)), flags := d.given, queue := d.moves (c.dressed t.arg.dress) }) := by
    intro c d hc hd a
    unfold Slot.second
    simp only
    rw [(dress_edit t known h v no t.obj hc).2 a]
    exact dress_edit (Slot.mk t.node t.obj (t.arg.wear (c.dressed t.arg.dress)))
      (fun n => known n || decide (n ∈ c.given)) h v no t.obj hd
  have a1 := (dress_edit t known h v no t.obj hc).1.1 h1
  have a2 := (shape hc hd a1).1.1 h2
  obtain ⟨b1, b2⟩ := allowed_swap a1 a2
  refine ⟨(dress_edit t known h v no t.obj hd).1.2 b1, (shape hd hc b1).1.2 b2, ?_⟩
  rw [(shape hc hd a1).2 a2, (shape hd hc b1).2 b2, (dress_edit t known h v no t.obj hd).2 b1,
    (dress_edit t known h v no t.obj hc).2 a1]
  refine ⟨?_, rfl, rfl, rfl, rfl, ?_, ?_⟩
  · show Slot.mk t.node t.obj (t.arg.wear (c.dressed (d.dressed t.arg.dress))) =
      Slot.mk t.node t.obj (t.arg.wear (d.dressed (c.dressed t.arg.dress)))
    rw [dressed_comm hf]
  · intro x
    show x ∈ d.given ++ c.given ↔ x ∈ c.given ++ d.given
    rw [List.mem_append, List.mem_append]
    exact Or.comm
  · intro hp
    rw [hp] at a1 b1
    show (fun q => c.moves (d.dressed t.arg.dress) (d.moves t.arg.dress q)) =
      fun q => d.moves (c.dressed t.arg.dress) (c.moves t.arg.dress q)
    refine (moves_comm hf ?_ ?_ _).symm
    · intro e
      cases c with
      | flag f => cases a1.1
      | _ => cases e
    · intro e
      cases d with
      | flag f => cases b1.1
      | _ => cases e

theorem swap_two (t : Slot D) (known : Str → Bool) (h v : Option Nat) (no : Nat) {c d : Call} (hf : c.free d)
    (h1 : (t.edit known h v no (c.on t.obj)).2 = .ok ()) (h2 : (t.second known h v no c d).2 = .ok ()) :
    (t.edit known h v no (d.on t.obj)).2 = .ok () ∧ (t.second known h v no d c).2 = .ok () ∧
      Similar t.arg.isPositional ((t.edit known h v no (c.on t.obj)).1.then (t.second known h v no c d).1)
        ((t.edit known h v no (d.on t.obj)).1.then (t.second known h v no d c).1) := by
  by_cases hc : c.concern = .kind
  · have hd : d.concern ≠ .kind := by
      intro e
      rcases hf with k | k
      · exact k (hc.trans e.symm)
      · rw [hc] at k; cases k
    obtain ⟨k1, k2⟩ := swap_kind t known h v no hc hd
    have := k1.1 ⟨h1, h2⟩
    exact ⟨this.1, this.2, k2 ⟨h1, h2⟩⟩
  · by_cases hd : d.concern = .kind
    · obtain ⟨k1, k2⟩ := swap_kind t known h v no hd hc
      have := k1.2 ⟨h1, h2⟩
      have k := k2 this
      exact ⟨this.1, this.2, ⟨k.slot.symm, k.help.symm, k.version.symm, k.dn.symm, k.dob.symm, fun x => (k.flags x).symm,
        fun p => (k.queue p).symm⟩⟩
    · exact swap_dress t known h v no hf hc hd h1 h2

/-! ### Any number of calls -/

theorem run_cons (t : Slot D) (known : Str → Bool) (h v : Option Nat) (no : Nat) (c : Call) (cs : List Call) :
    t.run known h v no (c :: cs) =
      if (t.edit known h v no (c.on t.obj)).2 = .ok () then
        (Slot.run (t.edit known h v no (c.on t.obj)).1.slot
          (fun n => known n || decide (n ∈ (t.edit known h v no (c.on t.obj)).1.flags))
          (t.edit known h v no (c.on t.obj)).1.help (t.edit known h v no (c.on t.obj)).1.version
          (no + (t.edit known h v no (c.on t.obj)).1.dob) cs).map (t.edit known h v no (c.on t.obj)).1.then
      else none := rfl

theorem run_two (t : Slot D) (known : Str → Bool) (h v : Option Nat) (no : Nat) (c d : Call) (cs : List Call) :
    t.run known h v no (c :: d :: cs) =
      if (t.edit known h v no (c.on t.obj)).2 = .ok () ∧ (t.second known h v no c d).2 = .ok () then
        (Slot.run ((t.edit known h v no (c.on t.obj)).1.then (t.second known h v no c d).1).slot
          (fun n => known n || decide (n ∈ ((t.edit known h v no (c.on t.obj)).1.then (t.second known h v no c d).1).flags))
          ((t.edit known h v no (c.on t.obj)).1.then (t.second known h v no c d).1).help
          ((t.edit known h v no (c.on t.obj)).1.then (t.second known h v no c d).1).version
          (no + ((t.edit known h v no (c.on t.obj)).1.then (t.second known h v no c d).1).dob) cs).map
          ((t.edit known h v no (c.on t.obj)).1.then (t.second known h v no c d).1).then
      else none := by
  rw [run_cons, run_cons]
  rw [show Slot.edit (t.edit known h v no (c.on t.obj)).1.slot
          (fun n => known n || decide (n ∈ (t.edit known h v no (c.on t.obj)).1.flags))
          (t.edit known h v no (c.on t.obj)).1.help (t.edit known h v no (c.on t.obj)).1.version
          (no + (t.edit known h v no (c.on t.obj)).1.dob) (d.on (t.edit known h v no (c.on t.obj)).1.slot.obj) =
        t.second known h v no c d from rfl]
  generalize t.second known h v no c d = y
  generalize t.edit known h v no (c.on t.obj) = x
  by_cases c1 : x.2 = .ok ()
  · by_cases c2 : y.2 = .ok ()
    · rw [if_pos c1, if_pos c2, if_pos ⟨c1, c2⟩]
      have e1 : (x.1.then y.1).slot = y.1.slot := rfl
      have e2 : (fun n => (fun n => known n || decide (n ∈ x.1.flags)) n || decide (n ∈ y.1.flags)) =
          fun n => known n || decide (n ∈ (x.1.then y.1).flags) := by
        funext n
        show (known n || decide (n ∈ x.1.flags) || decide (n ∈ y.1.flags)) = (known n || decide (n ∈ x.1.flags ++ y.1.flags))
        cases known n <;> by_cases a : n ∈ x.1.flags <;> by_cases b : n ∈ y.1.flags <;> simp [a, b]
      rw [e1, e2, show (x.1.then y.1).help = y.1.help from rfl, show (x.1.then y.1).version = y.1.version from rfl,
        show no + (x.1.then y.1).dob = no + x.1.dob + y.1.dob from (Nat.add_assoc ..).symm, Option.map_map]
      congr 1
      funext f
      show x.1.then (y.1.then f) = (x.1.then y.1).then f
      unfold Edit.then
      simp only [List.append_assoc, Nat.add_assoc]
    · rw [if_pos c1, if_neg c2, if_neg fun h => c2 h.2]; rfl
  · rw [if_neg c1, if_neg fun h => c1 h.1]

theorem Similar.then {p : Bool} {e e' f : Edit D} (h : Similar p e e') : Similar p (e.then f) (e'.then f) where
  slot := rfl
  help := rfl
  version := rfl
  dn := by show e'.dn + _ = e.dn + _; rw [h.dn]
  dob := by show e'.dob + _ = e.dob + _; rw [h.dob]
  flags x := by
    show x ∈ e'.flags ++ f.flags ↔ x ∈ e.flags ++ f.flags
    rw [List.mem_append, List.mem_append, h.flags]
  queue hp := by show (fun q => f.queue (e'.queue q)) = fun q => f.queue (e.queue q); rw [h.queue hp]

theorem Similar.after {p : Bool} {e f f' : Edit D} (h : Similar p f f') : Similar p (e.then f) (e.then f') where
  slot := h.slot
  help := h.help
  version := h.version
  dn := by show _ + f'.dn = _ + f.dn; rw [h.dn]
  dob := by show _ + f'.dob = _ + f.dob; rw [h.dob]
  flags x := by
    show x ∈ e.flags ++ f'.flags ↔ x ∈ e.flags ++ f.flags
    rw [List.mem_append, List.mem_append, h.flags]
  queue hp := by show (fun q => f'.queue (e.queue q)) = fun q => f.queue (e.queue q); rw [h.queue hp]

theorem Similar.refl (p : Bool) (e : Edit D) : Similar p e e := ⟨rfl, rfl, rfl, rfl, rfl, fun _ => Iff.rfl, fun _ => rfl⟩

theorem Similar.trans {p : Bool} {e f g : Edit D} (h : Similar p e f) (h' : Similar p f g) : Similar p e g :=
  ⟨h'.slot.trans h.slot, h'.help.trans h.help, h'.version.trans h.version, h'.dn.trans h.dn, h'.dob.trans h.dob,
    fun x => (h'.flags x).trans (h.flags x), fun q => (h'.queue q).trans (h.queue q)⟩

/-- Whenever the first calls succeed, the second do, with the same effect. -/
def Serves (D : Type) (cs cs' : List Call) : Prop :=
  ∀ (t : Slot D) known h v no e, t.run known h v no cs = some e →
    ∃ e', t.run known h v no cs' = some e' ∧ Similar t.arg.isPositional e e'

theorem Serves.refl (cs : List Call) : Serves D cs cs := fun _ _ _ _ _ e h => ⟨e, h, .refl _ _⟩

theorem Serves.trans {as bs cs : List Call} (h : Serves D as bs) (h' : Serves D bs cs) : Serves D as cs := by
  intro t known hh v no e he
  obtain ⟨e', he', s⟩ := h t known hh v no e he
  obtain ⟨e2, he2, s2⟩ := h' t known hh v no e' he'
  exact ⟨e2, he2, s.trans s2⟩

theorem Serves.cons {as bs : List Call} (c : Call) (h : Serves D as bs) : Serves D (c :: as) (c :: bs) := by
  intro t known hh v no e he
  rw [run_cons] at he ⊢
  have hp := edit_positional t known hh v no c t.obj
  split at he
  · rename_i hok
    rw [if_pos hok]
    obtain ⟨f, hf, rfl⟩ := Option.map_eq_some_iff.1 he
    obtain ⟨f', hf', s⟩ := h _ _ _ _ _ f hf
    rw [hp] at s
    refine ⟨_, by rw [hf']; rfl, s.after⟩
  · cases he

theorem Serves.swap {c d : Call} (hf : c.free d) (cs : List Call) : Serves D (c :: d :: cs) (d :: c :: cs) := by
  intro t known hh v no e he
  rw [run_two] at he ⊢
  split at he
  · rename_i hok
    obtain ⟨k1, k2, s⟩ := swap_two t known hh v no hf hok.1 hok.2
    rw [if_pos ⟨k1, k2⟩]
    generalize (t.edit known hh v no (c.on t.obj)).1.then (t.second known hh v no c d).1 = x at *
    generalize (t.edit known hh v no (d.on t.obj)).1.then (t.second known hh v no d c).1 = y at *
    have e2 : (fun n => known n || decide (n ∈ y.flags)) = fun n => known n || decide (n ∈ x.flags) := by
      funext n
      rw [decide_eq_decide.2 (s.flags n)]
    rw [s.slot, s.help, s.version, s.dob, e2]
    obtain ⟨f, hf, rfl⟩ := Option.map_eq_some_iff.1 he
    exact ⟨_, by rw [hf]; rfl, s.then⟩
  · cases he

theorem Serves.front {c : Call} : ∀ {pre post : List Call}, (∀ x ∈ pre, c.free x) →
    Serves D (c :: (pre ++ post)) (pre ++ c :: post)
  | [], _, _ => .refl _
  | x :: pre, post, h =>
    (Serves.swap (h x (by simp)) _).trans (.cons x (Serves.front fun y hy => h y (by simp [hy])))

theorem Serves.any : ∀ {cs cs' : List Call}, Rearranged cs cs' → Serves D cs cs'
  | [], cs', h => by
    obtain rfl := h.perm.nil_eq
    exact .refl _
  | c :: cs, cs', h => by
    have key : ∃ pre post, cs' = pre ++ c :: post ∧ (∀ x ∈ pre, c.free x) := by
      by_cases hc : c.concern = .flag
      · obtain ⟨pre, post, e⟩ := List.append_of_mem (h.perm.mem_iff.1 (List.mem_cons_self (a := c) (l := cs)))
        exact ⟨pre, post, e, fun x _ => .inr hc⟩
      · have := h.order _ hc
        rw [List.filter_cons_of_pos (by simp)] at this
        obtain ⟨pre, post, e, h1, h2, h3⟩ := List.filter_eq_cons_iff.1 this
        refine ⟨pre, post, e, fun x hx => .inl fun e' => ?_⟩
        exact h1 x hx (by simp [e'])
    obtain ⟨pre, post, rfl, hpre⟩ := key
    refine (Serves.cons c (Serves.any (cs' := pre ++ post) ⟨?_, ?_⟩)).trans (Serves.front hpre)
    · exact (h.perm.trans List.perm_middle).cons_inv
    · intro k hk
      have := h.order k hk
      rw [List.filter_append] at this ⊢
      by_cases e : c.concern = k
      · rw [List.filter_cons_of_pos (by simp [e]), List.filter_cons_of_pos (by simp [e])] at this
        have hnil : pre.filter (·.concern = k) = [] := by
          rw [List.filter_eq_nil_iff]
          intro x hx
          rcases hpre x hx with f | f
          · simpa using fun e' => f (e.trans e'.symm)
          · exact absurd (e.symm.trans f) hk
        rw [hnil] at this ⊢
        exact (List.cons.inj this).2
      · rw [List.filter_cons_of_neg (by simp [e]), List.filter_cons_of_neg (by simp [e])] at this
        exact this


/-! ### The two parsers -/

theorem similar_states {st s s' : State D} {e e' : Edit D} (hi : Inv s) (hi' : Inv s') (ow : Owned s)
    (h : Edited st e s) (h' : Edited st e' s') {p : Bool} (sim : Similar p e e')
    (hq : e'.queue (positionals st true, positionals st false) = e.queue (positionals st true, positionals st false)) :
    Renamed Ren.refl s s' := by
  have hn : e'.node = e.node := congrArg Slot.node sim.slot
  have hfix : (Ren.refl.slot : Slot D → Slot D) = id := rfl
  have args : s.arguments = s'.arguments := by
    refine list_determined hi.sorted hi'.sorted (nodup_of_map hi.nodes) (nodup_of_map hi'.nodes) ?_ ?_ ?_
    · intro x
      rw [h.mem, h'.mem, sim.slot, hn]
    · intro x hx y hy e0
      have front : ∀ z ∈ s.arguments, z.arg.front ∈ z.arg.names := fun z hz => front_mem (hi.forms z hz).ne_nil
      have a1 := ow.own x hx _ (front x hx)
      have a2 := ow.own y hy _ (front y hy)
      rw [e0, a2] at a1
      rw [eq_of_node hi hy hx (Option.some.inj a1).symm]
    · intro b
      rw [← positionals_eq, ← positionals_eq]
      have := h'.queue
      rw [hq, ← h.queue] at this
      cases b with
      | true => exact (congrArg Prod.fst this).symm
      | false => exact (congrArg Prod.snd this).symm
  refine ⟨?_, ?_, hi.keys, hi'.keys, ?_, ?_, ?_, ?_, ?_, fun h => h.elim⟩
  · rw [hfix, List.map_id, args]
  · intro x
    show _ = (lookupName s.byName x).map id
    rw [Option.map_id, id, h.look, h'.look, hn]
    simp only [sim.flags x]
  · show _ = s.helpOption.map id
    rw [Option.map_id, id, h.help, h'.help, sim.help]
  · show _ = s.versionOption.map id
    rw [Option.map_id, id, h.version, h'.version, sim.version]
  · intro k _
    show s.nextNode + k = _
    rw [h.node, h'.node, sim.dn]
  · intro k _
    show s.nextObj + k = _
    rw [h.obj, h'.obj, sim.dob]
  · rw [h.plain, h'.plain]

theorem through_rearranged {scan : Str → Option D} {st : State D} (hr : ReachableBy scan CleanAdds st) {ref : Nat}
    (hl : st.atObj ref ≠ none) {cs cs' : List Call} (ha : Rearranged cs cs')
    (hs : Succeeds scan st (chained ref st.nextObj cs)) :
    Succeeds scan st (chained ref st.nextObj cs') ∧
    Renamed Ren.refl (Spec.after scan st (chained ref st.nextObj cs)) (Spec.after scan st (chained ref st.nextObj cs')) := by
  cases ht : st.atObj ref with
  | none => exact absurd ht hl
  | some t =>
    have inv := hr.reachable.inv
    have hm := (State.atObj_some ht).1
    have k1 := run_spec hr ht cs
    have k2 := run_spec hr ht cs'
    cases he : t.run st.argumentExists st.helpOption st.versionOption st.nextObj cs with
    | none => rw [he] at k1; exact absurd hs k1
    | some e =>
      rw [he] at k1
      obtain ⟨-, ed, hr1⟩ := k1
      obtain ⟨e', he', sim⟩ := Serves.any ha t _ _ _ _ e he
      rw [he'] at k2
      obtain ⟨hs', ed', hr2⟩ := k2
      refine ⟨hs', similar_states hr1.reachable.inv hr2.reachable.inv hr1.owned ed ed' sim ?_⟩
      cases hp : t.arg.isPositional with
      | true => rw [sim.queue hp]
      | false =>
        have forms : t.arg.isPositional = false → t.arg.names ≠ [] ∧ ∀ f ∈ t.arg.names, FlagForm f :=
          fun hp => (inv.forms t hm).option hp
        have und : ∀ x, x ∈ (positionals st true, positionals st false).1 ∨ x ∈ (positionals st true, positionals st false).2 →
            x.head? ≠ some '-' := by
          rintro x (hx | hx)
          · exact positionals_undashed inv true hx
          · exact positionals_undashed inv false hx
        rw [run_queue he (fun h => by rw [hp] at h; cases h) forms _ und,
          run_queue he' (fun h => by rw [hp] at h; cases h) forms _ und]

end BletArgs
