import Verif.Lemmas.Rename
import Verif.Lemmas.Pointers
import Verif.Props.Listing
import Verif.Props.Registry2
/-
Calls that concern different arguments commute, up to the addresses.
-/
namespace BletArgs
open Spec
variable {D : Type}

/-! ### A state is determined by its arguments -/

theorem eq_of_map_front {α β : Type} (f : α → β) :
    ∀ {l l' : List α}, l.map f = l'.map f → (∀ x ∈ l, ∀ y ∈ l', f x = f y → x = y) → l = l'
  | [], [], _, _ => rfl
  | [], _ :: _, h, _ => by simp at h
  | _ :: _, [], h, _ => by simp at h
  | a :: l, b :: l', h, hi => by
    rw [List.map_cons, List.map_cons] at h
    injection h with h1 h2
    have e := hi a (by simp) b (by simp) h1
    rw [e, eq_of_map_front f h2 fun x hx y hy => hi x (by simp [hx]) y (by simp [hy])]

theorem eq_of_small {α : Type} {l l' : List α} (hn : l.Nodup) (hn' : l'.Nodup) (hm : ∀ x, x ∈ l ↔ x ∈ l')
    (hs : ∀ x ∈ l, ∀ y ∈ l, x = y) : l = l' := by
  have small : ∀ {l : List α}, l.Nodup → (∀ x ∈ l, ∀ y ∈ l, x = y) → l = [] ∨ ∃ x, l = [x] := by
    intro l hn hs
    match l with
    | [] => exact .inl rfl
    | [x] => exact .inr ⟨x, rfl⟩
    | x :: y :: l =>
      exfalso
      have e := hs x (by simp) y (by simp)
      subst e
      simp at hn
  have hs' : ∀ x ∈ l', ∀ y ∈ l', x = y := fun x hx y hy => hs x ((hm x).2 hx) y ((hm y).2 hy)
  rcases small hn hs with rfl | ⟨x, rfl⟩
  · rcases small hn' hs' with rfl | ⟨y, rfl⟩
    · rfl
    · exact absurd ((hm y).2 (by simp)) (by simp)
  · rcases small hn' hs' with rfl | ⟨y, rfl⟩
    · exact absurd ((hm x).1 (by simp)) (by simp)
    · have := (hm x).1 (by simp)
      rw [List.mem_singleton] at this
      rw [this]

/-- Two sorted lists of arguments with the same members and the same queues of positionals. -/
theorem list_determined {l l' : List (Slot D)} (hs : SortedBy slotLt l) (hs' : SortedBy slotLt l') (hn : l.Nodup)
    (hn' : l'.Nodup) (hm : ∀ x, x ∈ l ↔ x ∈ l') (hf : ∀ x ∈ l, ∀ y ∈ l, x.arg.front = y.arg.front → x = y)
    (hq : ∀ r, queue r l = queue r l') : l = l' := by
  refine sorted_unique slotLt_strictWeak l l' hs hs' fun x => ?_
  cases hp : x.arg.isPositional with
  | true =>
    have e : equivTo slotLt x = inClass (D := D) x.arg.isRequired := by
      funext y
      unfold equivTo slotLt inClass
      rw [compareOption_eq, compareOption_eq, hp]
      cases y.arg.isPositional <;> cases x.arg.isRequired <;> cases y.arg.isRequired <;> simp [rank]
    rw [e]
    refine eq_of_map_front (fun s : Slot D => s.arg.front) (hq _) ?_
    intro a ha b hb e
    exact hf a (List.mem_filter.1 ha).1 b ((hm b).2 (List.mem_filter.1 hb).1) e
  | false =>
    have key : ∀ y, equivTo slotLt x y = true → x.arg.front = y.arg.front := by
      intro y h
      unfold equivTo slotLt at h
      rw [compareOption_eq, compareOption_eq, hp] at h
      cases hpy : y.arg.isPositional with
      | true =>
        exfalso
        rw [hpy] at h
        cases hr : x.arg.isRequired <;> cases hr' : y.arg.isRequired <;> simp [rank, hr, hr'] at h
      | false =>
        rw [hpy] at h
        rcases compareFlag_total x.arg.front y.arg.front with c | c | c
        · exfalso
          cases hr : x.arg.isRequired <;> cases hr' : y.arg.isRequired <;> simp [rank, hr, hr', c] at h
        · exact c
        · exfalso
          cases hr : x.arg.isRequired <;> cases hr' : y.arg.isRequired <;> simp [rank, hr, hr', c] at h
    refine eq_of_small (hn.filter _) (hn'.filter _) ?_ ?_
    · intro y
      rw [List.mem_filter, List.mem_filter, hm]
    · intro a ha b hb
      rw [List.mem_filter] at ha hb
      exact hf a ha.1 b hb.1 ((key a ha.2).symm.trans (key b hb.2))

/-! ### What a call does to one argument -/

/-- One argument replaced (or added), some names registered. -/
structure Edit (D : Type) where
  node : Nat
  obj : Nat
  arg : Argument D
  flags : List Str
  help : Option Nat
  version : Option Nat
  dn : Nat
  dob : Nat
  queue : List Str × List Str → List Str × List Str

def Edit.slot (e : Edit D) : Slot D := ⟨e.node, e.obj, e.arg⟩

structure Edited (st : State D) (e : Edit D) (st' : State D) : Prop where
  mem : ∀ x, x ∈ st'.arguments ↔ x = e.slot ∨ (x ∈ st.arguments ∧ x.node ≠ e.node)
  look : ∀ x, lookupName st'.byName x = (lookupName st.byName x).or (if x ∈ e.flags then some e.node else none)
  help : st'.helpOption = e.help
  version : st'.versionOption = e.version
  node : st'.nextNode = st.nextNode + e.dn
  obj : st'.nextObj = st.nextObj + e.dob
  plain : st'.plain = st.plain
  queue : (positionals st' true, positionals st' false) = e.queue (positionals st true, positionals st false)

theorem nodup_of_map {α β : Type} {f : α → β} {l : List α} (h : (l.map f).Nodup) : l.Nodup := by
  induction l with
  | nil => exact List.nodup_nil
  | cons a l ih =>
    rw [List.map_cons, List.nodup_cons] at h
    rw [List.nodup_cons]
    exact ⟨fun ha => h.1 (List.mem_map.2 ⟨a, ha, rfl⟩), ih h.2⟩

/-- Two edits, in one order and in the other. -/
theorem edits_commute {r : Ren} {st s1 s12 s2 s21 : State D} {e1 e2' e2 e1' : Edit D} (hi : Inv st)
    (h1 : Edited st e1 s1) (h2' : Edited s1 e2' s12) (h2 : Edited st e2 s2) (h1' : Edited s2 e1' s21)
    (fixn : ∀ k, k < st.nextNode → r.n k = k) (fixo : ∀ k, k < st.nextObj → r.o k = k)
    (hn : ∀ k, r.n (s12.nextNode + k) = s12.nextNode + k) (ho : ∀ k, r.o (s12.nextObj + k) = s12.nextObj + k)
    (c1 : e1'.slot = r.slot e1.slot) (c2 : e2.slot = r.slot e2'.slot)
    (d1 : e1'.dn = e1.dn ∧ e1'.dob = e1.dob) (d2 : e2'.dn = e2.dn ∧ e2'.dob = e2.dob)
    (f1 : e1'.flags = e1.flags) (f2 : e2'.flags = e2.flags) (ne : e1.node ≠ e2'.node)
    (dis : ∀ x ∈ e1.flags, x ∉ e2.flags)
    (hh : s21.helpOption = s12.helpOption.map r.o) (hv : s21.versionOption = s12.versionOption.map r.o)
    (hi12 : Inv s12) (hi21 : Inv s21) (ow : Owned s12)
    (comm : e1'.queue (e2.queue (positionals st true, positionals st false)) =
      e2'.queue (e1.queue (positionals st true, positionals st false))) : Renamed r s12 s21 := by
  have hq : ∀ b, queue b s12.arguments = queue b s21.arguments := by
    have a1 := h2'.queue
    have a2 := h1'.queue
    rw [h1.queue] at a1
    rw [h2.queue, comm, ← a1] at a2
    intro b
    rw [← positionals_eq, ← positionals_eq]
    cases b with
    | true => exact (congrArg Prod.fst a2).symm
    | false => exact (congrArg Prod.snd a2).symm
  have m1 : e1'.node = r.n e1.node := congrArg Slot.node c1
  have m2 : e2.node = r.n e2'.node := congrArg Slot.node c2
  have ne' : r.n e1.node ≠ r.n e2'.node := fun e => ne (r.ninj _ _ e)
  have fixs : ∀ x ∈ st.arguments, r.slot x = x := by
    intro x hx
    unfold Ren.slot
    rw [fixn _ (hi.nodesLt x hx), fixo _ (hi.objsLt x hx)]
  have inj : ∀ x y : Slot D, r.slot x = r.slot y → x = y := by
    intro x y e
    have a1 := r.ninj _ _ (congrArg Slot.node e)
    have a2 := r.oinj _ _ (congrArg Slot.obj e)
    have a3 : (r.slot x).arg = (r.slot y).arg := congrArg Slot.arg e
    have a3 : x.arg = y.arg := a3
    cases x; cases y; simp_all
  have fixback : ∀ (k : Nat) (x : Slot D), x ∈ st.arguments → (x.node ≠ k ↔ x.node ≠ r.n k) := by
    intro k x hx
    have := fixn _ (hi.nodesLt x hx)
    constructor
    · intro h e
      exact h (r.ninj _ _ (this.trans e))
    · rintro h rfl
      exact h this.symm
  have hm : ∀ x, x ∈ s12.arguments.map r.slot ↔ x ∈ s21.arguments := by
    intro x
    rw [h1'.mem, h2.mem, List.mem_map]
    have key : ∀ y, y ∈ s12.arguments ↔ y = e2'.slot ∨ (y = e1.slot ∨ y ∈ st.arguments ∧ y.node ≠ e1.node) ∧ y.node ≠ e2'.node := by
      intro y; rw [h2'.mem, h1.mem]
    constructor
    · rintro ⟨y, hy, rfl⟩
      rcases (key y).1 hy with rfl | ⟨rfl | ⟨hy, hn1⟩, hn2⟩
      · right
        rw [m1, ← c2]
        refine ⟨.inl rfl, ?_⟩
        rw [show e2.slot.node = e2.node from rfl, m2]
        exact fun e => ne' e.symm
      · left; exact c1.symm
      · rw [fixs y hy, m1, m2]
        exact .inr ⟨.inr ⟨hy, (fixback _ y hy).1 hn2⟩, (fixback _ y hy).1 hn1⟩
    · rintro (rfl | ⟨rfl | ⟨hx, hn2⟩, hn1⟩)
      · exact ⟨e1.slot, (key _).2 (.inr ⟨.inl rfl, ne⟩), c1.symm⟩
      · exact ⟨e2'.slot, (key _).2 (.inl rfl), c2.symm⟩
      · rw [m1] at hn1
        rw [m2] at hn2
        exact ⟨x, (key x).2 (.inr ⟨.inr ⟨hx, (fixback _ x hx).2 hn1⟩, (fixback _ x hx).2 hn2⟩), fixs x hx⟩
  have sortr : SortedBy slotLt (s12.arguments.map r.slot) := by
    unfold SortedBy
    rw [List.pairwise_map]
    exact hi12.sorted
  have args : s12.arguments.map r.slot = s21.arguments := by
    refine list_determined sortr hi21.sorted ?_ (nodup_of_map hi21.nodes) hm ?_ ?_
    · have h := nodup_of_map hi12.nodes
      exact h.map _ fun x y hne e => hne (inj x y e)
    · intro x hx y hy e
      obtain ⟨x, hx', rfl⟩ := List.mem_map.1 hx
      obtain ⟨y, hy', rfl⟩ := List.mem_map.1 hy
      replace hx := hx'
      replace hy := hy'
      have e : x.arg.front = y.arg.front := e
      have front : ∀ z ∈ s12.arguments, z.arg.front ∈ z.arg.names := by
        intro z hz
        have := (hi12.forms z hz).ne_nil
        unfold Argument.front
        cases h : z.arg.names with
        | nil => exact absurd h this
        | cons n ns => simp
      have a1 := ow.own x hx _ (front x hx)
      have a2 := ow.own y hy _ (front y hy)
      rw [e, a2] at a1
      rw [eq_of_node hi12 hy hx (Option.some.inj a1).symm]
    · intro b
      rw [← hq b]
      refine queue_map b _ _ fun s _ => ⟨rfl, fun _ => rfl⟩
  refine ⟨args.symm, ?_, hi12.keys, hi21.keys, hh, hv, ?_, ?_, ?_, fun h => h.elim⟩
  · intro x
    rw [h1'.look, h2.look, h2'.look, h1.look, f1, f2, m1, m2]
    cases hl : lookupName st.byName x with
    | some k =>
      have : k < st.nextNode := by
        obtain ⟨s, hs, e, _⟩ := hi.entries _ (lookupName_mem hl)
        have e : s.node = k := e
        exact e ▸ hi.nodesLt s hs
      simp [fixn k this]
    | none =>
      by_cases i1 : x ∈ e1.flags
      · simp [i1, dis x i1]
      · by_cases i2 : x ∈ e2.flags <;> simp [i1, i2]
  · intro k
    rw [hn, h1'.node, h2.node, h2'.node, h1.node, d1.1, d2.1]
    omega
  · intro k
    rw [ho, h1'.obj, h2.obj, h2'.obj, h1.obj, d1.2, d2.2]
    omega
  · rw [h1'.plain, h2.plain, h2'.plain, h1.plain]

/-! ### The calls made through a reference -/

/-- What `retype` returns. -/
def Argument.retypeRes (self : Nat) (h v : Option Nat) (a : Argument D) : Res Unit :=
  if (a.typeConstructor self h v).2.2.2 = .ok () then (a.typeConstructor self h v).1.defaultsConstructor.2
  else (a.typeConstructor self h v).2.2.2

def Slot.same (t : Slot D) (h v : Option Nat) : Edit D := ⟨t.node, t.obj, t.arg, [], h, v, 0, 0, id⟩

def Slot.typed (t : Slot D) (h v : Option Nat) (a : Argument D) : Edit D × Res Unit :=
  (⟨t.node, t.obj, a.retyped t.obj h v, [], (a.typeConstructor t.obj h v).2.1, (a.typeConstructor t.obj h v).2.2.1, 0, 0, id⟩,
    a.retypeRes t.obj h v)

def Slot.flagEdit (t : Slot D) (known : Str → Bool) (h v : Option Nat) (f : Str) : Edit D × Res Unit :=
  if t.arg.isPositional then (t.same h v, .throw ⟨.argument, f, "can't add flag in positionnal argument".toList⟩)
  else
    match validFormatFlag f with
    | some msg => (t.same h v, .throw ⟨.argument, f, msg⟩)
    | none =>
      if known f then (t.same h v, .throw ⟨.argument, f, "invalid flag already exist".toList⟩)
      else ({ t.same h v with arg := { t.arg with names := sortNames (t.arg.names ++ [f]) }, flags := [f] }, .ok ())

/-- What a call made through a reference to the object of `t` does. -/
def Slot.edit (t : Slot D) (known : Str → Bool) (h v : Option Nat) (no : Nat) : Op → Edit D × Res Unit
  | .flag _ f => t.flagEdit known h v f
  | .action _ act =>
    t.typed (if t.arg.action == .help then none else h) (if t.arg.action == .version then none else v)
      { t.arg with action := act }
  | .nargs _ n => t.typed h v { t.arg with nargs := n }
  | .defaults _ ds =>
    ({ t.same h v with arg := ({ t.arg with defaults := ds } : Argument D).defaultsConstructor.1 },
      ({ t.arg with defaults := ds } : Argument D).defaultsConstructor.2)
  | .required _ b =>
    ({ t.same h v with
        arg := { t.arg with isRequired := b }
        queue := fun q =>
          if b = true ∧ t.arg.front ∈ q.2 then (q.1 ++ [t.arg.front], q.2.erase t.arg.front)
          else if b = false ∧ t.arg.front ∈ q.1 then (q.1.erase t.arg.front, t.arg.front :: q.2)
          else q }, .ok ())
  | .help _ x => ({ t.same h v with arg := { t.arg with help := x } }, .ok ())
  | .metavar _ x => ({ t.same h v with arg := { t.arg with metavar := x } }, .ok ())
  | .behave _ c r => ({ t.same h v with arg := t.arg.behaving c r }, .ok ())
  | .valid _ vd d => ({ t.same h v with arg := { t.arg with valid := vd, validDeletable := d } }, .ok ())
  | .dest _ d => ({ t.same h v with obj := no, arg := { t.arg with defaults := [], dest := some d }, dob := 1 }, .ok ())
  | _ => (t.same h v, .ok ())

theorem mem_replaced {st : State D} (hi : Inv st) {t : Slot D} (ht : t ∈ st.arguments) (g : Slot D → Slot D) (x : Slot D) :
    (x ∈ st.arguments.map fun s => if s.node == t.node then g s else s) ↔ x = g t ∨ (x ∈ st.arguments ∧ x.node ≠ t.node) := by
  rw [List.mem_map]
  constructor
  · rintro ⟨s, hs, rfl⟩
    by_cases e : s.node = t.node
    · obtain rfl := eq_of_node hi ht hs e
      left; simp
    · right; simp [e, hs]
  · rintro (rfl | ⟨hx, hne⟩)
    · exact ⟨t, ht, by simp⟩
    · exact ⟨x, hx, by simp [hne]⟩

theorem retype_result (st : State D) (s : Slot D) (a : Argument D) :
    (st.retype s a).2 = a.retypeRes s.obj st.helpOption st.versionOption := by
  unfold State.retype Argument.retypeRes
  generalize a.typeConstructor s.obj st.helpOption st.versionOption = r
  obtain ⟨a1, h, v, r⟩ := r
  cases r with
  | ok u => simp only [if_true]
  | _ => simp only [reduceCtorEq, if_false]

theorem or_none_iff (o : Option Nat) (x : Str) (k : Nat) : o = o.or (if x ∈ ([] : List Str) then some k else none) := by
  simp

theorem edit_step {scan : Str → Option D} {st : State D} (hrs : Reachable scan st) (op : Op) {ref : Nat} (hr : op.ref = some ref)
    (hne : ∀ r items, op ≠ .edit r items)
    {t : Slot D} (h : st.atObj ref = some t) :
    Edited st (t.edit st.argumentExists st.helpOption st.versionOption st.nextObj op).1 (step scan st op).1 ∧
    (step scan st op).2 = (t.edit st.argumentExists st.helpOption st.versionOption st.nextObj op).2 := by
  have hi := hrs.inv
  have ht := (State.atObj_some h).1
  have hg : (step scan st op).2.goesOn = true := by
    rcases call_outcome (scan := scan) hi op (by rintro argv rfl; cases hr) with hg | ⟨_, ⟨r, e1, e2⟩ | ⟨ns, rfl, _⟩⟩
    · exact hg
    · rw [hr] at e1
      cases e1
      rw [h] at e2
      cases e2
    · cases hr
  have hq := C11_positional_queues hrs op hg
  have same : Edited st (t.same st.helpOption st.versionOption) st := by
    refine ⟨?_, fun _ => or_none_iff _ _ _, rfl, rfl, rfl, rfl, rfl, rfl⟩
    intro x
    constructor
    · intro hx
      by_cases e : x.node = t.node
      · exact .inl (eq_of_node hi ht hx e)
      · exact .inr ⟨hx, e⟩
    · rintro (rfl | hx)
      · exact ht
      · exact hx.1
  have typed : ∀ (u : State D) (a : Argument D), u.arguments = st.arguments → u.byName = st.byName →
      u.nextNode = st.nextNode → u.nextObj = st.nextObj → u.plain = st.plain →
      (positionals (u.retype t a).1 true, positionals (u.retype t a).1 false) = (positionals st true, positionals st false) →
      Edited st (t.typed u.helpOption u.versionOption a).1 (u.retype t a).1 ∧
        (u.retype t a).2 = (t.typed u.helpOption u.versionOption a).2 := by
    intro u a e1 e2 e3 e4 e5 hq
    refine ⟨?_, retype_result u t a⟩
    rw [retype_eq] at hq ⊢
    refine ⟨?_, ?_, rfl, rfl, e3, e4, e5, hq⟩
    · intro x
      simp only
      rw [e1]
      exact mem_replaced hi ht _ x
    · intro x
      simp only [e2]
      exact or_none_iff _ _ _
  have modn : ∀ a : Argument D,
      (positionals (st.modNode t.node fun _ => a) true, positionals (st.modNode t.node fun _ => a) false) =
        (positionals st true, positionals st false) →
      Edited st { t.same st.helpOption st.versionOption with arg := a } (st.modNode t.node fun _ => a) := by
    intro a hq
    exact ⟨mem_replaced hi ht _, fun _ => or_none_iff _ _ _, rfl, rfl, rfl, rfl, rfl, hq⟩
  cases op with
  | flag r f =>
    cases hr
    have ho := flag_outcome hi h f
    replace hq : (positionals (st.flag ref f).1 true, positionals (st.flag ref f).1 false) =
      (positionals st true, positionals st false) := hq
    show Edited st _ (st.flag ref f).1 ∧ (st.flag ref f).2 = _
    unfold Slot.edit
    dsimp only
    unfold Slot.flagEdit State.argumentExists
    rcases ho with ⟨p, e⟩ | ⟨p, msg, hv, e⟩ | ⟨p, hv, hk, e⟩ | ⟨p, hv, hk, e, _⟩
    · rw [e, p]; exact ⟨same, rfl⟩
    · rw [e, p, hv]; exact ⟨same, rfl⟩
    · rw [e, p, (C03_flag_syntax f).2 hv, hk]; exact ⟨same, rfl⟩
    · rw [e] at hq
      rw [e, p, (C03_flag_syntax f).2 hv, hk]
      refine ⟨⟨?_, ?_, rfl, rfl, rfl, rfl, rfl, hq⟩, rfl⟩
      · intro x
        simp only
        rw [mem_stableSort]
        exact mem_replaced hi ht _ x
      · intro x
        show lookupName (insertName st.byName f t.node) x = _
        rw [lookupName_insert]
        congr 1
        by_cases e : f = x
        · subst e; simp [Slot.same]
        · have : x ≠ f := fun e' => e e'.symm
          simp [e, this]
  | action r act =>
    cases hr
    replace hq : (positionals (st.action ref act).1 true, positionals (st.action ref act).1 false) =
      (positionals st true, positionals st false) := hq
    show Edited st _ (st.action ref act).1 ∧ (st.action ref act).2 = _
    rw [action_eq h] at hq ⊢
    exact typed { st with helpOption := st.helpBut t, versionOption := st.versionBut t } _ rfl rfl rfl rfl rfl hq
  | nargs r n =>
    cases hr
    replace hq : (positionals (st.nargs ref n).1 true, positionals (st.nargs ref n).1 false) =
      (positionals st true, positionals st false) := hq
    show Edited st _ (st.nargs ref n).1 ∧ (st.nargs ref n).2 = _
    unfold State.nargs at hq ⊢
    rw [withRef_live h] at hq ⊢
    exact typed st _ rfl rfl rfl rfl rfl hq
  | defaults r ds =>
    cases hr
    replace hq : (positionals (st.setDefaults ref ds).1 true, positionals (st.setDefaults ref ds).1 false) =
      (positionals st true, positionals st false) := hq
    show Edited st _ (st.setDefaults ref ds).1 ∧ (st.setDefaults ref ds).2 = _
    unfold State.setDefaults at hq ⊢
    rw [withRef_live h] at hq ⊢
    exact ⟨modn _ hq, rfl⟩
  | required r b =>
    cases hr
    replace hq : (positionals (st.required ref b).1 true, positionals (st.required ref b).1 false) =
      (if b = true ∧ t.arg.front ∈ positionals st false then
          (positionals st true ++ [t.arg.front], (positionals st false).erase t.arg.front)
        else if b = false ∧ t.arg.front ∈ positionals st true then
          ((positionals st true).erase t.arg.front, t.arg.front :: positionals st false)
        else (positionals st true, positionals st false)) := by
      refine hq.trans ?_
      unfold requeue
      simp only [h]
    show Edited st _ (st.required ref b).1 ∧ (st.required ref b).2 = _
    rw [(required_ok hi h b).1] at hq ⊢
    refine ⟨⟨?_, fun _ => or_none_iff _ _ _, rfl, rfl, rfl, rfl, rfl, hq⟩, rfl⟩
    intro x
    simp only
    rw [mem_stableSort]
    exact mem_replaced hi ht _ x
  | help r x =>
    cases hr
    replace hq : (positionals (st.setHelp ref x).1 true, positionals (st.setHelp ref x).1 false) =
      (positionals st true, positionals st false) := hq
    show Edited st _ (st.setHelp ref x).1 ∧ (st.setHelp ref x).2 = _
    unfold State.setHelp at hq ⊢
    rw [withRef_live h] at hq ⊢
    exact ⟨⟨mem_replaced hi ht _, fun _ => or_none_iff _ _ _, rfl, rfl, rfl, rfl, rfl, hq⟩, rfl⟩
  | metavar r x =>
    cases hr
    replace hq : (positionals (st.setMetavar ref x).1 true, positionals (st.setMetavar ref x).1 false) =
      (positionals st true, positionals st false) := hq
    show Edited st _ (st.setMetavar ref x).1 ∧ (st.setMetavar ref x).2 = _
    unfold State.setMetavar at hq ⊢
    rw [withRef_live h] at hq ⊢
    exact ⟨⟨mem_replaced hi ht _, fun _ => or_none_iff _ _ _, rfl, rfl, rfl, rfl, rfl, hq⟩, rfl⟩
  | edit r items => exact absurd rfl (hne r items)
  | behave r c x =>
    cases hr
    replace hq : (positionals (st.behave ref c x).1 true, positionals (st.behave ref c x).1 false) =
      (positionals st true, positionals st false) := hq
    show Edited st _ (st.behave ref c x).1 ∧ (st.behave ref c x).2 = _
    unfold State.behave at hq ⊢
    rw [withRef_live h] at hq ⊢
    exact ⟨⟨mem_replaced hi ht _, fun _ => or_none_iff _ _ _, rfl, rfl, rfl, rfl, rfl, hq⟩, rfl⟩
  | valid r x d =>
    cases hr
    replace hq : (positionals (st.setValid ref x d).1 true, positionals (st.setValid ref x d).1 false) =
      (positionals st true, positionals st false) := hq
    show Edited st _ (st.setValid ref x d).1 ∧ (st.setValid ref x d).2 = _
    unfold State.setValid at hq ⊢
    rw [withRef_live h] at hq ⊢
    exact ⟨⟨mem_replaced hi ht _, fun _ => or_none_iff _ _ _, rfl, rfl, rfl, rfl, rfl, hq⟩, rfl⟩
  | dest r d =>
    cases hr
    replace hq : (positionals (st.setDest ref d).1 true, positionals (st.setDest ref d).1 false) =
      (positionals st true, positionals st false) := hq
    show Edited st _ (st.setDest ref d).1 ∧ (st.setDest ref d).2.void = _
    rw [setDest_eq h] at hq ⊢
    exact ⟨⟨mem_replaced hi ht _, fun _ => or_none_iff _ _ _, rfl, rfl, rfl, rfl, rfl, hq⟩, rfl⟩
  | _ => cases hr

/-- Calls that may concern the help (version) option. -/
def Slot.touches (t : Slot D) (x : Action) : Op → Bool
  | .action _ a => a == x || t.arg.action == x
  | .nargs _ _ => t.arg.action == x
  | _ => false

theorem typeConstructor_helpFree {a : Argument D} (h1 : a.action ≠ .help) (self : Nat) (h v h' : Option Nat) :
    a.typeConstructor self h v = ((a.typeConstructor self h' v).1, h, (a.typeConstructor self h' v).2.2) := by
  rw [typeConstructor_core, typeConstructor_core]
  have e : ∀ b c, tcCore a.isPositional a.action a.nargs b c = tcCore a.isPositional a.action a.nargs false c ∧
      tcCore a.isPositional a.action a.nargs b c ≠ .setHelp := by
    intro b c
    unfold tcCore
    simp only [beq_eq_false_iff_ne.2 h1, Bool.false_eq_true, if_false]
    refine ⟨trivial, ?_⟩
    repeat' split
    all_goals simp
  rw [(e (h == none || h == some self) _).1, (e (h' == none || h' == some self) _).1]
  have hp := (e false (v == none || v == some self)).2
  revert hp
  generalize tcCore a.isPositional a.action a.nargs _ _ = c
  intro hp
  cases c with
  | setHelp => exact absurd rfl hp
  | _ => rfl

theorem typeConstructor_versionFree {a : Argument D} (h1 : a.action ≠ .version) (self : Nat) (h v v' : Option Nat) :
    a.typeConstructor self h v =
      ((a.typeConstructor self h v').1, (a.typeConstructor self h v').2.1, v, (a.typeConstructor self h v').2.2.2) := by
  rw [typeConstructor_core, typeConstructor_core]
  have e : ∀ b c, tcCore a.isPositional a.action a.nargs b c = tcCore a.isPositional a.action a.nargs b false ∧
      tcCore a.isPositional a.action a.nargs b c ≠ .setVersion := by
    intro b c
    unfold tcCore
    simp only [beq_eq_false_iff_ne.2 h1, Bool.false_eq_true, if_false]
    refine ⟨trivial, ?_⟩
    repeat' split
    all_goals simp
  rw [(e _ (v == none || v == some self)).1, (e _ (v' == none || v' == some self)).1]
  have hp := (e (h == none || h == some self) false).2
  revert hp
  generalize tcCore a.isPositional a.action a.nargs _ _ = c
  intro hp
  cases c with
  | setVersion => exact absurd rfl hp
  | _ => rfl

theorem typed_helpFree {t : Slot D} {a : Argument D} (h1 : a.action ≠ .help) (h v h' : Option Nat) :
    t.typed h v a = ({ (t.typed h' v a).1 with help := h }, (t.typed h' v a).2) := by
  unfold Slot.typed Argument.retyped Argument.retypeRes
  rw [typeConstructor_helpFree h1 t.obj h v h']

theorem typed_versionFree {t : Slot D} {a : Argument D} (h1 : a.action ≠ .version) (h v v' : Option Nat) :
    t.typed h v a = ({ (t.typed h v' a).1 with version := v }, (t.typed h v' a).2) := by
  unfold Slot.typed Argument.retyped Argument.retypeRes
  rw [typeConstructor_versionFree h1 t.obj h v v']

theorem edit_helpFree {t : Slot D} {op : Op} (ht : t.touches .help op = false) (known : Str → Bool) (h v h' : Option Nat)
    (no : Nat) :
    t.edit known h v no op = ({ (t.edit known h' v no op).1 with help := h }, (t.edit known h' v no op).2) := by
  cases op with
  | flag r f =>
    show t.flagEdit known h v f = ({ (t.flagEdit known h' v f).1 with help := h }, (t.flagEdit known h' v f).2)
    unfold Slot.flagEdit
    split
    · rfl
    · split
      · rfl
      · split <;> rfl
  | action r a =>
    unfold Slot.touches at ht
    simp only [Bool.or_eq_false_iff] at ht
    unfold Slot.edit
    simp only [ht.2, Bool.false_eq_true, if_false]
    exact typed_helpFree (a := { t.arg with action := a }) (by simpa using ht.1) h _ h'
  | nargs r n =>
    unfold Slot.touches at ht
    exact typed_helpFree (a := { t.arg with nargs := n }) (by simpa using ht) h v h'
  | _ => rfl

theorem edit_versionFree {t : Slot D} {op : Op} (ht : t.touches .version op = false) (known : Str → Bool) (h v v' : Option Nat)
    (no : Nat) :
    t.edit known h v no op = ({ (t.edit known h v' no op).1 with version := v }, (t.edit known h v' no op).2) := by
  cases op with
  | flag r f =>
    show t.flagEdit known h v f = ({ (t.flagEdit known h v' f).1 with version := v }, (t.flagEdit known h v' f).2)
    unfold Slot.flagEdit
    split
    · rfl
    · split
      · rfl
      · split <;> rfl
  | action r a =>
    unfold Slot.touches at ht
    simp only [Bool.or_eq_false_iff] at ht
    unfold Slot.edit
    simp only [ht.2, Bool.false_eq_true, if_false]
    exact typed_versionFree (a := { t.arg with action := a }) (by simpa using ht.1) _ v v'
  | nargs r n =>
    unfold Slot.touches at ht
    exact typed_versionFree (a := { t.arg with nargs := n }) (by simpa using ht) h v v'
  | _ => rfl

/-- The action of an argument changes by `action()` only. -/
theorem edit_action (t : Slot D) (known : Str → Bool) (h v : Option Nat) (no : Nat) (op : Op) (x : Action)
    (hx : x = .help ∨ x = .version) (ht : t.touches x op = false) (hn : t.arg.action ≠ x) :
    (t.edit known h v no op).1.arg.action ≠ x := by
  have key : ∀ (self : Nat) (h v : Option Nat) (a : Argument D), a.action ≠ x → (a.retyped self h v).action ≠ x := by
    intro self h v a ha
    rcases retyped_action self h v a with e | ⟨_, e⟩
    · rw [e]; exact ha
    · rw [e]; rcases hx with rfl | rfl <;> simp
  cases op with
  | flag r f =>
    show (t.flagEdit known h v f).1.arg.action ≠ x
    unfold Slot.flagEdit
    split
    · exact hn
    · split
      · exact hn
      · split <;> exact hn
  | action r a =>
    unfold Slot.touches at ht
    simp only [Bool.or_eq_false_iff, beq_eq_false_iff_ne] at ht
    exact key _ _ _ _ ht.1
  | nargs r n => exact key _ _ _ _ hn
  | defaults r ds =>
    have := (defaultsConstructor_frame ({ t.arg with defaults := ds } : Argument D)).2.2.2.1
    show ({ t.arg with defaults := ds } : Argument D).defaultsConstructor.1.action ≠ x
    rw [this]
    exact hn
  | _ => exact hn

theorem edit_known {t : Slot D} {op : Op} {known known' : Str → Bool} (hk : ∀ r f, op = .flag r f → known f = known' f)
    (h v : Option Nat) (no : Nat) : t.edit known h v no op = t.edit known' h v no op := by
  cases op with
  | flag r f =>
    show t.flagEdit known h v f = t.flagEdit known' h v f
    unfold Slot.flagEdit
    rw [hk r f rfl]
  | _ => rfl

/-- The same edit with other addresses. -/
def Edit.ren (r : Ren) (e : Edit D) : Edit D :=
  { e with node := r.n e.node, obj := r.o e.obj, help := e.help.map r.o, version := e.version.map r.o }

theorem typed_ren (r : Ren) (t : Slot D) (h v : Option Nat) (a : Argument D) :
    (r.slot t).typed (h.map r.o) (v.map r.o) a = ((t.typed h v a).1.ren r, (t.typed h v a).2) := by
  unfold Slot.typed Argument.retyped Argument.retypeRes
  rw [show (r.slot t).obj = r.o t.obj from rfl, RenamedIn.typeConstructor]
  rfl

theorem edit_ren (r : Ren) (t : Slot D) (known : Str → Bool) (h v : Option Nat) (no : Nat) (op : Op) :
    (r.slot t).edit known (h.map r.o) (v.map r.o) (r.o no) op =
      ((t.edit known h v no op).1.ren r, (t.edit known h v no op).2) := by
  cases op with
  | flag x f =>
    show (r.slot t).flagEdit known (h.map r.o) (v.map r.o) f = ((t.flagEdit known h v f).1.ren r, (t.flagEdit known h v f).2)
    unfold Slot.flagEdit
    rw [show (r.slot t).arg = t.arg from rfl]
    split
    · rfl
    · split
      · rfl
      · split <;> rfl
  | action x a =>
    have e1 : (if t.arg.action == .help then none else h.map r.o) = (if t.arg.action == .help then none else h).map r.o := by
      split <;> rfl
    have e2 : (if t.arg.action == .version then none else v.map r.o) =
        (if t.arg.action == .version then none else v).map r.o := by
      split <;> rfl
    unfold Slot.edit
    simp only
    rw [show (r.slot t).arg = t.arg from rfl, e1, e2]
    exact typed_ren r t _ _ _
  | nargs x n => exact typed_ren r t _ _ _
  | _ => rfl

/-! ### `addArgument` -/

/-- The new argument, or the refusal. -/
def newArg (known : Str → Bool) : List Str → Except Exn (Argument D)
  | [] => .error ⟨.argument, [], "invalid empty flag".toList⟩
  | front :: rest =>
    if rest.isEmpty && front[0]? != some '-' then
      if front.isEmpty then .error ⟨.argument, [], "bad name argument".toList⟩
      else if known front then .error ⟨.argument, front, "bad name argument already exist".toList⟩
      else .ok { names := [front], nargs := 1, type := .pos }
    else
      match checkFlags (if known front then [(front, 0)] else []) front (front :: rest) [] with
      | .error e => .error e
      | .ok newFlags => .ok { names := sortNames newFlags }

theorem newArg_known {known known' : Str → Bool} {ns : List Str} (hk : ∀ n ∈ ns, known n = known' n) :
    newArg (D := D) known ns = newArg known' ns := by
  cases ns with
  | nil => rfl
  | cons f rest => unfold newArg; simp only [hk f (by simp)]

theorem add_new (st : State D) (ns : List Str) :
    st.addArgument ns =
      match newArg st.argumentExists ns with
      | .error e => (st, .throw e)
      | .ok a => st.linkArgument a := by
  cases ns with
  | nil => rfl
  | cons f rest =>
    unfold State.addArgument newArg
    simp only
    have ec : ∀ fs acc, checkFlags st.byName f fs acc =
        checkFlags (if st.argumentExists f then [(f, 0)] else []) f fs acc := by
      intro fs
      induction fs with
      | nil => intro acc; rfl
      | cons g gs ih =>
        intro acc
        unfold checkFlags
        have : (lookupName (if st.argumentExists f then [(f, 0)] else []) f).isSome = (lookupName st.byName f).isSome := by
          show _ = st.argumentExists f
          cases st.argumentExists f <;> simp [lookupName]
        rw [this]
        simp only [ih]
    rw [ec, show (lookupName st.byName f).isSome = st.argumentExists f from rfl]
    by_cases c : (rest.isEmpty && f[0]? != some '-') = true
    · rw [if_pos c, if_pos c]
      split
      · rfl
      · split <;> rfl
    · rw [if_neg c, if_neg c]
      cases checkFlags (if st.argumentExists f = true then [(f, 0)] else []) f (f :: rest) [] <;> rfl

theorem newArg_names {known : Str → Bool} {ns : List Str} {a : Argument D} (h : newArg known ns = .ok a) :
    a.names ≠ [] ∧ (∀ n, n ∈ a.names ↔ n ∈ ns) ∧ a.isRequired = false ∧ a.action = .none ∧
      a.isPositional = asksPositional ns := by
  cases ns with
  | nil => cases h
  | cons f rest =>
    unfold newArg at h
    simp only at h
    split at h
    · rename_i hc
      simp only [Bool.and_eq_true, List.isEmpty_iff] at hc
      obtain ⟨rfl, hc⟩ := hc
      split at h
      · cases h
      · split at h
        · cases h
        · cases h
          refine ⟨by simp, fun n => Iff.rfl, rfl, rfl, ?_⟩
          show true = (f.head? != some '-')
          rw [← hc]
          cases f <;> rfl
    · rename_i hc
      split at h
      · cases h
      · rename_i fs he
        cases h
        obtain ⟨h1, h2, h3, h4⟩ := checkFlags_ok he (by simp)
        have h2' : ∀ g, g ∈ fs ↔ g ∈ f :: rest := by intro g; rw [h2]; simp
        have hne : fs ≠ [] := by
          intro e; have := (h2' f).2 (by simp); rw [e] at this; cases this
        refine ⟨sortNames_ne_nil hne, fun n => by rw [mem_sortNames]; exact h2' n, rfl, rfl, ?_⟩
        cases rest with
        | cons g gs => rfl
        | nil =>
          show false = (f.head? != some '-')
          simp only [List.isEmpty_nil, Bool.true_and] at hc
          cases f with
          | nil => exact absurd rfl hc
          | cons c cs => simpa using hc

/-- What adding a new argument does. -/
def addEdit (nn no : Nat) (h v : Option Nat) (a : Argument D) : Edit D :=
  ⟨nn, no, a, a.names, h, v, 1, 1, fun q => if a.isPositional then (q.1, q.2 ++ [a.front]) else q⟩

theorem link_edited {st : State D} (hi : Inv st) {a : Argument D} (ha : a.names ≠ []) (hreq : a.isRequired = false) :
    Edited st (addEdit st.nextNode st.nextObj st.helpOption st.versionOption a) (st.linkArgument a).1 ∧
    (st.linkArgument a).2 = .ok st.nextObj := by
  have hany : (st.linked a).arguments.any (fun s => s.arg.names.isEmpty) = false := by
    rw [List.any_eq_false]
    intro s hs
    rcases List.mem_append.1 hs with hs | hs
    · have := (hi.forms s hs).ne_nil
      simpa using this
    · rw [List.mem_singleton] at hs
      subst hs
      simpa [State.newSlot] using ha
  have e : st.linkArgument a =
      ({ st.linked a with arguments := stableSort slotLt (st.arguments ++ [st.newSlot a]) }, .ok st.nextObj) := by
    unfold State.linkArgument
    have e : ({ st with
        arguments := st.arguments ++ [{ node := st.nextNode, obj := st.nextObj, arg := a }]
        byName := a.names.foldl (fun m n => insertName m n st.nextNode) st.byName
        nextNode := st.nextNode + 1
        nextObj := st.nextObj + 1 } : State D) = st.linked a := rfl
    simp only [e]
    unfold State.sortArguments
    rw [hany]
    rfl
  rw [e]
  refine ⟨⟨?_, ?_, rfl, rfl, rfl, rfl, rfl, ?_⟩, rfl⟩
  · intro x
    simp only
    rw [mem_stableSort, List.mem_append, List.mem_singleton]
    constructor
    · rintro (h | rfl)
      · exact .inr ⟨h, Nat.ne_of_lt (hi.nodesLt x h)⟩
      · exact .inl rfl
    · rintro (rfl | h)
      · exact .inr rfl
      · exact .inl h.1
  · intro x
    exact insertAll_lookup _ _ _ _
  · have key : ∀ b, queue b (stableSort slotLt (st.arguments ++ [st.newSlot a])) =
        queue b st.arguments ++ (if a.isPositional && !b then [a.front] else []) := by
      intro b
      rw [queue_sort]
      unfold queue
      rw [List.filter_append, List.map_append]
      congr 1
      have hc : inClass b (st.newSlot a) = (a.isPositional && !b) := by
        unfold inClass State.newSlot
        simp only [hreq]
        cases b <;> rfl
      rw [List.filter_cons, hc]
      cases (a.isPositional && !b) <;> rfl
    simp only [positionals_eq, key, addEdit]
    cases a.isPositional <;> simp

end BletArgs
