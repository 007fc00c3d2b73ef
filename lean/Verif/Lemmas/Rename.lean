import Verif.Lemmas.Move
/-
Nothing depends on the addresses of the objects nor on the order of the entries of the map: two states that
correspond by a one-to-one renaming of addresses behave in the same way.
-/
namespace BletArgs
open Spec
variable {D : Type}

/-- A renaming of the addresses of list elements and objects. -/
structure Ren where
  n : Nat → Nat
  o : Nat → Nat
  ninj : ∀ a b, n a = n b → a = b
  oinj : ∀ a b, o a = o b → a = b

namespace Ren

def slot (r : Ren) (s : Slot D) : Slot D := { s with node := r.n s.node, obj := r.o s.obj }

def ref (r : Ren) : Res Nat → Res Nat
  | .ok v => .ok (r.o v)
  | x => x

/-- The corresponding call. -/
def op (r : Ren) : Op → Op
  | .flag ref f => .flag (r.o ref) f
  | .action ref a => .action (r.o ref) a
  | .nargs ref n => .nargs (r.o ref) n
  | .defaults ref ds => .defaults (r.o ref) ds
  | .required ref b => .required (r.o ref) b
  | .help ref h => .help (r.o ref) h
  | .metavar ref m => .metavar (r.o ref) m
  | .behave ref c x => .behave (r.o ref) c x
  | .edit ref items => .edit (r.o ref) items
  | .valid ref v d => .valid (r.o ref) v d
  | .dest ref d => .dest (r.o ref) d
  | x => x

variable (r : Ren)

theorem beq_n (a b : Nat) : (r.n a == r.n b) = (a == b) := by
  rw [Bool.eq_iff_iff, beq_iff_eq, beq_iff_eq]
  exact ⟨r.ninj a b, congrArg _⟩

theorem beq_o (a b : Nat) : (r.o a == r.o b) = (a == b) := by
  rw [Bool.eq_iff_iff, beq_iff_eq, beq_iff_eq]
  exact ⟨r.oinj a b, congrArg _⟩

theorem beq_ptr (p : Option Nat) (a : Nat) : (p.map r.o == some (r.o a)) = (p == some a) := by
  rw [Bool.eq_iff_iff, beq_iff_eq, beq_iff_eq]
  cases p with
  | none => simp
  | some b =>
    simp only [Option.map_some, Option.some.injEq]
    exact ⟨r.oinj b a, congrArg _⟩

end Ren

/-- The state without what a renaming concerns, and without the books kept of freed memory. -/
def State.plain (st : State D) : State D :=
  { st with
    arguments := [], byName := [], helpOption := none, versionOption := none, nextNode := 0, nextObj := 0
    freedObjs := [], freedValids := [] }

/-- Which of the addresses to be given out next are known to correspond. -/
structure Room where
  n : Nat → Prop
  o : Nat → Prop
  /-- The books of freed memory correspond. -/
  books : Prop

/-- All of them; nothing about freed memory. -/
def Room.all : Room := ⟨fun _ => True, fun _ => True, False⟩

/-- There is room for one more argument. -/
def Room.Has (ok : Room) (s : State D) : Prop := ok.n s.nextNode ∧ ok.o s.nextObj

/-- The states correspond. -/
structure RenamedIn (ok : Room) (r : Ren) (s s' : State D) : Prop where
  args : s'.arguments = s.arguments.map r.slot
  look : ∀ x, lookupName s'.byName x = (lookupName s.byName x).map r.n
  keys : (s.byName.map (·.1)).Nodup
  keys' : (s'.byName.map (·.1)).Nodup
  help : s'.helpOption = s.helpOption.map r.o
  version : s'.versionOption = s.versionOption.map r.o
  node : ∀ k, ok.n (s.nextNode + k) → r.n (s.nextNode + k) = s'.nextNode + k
  obj : ∀ k, ok.o (s.nextObj + k) → r.o (s.nextObj + k) = s'.nextObj + k
  plain : s'.plain = s.plain
  books : ok.books → s'.freedObjs = s.freedObjs.map r.o ∧ s'.freedValids = s.freedValids

/-- The outcomes correspond. -/
def AgreeIn {α : Type} (ok : Room) (r : Ren) (x x' : State D × Res α) : Prop := RenamedIn ok r x.1 x'.1 ∧ x'.2 = x.2

def AgreeRefIn (ok : Room) (r : Ren) (x x' : State D × Res Nat) : Prop := RenamedIn ok r x.1 x'.1 ∧ x'.2 = r.ref x.2

/-! ### Maps -/

theorem lookupName_insert (m : List (Str × Nat)) (x : Str) (k : Nat) (y : Str) :
    lookupName (insertName m x k) y = (lookupName m y).or (if x = y then some k else none) := by
  unfold insertName
  cases h : (lookupName m x).isSome with
  | false =>
    rw [if_neg (by simp), lookupName_append]
    congr 1
    unfold lookupName
    by_cases e : x = y <;> simp [e]
  | true =>
    rw [if_pos rfl]
    by_cases e : x = y
    · subst e
      obtain ⟨v, hv⟩ := Option.isSome_iff_exists.1 h
      rw [hv]; rfl
    · rw [if_neg e]; simp

theorem keys_insert {m : List (Str × Nat)} (h : (m.map (·.1)).Nodup) (x : Str) (k : Nat) :
    ((insertName m x k).map (·.1)).Nodup := by
  unfold insertName
  cases hl : lookupName m x with
  | some v => exact h
  | none =>
    simp only [Option.isSome_none, Bool.false_eq_true, if_false, List.map_append, List.map_cons, List.map_nil]
    rw [List.nodup_append]
    refine ⟨h, by simp, ?_⟩
    intro a ha b hb hab
    rw [List.mem_singleton] at hb
    subst hb; subst hab
    obtain ⟨p, hp, e⟩ := List.mem_map.1 ha
    unfold lookupName at hl
    rw [Option.map_eq_none_iff, List.find?_eq_none] at hl
    exact hl p hp (by simpa using e)

theorem lookupName_filter (m : List (Str × Nat)) (x y : Str) :
    lookupName (m.filter fun p => !(p.1 == x)) y = if x = y then none else lookupName m y := by
  unfold lookupName
  by_cases e : x = y
  · subst e
    rw [if_pos rfl, Option.map_eq_none_iff, List.find?_eq_none]
    intro p hp
    have := (List.mem_filter.1 hp).2
    simpa using this
  · rw [if_neg e]
    congr 1
    rw [List.find?_filter]
    congr 1
    funext p
    by_cases h : p.1 = y
    · have : p.1 ≠ x := fun h' => e (h'.symm.trans h)
      simp [h, this]
      exact fun h' => e h'.symm
    · simp [h]

theorem keys_filter {m : List (Str × Nat)} (h : (m.map (·.1)).Nodup) (f : Str × Nat → Bool) :
    ((m.filter f).map (·.1)).Nodup := h.sublist (List.filter_sublist.map _)

theorem any_entry {m : List (Str × Nat)} (h : (m.map (·.1)).Nodup) (k : Nat) :
    m.any (fun p => p.2 == k) = true ↔ ∃ x, lookupName m x = some k := by
  rw [List.any_eq_true]
  constructor
  · rintro ⟨⟨x, k'⟩, hp, e⟩
    have e : k' = k := by simpa using e
    subst e
    refine ⟨x, ?_⟩
    induction m with
    | nil => cases hp
    | cons q m ih =>
      unfold lookupName
      rw [List.find?_cons]
      rcases List.mem_cons.1 hp with rfl | hp
      · simp
      · have hne : q.1 ≠ x := by
          intro e
          rw [List.map_cons, List.nodup_cons] at h
          exact h.1 (List.mem_map.2 ⟨_, hp, e.symm⟩)
        have hb : (q.1 == x) = false := by simpa using hne
        rw [hb]
        exact ih (List.nodup_cons.1 (by simpa using h)).2 hp
  · rintro ⟨x, hx⟩
    unfold lookupName at hx
    obtain ⟨p, hp, e⟩ := Option.map_eq_some_iff.1 hx
    exact ⟨p, List.mem_of_find?_eq_some hp, by simpa using e⟩

namespace RenamedIn
variable {ok : Room} {r : Ren} {s s' : State D}

/-! ### Registry -/

theorem exists_ (h : RenamedIn ok r s s') (x : Str) : s'.argumentExists x = s.argumentExists x := by
  unfold State.argumentExists
  rw [h.look, Option.isSome_map]

theorem atNode (h : RenamedIn ok r s s') (k : Nat) : s'.atNode (r.n k) = (s.atNode k).map r.slot := by
  unfold State.atNode
  rw [h.args, List.find?_map]
  congr 2
  funext x
  exact r.beq_n _ _

theorem atObj (h : RenamedIn ok r s s') (k : Nat) : s'.atObj (r.o k) = (s.atObj k).map r.slot := by
  unfold State.atObj
  rw [h.args, List.find?_map]
  congr 2
  funext x
  exact r.beq_o _ _

theorem slots (h : RenamedIn ok r s s') (l : List (Slot D)) :
    RenamedIn ok r { s with arguments := l } { s' with arguments := l.map r.slot } :=
  ⟨rfl, h.look, h.keys, h.keys', h.help, h.version, h.node, h.obj, h.plain, h.books⟩

theorem modNode (h : RenamedIn ok r s s') (k : Nat) (f : Argument D → Argument D) :
    RenamedIn ok r (s.modNode k f) (s'.modNode (r.n k) f) := by
  unfold State.modNode
  have e : (s.arguments.map r.slot).map (fun t => if t.node == r.n k then { t with arg := f t.arg } else t) =
      (s.arguments.map fun t => if t.node == k then { t with arg := f t.arg } else t).map r.slot := by
    rw [List.map_map, List.map_map]
    refine List.map_congr_left fun t _ => ?_
    simp only [Function.comp_apply]
    rw [show (r.slot t).node = r.n t.node from rfl, r.beq_n]
    split <;> rfl
  rw [h.args, e]
  exact h.slots _

theorem sort (h : RenamedIn ok r s s') : AgreeIn ok r s.sortArguments s'.sortArguments := by
  unfold State.sortArguments
  have e : (s.arguments.map r.slot).any (fun s => s.arg.names.isEmpty) = s.arguments.any (fun s => s.arg.names.isEmpty) := by
    rw [List.any_map]; rfl
  rw [h.args, e]
  split
  · exact ⟨h, rfl⟩
  · rw [stableSort_map r.slot _ (fun _ _ _ _ => rfl)]
    exact ⟨h.slots _, rfl⟩

theorem insertAll (h : ∀ x, lookupName s'.byName x = (lookupName s.byName x).map r.n)
    (hk : (s.byName.map (·.1)).Nodup) (hk' : (s'.byName.map (·.1)).Nodup) (ns : List Str) (k : Nat) :
    (∀ x, lookupName (ns.foldl (fun m n => insertName m n (r.n k)) s'.byName) x =
      (lookupName (ns.foldl (fun m n => insertName m n k) s.byName) x).map r.n) ∧
    ((ns.foldl (fun m n => insertName m n k) s.byName).map (·.1)).Nodup ∧
    ((ns.foldl (fun m n => insertName m n (r.n k)) s'.byName).map (·.1)).Nodup := by
  revert h hk hk'
  generalize s.byName = m
  generalize s'.byName = m'
  induction ns generalizing m m' with
  | nil => exact fun h hk hk' => ⟨h, hk, hk'⟩
  | cons n ns ih =>
    intro h hk hk'
    simp only [List.foldl_cons]
    refine ih _ _ ?_ (keys_insert hk _ _) (keys_insert hk' _ _)
    intro x
    rw [lookupName_insert, lookupName_insert, h]
    cases lookupName m x with
    | some v => rfl
    | none => by_cases e : n = x <;> simp [e]

theorem link (h : RenamedIn ok r s s') (ho' : ok.Has s) (a : Argument D) : AgreeRefIn ok r (s.linkArgument a) (s'.linkArgument a) := by
  unfold State.linkArgument
  simp only
  obtain ⟨i1, i2, i3⟩ := insertAll h.look h.keys h.keys' a.names s.nextNode
  have hn : r.n s.nextNode = s'.nextNode := h.node 0 ho'.1
  have ho : r.o s.nextObj = s'.nextObj := h.obj 0 ho'.2
  rw [hn] at i1 i3
  have h1 : RenamedIn ok r
      { s with
        arguments := s.arguments ++ [{ node := s.nextNode, obj := s.nextObj, arg := a }]
        byName := a.names.foldl (fun m n => insertName m n s.nextNode) s.byName
        nextNode := s.nextNode + 1
        nextObj := s.nextObj + 1 }
      { s' with
        arguments := s'.arguments ++ [{ node := s'.nextNode, obj := s'.nextObj, arg := a }]
        byName := a.names.foldl (fun m n => insertName m n s'.nextNode) s'.byName
        nextNode := s'.nextNode + 1
        nextObj := s'.nextObj + 1 } := by
    refine ⟨?_, i1, i2, i3, h.help, h.version, ?_, ?_, h.plain, h.books⟩
    · simp only [List.map_append, List.map_cons, List.map_nil, h.args, Ren.slot, hn, ho]
    · intro k hk
      simp only at hk ⊢
      rw [Nat.add_assoc] at hk
      rw [Nat.add_assoc, h.node _ hk, Nat.add_assoc]
    · intro k hk
      simp only at hk ⊢
      rw [Nat.add_assoc] at hk
      rw [Nat.add_assoc, h.obj _ hk, Nat.add_assoc]
  have h2 := h1.sort
  revert h2
  generalize State.sortArguments _ = x
  generalize State.sortArguments _ = x'
  obtain ⟨y, res⟩ := x
  obtain ⟨y', res'⟩ := x'
  rintro ⟨h2, rfl : res' = res⟩
  cases res' with
  | ok u => exact ⟨h2, congrArg Res.ok ho.symm⟩
  | _ => exact ⟨h2, rfl⟩

theorem add (h : RenamedIn ok r s s') (ho : ok.Has s) (nof : List Str) : AgreeRefIn ok r (s.addArgument nof) (s'.addArgument nof) := by
  unfold State.addArgument
  cases nof with
  | nil => exact ⟨h, rfl⟩
  | cons f rest =>
    simp only
    have e : ∀ n, (lookupName s'.byName n).isSome = (lookupName s.byName n).isSome := fun n => h.exists_ n
    have ec : ∀ fs acc, checkFlags s'.byName f fs acc = checkFlags s.byName f fs acc := by
      intro fs
      induction fs with
      | nil => intro acc; rfl
      | cons g gs ih => intro acc; unfold checkFlags; rw [e]; simp only [ih]
    rw [e, ec]
    split
    · split
      · exact ⟨h, rfl⟩
      · split
        · exact ⟨h, rfl⟩
        · exact h.link ho _
    · split
      · exact ⟨h, rfl⟩
      · exact h.link ho _

theorem withRef (h : RenamedIn ok r s s') {α : Type} (ref : Nat) (f g : Slot D → State D × Res α)
    (A : State D × Res α → State D × Res α → Prop) (hA : ∀ w, A (s, .ub w) (s', .ub w))
    (hf : ∀ t, s.atObj ref = some t → A (f t) (g (r.slot t))) : A (s.withRef ref f) (s'.withRef (r.o ref) g) := by
  unfold State.withRef
  rw [h.atObj]
  cases e : s.atObj ref with
  | none => exact hA _
  | some t => exact hf t e

theorem flag (h : RenamedIn ok r s s') (ref : Nat) (f : Str) : AgreeIn ok r (s.flag ref f) (s'.flag (r.o ref) f) := by
  unfold State.flag
  refine h.withRef ref _ _ (AgreeIn ok r) (fun _ => ⟨h, rfl⟩) fun t _ => ?_
  rw [show (r.slot t).arg = t.arg from rfl]
  split
  · exact ⟨h, rfl⟩
  · split
    · exact ⟨h, rfl⟩
    · rw [h.exists_]
      split
      · exact ⟨h, rfl⟩
      · have h1 := h.modNode t.node fun a => { a with names := sortNames (a.names ++ [f]) }
        obtain ⟨i1, i2, i3⟩ := insertAll h1.look h1.keys h1.keys' [f] t.node
        refine RenamedIn.sort ⟨h1.args, i1, i2, i3, h.help, h.version, h.node, h.obj, h.plain, h.books⟩

theorem typeConstructor (a : Argument D) (o : Nat) (p v : Option Nat) :
    a.typeConstructor (r.o o) (p.map r.o) (v.map r.o) =
      ((a.typeConstructor o p v).1, (a.typeConstructor o p v).2.1.map r.o, (a.typeConstructor o p v).2.2.1.map r.o,
        (a.typeConstructor o p v).2.2.2) := by
  have hp : ∀ p : Option Nat, (p.map r.o == none || p.map r.o == some (r.o o)) = (p == none || p == some o) := by
    intro p
    rw [r.beq_ptr]
    cases p <;> rfl
  rw [typeConstructor_core, typeConstructor_core, hp, hp]
  cases tcCore a.isPositional a.action a.nargs (p == none || p == some o) (v == none || v == some o) <;> rfl

theorem retype (h : RenamedIn ok r s s') (t : Slot D) (a : Argument D) : AgreeIn ok r (s.retype t a) (s'.retype (r.slot t) a) := by
  unfold State.retype
  have e := typeConstructor (r := r) a t.obj s.helpOption s.versionOption
  rw [h.help, h.version, show (r.slot t).obj = r.o t.obj from rfl, e]
  generalize a.typeConstructor t.obj s.helpOption s.versionOption = x
  obtain ⟨a1, p, v, res⟩ := x
  have hp : RenamedIn ok r { s with helpOption := p, versionOption := v }
      { s' with helpOption := p.map r.o, versionOption := v.map r.o } :=
    ⟨h.args, h.look, h.keys, h.keys', rfl, rfl, h.node, h.obj, h.plain, h.books⟩
  cases res with
  | ok u => exact ⟨hp.modNode t.node fun _ => a1.defaultsConstructor.1, rfl⟩
  | _ => exact ⟨hp.modNode t.node fun _ => a1, rfl⟩

theorem action (h : RenamedIn ok r s s') (ref : Nat) (act : Action) : AgreeIn ok r (s.action ref act) (s'.action (r.o ref) act) := by
  unfold State.action
  refine h.withRef ref _ _ (AgreeIn ok r) (fun _ => ⟨h, rfl⟩) fun t _ => ?_
  simp only
  rw [show (r.slot t).arg = t.arg from rfl]
  refine RenamedIn.retype ?_ t _
  have h1 : RenamedIn ok r (if t.arg.action == .help then { s with helpOption := none } else s)
      (if t.arg.action == .help then { s' with helpOption := none } else s') := by
    split
    · exact ⟨h.args, h.look, h.keys, h.keys', rfl, h.version, h.node, h.obj, h.plain, h.books⟩
    · exact h
  revert h1
  generalize (if t.arg.action == .help then { s with helpOption := none } else s) = u
  generalize (if t.arg.action == .help then { s' with helpOption := none } else s') = u'
  intro h1
  split
  · exact ⟨h1.args, h1.look, h1.keys, h1.keys', h1.help, rfl, h1.node, h1.obj, h1.plain, h1.books⟩
  · exact h1

theorem nargs (h : RenamedIn ok r s s') (ref n : Nat) : AgreeIn ok r (s.nargs ref n) (s'.nargs (r.o ref) n) := by
  unfold State.nargs
  exact h.withRef ref _ _ (AgreeIn ok r) (fun _ => ⟨h, rfl⟩) fun t _ => h.retype t _

theorem defaults (h : RenamedIn ok r s s') (ref : Nat) (ds : List Str) :
    AgreeIn ok r (s.setDefaults ref ds) (s'.setDefaults (r.o ref) ds) := by
  unfold State.setDefaults
  exact h.withRef ref _ _ (AgreeIn ok r) (fun _ => ⟨h, rfl⟩) fun t _ =>
    ⟨h.modNode t.node fun _ => ({ t.arg with defaults := ds } : Argument D).defaultsConstructor.1, rfl⟩

theorem required (h : RenamedIn ok r s s') (ref : Nat) (b : Bool) : AgreeIn ok r (s.required ref b) (s'.required (r.o ref) b) := by
  unfold State.required
  exact h.withRef ref _ _ (AgreeIn ok r) (fun _ => ⟨h, rfl⟩) fun t _ => (h.modNode t.node _).sort

theorem setHelp (h : RenamedIn ok r s s') (ref : Nat) (x : Str) : AgreeIn ok r (s.setHelp ref x) (s'.setHelp (r.o ref) x) := by
  unfold State.setHelp
  exact h.withRef ref _ _ (AgreeIn ok r) (fun _ => ⟨h, rfl⟩) fun t _ =>
    ⟨h.modNode t.node fun a => { a with help := x }, rfl⟩

theorem setMetavar (h : RenamedIn ok r s s') (ref : Nat) (x : Str) : AgreeIn ok r (s.setMetavar ref x) (s'.setMetavar (r.o ref) x) := by
  unfold State.setMetavar
  exact h.withRef ref _ _ (AgreeIn ok r) (fun _ => ⟨h, rfl⟩) fun t _ =>
    ⟨h.modNode t.node fun a => { a with metavar := x }, rfl⟩

theorem edit (scan : Str → Option D) (h : RenamedIn ok r s s') (ref : Nat) (items : List NewElem) :
    AgreeIn ok r (s.edit scan ref items) (s'.edit scan (r.o ref) items) := by
  unfold State.edit
  exact h.withRef ref _ _ (AgreeIn ok r) (fun _ => ⟨h, rfl⟩) fun t _ =>
    ⟨h.modNode t.node fun a => { a with elems := items.map (NewElem.elem scan) }, rfl⟩

theorem behave (h : RenamedIn ok r s s') (ref : Nat) (c : List Str → VRes) (x : DestWrite → Option Exn) :
    AgreeIn ok r (s.behave ref c x) (s'.behave (r.o ref) c x) := by
  unfold State.behave
  exact h.withRef ref _ _ (AgreeIn ok r) (fun _ => ⟨h, rfl⟩) fun t _ =>
    ⟨h.modNode t.node fun a => a.behaving c x, rfl⟩

theorem freed (h : RenamedIn ok r s s') (fo fv : List Nat) :
    RenamedIn ok r { s with freedObjs := s.freedObjs ++ fo, freedValids := s.freedValids ++ fv }
      { s' with freedObjs := s'.freedObjs ++ fo.map r.o, freedValids := s'.freedValids ++ fv } :=
  ⟨h.args, h.look, h.keys, h.keys', h.help, h.version, h.node, h.obj, h.plain, fun hb => by
    simp only
    rw [(h.books hb).1, (h.books hb).2, List.map_append]; exact ⟨rfl, rfl⟩⟩

theorem freedValid (h : RenamedIn ok r s s') (fv : List Nat) :
    RenamedIn ok r { s with freedValids := s.freedValids ++ fv } { s' with freedValids := s'.freedValids ++ fv } :=
  ⟨h.args, h.look, h.keys, h.keys', h.help, h.version, h.node, h.obj, h.plain, fun hb => by
    simp only
    rw [(h.books hb).1, (h.books hb).2]; exact ⟨rfl, rfl⟩⟩

theorem setValid (h : RenamedIn ok r s s') (ref : Nat) (v : Option Validator) (d : Bool) :
    AgreeIn ok r (s.setValid ref v d) (s'.setValid (r.o ref) v d) := by
  unfold State.setValid
  exact h.withRef ref _ _ (AgreeIn ok r) (fun _ => ⟨h, rfl⟩) fun t _ =>
    ⟨(h.freedValid t.arg.ownedValid).modNode
      t.node fun a => { a with valid := v, validDeletable := d }, rfl⟩

theorem setDest (h : RenamedIn ok r s s') (ho' : ok.o s.nextObj) (ref : Nat) (d : Dest) : AgreeRefIn ok r (s.setDest ref d) (s'.setDest (r.o ref) d) := by
  unfold State.setDest
  refine h.withRef ref _ _ (AgreeRefIn ok r) (fun _ => ⟨h, rfl⟩) fun t _ => ?_
  have ho : r.o s.nextObj = s'.nextObj := h.obj 0 ho'
  refine ⟨⟨?_, h.look, h.keys, h.keys', h.help, h.version, h.node, ?_, h.plain, ?_⟩, congrArg Res.ok ho.symm⟩
  · simp only
    rw [h.args, List.map_map, List.map_map]
    refine List.map_congr_left fun x _ => ?_
    simp only [Function.comp_apply]
    rw [show (r.slot x).node = r.n x.node from rfl, show (r.slot t).node = r.n t.node from rfl, r.beq_n, ← ho]
    split <;> rfl
  · intro k hk
    simp only at hk ⊢
    rw [Nat.add_assoc] at hk
    rw [Nat.add_assoc, h.obj _ hk, Nat.add_assoc]
  · intro hb
    simp only
    rw [(h.books hb).1, (h.books hb).2, List.map_append]; exact ⟨rfl, rfl⟩

/-! ### Removal -/

theorem rmTail (ns : List Str)
    (ih : ∀ {s s' : State D}, RenamedIn ok r s s' → AgreeIn ok r (State.removeLoop ns s) (State.removeLoop ns s'))
    (h : RenamedIn ok r s s') (node : Nat) (t : Slot D) :
    AgreeIn ok r (Move.rmTail ns node t s) (Move.rmTail ns (r.n node) (r.slot t) s') := by
  unfold Move.rmTail
  have e2 : s'.byName.any (fun p => p.2 == r.n node) = s.byName.any (fun p => p.2 == node) := by
    rw [Bool.eq_iff_iff, any_entry h.keys', any_entry h.keys]
    constructor
    · rintro ⟨x, hx⟩
      rw [h.look] at hx
      obtain ⟨v, hv, e⟩ := Option.map_eq_some_iff.1 hx
      exact ⟨x, by rw [hv, r.ninj _ _ e]⟩
    · rintro ⟨x, hx⟩
      exact ⟨x, by rw [h.look, hx]; rfl⟩
  rw [e2]
  split
  · exact ih (h.modNode node _)
  · simp only
    have h3 : RenamedIn ok r
        (if s.helpOption == some t.obj then { s with helpOption := none }
          else if s.versionOption == some t.obj then { s with versionOption := none } else s)
        (if s'.helpOption == some (r.slot t).obj then { s' with helpOption := none }
          else if s'.versionOption == some (r.slot t).obj then { s' with versionOption := none } else s') := by
      have b1 : (s'.helpOption == some (r.slot t).obj) = (s.helpOption == some t.obj) := by
        rw [h.help]; exact r.beq_ptr _ _
      have b2 : (s'.versionOption == some (r.slot t).obj) = (s.versionOption == some t.obj) := by
        rw [h.version]; exact r.beq_ptr _ _
      rw [b1, b2]
      split
      · exact ⟨h.args, h.look, h.keys, h.keys', rfl, h.version, h.node, h.obj, h.plain, h.books⟩
      · split
        · exact ⟨h.args, h.look, h.keys, h.keys', h.help, rfl, h.node, h.obj, h.plain, h.books⟩
        · exact h
    revert h3
    generalize (if s.helpOption == some t.obj then { s with helpOption := none }
          else if s.versionOption == some t.obj then { s with versionOption := none } else s) = x
    generalize (if s'.helpOption == some (r.slot t).obj then { s' with helpOption := none }
          else if s'.versionOption == some (r.slot t).obj then { s' with versionOption := none } else s') = x'
    intro h3
    refine ih ?_
    have e4 : x'.arguments.filter (fun y => !(y.node == r.n node)) =
        (x.arguments.filter (fun y => !(y.node == node))).map r.slot := by
      rw [h3.args, List.filter_map]
      congr 2
      funext y
      simp only [Function.comp_apply]
      rw [show (r.slot y).node = r.n y.node from rfl, r.beq_n]
    rw [e4]
    exact ⟨rfl, h3.look, h3.keys, h3.keys', h3.help, h3.version, h3.node, h3.obj, h3.plain, fun hb => by
      simp only
      rw [(h3.books hb).1, (h3.books hb).2, List.map_append]; exact ⟨rfl, rfl⟩⟩

theorem removeLoop (ns : List Str) (h : RenamedIn ok r s s') : AgreeIn ok r (State.removeLoop ns s) (State.removeLoop ns s') := by
  induction ns generalizing s s' with
  | nil => exact ⟨h, rfl⟩
  | cons n ns ih =>
    rw [Move.removeLoop_eq, Move.removeLoop_eq, h.look]
    cases h1 : lookupName s.byName n with
    | none => exact ⟨h, rfl⟩
    | some node =>
      simp only [Option.map_some]
      rw [h.atNode]
      cases h2 : s.atNode node with
      | none => exact ⟨h, rfl⟩
      | some t =>
        simp only [Option.map_some]
        rw [show (r.slot t).arg = t.arg from rfl]
        split
        · refine rmTail ns (fun h => ih h) ?_ node t
          have h3 := h.modNode node fun a => { a with names := a.names.erase n }
          refine ⟨h3.args, ?_, keys_filter h.keys _, keys_filter h.keys' _, h.help, h.version, h.node, h.obj, h.plain, h.books⟩
          intro x
          simp only
          rw [lookupName_filter, lookupName_filter, h.look]
          split <;> rfl
        · exact ⟨h, rfl⟩

theorem remove (h : RenamedIn ok r s s') (ns : List Str) : AgreeIn ok r (s.removeArguments ns) (s'.removeArguments ns) := by
  unfold State.removeArguments
  have e : State.firstUnknown s'.byName ns = State.firstUnknown s.byName ns := by
    unfold State.firstUnknown
    congr 1
    funext n
    have := h.exists_ n
    unfold State.argumentExists at this
    rw [this]
  rw [e]
  split
  · exact ⟨h, rfl⟩
  · split
    · exact ⟨h, rfl⟩
    · have h1 := h.removeLoop ns
      revert h1
      generalize State.removeLoop ns s = x
      generalize State.removeLoop ns s' = x'
      obtain ⟨y, res⟩ := x
      obtain ⟨y', res'⟩ := x'
      rintro ⟨h1, rfl : res' = res⟩
      cases res' with
      | ok u => exact RenamedIn.sort h1
      | _ => exact ⟨h1, rfl⟩

theorem clear (h : RenamedIn ok r s s') : RenamedIn ok r s.clear s'.clear := by
  refine ⟨rfl, fun _ => rfl, List.nodup_nil, List.nodup_nil, rfl, rfl, h.node, h.obj, ?_, ?_⟩
  have := congrArg (fun x : State D => x.destLog) h.plain
  have e : s'.destLog = s.destLog := this
  · unfold State.clear State.plain State.deleteAll
    simp only
    rw [e]
  · intro hb
    unfold State.clear State.deleteAll
    simp only
    rw [(h.books hb).1, (h.books hb).2, h.args, List.map_append, List.map_map, List.map_map, List.flatMap_map]
    exact ⟨rfl, rfl⟩

/-! ### Parsing -/

theorem get {α : Type} (h : RenamedIn ok r s s') (f : State D → α) (hf : ∀ x : State D, f x.plain = f x) : f s' = f s := by
  rw [← hf s', h.plain, hf]

theorem typeOf (h : RenamedIn ok r s s') (n : Str) : s'.typeOf n = s.typeOf n := by
  unfold State.typeOf
  rw [h.look]
  cases lookupName s.byName n with
  | none => rfl
  | some k =>
    simp only [Option.map_some]
    rw [h.atNode, Option.map_map]
    rfl

theorem endOfClusters (h : RenamedIn ok r s s') (b : Bool) (cs : List Char) : s'.endOfClusters b cs = s.endOfClusters b cs := by
  induction cs with
  | nil => exact h.exists_ _
  | cons c cs ih =>
    cases cs with
    | nil => exact h.exists_ _
    | cons c2 cs => unfold State.endOfClusters; rw [h.typeOf, ih]

theorem endOfInfinite (h : RenamedIn ok r s s') : s'.endOfInfinite = s.endOfInfinite := by
  funext tok
  unfold State.endOfInfinite
  have e : s'.isAlternative = s.isAlternative := h.get (fun x => x.isAlternative) fun _ => rfl
  simp only [h.exists_, h.endOfClusters, e]

theorem parseAt (h : RenamedIn ok r s s') (argv : List Str) (max index : Nat) (b : Bool) (o a : Str) (n : Nat) :
    AgreeIn ok r (s.parseAt argv max index b o a n) (s'.parseAt argv max index b o a (r.n n)) := by
  unfold State.parseAt
  rw [h.atNode, h.endOfInfinite]
  cases s.atNode n with
  | none => exact ⟨h, rfl⟩
  | some t =>
    exact ⟨h.modNode n fun _ => (Argument.parseArgument s.endOfInfinite argv max index b o a t.arg).1, rfl⟩

theorem parseCluster (argv : List Str) (max index : Nat) (b : Bool) (a : Str) (cs : List Char) (h : RenamedIn ok r s s') :
    AgreeIn ok r (State.parseCluster argv max index b a cs s) (State.parseCluster argv max index b a cs s') := by
  induction cs generalizing s s' with
  | nil =>
    unfold State.parseCluster
    rw [h.look]
    cases lookupName s.byName (shortFlag '-') with
    | none => exact ⟨h, rfl⟩
    | some k => exact h.parseAt ..
  | cons c cs ih =>
    cases cs with
    | nil =>
      unfold State.parseCluster
      rw [h.look]
      cases lookupName s.byName (shortFlag c) with
      | none => exact ⟨h, rfl⟩
      | some k => exact h.parseAt ..
    | cons c2 cs =>
      unfold State.parseCluster
      rw [h.look]
      cases lookupName s.byName (shortFlag c) with
      | none => exact ⟨h, rfl⟩
      | some k =>
        simp only [Option.map_some]
        rw [h.atNode]
        cases s.atNode k with
        | none => exact ⟨h, rfl⟩
        | some t =>
          simp only [Option.map_some]
          rw [show (r.slot t).arg = t.arg from rfl]
          split
          · exact (h.modNode k _).parseAt ..
          · split
            · exact ⟨h, rfl⟩
            · exact ih (h.modNode k _)

theorem parseShort (h : RenamedIn ok r s s') (argv : List Str) (max index : Nat) (tok : Str) :
    AgreeIn ok r (s.parseShort argv max index tok) (s'.parseShort argv max index tok) := by
  unfold State.parseShort
  generalize takeArg tok = x
  obtain ⟨o, a, b⟩ := x
  simp only
  have e : s'.isAlternative = s.isAlternative := h.get (fun x => x.isAlternative) fun _ => rfl
  rw [h.look, e]
  cases s.isAlternative with
  | false => exact h.parseCluster ..
  | true =>
    simp only [if_true]
    cases lookupName s.byName ('-' :: o) with
    | none => exact h.parseCluster ..
    | some k => exact h.parseAt ..

theorem parseLong (h : RenamedIn ok r s s') (argv : List Str) (max index : Nat) (tok : Str) :
    AgreeIn ok r (s.parseLong argv max index tok) (s'.parseLong argv max index tok) := by
  unfold State.parseLong
  generalize takeArg tok = x
  obtain ⟨o, a, b⟩ := x
  simp only
  rw [h.look]
  cases lookupName s.byName o with
  | none => exact ⟨h, rfl⟩
  | some k => exact h.parseAt ..

theorem nextPositional (h : RenamedIn ok r s s') : s'.nextPositional = s.nextPositional.map r.slot := by
  unfold State.nextPositional
  rw [h.args, List.find?_map]
  rfl

theorem parsePositionalTok (h : RenamedIn ok r s s') (argv : List Str) (argc index : Nat) (b : Bool) :
    AgreeIn ok r (s.parsePositionalTok argv argc index b) (s'.parsePositionalTok argv argc index b) := by
  unfold State.parsePositionalTok
  rw [h.nextPositional, h.endOfInfinite]
  cases s.nextPositional with
  | none =>
    simp only [Option.map_none]
    cases argv[index]? with
    | none => exact ⟨h, rfl⟩
    | some v =>
      simp only
      have e : s'.isStrict = s.isStrict := h.get (fun x => x.isStrict) fun _ => rfl
      have e2 : s'.additional = s.additional := h.get (fun x => x.additional) fun _ => rfl
      rw [e, e2]
      split
      · exact ⟨h, rfl⟩
      · refine ⟨⟨h.args, h.look, h.keys, h.keys', h.help, h.version, h.node, h.obj, ?_, h.books⟩, rfl⟩
        exact congrArg (fun x : State D => { x with additional := s.additional ++ [v], isStrict := s.isStrict }) h.plain
  | some t =>
    exact ⟨h.modNode t.node fun _ =>
      (Argument.parsePositional (if b = true then fun _ => false else s.endOfInfinite) argv argc index t.arg).1, rfl⟩

theorem endLoop (argv : List Str) (f i : Nat) (h : RenamedIn ok r s s') :
    AgreeIn ok r (State.endLoop argv f i s) (State.endLoop argv f i s') := by
  induction f generalizing i s s' with
  | zero => exact ⟨h, rfl⟩
  | succ f ih =>
    unfold State.endLoop
    split
    · have h1 := h.parsePositionalTok argv argv.length i true
      revert h1
      generalize s.parsePositionalTok argv argv.length i true = x
      generalize s'.parsePositionalTok argv argv.length i true = x'
      obtain ⟨y, res⟩ := x
      obtain ⟨y', res'⟩ := x'
      rintro ⟨h1, rfl : res' = res⟩
      cases res' with
      | ok i1 => exact ih i1 h1
      | _ => exact ⟨h1, rfl⟩
    · exact ⟨h, rfl⟩

theorem mainLoop (argv : List Str) (e f i : Nat) (h : RenamedIn ok r s s') :
    AgreeIn ok r (State.mainLoop argv e f i s) (State.mainLoop argv e f i s') := by
  induction f generalizing i s s' with
  | zero => exact ⟨h, rfl⟩
  | succ f ih =>
    have next : ∀ {x x' : State D × Res Nat}, AgreeIn ok r x x' →
        AgreeIn ok r
          (match x with
          | (st1, .ok i1) => State.mainLoop argv e f i1 st1
          | (st1, r) => (st1, r.cast))
          (match x' with
          | (st1, .ok i1) => State.mainLoop argv e f i1 st1
          | (st1, r) => (st1, r.cast)) := by
      rintro ⟨y, res⟩ ⟨y', res'⟩ ⟨h1, rfl : res' = res⟩
      cases res' with
      | ok i1 => exact ih i1 h1
      | _ => exact ⟨h1, rfl⟩
    unfold State.mainLoop
    split
    · cases argv[i]? with
      | none => exact ⟨h, rfl⟩
      | some tok =>
        simp only
        split
        · exact next (h.parseShort ..)
        · split
          · exact next (h.parseLong ..)
          · split
            · exact h.endLoop ..
            · exact next (h.parsePositionalTok ..)
    · exact ⟨h, rfl⟩

theorem finishAll (scan : Str → Option D) (l : List (Slot D)) :
    BletArgs.finishAll scan (l.map r.slot) =
      ((BletArgs.finishAll scan l).1.map r.slot, (BletArgs.finishAll scan l).2.1, (BletArgs.finishAll scan l).2.2) := by
  induction l with
  | nil => rfl
  | cons s l ih =>
    rw [List.map_cons]
    unfold BletArgs.finishAll
    rw [ih, show (r.slot s).arg = s.arg from rfl]
    generalize s.arg.finish scan = x
    obtain ⟨a, w, res⟩ := x
    cases res <;> rfl

theorem firstMissing (l : List (Slot D)) : BletArgs.firstMissing (l.map r.slot) = BletArgs.firstMissing l := by
  unfold BletArgs.firstMissing
  rw [List.find?_map, Option.map_map]
  rfl

theorem getUsage (h : RenamedIn ok r s s') : s'.getUsage = s.getUsage := by
  have ha : s'.arguments.map (·.arg) = s.arguments.map (·.arg) := by
    rw [h.args, List.map_map]
    rfl
  have he : s'.arguments.isEmpty = s.arguments.isEmpty := by
    rw [h.args, List.isEmpty_map]
  have e1 : s'.usage = s.usage := h.get (fun x => x.usage) fun _ => rfl
  have e2 : s'.description = s.description := h.get (fun x => x.description) fun _ => rfl
  have e3 : s'.epilog = s.epilog := h.get (fun x => x.epilog) fun _ => rfl
  have e4 : s'.padWidth = s.padWidth := h.get (fun x => x.padWidth) fun _ => rfl
  have e5 : s'.argsWidth = s.argsWidth := h.get (fun x => x.argsWidth) fun _ => rfl
  have e6 : s'.sepWidth = s.sepWidth := h.get (fun x => x.sepWidth) fun _ => rfl
  have e7 : s'.helpWidth = s.helpWidth := h.get (fun x => x.helpWidth) fun _ => rfl
  have e8 : s'.binaryName = s.binaryName := h.get (fun x => x.binaryName) fun _ => rfl
  have f1 : s'.indexMax = s.indexMax := by unfold State.indexMax; rw [e4, e5, e6, e7]
  have f2 : s'.row = s.row := by funext l a; unfold State.row; rw [e4, e5, e6, e7]
  have f3 : s'.positionalRow = s.positionalRow := by funext l a; unfold State.positionalRow; rw [f2]
  have f4 : s'.optionRow = s.optionRow := by funext l a; unfold State.optionRow; rw [f2]
  have f5 : s'.usageHead = s.usageHead := by unfold State.usageHead; rw [e8]
  have f6 : s'.textBlock = s.textBlock := by funext l; unfold State.textBlock; rw [f1]
  have f7 : s'.usageLine = s.usageLine := by unfold State.usageLine; rw [ha, f1, f5]
  have f8 : s'.sections = s.sections := by funext v; unfold State.sections; rw [ha, he, f3, f4]
  unfold State.getUsage
  rw [f6, f7, f8, e1, e2, e3]

theorem optionSeen (h : RenamedIn ok r s s') (p : Option Nat) : s'.optionSeen (p.map r.o) = s.optionSeen p := by
  cases p with
  | none => rfl
  | some o =>
    show (s'.atObj (r.o o)).map _ = _
    rw [h.atObj, Option.map_map]
    rfl

theorem finishParse (scan : Str → Option D) (h : RenamedIn ok r s s') : AgreeIn ok r (s.finishParse scan) (s'.finishParse scan) := by
  unfold State.finishParse
  rw [h.args, firstMissing]
  cases BletArgs.firstMissing s.arguments with
  | some e => exact ⟨h, rfl⟩
  | none =>
    simp only
    rw [finishAll]
    refine ⟨⟨rfl, h.look, h.keys, h.keys', h.help, h.version, h.node, h.obj, ?_, h.books⟩, rfl⟩
    have e : s'.destLog = s.destLog := h.get (fun x => x.destLog) fun _ => rfl
    rw [e]
    exact congrArg (fun x : State D => { x with destLog := s.destLog ++ (BletArgs.finishAll scan s.arguments).2.1 }) h.plain

theorem afterLoop (scan : Str → Option D) (h : RenamedIn ok r s s') : AgreeIn ok r (s.afterLoop scan) (s'.afterLoop scan) := by
  unfold State.afterLoop
  have e1 : s'.isHelpException = s.isHelpException := h.get (fun x => x.isHelpException) fun _ => rfl
  have e2 : s'.isVersionException = s.isVersionException := h.get (fun x => x.isVersionException) fun _ => rfl
  have e3 : s'.version = s.version := h.get (fun x => x.version) fun _ => rfl
  rw [h.help, h.version, h.optionSeen, h.optionSeen, h.getUsage, e1, e2, e3]
  cases s.optionSeen s.helpOption with
  | none => exact ⟨h, rfl⟩
  | some b =>
    cases b with
    | true => simp only; split; exact ⟨h, rfl⟩; exact ⟨h.clear, rfl⟩
    | false =>
      simp only
      cases s.optionSeen s.versionOption with
      | none => exact ⟨h, rfl⟩
      | some b =>
        cases b with
        | true => simp only; split; exact ⟨h, rfl⟩; exact ⟨h.clear, rfl⟩
        | false => exact h.finishParse scan

theorem resetAll (h : RenamedIn ok r s s') : RenamedIn ok r s.resetAll s'.resetAll := by
  unfold State.resetAll
  have e : (s.arguments.map r.slot).map (fun s => { s with arg := s.arg.reset }) =
      (s.arguments.map fun s => { s with arg := s.arg.reset }).map r.slot := by
    rw [List.map_map, List.map_map]; rfl
  rw [h.args, e]
  exact h.slots _

theorem autoHelp (h : RenamedIn ok r s s') (ho : ok.Has s) : AgreeIn ok r s.autoHelp s'.autoHelp := by
  unfold State.autoHelp
  rw [show s'.helpOption.isNone = s.helpOption.isNone by rw [h.help]; cases s.helpOption <;> rfl]
  simp only [h.exists_]
  split
  · split
    · exact ⟨h, rfl⟩
    · have h1 := h.add ho ((if s.argumentExists "-h".toList = true then [] else ["-h".toList]) ++
        if s.argumentExists "--help".toList = true then [] else ["--help".toList])
      revert h1
      generalize s.addArgument _ = x
      generalize s'.addArgument _ = x'
      obtain ⟨y, res⟩ := x
      obtain ⟨y', res'⟩ := x'
      rintro ⟨h1, e : res' = _⟩
      subst e
      cases res with
      | ok ref =>
        simp only [Ren.ref]
        have h2 := RenamedIn.action h1 ref .help
        revert h2
        dsimp only
        generalize State.action _ _ _ = x
        generalize State.action _ _ _ = x'
        obtain ⟨z, res⟩ := x
        obtain ⟨z', res'⟩ := x'
        rintro ⟨h2, rfl : res' = res⟩
        cases res' with
        | ok _ =>
          simp only
          have h3 := RenamedIn.setHelp h2 ref "show this help message and exit".toList
          revert h3
          dsimp only
          generalize State.setHelp _ _ _ = x
          generalize State.setHelp _ _ _ = x'
          obtain ⟨z, res⟩ := x
          obtain ⟨z', res'⟩ := x'
          rintro ⟨h3, rfl : res' = res⟩
          cases res' <;> exact ⟨h3, rfl⟩
        | _ => exact ⟨h2, rfl⟩
      | _ => exact ⟨h1, rfl⟩
  · exact ⟨h, rfl⟩

theorem setBinary (h : RenamedIn ok r s s') (argv : List Str) : AgreeIn ok r (s.setBinaryIfEmpty argv) (s'.setBinaryIfEmpty argv) := by
  unfold State.setBinaryIfEmpty
  have e : s'.binaryName = s.binaryName := h.get (fun x => x.binaryName) fun _ => rfl
  rw [e]
  split
  · cases argv[0]? with
    | none => exact ⟨h, rfl⟩
    | some b =>
      refine ⟨⟨h.args, h.look, h.keys, h.keys', h.help, h.version, h.node, h.obj, ?_, h.books⟩, rfl⟩
      exact congrArg (fun x : State D => { x with binaryName := b }) h.plain
  · exact ⟨h, rfl⟩

theorem parse (scan : Str → Option D) (h : RenamedIn ok r s s') (ho : ok.Has s) (argv : List Str) :
    AgreeIn ok r (s.parseArguments scan argv) (s'.parseArguments scan argv) := by
  unfold State.parseArguments
  have h1 := h.resetAll.autoHelp ho
  revert h1
  generalize s.resetAll.autoHelp = x
  generalize s'.resetAll.autoHelp = x'
  obtain ⟨y, res⟩ := x
  obtain ⟨y', res'⟩ := x'
  rintro ⟨h1, rfl : res' = res⟩
  cases res' with
  | ok b =>
    cases b with
    | false => exact ⟨h1, rfl⟩
    | true =>
      simp only
      have h2 := RenamedIn.setBinary h1 argv
      revert h2
      dsimp only
      generalize State.setBinaryIfEmpty _ _ = x
      generalize State.setBinaryIfEmpty _ _ = x'
      obtain ⟨z, res⟩ := x
      obtain ⟨z', res'⟩ := x'
      rintro ⟨h2, rfl : res' = res⟩
      cases res' with
      | ok _ =>
        simp only
        have hb : z'.loopBudget argv = z.loopBudget argv := by
          unfold State.loopBudget
          have := congrArg List.length h2.args
          rw [List.length_map] at this
          dsimp only at this
          rw [this]
        rw [hb]
        have h3 := RenamedIn.mainLoop argv (endOptionIndex argv) (z.loopBudget argv) 1 h2
        revert h3
        dsimp only
        generalize State.mainLoop _ _ _ _ _ = x
        generalize State.mainLoop _ _ _ _ _ = x'
        obtain ⟨w, res⟩ := x
        obtain ⟨w', res'⟩ := x'
        rintro ⟨h3, rfl : res' = res⟩
        cases res' with
        | ok _ => exact RenamedIn.afterLoop scan h3
        | _ => exact ⟨h3, rfl⟩
      | _ => exact ⟨h2, rfl⟩
  | _ => exact ⟨h1, rfl⟩

/-- Corresponding calls on corresponding states. -/
theorem step (scan : Str → Option D) (h : RenamedIn ok r s s') (ho : ok.Has s) (op : Op) :
    AgreeIn ok r (BletArgs.step scan s op) (BletArgs.step scan s' (r.op op)) := by
  have void : ∀ {x x' : State D × Res Nat}, AgreeRefIn ok r x x' → AgreeIn ok r (x.1, x.2.void) (x'.1, x'.2.void) := by
    rintro ⟨y, res⟩ ⟨y', res'⟩ ⟨h1, e : res' = _⟩
    subst e
    refine ⟨h1, ?_⟩
    cases res <;> rfl
  have set : ∀ f : State D → State D, (∀ x : State D, (f x).plain = f x.plain) →
      (∀ x : State D, (f x).arguments = x.arguments ∧ (f x).byName = x.byName ∧ (f x).helpOption = x.helpOption ∧
        (f x).versionOption = x.versionOption ∧ (f x).nextNode = x.nextNode ∧ (f x).nextObj = x.nextObj ∧
        (f x).freedObjs = x.freedObjs ∧ (f x).freedValids = x.freedValids) →
      AgreeIn (α := Unit) ok r (f s, .ok ()) (f s', .ok ()) := by
    intro f hp hf
    obtain ⟨a1, a2, a3, a4, a5, a6, a7, a8⟩ := hf s
    obtain ⟨b1, b2, b3, b4, b5, b6, b7, b8⟩ := hf s'
    refine ⟨⟨?_, ?_, ?_, ?_, ?_, ?_, ?_, ?_, ?_, ?_⟩, rfl⟩ <;> simp only
    · rw [a1, b1]; exact h.args
    · rw [a2, b2]; exact h.look
    · rw [a2]; exact h.keys
    · rw [b2]; exact h.keys'
    · rw [a3, b3]; exact h.help
    · rw [a4, b4]; exact h.version
    · rw [a5, b5]; exact h.node
    · rw [a6, b6]; exact h.obj
    · rw [hp, hp, h.plain]
    · rw [a7, b7, a8, b8]; exact h.books
  cases op with
  | add ns => exact void (h.add ho ns)
  | dest ref d => exact void (h.setDest ho.2 ref d)
  | remove ns => exact h.remove ns
  | clear => exact ⟨h.clear, rfl⟩
  | flag ref f => exact h.flag ref f
  | action ref a => exact h.action ref a
  | nargs ref n => exact h.nargs ref n
  | defaults ref ds => exact h.defaults ref ds
  | required ref b => exact h.required ref b
  | help ref x => exact h.setHelp ref x
  | metavar ref m => exact h.setMetavar ref m
  | edit ref items => exact h.edit scan ref items
  | behave ref c x => exact h.behave ref c x
  | valid ref v d => exact h.setValid ref v d
  | parse argv => exact h.parse scan ho argv
  | setBinaryName x => exact set (fun s => { s with binaryName := x }) (fun _ => rfl) (fun _ => ⟨rfl, rfl, rfl, rfl, rfl, rfl, rfl, rfl⟩)
  | setVersion x => exact set (fun s => { s with version := x }) (fun _ => rfl) (fun _ => ⟨rfl, rfl, rfl, rfl, rfl, rfl, rfl, rfl⟩)
  | setAlternative x => exact set (fun s => { s with isAlternative := x }) (fun _ => rfl) (fun _ => ⟨rfl, rfl, rfl, rfl, rfl, rfl, rfl, rfl⟩)
  | setStrict x => exact set (fun s => { s with isStrict := x }) (fun _ => rfl) (fun _ => ⟨rfl, rfl, rfl, rfl, rfl, rfl, rfl, rfl⟩)
  | setHelpException x => exact set (fun s => { s with isHelpException := x }) (fun _ => rfl) (fun _ => ⟨rfl, rfl, rfl, rfl, rfl, rfl, rfl, rfl⟩)
  | setVersionException x => exact set (fun s => { s with isVersionException := x }) (fun _ => rfl) (fun _ => ⟨rfl, rfl, rfl, rfl, rfl, rfl, rfl, rfl⟩)
  | setUsage x => exact set (fun s => { s with usage := x }) (fun _ => rfl) (fun _ => ⟨rfl, rfl, rfl, rfl, rfl, rfl, rfl, rfl⟩)
  | setDescription x => exact set (fun s => { s with description := x }) (fun _ => rfl) (fun _ => ⟨rfl, rfl, rfl, rfl, rfl, rfl, rfl, rfl⟩)
  | setEpilog x => exact set (fun s => { s with epilog := x }) (fun _ => rfl) (fun _ => ⟨rfl, rfl, rfl, rfl, rfl, rfl, rfl, rfl⟩)
  | setUsageWidth p a sp hp =>
    exact set (fun s => { s with padWidth := p, argsWidth := a, sepWidth := sp, helpWidth := hp }) (fun _ => rfl)
      (fun _ => ⟨rfl, rfl, rfl, rfl, rfl, rfl, rfl, rfl⟩)

end RenamedIn

/-- The states correspond, and go on doing so whatever is created. -/
abbrev Renamed (r : Ren) (s s' : State D) : Prop := RenamedIn Room.all r s s'

theorem Room.all_has (s : State D) : Room.all.Has s := ⟨trivial, trivial⟩

end BletArgs
