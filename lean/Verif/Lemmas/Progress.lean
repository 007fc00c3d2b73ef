import Verif.Lemmas.ForAll
import Verif.Lemmas.ReadsTok
/-
The loops of the parser: every iteration makes progress, and none runs into undefined behaviour.
-/
namespace BletArgs
open Spec
variable {D : Type} {full : Prop}

/-! ### Single arguments -/

theorem scanGroups_ends {stop : Str → Bool} {argv : List Str} {max nargs : Nat} (hn : 0 < nargs)
    (hw : max + nargs < two64) (f : Nat) :
    ∀ i, max - i < f → (scanGroups stop argv max nargs f i).2 ≠ .forever := by
  induction f with
  | zero => intro i h; omega
  | succ f ih =>
    intro i hf
    unfold scanGroups
    split
    · next hlt =>
      split
      · simp
      · split
        · simp
        · simp only
          have hmod : (i + nargs) % two64 = i + nargs := Nat.mod_eq_of_lt (by omega)
          rw [hmod]
          split
          · simp
          · split
            · simp
            · exact ih _ (by omega)
    · simp

theorem readRange_ok {argv : List Str} (n : Nat) : ∀ lo, (n = 0 ∨ lo + n ≤ argv.length) → readRange argv lo n ≠ none := by
  induction n with
  | zero => intro lo _; unfold readRange; simp
  | succ n ih =>
    intro lo h
    unfold readRange
    have hl : lo < argv.length := by omega
    rw [List.getElem?_eq_getElem hl]
    simp only
    have := ih (lo + 1) (by omega)
    cases hr : readRange argv (lo + 1) n with
    | none => exact absurd hr this
    | some v => simp

theorem scanGroups_inBounds {stop : Str → Bool} {argv : List Str} {max nargs : Nat} (hm : max ≤ argv.length) (f : Nat) :
    ∀ i, (scanGroups stop argv max nargs f i).2 ≠ .oob := by
  induction f with
  | zero => intro i; unfold scanGroups; simp
  | succ f ih =>
    intro i
    unfold scanGroups
    split
    · next hlt =>
      rw [List.getElem?_eq_getElem (by omega)]
      simp only
      split
      · simp
      · split
        · simp
        · next hs =>
          split
          · next hr => exact absurd hr (readRange_ok _ _ (by omega))
          · exact ih _
    · simp

theorem scanInfinite_inBounds {stop : Str → Bool} {argv : List Str} (n : Nat) :
    ∀ i, (n = 0 ∨ i + n ≤ argv.length) → scanInfinite stop argv n i ≠ none := by
  induction n with
  | zero => intro i _; unfold scanInfinite; simp
  | succ n ih =>
    intro i h
    unfold scanInfinite
    rw [List.getElem?_eq_getElem (by omega)]
    simp only
    split
    · simp
    · have := ih (i + 1) (by omega)
      cases hr : scanInfinite stop argv n (i + 1) with
      | none => exact absurd hr this
      | some v => simp

/-- No out-of-bounds read while an option takes its values. -/
theorem parseArgument_inBounds {argv : List Str} {stop : Str → Bool} {max index : Nat} {hasArg : Bool} {option arg : Str}
    {a : Argument D} (hm : max ≤ argv.length) (w : String) :
    (a.parseArgument stop argv max index hasArg option arg).2 ≠ .ub w := by
  unfold Argument.parseArgument
  cases hasArg with
  | true => simp only [if_true]; cases a.type <;> simp
  | false =>
    simp only [Bool.false_eq_true, if_false]
    cases ht : a.type <;> simp only
    case simple | multi =>
      split
      · simp
      · rw [List.getElem?_eq_getElem (by omega)]; simp
    case number | multiNumber =>
      split
      · simp
      · split
        · next hr => exact absurd hr (readRange_ok _ _ (by omega))
        · simp
    case infinite | multiInfinite =>
      split
      · next hr => exact absurd hr (scanInfinite_inBounds _ _ (by omega))
      · simp
    case multiNumberInfinite =>
      have hs := scanGroups_inBounds (stop := stop) (nargs := a.clearIfFirst.nargs) hm (max + 1) (index + 1)
      generalize scanGroups stop argv max a.clearIfFirst.nargs (max + 1) (index + 1) = r at hs ⊢
      obtain ⟨gs, r⟩ := r
      cases r <;> simp at hs ⊢
    all_goals simp

theorem parsePositional_inBounds {argv : List Str} {stop : Str → Bool} {argc index : Nat}
    {a : Argument D} (hm : argc ≤ argv.length) (hx : index < argv.length) (w : String) :
    (a.parsePositional stop argv argc index).2 ≠ .ub w := by
  unfold Argument.parsePositional
  cases ht : a.type <;> simp only
  case pos => rw [List.getElem?_eq_getElem hx]; simp
  case numberPos =>
    split
    · simp
    · split
      · next hr => exact absurd hr (readRange_ok _ _ (by omega))
      · simp
  case infinitePos =>
    split
    · next hr => exact absurd hr (scanInfinite_inBounds _ _ (by omega))
    · simp
  case infiniteNumberPos =>
    have hs := scanGroups_inBounds (stop := stop) (nargs := a.nargs) hm (argc + 1) index
    generalize scanGroups stop argv argc a.nargs (argc + 1) index = r at hs ⊢
    obtain ⟨gs, r⟩ := r
    cases r <;> simp at hs ⊢
  all_goals simp

/-- An option consumes at least its own token. -/
theorem parseArgument_progress {argv : List Str} {stop : Str → Bool} {max index : Nat} {hasArg : Bool} {option arg : Str}
    {a : Argument D} (hm : max ≤ argv.length) (hx : index < argv.length) (hw : argv.length + a.nargs < two64)
    (hg : a.type = .multiNumberInfinite → 0 < a.nargs) :
    (a.parseArgument stop argv max index hasArg option arg).2 ≠ .diverge ∧
    ∀ i, (a.parseArgument stop argv max index hasArg option arg).2 = .ok i → index < i := by
  have hmod : (index + a.nargs) % two64 = index + a.nargs := Nat.mod_eq_of_lt (by omega)
  have hcn : a.clearIfFirst.nargs = a.nargs := by unfold Argument.clearIfFirst; split <;> rfl
  unfold Argument.parseArgument
  cases hasArg with
  | true => simp only [if_true]; cases a.type <;> simp <;> omega
  | false =>
    simp only [Bool.false_eq_true, if_false]
    cases ht : a.type <;> simp only
    case simple | multi =>
      split
      · simp
      · split <;> simp
        omega
    case number =>
      rw [hmod]
      split
      · simp
      · split <;> simp
        omega
    case multiNumber =>
      rw [hcn, hmod]
      split
      · simp
      · split <;> simp
        omega
    case infinite | multiInfinite =>
      split <;> simp
      omega
    case multiNumberInfinite =>
      have hs := scanGroups_ends (stop := stop) (argv := argv) (max := max) (nargs := a.clearIfFirst.nargs)
        (by rw [hcn]; exact hg ht) (by rw [hcn]; omega) (max + 1) (index + 1) (by omega)
      generalize scanGroups stop argv max a.clearIfFirst.nargs (max + 1) (index + 1) = r at hs ⊢
      obtain ⟨gs, r⟩ := r
      cases r <;> simp at hs ⊢
      omega
    all_goals simp

/-- A positional argument that takes values is then filled. -/
theorem parsePositional_progress {argv : List Str} {stop : Str → Bool} {argc index : Nat}
    {a : Argument D} (hm : argc ≤ argv.length) (hx : index < argv.length) (hw : argv.length + a.nargs < two64)
    (hg : a.type = .infiniteNumberPos → 0 < a.nargs) :
    (a.parsePositional stop argv argc index).2 ≠ .diverge ∧
    ∀ i, (a.parsePositional stop argv argc index).2 = .ok i →
      index ≤ i ∧ (a.parsePositional stop argv argc index).1.isExist = true := by
  have hmod : (index + a.nargs) % two64 = index + a.nargs := Nat.mod_eq_of_lt (by omega)
  unfold Argument.parsePositional
  cases ht : a.type <;> simp only
  case pos => split <;> simp
  case numberPos =>
    rw [hmod]
    split
    · simp
    · split <;> simp
  case infinitePos =>
    split <;> simp
  case infiniteNumberPos =>
    have hs := scanGroups_ends (stop := stop) (argv := argv) (max := argc) (nargs := a.nargs)
      (hg ht) (by omega) (argc + 1) index (by omega)
    generalize scanGroups stop argv argc a.nargs (argc + 1) index = r at hs ⊢
    obtain ⟨gs, r⟩ := r
    cases r <;> simp at hs ⊢
  all_goals simp <;> omega

theorem parseArgument_exists {argv : List Str} {stop : Str → Bool} {max index : Nat} {hasArg : Bool} {option arg : Str}
    {a : Argument D} (h : a.isExist = true) :
    (a.parseArgument stop argv max index hasArg option arg).1.isExist = true := by
  unfold Argument.parseArgument
  cases hasArg <;> simp only [if_true, Bool.false_eq_true, if_false] <;> cases ht : a.type <;> simp only <;>
    (repeat' split) <;> simp [Argument.mark, Argument.push, Argument.clearIfFirst, h]

/-! ### Counting the positional arguments still to be filled -/

def Slot.waits (s : Slot D) : Bool := !s.arg.isExist && s.arg.isPositional
def State.unfilled (st : State D) : Nat := st.arguments.countP Slot.waits

theorem countP_lt {α : Type} {p q : α → Bool} {l : List α} (h : ∀ x ∈ l, q x = true → p x = true) {y : α} (hy : y ∈ l)
    (h1 : p y = true) (h2 : q y = false) : l.countP q < l.countP p := by
  induction l with
  | nil => cases hy
  | cons x l ih =>
    have hle : l.countP q ≤ l.countP p :=
      List.countP_mono_left fun z hz => h z (List.mem_cons_of_mem _ hz)
    rw [List.countP_cons, List.countP_cons]
    rcases List.mem_cons.1 hy with rfl | hy
    · rw [h1, h2]; simp; omega
    · have := ih (fun z hz => h z (List.mem_cons_of_mem _ hz)) hy
      have hx := h x (by simp)
      cases hq : q x with
      | false => simp; omega
      | true => rw [hx hq]; simp; omega

theorem modNode_unfilled {st : State D} {node : Nat} {f : Argument D → Argument D}
    (h : ∀ s ∈ st.arguments, s.node = node → (f s.arg).isPositional = s.arg.isPositional ∧
      (s.arg.isExist = true → (f s.arg).isExist = true)) : (st.modNode node f).unfilled ≤ st.unfilled := by
  unfold State.unfilled State.modNode
  rw [List.countP_map]
  refine List.countP_mono_left fun s hs hw => ?_
  simp only [Function.comp] at hw
  by_cases e : s.node = node
  · obtain ⟨h1, h2⟩ := h s hs e
    simp only [e, beq_self_eq_true, if_true, Slot.waits, h1, Bool.and_eq_true, Bool.not_eq_true'] at hw ⊢
    refine ⟨?_, hw.2⟩
    cases hx : s.arg.isExist with
    | false => rfl
    | true => rw [h2 hx] at hw; cases hw.1
  · simpa [e] using hw

theorem modNode_fills {st : State D} {s : Slot D} (hs : s ∈ st.arguments) (hw : s.waits = true)
    {a : Argument D} (ha : a.isExist = true) :
    (st.modNode s.node (fun _ => a)).unfilled < st.unfilled := by
  unfold State.unfilled State.modNode
  rw [List.countP_map]
  refine countP_lt ?_ hs hw ?_
  · intro t ht htw
    simp only [Function.comp] at htw
    by_cases e : t.node = s.node
    · simp [e, Slot.waits, ha] at htw
    · simpa [e] using htw
  · simp [Slot.waits, ha]

/-- One token: no endless loop, and if the parser goes on, something was consumed. -/
def Moves (st : State D) (argv : List Str) (index : Nat) (r : State D × Res Nat) : Prop :=
  r.2 ≠ .diverge ∧ ∀ i, r.2 = .ok i →
    argv.length - i + r.1.unfilled < argv.length - index + st.unfilled

/-- An option token. -/
def MovesOn (st : State D) (index : Nat) (r : State D × Res Nat) : Prop :=
  r.2 ≠ .diverge ∧ r.1.unfilled ≤ st.unfilled ∧ ∀ i, r.2 = .ok i → index < i

theorem MovesOn.moves {st : State D} {argv : List Str} {index : Nat} {r : State D × Res Nat} (hx : index < argv.length)
    (h : MovesOn st index r) : Moves st argv index r := by
  refine ⟨h.1, fun i hi => ?_⟩
  have := h.2.1
  have := h.2.2 i hi
  omega

theorem parseAt_moves {st : State D} {argv : List Str} (h : Sane st argv.length) {max index : Nat}
    (hm : max ≤ argv.length) (hx : index < argv.length) (hasArg : Bool) (option arg : Str) (node : Nat) :
    MovesOn st index (st.parseAt argv max index hasArg option arg node) := by
  unfold State.parseAt
  cases hs : st.atNode node with
  | none => exact ⟨by simp, Nat.le_refl _, by simp⟩
  | some s =>
    obtain ⟨hm', hn⟩ := State.atNode_some hs
    have hp := parseArgument_progress (stop := st.endOfInfinite) (hasArg := hasArg) (option := option) (arg := arg)
      hm hx (h.small s hm') (fun e => h.groups s hm' (.inl e))
    refine ⟨hp.1, ?_, hp.2⟩
    refine modNode_unfilled fun t ht e => ?_
    obtain rfl := inj_of_nodup Slot.node h.inv.nodes ht hm' (e.trans hn.symm)
    refine ⟨?_, fun hx => parseArgument_exists hx⟩
    exact (congrArg (fun x : Argument D => x.isPositional)
      (t.arg.parseArgument_config st.endOfInfinite argv max index hasArg option arg) :)

theorem parseCluster_moves {argv : List Str} {max index : Nat}
    (hm : max ≤ argv.length) (hx : index < argv.length) (hasArg : Bool) (arg : Str) (cs : List Char) {st : State D}
    (h : Sane st argv.length) : MovesOn st index (State.parseCluster argv max index hasArg arg cs st) := by
  induction cs generalizing st with
  | nil =>
    unfold State.parseCluster
    split
    · exact ⟨by simp, Nat.le_refl _, by simp⟩
    · exact parseAt_moves h hm hx ..
  | cons c cs ih =>
    cases cs with
    | nil =>
      unfold State.parseCluster
      split
      · exact ⟨by simp, Nat.le_refl _, by simp⟩
      · exact parseAt_moves h hm hx ..
    | cons c2 rest =>
      unfold State.parseCluster
      split
      · exact ⟨by simp, Nat.le_refl _, by simp⟩
      · next n _ =>
        split
        · exact ⟨by simp, Nat.le_refl _, by simp⟩
        · have hc : (st.modNode n Argument.mark).config = st.config := modNode_config fun s _ _ => mark_config s.arg
          have hu : (st.modNode n Argument.mark).unfilled ≤ st.unfilled :=
            modNode_unfilled fun s _ _ => ⟨rfl, fun _ => rfl⟩
          split
          · obtain ⟨h1, h2, h3⟩ := parseAt_moves (h.of_config hc) hm hx true [c] (c2 :: rest) n
            exact ⟨h1, Nat.le_trans h2 hu, h3⟩
          · split
            · exact ⟨by simp, Nat.le_refl _, by simp⟩
            · obtain ⟨h1, h2, h3⟩ := ih (h.of_config hc)
              exact ⟨h1, Nat.le_trans h2 hu, h3⟩

theorem parseShort_moves {st : State D} {argv : List Str} (h : Sane st argv.length) {max index : Nat}
    (hm : max ≤ argv.length) (hx : index < argv.length) (tok : Str) :
    MovesOn st index (st.parseShort argv max index tok) := by
  unfold State.parseShort
  split
  split
  · exact parseAt_moves h hm hx ..
  · exact parseCluster_moves hm hx _ _ _ h

theorem parseLong_moves {st : State D} {argv : List Str} (h : Sane st argv.length) {max index : Nat}
    (hm : max ≤ argv.length) (hx : index < argv.length) (tok : Str) :
    MovesOn st index (st.parseLong argv max index tok) := by
  unfold State.parseLong
  split
  split
  · exact ⟨by simp, Nat.le_refl _, by simp⟩
  · exact parseAt_moves h hm hx ..

theorem parsePositionalTok_moves {st : State D} {argv : List Str} (h : Sane st argv.length) {max index : Nat}
    (hm : max ≤ argv.length) (hx : index < argv.length) (e : Bool) :
    Moves st argv index (st.parsePositionalTok argv max index e) := by
  unfold State.parsePositionalTok
  cases hs : st.nextPositional with
  | some s =>
    have hmem := List.mem_of_find?_eq_some hs
    have hw : s.waits = true := List.find?_some hs
    have hp := parsePositional_progress (stop := if e = true then fun _ => false else st.endOfInfinite)
      hm hx (h.small s hmem) (fun e => h.groups s hmem (.inr (.inl e)))
    refine ⟨hp.1, fun i hi => ?_⟩
    obtain ⟨h1, h2⟩ := hp.2 i hi
    have := modNode_fills hmem hw h2
    simp only
    omega
  | none =>
    simp only
    split
    · exact ⟨by simp, by simp⟩
    · split
      · exact ⟨by simp, by simp⟩
      · refine ⟨by simp, ?_⟩
        intro i hi
        simp only [Res.ok.injEq] at hi
        show argv.length - i + st.unfilled < _
        omega

theorem endLoop_ends {argv : List Str} (f i : Nat) {st : State D} (h : Sane st argv.length)
    (hf : argv.length - i + st.unfilled < f) : (State.endLoop argv f i st).2 ≠ .diverge := by
  induction f generalizing i st with
  | zero => omega
  | succ f ih =>
    unfold State.endLoop
    split
    · next hx =>
      have hc := parsePositionalTok_config h.inv.nodes argv argv.length i true
      have hm := parsePositionalTok_moves h (Nat.le_refl _) hx true
      generalize st.parsePositionalTok argv argv.length i true = r at hc hm ⊢
      obtain ⟨st1, r⟩ := r
      obtain ⟨hm1, hm2⟩ := hm
      cases r with
      | ok i1 =>
        have := hm2 i1 rfl
        exact ih i1 (h.of_config hc) (by simp only at this; omega)
      | diverge => exact absurd rfl hm1
      | _ => simp [Res.cast]
    · simp

theorem mainLoop_ends {argv : List Str} {e : Nat} (he : e ≤ argv.length) (f i : Nat) {st : State D}
    (h : Sane st argv.length) (hf : argv.length - i + st.unfilled < f) :
    (State.mainLoop argv e f i st).2 ≠ .diverge := by
  induction f generalizing i st with
  | zero => omega
  | succ f ih =>
    have key : ∀ r : State D × Res Nat, r.1.config = st.config → Moves st argv i r →
        (match r with
          | (st1, .ok i1) => State.mainLoop argv e f i1 st1
          | (st1, r) => (st1, r.cast)).2 ≠ .diverge := by
      intro r hc hm
      obtain ⟨st1, r⟩ := r
      obtain ⟨hm1, hm2⟩ := hm
      cases r with
      | ok i1 =>
        have := hm2 i1 rfl
        exact ih i1 (h.of_config hc) (by simp only at this; omega)
      | diverge => exact absurd rfl hm1
      | _ => simp [Res.cast]
    unfold State.mainLoop
    split
    · next hx =>
      split
      · simp
      · split
        · exact key _ (parseShort_config h.inv.nodes ..) ((parseShort_moves h he hx _).moves hx)
        · split
          · exact key _ (parseLong_config h.inv.nodes ..) ((parseLong_moves h he hx _).moves hx)
          · split
            · exact endLoop_ends _ _ h (by omega)
            · exact key _ (parsePositionalTok_config h.inv.nodes ..) (parsePositionalTok_moves h he hx _)
    · simp

theorem budget_enough (st : State D) (argv : List Str) (i : Nat) :
    argv.length - i + st.unfilled < st.loopBudget argv := by
  have h1 : st.unfilled ≤ st.arguments.length := List.countP_le_length
  unfold State.loopBudget
  have h2 : (argv.length + 1) * (st.arguments.length + 2) =
      argv.length * st.arguments.length + argv.length * 2 + st.arguments.length + 2 := by
    rw [Nat.add_mul, Nat.mul_add]; omega
  rw [h2]
  have : 0 ≤ argv.length * st.arguments.length := Nat.zero_le _
  omega

/-! ### No undefined behaviour in the loops -/

def NoUb {α : Type} (r : Res α) : Prop := ∀ w, r ≠ .ub w

theorem parseAt_noUb {st : State D} {argv : List Str} {max index : Nat}
    (hm : max ≤ argv.length) (hasArg : Bool) (option arg : Str) {node : Nat} (hn : st.atNode node ≠ none) :
    NoUb (st.parseAt argv max index hasArg option arg node).2 := by
  intro w
  unfold State.parseAt
  cases hs : st.atNode node with
  | none => exact absurd hs hn
  | some s => exact parseArgument_inBounds hm w

theorem lookup_live {st : State D} (hi : GInv full st) {name : Str} {n : Nat} (h : lookupName st.byName name = some n) :
    st.atNode n ≠ none := by
  obtain ⟨s, hs, e, _⟩ := hi.entries _ (lookupName_mem h)
  intro hc
  have := List.find?_eq_none.1 hc s hs
  simp at this
  exact this e

theorem parseCluster_noUb {argv : List Str} {max index : Nat}
    (hm : max ≤ argv.length) (hasArg : Bool) (arg : Str) (cs : List Char) {st : State D}
    (h : GInv full st) : NoUb (State.parseCluster argv max index hasArg arg cs st).2 := by
  induction cs generalizing st with
  | nil =>
    unfold State.parseCluster
    split
    · intro w; simp
    · next n hl => exact parseAt_noUb hm _ _ _ (lookup_live h hl)
  | cons c cs ih =>
    cases cs with
    | nil =>
      unfold State.parseCluster
      split
      · intro w; simp
      · next n hl => exact parseAt_noUb hm _ _ _ (lookup_live h hl)
    | cons c2 rest =>
      unfold State.parseCluster
      split
      · intro w; simp
      · next n hl =>
        split
        · next hc => exact absurd hc (lookup_live h hl)
        · have hc : (st.modNode n Argument.mark).config = st.config := modNode_config fun s _ _ => mark_config s.arg
          have hi' := inv_of_config hc h
          split
          · exact parseAt_noUb hm _ _ _ (lookup_live hi' hl)
          · split
            · intro w; simp
            · exact ih hi'

theorem parseShort_noUb {st : State D} {argv : List Str} (h : GInv full st) {max index : Nat}
    (hm : max ≤ argv.length) (tok : Str) : NoUb (st.parseShort argv max index tok).2 := by
  unfold State.parseShort
  split
  split
  · next hl =>
    split at hl
    · exact parseAt_noUb hm _ _ _ (lookup_live h hl)
    · cases hl
  · exact parseCluster_noUb hm _ _ _ h

theorem parseLong_noUb {st : State D} {argv : List Str} (h : GInv full st) {max index : Nat}
    (hm : max ≤ argv.length) (tok : Str) : NoUb (st.parseLong argv max index tok).2 := by
  unfold State.parseLong
  split
  split
  · intro w; simp
  · next hl => exact parseAt_noUb hm _ _ _ (lookup_live h hl)

theorem parsePositionalTok_noUb {st : State D} {argv : List Str} {max index : Nat}
    (hm : max ≤ argv.length) (hx : index < argv.length) (e : Bool) :
    NoUb (st.parsePositionalTok argv max index e).2 := by
  intro w
  unfold State.parsePositionalTok
  cases hs : st.nextPositional with
  | some s => exact parsePositional_inBounds hm hx w
  | none =>
    simp only
    rw [List.getElem?_eq_getElem hx]
    simp only
    split <;> simp

theorem cast_noUb {α β : Type} {r : Res α} (h : NoUb r) (ho : ∀ x, r ≠ .ok x) : NoUb (r.cast : Res β) := by
  intro w
  cases r with
  | ok x => exact absurd rfl (ho x)
  | ub w' => exact absurd rfl (h w')
  | _ => simp [Res.cast]

theorem endLoop_noUb {argv : List Str} (f i : Nat) {st : State D} : NoUb (State.endLoop argv f i st).2 := by
  induction f generalizing i st with
  | zero => intro w; simp [State.endLoop]
  | succ f ih =>
    unfold State.endLoop
    split
    · next hx =>
      have hm := parsePositionalTok_noUb (st := st) (Nat.le_refl _) hx true
      generalize st.parsePositionalTok argv argv.length i true = r at hm ⊢
      obtain ⟨st1, r⟩ := r
      cases r with
      | ok i1 => exact ih i1
      | _ => exact cast_noUb hm (by simp)
    · intro w; simp

theorem mainLoop_noUb {argv : List Str} {e : Nat} (he : e ≤ argv.length) (f i : Nat) {st : State D}
    (h : GInv full st) : NoUb (State.mainLoop argv e f i st).2 := by
  induction f generalizing i st with
  | zero => intro w; simp [State.mainLoop]
  | succ f ih =>
    have key : ∀ r : State D × Res Nat, r.1.config = st.config → NoUb r.2 →
        NoUb (match r with
          | (st1, .ok i1) => State.mainLoop argv e f i1 st1
          | (st1, r) => (st1, r.cast)).2 := by
      intro r hc hm
      obtain ⟨st1, r⟩ := r
      cases r with
      | ok i1 => exact ih i1 (inv_of_config hc h)
      | _ => exact cast_noUb hm (by simp)
    unfold State.mainLoop
    split
    · next hx =>
      rw [List.getElem?_eq_getElem hx]
      simp only
      split
      · exact key _ (parseShort_config h.nodes ..) (parseShort_noUb h he _)
      · split
        · exact key _ (parseLong_config h.nodes ..) (parseLong_noUb h he _)
        · split
          · exact endLoop_noUb _ _
          · exact key _ (parsePositionalTok_config h.nodes ..) (parsePositionalTok_noUb he hx _)
    · intro w; simp

end BletArgs
