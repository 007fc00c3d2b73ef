import Verif.Lemmas.ForAll
import Verif.Spec.Dest
/-
The shape of the sub-elements of an argument, and the values it holds before the first parse.
-/
namespace BletArgs
open Spec
variable {D : Type}

theorem Settled.groups_pos {a : Argument D} (h : Settled a) (hk : GroupKind a.type) : 0 < a.nargs := by
  obtain ⟨act, n, hset⟩ := h
  unfold GroupKind at hk
  generalize a.type = k at *
  generalize a.nargs = m at *
  generalize a.isPositional = p at *
  unfold kindOf at hset
  cases p <;> cases act <;> simp only [Bool.false_eq_true, if_false, if_true] at hset <;> grind

theorem readRange_length {argv : List Str} {n : Nat} : ∀ {lo : Nat} {vs : List Str},
    readRange argv lo n = some vs → vs.length = n := by
  induction n with
  | zero => intro lo vs h; unfold readRange at h; cases h; rfl
  | succ n ih =>
    intro lo vs h
    unfold readRange at h
    split at h
    · cases h
    · cases hr : readRange argv (lo + 1) n with
      | none => rw [hr] at h; cases h
      | some ws =>
        rw [hr] at h
        simp only [Option.map_some, Option.some.injEq] at h
        rw [← h, List.length_cons, ih hr]

theorem scanGroups_sizes {stop : Str → Bool} {argv : List Str} {max nargs : Nat} (hw : max + nargs < two64) (f : Nat) :
    ∀ i, ∀ g ∈ (scanGroups stop argv max nargs f i).1, g.length = nargs := by
  induction f with
  | zero => intro i g hg; cases hg
  | succ f ih =>
    intro i g hg
    unfold scanGroups at hg
    split at hg
    · next hlt =>
      split at hg
      · cases hg
      · split at hg
        · cases hg
        · simp only at hg
          have hmod : (i + nargs) % two64 = i + nargs := Nat.mod_eq_of_lt (by omega)
          rw [hmod] at hg
          split at hg
          · cases hg
          · split at hg
            · cases hg
            · next vs hr =>
              rcases List.mem_cons.1 hg with rfl | hg
              · rw [readRange_length hr]; omega
              · exact ih _ g hg
    · cases hg

theorem Shaped.congr {a b : Argument D} (h : Shaped a) (h1 : b.type = a.type) (h2 : b.nargs = a.nargs)
    (h3 : b.elems = a.elems) : Shaped b := by
  constructor
  · rw [h1, h3]; exact h.single
  · rw [h1, h3]; exact h.list
  · rw [h1, h2, h3]; exact h.groups

theorem Shaped.nil {a : Argument D} (h : a.elems = []) : Shaped a := by
  constructor
  · intro _; exact h
  · intro _ e he; rw [h] at he; cases he
  · intro _ e he; rw [h] at he; cases he

/-- Rebuilding the elements with the same shapes. -/
theorem Shaped.map {a b : Argument D} (h : Shaped a) (h1 : b.type = a.type) (h2 : b.nargs = a.nargs)
    (h3 : b.elems.map (fun e => e.subs.length) = a.elems.map (fun e => e.subs.length)) : Shaped b := by
  have key : ∀ e ∈ b.elems, ∃ e' ∈ a.elems, e'.subs.length = e.subs.length := by
    intro e he
    have : e.subs.length ∈ a.elems.map (fun e => e.subs.length) := h3 ▸ List.mem_map.2 ⟨e, he, rfl⟩
    obtain ⟨e', he', x⟩ := List.mem_map.1 this
    exact ⟨e', he', x⟩
  constructor
  · intro hk
    rw [h.single (h1 ▸ hk)] at h3
    exact List.map_eq_nil_iff.1 h3
  · intro hk e he
    obtain ⟨e', he', x⟩ := key e he
    rw [h.list (h1 ▸ hk) e' he'] at x
    exact List.length_eq_zero_iff.1 x.symm
  · intro hk e he
    obtain ⟨e', he', x⟩ := key e he
    rw [← x, h2]
    exact h.groups (h1 ▸ hk) e' he'

theorem Shaped.push {a : Argument D} (h : Shaped a) {es : List (Elem D)} (h1 : ¬SingleKind a.type)
    (h2 : ListKind a.type → ∀ e ∈ es, e.subs = []) (h3 : GroupKind a.type → ∀ e ∈ es, e.subs.length = a.nargs) :
    Shaped (a.push es) := by
  constructor
  · intro hk; exact absurd hk h1
  · intro hk e he
    rcases List.mem_append.1 he with he | he
    · exact h.list hk e he
    · exact h2 hk e he
  · intro hk e he
    rcases List.mem_append.1 he with he | he
    · exact h.groups hk e he
    · exact h3 hk e he

theorem Shaped.mark {a : Argument D} (h : Shaped a) : Shaped a.mark := h.congr rfl rfl rfl

theorem Shaped.clearIfFirst {a : Argument D} (h : Shaped a) : Shaped a.clearIfFirst := by
  unfold Argument.clearIfFirst
  split
  · exact h
  · exact .nil rfl

theorem clearIfFirst_frame (a : Argument D) : a.clearIfFirst.type = a.type ∧ a.clearIfFirst.nargs = a.nargs := by
  unfold Argument.clearIfFirst; split <;> exact ⟨rfl, rfl⟩

theorem valElems_flat (vs : List Str) : ∀ e ∈ (vs.map valElem : List (Elem D)), e.subs = [] := by
  intro e he
  obtain ⟨v, _, rfl⟩ := List.mem_map.1 he
  rfl

theorem valGroups_sizes {n : Nat} {gs : List (List Str)} (h : ∀ g ∈ gs, g.length = n) :
    ∀ e ∈ (gs.map valGroup : List (Elem D)), e.subs.length = n := by
  intro e he
  obtain ⟨g, hg, rfl⟩ := List.mem_map.1 he
  simpa [valGroup] using h g hg

theorem shaped_push_list {a : Argument D} (h : Shaped a) {vs : List Str} (hk : ListKind a.type) :
    Shaped (a.push (vs.map valElem)) :=
  h.push (by unfold ListKind SingleKind at *; grind) (fun _ => valElems_flat vs)
    (fun hg => by exfalso; unfold ListKind GroupKind at *; grind)

theorem shaped_push_groups {a : Argument D} (h : Shaped a) {gs : List (List Str)} (hk : GroupKind a.type)
    (hg : ∀ g ∈ gs, g.length = a.nargs) : Shaped (a.push (gs.map valGroup)) :=
  h.push (by unfold GroupKind SingleKind at *; grind) (fun hl => by exfalso; unfold ListKind GroupKind at *; grind)
    (fun _ => valGroups_sizes hg)

/-- Parsing keeps the shapes. -/
theorem shaped_parseArgument {argv : List Str} {stop : Str → Bool} {max index : Nat} {hasArg : Bool} {option arg : Str}
    {a : Argument D} (hm : max ≤ argv.length) (hx : index < argv.length) (hw : argv.length + a.nargs < two64)
    (h : Shaped a) : Shaped (a.parseArgument stop argv max index hasArg option arg).1 := by
  have hmod : (index + a.nargs) % two64 = index + a.nargs := Nat.mod_eq_of_lt (by omega)
  have hf := clearIfFirst_frame a
  have hnil : Shaped ({ a with elems := [] } : Argument D) := .nil rfl
  unfold Argument.parseArgument
  cases hasArg with
  | true =>
    simp only [if_true]
    cases ht : a.type <;> simp only
    case simple => exact h.congr ht.symm rfl rfl
    case infinite =>
      exact (shaped_push_list (a := { a with elems := [], type := Ty.infinite }) (.nil rfl) (vs := [arg])
        (by simp [ListKind])).mark
    case multi | multiInfinite =>
      exact (shaped_push_list (vs := [arg]) h.clearIfFirst (by rw [hf.1, ht]; simp [ListKind])).mark
    all_goals exact h
  | false =>
    simp only [Bool.false_eq_true, if_false]
    cases ht : a.type <;> simp only
    case simple =>
      split
      · exact h
      · split
        · exact h
        · exact h.congr ht.symm rfl rfl
    case number =>
      split
      · exact .nil rfl
      · split
        · exact .nil rfl
        · exact (shaped_push_list (.nil rfl) (by simp [ListKind])).mark
    case infinite =>
      split
      · exact .nil rfl
      · exact (shaped_push_list (.nil rfl) (by simp [ListKind])).mark
    case multi =>
      split
      · exact h.clearIfFirst
      · split
        · exact h.clearIfFirst
        · exact (shaped_push_list (vs := [_]) h.clearIfFirst (by rw [hf.1, ht]; simp [ListKind])).mark
    case multiInfinite =>
      split
      · exact h.clearIfFirst
      · exact (shaped_push_list h.clearIfFirst (by rw [hf.1, ht]; simp [ListKind])).mark
    case multiNumber =>
      rw [hf.2, hmod]
      split
      · exact h.clearIfFirst
      · split
        · exact h.clearIfFirst
        · next vs hr =>
          refine (shaped_push_groups (gs := [vs]) h.clearIfFirst (by rw [hf.1, ht]; simp [GroupKind]) ?_).mark
          intro g hg
          rw [List.mem_singleton] at hg
          rw [hg, readRange_length hr, hf.2]; omega
    case multiNumberInfinite =>
      have hs := scanGroups_sizes (stop := stop) (argv := argv) (max := max) (nargs := a.clearIfFirst.nargs)
        (by rw [hf.2]; omega) (max + 1) (index + 1)
      have hk : GroupKind a.clearIfFirst.type := by rw [hf.1, ht]; simp [GroupKind]
      generalize scanGroups stop argv max a.clearIfFirst.nargs (max + 1) (index + 1) = r at hs ⊢
      obtain ⟨gs, r⟩ := r
      cases r <;> simp only
      · exact (shaped_push_groups h.clearIfFirst hk hs).mark
      all_goals exact shaped_push_groups h.clearIfFirst hk hs
    all_goals exact (h.congr (b := a) rfl rfl rfl).mark

theorem shaped_parsePositional {argv : List Str} {stop : Str → Bool} {argc index : Nat}
    {a : Argument D} (hm : argc ≤ argv.length) (hw : argv.length + a.nargs < two64)
    (h : Shaped a) : Shaped (a.parsePositional stop argv argc index).1 := by
  unfold Argument.parsePositional
  cases ht : a.type <;> simp only
  case pos =>
    split
    · exact h
    · exact h.congr (by first | rfl | exact ht.symm) rfl rfl
  case numberPos =>
    split
    · exact h
    · split
      · exact h
      · exact (shaped_push_list h (by rw [ht]; simp [ListKind])).congr (by first | rfl | exact ht.symm) rfl rfl
  case infinitePos =>
    split
    · exact h
    · exact (shaped_push_list h (by rw [ht]; simp [ListKind])).congr (by first | rfl | exact ht.symm) rfl rfl
  case infiniteNumberPos =>
    have hs := scanGroups_sizes (stop := stop) (argv := argv) (max := argc) (nargs := a.nargs)
      (by omega) (argc + 1) index
    have hk : GroupKind a.type := by rw [ht]; simp [GroupKind]
    generalize scanGroups stop argv argc a.nargs (argc + 1) index = r at hs ⊢
    obtain ⟨gs, r⟩ := r
    cases r <;> simp only
    · exact (shaped_push_groups h hk hs).congr (by first | rfl | exact ht.symm) rfl rfl
    all_goals exact shaped_push_groups h hk hs
  all_goals exact h.congr (by first | rfl | exact ht.symm) rfl rfl

theorem writeElems_subs (es : List (Elem D)) (out : List Str) :
    (writeElems es out).map (fun e => e.subs.length) = es.map (fun e => e.subs.length) := by
  induction es generalizing out with
  | nil => rfl
  | cons e es ih =>
    cases out with
    | nil => rfl
    | cons o out => simp only [writeElems, List.map_cons, ih]

theorem writeLeaves_length (ls : List (Leaf D)) (out : List Str) : (writeLeaves ls out).1.length = ls.length := by
  induction ls generalizing out with
  | nil => rfl
  | cons l ls ih =>
    cases out with
    | nil => rfl
    | cons o out => simp only [writeLeaves, List.length_cons, ih]

theorem writeGroups_subs (es : List (Elem D)) (out : List Str) :
    (writeGroups es out).map (fun e => e.subs.length) = es.map (fun e => e.subs.length) := by
  induction es generalizing out with
  | nil => rfl
  | cons e es ih => simp only [writeGroups, List.map_cons, ih, writeLeaves_length]

theorem shaped_runValid {a : Argument D} (h : Shaped a) : Shaped a.runValid.1 := by
  unfold Argument.runValid
  split
  · exact h
  · split
    · split
      · exact h
      · exact h
      · exact h
      · cases ht : a.type <;> simp only
        case pos | simple =>
          split
          · exact h
          · exact h.congr (by first | rfl | exact ht.symm) rfl rfl
        case number | multi | infinite | multiInfinite | numberPos | infinitePos =>
          exact h.map (by first | rfl | exact ht.symm) rfl (writeElems_subs _ _)
        case multiNumber | multiNumberInfinite | infiniteNumberPos =>
          exact h.map (by first | rfl | exact ht.symm) rfl (writeGroups_subs _ _)
        all_goals exact h
    · exact h

theorem shaped_toNumber {scan : Str → Option D} {a : Argument D} (h : Shaped a) : Shaped (a.toNumber scan) := by
  unfold Argument.toNumber
  split
  · exact h
  · split
    · exact h.congr rfl rfl rfl
    · refine h.map rfl rfl ?_
      simp only [List.map_map]
      refine List.map_congr_left fun e _ => ?_
      simp only [Function.comp]
      split <;> simp

theorem shaped_finish {scan : Str → Option D} {a : Argument D} (h : Shaped a) : Shaped (a.finish scan).1 := by
  have hv := shaped_runValid h
  unfold Argument.finish
  generalize a.runValid = r at hv ⊢
  obtain ⟨a1, r⟩ := r
  cases r with
  | ok u => exact shaped_toNumber hv
  | _ => exact hv

theorem shaped_reset {a : Argument D} (h : Shaped a) : Shaped a.reset := by
  refine h.map rfl rfl ?_
  unfold Argument.reset
  simp only [List.map_map]
  refine List.map_congr_left fun e _ => ?_
  simp

theorem shaped_keeps (scan : Str → Option D) {argv : List Str} (hlen : argv.length < 2 ^ 31) :
    Keeps scan argv (fun a : Argument D => Shaped a ∧ a.nargs < 2 ^ 64 - 2 ^ 31) := by
  have hw : ∀ a : Argument D, a.nargs < 2 ^ 64 - 2 ^ 31 → argv.length + a.nargs < two64 := by
    intro a h
    have h2 : two64 = 2 ^ 64 := rfl
    rw [h2]; omega
  refine ⟨?_, ?_, ?_, ?_, ?_, ?_⟩
  · exact fun a h => ⟨shaped_reset h.1, h.2⟩
  · exact fun a h => ⟨h.1.mark, h.2⟩
  · intro stop max index hasArg option arg a hm hx h
    refine ⟨shaped_parseArgument hm hx (hw a h.2) h.1, ?_⟩
    have := (congrArg (fun x : Argument D => x.nargs) (a.parseArgument_config stop argv max index hasArg option arg) :)
    exact Nat.lt_of_le_of_lt (Nat.le_of_eq this) h.2
  · intro stop argc index a hm hx h
    refine ⟨shaped_parsePositional hm (hw a h.2) h.1, ?_⟩
    have := (congrArg (fun x : Argument D => x.nargs) (a.parsePositional_config stop argv argc index) :)
    exact Nat.lt_of_le_of_lt (Nat.le_of_eq this) h.2
  · intro a h
    refine ⟨shaped_finish h.1, ?_⟩
    have := (congrArg (fun x : Argument D => x.nargs) (a.finish_config scan) :)
    exact Nat.lt_of_le_of_lt (Nat.le_of_eq this) h.2
  · intro names
    exact ⟨.nil rfl, by show 0 < _; decide⟩

end BletArgs
