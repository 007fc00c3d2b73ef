import Verif.Model.Dest
import Verif.Spec.Text
/-
C51 (char arrays) and C52 (reading values).
-/
namespace BletArgs
open Spec
variable {D : Type}

/-- The C string read from a buffer: everything before the first NUL (`none` if there is no NUL). -/
def cString : Buf → Option Str
  | [] => none
  | none :: _ => some []
  | some c :: b => (cString b).map (c :: ·)

theorem cString_append (s : Str) (rest : Buf) : cString (s.map some ++ none :: rest) = some s := by
  induction s with
  | nil => rfl
  | cons c s ih => simp [cString, ih]

theorem copy_nul (s : Str) (buf : Buf) (h : s.length < buf.length) :
    ((memcpy buf (s.map some)).bind fun b => setNul b s.length) =
      some (s.map some ++ none :: buf.drop (s.length + 1)) := by
  have h1 : (s.map some).length ≤ buf.length := by simp; omega
  unfold memcpy setNul
  rw [if_pos h1]
  simp only [Option.bind_some, List.length_append, List.length_map, List.length_drop]
  rw [if_pos (by omega)]
  congr 1
  have : buf.drop s.length = buf[s.length] :: buf.drop (s.length + 1) := List.drop_eq_getElem_cons h
  rw [this, List.set_append]
  simp only [List.length_map, Nat.lt_irrefl, if_false, Nat.sub_self, List.set_cons_zero]

/-- C51: for every string and every non-empty array, the conversion stays inside the array (no UB, same
size), leaves a terminated string which is the longest prefix of the text that fits, and does not touch the
bytes after the terminator. -/
theorem C51_string_to_array (str : Str) (buf : Buf) (h : 0 < buf.length) :
    ∃ r, strToBuf str buf = some r ∧ r.length = buf.length ∧
      cString r = some (str.take (buf.length - 1)) ∧
      ∀ i, (str.take (buf.length - 1)).length < i → r[i]? = buf[i]? := by
  have key : ∀ s : Str, s.length < buf.length → ∃ r, some (s.map some ++ none :: buf.drop (s.length + 1)) = some r ∧
      r.length = buf.length ∧ cString r = some s ∧ ∀ i, s.length < i → r[i]? = buf[i]? := by
    intro s hs
    refine ⟨_, rfl, ?_, cString_append _ _, ?_⟩
    · simp only [List.length_append, List.length_map, List.length_cons, List.length_drop]; omega
    · intro i hi
      rw [List.getElem?_append_right (by simp; omega)]
      simp only [List.length_map]
      obtain ⟨k, rfl⟩ : ∃ k, i = s.length + 1 + k := ⟨i - (s.length + 1), by omega⟩
      have : s.length + 1 + k - s.length = k + 1 := by omega
      rw [this, List.getElem?_cons_succ, List.getElem?_drop]
  unfold strToBuf
  by_cases hl : buf.length > str.length
  · rw [if_pos hl, copy_nul str buf hl]
    have : str.take (buf.length - 1) = str := List.take_of_length_le (by omega)
    rw [this]
    exact key str hl
  · rw [if_neg hl, ← List.map_take]
    have hlen : (str.take (buf.length - 1)).length = buf.length - 1 := by simp; omega
    have := copy_nul (str.take (buf.length - 1)) buf (by omega)
    rw [hlen] at this
    rw [this]
    have k := key (str.take (buf.length - 1)) (by omega)
    rw [hlen] at k
    rw [hlen]
    exact k

/-- C51, booleans: "true" or "false", cut to the array. -/
theorem C51_bool_to_array (b : Bool) (buf : Buf) (h : 0 < buf.length) :
    ∃ r, boolToBuf b buf = some r ∧ r.length = buf.length ∧
      cString r = some ((if b then "true".toList else "false".toList).take (buf.length - 1)) := by
  unfold boolToBuf
  generalize hs : (if b then "true".toList else "false".toList : Str) = s
  simp only
  by_cases hl : buf.length ≥ s.length + 1
  · rw [if_pos hl]
    have h1 : (s.map some ++ [none]).length ≤ buf.length := by simp; omega
    refine ⟨s.map some ++ none :: buf.drop (s.length + 1), ?_, ?_, ?_⟩
    · unfold memcpy; rw [if_pos h1]; simp
    · simp only [List.length_append, List.length_map, List.length_cons, List.length_drop]; omega
    · rw [cString_append, List.take_of_length_le (by omega)]
  · rw [if_neg hl, ← List.map_take]
    have hlen : (s.take (buf.length - 1)).length = buf.length - 1 := by simp; omega
    have := copy_nul (s.take (buf.length - 1)) buf (by omega)
    rw [hlen] at this
    rw [this]
    refine ⟨_, rfl, ?_, cString_append _ _⟩
    simp only [List.length_append, List.length_map, List.length_cons, List.length_drop, List.length_take]
    omega

-- a non-trivial case: a text longer than the array
example : ∃ r, strToBuf "hello".toList [some 'x', some 'x', some 'x'] = some r ∧ cString r = some "he".toList :=
  ⟨[some 'h', some 'e', none], by decide, rfl⟩

/-! ### C52 -/

theorem joinComma_eq (l : List Str) : joinComma l = commaSep l := by
  induction l with
  | nil => rfl
  | cons s l ih =>
    cases l with
    | nil => simp [joinComma, commaSep, List.intercalate]
    | cons t rest =>
      rw [joinComma, ih]
      simp [commaSep, List.intercalate, List.intersperse]

/-- C52: a list argument (no groups) reads as the comma-separated text of its vector conversion; the
text of an argument without list is its single value. -/
theorem C52_getString_list (a : Argument D) (l : List Str) (hne : a.elems ≠ [])
    (hb : a.type ≠ .boolean ∧ a.type ≠ .reverse)
    (hflat : ∀ e ∈ a.elems, e.subs = []) (hty : a.type ≠ .pos ∧ a.type ≠ .simple)
    (h : a.toVector = some l) (hg : a.toVecVec = none) : a.getString = commaSep l := by
  have h1 : l = a.elems.map (·.argument) := by
    unfold Argument.toVector at h
    unfold Argument.toVecVec at hg
    split at h <;> simp_all
  rw [h1, ← joinComma_eq]
  unfold Argument.getString
  have : a.elems.map (fun e => if e.subs.isEmpty then e.argument
      else "(".toList ++ joinComma (e.subs.map (·.argument)) ++ ")".toList) = a.elems.map (·.argument) := by
    apply List.map_congr_left
    intro e he
    simp [hflat e he]
  split
  · simp_all
  · simp_all
  · have h2 : a.elems.isEmpty = false := by cases he : a.elems <;> simp_all
    rw [h2, this]; rfl

/-- C52: a grouped argument reads as its groups, each comma-separated in parentheses, comma-separated. -/
theorem C52_getString_groups (a : Argument D) (gs : List (List Str)) (h : a.toVecVec = some gs)
    (hne : gs ≠ []) (hg : ∀ g ∈ gs, g ≠ []) :
    a.getString = commaSep (gs.map fun g => "(".toList ++ commaSep g ++ ")".toList) := by
  have h1 : gs = a.elems.map fun e => e.subs.map (·.argument) := by
    unfold Argument.toVecVec at h
    split at h <;> simp_all
  have h2 : a.type ≠ .boolean ∧ a.type ≠ .reverse := by
    unfold Argument.toVecVec at h
    split at h <;> simp_all
  have h3 : a.elems.isEmpty = false := by
    cases he : a.elems <;> simp_all
  unfold Argument.getString
  split
  · simp_all
  · simp_all
  · rw [h3, h1, ← joinComma_eq]
    simp only [Bool.false_eq_true, if_false, List.map_map]
    congr 1
    apply List.map_congr_left
    intro e he
    have : e.subs.isEmpty = false := by
      have := hg (e.subs.map (·.argument)) (h1 ▸ List.mem_map.2 ⟨e, he, rfl⟩)
      cases hs : e.subs <;> simp_all
    simp [this, joinComma_eq]

/-- C52: the flat vector of a grouped argument is the concatenation of its groups. -/
theorem C52_flat_is_concat (a : Argument D) (gs : List (List Str)) (h : a.toVecVec = some gs) :
    a.toVector = some gs.flatten := by
  unfold Argument.toVecVec at h
  unfold Argument.toVector
  split at h <;> simp_all [List.flatMap] <;> rw [← h]

/-- C52: a single-value argument without list reads the same through both conversions. -/
theorem C52_single (a : Argument D) (hty : a.type = .pos ∨ a.type = .simple) (h : a.elems = []) :
    a.toVector = some [a.getString] ∧ a.toVecVec = none := by
  unfold Argument.toVector Argument.getString Argument.toVecVec
  rcases hty with e | e <;> simp [e, h]

/-- C52: booleans have no vector conversion and read as "true"/"false" in agreement with `operator bool`. -/
theorem C52_boolean (a : Argument D) (hty : a.type = .boolean ∨ a.type = .reverse) :
    a.toVector = none ∧ a.toVecVec = none ∧
    a.getString = (if a.toBool then "true".toList else "false".toList) := by
  unfold Argument.toVector Argument.getString Argument.toVecVec Argument.toBool
  rcases hty with e | e <;> cases h : a.isExist <;> simp [e]

example : ({ type := .multiNumber, nargs := 2, elems := [valGroup ["a".toList, "b".toList], valGroup ["c".toList, "d".toList]] } :
    Argument Nat).getString = "(a, b), (c, d)".toList := by decide
example : ({ type := .infinite, elems := [valElem "a".toList, valElem "b".toList] } :
    Argument Nat).getString = "a, b".toList := by decide

end BletArgs
