import Verif.Model.Utils
import Verif.Model.Argument
import Verif.Spec.Tokens
/-
C01, C02, and the pure part of C03.
-/
namespace BletArgs
open Spec

theorem isShortOption_iff (t : Str) : isShortOption t = true ↔ ShortTok t := by
  match t with
  | [] => simp [isShortOption, ShortTok]
  | [a] => simp [isShortOption, ShortTok]
  | a :: b :: r =>
    simp [isShortOption, ShortTok]
    constructor
    · rintro ⟨h1, h2⟩; exact ⟨b, ⟨h1, rfl⟩, h2⟩
    · rintro ⟨c, ⟨h1, rfl⟩, h2⟩; exact ⟨h1, h2⟩

theorem isLongOption_iff (t : Str) : isLongOption t = true ↔ LongTok t := by
  match t with
  | [] => simp [isLongOption, LongTok]
  | [a] => simp [isLongOption, LongTok]
  | [a, b] => simp [isLongOption, LongTok]
  | a :: b :: c :: r => simp [isLongOption, LongTok]

theorem isEndOption_iff (t : Str) : isEndOption t = true ↔ EndTok t := by
  match t with
  | [] => simp [isEndOption, EndTok]
  | [a] => simp [isEndOption, EndTok]
  | [a, b] => simp [isEndOption, EndTok]
  | a :: b :: c :: r => simp [isEndOption, EndTok]

/-- C01: the three predicates recognise exactly the three shapes, and every token has exactly one of
the four shapes. -/
theorem C01_token_classes (t : Str) :
    (isShortOption t = true ↔ ShortTok t) ∧ (isLongOption t = true ↔ LongTok t) ∧
    (isEndOption t = true ↔ EndTok t) ∧
    (ShortTok t ∨ LongTok t ∨ EndTok t ∨ WordTok t) ∧
    ¬(ShortTok t ∧ LongTok t) ∧ ¬(ShortTok t ∧ EndTok t) ∧ ¬(ShortTok t ∧ WordTok t) ∧
    ¬(LongTok t ∧ EndTok t) ∧ ¬(LongTok t ∧ WordTok t) ∧ ¬(EndTok t ∧ WordTok t) := by
  refine ⟨isShortOption_iff t, isLongOption_iff t, isEndOption_iff t, ?_⟩
  match t with
  | [] => simp [ShortTok, LongTok, EndTok, WordTok]
  | [a] =>
    simp only [ShortTok, LongTok, EndTok, WordTok]
    by_cases h : a = '-' <;> simp_all
  | [a, b] =>
    simp only [ShortTok, LongTok, EndTok, WordTok]
    by_cases h : a = '-' <;> by_cases h' : b = '-' <;> simp_all
  | a :: b :: c :: r =>
    simp only [ShortTok, LongTok, EndTok, WordTok]
    by_cases h : a = '-' <;> by_cases h' : b = '-' <;> simp_all

-- each class is inhabited
example : ShortTok "-ab=c".toList ∧ LongTok "--x".toList ∧ EndTok "--".toList ∧ WordTok "-".toList ∧
    WordTok "".toList ∧ WordTok "a-b".toList := by
  refine ⟨⟨'a', _, rfl, by decide⟩, ⟨'x', _, rfl⟩, rfl, .inr (.inl rfl), .inl rfl,
    .inr (.inr ⟨'a', _, rfl, by decide⟩)⟩

theorem takeWhile_ne_append (l v : List Char) (c : Char) (h : c ∉ l) :
    (l ++ c :: v).takeWhile (· != c) = l := by
  induction l with
  | nil => simp
  | cons a l ih =>
    simp only [List.mem_cons, not_or] at h
    simp [Ne.symm h.1, ih h.2]

theorem dropWhile_ne_append (l v : List Char) (c : Char) (h : c ∉ l) :
    (l ++ c :: v).dropWhile (· != c) = c :: v := by
  induction l with
  | nil => simp
  | cons a l ih =>
    simp only [List.mem_cons, not_or] at h
    simp [Ne.symm h.1, ih h.2]

theorem split_at_first (t : List Char) (c : Char) (h : c ∈ t) : ∃ l v, t = l ++ c :: v ∧ c ∉ l := by
  induction t with
  | nil => simp at h
  | cons a t ih =>
    by_cases ha : a = c
    · exact ⟨[], t, by simp [ha], by simp⟩
    · obtain ⟨l, v, h1, h2⟩ := ih (by simpa [Ne.symm ha] using h)
      exact ⟨a :: l, v, by simp [h1], by simp [h2, Ne.symm ha]⟩

/-- C02: a token splits as `name=value` at its first `=` exactly when `takeArg` says so, and a token
without `=` is its own name, with no value. -/
theorem C02_takeArg_split (t name value : Str) :
    takeArg t = (name, value, true) ↔ SplitsAt t name value := by
  constructor
  · intro h
    unfold takeArg at h
    split at h
    · rename_i hm
      obtain ⟨l, v, rfl, hl⟩ := split_at_first t '=' hm
      simp only [takeWhile_ne_append l v '=' hl, dropWhile_ne_append l v '=' hl, Prod.mk.injEq,
        List.drop_one, List.tail_cons] at h
      exact ⟨by rw [← h.1, ← h.2.1], h.1 ▸ hl⟩
    · simp at h
  · rintro ⟨rfl, hn⟩
    simp [takeArg, takeWhile_ne_append _ _ _ hn, dropWhile_ne_append _ _ _ hn]

/-- C02, no `=`: the token is left whole and carries no value. -/
theorem C02_takeArg_whole (t name value : Str) :
    takeArg t = (name, value, false) ↔ '=' ∉ t ∧ name = t ∧ value = [] := by
  unfold takeArg
  split
  · simp_all
  · simp_all [eq_comm]

/-- C02, round trip in the other direction: what was split can be rebuilt. -/
theorem C02_takeArg_rebuild (t : Str) :
    (takeArg t).2.2 = true → (takeArg t).1 ++ '=' :: (takeArg t).2.1 = t := by
  intro h
  have : takeArg t = ((takeArg t).1, (takeArg t).2.1, true) := by rw [← h]
  exact ((C02_takeArg_split _ _ _).1 this).1.symm

example : takeArg "--a=b=c".toList = ("--a".toList, "b=c".toList, true) := by decide
example : takeArg "--a=".toList = ("--a".toList, [], true) := by decide

/-- C03, syntax: a flag is accepted exactly when it is `-c` or `--c…`. -/
theorem C03_flag_syntax (f : Str) : validFormatFlag f = none ↔ FlagForm f := by
  unfold FlagForm LongTok
  match f with
  | [] => simp [validFormatFlag]
  | [a] => by_cases h : a = '-' <;> simp [validFormatFlag, h]
  | [a, b] =>
    by_cases h : a = '-' <;> by_cases h' : b = '-' <;> simp [validFormatFlag, h, h']
  | a :: b :: c :: r =>
    by_cases h : a = '-' <;> by_cases h' : b = '-' <;> simp [validFormatFlag, h, h']

example : FlagForm "-a".toList ∧ FlagForm "--all".toList ∧ FlagForm "---".toList :=
  ⟨.inl ⟨'a', by decide, rfl⟩, .inr ⟨'a', _, rfl⟩, .inr ⟨'-', _, rfl⟩⟩
example : ¬FlagForm "-ab".toList := by rw [← C03_flag_syntax]; decide

end BletArgs
