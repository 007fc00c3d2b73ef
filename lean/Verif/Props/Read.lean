import Verif.Model.Read
import Verif.Props.Defaults
import Verif.Props.Convert
import Verif.Props.Numbers
/-
C64: reading an argument element by element, and how refused conversions end.
-/
namespace BletArgs
open Spec
variable {D : Type}

/-- C64, lists. An argument with a list of values: `size()` is the number of values, `arg[i]` throws
`std::out_of_range` exactly beyond it and otherwise reads the `i`-th value, `arg[i]` is not itself a list
(converting it throws, indexing it is undefined), and the text of the argument is the comma-separated list. -/
theorem C64_list {scan : Str → Option D} {st : State D} (h : ReachableBy scan Careful st) {s : Slot D}
    (hs : s ∈ st.arguments) (hk : ListKind s.arg.type) :
    ∃ vs, s.arg.readVector = .ok vs ∧ s.arg.size = vs.length ∧
      (∀ i, s.arg.index i = none ↔ vs.length ≤ i) ∧
      (∀ i e, s.arg.index i = some e → vs[i]? = some e.getString ∧
        e.readVector = .throw notAVector ∧ e.size = 0 ∧ ∀ j, ∃ w, e.index j = .ub w) ∧
      s.arg.readVecVec = .throw notAVecVec ∧
      (vs ≠ [] → s.arg.print = commaSep vs) := by
  have hsh := (h.shaped s hs).list hk
  have hv : s.arg.toVector = some (s.arg.elems.map (·.argument)) := by
    unfold Argument.toVector
    rcases hk with e | e | e | e | e | e <;> rw [e]
  have hvv : s.arg.toVecVec = none := by
    unfold Argument.toVecVec
    rcases hk with e | e | e | e | e | e <;> rw [e]
  refine ⟨s.arg.elems.map (·.argument), ?_, ?_, ?_, ?_, ?_, ?_⟩
  · unfold Argument.readVector; rw [hv]; rfl
  · simp [Argument.size]
  · intro i; simp [Argument.index]
  · intro i e he
    unfold Argument.index at he
    have hm := hsh e (List.mem_of_getElem? he)
    refine ⟨?_, ?_, ?_, ?_⟩
    · simp [he, Elem.getString]
    · unfold Elem.readVector Elem.toVector; rw [hm]; rfl
    · unfold Elem.size; rw [hm]; rfl
    · intro j; unfold Elem.index; rw [hm]; exact ⟨_, rfl⟩
  · unfold Argument.readVecVec; rw [hvv]; rfl
  · intro hne
    refine C52_getString_list s.arg _ ?_ ?_ hsh ?_ hv hvv
    · intro e; rw [e] at hne; exact hne rfl
    · rcases hk with e | e | e | e | e | e <;> rw [e] <;> simp
    · rcases hk with e | e | e | e | e | e <;> rw [e] <;> simp

/-- C64, groups. An argument with groups of `nargs` values: `arg[i]` throws `std::out_of_range` exactly beyond the
number of groups and otherwise reads, as a vector, the `i`-th group, and `arg[i][j]` its `j`-th value; every group
has `nargs` values, and `arg[i][j]` beyond that is undefined behaviour. -/
theorem C64_groups {scan : Str → Option D} {st : State D} (h : ReachableBy scan Careful st) {s : Slot D}
    (hs : s ∈ st.arguments) (hk : GroupKind s.arg.type) :
    ∃ gs, s.arg.readVecVec = .ok gs ∧ s.arg.readVector = .ok gs.flatten ∧ s.arg.size = gs.length ∧
      0 < s.arg.nargs ∧ (∀ g ∈ gs, g.length = s.arg.nargs) ∧
      (∀ i, s.arg.index i = none ↔ gs.length ≤ i) ∧
      (∀ i e, s.arg.index i = some e → ∃ g, gs[i]? = some g ∧ e.readVector = .ok g ∧ e.size = s.arg.nargs ∧
        (∀ j, j < s.arg.nargs → ∃ l, e.index j = .ok l ∧ g[j]? = some l.getString) ∧
        (∀ j, s.arg.nargs ≤ j → ∃ w, e.index j = .ub w)) ∧
      (gs ≠ [] → s.arg.print = commaSep (gs.map fun g => "(".toList ++ commaSep g ++ ")".toList)) := by
  have hsh := (h.shaped s hs).groups hk
  have hpos : 0 < s.arg.nargs :=
    Settled.groups_pos ((h.mono fun _ _ _ hc => (Careful.disciplined hc).kinds).settled s hs) hk
  have hvv : s.arg.toVecVec = some (s.arg.elems.map fun e => e.subs.map (·.argument)) := by
    unfold Argument.toVecVec
    rcases hk with e | e | e <;> rw [e]
  have hv := C52_flat_is_concat s.arg _ hvv
  have hlen : ∀ g ∈ (s.arg.elems.map fun e => e.subs.map (·.argument)), g.length = s.arg.nargs := by
    intro g hg
    obtain ⟨e, he, rfl⟩ := List.mem_map.1 hg
    simp [hsh e he]
  refine ⟨s.arg.elems.map fun e => e.subs.map (·.argument), ?_, ?_, ?_, hpos, hlen, ?_, ?_, ?_⟩
  · unfold Argument.readVecVec; rw [hvv]; rfl
  · unfold Argument.readVector; rw [hv]; rfl
  · simp [Argument.size]
  · intro i; simp [Argument.index]
  · intro i e he
    unfold Argument.index at he
    have hm := hsh e (List.mem_of_getElem? he)
    refine ⟨e.subs.map (·.argument), by simp [he], ?_, hm, ?_, ?_⟩
    · unfold Elem.readVector Elem.toVector
      rw [if_neg]
      · rfl
      · rw [List.isEmpty_iff]; intro e0; rw [e0] at hm; simp at hm; omega
    · intro j hj
      unfold Elem.index
      have hj' : j < e.subs.length := by omega
      rw [List.getElem?_eq_getElem hj']
      exact ⟨_, rfl, by simp [Leaf.getString, hj']⟩
    · intro j hj
      unfold Elem.index
      rw [List.getElem?_eq_none (by omega)]
      exact ⟨_, rfl⟩
  · intro hne
    refine C52_getString_groups s.arg _ hvv hne ?_
    intro g hg e
    have := hlen g hg
    rw [e] at this
    simp at this
    omega

/-- C64, single values. An argument with one value reads the same through both conversions, has no elements
(`arg[i]` always throws `std::out_of_range`) and is not a vector of vectors. -/
theorem C64_single {scan : Str → Option D} {st : State D} (h : ReachableBy scan Careful st) {s : Slot D}
    (hs : s ∈ st.arguments) (hk : SingleKind s.arg.type) :
    s.arg.readVector = .ok [s.arg.print] ∧ s.arg.readVecVec = .throw notAVecVec ∧ s.arg.size = 0 ∧
      ∀ i, s.arg.index i = none := by
  have he := (h.shaped s hs).single hk
  obtain ⟨h1, h2⟩ := C52_single s.arg (by rcases hk with e | e <;> simp [e]) he
  refine ⟨?_, ?_, ?_, ?_⟩
  · unfold Argument.readVector; rw [h1]; rfl
  · unfold Argument.readVecVec; rw [h2]; rfl
  · simp [Argument.size, he]
  · intro i; simp [Argument.index, he]

/-- C64, no values. Booleans, help and version cannot be read as vectors: both conversions throw. -/
theorem C64_valueless (a : Argument D) (hk : Valueless a.type) :
    a.readVector = .throw notAVector ∧ a.readVecVec = .throw notAVecVec := by
  unfold Argument.readVector Argument.readVecVec Argument.toVector Argument.toVecVec
  unfold Valueless at hk
  rcases hk with e | e | e | e | e <;> rw [e] <;> exact ⟨rfl, rfl⟩

/-- C64, numbers. After a parse that returned, `getNumber()` gives the number a value begins with and throws
"is not a number" when there is none: for the argument itself when it has no elements, for its elements, and for
the values of its groups; a list or a group as a whole is not a number. -/
theorem C64_numbers {scan : Str → Option D} {st : State D} {argv : List Str} (h : Ready scan st argv)
    (hok : (st.parseArguments scan argv).2 = .ok ()) {s : Slot D} (hs : s ∈ (st.parseArguments scan argv).1.arguments)
    (hk : s.arg.type ≠ .boolean ∧ s.arg.type ≠ .reverse) :
    s.arg.readNumber = (if s.arg.size = 0 then orThrow notANumber (scan s.arg.print) else .throw notANumber) ∧
    ∀ i e, s.arg.index i = some e →
      e.readNumber = (if e.size = 0 then orThrow notANumber (scan e.getString) else .throw notANumber) ∧
      ∀ j l, e.index j = .ok l → l.readNumber = orThrow notANumber (scan l.getString) := by
  have hn := (C59_numbers h hok hs).2 hk.1 hk.2
  refine ⟨?_, fun i e he => ⟨?_, fun j l hj => ?_⟩⟩
  · unfold Argument.readNumber Argument.getNumber
    split
    · rename_i h0
      have h0 : s.arg.elems = [] := List.length_eq_zero_iff.1 h0
      rw [hn.single h0]
      have : s.arg.print = s.arg.argument := by
        unfold Argument.print Argument.getString
        rw [h0]
        cases ht : s.arg.type <;> simp_all
      rw [this]
    · rename_i h0
      rw [hn.list (fun e => h0 (by simp [Argument.size, e]))]
      rfl
  · have hm := List.mem_of_getElem? he
    unfold Elem.readNumber
    split
    · rename_i h0
      rw [hn.values e hm (List.length_eq_zero_iff.1 h0)]
      rfl
    · rename_i h0
      rw [hn.group e hm (fun x => h0 (by simp [Elem.size, x]))]
      rfl
  · have hm := List.mem_of_getElem? he
    unfold Elem.index at hj
    cases hl : e.subs[j]? with
    | none => rw [hl] at hj; cases hj
    | some l0 =>
      rw [hl] at hj
      cases hj
      unfold Leaf.readNumber
      rw [hn.members e hm l (List.mem_of_getElem? hl)]
      rfl

/-- The hypotheses are met: before the parse `defaultsParser` has groups, a list and a single value. -/
example : ReachableBy demoScan Careful defaultsParser ∧
    (∃ s ∈ defaultsParser.arguments, s.arg.type = .multiNumber ∨ s.arg.type = .infiniteNumberPos) ∧
    (∃ s ∈ defaultsParser.arguments, s.arg.type = .numberPos ∨ s.arg.type = .infinitePos ∨ s.arg.type = .number) ∧
    (∃ s ∈ defaultsParser.arguments, s.arg.type = .simple) :=
  ⟨defaultsParser_careful.mono fun _ _ _ h => h.1, by decide +kernel, by decide +kernel, by decide +kernel⟩

end BletArgs
