import Verif.Props.Edits
/-
C22, strict mode does nothing but refuse surplus words.
-/
namespace BletArgs
open Spec
variable {D : Type}

theorem afterLoop_strict (scan : Str → Option D) (s : State D) (b : Bool) :
    (({ s with isStrict := b } : State D).afterLoop scan).2 = (s.afterLoop scan).2 ∧
    ((s.afterLoop scan).2.goesOn = true →
      (({ s with isStrict := b } : State D).afterLoop scan).1 = { (s.afterLoop scan).1 with isStrict := b }) := by
  have hu : ({ s with isStrict := b } : State D).getUsage = s.getUsage := rfl
  have ho : ∀ p, ({ s with isStrict := b } : State D).optionSeen p = s.optionSeen p := fun p => rfl
  unfold State.afterLoop
  rw [hu, ho, ho]
  simp only
  cases s.optionSeen s.helpOption with
  | none => exact ⟨rfl, fun _ => rfl⟩
  | some c =>
    cases c with
    | true =>
      simp only
      split
      · exact ⟨rfl, fun _ => rfl⟩
      · exact ⟨rfl, fun h => nomatch h⟩
    | false =>
      simp only
      cases s.optionSeen s.versionOption with
      | none => exact ⟨rfl, fun _ => rfl⟩
      | some c =>
        cases c with
        | true =>
          simp only
          split
          · exact ⟨rfl, fun _ => rfl⟩
          · exact ⟨rfl, fun h => nomatch h⟩
        | false =>
          simp only
          unfold State.finishParse
          simp only
          split <;> exact ⟨rfl, fun _ => rfl⟩

/-- C22, otherwise. Strict mode does nothing but refuse surplus words: a command line that leaves none (before its first
error, if it has one) ends in strict mode as it does without, and leaves the same parser. (With a surplus word:
`C22_strict`.) -/
theorem C22_otherwise {scan : Str → Option D} {st : State D} {argv : List Str} (h : Ready scan st argv)
    (hs : st.isStrict = false) {evs : List Event} {err : Option Exn} (hl : Line st.sig st.places (argv.drop 1) evs err)
    (he : extras evs = []) :
    ((step scan st (.setStrict true)).1.parseArguments scan argv).2 = (st.parseArguments scan argv).2 ∧
    (err = none → (st.parseArguments scan argv).2.goesOn = true →
      ((step scan st (.setStrict true)).1.parseArguments scan argv).1 =
        { (st.parseArguments scan argv).1 with isStrict := true }) := by
  have e0 : (step scan st (.setStrict true)).1 = { st with isStrict := true } := rfl
  rw [e0]
  have h' : Ready scan ({ st with isStrict := true } : State D) argv :=
    ⟨survives_step h.history (.setStrict true) rfl, h.settled, h.small, h.help, h.program⟩
  have hne : ∀ ev ∈ evs, extraOf ev = none := by
    rw [extras_eq] at he
    exact List.filterMap_eq_nil_iff.1 he
  have hl' : Line ({ st with isStrict := true } : State D).sig ({ st with isStrict := true } : State D).places (argv.drop 1) evs err :=
    (line_strict (s := st.sig) (s' := ({ st with isStrict := true } : State D).sig) rfl rfl hs rfl hl).1 hne
  have h1 := parse_of_line h hl
  have h2 := parse_of_line h' hl'
  cases err with
  | some x => exact ⟨by rw [h1.1 x rfl, h2.1 x rfl], fun h => nomatch h⟩
  | none =>
    have e : (({ st with isStrict := true } : State D).begin argv).recordAll evs =
        { (st.begin argv).recordAll evs with isStrict := true } := by
      rw [seen_eq, seen_eq]
      rfl
    rw [h1.2 rfl, h2.2 rfl, e]
    obtain ⟨a1, a2⟩ := afterLoop_strict scan ((st.begin argv).recordAll evs) true
    exact ⟨a1, fun _ => a2⟩

section
attribute [local irreducible] parser
example := C22_otherwise (parser_words ["-v", "f"] (by decide +kernel)) (by decide +kernel) shortLine_says (by decide)
/-- An error in a line without surplus words. -/
example := C22_otherwise (parser_words ["-v", "--nope"] (by decide +kernel)) (by decide +kernel)
  (parser_says (ws := ["-v", "--nope"]) (evs := [.option 2 false .nothing])
    (err := some ⟨.parse, "nope".toList, "invalid option".toList⟩) (by decide +kernel) (by decide +kernel)) (by decide)
end

end BletArgs
