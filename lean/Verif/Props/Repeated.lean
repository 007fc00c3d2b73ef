import Verif.Lemmas.Repeated
import Verif.Props.Kinds
import Verif.Lemmas.ReadsTok
/-
Only the last of repeated calls counts.
-/
namespace BletArgs
open Spec
variable {D : Type}

/-- C94: of several calls of `help`, `metavar` or `valid` on an argument – or of `required` on an option – in one statement only
the last one counts, whatever is called in between; the earlier ones can be left out or replaced by others. If all calls of
the one statement return, so do those of the other, and the two parsers cannot be told apart. -/
theorem C94_statement {scan : Str → Option D} {st : State D} (hr : ReachableBy scan CleanAdds st) {c c' : Chain}
    (hu : ∀ n ∈ c.added, st.argumentExists n = false) (ha : SameEffect st c c')
    (hs : Succeeds scan st (c.ops st.nextObj)) :
    Succeeds scan st (c'.ops st.nextObj) ∧
    Alike id (Spec.after scan st (c.ops st.nextObj)) (Spec.after scan st (c'.ops st.nextObj)) := by
  cases ha with
  | new ha =>
    obtain ⟨h1, h2⟩ := new_same hr hu ha hs
    exact ⟨h1, h2.alike⟩
  | through ht ha =>
    obtain ⟨h1, h2⟩ := through_same hr ht ha hs
    exact ⟨h1, h2.alike⟩

theorem program_same_end {scan : Str → Option D} {ds es : List Chain} (h : SameEffects ds es) :
    ∀ {st : State D}, ReachableBy scan CleanAdds st → Declarations st ds → Succeeds scan st (program st.nextObj ds) →
    Succeeds scan st (program st.nextObj es) ∧
    Renamed Ren.refl (Spec.after scan st (program st.nextObj ds)) (Spec.after scan st (program st.nextObj es)) := by
  induction h with
  | nil => intro st hr hd hs; exact ⟨hs, Renamed.refl hr.reachable.inv.keys⟩
  | @cons names cs cs' ds es hc _ ih =>
    intro st hr hd hs
    unfold program at hs ⊢
    rw [succeeds_append] at hs
    obtain ⟨h1, h2⟩ := hs
    obtain ⟨k1, k2, k3⟩ := declared hr hd h1
    obtain ⟨j1, j2⟩ := new_same (names := names) hr (fun n h => hd.unused (.new names cs) (by simp) n (Chain.added_names h)) hc h1
    have hcr : (Chain.new names cs').creates = (Chain.new names cs).creates := by
      show 1 + _ = 1 + _
      rw [creates_same hc]
    rw [succeeds_append, after_append h1, after_append j1, hcr]
    rw [← k2] at h2 ⊢
    obtain ⟨i1, i2⟩ := ih k1 k3 h2
    have t1 := j2.succeeds i1
    rw [show Ren.refl.o = id from rfl, op_rename_id] at t1
    have t2 := (j2.after scan (program (Spec.after scan st ((Chain.new names cs).ops st.nextObj)).nextObj es)).1
    rw [show Ren.refl.o = id from rfl, op_rename_id] at t2
    exact ⟨⟨j1, t1⟩, i2.trans t2⟩

/-- C94, a whole program: in every statement the calls replaced by later ones may be left out, added or changed. -/
theorem C94_program {scan : Str → Option D} {st : State D} (hr : ReachableBy scan CleanAdds st) {ds es : List Chain}
    (hd : Declarations st ds) (hc : SameEffects ds es) (hs : Succeeds scan st (program st.nextObj ds)) :
    Succeeds scan st (program st.nextObj es) ∧
    Alike id (Spec.after scan st (program st.nextObj ds)) (Spec.after scan st (program st.nextObj es)) := by
  obtain ⟨h1, h2⟩ := program_same_end hc hr hd hs
  exact ⟨h1, h2.alike⟩

/-! ### Default values -/

theorem defaults_over (a : Argument D) {ds ds' : List Str} (hne : ds' ≠ [])
    (hk : a.type ≠ .infiniteNumberPos ∧ a.type ≠ .multiNumber ∧ a.type ≠ .multiNumberInfinite)
    (hok : ({ a with defaults := ds' } : Argument D).defaultsConstructor.2 = .ok ()) :
    ({ ({ a with defaults := ds } : Argument D).defaultsConstructor.1 with defaults := ds' } : Argument D).defaultsConstructor =
      ({ a with defaults := ds' } : Argument D).defaultsConstructor := by
  obtain ⟨argument, dflt, num, elems, names, type, isExist, isRequired, count, nargs, help, metavar, valid, vd, action, defaults,
    dest⟩ := a
  obtain ⟨k1, k2, k3⟩ := hk
  have hlen : 0 < ds'.length := List.length_pos_iff.2 hne
  unfold Argument.defaultsConstructor at hok ⊢
  by_cases hn : 0 < nargs
  · by_cases hl : 0 < ds.length
    · cases type <;> first
        | exact absurd rfl k1
        | exact absurd rfl k2
        | exact absurd rfl k3
        | (by_cases c1 : ds.length = nargs <;> by_cases c2 : ds'.length = nargs <;>
            simp_all [Argument.badDefaults, Argument.front])
    · simp [hn, hl]
  · simp [hn]

/-- C94, default values: a call of `defaults()` with some values, if it returns, replaces what an earlier one said, even if that
one threw – unless the values are read in groups. The parser is the one without the earlier call. -/
theorem C94_defaults {scan : Str → Option D} {st : State D} (hr : Reachable scan st) {ref : Nat} {s : Slot D}
    (h : st.atObj ref = some s) (ds : List Str) {ds' : List Str} (hne : ds' ≠ [])
    (hk : s.arg.type ≠ .infiniteNumberPos ∧ s.arg.type ≠ .multiNumber ∧ s.arg.type ≠ .multiNumberInfinite)
    (hok : (st.setDefaults ref ds').2 = .ok ()) :
    (st.setDefaults ref ds).1.setDefaults ref ds' = st.setDefaults ref ds' := by
  have hat := atObj_updNode hr.inv h (st' := st.modNode s.node
    (fun _ => ({ s.arg with defaults := ds } : Argument D).defaultsConstructor.1)) rfl
  rw [setDefaults_eq h] at hok
  rw [setDefaults_eq h, setDefaults_eq h, setDefaults_eq hat, defaults_over s.arg hne hk hok, modNode_modNode]

/-! ### What does not hold -/

/-- C94 does not extend to `required()` on a positional argument: making an optional one required and optional again moves it
to the front of the optional ones; nor to `defaults({})`, which does not take back the values of an earlier call; nor to
values read in groups, where the default text shown by the usage has those of both calls. -/
theorem C94_exceptions :
    ((Spec.after demoScan (State.init (D := Unit)) (program 0
        [.new ["a".toList] [], .new ["b".toList] [.required false]])).arguments.map (·.arg.names) =
      [["a".toList], ["b".toList]] ∧
     (Spec.after demoScan (State.init (D := Unit)) (program 0
        [.new ["a".toList] [], .new ["b".toList] [.required true, .required false]])).arguments.map (·.arg.names) =
      [["b".toList], ["a".toList]]) ∧
    ((Spec.after demoScan (State.init (D := Unit)) (program 0
        [.new ["-o".toList] [.defaults ["x".toList], .defaults []]])).arguments.map (·.arg.getString) = ["x".toList]) ∧
    ((Spec.after demoScan (State.init (D := Unit)) (program 0
        [.new ["-o".toList] [.nargs 2, .action .append, .defaults ["x".toList, "y".toList], .defaults ["z".toList, "t".toList]]])).arguments.map
          (·.arg.dflt) = ["(x, y)(z, t)".toList]) := by
  decide +kernel

/-! ### Examples -/

/-- `addArgument("-o").help("a").required(true).valid(v).nargs(2).help("b").required(false).valid(w).flag("--out")` and
`addArgument("-o").flag("--out").nargs(2).valid(w).required(false).help("b")`. -/
def wordyCalls (v w : Validator) : List Call :=
  [.help "a".toList, .required true, .valid (some v) true, .nargs 2, .help "b".toList, .required false, .valid (some w) false,
   .flag "--out".toList]

def tidyCalls (w : Validator) : List Call :=
  [.flag "--out".toList, .nargs 2, .valid (some w) false, .required false, .help "b".toList]

theorem wordy_tidy (v w : Validator) : SameInTheEnd false (wordyCalls v w) (tidyCalls w) :=
  ⟨.refl _, rfl, rfl, rfl, rfl, rfl, fun h => by cases h⟩

/-- Two validators: one accepts everything, the other nothing. -/
def lenient : Validator := ⟨1, .accept⟩
def strict : Validator := ⟨2, fun _ => .reject⟩

example : Alike id
    (Spec.after demoScan State.init ((Chain.new ["-o".toList] (wordyCalls lenient strict)).ops 0))
    (Spec.after demoScan State.init ((Chain.new ["-o".toList] (tidyCalls strict)).ops 0)) :=
  (C94_statement (scan := demoScan) .init (fun _ _ => rfl) (SameEffect.new (names := ["-o".toList]) (wordy_tidy lenient strict))
    (by unfold Succeeds; decide +kernel)).2

/-- Through a reference to a positional argument. -/
example : Alike id
    (Spec.after demoScan someParser ((Chain.through 1 [.metavar "M".toList, .required true, .metavar "N".toList]).ops 5))
    (Spec.after demoScan someParser ((Chain.through 1 [.metavar "N".toList, .required true]).ops 5)) := by
  have hn : someParser.nextObj = 5 := by decide +kernel
  obtain ⟨s, hs⟩ : ∃ s, someParser.atObj 1 = some s := Option.isSome_iff_exists.1 (by decide +kernel)
  have h := C94_statement (program_reachable .init someDecls_ok someDecls_succeed)
    (c := .through 1 [.metavar "M".toList, .required true, .metavar "N".toList])
    (c' := .through 1 [.metavar "N".toList, .required true])
  rw [show (Spec.after demoScan State.init (program State.init.nextObj someDecls)) = someParser from rfl, hn] at h
  refine (h ?_ (.through hs ⟨.refl _, rfl, rfl, rfl, rfl, rfl, fun _ => rfl⟩) ?_).2
  · intro n hn; cases hn
  · unfold Succeeds; decide +kernel

def wordyProgram : List Chain :=
  [.new ["file".toList] [.help "f".toList, .help "F".toList], .new ["-o".toList] (wordyCalls lenient strict)]

def tidyProgram : List Chain :=
  [.new ["file".toList] [.help "F".toList], .new ["-o".toList] (tidyCalls strict)]

theorem wordyProgram_ok : Declarations (State.init (D := Unit)) wordyProgram := by
  unfold wordyProgram
  refine ⟨?_, ?_, ?_, ?_, ?_⟩
  · intro c hc
    simp only [List.mem_cons, List.not_mem_nil, or_false] at hc
    rcases hc with rfl | rfl <;> rfl
  · refine .cons ?_ (.cons (fun _ h => by cases h) .nil)
    intro c hc
    obtain rfl := List.mem_singleton.1 hc
    decide +kernel
  · intro c _ n _; rfl
  · refine .cons ?_ (.cons (fun _ h => by cases h) .nil)
    rintro c hc ⟨h, -⟩
    simp [Chain.calls] at h
  · refine .cons ?_ (.cons (fun _ h => by cases h) .nil)
    rintro c hc ⟨h, -⟩
    simp [Chain.calls] at h

theorem wordyProgram_tidy : SameEffects wordyProgram tidyProgram :=
  SameEffects.cons (names := ["file".toList]) ⟨.refl _, rfl, rfl, rfl, rfl, rfl, fun _ => rfl⟩
    (SameEffects.cons (names := ["-o".toList]) (wordy_tidy lenient strict) .nil)

theorem wordyProgram_succeeds : Succeeds demoScan (State.init (D := Unit)) (program 0 wordyProgram) := by
  unfold Succeeds; decide +kernel

example : Alike id (Spec.after demoScan State.init (program 0 wordyProgram))
    (Spec.after demoScan State.init (program 0 tidyProgram)) :=
  (C94_program .init wordyProgram_ok wordyProgram_tidy wordyProgram_succeeds).2

/-- Default values: `defaults({"a"}).defaults({"b"})` on the option `-o` of `demo`. -/
example : (demo.setDefaults 0 ["a".toList]).1.setDefaults 0 ["b".toList] = demo.setDefaults 0 ["b".toList] := by
  obtain ⟨s, hs⟩ : ∃ s, demo.atObj 0 = some s := Option.isSome_iff_exists.1 (by decide +kernel)
  have ht : (demo.atObj 0).map (·.arg.type) = some .simple := by decide +kernel
  rw [hs] at ht
  have ht : s.arg.type = .simple := Option.some.inj ht
  refine C94_defaults demo_reachable hs _ (by decide) ?_ (by decide +kernel)
  rw [ht]
  decide

end BletArgs
