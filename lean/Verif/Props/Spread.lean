import Verif.Lemmas.Spread
import Verif.Lemmas.Removals
/-
In which calls names are given or withdrawn.
-/
namespace BletArgs
open Spec
variable {D : Type}

/-- C100: the flags of an option may be given in the call of `addArgument` or by calls of `flag`, in any order, and those of
`addArgument` even several times: if all calls of one statement return, so do those of the other, and the two parsers cannot
be told apart; the references have the same numbers, too (`id`). -/
theorem C100_statement {scan : Str → Option D} {st : State D} (hr : ReachableBy scan CleanAdds st) {ns ns' : List Str}
    {cs cs' : List Call} (hu : ∀ n ∈ ns, st.argumentExists n = false) (h : SameFlags ns cs ns' cs')
    (hs : Succeeds scan st ((Chain.new ns cs).ops st.nextObj)) :
    Succeeds scan st ((Chain.new ns' cs').ops st.nextObj) ∧
    Alike id (Spec.after scan st ((Chain.new ns cs).ops st.nextObj)) (Spec.after scan st ((Chain.new ns' cs').ops st.nextObj)) := by
  obtain ⟨h1, h2⟩ := spread hr hu h hs
  exact ⟨h1, h2.alike⟩

theorem dests_of_others (cs : List Call) : (othersOf cs).countP Call.isDest = cs.countP Call.isDest := by
  unfold othersOf
  rw [List.countP_filter]
  congr 1
  funext c
  cases c <;> simp [Call.isDest, Call.concern]

theorem same_creates' {c c' : Chain} (h : SameArgument c c') : c'.creates = c.creates := by
  cases h with
  | calls h => exact same_creates h
  | flags h =>
    show 1 + _ = 1 + _
    rw [← dests_of_others, ← h.others.perm.countP_eq, dests_of_others]

/-- C100: so in any program that declares arguments, in each statement. -/
theorem C100_program {scan : Str → Option D} {ds es : List Chain} (h : SameArguments ds es) {st : State D}
    (hr : ReachableBy scan CleanAdds st) (hd : Declarations st ds) (hs : Succeeds scan st (program st.nextObj ds)) :
    Succeeds scan st (program st.nextObj es) ∧
    Alike id (Spec.after scan st (program st.nextObj ds)) (Spec.after scan st (program st.nextObj es)) := by
  have key : ∀ {st : State D}, ReachableBy scan CleanAdds st → Declarations st ds → Succeeds scan st (program st.nextObj ds) →
      Succeeds scan st (program st.nextObj es) ∧
      Renamed Ren.refl (Spec.after scan st (program st.nextObj ds)) (Spec.after scan st (program st.nextObj es)) := by
    clear hr hd hs
    induction h with
    | nil => intro st hr hd hs; exact ⟨hs, Renamed.refl hr.reachable.inv.keys⟩
    | @cons c c' cs cs' hc _ ih =>
      intro st hr hd hs
      unfold program at hs ⊢
      rw [succeeds_append] at hs
      obtain ⟨h1, h2⟩ := hs
      have hn := hd.new c (by simp)
      have hu : ∀ n ∈ c.added, st.argumentExists n = false := fun n h => hd.unused c (by simp) n (Chain.added_names h)
      obtain ⟨k1, k2, k3⟩ := declared hr hd h1
      have hcr := same_creates' hc
      obtain ⟨j1, j2⟩ : Succeeds scan st (c'.ops st.nextObj) ∧
          Renamed Ren.refl (Spec.after scan st (c.ops st.nextObj)) (Spec.after scan st (c'.ops st.nextObj)) := by
        cases hc with
        | calls hc => exact chain_rearranged hr (fun ref h => by rw [hn] at h; cases h) hu hc h1
        | flags hc => exact spread hr hu hc h1
      rw [succeeds_append, after_append h1, after_append j1, hcr]
      rw [← k2] at h2 ⊢
      obtain ⟨i1, i2⟩ := ih k1 k3 h2
      have t1 := j2.succeeds i1
      rw [show Ren.refl.o = id from rfl, op_rename_id] at t1
      have t2 := (j2.after scan (program (Spec.after scan st (c.ops st.nextObj)).nextObj cs')).1
      rw [show Ren.refl.o = id from rfl, op_rename_id] at t2
      exact ⟨⟨j1, t1⟩, i2.trans t2⟩
  obtain ⟨h1, h2⟩ := key hr hd hs
  exact ⟨h1, h2.alike⟩

/-- C100: and it is irrelevant in how many calls of `removeArguments` names are withdrawn – in one or several –, and in which
order: if all calls return, so do those of any other distribution of the same names (in which no call is empty), and the two
parsers cannot be told apart. -/
theorem C100_removals {scan : Str → Option D} {st : State D} (hr : ReachableBy scan CleanAdds st) {rms rms' : List (List Str)}
    (hp : rms.flatten.Perm rms'.flatten) (hne : ∀ rm ∈ rms', rm ≠ []) (hs : Succeeds scan st (rms.map .remove)) :
    Succeeds scan st (rms'.map .remove) ∧
    Alike id (Spec.after scan st (rms.map .remove)) (Spec.after scan st (rms'.map .remove)) := by
  have hi : Inv st := hr.reachable.inv
  obtain ⟨i1, n1, g1, r1, q1⟩ := removals rms hi hs
  have hs' : Succeeds scan st (rms'.map .remove) :=
    removals_succeed rms' hi hne (hp.nodup_iff.1 n1) fun n hn => g1 n (hp.mem_iff.2 hn)
  obtain ⟨i2, n2, g2, r2, q2⟩ := removals rms' hi hs'
  have ow : ∀ (rms : List (List Str)) {s : State D}, ReachableBy scan CleanAdds s → Succeeds scan s (rms.map .remove) →
      ReachableBy scan CleanAdds (Spec.after scan s (rms.map .remove)) := by
    intro rms
    induction rms with
    | nil => intro s hr _; exact hr
    | cons rm rms ih =>
      intro s hr hs
      rw [List.map_cons, succeeds_cons] at hs
      rw [List.map_cons, after_cons_ok _ hs.1]
      exact ih (.step _ hr (by rw [hs.1]; rfl) trivial) hs.2
  refine ⟨hs', (Removed.same hp i1 i2 (ow rms hr hs).owned r1 r2 fun b => ?_).alike⟩
  rw [q1, q2]
  congr 1
  funext x
  rw [contains_perm hp]

/-! ### Examples -/

/-- `addArgument({"-o", "--out", "--output"}).nargs(2)` and `addArgument("--output").flag("-o").nargs(2).flag("--out")`. -/
theorem outWays : SameFlags ["-o".toList, "--out".toList, "--output".toList] [.nargs 2]
    ["--output".toList] [.flag "-o".toList, .nargs 2, .flag "--out".toList] where
  option := rfl
  option' := rfl
  given' := by simp
  flags f := by
    have e1 : flagsOf [.flag "-o".toList, .nargs 2, .flag "--out".toList] = ["-o".toList, "--out".toList] := rfl
    have e2 : flagsOf [.nargs 2] = [] := rfl
    rw [e1, e2]
    simp only [List.mem_cons, List.not_mem_nil, or_false]
    constructor
    · rintro (h | h | h) <;> simp [h]
    · rintro (h | h | h) <;> simp [h]
  once := by decide
  news := by decide
  others := ⟨.refl _, fun _ _ => rfl⟩

theorem someParser_out : Succeeds demoScan someParser
    ((Chain.new ["--format".toList, "-f".toList] [.flag "--fmt".toList, .help "h".toList]).ops someParser.nextObj) := by
  unfold Succeeds; decide +kernel

example : Alike id
    (Spec.after demoScan State.init ((Chain.new ["-o".toList, "--out".toList, "--output".toList] [.nargs 2]).ops 0))
    (Spec.after demoScan State.init
      ((Chain.new ["--output".toList] [.flag "-o".toList, .nargs 2, .flag "--out".toList]).ops 0)) :=
  (C100_statement (scan := demoScan) .init (fun _ _ => rfl) outWays (by unfold Succeeds; decide +kernel)).2

/-- In a parser that has arguments. -/
example : Alike id
    (Spec.after demoScan someParser
      ((Chain.new ["--format".toList, "-f".toList] [.flag "--fmt".toList, .help "h".toList]).ops someParser.nextObj))
    (Spec.after demoScan someParser
      ((Chain.new ["-f".toList, "-f".toList] [.help "h".toList, .flag "--fmt".toList, .flag "--format".toList]).ops
        someParser.nextObj)) := by
  refine (C100_statement (program_reachable .init someDecls_ok someDecls_succeed) ?_ ?_ someParser_out).2
  · show ∀ n ∈ _, someParser.argumentExists n = false
    decide +kernel
  · constructor
    · rfl
    · rfl
    · simp
    · intro f
      have e1 : flagsOf [.help "h".toList, .flag "--fmt".toList, .flag "--format".toList] = ["--fmt".toList, "--format".toList] := rfl
      have e2 : flagsOf [.flag "--fmt".toList, .help "h".toList] = ["--fmt".toList] := rfl
      rw [e1, e2]
      simp only [List.mem_cons, List.not_mem_nil, or_false]
      constructor
      · rintro ((h | h) | h | h) <;> simp [h]
      · rintro ((h | h) | h) <;> simp [h]
    · decide
    · decide
    · exact ⟨.refl _, fun _ _ => rfl⟩

/-- A whole program: the flags of `-i` in one call, those of `-o` in two. -/
def otherDecls : List Chain :=
  [.new ["--out".toList] [.flag "-o".toList, .nargs 2, .dest ⟨0, .vector, false, true, fun _ => none⟩, .defaults ["a".toList, "b".toList]],
   .new ["file".toList] [.required true],
   .new ["--info".toList, "-i".toList] [.action .help],
   .new ["dir".toList] []]

theorem same_decls : SameArguments someDecls otherDecls := by
  have same : ∀ cs : List Call, Rearranged cs cs := fun cs => ⟨.refl _, fun _ _ => rfl⟩
  refine .cons (.flags ⟨rfl, rfl, by simp, ?_, by decide, by decide, ⟨.refl _, fun _ _ => rfl⟩⟩)
    (.cons (.calls (.new _ (same _))) (.cons (.flags ⟨rfl, rfl, by simp, ?_, by decide, by decide, ⟨.refl _, fun _ _ => rfl⟩⟩)
      (.cons (.calls (.new _ (same _))) .nil)))
  · intro f
    simp only [flagsOf, List.filterMap_cons, List.filterMap_nil, List.mem_cons, List.not_mem_nil, or_false]
    exact or_comm
  · intro f
    simp only [flagsOf, List.filterMap_cons, List.filterMap_nil, List.mem_cons, List.not_mem_nil, or_false]
    exact or_comm

example : Succeeds demoScan State.init (program 0 otherDecls) ∧
    Alike id (Spec.after demoScan State.init (program 0 someDecls)) (Spec.after demoScan State.init (program 0 otherDecls)) :=
  C100_program (scan := demoScan) same_decls .init someDecls_ok someDecls_succeed

/-- A flag that was given to `addArgument` may not be given again to `flag`. -/
example : Succeeds demoScan (State.init (D := Unit)) ((Chain.new ["-o".toList, "-o".toList] []).ops 0) ∧
    ¬ Succeeds demoScan (State.init (D := Unit)) ((Chain.new ["-o".toList] [.flag "-o".toList]).ops 0) := by
  unfold Succeeds; decide +kernel

/-- The names `--out`, `dir`, `--info` and `file` withdrawn in one call, and in three. -/
def firstWay : List (List Str) := [["--out".toList, "dir".toList, "--info".toList, "file".toList]]

def secondWay : List (List Str) := [["file".toList], ["--info".toList, "--out".toList], ["dir".toList]]

theorem sameWay : firstWay.flatten.Perm secondWay.flatten := by decide

example : Succeeds demoScan someParser (secondWay.map .remove) ∧
    Alike id (Spec.after demoScan someParser (firstWay.map .remove)) (Spec.after demoScan someParser (secondWay.map .remove)) :=
  C100_removals (program_reachable .init someDecls_ok someDecls_succeed) sameWay (by decide)
    (by unfold Succeeds; decide +kernel)

/-- Without the last name, the help option is gone too, whichever name is the last. -/
example : someParser.helpOption ≠ none ∧
    (Spec.after demoScan someParser [.remove ["--info".toList], .remove ["-i".toList]]).helpOption = none ∧
    (Spec.after demoScan someParser [.remove ["-i".toList, "--info".toList]]).helpOption = none := by decide +kernel

end BletArgs
