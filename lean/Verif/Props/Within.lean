import Verif.Lemmas.Within
/-
The order of the calls in a statement.
-/
namespace BletArgs
open Spec
variable {D : Type}

theorem chain_rearranged {scan : Str → Option D} {st : State D} (hr : ReachableBy scan CleanAdds st) {c c' : Chain}
    (hl : ∀ ref, c.target = some ref → st.atObj ref ≠ none) (hu : ∀ n ∈ c.added, st.argumentExists n = false)
    (ha : SameStatement c c') (hs : Succeeds scan st (c.ops st.nextObj)) :
    Succeeds scan st (c'.ops st.nextObj) ∧
    Renamed Ren.refl (Spec.after scan st (c.ops st.nextObj)) (Spec.after scan st (c'.ops st.nextObj)) := by
  cases ha with
  | through ref ha => exact through_rearranged hr (hl ref rfl) ha hs
  | new names ha =>
    rename_i cs cs'
    unfold Chain.ops at *
    simp only at *
    rw [succeeds_cons] at hs ⊢
    obtain ⟨h1, h2⟩ := hs
    rw [after_cons_ok _ h1, after_cons_ok _ h1]
    have hr' : ReachableBy scan CleanAdds (step scan st (.add names)).1 := .step _ hr (by rw [h1]; rfl) hu
    have hadd : step scan st (.add names) = ((st.addArgument names).1, (st.addArgument names).2.void) := rfl
    have hnew := add_new st names
    cases hna : newArg (D := D) st.argumentExists names with
    | error e =>
      rw [hna] at hnew
      rw [hadd, hnew] at h1
      cases h1
    | ok a =>
      rw [hna] at hnew
      simp only at hnew
      obtain ⟨n1, n2, n3, n4, n5⟩ := newArg_names hna
      obtain ⟨l1, l2⟩ := link_edited hr.reachable.inv n1 n3
      rw [← hnew] at l1 l2
      have l1' : Edited st (addEdit st.nextNode st.nextObj st.helpOption st.versionOption a) (step scan st (.add names)).1 := l1
      have e4 : (step scan st (.add names)).1.nextObj = st.nextObj + 1 := l1'.obj
      have found := l1'.found hr'.reachable.inv
      have found : (step scan st (.add names)).1.atObj st.nextObj = _ := found
      rw [← e4] at h2 ⊢
      have := through_rearranged hr' (ref := st.nextObj) (by rw [found]; exact fun e => by cases e) ha h2
      exact ⟨⟨h1, this.1⟩, this.2⟩

/-- C90: the order of the calls in a statement is irrelevant, but among those about the kind of the argument – action, nargs,
defaults, dest – and among several calls of the same function (other than `flag`): if all calls return in one order, so do
they in the other, and the two parsers cannot be told apart: the references have the same numbers, too (`id`). -/
theorem C90_calls {scan : Str → Option D} {st : State D} (hr : ReachableBy scan CleanAdds st) {c c' : Chain}
    (hl : ∀ ref, c.target = some ref → st.atObj ref ≠ none) (hu : ∀ n ∈ c.added, st.argumentExists n = false)
    (ha : SameStatement c c') (hs : Succeeds scan st (c.ops st.nextObj)) :
    Succeeds scan st (c'.ops st.nextObj) ∧
    Alike id (Spec.after scan st (c.ops st.nextObj)) (Spec.after scan st (c'.ops st.nextObj)) := by
  obtain ⟨h1, h2⟩ := chain_rearranged hr hl hu ha hs
  exact ⟨h1, h2.alike⟩

/-! ### A whole program -/

theorem Spec.Rearranged.symm {cs cs' : List Call} (h : Rearranged cs cs') : Rearranged cs' cs :=
  ⟨h.perm.symm, fun k hk => (h.order k hk).symm⟩

theorem same_creates {c c' : Chain} (h : SameStatement c c') : c'.creates = c.creates := by
  cases h with
  | new names h => show 1 + _ = 1 + _; rw [h.perm.countP_eq]
  | through ref h => exact (h.perm.countP_eq _).symm

theorem op_rename_id (ops : List Op) : ops.map (Spec.Op.rename id) = ops := by
  rw [show Spec.Op.rename id = (id : Op → Op) from funext fun op => by cases op <;> rfl, List.map_id]

theorem program_same {scan : Str → Option D} {ds es : List Chain} (h : SameStatements ds es) :
    ∀ {st : State D}, ReachableBy scan CleanAdds st → Declarations st ds → Succeeds scan st (program st.nextObj ds) →
    Succeeds scan st (program st.nextObj es) ∧
    Renamed Ren.refl (Spec.after scan st (program st.nextObj ds)) (Spec.after scan st (program st.nextObj es)) := by
  induction h with
  | nil => intro st hr hd hs; exact ⟨hs, Renamed.refl hr.reachable.inv.keys⟩
  | @cons c c' cs cs' hc _ ih =>
    intro st hr hd hs
    unfold program at hs ⊢
    rw [succeeds_append] at hs
    obtain ⟨h1, h2⟩ := hs
    have hn := hd.new c (by simp)
    obtain ⟨k1, k2, k3⟩ := declared hr hd h1
    obtain ⟨j1, j2⟩ := chain_rearranged hr (fun ref h => by rw [hn] at h; cases h)
      (fun n h => hd.unused c (by simp) n (Chain.added_names h)) hc h1
    rw [succeeds_append, after_append h1, after_append j1, same_creates hc]
    rw [← k2] at h2 ⊢
    obtain ⟨i1, i2⟩ := ih k1 k3 h2
    have t1 := j2.succeeds i1
    rw [show Ren.refl.o = id from rfl, op_rename_id] at t1
    have t2 := (j2.after scan (program (Spec.after scan st (c.ops st.nextObj)).nextObj cs')).1
    rw [show Ren.refl.o = id from rfl, op_rename_id] at t2
    exact ⟨⟨j1, t1⟩, i2.trans t2⟩

/-- C90: any program that declares arguments may be rewritten: its statements in any order that keeps the positional
arguments in order, and the calls of each in any order that keeps those about the kind in order. -/
theorem C90_program {scan : Str → Option D} {st : State D} (hr : ReachableBy scan CleanAdds st) {ds ds' es : List Chain}
    (hd : Declarations st ds) (hp : ds.Perm ds') (hq : ds'.filter Chain.isPositional = ds.filter Chain.isPositional)
    (hc : SameStatements ds' es) (hs : Succeeds scan st (program st.nextObj ds)) :
    Succeeds scan st (program st.nextObj es) ∧
    ∃ o, (∀ k, k < st.nextObj → o k = k) ∧
      Alike o (Spec.after scan st (program st.nextObj ds)) (Spec.after scan st (program st.nextObj es)) := by
  obtain ⟨h1, r, h2, h3⟩ := Replaces.any hr hd hp hq hs
  obtain ⟨h4, h5⟩ := program_same hc hr (hd.perm hp) h1
  exact ⟨h4, _, fun k hk => h2 k hk, (h3.trans h5).alike⟩

/-! ### Examples -/

/-- `addArgument("-o").help("h").nargs(2).required(true).flag("--out").defaults({"a", "b"}).dest(x).flag("--output")` and
`addArgument("-o").flag("--output").nargs(2).defaults({"a", "b"}).flag("--out").dest(x).required(true).help("h")`. -/
def longWay : List Call :=
  [.help "h".toList, .nargs 2, .required true, .flag "--out".toList, .defaults ["a".toList, "b".toList],
   .dest ⟨0, .vector, false, true, fun _ => none⟩, .flag "--output".toList]

def otherWay : List Call :=
  [.flag "--output".toList, .nargs 2, .defaults ["a".toList, "b".toList], .flag "--out".toList,
   .dest ⟨0, .vector, false, true, fun _ => none⟩, .required true, .help "h".toList]

theorem longWay_other : Rearranged longWay otherWay where
  perm := by
    unfold longWay otherWay
    refine ((List.perm_middle (l₁ := [_, _, _, _, _, _]) (l₂ := [])).trans (.cons _ ?_)).symm.symm
    refine (List.Perm.swap _ _ _).trans (.cons _ ?_)
    refine (List.perm_middle (l₁ := [_, _, _]) (l₂ := [_])).trans (.cons _ ?_)
    refine (List.perm_middle (l₁ := [_, _]) (l₂ := [_])).trans (.cons _ ?_)
    refine (List.perm_middle (l₁ := [_, _]) (l₂ := [])).trans (.cons _ ?_)
    exact List.Perm.swap _ _ _
  order k hk := by cases k <;> first | rfl | exact absurd rfl hk

example : Alike id
    (Spec.after demoScan State.init ((Chain.new ["-o".toList] longWay).ops 0))
    (Spec.after demoScan State.init ((Chain.new ["-o".toList] otherWay).ops 0)) :=
  (C90_calls (scan := demoScan) .init (fun _ h => by cases h) (fun _ _ => rfl) (.new _ longWay_other)
    (by unfold Succeeds; decide +kernel)).2

/-- Through a reference held by the program. -/
example : Alike id
    (Spec.after demoScan someParser ((Chain.through 1 [.metavar "M".toList, .required true, .nargs 2]).ops 5))
    (Spec.after demoScan someParser ((Chain.through 1 [.nargs 2, .required true, .metavar "M".toList]).ops 5)) := by
  have hn : someParser.nextObj = 5 := by decide +kernel
  have h := C90_calls (program_reachable .init someDecls_ok someDecls_succeed)
    (c := .through 1 [.metavar "M".toList, .required true, .nargs 2])
    (c' := .through 1 [.nargs 2, .required true, .metavar "M".toList])
  rw [show (Spec.after demoScan State.init (program State.init.nextObj someDecls)) = someParser from rfl, hn] at h
  refine (h ?_ ?_ (.through 1 ⟨?_, ?_⟩) ?_).2
  · intro ref e
    cases e
    have : (someParser.atObj 1).isSome = true := by decide +kernel
    intro e
    rw [e] at this
    cases this
  · intro n hn; cases hn
  · exact ((List.Perm.cons _ (List.Perm.swap _ _ _)).trans (List.Perm.swap _ _ _)).trans (List.Perm.cons _ (List.Perm.swap _ _ _))
  · intro k hk; cases k <;> rfl
  · unfold Succeeds; decide +kernel

/-- The help option first, and with its calls in another order. -/
example : ∃ o, Alike o (Spec.after demoScan State.init (program 0 someDecls))
    (Spec.after demoScan State.init (program 0
      [.new ["-i".toList] [.flag "--info".toList, .action .help],
       .new ["file".toList] [.required true],
       .new ["-o".toList, "--out".toList] [.nargs 2, .dest ⟨0, .vector, false, true, fun _ => none⟩, .defaults ["a".toList, "b".toList]],
       .new ["dir".toList] []])) := by
  have same : ∀ cs : List Call, Rearranged cs cs := fun cs => ⟨.refl _, fun _ _ => rfl⟩
  have h := C90_program (ds' := [.new ["-i".toList] [.action .help, .flag "--info".toList],
       .new ["file".toList] [.required true],
       .new ["-o".toList, "--out".toList] [.nargs 2, .dest ⟨0, .vector, false, true, fun _ => none⟩, .defaults ["a".toList, "b".toList]],
       .new ["dir".toList] []]) (scan := demoScan) .init someDecls_ok ?_ rfl
    (.cons (.new _ ⟨List.Perm.swap _ _ _, fun k hk => by cases k <;> rfl⟩)
      (.cons (.new _ (same _)) (.cons (.new _ (same _)) (.cons (.new _ (same _)) .nil)))) someDecls_succeed
  · obtain ⟨-, o, -, h⟩ := h
    exact ⟨o, h⟩
  · unfold someDecls
    exact ((List.Perm.cons _ (List.Perm.swap _ _ _)).trans (List.Perm.swap _ _ _)).trans (List.Perm.cons _ (List.Perm.swap _ _ _))

/-- The order matters for calls about the kind: `nargs(2).defaults({"a", "b"})` is accepted, but not the other way round. -/
example : Succeeds demoScan (State.init (D := Unit))
      ((Chain.new ["-o".toList] [.nargs 2, .defaults ["a".toList, "b".toList]]).ops 0) ∧
    ¬ Succeeds demoScan (State.init (D := Unit))
      ((Chain.new ["-o".toList] [.defaults ["a".toList, "b".toList], .nargs 2]).ops 0) := by
  unfold Succeeds; decide +kernel

/-- And `dest()` forgets the defaults given before – the values stay –, so that a change of nargs that would be refused is
accepted. -/
example : ¬ Succeeds demoScan (State.init (D := Unit))
      ((Chain.new ["-o".toList] [.nargs 2, .defaults ["a".toList, "b".toList], .nargs 3,
        .dest ⟨0, .vector, false, true, fun _ => none⟩]).ops 0) ∧
    Succeeds demoScan (State.init (D := Unit))
      ((Chain.new ["-o".toList] [.nargs 2, .defaults ["a".toList, "b".toList],
        .dest ⟨0, .vector, false, true, fun _ => none⟩, .nargs 3]).ops 0) := by
  unfold Succeeds; decide +kernel

end BletArgs
