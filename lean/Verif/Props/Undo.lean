import Verif.Lemmas.Withdraw
import Verif.Props.Declare
/-
An argument that is declared and removed leaves no trace.
-/
namespace BletArgs
open Spec
variable {D : Type}

/-- C71: after an argument has been declared (with any chain of calls) and removed again under all its names, the parser
cannot be told apart from the one before; only the numbers of later references are others. If it was given the action help
(version), there must not have been a help (version) option before, and it must not have been given a destination: see the
examples. -/
theorem C71_no_trace {scan : Str → Option D} {st : State D} (hr : ReachableBy scan CleanAdds st) {names : List Str}
    {calls : List Call} (hu : ∀ n ∈ (Chain.new names calls).names, st.argumentExists n = false)
    (hh : .action .help ∉ calls ∨ (st.helpOption = none ∧ ∀ c ∈ calls, c.isDest = false))
    (hv : .action .version ∉ calls ∨ (st.versionOption = none ∧ ∀ c ∈ calls, c.isDest = false))
    (hs : Succeeds scan st ((Chain.new names calls).ops st.nextObj)) {rm : List Str} (hnd : rm.Nodup)
    (hrm : ∀ n, n ∈ rm ↔ n ∈ (Chain.new names calls).names) :
    Succeeds scan st ((Chain.new names calls).ops st.nextObj ++ [.remove rm]) ∧
    Alike (fun k => if k < st.nextObj then k else k + (Chain.new names calls).creates) st
      (Spec.after scan st ((Chain.new names calls).ops st.nextObj ++ [.remove rm])) := by
  have h := withdrawn hr hu hh hv hs hnd hrm
  exact ⟨h.1, h.2.alike⟩

/-! ### As if never declared -/

theorem program_split {scan : Str → Option D} {ds es : List Chain} : ∀ {st : State D}, ReachableBy scan CleanAdds st →
    Declarations st (ds ++ es) → Succeeds scan st (program st.nextObj (ds ++ es)) →
    Succeeds scan st (program st.nextObj ds) ∧
    ReachableBy scan CleanAdds (Spec.after scan st (program st.nextObj ds)) ∧
    Declarations (Spec.after scan st (program st.nextObj ds)) es ∧
    st.nextObj ≤ (Spec.after scan st (program st.nextObj ds)).nextObj ∧
    program st.nextObj (ds ++ es) =
      program st.nextObj ds ++ program (Spec.after scan st (program st.nextObj ds)).nextObj es ∧
    ((∀ c ∈ ds, .action .help ∉ c.calls) → (Spec.after scan st (program st.nextObj ds)).helpOption = st.helpOption) ∧
    ((∀ c ∈ ds, .action .version ∉ c.calls) →
      (Spec.after scan st (program st.nextObj ds)).versionOption = st.versionOption) := by
  induction ds with
  | nil =>
    intro st hr hd hs
    exact ⟨fun _ h => (nomatch h), hr, hd, Nat.le_refl _, rfl, fun _ => rfl, fun _ => rfl⟩
  | cons c ds ih =>
    intro st hr hd hs
    have e : ∀ l, program st.nextObj (c :: l) = c.ops st.nextObj ++ program (st.nextObj + c.creates) l := fun _ => rfl
    rw [List.cons_append] at hs hd ⊢
    rw [e] at hs
    rw [e, e]
    rw [succeeds_append] at hs
    obtain ⟨h1, h2⟩ := hs
    obtain ⟨k1, k2, k3⟩ := declared hr hd h1
    have hn := hd.new c (by simp)
    have k := chain_spec hr c (fun ref h => by rw [hn] at h; cases h)
      (fun n h => hd.unused c (by simp) n (Chain.added_names h))
    cases he : c.editAt st with
    | none => rw [he] at k; exact absurd h1 k
    | some x =>
      rw [he] at k
      have ed := k.2.1
      have free : ∀ y, .action y ∉ c.calls → c.free st.atObj y := fun y hy =>
        ⟨hy, fun ref t h => by rw [hn] at h; cases h⟩
      rw [← k2] at h2 ⊢
      obtain ⟨a1, a2, a3, a4, a5, a6, a7⟩ := ih k1 k3 h2
      rw [succeeds_append, after_append h1, a5, ← List.append_assoc]
      refine ⟨⟨h1, a1⟩, a2, a3, by omega, rfl, ?_, ?_⟩
      · intro h
        rw [a6 fun c hc => h c (by simp [hc]), ed.help]
        exact (chain_pass he).1 (free _ (h c (by simp)))
      · intro h
        rw [a7 fun c hc => h c (by simp [hc]), ed.version]
        exact (chain_pass he).2 (free _ (h c (by simp)))

/-- C71: removing an argument some time after its declaration has the same effect as not declaring it at all. (A positional
argument: if no other one was declared after it.) -/
theorem C71_as_if_never_declared {scan : Str → Option D} {st : State D} (hr : ReachableBy scan CleanAdds st)
    {pre post : List Chain} {c : Chain} (hd : Declarations st (pre ++ c :: post))
    (hp : c.isPositional = true → ∀ x ∈ post, x.isPositional = false)
    (hh : .action .help ∉ c.calls ∨ (st.helpOption = none ∧ ∀ x ∈ c.calls, x.isDest = false))
    (hv : .action .version ∉ c.calls ∨ (st.versionOption = none ∧ ∀ x ∈ c.calls, x.isDest = false))
    (hs : Succeeds scan st (program st.nextObj (pre ++ c :: post))) {rm : List Str} (hnd : rm.Nodup)
    (hrm : ∀ n, n ∈ rm ↔ n ∈ c.names) :
    Succeeds scan st (program st.nextObj (pre ++ c :: post) ++ [.remove rm]) ∧
    Succeeds scan st (program st.nextObj (pre ++ post)) ∧
    ∃ o, (∀ k, k < st.nextObj → o k = k) ∧
      Alike o (Spec.after scan st (program st.nextObj (pre ++ post)))
        (Spec.after scan st (program st.nextObj (pre ++ c :: post) ++ [.remove rm])) := by
  -- the argument declared last
  have perm : (pre ++ c :: post).Perm ((pre ++ post) ++ [c]) := by
    rw [List.append_assoc]
    exact (List.perm_append_singleton c post).symm.append_left pre
  have filt : ((pre ++ post) ++ [c]).filter Chain.isPositional = (pre ++ c :: post).filter Chain.isPositional := by
    rw [List.filter_append, List.filter_append, List.filter_append, List.append_assoc]
    congr 1
    cases hc : c.isPositional with
    | false => simp [List.filter_cons, hc]
    | true =>
      have : post.filter Chain.isPositional = [] := by
        rw [List.filter_eq_nil_iff]
        intro x hx
        rw [hp hc x hx]; simp
      rw [List.filter_cons, this]
      simp [hc, this]
  have hd' := hd.perm perm
  obtain ⟨hs', -⟩ := Replaces.any hr hd perm filt hs
  obtain ⟨-, r, r1, r2⟩ := Replaces.any hr hd' perm.symm filt.symm hs'
  obtain ⟨a1, a2, a3, a4, a5, a6, a7⟩ := program_split hr hd' hs'
  have hone : ∀ n, program n [c] = c.ops n := fun n => List.append_nil _
  rw [a5, hone] at hs' r2
  rw [succeeds_append] at hs'
  rw [after_append a1] at r2
  generalize Spec.after scan st (program st.nextObj (pre ++ post)) = s0 at *
  cases c with
  | through ref calls => exact absurd (hd.new (.through ref calls) (by simp)) (by simp [Chain.target])
  | new names calls =>
    have others : ∀ x,
        ((pre ++ post ++ [Chain.new names calls]).Pairwise fun a b => ¬(.action x ∈ a.calls ∧ .action x ∈ b.calls)) →
        .action x ∈ calls → ∀ y ∈ pre ++ post, .action x ∉ y.calls := by
      intro x hpw hx y hy h
      exact (List.pairwise_append.1 hpw).2.2 y hy (.new names calls) (by simp) ⟨h, hx⟩
    have w := withdrawn a2 (names := names) (cs := calls) (fun n hn => a3.unused _ (by simp) n hn)
      (by
        rcases hh with h | ⟨h, h'⟩
        · exact .inl h
        · by_cases hx : .action .help ∈ calls
          · right
            rw [a6 (others _ hd'.help hx)]
            exact ⟨h, h'⟩
          · exact .inl hx)
      (by
        rcases hv with h | ⟨h, h'⟩
        · exact .inl h
        · by_cases hx : .action .version ∈ calls
          · right
            rw [a7 (others _ hd'.version hx)]
            exact ⟨h, h'⟩
          · exact .inl hx) hs'.2 hnd hrm
    obtain ⟨w1, w2⟩ := w
    rw [succeeds_append] at w1
    rw [after_append w1.1] at w2
    have r3 := r2.after scan [.remove rm]
    have e : [Op.remove rm].map (Spec.Op.rename r.o) = [.remove rm] := rfl
    rw [e] at r3
    refine ⟨?_, a1, fun k => r.o ((shiftRen s0.nextNode 1 s0.nextObj (Chain.new names calls).creates).o k), ?_, ?_⟩
    · rw [succeeds_append]
      refine ⟨hs, ?_⟩
      unfold Succeeds
      rw [r3.2]
      exact w1.2
    · intro k hk
      show r.o (if k < s0.nextObj then k else _) = k
      rw [if_pos (by omega), r1 k hk]
    · rw [after_append hs]
      exact (w2.trans r3.1).alike

/-! ### Examples -/

/-- The third of the declarations of `someDecls` (`-i`, with the action help and the further name `--info`) is removed: as if
it had not been declared. -/
example : ∃ o, Alike o
    (Spec.after demoScan State.init (program 0
      [.new ["-o".toList, "--out".toList] [.nargs 2, .dest ⟨0, .vector, false, true, fun _ => none⟩, .defaults ["a".toList, "b".toList]],
       .new ["file".toList] [.required true], .new ["dir".toList] []]))
    (Spec.after demoScan State.init (program 0 someDecls ++ [.remove ["--info".toList, "-i".toList]])) := by
  obtain ⟨-, -, o, -, h⟩ := C71_as_if_never_declared (scan := demoScan) .init
    (pre := [.new ["-o".toList, "--out".toList] [.nargs 2, .dest ⟨0, .vector, false, true, fun _ => none⟩, .defaults ["a".toList, "b".toList]],
       .new ["file".toList] [.required true]])
    (c := .new ["-i".toList] [.action .help, .flag "--info".toList]) (post := [.new ["dir".toList] []]) someDecls_ok
    (fun h => by cases h) (.inr ⟨rfl, by simp [Chain.calls, Call.isDest]⟩) (.inl (by simp [Chain.calls])) someDecls_succeed
    (rm := ["--info".toList, "-i".toList]) (by decide)
    (by intro n; simp only [Chain.names, Chain.added, Chain.calls, List.filterMap_cons, List.filterMap_nil, List.mem_cons,
          List.mem_append, List.not_mem_nil, or_false]; exact Or.comm)
  exact ⟨o, h⟩

/-- The conditions are necessary. A help option given a destination leaves its trace when it is removed: the pointer to the
help option is not reset, and no other help option can be declared. -/
example : outcomes demoScan (State.init (D := Unit))
    (program 0 [.new ["-i".toList] [.action .help, .dest ⟨0, .scalar, false, true, fun _ => none⟩]] ++
      [.remove ["-i".toList], .add ["-j".toList], .action 2 .help]) =
    [.ok (), .ok (), .ok (), .ok (), .ok (), .throw ⟨.argument, "-j".toList, "help action already defined".toList⟩] := by
  decide +kernel

/-- And an argument that is given the action help for a while may take it away from another one. -/
example :
    (Spec.after demoScan (State.init (D := Unit)) [.add ["-h".toList], .action 0 .help]).helpOption = some 0 ∧
    (Spec.after demoScan (State.init (D := Unit)) ([.add ["-h".toList], .action 0 .help] ++
      program 1 [.new ["-j".toList] [.nargs 0, .action .help, .action .storeTrue]] ++ [.remove ["-j".toList]])).helpOption = none := by
  decide +kernel

end BletArgs
