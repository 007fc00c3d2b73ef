import Verif.Props.Failing
import Verif.Props.Total
import Verif.Props.Again
/-
C85, continued: parsing after calls interrupted by failed allocations.
-/
namespace BletArgs
open Spec
variable {D : Type} {scan : Str → Option D}

/-! ### The kinds of the arguments -/

/-- The discipline of a history (as in C18): the exceptions of `action()` and `nargs()` are not ignored, and `nargs` is
below `2^64 - 2^31`. -/
def Attentive (scan : Str → Option D) (st : State D) (op : Op) : Prop := Disciplined st op (step scan st op).2

/-- Type and number of values of an argument. -/
def TameArg (a : Argument D) : Prop := Settled a ∧ a.nargs < 2 ^ 64 - 2 ^ 31

theorem TameArg.congr {a b : Argument D} (h : TameArg a) (h1 : b.type = a.type) (h2 : b.nargs = a.nargs) : TameArg b :=
  ⟨h.1.congr h1 h2, by rw [h2]; exact h.2⟩

theorem tame_step {full : Prop} {st : State D} (hi : GInv full st) (ht : ∀ s ∈ st.arguments, TameArg s.arg) {op : Op}
    (hg : (step scan st op).2.goesOn = true) (hc : Attentive scan st op) : ∀ s ∈ (step scan st op).1.arguments, TameArg s.arg :=
  fun s hs => ⟨step_settled hi (fun s hs => (ht s hs).1) op hg (Disciplined.kinds hc) s hs,
    step_small hi (fun s hs => (ht s hs).2) op hg hc s hs⟩

theorem tame_config {st st' : State D} (h : st'.arguments.map Slot.config = st.arguments.map Slot.config)
    (ht : ∀ s ∈ st.arguments, TameArg s.arg) : ∀ s ∈ st'.arguments, TameArg s.arg := by
  intro s hs
  obtain ⟨u, hu, e⟩ := slots_of_config h hs
  exact (ht u hu).congr (congrArg (fun x : Slot D => x.arg.type) e :) (congrArg (fun x : Slot D => x.arg.nargs) e :)

theorem tame_modNode {st : State D} {n : Nat} {f : Argument D → Argument D} (h1 : ∀ a, (f a).type = a.type)
    (h2 : ∀ a, (f a).nargs = a.nargs) (ht : ∀ s ∈ st.arguments, TameArg s.arg) :
    ∀ s ∈ (st.modNode n f).arguments, TameArg s.arg := by
  intro s hs
  unfold State.modNode at hs
  simp only [List.mem_map] at hs
  obtain ⟨u, hu, rfl⟩ := hs
  split
  · exact (ht u hu).congr (h1 _) (h2 _)
  · exact ht u hu

theorem tame_build {st : State D} {names : List Str} {a : Argument D} (h : st.build names = some a) : TameArg a := by
  unfold State.build at h
  split at h
  · cases h
  · split at h
    · split at h
      · cases h
      · split at h
        · cases h
        · cases h; exact ⟨⟨.none, 1, rfl⟩, by simp⟩
    · split at h
      · cases h
      · cases h; exact ⟨⟨.none, 1, rfl⟩, by simp⟩

theorem tame_aborts {st st' : State D} {op : Op} (hi : GInv False st) (ht : ∀ s ∈ st.arguments, TameArg s.arg)
    (hc : Attentive scan st op) (h : Aborts scan st op st') : ∀ s ∈ st'.arguments, TameArg s.arg := by
  have auto : ∀ {st0 st1 : State D}, st0.config = st.config → st0.autoHelp = (st1, .ok true) →
      ∀ s ∈ st1.arguments, TameArg s.arg := by
    intro st0 st1 e h1
    have h0 := tame_config (congrArg State.arguments e :) ht
    rcases autoHelp_cases (inv_of_config e hi) with ⟨_, e'⟩ | ⟨_, _, e'⟩ | ⟨_, _, e'⟩
    · have := congrArg Prod.fst (h1.symm.trans e'); simp only at this; rw [this]; exact h0
    · have := congrArg Prod.fst (h1.symm.trans e'); simp only at this; rw [this]; exact h0
    · have := congrArg Prod.fst (h1.symm.trans e'); simp only at this; rw [this]
      intro s hs
      unfold State.withHelp at hs
      simp only at hs
      rw [mem_stableSort, List.mem_append, List.mem_singleton] at hs
      rcases hs with hs | rfl
      · exact h0 s hs
      · exact ⟨⟨.help, 1, rfl⟩, by show 0 < 2 ^ 64 - 2 ^ 31; decide⟩
  induction h with
  | unchanged => exact ht
  | unthrown h => exact tame_step hi ht (by rw [h]; rfl) hc
  | lost h => exact ht
  | listed h _ =>
    intro s hs
    unfold State.linkPart at hs
    simp only [List.mem_append, List.mem_singleton] at hs
    rcases hs with hs | rfl
    · exact ht s hs
    · exact tame_build h
  | flagged => exact tame_modNode (fun _ => rfl) (fun _ => rfl) ht
  | values hop h => exact tame_modNode (fun _ => rfl) (fun _ => rfl) (tame_step hi ht (valueCall_goesOn hop h) hc)
  | defaults => exact tame_modNode (fun _ => rfl) (fun _ => rfl) ht
  | dest => exact tame_modNode (fun _ => rfl) (fun _ => rfl) ht
  | parseReset e => exact tame_config (congrArg State.arguments e :) ht
  | parseAdd e _ _ ih =>
    have h0 := tame_config (congrArg State.arguments e :) ht
    refine ih (inv_of_config e hi) h0 trivial ?_
    intro st0 st1 e' h1
    exact auto (e'.trans e) h1
  | parseText e hcr =>
    rw [addHelp_eq (inv_of_config e hi) hcr]
    have h0 := tame_config (congrArg State.arguments e :) ht
    intro s hs
    simp only at hs
    rw [mem_stableSort, List.mem_append, List.mem_singleton] at hs
    rcases hs with hs | rfl
    · exact h0 s hs
    · exact ⟨⟨.help, 1, rfl⟩, by show 0 < 2 ^ 64 - 2 ^ 31; decide⟩
  | parseRun e h1 h2 _ => exact tame_config (congrArg State.arguments h2 :) (auto e h1)

theorem Spec.Survives.tame {n : Nat} {st : State D} (h : Survives scan (Attentive scan) n st) : Tame st := by
  have key : ∀ s ∈ st.arguments, TameArg s.arg := by
    induction h with
    | init => intro s hs; cases hs
    | step op h0 hc hg ih => exact tame_step h0.inv ih hg hc
    | abort op h0 hc ha ih => exact tame_aborts h0.inv ih hc ha
  exact ⟨h.inv, fun s hs => (key s hs).1, fun s hs => (key s hs).2⟩

/-! ### Parsing -/

/-- C85. `parseArguments`, and every other call, ends in every state left by interrupted calls. -/
theorem C85_terminates {n : Nat} {st : State D} (h : Survives scan (Attentive scan) n st) (op : Op)
    (hlen : ∀ argv, op = .parse argv → argv.length < 2 ^ 31) : (step scan st op).2 ≠ .diverge := by
  by_cases hp : ∃ argv, op = .parse argv
  · obtain ⟨argv, rfl⟩ := hp
    exact h.tame.parse_ends (hlen argv rfl)
  · rcases call_outcome (scan := scan) h.inv op (fun argv e => hp ⟨argv, e⟩) with e | ⟨⟨w, e⟩, _⟩
    · intro e'; rw [e'] at e; cases e
    · rw [e]; simp

/-- The parsers left by interrupted calls are ready for command lines: the theorems about parsing (C20 to C84, those with the
hypothesis `Ready`) hold for them. -/
theorem C85_ready {n : Nat} {st : State D} (h : Survives scan (Attentive scan) n st) (hh : st.helpOption ≠ none)
    {argv : List Str} (hlen : argv.length < 2 ^ 31) (hp : ∃ p, argv.head? = some p ∧ p ≠ ['-', '-']) : Ready scan st argv where
  history := ⟨n, h.mono fun _ _ _ => trivial⟩
  settled := h.tame.settled
  small s hs := by
    have h1 := h.tame.small s hs
    have h2 : two64 = 2 ^ 64 := rfl
    rw [h2]
    omega
  help := hh
  program := hp

/-- A `parseArguments` that was interrupted can be made again, on the same or another command line: that line has the same
events and errors as if the interrupted parse had never been made, and `isExists()`, `count()` and the boolean value of
every argument after it are the same. -/
theorem C85_parse_again {st st1 : State D} {argv argv' : List Str} (h : Ready scan st argv')
    (ha : Aborts scan st (.parse argv) st1) {evs : List Event} {err : Option Exn}
    (hl : Line st.sig st.places (argv'.drop 1) evs err) :
    Ready scan st1 argv' ∧ Line st1.sig st1.places (argv'.drop 1) evs err ∧
    (∀ x, err = some x → (st1.parseArguments scan argv').2 = .throw x ∧ (st.parseArguments scan argv').2 = .throw x) ∧
    (err = none → (st1.parseArguments scan argv').2.goesOn = true → (st.parseArguments scan argv').2.goesOn = true →
      ∀ s ∈ st.arguments, ∃ s1 s2, (st1.parseArguments scan argv').1.atObj s.obj = some s1 ∧
        (st.parseArguments scan argv').1.atObj s.obj = some s2 ∧
        s1.arg.isExist = s2.arg.isExist ∧ s1.arg.count = s2.arg.count ∧ s1.arg.toBool = s2.arg.toBool) := by
  obtain ⟨n, hn⟩ := h.history
  obtain ⟨b, hb, _⟩ := C85_parse_keeps_configuration hn ha h.help
  obtain ⟨h1, h2, h3, h4⟩ := ready_config h ⟨n + 1, .abort _ hn trivial ha⟩ hb
  have hl' : Line st1.sig st1.places (argv'.drop 1) evs err := by rw [h2, h3]; exact hl
  refine ⟨h1, hl', fun x hx => ⟨(parse_of_line h1 hl').1 x hx, (parse_of_line h hl).1 x hx⟩, ?_⟩
  rintro rfl hg1 hg2 s hs
  obtain ⟨u, hu, e1, e2, e3⟩ := h4 s hs
  obtain ⟨s1, a1, a2, a3, a4⟩ := (C20_records h1 hl' hg1).1 u hu
  obtain ⟨s2, b1, b2, b3, b4⟩ := (C20_records h hl hg2).1 s hs
  rw [e1] at a1
  rw [e2] at a3 a4
  have hx : s1.arg.isExist = s2.arg.isExist := by
    rw [Bool.eq_iff_iff, a3, b3]
  have ht : u.arg.type = s.arg.type := (congrArg (fun x : Argument D => x.type) e3 :)
  refine ⟨s1, s2, a1, b1, hx, by rw [a4, b4], ?_⟩
  unfold Argument.toBool
  rw [a2, b2, ht, hx]

/-! ### Cases -/

/-- An interrupted `addArgument("file")`, then a complete parser: the object left by the interrupted call takes the first
word. -/
def scarred : State Unit :=
  runOps demoScan twice [.add ["-o".toList, "--out".toList], .add ["-h".toList], .action 2 .help]

theorem survives_runOps {D : Type} {scan : Str → Option D} {n : Nat} {st : State D} (h : Survives scan (Attentive scan) n st) (ops : List Op)
    (hd : opsDisciplined scan st ops = true) : Survives scan (Attentive scan) n (runOps scan st ops) := by
  induction ops generalizing st with
  | nil => exact h
  | cons op ops ih =>
    obtain ⟨h1, h2⟩ := opsDisciplined_head hd
    exact ih (.step op h h2 h1) (opsDisciplined_tail hd)

theorem scarred_survives : Survives demoScan (Attentive demoScan) 1 scarred :=
  survives_runOps (.abort (.add ["file".toList]) .init trivial twice_aborts) _ (by decide +kernel)

theorem scarred_ready : Ready demoScan scarred (["prog", "a", "-o", "x"].map String.toList) :=
  C85_ready scarred_survives (by decide +kernel) (by decide +kernel) ⟨"prog".toList, rfl, by decide +kernel⟩

example : (scarred.parseArguments demoScan (["prog", "a", "-o", "x"].map String.toList)).2 = .ok () := by decide +kernel
example (op : Op) := C85_terminates scarred_survives op
example := C20_unique_derivation scarred_ready
example {evs : List Event} {err : Option Exn} (hl : Line scarred.sig scarred.places (["a", "-o", "x"].map String.toList) evs err) :=
  C85_parse_again scarred_ready (.parseReset (argv := (["prog", "a", "-o", "x"].map String.toList)) rfl) hl

end BletArgs
