import Verif.Props.Registry2
/-
C55 (automatic help option) and C57 (parsing leaves the configuration alone).
-/
namespace BletArgs
open Spec
variable {D : Type}

/-- Both default help flags are taken. -/
def BothTaken (st : State D) : Prop :=
  st.argumentExists "-h".toList = true ∧ st.argumentExists "--help".toList = true

theorem bothTaken_iff (st : State D) :
    (st.argumentExists "-h".toList && st.argumentExists "--help".toList) = true ↔ BothTaken st := by
  unfold BothTaken; rw [Bool.and_eq_true]

/-- C57. `parseArguments`, unless it exits, leaves the whole configuration of the parser unchanged (but for
the program name) when there is a help option, or when both `-h` and `--help` are in use; otherwise the
only change is one more argument: the others are the same, in the same order, and so are all settings. -/
theorem C57_parse_config {scan : Str → Option D} {st : State D} (h : Reachable scan st) (argv : List Str)
    (hne : ∀ o, (st.parseArguments scan argv).2 ≠ .exit o) :
    let st' := (st.parseArguments scan argv).1
    ((st.helpOption ≠ none ∨ BothTaken st) ∧ st'.config = { st.config with binaryName := st'.binaryName }) ∨
    (st.helpOption = none ∧ ¬BothTaken st ∧
      (∃ s : Slot D, s.obj = st.nextObj ∧ s.arg.action = .help ∧
        (st'.arguments.map Slot.config).Perm (s.config :: st.arguments.map Slot.config)) ∧
      (st'.arguments.filter fun s => s.obj != st.nextObj).map Slot.config = st.arguments.map Slot.config ∧
      st'.config = { st.config with
        binaryName := st'.binaryName, arguments := st'.arguments.map Slot.config, byName := st'.byName,
        helpOption := st'.helpOption, nextNode := st'.nextNode, nextObj := st'.nextObj }) := by
  have hi := h.inv
  have hr : Inv st.resetAll := inv_of_config (resetAll_config st) hi
  intro st'
  rcases parseArguments_config (scan := scan) hi argv with ⟨o, ho⟩ | ⟨b, hb⟩
  · exact absurd ho (hne o)
  have eb : st'.binaryName = b := (congrArg (fun x : State D => x.binaryName) hb :)
  rw [← eb] at hb
  rcases autoHelp_cases hr with ⟨h1, e⟩ | ⟨_, h2, e⟩ | ⟨h1, h2, e⟩
  · left
    refine ⟨.inl h1, ?_⟩
    rw [e] at hb
    simp only [resetAll_config] at hb
    exact hb
  · left
    refine ⟨.inr ((bothTaken_iff st).1 h2), ?_⟩
    rw [e] at hb
    simp only [resetAll_config] at hb
    exact hb
  · right
    rw [e] at hb
    have hargs : st'.arguments.map Slot.config = st.resetAll.withHelp.arguments.map Slot.config :=
      (congrArg (fun x : State D => x.arguments) hb :)
    have hreset : st.resetAll.arguments.map Slot.config = st.arguments.map Slot.config :=
      (congrArg (fun x : State D => x.arguments) (resetAll_config st) :)
    have hnb : ¬BothTaken st := by
      intro hbt
      have := (bothTaken_iff st).2 hbt
      rw [show st.resetAll.argumentExists = st.argumentExists from rfl, this] at h2
      cases h2
    refine ⟨h1, hnb, ⟨st.resetAll.newSlot (helpArgument (helpFlags st.resetAll)), rfl, rfl, ?_⟩, ?_, ?_⟩
    · rw [hargs, ← hreset]
      exact (withHelp_perm st.resetAll).map Slot.config
    · have hf : ∀ l : List (Slot D), (l.filter fun s => s.obj != st.nextObj).map Slot.config =
          (l.map Slot.config).filter fun s => s.obj != st.nextObj := by
        intro l
        rw [List.filter_map]
        rfl
      rw [hf, hargs, ← hf, ← hreset]
      congr 1
      refine stableSort_append_filter _ _ _ hr.sorted ?_ ?_
      · intro y hy
        have := hr.objsLt y hy
        have e : st.resetAll.nextObj = st.nextObj := rfl
        rw [e] at this
        simp; omega
      · simp [State.newSlot, State.resetAll]
    · rw [hb]
      have e1 : st'.byName = st.resetAll.withHelp.byName := (congrArg (fun x : State D => x.byName) hb :)
      have e2 : st'.helpOption = st.resetAll.withHelp.helpOption := (congrArg (fun x : State D => x.helpOption) hb :)
      have e3 : st'.nextNode = st.resetAll.withHelp.nextNode := (congrArg (fun x : State D => x.nextNode) hb :)
      have e4 : st'.nextObj = st.resetAll.withHelp.nextObj := (congrArg (fun x : State D => x.nextObj) hb :)
      rw [hargs, e1, e2, e3, e4]
      rfl

/-- The reference state of the examples parses without exiting. -/
example : (demo.parseArguments demoScan ["prog".toList, "-v".toList, "f".toList]).2 = .ok () := by decide +kernel

/-- C55, early return: without help option and with both `-h` and `--help` taken, `parseArguments` returns
without looking at the command line: no argument occurs. -/
theorem C55_early_return {scan : Str → Option D} {st : State D} (h : Reachable scan st)
    (hh : st.helpOption = none) (hb : BothTaken st) (argv : List Str) :
    (st.parseArguments scan argv).2 = .ok () ∧
    (∀ s ∈ (st.parseArguments scan argv).1.arguments, s.arg.isExist = false ∧ s.arg.count = 0) ∧
    (st.parseArguments scan argv).1.additional = st.additional ∧
    (st.parseArguments scan argv).1.destLog = st.destLog := by
  have hr : Inv st.resetAll := inv_of_config (resetAll_config st) h.inv
  have e : st.resetAll.autoHelp = (st.resetAll, .ok false) := by
    rcases autoHelp_cases hr with ⟨h1, e⟩ | ⟨_, _, e⟩ | ⟨_, h2, _⟩
    · exact absurd hh h1
    · exact e
    · rw [show st.resetAll.argumentExists = st.argumentExists from rfl, (bothTaken_iff st).2 hb] at h2
      cases h2
  unfold State.parseArguments
  rw [e]
  refine ⟨rfl, ?_, rfl, rfl⟩
  intro s hs
  simp only [State.resetAll, List.mem_map] at hs
  obtain ⟨t, _, rfl⟩ := hs
  exact ⟨rfl, rfl⟩

/-- Such a state is reachable, with a command line that would otherwise be refused. -/
theorem C55_early_return_reachable (scan : Str → Option D) :
    ∃ st : State D, Reachable scan st ∧ st.helpOption = none ∧ BothTaken st ∧
      (st.parseArguments scan ["prog".toList, "--unknown".toList]).2 = .ok () :=
  ⟨runOps scan State.init [.add ["-h".toList, "--help".toList]], reachable_runOps .init _ rfl, rfl,
    ⟨rfl, rfl⟩, rfl⟩

/-- C55. Without help option and with `-h` or `--help` free, `parseArguments` (unless it exits) leaves a help
option: a new argument with the HELP action, listing exactly the free ones of the two flags, which resolve
to it. Names in use before resolve as before. -/
theorem C55_auto_help {scan : Str → Option D} {st : State D} (h : Reachable scan st)
    (hh : st.helpOption = none) (hb : ¬BothTaken st) (argv : List Str)
    (hg : (st.parseArguments scan argv).2.goesOn = true) :
    let st' := (st.parseArguments scan argv).1
    st'.helpOption = some st.nextObj ∧
    (∃ s ∈ st'.arguments, s.obj = st.nextObj ∧ s.arg.type = .help ∧ s.arg.action = .help ∧
      s.arg.isRequired = false ∧ s.arg.help = "show this help message and exit".toList ∧
      (∀ n, n ∈ s.arg.names ↔ (n = "-h".toList ∨ n = "--help".toList) ∧ st.argumentExists n = false)) ∧
    (∀ n, st.argumentExists n = true → st'.resolve n = st.resolve n) ∧
    (∀ n, n = "-h".toList ∨ n = "--help".toList → st.argumentExists n = false →
      st'.resolve n = some st.nextObj) := by
  intro st'
  have hi := h.inv
  have hi' : Inv st' := parseArguments_inv hi argv hg
  have hr : Inv st.resetAll := inv_of_config (resetAll_config st) hi
  have hbf : (st.argumentExists "-h".toList && st.argumentExists "--help".toList) = false := by
    rw [← Bool.not_eq_true, bothTaken_iff]; exact hb
  rcases parseArguments_config (scan := scan) hi argv with ⟨o, ho⟩ | ⟨b, hc⟩
  · rw [ho] at hg; cases hg
  have e : st.resetAll.autoHelp = (st.resetAll.withHelp, .ok true) := autoHelp_ok hr hh hbf
  rw [e] at hc
  have hargs : st'.arguments.map Slot.config = st.resetAll.withHelp.arguments.map Slot.config :=
    (congrArg (fun x : State D => x.arguments) hc :)
  have hby : st'.byName = insertAll st.byName (helpFlags st) st.nextNode :=
    (congrArg (fun x : State D => x.byName) hc :)
  have hmemH : ∃ s ∈ st'.arguments,
      s.config = (st.resetAll.newSlot (helpArgument (helpFlags st.resetAll)) : Slot D).config := by
    have : (st.resetAll.newSlot (helpArgument (helpFlags st.resetAll)) : Slot D).config ∈
        st'.arguments.map Slot.config := by
      rw [hargs]
      exact List.mem_map.2 ⟨_, (withHelp_perm st.resetAll).mem_iff.2 (List.mem_cons_self ..), rfl⟩
    obtain ⟨s, hs, e⟩ := List.mem_map.1 this
    exact ⟨s, hs, e⟩
  obtain ⟨s, hs, es⟩ := hmemH
  have f1 : s.obj = st.nextObj := (congrArg Slot.obj es :)
  have f2 : s.node = st.nextNode := (congrArg Slot.node es :)
  have ea : s.arg.config = (helpArgument (helpFlags st) : Argument D).config := congrArg Slot.arg es
  have hflags : ∀ n, n ∈ helpFlags st ↔ (n = "-h".toList ∨ n = "--help".toList) ∧ st.argumentExists n = false := by
    intro n
    unfold helpFlags
    rw [List.mem_append]
    constructor
    · rintro (hn | hn) <;> split at hn
      · cases hn
      · rw [List.mem_singleton] at hn; subst hn; exact ⟨.inl rfl, Bool.eq_false_iff.2 ‹_›⟩
      · cases hn
      · rw [List.mem_singleton] at hn; subst hn; exact ⟨.inr rfl, Bool.eq_false_iff.2 ‹_›⟩
    · rintro ⟨rfl | rfl, hn⟩
      · left; rw [if_neg (by rw [hn]; exact Bool.false_ne_true)]; exact List.mem_singleton.2 rfl
      · right; rw [if_neg (by rw [hn]; exact Bool.false_ne_true)]; exact List.mem_singleton.2 rfl
  refine ⟨(congrArg (fun x : State D => x.helpOption) hc :), ⟨s, hs, f1, ?_, ?_, ?_, ?_, ?_⟩, ?_, ?_⟩
  · exact (congrArg (fun a : Argument D => a.type) ea :)
  · exact (congrArg (fun a : Argument D => a.action) ea :)
  · exact (congrArg (fun a : Argument D => a.isRequired) ea :)
  · exact (congrArg (fun a : Argument D => a.help) ea :)
  · intro n
    have : s.arg.names = helpFlags st := (congrArg (fun a : Argument D => a.names) ea :)
    rw [this]; exact hflags n
  · intro n hn
    obtain ⟨t, ht, _, _, hl⟩ := getArgument_exists hi hn
    rw [resolve_of_entry hi ht hl]
    have : t.config ∈ st'.arguments.map Slot.config := by
      rw [hargs]
      have hreset : st.resetAll.arguments.map Slot.config = st.arguments.map Slot.config :=
        (congrArg (fun x : State D => x.arguments) (resetAll_config st) :)
      rw [((withHelp_perm st.resetAll).map Slot.config).mem_iff, List.map_cons, hreset]
      exact List.mem_cons_of_mem _ (List.mem_map.2 ⟨t, ht, rfl⟩)
    obtain ⟨t', ht', et⟩ := List.mem_map.1 this
    have g1 : t'.obj = t.obj := (congrArg Slot.obj et :)
    have g2 : t'.node = t.node := (congrArg Slot.node et :)
    rw [← g1]
    refine resolve_of_entry hi' ht' ?_
    rw [hby, insertAll_lookup, hl, g2]; rfl
  · intro n hn hf
    rw [← f1]
    refine resolve_of_entry hi' hs ?_
    rw [hby, insertAll_lookup, f2]
    have hl : lookupName st.byName n = none := by
      unfold State.argumentExists at hf; simpa using hf
    rw [hl]
    have : n ∈ helpFlags st := (hflags n).2 ⟨hn, hf⟩
    simp [this]

/-- C55, otherwise: an existing help option is left alone (C57 then says nothing else changes). -/
theorem C55_no_second_help {scan : Str → Option D} {st : State D} (h : Reachable scan st)
    (hh : st.helpOption ≠ none) (argv : List Str) (hg : (st.parseArguments scan argv).2.goesOn = true) :
    (st.parseArguments scan argv).1.helpOption = st.helpOption ∧
    (st.parseArguments scan argv).1.arguments.map (·.obj) = st.arguments.map (·.obj) := by
  have hne : ∀ o, (st.parseArguments scan argv).2 ≠ .exit o := by
    intro o e; rw [e] at hg; cases hg
  rcases C57_parse_config h argv hne with ⟨_, e⟩ | ⟨e, _⟩
  · refine ⟨(congrArg (fun x : State D => x.helpOption) e :), ?_⟩
    have := congrArg (fun x : State D => x.arguments.map (·.obj)) e
    simpa [State.config, Slot.config, List.map_map, Function.comp_def] using this
  · exact absurd e hh

end BletArgs
