import Verif.Lemmas.Progress
import Verif.Lemmas.Calls
import Verif.Props.Parse
/-
C18: every parse ends.
-/
namespace BletArgs
open Spec
variable {D : Type}

theorem finish_ends {scan : Str → Option D} (a : Argument D) : (a.finish scan).2.2 ≠ .diverge := by
  unfold Argument.finish
  cases h : a.runValid with
  | mk a1 r =>
    have hr : r ≠ .diverge := by
      have e : r = a.runValid.2 := by rw [h]
      rw [e]
      unfold Argument.runValid
      (repeat' split) <;> simp
    cases r with
    | ok u =>
      simp only
      rcases toDest_ends (a1.toNumber scan) with e | ⟨x, e⟩ <;> rw [e] <;> simp
    | diverge => exact absurd rfl hr
    | _ => simp

theorem finishAll_ends {scan : Str → Option D} (l : List (Slot D)) : (finishAll scan l).2.2 ≠ .diverge := by
  induction l with
  | nil => simp [finishAll]
  | cons s l ih =>
    unfold finishAll
    have := finish_ends (scan := scan) s.arg
    generalize s.arg.finish scan = r at this ⊢
    obtain ⟨a, w, r⟩ := r
    cases r with
    | ok u => exact ih
    | diverge => exact absurd rfl this
    | _ => simp

theorem afterLoop_ends {scan : Str → Option D} (st : State D) : (st.afterLoop scan).2 ≠ .diverge := by
  unfold State.afterLoop State.finishParse
  have := finishAll_ends (scan := scan) st.arguments
  (repeat' split) <;> first | exact this | simp

/-- With no bound on the number of iterations the loop gives the same result as with the bound the model
uses. -/
theorem endLoop_more {argv : List Str} (f i : Nat) {st : State D} (h : (State.endLoop argv f i st).2 ≠ .diverge)
    (g : Nat) (hg : f ≤ g) : State.endLoop argv g i st = State.endLoop argv f i st := by
  induction f generalizing i st g with
  | zero => exact absurd rfl h
  | succ f ih =>
    obtain ⟨g, rfl⟩ : ∃ g', g = g' + 1 := ⟨g - 1, by omega⟩
    unfold State.endLoop at h ⊢
    split
    · next hx =>
      rw [if_pos hx] at h
      generalize st.parsePositionalTok argv argv.length i true = r at h ⊢
      obtain ⟨st1, r⟩ := r
      cases r with
      | ok i1 => exact ih i1 h g (by omega)
      | _ => rfl
    · rfl

theorem mainLoop_more {argv : List Str} {e : Nat} (f i : Nat) {st : State D}
    (h : (State.mainLoop argv e f i st).2 ≠ .diverge)
    (g : Nat) (hg : f ≤ g) : State.mainLoop argv e g i st = State.mainLoop argv e f i st := by
  induction f generalizing i st g with
  | zero => exact absurd rfl h
  | succ f ih =>
    obtain ⟨g, rfl⟩ : ∃ g', g = g' + 1 := ⟨g - 1, by omega⟩
    have key : ∀ r : State D × Res Nat, (match r with
          | (st1, .ok i1) => State.mainLoop argv e f i1 st1
          | (st1, r) => (st1, r.cast)).2 ≠ .diverge →
        (match r with
          | (st1, .ok i1) => State.mainLoop argv e g i1 st1
          | (st1, r) => (st1, r.cast)) =
        (match r with
          | (st1, .ok i1) => State.mainLoop argv e f i1 st1
          | (st1, r) => (st1, r.cast)) := by
      intro r h
      obtain ⟨st1, r⟩ := r
      cases r with
      | ok i1 => exact ih i1 h g (by omega)
      | _ => rfl
    unfold State.mainLoop at h ⊢
    by_cases hx : i < argv.length
    · rw [if_pos hx] at h ⊢
      rw [if_pos hx]
      generalize argv[i]? = t at h ⊢
      cases t with
      | none => rfl
      | some tok =>
        simp only at h ⊢
        by_cases h1 : isShortOption tok = true
        · rw [if_pos h1] at h ⊢; rw [if_pos h1]; exact key _ h
        · rw [if_neg h1] at h ⊢
          rw [if_neg h1]
          by_cases h2 : isLongOption tok = true
          · rw [if_pos h2] at h ⊢; rw [if_pos h2]; exact key _ h
          · rw [if_neg h2] at h ⊢
            rw [if_neg h2]
            by_cases h3 : isEndOption tok = true
            · rw [if_pos h3] at h ⊢; rw [if_pos h3]; exact endLoop_more _ _ h g (by omega)
            · rw [if_neg h3] at h ⊢; rw [if_neg h3]; exact key _ h
    · rw [if_neg hx, if_neg hx]

/-- What a disciplined history leaves. -/
structure Tame (st : State D) : Prop where
  inv : GInv False st
  settled : ∀ s ∈ st.arguments, Settled s.arg
  small : ∀ s ∈ st.arguments, s.arg.nargs < 2 ^ 64 - 2 ^ 31

theorem ReachableBy.tame {scan : Str → Option D} {st : State D} (h : ReachableBy scan Disciplined st) : Tame st :=
  ⟨GInv.weaken h.reachable.inv, (h.mono fun _ _ _ => Disciplined.kinds).settled, h.small⟩

/-- The state of a disciplined history in which tokens are read. -/
theorem sane_begin {st : State D} (h : Tame st) {len : Nat}
    (hlen : len < 2 ^ 31) : Sane st.resetAll len ∧
    (st.helpOption = none → (st.argumentExists "-h".toList && st.argumentExists "--help".toList) = false →
      Sane st.resetAll.withHelp len) := by
  have hset := h.settled
  have hi := h.inv
  have h2 : two64 = 2 ^ 64 := rfl
  have h0 : Sane st len := ⟨hi, fun s hs => by have := h.small s hs; rw [h2]; omega,
    fun s hs ht => settled_groups (hset s hs) ht⟩
  have hr : Sane st.resetAll len := h0.of_config (resetAll_config st)
  refine ⟨hr, fun hh hb => ⟨withHelp_inv hr.inv hb hh, ?_, ?_⟩⟩
  all_goals
    intro s hs
    unfold State.withHelp at hs
    simp only at hs
    rw [mem_stableSort, List.mem_append, List.mem_singleton] at hs
  · rcases hs with hs | rfl
    · exact hr.small s hs
    · show len + 0 < two64
      rw [h2]; omega
  · rcases hs with hs | rfl
    · exact hr.groups s hs
    · intro ht
      have e : (st.resetAll.newSlot (helpArgument (helpFlags st.resetAll))).arg.type = .help := rfl
      rw [e] at ht
      rcases ht with h | h | h <;> cases h

theorem Tame.parse_ends {scan : Str → Option D} {st : State D} (h : Tame st)
    {argv : List Str} (hlen : argv.length < 2 ^ 31) : (st.parseArguments scan argv).2 ≠ .diverge := by
  obtain ⟨hs1, hs2⟩ := sane_begin h hlen
  have tail : ∀ st1 : State D, Sane st1 argv.length → (match st1.setBinaryIfEmpty argv with
      | (st2, .ok ()) =>
        match State.mainLoop argv (endOptionIndex argv) (st2.loopBudget argv) 1 st2 with
        | (st3, .ok ()) => st3.afterLoop scan
        | (st3, r) => (st3, r)
      | (st2, r) => (st2, r)).2 ≠ .diverge := by
    intro st1 h1
    obtain ⟨b, hb⟩ := setBinaryIfEmpty_config st1 argv
    have hd : (st1.setBinaryIfEmpty argv).2 ≠ .diverge := by
      unfold State.setBinaryIfEmpty
      (repeat' split) <;> simp
    generalize st1.setBinaryIfEmpty argv = r at hb hd ⊢
    obtain ⟨st2, r⟩ := r
    simp only at hb hd
    subst hb
    have h2 : Sane { st1 with binaryName := b } argv.length := ⟨inv_of_eq h1.inv rfl rfl rfl rfl rfl, h1.small, h1.groups⟩
    cases r with
    | ok u =>
      have hl := mainLoop_ends (endOptionIndex_le argv) _ 1 h2 (budget_enough _ argv 1)
      simp only
      generalize State.mainLoop argv (endOptionIndex argv)
        (State.loopBudget { st1 with binaryName := b } argv) 1 { st1 with binaryName := b } = r2 at hl ⊢
      obtain ⟨st3, r2⟩ := r2
      cases r2 with
      | ok u => exact afterLoop_ends _
      | diverge => exact absurd rfl hl
      | _ => simp
    | diverge => exact absurd rfl hd
    | _ => simp
  unfold State.parseArguments
  rcases autoHelp_cases hs1.inv with ⟨_, e⟩ | ⟨_, _, e⟩ | ⟨h1, h2, e⟩
  · rw [e]; exact tail _ hs1
  · rw [e]; simp
  · rw [e]; exact tail _ (hs2 h1 h2)

/-- After a disciplined history, `parseArguments` returns, throws or exits on every command line, whatever
its tokens. -/
theorem C18_parse_terminates {scan : Str → Option D} {st : State D} (h : ReachableBy scan Disciplined st)
    {argv : List Str} (hlen : argv.length < 2 ^ 31) : (st.parseArguments scan argv).2 ≠ .diverge :=
  h.tame.parse_ends hlen

/-- The bound the model puts on the number of iterations of the main loop plays no role: with any larger
bound the loop gives the same result, and that result is not "still running". -/
theorem C18_no_bound {scan : Str → Option D} {st : State D} (h : ReachableBy scan Disciplined st)
    {argv : List Str} (hlen : argv.length < 2 ^ 31) (g : Nat) (hg : (st.begin argv).loopBudget argv ≤ g) :
    State.mainLoop argv (endOptionIndex argv) g 1 (st.begin argv) =
      State.mainLoop argv (endOptionIndex argv) ((st.begin argv).loopBudget argv) 1 (st.begin argv) ∧
    (State.mainLoop argv (endOptionIndex argv) g 1 (st.begin argv)).2 ≠ .diverge := by
  have hs : Sane (st.begin argv) argv.length :=
    ⟨inv_of_eq (sane_begin h.tame hlen).1.inv rfl rfl rfl rfl rfl, (sane_begin h.tame hlen).1.small, (sane_begin h.tame hlen).1.groups⟩
  have hl := mainLoop_ends (endOptionIndex_le argv) _ 1 hs (budget_enough _ argv 1)
  have e := mainLoop_more _ 1 hl g hg
  exact ⟨e, e ▸ hl⟩

/-- No other call can fail to end. -/
theorem C18_calls_terminate {scan : Str → Option D} {st : State D} (h : ReachableBy scan Disciplined st) (op : Op)
    (hlen : ∀ argv, op = .parse argv → argv.length < 2 ^ 31) : (step scan st op).2 ≠ .diverge := by
  by_cases hp : ∃ argv, op = .parse argv
  · obtain ⟨argv, rfl⟩ := hp
    exact C18_parse_terminates h (hlen argv rfl)
  · rcases call_outcome (scan := scan) h.reachable.inv op (fun argv e => hp ⟨argv, e⟩) with e | ⟨⟨w, e⟩, _⟩
    · intro e'; rw [e'] at e; cases e
    · rw [e]; simp

/-- The hypotheses are met by the reference parser, with any command line below the bound. -/
example (argv : List Str) (h : argv.length < 2 ^ 31) : (parser.parseArguments demoScan argv).2 ≠ .diverge :=
  C18_parse_terminates parser_history h

/-! ### Outside the discipline -/

theorem endless_loop {argv : List Str} {e : Nat} {st : State D} {full : Prop} (hi : GInv full st) {tok : Str} {n : Nat} {s : Slot D}
    (h1 : argv[1]? = some tok) (hlong : isLongOption tok = true) (hshort : isShortOption tok = false) (heq : '=' ∉ tok)
    (he : 0 < e) (hl : lookupName st.byName tok = some n) (hs : st.atNode n = some s)
    (ht : s.arg.type = .number) (hn : s.arg.nargs = 2 ^ 64 - 1) (f : Nat) :
    ∀ st' : State D, st'.config = st.config → (State.mainLoop argv e f 1 st').2 = .diverge := by
  induction f with
  | zero => intro st' _; rfl
  | succ f ih =>
    intro st' hc
    have hi' := inv_of_config hc hi
    have hx : 1 < argv.length := by
      rcases Nat.lt_or_ge 1 argv.length with h | h
      · exact h
      · rw [List.getElem?_eq_none h] at h1; cases h1
    have hb : st'.byName = st.byName := (congrArg (fun x : State D => x.byName) hc :)
    obtain ⟨s', hs', hse⟩ : ∃ s', st'.atNode n = some s' ∧ s'.config = s.config := by
      have := atNode_config hc n
      rw [hs] at this
      cases h : st'.atNode n with
      | none => rw [h] at this; cases this
      | some s' => rw [h] at this; exact ⟨s', rfl, Option.some.inj this⟩
    have ht' : s'.arg.type = .number := by
      rw [← ht]; exact (congrArg (fun x : Slot D => x.arg.type) hse :)
    have hn' : s'.arg.nargs = 2 ^ 64 - 1 := by
      rw [← hn]; exact (congrArg (fun x : Slot D => x.arg.nargs) hse :)
    have hcfg := parseLong_config hi'.nodes argv e 1 tok
    have hres : (st'.parseLong argv e 1 tok).2 = .ok 1 := by
      unfold State.parseLong
      rw [(C02_takeArg_whole tok tok []).2 ⟨heq, rfl, rfl⟩]
      simp only
      rw [hb, hl]
      simp only
      unfold State.parseAt
      rw [hs']
      simp only
      unfold Argument.parseArgument
      rw [if_neg (by simp), ht']
      simp only
      have e0 : (1 + s'.arg.nargs) % two64 = 0 := by rw [hn']; rfl
      rw [e0, if_neg (by omega)]
      rfl
    unfold State.mainLoop
    rw [if_pos hx, h1]
    simp only
    rw [if_neg (by rw [hshort]; simp), if_pos hlong]
    generalize st'.parseLong argv e 1 tok = r at hcfg hres ⊢
    obtain ⟨st1, r⟩ := r
    simp only at hcfg hres
    subst hres
    exact ih st1 (hcfg.trans hc)

/-- C18, the bound on `nargs()` is needed: an option that takes 2^64 - 1 values makes `parseArguments` loop
forever (the loop of the model stays in progress whatever the number of iterations) on every command
line that begins with it. -/
theorem C18_endless {scan : Str → Option D} {st : State D} (hr : Reachable scan st) (hh : st.helpOption ≠ none)
    {argv : List Str} {p tok : Str} {rest : List Str} (ha : argv = p :: tok :: rest) (hp : p ≠ ['-', '-'])
    (htok : LongTok tok) (heq : '=' ∉ tok) {s : Slot D} (hs : s ∈ st.arguments)
    (hl : lookupName st.byName tok = some s.node) (ht : s.arg.type = .number) (hn : s.arg.nargs = 2 ^ 64 - 1) :
    (∀ f, (State.mainLoop argv (endOptionIndex argv) f 1 (st.begin argv)).2 = .diverge) ∧
    (st.parseArguments scan argv).2 = .diverge := by
  have hi : Inv ({ st with binaryName := (st.begin argv).binaryName } : State D) := inv_of_eq hr.inv rfl rfl rfl rfl rfl
  have hc : (st.begin argv).config = ({ st with binaryName := (st.begin argv).binaryName } : State D).config :=
    begin_config st argv
  have hcls := C01_token_classes tok
  have h1 : ∀ f, (State.mainLoop argv (endOptionIndex argv) f 1 (st.begin argv)).2 = .diverge := by
    intro f
    refine endless_loop hi (tok := tok) (n := s.node) (s := s) (by rw [ha]; rfl) (hcls.2.1.2 htok) ?_ heq ?_ hl
      (State.atNode_of_mem hr.inv.nodes hs) ht hn f _ hc
    · rw [← Bool.not_eq_true, hcls.1]
      intro h; exact hcls.2.2.2.2.1 ⟨h, htok⟩
    · rw [ha]
      unfold endOptionIndex
      have : isEndOption p = false := by
        rw [← Bool.not_eq_true, (C01_token_classes p).2.2.1]
        exact hp
      rw [this]
      simp
  refine ⟨h1, ?_⟩
  have hauto : st.resetAll.autoHelp = (st.resetAll, .ok true) := by
    unfold State.autoHelp
    have : st.resetAll.helpOption.isNone = false := by
      show st.helpOption.isNone = false
      cases hh' : st.helpOption with
      | none => exact absurd hh' hh
      | some _ => rfl
    rw [this]
    rfl
  unfold State.parseArguments
  rw [hauto]
  simp only
  rw [setBinary_eq (by rw [ha]; simp)]
  simp only
  have := h1 ((st.begin argv).loopBudget argv)
  generalize State.mainLoop argv (endOptionIndex argv) ((st.begin argv).loopBudget argv) 1 (st.begin argv) = r at this ⊢
  obtain ⟨st1, r⟩ := r
  simp only at this
  subst this
  rfl

/-- The API accepts that number of values. -/
theorem C18_endless_reachable :
    ∃ st : State Unit, Reachable demoScan st ∧ st.helpOption ≠ none ∧
      (∃ s ∈ st.arguments, lookupName st.byName "--num".toList = some s.node ∧ s.arg.type = .number ∧
        s.arg.nargs = 2 ^ 64 - 1) ∧
      (st.parseArguments demoScan (["prog", "--num", "a"].map String.toList)).2 = .diverge := by
  refine ⟨runOps demoScan State.init [.add ["--num".toList], .nargs 0 (2 ^ 64 - 1), .add ["-h".toList], .action 1 .help],
    reachable_runOps .init _ (by decide +kernel), by decide +kernel, by decide +kernel, by decide +kernel⟩

/-- C18, the exceptions of `nargs()` must not be ignored: a positional argument taking groups of values, on
which `nargs(0)` was refused, has been left with groups of zero values, and `parseArguments` never leaves the
loop over them (whatever the number of iterations). -/
theorem C18_ignored_exception :
    ∃ st : State Unit, Reachable demoScan st ∧
      (st.parseArguments demoScan (["prog", "a"].map String.toList)).2 = .diverge ∧
      (∃ s ∈ st.arguments, s.arg.type = .infiniteNumberPos ∧ s.arg.nargs = 0) :=
  ⟨runOps demoScan State.init [.add ["p".toList], .nargs 0 2, .action 0 .infinite, .nargs 0 0],
    reachable_runOps .init _ (by decide +kernel), by decide +kernel, by decide +kernel⟩

/-- …and that is not an effect of the bound: a loop over groups of zero values never ends. -/
theorem C18_groups_of_zero {stop : Str → Bool} {argv : List Str} {max i : Nat} (hm : max ≤ argv.length) (hi : i < max)
    (h64 : max < two64) (hs : ∀ v ∈ argv, stop v = false) (f : Nat) : (scanGroups stop argv max 0 f i).2 = .forever := by
  induction f with
  | zero => rfl
  | succ f ih =>
    unfold scanGroups
    have hx : i < argv.length := by omega
    rw [if_pos hi, List.getElem?_eq_getElem hx]
    simp only
    rw [hs _ (List.getElem_mem hx)]
    have e : (i + 0) % two64 = i := by rw [Nat.add_zero, Nat.mod_eq_of_lt (by omega)]
    simp only [Bool.false_eq_true, if_false, e]
    rw [if_neg (by omega), Nat.sub_self]
    exact ih

end BletArgs
