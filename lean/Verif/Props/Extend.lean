import Verif.Lemmas.Mention
import Verif.Lemmas.Pointers
import Verif.Props.Writes
/-
C68: options nobody uses.
-/
namespace BletArgs
open Spec
variable {D : Type}

theorem reads_option_ids {sig : Sig} {q q1 : List Place} {ts : List Str} {evs : List Event} {err : Option Exn}
    (h : Reads sig q ts evs q1 err) {id : Nat} {att : Bool} {vals : Values} (hm : Event.option id att vals ∈ evs) :
    ∃ name e, sig.flag ('-' :: name) = some e ∧ e.id = id := by
  have one : ∀ {tok : Str} {ts : List Str} {evs : List Event} {out : Out}, TokenReads sig (OptionForm sig) tok ts evs out →
      Event.option id att vals ∈ evs → ∃ name e, sig.flag ('-' :: name) = some e ∧ e.id = id := by
    intro tok ts evs out h hm
    obtain ⟨name, e, _, _, hf, he⟩ := tokenReads_events h _ hm
    cases he
    exact ⟨name, e, hf, rfl⟩
  induction h with
  | nil => cases hm
  | option h _ ih =>
    rcases List.mem_append.1 hm with hm | hm
    · exact one h hm
    · exact ih hm
  | badOption h => exact one h hm
  | word _ h _ ih =>
    rcases List.mem_cons.1 hm with hm | hm
    · subst hm; cases h
    · exact ih hm
  | badWord => cases hm

theorem readsWords_option {strict : Bool} {q q1 : List Place} {ts : List Str} {evs : List Event} {err : Option Exn}
    (h : ReadsWords strict q ts evs q1 err) {id : Nat} {att : Bool} {vals : Values} : Event.option id att vals ∉ evs := by
  induction h with
  | nil => simp
  | word h _ ih =>
    intro hm
    rcases List.mem_cons.1 hm with hm | hm
    · subst hm; cases h
    · exact ih hm
  | badWord => simp

theorem line_option_ids {sig : Sig} {q : List Place} {ts : List Str} {evs : List Event} {err : Option Exn}
    (h : Line sig q ts evs err) {id : Nat} {att : Bool} {vals : Values} (hm : Event.option id att vals ∈ evs) :
    ∃ name e, sig.flag ('-' :: name) = some e ∧ e.id = id := by
  cases h with
  | whole _ h => exact reads_option_ids h hm
  | splitBad _ h => exact reads_option_ids h hm
  | split _ h h' =>
    rcases List.mem_append.1 hm with hm | hm
    · exact reads_option_ids h hm
    · exact absurd hm (readsWords_option h')

/-! ### Lists with members that do not count -/

theorem find_filter_skip {α : Type} {p : α → Bool} {keep : α → Bool} {l : List α} (h : ∀ x ∈ l, keep x = false → p x = false) :
    (l.filter keep).find? p = l.find? p := by
  induction l with
  | nil => rfl
  | cons x l ih =>
    have ih := ih fun y hy => h y (by simp [hy])
    rw [List.filter_cons, List.find?_cons]
    cases hk : keep x with
    | true => rw [if_pos rfl, List.find?_cons, ih]
    | false => rw [if_neg (by simp), h x (by simp) hk, ih]

theorem finishAll_skip {scan : Str → Option D} {keep : Slot D → Bool} {l : List (Slot D)}
    (h : ∀ s ∈ l, keep s = false → (s.arg.finish scan).2.2 = .ok () ∧ (s.arg.finish scan).2.1 = []) :
    (finishAll scan (l.filter keep)).2 = (finishAll scan l).2 := by
  induction l with
  | nil => rfl
  | cons s l ih =>
    have ih := ih fun y hy => h y (by simp [hy])
    rw [List.filter_cons]
    cases hk : keep s with
    | true =>
      rw [if_pos rfl]
      unfold finishAll
      generalize s.arg.finish scan = r
      obtain ⟨a1, w, r⟩ := r
      cases r with
      | ok u => simp only; rw [ih]
      | _ => rfl
    | false =>
      rw [if_neg (by simp)]
      obtain ⟨h1, h2⟩ := h s (by simp) hk
      rw [finishAll]
      generalize s.arg.finish scan = r at h1 h2
      obtain ⟨a1, w, r⟩ := r
      simp only at h1 h2
      subst h1 h2
      rw [ih]
      rfl

/-! ### The two parsers -/

variable {new : Nat → Bool} {st st' : State D}

theorem Extends.mem (hx : Extends new st st') {s : Slot D} : s ∈ st.arguments ↔ s ∈ st'.arguments ∧ new s.obj = false := by
  rw [hx.same, List.mem_filter]; simp

theorem Extends.places (hx : Extends new st st') : st'.places = st.places := by
  unfold State.places
  rw [hx.same, List.filter_filter]
  congr 1
  refine List.filter_congr fun s hs => ?_
  cases hn : new s.obj with
  | true => rw [(hx.option s hs hn).1]; rfl
  | false => simp

theorem Extends.flag (hx : Extends new st st') {full : Prop} (hi : GInv full st) {full' : Prop} (hi' : GInv full' st') {f : Str} (hf : ¬NewName new st' f) :
    st'.sig.flag f = st.sig.flag f := by
  have hl := (hx.names f).resolve_left hf
  unfold State.getArgument at hl
  rcases flag_cases hi f with ⟨h1, h2⟩ | ⟨s, hs, h1, h2, h3, _⟩ <;>
    rcases flag_cases hi' f with ⟨g1, g2⟩ | ⟨t, ht, g1, g2, g3, _⟩
  · rw [h2, g2]
  · rw [g1, h1] at hl
    simp only [g2] at hl
    cases hl
  · rw [g1, h1] at hl
    simp only [h2] at hl
    cases hl
  · rw [g1, h1] at hl
    simp only [h2, g2] at hl
    cases hl
    rw [h3, g3]

theorem Extends.line (hx : Extends new st st') {full : Prop} (hi : GInv full st) {full' : Prop} (hi' : GInv full' st') {line : List Str} (hsil : Silences (NewName new st') line)
    {evs : List Event} {err : Option Exn} (h : Line st.sig st.places line evs err) : Line st'.sig st'.places line evs err := by
  rw [hx.places]
  obtain ⟨_, _, _, _, ha, hs, _⟩ := hx.settings
  exact line_agree ha hs (fun X hX t ht f hf => hx.flag hi hi' (hsil X hX t ht f hf)) h

/-- New options do not occur. -/
theorem Extends.absent (hx : Extends new st st') {full : Prop} (hi : GInv full st) {full' : Prop} (hi' : GInv full' st') {line : List Str} 
    {evs : List Event} {err : Option Exn} (h : Line st.sig st.places line evs err) (h' : Line st'.sig st'.places line evs err)
    {s : Slot D} (hs : s ∈ st'.arguments) (hn : new s.obj = true) : ¬Occurs s.node evs := by
  rintro (ho | ho)
  · obtain ⟨u, hu⟩ := List.exists_mem_of_ne_nil _ ho
    obtain ⟨name, e, hf, he⟩ := line_option_ids h (mem_uses.1 hu)
    rcases flag_cases hi ('-' :: name) with ⟨_, h1⟩ | ⟨t, ht, _, _, h1, _⟩
    · rw [h1] at hf; cases hf
    · rw [h1] at hf
      cases hf
      have := (hx.mem.1 ht).2
      rw [eq_of_node hi' hs (hx.mem.1 ht).1 he, hn] at this
      cases this
  · obtain ⟨u, hu⟩ := List.exists_mem_of_ne_nil _ ho
    exact (option_uses hi' hs (hx.option s hs hn).1 h').1 _ u (mem_fills.1 hu) rfl

theorem finish_absent (scan : Str → Option D) {a : Argument D} (h1 : a.isExist = false) (h2 : a.dest = none) :
    (a.finish scan).2.2 = .ok () ∧ (a.finish scan).2.1 = [] := by
  have : a.runValid = (a, .ok ()) := by
    unfold Argument.runValid
    cases a.valid with
    | none => rfl
    | some v => simp only [h1, Bool.false_eq_true, if_false]
  unfold Argument.finish
  rw [this]
  simp only
  unfold Argument.toDest
  rw [toNumber_dest, h2]
  exact ⟨rfl, rfl⟩

theorem Extends.outcome (hx : Extends new st st') {scan : Str → Option D} {argv : List Str} {evs : List Event}
    {full' : Prop} (hi' : GInv full' st') (hl' : Line st'.sig st'.places (argv.drop 1) evs none)
    (habs : ∀ s ∈ st'.arguments, new s.obj = true → ¬Occurs s.node evs) :
    SameButUsage ((st.seen argv evs).afterLoop scan).2 ((st'.seen argv evs).afterLoop scan).2 ∧
    (((st.seen argv evs).afterLoop scan).2 = .ok () →
      ((st'.seen argv evs).afterLoop scan).2 = .ok () ∧
      ((st'.seen argv evs).afterLoop scan).1.destLog = ((st.seen argv evs).afterLoop scan).1.destLog) := by
  obtain ⟨_, s2, s3, s4, _, _, s7, s8, _, s10⟩ := hx.settings
  have hargs : (st.seen argv evs).arguments = (st'.seen argv evs).arguments.filter fun s => !new s.obj := by
    show st.arguments.map _ = (st'.arguments.map _).filter _
    rw [List.filter_map, hx.same]
    rfl
  have hcfg : ∀ s : Slot D, (s.arg.afterTokens s.node evs).config = s.arg.config := fun s => afterTokens_config s.node evs s.arg
  have seen : ∀ o : Option Nat, (∀ s ∈ st'.arguments, new s.obj = true → o ≠ some s.obj) →
      (st'.seen argv evs).optionSeen o = (st.seen argv evs).optionSeen o := by
    intro o ho
    cases o with
    | none => rfl
    | some o =>
      unfold State.optionSeen State.atObj
      simp only
      rw [hargs, find_filter_skip]
      intro t ht hk
      obtain ⟨s, hs, rfl⟩ := List.mem_map.1 ht
      rw [← Bool.not_eq_true]
      intro e
      have e : s.obj = o := by simpa using e
      exact ho s hs (by simpa using hk) (by rw [e])
  have hhelp : (st'.seen argv evs).optionSeen (st'.seen argv evs).helpOption =
      (st.seen argv evs).optionSeen (st.seen argv evs).helpOption := by
    refine (seen st'.helpOption (fun s hs hn => (hx.option s hs hn).2.2.2.1)).trans ?_
    rw [show st'.helpOption = (st.seen argv evs).helpOption from s2]
  have hversion : (st'.seen argv evs).optionSeen (st'.seen argv evs).versionOption =
      (st.seen argv evs).optionSeen (st.seen argv evs).versionOption := by
    refine (seen st'.versionOption (fun s hs hn => (hx.option s hs hn).2.2.2.2)).trans ?_
    rw [show st'.versionOption = (st.seen argv evs).versionOption from s3]
  have hfin : SameButUsage ((st.seen argv evs).finishParse scan).2 ((st'.seen argv evs).finishParse scan).2 ∧
    (((st.seen argv evs).finishParse scan).2 = .ok () → ((st'.seen argv evs).finishParse scan).2 = .ok () ∧
      ((st'.seen argv evs).finishParse scan).1.destLog = ((st.seen argv evs).finishParse scan).1.destLog) := by
    have hmiss : firstMissing (st.seen argv evs).arguments = firstMissing (st'.seen argv evs).arguments := by
      unfold firstMissing
      rw [hargs, find_filter_skip]
      intro t ht hk
      obtain ⟨s, hs, rfl⟩ := List.mem_map.1 ht
      have : (s.arg.afterTokens s.node evs).isRequired = s.arg.isRequired := (congrArg (fun x : Argument D => x.isRequired) (hcfg s) :)
      simp only [this, (hx.option s hs (by simpa using hk)).2.1, Bool.false_and]
    have hfa : (finishAll scan (st.seen argv evs).arguments).2 = (finishAll scan (st'.seen argv evs).arguments).2 := by
      rw [hargs]
      refine finishAll_skip fun t ht hk => ?_
      obtain ⟨s, hs, rfl⟩ := List.mem_map.1 ht
      have hn : new s.obj = true := by simpa using hk
      refine finish_absent scan ?_ ((congrArg (fun x : Argument D => x.dest) (hcfg s) :).trans (hx.option s hs hn).2.2.1)
      rw [← Bool.not_eq_true]
      exact fun e => habs s hs hn ((occurs_iff hi' hs hl').1 e)
    unfold State.finishParse
    rw [hmiss]
    cases firstMissing (st'.seen argv evs).arguments with
    | some e => exact ⟨.inl rfl, fun h => by cases h⟩
    | none =>
      simp only
      rw [hfa]
      exact ⟨.inl rfl, fun h => ⟨h, by rw [show (st'.seen argv evs).destLog = (st.seen argv evs).destLog from s10]⟩⟩
  unfold State.afterLoop
  rw [hhelp, hversion, show (st'.seen argv evs).isHelpException = (st.seen argv evs).isHelpException from s7,
    show (st'.seen argv evs).isVersionException = (st.seen argv evs).isVersionException from s8,
    show (st'.seen argv evs).version = (st.seen argv evs).version from s4]
  cases (st.seen argv evs).optionSeen (st.seen argv evs).helpOption with
  | none => exact ⟨.inl rfl, fun h => by cases h⟩
  | some b =>
    cases b with
    | true =>
      simp only
      cases (st.seen argv evs).isHelpException with
      | true => exact ⟨.inr (.inl ⟨_, _, rfl, rfl⟩), fun h => by cases h⟩
      | false => exact ⟨.inr (.inr ⟨_, _, rfl, rfl⟩), fun h => by cases h⟩
    | false =>
      simp only
      cases (st.seen argv evs).optionSeen (st.seen argv evs).versionOption with
      | none => exact ⟨.inl rfl, fun h => by cases h⟩
      | some b =>
        cases b with
        | true =>
          simp only
          cases (st.seen argv evs).isVersionException with
          | true => exact ⟨.inl rfl, fun h => by cases h⟩
          | false => exact ⟨.inl rfl, fun h => by cases h⟩
        | false => exact hfin

/-- C68. Options that are not required, have no destination and are not mentioned before `--` change nothing: the
call has the same outcome as without them (up to the text of the usage when help is asked for), and if it returns all
other arguments, the additional arguments and the writes to variables are the same and the new options are absent. -/
theorem C68_unused_options {scan : Str → Option D} {argv : List Str} (h : Ready scan st argv) (h' : Ready scan st' argv)
    (hx : Extends new st st') (hsil : Silences (NewName new st') (argv.drop 1)) :
    SameButUsage (st.parseArguments scan argv).2 (st'.parseArguments scan argv).2 ∧
    ((st.parseArguments scan argv).2 = .ok () →
      (∀ s ∈ st.arguments, (st'.parseArguments scan argv).1.atObj s.obj = (st.parseArguments scan argv).1.atObj s.obj) ∧
      (∀ s ∈ st'.arguments, new s.obj = true →
        ∃ s', (st'.parseArguments scan argv).1.atObj s.obj = some s' ∧ s'.arg.isExist = false ∧ s'.arg.count = 0) ∧
      (st'.parseArguments scan argv).1.additional = (st.parseArguments scan argv).1.additional ∧
      (st'.parseArguments scan argv).1.destLog = (st.parseArguments scan argv).1.destLog) := by
  have hi := h.inv
  have hi' := h'.inv
  obtain ⟨evs, err, hl, _⟩ := parse_tokens h
  have hl' := hx.line hi hi' hsil hl
  have habs : ∀ s ∈ st'.arguments, new s.obj = true → ¬Occurs s.node evs := fun s hs hn => hx.absent hi hi' hl hl' hs hn
  cases err with
  | some x =>
    rw [(parse_of_line h hl).1 x rfl, (parse_of_line h' hl').1 x rfl]
    exact ⟨.inl rfl, fun e => by cases e⟩
  | none =>
    obtain ⟨h1, h2⟩ := hx.outcome (scan := scan) hi' hl' habs
    rw [← parse_seen h hl, ← parse_seen h' hl'] at h1 h2
    refine ⟨h1, fun hok => ?_⟩
    obtain ⟨hok', hlog⟩ := h2 hok
    refine ⟨?_, ?_, ?_, hlog⟩
    · intro s hs
      rw [parse_atObj h hl hok hs, parse_atObj h' hl' hok' (hx.mem.1 hs).1]
    · intro s hs hn
      obtain ⟨s', a, _, b, c, _⟩ := (shows_of_line h' hl' hok').1 s hs
      refine ⟨s', a, ?_, ?_⟩
      · rw [← Bool.not_eq_true]; exact fun e => habs s hs hn (b.1 e)
      · rw [c]
        have : uses s.node evs = [] := Classical.byContradiction fun e => habs s hs hn (.inl e)
        rw [this]; rfl
    · rw [(parse_result h hl hok).2.2, (parse_result h' hl' hok').2.2]
      simp only
      rw [hx.settings.2.2.2.2.2.2.2.2.1]

theorem add_extends {scan : Str → Option D} {st st' : State D} (h : Reachable scan st) {nof : List Str} {ref : Nat}
    (hr : st.addArgument nof = (st', .ok ref)) (ho : asksPositional nof = false) :
    Extends (· == ref) st st' ∧ ∀ f, NewName (· == ref) st' f ↔ f ∈ nof := by
  obtain ⟨s, names, e1, e2, _, e4, _, e6, e7, e8, e9, e10, e11⟩ := C06_add_effect h hr
  have eref : ref = st.nextObj := by
    have ha := addArgument_outcome h.inv nof
    rw [hr] at ha
    cases ha <;> rfl
  have self : ∀ t ∈ st'.arguments, t.obj = ref → t = s := by
    intro t ht e
    rcases List.mem_cons.1 (e7.mem_iff.1 ht) with rfl | ht
    · rfl
    · exact absurd e (e2 t ht)
  have hs : s ∈ st'.arguments := e7.mem_iff.2 (by simp)
  have hnew : ∀ f, NewName (· == ref) st' f ↔ f ∈ nof := by
    intro f
    constructor
    · rintro ⟨t, ht, e, hf⟩
      obtain rfl := self t ht (by simpa using e)
      rw [e4] at hf
      exact (e6 f).1 hf
    · intro hf
      exact ⟨s, hs, by simpa using e1, by rw [e4]; exact (e6 f).2 hf⟩
  refine ⟨⟨?_, ?_, ?_, ?_⟩, hnew⟩
  · rw [← e8]; rfl
  · intro t ht e
    obtain rfl := self t ht (by simpa using e)
    rw [e4, ho]
    have old := h.ptrsOld
    have h1 : st'.helpOption = st.helpOption := by rw [e11]
    have h2 : st'.versionOption = st.versionOption := by rw [e11]
    refine ⟨rfl, rfl, rfl, ?_, ?_⟩
    · intro e; have := old t.obj (.inl (h1 ▸ e)); omega
    · intro e; have := old t.obj (.inr (h2 ▸ e)); omega
  · intro f
    by_cases hf : f ∈ nof
    · exact .inl ((hnew f).2 hf)
    · right
      rw [e10 f, if_neg hf]
      rcases C13_lookup h f with ⟨h1, _⟩ | ⟨h1, h2⟩
      · rw [if_pos h1]
      · rw [h1, h2]; rfl
  · rw [e11]; exact ⟨rfl, rfl, rfl, rfl, rfl, rfl, rfl, rfl, rfl, rfl⟩

/-- C68, adding an option. After `addArgument` of one more option, the command lines that do not mention its flags
before `--` do what they did before it was added. -/
theorem C68_added_option {scan : Str → Option D} {st st' : State D} {nof : List Str} {ref : Nat} {argv : List Str}
    (h : Ready scan st argv) (hreach : Reachable scan st) (hsize : argv.length + 1 < two64) (hr : st.addArgument nof = (st', .ok ref))
    (ho : asksPositional nof = false) (hsil : Silences (· ∈ nof) (argv.drop 1)) :
    SameButUsage (st.parseArguments scan argv).2 (st'.parseArguments scan argv).2 ∧
    ((st.parseArguments scan argv).2 = .ok () →
      (∀ s ∈ st.arguments, (st'.parseArguments scan argv).1.atObj s.obj = (st.parseArguments scan argv).1.atObj s.obj) ∧
      (∃ s', (st'.parseArguments scan argv).1.atObj ref = some s' ∧ s'.arg.isExist = false ∧ s'.arg.count = 0) ∧
      (st'.parseArguments scan argv).1.additional = (st.parseArguments scan argv).1.additional ∧
      (st'.parseArguments scan argv).1.destLog = (st.parseArguments scan argv).1.destLog) := by
  obtain ⟨hx, hnew⟩ := add_extends hreach hr ho
  obtain ⟨s, names, e1, e2, _, e4, _, _, e7, _, _, _, e11⟩ := C06_add_effect hreach hr
  have hs : s ∈ st'.arguments := e7.mem_iff.2 (by simp)
  have h' : Ready scan st' argv := by
    refine ⟨?_, ?_, ?_, ?_, h.program⟩
    · have hst : st' = (step scan st (.add nof)).1 := by
        show st' = (st.addArgument nof).1
        rw [hr]
      rw [hst]
      refine survives_step h.history _ ?_
      show (st.addArgument nof).2.void.goesOn = true
      rw [hr]; rfl
    · intro t ht
      rcases List.mem_cons.1 (e7.mem_iff.1 ht) with rfl | ht
      · rw [e4, ho]; exact ⟨.none, 1, rfl⟩
      · exact h.settled t ht
    · intro t ht
      rcases List.mem_cons.1 (e7.mem_iff.1 ht) with rfl | ht
      · rw [e4, ho]; exact hsize
      · exact h.small t ht
    · rw [e11]; exact h.help
  obtain ⟨h1, h2⟩ := C68_unused_options h h' hx fun X hX t ht f hf hn => hsil X hX t ht f hf ((hnew f).1 hn)
  refine ⟨h1, fun hok => ?_⟩
  obtain ⟨a, b, c, d⟩ := h2 hok
  exact ⟨a, e1 ▸ b s hs (by simpa using e1), c, d⟩

/-! ### A case -/

theorem pair_of {α β : Type} {x : α × β} {b : β} (h : x.2 = b) : x = (x.1, b) := by subst h; rfl

theorem Spec.Mentions.chars {tok f : Str} (h : Mentions tok f) : ∀ c ∈ f, c = '-' ∨ c ∈ tok := by
  have sub : ∀ {name : Str} {eq : Option Str}, Splits tok name eq → ∀ c ∈ name, c ∈ tok := by
    intro name eq h c hc
    cases h with
    | eq _ v h => rw [h.1]; simp [hc]
    | bare => exact hc
  intro c hc
  cases h with
  | long _ h => exact .inr (sub h c hc)
  | alternative _ h =>
    rcases List.mem_cons.1 hc with rfl | hc
    · exact .inl rfl
    · exact .inr (sub h c hc)
  | @letter cs d _ _ h hd =>
    simp only [List.mem_cons, List.not_mem_nil, or_false] at hc
    rcases hc with rfl | rfl
    · exact .inl rfl
    · exact .inr (sub h c (by simp [hd]))

/-- Flags with a character that is not on the line are not mentioned. -/
theorem Spec.Silences.of_char {flags : List Str} {line : List Str} (c : Char) (hc : c ≠ '-') (h : ∀ f ∈ flags, c ∈ f)
    (hl : ∀ t ∈ line, c ∉ t) : Silences (· ∈ flags) line := by
  intro X hX t ht f hf hm
  have hline : t ∈ line := by
    rcases hX.2 with rfl | ⟨back, rfl⟩
    · exact ht
    · exact List.mem_append_left _ ht
  rcases hf.chars c (h f hm) with e | e
  · exact hc e
  · exact hl t hline e

example : (parser.parseArguments demoScan parserLine).2 = .ok () ∧
    ∃ st', parser.addArgument ["-z".toList, "--zed".toList] = (st', .ok 12) ∧
      (st'.parseArguments demoScan parserLine).2 = .ok () ∧
      ∃ s', (st'.parseArguments demoScan parserLine).1.atObj 12 = some s' ∧ s'.arg.isExist = false := by
  have hr : parser.addArgument ["-z".toList, "--zed".toList] =
      ((parser.addArgument ["-z".toList, "--zed".toList]).1, .ok 12) := pair_of (by decide +kernel)
  have h := C68_added_option parserLine_ready parser_history.reachable (by decide +kernel) hr (by decide +kernel)
    (.of_char 'z' (by decide) (by decide +kernel) (by decide +kernel))
  refine ⟨parserLine_ok, _, hr, ?_, ?_⟩
  · rcases h.1 with e | ⟨u, u', e, _⟩ | ⟨u, u', e, _⟩
    · rw [e]; exact parserLine_ok
    · rw [parserLine_ok] at e; cases e
    · rw [parserLine_ok] at e; cases e
  · obtain ⟨_, ⟨s', a, b, _⟩, _⟩ := h.2 parserLine_ok
    exact ⟨s', a, b⟩

/-- The hypothesis on the command line is needed: `-z` is a value of the list `-l` until it becomes an option. -/
example : (parser.parseArguments demoScan (["prog", "file", "-l", "-z"].map String.toList)).2 = .ok () ∧
    (((parser.addArgument ["-z".toList]).1.parseArguments demoScan (["prog", "file", "-l", "-z"].map String.toList)).2) ≠ .ok () := by
  decide +kernel

end BletArgs
