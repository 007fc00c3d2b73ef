import Verif.Lemmas.After
import Verif.Spec.Dest
import Verif.Model.Valid
import Verif.Props.Values
/-
After the tokens: C32 (help and version), C33 (required), C34 (validators), C48 and C49 (destinations).

As in `Values.lean`, `evs` is the unique list of events of the command line.
-/
namespace BletArgs
open Spec
variable {D : Type}

/-- The name of the program as the usage shows it. -/
def programName (st : State D) (argv : List Str) : Str :=
  if st.binaryName.isEmpty then argv.headD [] else st.binaryName

/-- C32, help. If the help option occurs on an accepted command line, the call gives the usage text and nothing
else: whatever the version option, the required arguments, the validators and the destinations. -/
theorem C32_help {scan : Str → Option D} {st : State D} {argv : List Str} (h : Ready scan st argv)
    {evs : List Event} (hl : Line st.sig st.places (argv.drop 1) evs none)
    {s : Slot D} (hs : s ∈ st.arguments) (hh : st.helpOption = some s.obj) (ho : Occurs s.node evs) :
    let usage := ({ st with binaryName := programName st argv } : State D).getUsage
    (st.parseArguments scan argv).2 =
      (if st.isHelpException then .throw ⟨.help, [], usage⟩ else .exit (usage ++ "\n".toList)) ∧
    (st.parseArguments scan argv).1.destLog = st.destLog := by
  have hi := h.inv
  rw [parse_seen h hl]
  have hx := (occurs_iff hi hs hl).2 ho
  have hsn := seen_optionSeen hi argv evs hs
  rw [hx] at hsn
  have hu := seen_usage st argv evs
  unfold State.afterLoop
  rw [show (st.seen argv evs).helpOption = some s.obj from hh, hsn]
  simp only
  rw [show (st.seen argv evs).isHelpException = st.isHelpException from rfl]
  cases st.isHelpException with
  | true => exact ⟨by simp only [if_true]; rw [hu]; rfl, rfl⟩
  | false => exact ⟨by simp only [Bool.false_eq_true, if_false]; rw [hu]; rfl, rfl⟩

example : (let st := runOps demoScan parser [.setHelpException true];
    (st.parseArguments demoScan (["prog", "-v", "-h"].map String.toList)).2 =
      .throw ⟨.help, [], ({ st with binaryName := "prog".toList } : State Unit).getUsage⟩) := by decide +kernel

/-- C32, version. If the version option occurs on an accepted command line, and the help option does not, the
call gives the version text and nothing else. -/
theorem C32_version {scan : Str → Option D} {st : State D} {argv : List Str} (h : Ready scan st argv)
    {evs : List Event} (hl : Line st.sig st.places (argv.drop 1) evs none)
    {t : Slot D} (ht : t ∈ st.arguments) (hh : st.helpOption = some t.obj) (hno : ¬Occurs t.node evs)
    {s : Slot D} (hs : s ∈ st.arguments) (hv : st.versionOption = some s.obj) (ho : Occurs s.node evs) :
    (st.parseArguments scan argv).2 =
      (if st.isVersionException then .throw ⟨.version, [], st.version⟩ else .exit (st.version ++ "\n".toList)) ∧
    (st.parseArguments scan argv).1.destLog = st.destLog := by
  have hi := h.inv
  rw [parse_seen h hl]
  have hx := (occurs_iff hi hs hl).2 ho
  have hsn := seen_optionSeen hi argv evs hs
  rw [hx] at hsn
  have hx' : (t.arg.afterTokens t.node evs).isExist = false := by
    rw [← Bool.not_eq_true]; exact fun e => hno ((occurs_iff hi ht hl).1 e)
  have hsn' := seen_optionSeen hi argv evs ht
  rw [hx'] at hsn'
  unfold State.afterLoop
  rw [show (st.seen argv evs).helpOption = some t.obj from hh, hsn']
  simp only
  rw [show (st.seen argv evs).versionOption = some s.obj from hv, hsn]
  simp only
  rw [show (st.seen argv evs).isVersionException = st.isVersionException from rfl]
  cases st.isVersionException with
  | true => exact ⟨rfl, rfl⟩
  | false => exact ⟨rfl, rfl⟩

example :
    let st := runOps demoScan parser
      [.add ["-V".toList], .action 12 .version, .setVersion "1.0".toList, .setVersionException true];
    ((st.parseArguments demoScan (["prog", "-V"].map String.toList)).2 = .throw ⟨.version, [], "1.0".toList⟩ ∧
    st.versionOption = some 12 ∧ st.helpOption = some 9) := by decide +kernel

/-- Neither the help nor the version option occurs. -/
structure Silent (st : State D) (evs : List Event) : Prop where
  help : ∃ t ∈ st.arguments, st.helpOption = some t.obj ∧ ¬Occurs t.node evs
  version : ∀ o, st.versionOption = some o → ∃ t ∈ st.arguments, t.obj = o ∧ ¬Occurs t.node evs

theorem Silent.finish {scan : Str → Option D} {st : State D} {argv : List Str} (h : Ready scan st argv)
    {evs : List Event} (hl : Line st.sig st.places (argv.drop 1) evs none) (hq : Silent st evs) :
    st.parseArguments scan argv = (st.seen argv evs).finishParse scan := by
  have hi := h.inv
  have off : ∀ t ∈ st.arguments, ¬Occurs t.node evs → (st.seen argv evs).optionSeen (some t.obj) = some false := by
    intro t ht hno
    rw [seen_optionSeen hi argv evs ht]
    congr 1
    rw [← Bool.not_eq_true]; exact fun e => hno ((occurs_iff hi ht hl).1 e)
  rw [parse_seen h hl]
  obtain ⟨t, ht, hh, hno⟩ := hq.help
  unfold State.afterLoop
  rw [show (st.seen argv evs).helpOption = some t.obj from hh, off t ht hno]
  simp only
  have : (st.seen argv evs).optionSeen (st.seen argv evs).versionOption = some false := by
    rw [show (st.seen argv evs).versionOption = st.versionOption from rfl]
    cases hv : st.versionOption with
    | none => rfl
    | some o =>
      obtain ⟨t, ht, rfl, hno⟩ := hq.version o hv
      exact off t ht hno
  rw [this]

/-- C33. If the call returns, every required argument occurred. -/
theorem C33_required {scan : Str → Option D} {st : State D} {argv : List Str} (h : Ready scan st argv)
    {evs : List Event} (hl : Line st.sig st.places (argv.drop 1) evs none)
    (hok : (st.parseArguments scan argv).2 = .ok ()) {s : Slot D} (hs : s ∈ st.arguments)
    (hr : s.arg.isRequired = true) : Occurs s.node evs := by
  have hi := h.inv
  obtain ⟨_, h2, _⟩ := parse_result h hl hok
  rw [tokens_arguments] at h2
  unfold firstMissing at h2
  rw [Option.map_eq_none_iff, List.find?_eq_none] at h2
  have := h2 _ (List.mem_map.2 ⟨s, hs, rfl⟩)
  rw [show (({ s with arg := s.arg.afterTokens s.node evs } : Slot D).arg.isRequired) = s.arg.isRequired from
    (congrArg (fun x : Argument D => x.isRequired) (afterTokens_config s.node evs s.arg) :), hr] at this
  exact (occurs_iff hi hs hl).1 (by simpa using this)

/-- C33, the exception. When neither help nor version occurs, the first required argument in listing order
that is missing is the one named by the `ParseArgumentRequiredException`; nothing was written to a
destination. (The message calls a positional argument "argument" only if it takes one value.) -/
theorem C33_missing {scan : Str → Option D} {st : State D} {argv : List Str} (h : Ready scan st argv)
    {evs : List Event} (hl : Line st.sig st.places (argv.drop 1) evs none) (hq : Silent st evs)
    {l1 l2 : List (Slot D)} {s : Slot D} (hst : st.arguments = l1 ++ s :: l2)
    (hbefore : ∀ t ∈ l1, t.arg.isRequired = true → Occurs t.node evs)
    (hr : s.arg.isRequired = true) (hno : ¬Occurs s.node evs) :
    (st.parseArguments scan argv).2 = .throw ⟨.required, s.arg.front,
      if s.arg.type = .pos then "argument is required".toList else "option is required".toList⟩ ∧
    (st.parseArguments scan argv).1.destLog = st.destLog := by
  have hi := h.inv
  rw [hq.finish h hl]
  have hcfg : ∀ t : Slot D, ∀ {α : Type} (f : Argument D → α), (∀ a b : Argument D, a.config = b.config → f a = f b) →
      f (t.arg.afterTokens t.node evs) = f t.arg := fun t _ f hf => hf _ _ (afterTokens_config t.node evs t.arg)
  have reqEq : ∀ t : Slot D, (t.arg.afterTokens t.node evs).isRequired = t.arg.isRequired := fun t =>
    (congrArg (fun x : Argument D => x.isRequired) (afterTokens_config t.node evs t.arg) :)
  have hf : (st.seen argv evs).arguments.find? (fun s => s.arg.isRequired && !s.arg.isExist) =
      some { s with arg := s.arg.afterTokens s.node evs } := by
    unfold State.seen
    simp only
    rw [hst, List.map_append, List.map_cons, List.find?_append, List.find?_cons]
    have h1 : (l1.map fun s => ({ s with arg := s.arg.afterTokens s.node evs } : Slot D)).find?
        (fun s => s.arg.isRequired && !s.arg.isExist) = none := by
      rw [List.find?_eq_none]
      intro x hx
      obtain ⟨t, ht, rfl⟩ := List.mem_map.1 hx
      simp only [reqEq, Bool.and_eq_true, Bool.not_eq_true', not_and, Bool.not_eq_false]
      intro hr'
      exact (occurs_iff hi (by rw [hst]; simp [ht]) hl).2 (hbefore t ht hr')
    have h2 : (s.arg.afterTokens s.node evs).isExist = false := by
      rw [← Bool.not_eq_true]; exact fun e => hno ((occurs_iff hi (by rw [hst]; simp) hl).1 e)
    rw [h1]
    simp only [reqEq, hr, h2]
    rfl
  unfold State.finishParse firstMissing
  rw [hf]
  simp only [Option.map_some]
  refine ⟨?_, rfl⟩
  have e1 : (s.arg.afterTokens s.node evs).type = s.arg.type :=
    (congrArg (fun x : Argument D => x.type) (afterTokens_config s.node evs s.arg) :)
  have e2 : (s.arg.afterTokens s.node evs).front = s.arg.front :=
    (congrArg (fun x : Argument D => x.front) (afterTokens_config s.node evs s.arg) :)
  rw [e1, e2]
  by_cases hp : s.arg.type = .pos
  · rw [if_pos hp, if_pos (by simp [hp])]
  · rw [if_neg hp, if_neg (by simpa using hp)]

example : (parser.parseArguments demoScan (["prog", "-v"].map String.toList)).2 =
    .throw ⟨.required, "file".toList, "argument is required".toList⟩ := by decide +kernel

/-! ### C34: validators -/

/-- C34. If the call returns, the validator of every argument that occurred accepted the values of the
argument, and the argument holds the values the validator left (see `rewritten` when it changed their number);
without validator it holds the values of the command line. -/
theorem C34_accepted {scan : Str → Option D} {st : State D} {argv : List Str} (h : Ready scan st argv)
    {evs : List Event} (hl : Line st.sig st.places (argv.drop 1) evs none)
    (hok : (st.parseArguments scan argv).2 = .ok ()) {s : Slot D} (hs : s ∈ st.arguments)
    (ho : Occurs s.node evs) (hk : ¬Valueless s.arg.type) :
    ∃ s', (st.parseArguments scan argv).1.atObj s.obj = some s' ∧
      Validated s.arg.valid (s.arg.given (uses s.node evs) (fills s.node evs)) s'.arg.toVector :=
  let ⟨s', h1, _, h2, _⟩ := parse_vector h hl hok hs ho hk
  ⟨s', h1, h2⟩

/-- A validator that leaves one value of two, and one that leaves three: the option has two values in any case. -/
example :
    (let one := runOps demoScan parser [.valid 3 (some ⟨0, fun _ => .accept ["z".toList]⟩) false];
    let three := runOps demoScan parser [.valid 3 (some ⟨0, fun vs => .accept ("z".toList :: vs)⟩) false];
    let argv := ["prog", "-n", "a", "b", "in"].map String.toList;
    (one.parseArguments demoScan argv).2 = .ok () ∧ (three.parseArguments demoScan argv).2 = .ok () ∧
    ((one.parseArguments demoScan argv).1.atObj 3).bind (fun s => s.arg.toVector) = some ["z".toList, "b".toList] ∧
    ((three.parseArguments demoScan argv).1.atObj 3).bind (fun s => s.arg.toVector) = some ["z".toList, "a".toList]) := by
  decide +kernel

/-- Nothing is held against argument `s`: its validator, if it has one and the argument occurred, accepts the
values (it has some), and its destination, if any, has a type with a conversion. -/
structure Passes (s : Slot D) (evs : List Event) : Prop where
  valid : ∀ v, s.arg.valid = some v → Occurs s.node evs → ¬Valueless s.arg.type ∧
    ∃ out, v.check (s.arg.given (uses s.node evs) (fills s.node evs)) = .accept out
  dest : ∀ d, s.arg.dest = some d → d.custom = true ∨ d.supported = true

theorem toDest_ok (a : Argument D) : a.toDest.2 = .ok () ↔
    ∀ d, a.dest = some d → d.custom = true ∧ d.refuses (a.destCall d) = none ∨ d.custom = false ∧ d.supported = true := by
  cases hd : a.dest with
  | none => rw [toDest_none hd]; simp
  | some d =>
    simp only [Option.some.injEq, forall_eq']
    cases hc : d.custom with
    | true => rw [toDest_custom hd hc, invoke_ok]; simp
    | false => rw [toDest_plain hd hc]; cases d.supported <;> simp

theorem finish_ok (scan : Str → Option D) (a : Argument D) :
    ((a.finish scan).2.2 = .ok () → a.runValid.2 = .ok () ∧ ∀ d, a.dest = some d → d.custom = true ∨ d.supported = true) ∧
    (a.runValid.2 = .ok () → (∀ d, a.dest = some d → d.custom = true ∨ d.supported = true) →
      (∀ d, a.dest = some d → d.custom = true → ∀ w, d.refuses w = none) → (a.finish scan).2.2 = .ok ()) := by
  unfold Argument.finish
  have hd := runValid_dest a
  generalize a.runValid = r at hd
  obtain ⟨a1, r⟩ := r
  simp only at hd
  cases r with
  | ok u =>
    simp only [toDest_ok, toNumber_dest, hd, true_and]
    refine ⟨fun h d e => (h d e).imp (·.1) (·.2), fun _ h1 h2 d e => ?_⟩
    cases hc : d.custom with
    | true => exact .inl ⟨rfl, h2 d e hc _⟩
    | false => exact .inr ⟨rfl, (h1 d e).resolve_left (by rw [hc]; simp)⟩
  | _ => simp

theorem finish_err (scan : Str → Option D) (a : Argument D) (h : a.runValid.2 ≠ .ok ()) :
    (a.finish scan).2.2 = a.runValid.2 := by
  unfold Argument.finish
  generalize a.runValid = r at h
  obtain ⟨a1, r⟩ := r
  cases r with
  | ok u => exact absurd rfl h
  | _ => rfl

theorem runValid_ok {a : Argument D} :
    a.runValid.2 = .ok () ↔ ∀ v, a.valid = some v → a.isExist = true → ¬Valueless a.type ∧
      ∃ out, v.check (a.toVector.getD []) = .accept out := by
  unfold Argument.runValid
  cases a.valid with
  | none => simp
  | some v =>
    simp only [Option.some.injEq, forall_eq']
    cases a.isExist with
    | false => simp
    | true =>
      simp only [if_true, forall_const]
      cases v.check (a.toVector.getD []) with
      | accept out => cases a.type <;> simp [Valueless]
      | _ => simp

theorem passes_runs {st : State D} {full : Prop} (hi : GInv full st) {s : Slot D} (hs : s ∈ st.arguments)
    {ts : List Str} {evs : List Event} {err : Option Exn} (hl : Line st.sig st.places ts evs err) :
    Passes s evs ↔ (s.arg.afterTokens s.node evs).runValid.2 = .ok () ∧
      ∀ d, (s.arg.afterTokens s.node evs).dest = some d → d.custom = true ∨ d.supported = true := by
  have cfg := afterTokens_config s.node evs s.arg
  have e1 : (s.arg.afterTokens s.node evs).type = s.arg.type := (congrArg (fun x : Argument D => x.type) cfg :)
  have e2 : (s.arg.afterTokens s.node evs).valid = s.arg.valid := (congrArg (fun x : Argument D => x.valid) cfg :)
  have e3 : (s.arg.afterTokens s.node evs).dest = s.arg.dest := (congrArg (fun x : Argument D => x.dest) cfg :)
  rw [runValid_ok, e1, e2, e3]
  constructor
  · rintro ⟨h1, h2⟩
    refine ⟨?_, h2⟩
    intro v hv ho
    have ho := (occurs_iff hi hs hl).1 ho
    obtain ⟨g1, out, g2⟩ := h1 v hv ho
    refine ⟨g1, out, ?_⟩
    rw [(tokens_vector hi hs hl ho g1).1]
    exact g2
  · rintro ⟨h1, h2⟩
    refine ⟨?_, h2⟩
    intro v hv ho
    obtain ⟨g1, out, g2⟩ := h1 v hv ((occurs_iff hi hs hl).2 ho)
    refine ⟨g1, out, ?_⟩
    rw [(tokens_vector hi hs hl ho g1).1] at g2
    exact g2

theorem passes_of {st : State D} {full : Prop} (hi : GInv full st) {s : Slot D} (hs : s ∈ st.arguments) {scan : Str → Option D}
    {ts : List Str} {evs : List Event} {err : Option Exn} (hl : Line st.sig st.places ts evs err)
    (hf : ((s.arg.afterTokens s.node evs).finish scan).2.2 = .ok ()) : Passes s evs :=
  (passes_runs hi hs hl).2 ((finish_ok scan _).1 hf)

theorem passes_iff {st : State D} {full : Prop} (hi : GInv full st) {s : Slot D} (hs : s ∈ st.arguments) (scan : Str → Option D)
    {ts : List Str} {evs : List Event} {err : Option Exn} (hl : Line st.sig st.places ts evs err) (hr : Returning s) :
    ((s.arg.afterTokens s.node evs).finish scan).2.2 = .ok () ↔ Passes s evs := by
  refine ⟨passes_of hi hs hl, fun h => ?_⟩
  obtain ⟨h1, h2⟩ := (passes_runs hi hs hl).1 h
  refine (finish_ok scan _).2 h1 h2 ?_
  rw [show (s.arg.afterTokens s.node evs).dest = s.arg.dest from
    (congrArg (fun x : Argument D => x.dest) (afterTokens_config s.node evs s.arg) :)]
  exact hr

theorem finishAll_all {scan : Str → Option D} {l : List (Slot D)} (h : ∀ s ∈ l, (s.arg.finish scan).2.2 = .ok ()) :
    (finishAll scan l).2.2 = .ok () := by
  induction l with
  | nil => rfl
  | cons s l ih =>
    have h0 := h s (by simp)
    have ih := ih fun t ht => h t (by simp [ht])
    unfold finishAll
    generalize s.arg.finish scan = r at h0
    obtain ⟨a1, w, r⟩ := r
    simp only at h0
    subst h0
    exact ih

theorem finishAll_first {scan : Str → Option D} {l1 l2 : List (Slot D)} {s : Slot D}
    (h : ∀ t ∈ l1, (t.arg.finish scan).2.2 = .ok ()) (hs : (s.arg.finish scan).2.2 ≠ .ok ()) :
    (finishAll scan (l1 ++ s :: l2)).2.2 = (s.arg.finish scan).2.2 := by
  induction l1 with
  | nil =>
    rw [List.nil_append]
    unfold finishAll
    generalize s.arg.finish scan = r at hs
    obtain ⟨a1, w, r⟩ := r
    cases r with
    | ok u => exact absurd rfl hs
    | _ => rfl
  | cons t l ih =>
    have h0 := h t (by simp)
    have ih := ih fun t ht => h t (by simp [ht])
    rw [List.cons_append]
    unfold finishAll
    generalize t.arg.finish scan = r at h0
    obtain ⟨a1, w, r⟩ := r
    simp only at h0
    subst h0
    exact ih

/-- Every required argument occurs. -/
def NoneMissing (st : State D) (evs : List Event) : Prop :=
  ∀ s ∈ st.arguments, s.arg.isRequired = true → Occurs s.node evs

theorem NoneMissing.finish {scan : Str → Option D} {st : State D} {argv : List Str} (h : Ready scan st argv)
    {evs : List Event} (hl : Line st.sig st.places (argv.drop 1) evs none) (hq : Silent st evs)
    (hm : NoneMissing st evs) : (st.parseArguments scan argv).2 = (finishAll scan (st.seen argv evs).arguments).2.2 := by
  have hi := h.inv
  rw [hq.finish h hl]
  unfold State.finishParse
  have : firstMissing (st.seen argv evs).arguments = none := by
    unfold firstMissing
    rw [Option.map_eq_none_iff, List.find?_eq_none]
    intro x hx
    obtain ⟨t, ht, rfl⟩ := List.mem_map.1 hx
    have reqEq : (t.arg.afterTokens t.node evs).isRequired = t.arg.isRequired :=
      (congrArg (fun x : Argument D => x.isRequired) (afterTokens_config t.node evs t.arg) :)
    simp only [reqEq, Bool.and_eq_true, Bool.not_eq_true', not_and, Bool.not_eq_false]
    intro hr'
    exact (occurs_iff hi ht hl).2 (hm t ht hr')
  rw [this]

/-- C34. If the call returns then nothing is held against any argument. -/
theorem C34_returned {scan : Str → Option D} {st : State D} {argv : List Str} (h : Ready scan st argv)
    {evs : List Event} (hl : Line st.sig st.places (argv.drop 1) evs none) (hq : Silent st evs)
    (hm : NoneMissing st evs) (hok : (st.parseArguments scan argv).2 = .ok ()) : ∀ s ∈ st.arguments, Passes s evs := by
  rw [hm.finish h hl hq] at hok
  intro s hs
  exact passes_of h.inv hs hl ((finishAll_ok hok).1 { s with arg := s.arg.afterTokens s.node evs }
    (List.mem_map.2 ⟨s, hs, rfl⟩))

/-- C34, exactly. On an accepted command line without help or version where no required argument is missing,
the call returns if and only if nothing is held against any argument. In particular the validators of absent
arguments do not matter. (For callbacks that throw see C73.) -/
theorem C34_accepts_iff {scan : Str → Option D} {st : State D} {argv : List Str} (h : Ready scan st argv)
    {evs : List Event} (hl : Line st.sig st.places (argv.drop 1) evs none) (hq : Silent st evs)
    (hm : NoneMissing st evs) (hr : ∀ s ∈ st.arguments, Returning s) :
    (st.parseArguments scan argv).2 = .ok () ↔ ∀ s ∈ st.arguments, Passes s evs := by
  refine ⟨C34_returned h hl hq hm, fun hall => ?_⟩
  rw [hm.finish h hl hq]
  refine finishAll_all fun x hx => ?_
  obtain ⟨s, hs, rfl⟩ := List.mem_map.1 hx
  exact (passes_iff h.inv hs scan hl (hr s hs)).2 (hall s hs)

/-- C34, the exception. The first argument in listing order whose validator does not accept its values is
the one named by the `ParseArgumentValidException`. (An exception of another class thrown by the validator
goes through.) -/
theorem C34_rejected {scan : Str → Option D} {st : State D} {argv : List Str} (h : Ready scan st argv)
    {evs : List Event} (hl : Line st.sig st.places (argv.drop 1) evs none) (hq : Silent st evs)
    (hm : NoneMissing st evs)
    {l1 l2 : List (Slot D)} {s : Slot D} (hst : st.arguments = l1 ++ s :: l2)
    (hbefore : ∀ t ∈ l1, Passes t evs ∧ Returning t) {v : Validator} (hv : s.arg.valid = some v) (ho : Occurs s.node evs)
    (hk : ¬Valueless s.arg.type) :
    match v.check (s.arg.given (uses s.node evs) (fills s.node evs)) with
    | .accept _ => True
    | .reject => (st.parseArguments scan argv).2 = .throw ⟨.valid, s.arg.front, "invalid check function".toList⟩
    | .throwValid msg => (st.parseArguments scan argv).2 = .throw ⟨.valid, s.arg.front, msg⟩
    | .throwOther e => (st.parseArguments scan argv).2 = .throw e := by
  have hi := h.inv
  have hs : s ∈ st.arguments := by rw [hst]; simp
  have key : (s.arg.afterTokens s.node evs).runValid.2 ≠ .ok () →
      (st.parseArguments scan argv).2 = (s.arg.afterTokens s.node evs).runValid.2 := by
    intro hne
    rw [hm.finish h hl hq, ← finish_err scan _ hne]
    unfold State.seen
    simp only
    rw [hst, List.map_append, List.map_cons]
    refine finishAll_first (s := { s with arg := s.arg.afterTokens s.node evs }) ?_ ?_
    · intro x hx
      obtain ⟨t, ht, rfl⟩ := List.mem_map.1 hx
      exact (passes_iff hi (by rw [hst]; simp [ht]) scan hl (hbefore t ht).2).2 (hbefore t ht).1
    · rw [finish_err scan _ hne]; exact hne
  have cfg := afterTokens_config s.node evs s.arg
  have e2 : (s.arg.afterTokens s.node evs).valid = s.arg.valid := (congrArg (fun x : Argument D => x.valid) cfg :)
  have e3 : (s.arg.afterTokens s.node evs).front = s.arg.front := (congrArg (fun x : Argument D => x.front) cfg :)
  have ev := (tokens_vector hi hs hl ho hk).1
  have hx := (occurs_iff hi hs hl).2 ho
  have hrun : ∀ {r : VRes}, v.check (s.arg.given (uses s.node evs) (fills s.node evs)) = r →
      (r = .reject → (s.arg.afterTokens s.node evs).runValid.2 = .throw ⟨.valid, s.arg.front, "invalid check function".toList⟩) ∧
      (∀ m, r = .throwValid m → (s.arg.afterTokens s.node evs).runValid.2 = .throw ⟨.valid, s.arg.front, m⟩) ∧
      (∀ e, r = .throwOther e → (s.arg.afterTokens s.node evs).runValid.2 = .throw e) := by
    intro r hr
    unfold Argument.runValid Argument.validExn
    rw [e2, hv]
    simp only [hx, if_true, ev, Option.getD_some, hr, e3]
    refine ⟨?_, ?_, ?_⟩
    · rintro rfl; rfl
    · rintro m rfl; rfl
    · rintro m rfl; rfl
  cases hc : v.check (s.arg.given (uses s.node evs) (fills s.node evs)) with
  | accept out => trivial
  | reject =>
    have := (hrun hc).1 rfl
    rw [key (by rw [this]; simp)]; exact this
  | throwValid m =>
    have := (hrun hc).2.1 m rfl
    rw [key (by rw [this]; simp)]; exact this
  | throwOther e =>
    have := (hrun hc).2.2 e rfl
    rw [key (by rw [this]; simp)]; exact this

/-- A parser with a validator that rejects, rewrites or is not consulted. -/
example :
    let choise : Validator := ⟨0, validChoise ["a".toList, "b".toList]⟩
    let st := runOps demoScan parser [.valid 0 (some choise) true]
    (st.parseArguments demoScan (["prog", "-o", "c", "f"].map String.toList)).2 =
        .throw ⟨.valid, "-o".toList, "\"c\" is not a valid choise (\"a\", \"b\")".toList⟩ ∧
      (st.parseArguments demoScan (["prog", "-o", "b", "f"].map String.toList)).2 = .ok () ∧
      (st.parseArguments demoScan (["prog", "f"].map String.toList)).2 = .ok () := by decide +kernel

/-! ### C48, C49: destinations -/

/-- The single value of an argument, as given to a conversion: the boolean of a boolean option, else its
string (for a list or group kind, its default text). -/
def Argument.singleValue (a : Argument D) : Src :=
  if a.type = .boolean ∨ a.type = .reverse then .bool a.toBool else .str a.argument

theorem scalarSrc_eq (a : Argument D) : a.scalarSrc = a.singleValue := by
  unfold Argument.scalarSrc Argument.singleValue Argument.toBool
  cases a.type <;> simp

theorem toDest_slot (a : Argument D) : ∀ w ∈ a.toDest.1, ∃ d, a.dest = some d ∧ w.slot = d.slot := by
  intro w hw
  cases hd : a.dest with
  | none => rw [toDest_none hd] at hw; simp at hw
  | some d =>
    refine ⟨d, rfl, ?_⟩
    cases hc : d.custom with
    | true =>
      rw [toDest_custom hd hc, invoke_fst, List.mem_singleton] at hw
      rw [hw]
      unfold Argument.destCall
      split <;> rfl
    | false =>
      unfold Argument.toDest at hw
      rw [hd] at hw
      simp only [hc, Bool.false_eq_true, if_false] at hw
      split at hw <;> (try split at hw) <;> (try split at hw) <;>
        simp at hw <;> first | (subst hw; rfl) | (obtain ⟨_, _, rfl⟩ := hw; rfl)

theorem finish_writes (scan : Str → Option D) (a : Argument D) (hok : (a.finish scan).2.2 = .ok ()) :
    (a.finish scan).2.1 = (a.finished scan).toDest.1 := by
  unfold Argument.finished
  unfold Argument.finish at hok ⊢
  generalize a.runValid = r at hok
  obtain ⟨a1, r⟩ := r
  cases r with
  | ok u => rfl
  | _ => cases hok

theorem filter_none {α : Type} {p : α → Bool} {l : List α} (h : ∀ x ∈ l, p x = false) : l.filter p = [] := by
  rw [List.filter_eq_nil_iff]; intro x hx; rw [h x hx]; exact Bool.false_ne_true

theorem filter_all {α : Type} {p : α → Bool} {l : List α} (h : ∀ x ∈ l, p x = true) : l.filter p = l :=
  List.filter_eq_self.2 h

/-- The writes of a call that returns to the variable of an argument. -/
theorem parse_writes {scan : Str → Option D} {st : State D} {argv : List Str} (h : Ready scan st argv)
    {evs : List Event} (hl : Line st.sig st.places (argv.drop 1) evs none)
    (hok : (st.parseArguments scan argv).2 = .ok ()) {s : Slot D} (hs : s ∈ st.arguments)
    {d : Dest} (hd : s.arg.dest = some d) (hown : OwnSlot st s d) :
    ∃ s' log, (st.parseArguments scan argv).1.atObj s.obj = some s' ∧ s'.arg.type = s.arg.type ∧
      s'.arg.dest = some d ∧ s'.arg.dflt = s.arg.dflt ∧ s'.arg.nargs = s.arg.nargs ∧ (d.custom = true ∨ d.supported = true) ∧
      (st.parseArguments scan argv).1.destLog = st.destLog ++ log ∧ writesTo d.slot log = s'.arg.toDest.1 := by
  have hi := h.inv
  obtain ⟨h1, _, h3⟩ := parse_result h hl hok
  have hcfg : ∀ t : Slot D, ((t.arg.afterTokens t.node evs).finished scan).config = t.arg.config := fun t =>
    (Argument.finish_config scan _).trans (afterTokens_config t.node evs t.arg)
  refine ⟨_, _, parse_atObj h hl hok hs, (congrArg (fun x : Argument D => x.type) (hcfg s) :),
    (congrArg (fun x : Argument D => x.dest) (hcfg s) :).trans hd, (congrArg (fun x : Argument D => x.dflt) (hcfg s) :),
    (congrArg (fun x : Argument D => x.nargs) (hcfg s) :), (passes_of hi hs hl (h1 s hs)).dest d hd, by rw [h3], ?_⟩
  unfold writesTo
  rw [List.filter_flatMap]
  have other : ∀ t ∈ st.arguments, t.node ≠ s.node →
      (((t.arg.afterTokens t.node evs).finish scan).2.1.filter fun w => w.slot == d.slot) = [] := by
    intro t ht hne
    refine filter_none fun w hw => ?_
    rw [finish_writes scan _ (h1 t ht)] at hw
    obtain ⟨d', e1, e2⟩ := toDest_slot _ w hw
    have e1 : t.arg.dest = some d' := ((congrArg (fun x : Argument D => x.dest) (hcfg t) :).symm.trans e1)
    have := hown t ht hne d' e1
    rw [e2]
    simpa using this
  have self : (((s.arg.afterTokens s.node evs).finish scan).2.1.filter fun w => w.slot == d.slot) =
      ((s.arg.afterTokens s.node evs).finished scan).toDest.1 := by
    rw [finish_writes scan _ (h1 s hs)]
    refine filter_all fun w hw => ?_
    obtain ⟨d', e1, e2⟩ := toDest_slot _ w hw
    have e1 : s.arg.dest = some d' := ((congrArg (fun x : Argument D => x.dest) (hcfg s) :).symm.trans e1)
    rw [hd] at e1
    cases e1
    rw [e2]; simp
  rw [← self]
  have hnd : (st.arguments.map (·.node)).Nodup := hi.nodes
  clear h1 h3 hok
  revert hs other hnd
  generalize st.arguments = l
  intro hs other hnd
  induction l with
  | nil => cases hs
  | cons t l ih =>
    rw [List.map_cons, List.nodup_cons] at hnd
    rw [List.flatMap_cons]
    rcases List.mem_cons.1 hs with rfl | hs
    · rw [show (l.flatMap fun x => ((x.arg.afterTokens x.node evs).finish scan).2.1.filter fun w => w.slot == d.slot) = [] by
        rw [List.flatMap_eq_nil_iff]
        intro t ht
        exact other t (by simp [ht]) fun e => hnd.1 (List.mem_map.2 ⟨t, ht, e⟩)]
      rw [List.append_nil]
    · rw [other t (by simp) fun e => hnd.1 (List.mem_map.2 ⟨s, hs, e.symm⟩), List.nil_append]
      exact ih hs (fun t ht => other t (by simp [ht])) hnd.2

theorem fit_single {n : Nat} {k : Ty} (hk : ¬SingleKind k) {vals : Values} (hf : ValuesFit n k vals) :
    ∀ v, vals ≠ .single v := by
  rintro v rfl
  cases hf with
  | single v h => exact hk h

theorem take_argument {a : Argument D} {vals : Values} (h : ∀ v, vals ≠ .single v) : (a.take vals).argument = a.argument := by
  have hc : a.clearIfFirst.argument = a.argument := by unfold Argument.clearIfFirst; split <;> rfl
  cases vals with
  | single v => exact absurd rfl (h v)
  | nothing => rfl
  | list vs =>
    unfold Argument.take
    simp only
    split <;> first | exact hc | rfl
  | groups gs => exact hc

theorem runValid_argument {a : Argument D} (h : ¬SingleKind a.type) : a.runValid.1.argument = a.argument := by
  unfold Argument.runValid
  unfold SingleKind at h
  cases a.valid with
  | none => rfl
  | some v =>
    simp only
    split
    · split
      · rfl
      · rfl
      · rfl
      · split <;> first | rfl | (exfalso; simp_all)
    · rfl

/-- The text of an argument of a list, grouped or valueless kind is its default text. -/
theorem finished_argument {st : State D} {full : Prop} (hi : GInv full st) {s : Slot D} (hs : s ∈ st.arguments) (scan : Str → Option D)
    {ts : List Str} {evs : List Event} {err : Option Exn} (hl : Line st.sig st.places ts evs err)
    (hk : ¬SingleKind s.arg.type) : ((s.arg.afterTokens s.node evs).finished scan).argument = s.arg.dflt := by
  have htyT : (s.arg.afterTokens s.node evs).type = s.arg.type :=
    (congrArg (fun x : Argument D => x.type) (afterTokens_config s.node evs s.arg) :)
  have h1 : ((s.arg.afterTokens s.node evs).finished scan).argument = (s.arg.afterTokens s.node evs).argument := by
    have := runValid_argument (a := s.arg.afterTokens s.node evs) (by rw [htyT]; exact hk)
    unfold Argument.finished Argument.finish
    generalize (s.arg.afterTokens s.node evs).runValid = r at this
    obtain ⟨a1, r⟩ := r
    cases r with
    | ok u => exact (toNumber_marks scan a1).2.2.1.trans this
    | _ => exact this
  rw [h1]
  cases hp : s.arg.isPositional with
  | false =>
    rw [afterTokens_option hi hs hp hl]
    have hfit := (option_uses hi hs hp hl).2
    have : ∀ us : List (Bool × Values), (∀ u ∈ us, ValuesFit s.arg.nargs s.arg.type u.2) →
        (s.arg.reset.occurs us).argument = s.arg.dflt := by
      intro us
      induction us using list_snoc_induction with
      | hn => intro _; rfl
      | hs us u ih =>
        intro hf
        rw [occurs_concat, (occur_take u.1 u.2 _).1, take_argument (fit_single hk (hf u (by simp)))]
        have : ∀ b : Bool, (if b = true then (s.arg.reset.occurs us).mark else s.arg.reset.occurs us).argument =
            (s.arg.reset.occurs us).argument := by intro b; cases b <;> rfl
        rw [this]
        exact ih fun v hv => hf v (by simp [hv])
    exact this _ fun u hu => (hfit u hu).1
  | true =>
    rcases afterTokens_positional hi hs hp hl with ⟨_, h2⟩ | ⟨vals, _, hfit, h2⟩
    · rw [h2]; rfl
    · rw [h2]
      cases vals with
      | single v => exact absurd rfl (fit_single hk hfit v)
      | _ => rfl

/-- C48. A call that returns writes a scalar destination exactly once: with the boolean of a boolean option,
with the value of a single-value argument, and with the default text of a list or grouped argument (its
values never reach a scalar destination). A custom conversion is called exactly once instead. -/
theorem C48_scalar {scan : Str → Option D} {st : State D} {argv : List Str} (h : Ready scan st argv)
    {evs : List Event} (hl : Line st.sig st.places (argv.drop 1) evs none)
    (hok : (st.parseArguments scan argv).2 = .ok ()) {s : Slot D} (hs : s ∈ st.arguments)
    {d : Dest} (hd : s.arg.dest = some d) (hown : OwnSlot st s d) (hkind : d.kind = .scalar) :
    ∃ s' log x, (st.parseArguments scan argv).1.atObj s.obj = some s' ∧
      (st.parseArguments scan argv).1.destLog = st.destLog ++ log ∧
      (writesTo d.slot log =
        if d.custom = true then [.callScalar d.slot s'.arg.isExist x]
        else if s.arg.type = .boolean ∨ s.arg.type = .reverse then [.set d.slot (.bool s'.arg.toBool)]
        else [.set d.slot (.str x)]) ∧
      (SingleKind s.arg.type → s'.arg.toVector = some [x]) ∧
      (¬SingleKind s.arg.type → x = s.arg.dflt) := by
  obtain ⟨s', log, h1, h2, h3, h4, _, h5, h6, h7⟩ := parse_writes h hl hok hs hd hown
  refine ⟨s', log, s'.arg.argument, h1, h6, ?_, ?_, ?_⟩
  · rw [h7]
    unfold Argument.toDest
    rw [h3]
    simp only [hkind]
    cases hc : d.custom with
    | true => simp
    | false =>
      have : d.supported = true := by simpa [hc] using h5
      simp only [this, if_true, Bool.false_eq_true, if_false]
      rw [scalarSrc_eq]
      unfold Argument.singleValue
      rw [h2]
      split <;> rfl
  · intro ht
    unfold Argument.toVector
    rw [h2]
    rcases ht with e | e <;> rw [e]
  · intro ht
    have := parse_atObj h hl hok hs
    rw [h1] at this
    rw [Option.some.inj this]
    exact finished_argument h.inv hs scan hl ht

theorem elems_nil_map {l : List (Elem D)} : l.isEmpty = true ↔ l = [] := List.isEmpty_iff

theorem list_strings {a b : Argument D} (h2 : b.type = a.type) (ht : ListKind a.type) (hsh : Shaped b) {vs : List Str}
    (hvs : b.toVector = some vs) (hne : vs ≠ []) :
    b.groupedStrings = (vs.map fun v => [v]) ∧ b.flatStrings = vs ∧ b.elems.isEmpty = false := by
  have hsub := hsh.list (h2 ▸ ht)
  have e1 : b.elems.map (·.argument) = vs := by
    unfold Argument.toVector at hvs
    rw [h2] at hvs
    rcases ht with e | e | e | e | e | e <;> rw [e] at hvs <;> simpa using hvs
  have e2 : b.groupedStrings = vs.map fun v => [v] := by
    unfold Argument.groupedStrings
    rw [← e1, List.map_map]
    refine List.map_congr_left fun e he => ?_
    simp [hsub e he]
  refine ⟨e2, ?_, ?_⟩
  · have : b.flatStrings = b.groupedStrings.flatten := rfl
    rw [this, e2]
    clear hne hvs e1 e2 this
    induction vs with
    | nil => rfl
    | cons v vs ih => simp [ih]
  · cases he : b.elems with
    | nil => rw [he] at e1; exact absurd e1.symm hne
    | cons => rfl

theorem group_strings {a b : Argument D} (hset : Settled a) (hn : b.nargs = a.nargs) (h2 : b.type = a.type)
    (ht : GroupKind a.type) (hsh : Shaped b) {gs : List (List Str)}
    (hgs : b.toVecVec = some gs) (hne : gs ≠ []) :
    b.groupedStrings = gs ∧ b.flatStrings = gs.flatten ∧ b.elems.isEmpty = false := by
  have hsub := hsh.groups (h2 ▸ ht)
  have hpos : 0 < b.nargs := by
    rw [hn]
    obtain ⟨act, n, hset⟩ := hset
    unfold GroupKind at ht
    generalize a.type = k at *
    generalize a.nargs = m at *
    generalize a.isPositional = p at *
    unfold kindOf at hset
    cases p <;> cases act <;> simp only [Bool.false_eq_true, if_false, if_true] at hset <;> grind
  have e1 : b.elems.map (fun e => e.subs.map (·.argument)) = gs := by
    unfold Argument.toVecVec at hgs
    rw [h2] at hgs
    rcases ht with e | e | e <;> rw [e] at hgs <;> simpa using hgs
  have e2 : b.groupedStrings = gs := by
    unfold Argument.groupedStrings
    rw [← e1]
    refine List.map_congr_left fun e he => ?_
    have := hsub e he
    cases hsb : e.subs with
    | nil => rw [hsb] at this; simp at this; omega
    | cons => simp
  refine ⟨e2, ?_, ?_⟩
  · have : b.flatStrings = b.groupedStrings.flatten := rfl
    rw [this, e2]
  · cases he : b.elems with
    | nil => rw [he] at e1; exact absurd e1.symm hne
    | cons => rfl

/-- C49. A call that returns appends to a vector destination exactly the strings of the argument, in order
(one conversion of the single value when the argument has no list), and to a vector-of-vectors destination
one vector per string or per group. -/
theorem C49_vector {scan : Str → Option D} {st : State D} {argv : List Str} (h : Ready scan st argv)
    {evs : List Event} (hl : Line st.sig st.places (argv.drop 1) evs none)
    (hok : (st.parseArguments scan argv).2 = .ok ()) {s : Slot D} (hs : s ∈ st.arguments)
    {d : Dest} (hd : s.arg.dest = some d) (hown : OwnSlot st s d) (hc : d.custom = false) :
    ∃ s' log, (st.parseArguments scan argv).1.atObj s.obj = some s' ∧
      (st.parseArguments scan argv).1.destLog = st.destLog ++ log ∧
      -- no list: the single value
      (s'.arg.elems = [] →
        (d.kind = .vector → writesTo d.slot log = [.append d.slot s'.arg.singleValue]) ∧
        (d.kind = .vecvec → writesTo d.slot log = [.appendVec d.slot [s'.arg.singleValue]])) ∧
      -- a list of strings
      (ListKind s.arg.type → Shaped s'.arg → ∀ vs, s'.arg.toVector = some vs → vs ≠ [] →
        (d.kind = .vector → writesTo d.slot log = vs.map fun v => .append d.slot (.temp v)) ∧
        (d.kind = .vecvec → writesTo d.slot log = vs.map fun v => .appendVec d.slot [.temp v])) ∧
      -- a list of groups
      (GroupKind s.arg.type → Shaped s'.arg → ∀ gs, s'.arg.toVecVec = some gs → gs ≠ [] →
        (d.kind = .vector → writesTo d.slot log = gs.flatten.map fun v => .append d.slot (.temp v)) ∧
        (d.kind = .vecvec → writesTo d.slot log = gs.map fun g => .appendVec d.slot (g.map .temp))) := by
  obtain ⟨s', log, h1, h2, h3, h4, hn, h5, h6, h7⟩ := parse_writes h hl hok hs hd hown
  have hsup : d.supported = true := by simpa [hc] using h5
  refine ⟨s', log, h1, h6, ?_, ?_, ?_⟩
  · intro he
    rw [h7]
    unfold Argument.toDest
    rw [h3, ← scalarSrc_eq]
    refine ⟨fun hk => ?_, fun hk => ?_⟩ <;> simp [hk, hc, hsup, he]
  · intro ht hsh vs hvs hne
    obtain ⟨e2, e3, hne'⟩ := list_strings h2 ht hsh hvs hne
    rw [h7]
    unfold Argument.toDest
    rw [h3]
    refine ⟨fun hk => ?_, fun hk => ?_⟩
    · simp only [hk, hc, hsup, hne', e3, if_true, Bool.false_eq_true, if_false]
    · simp only [hk, hc, hsup, hne', e2, if_true, Bool.false_eq_true, if_false, List.map_map]
      rfl
  · intro ht hsh gs hgs hne
    obtain ⟨e2, e3, hne'⟩ := group_strings (h.settled s hs) hn h2 ht hsh hgs hne
    rw [h7]
    unfold Argument.toDest
    rw [h3]
    refine ⟨fun hk => ?_, fun hk => ?_⟩
    · simp only [hk, hc, hsup, hne', e3, if_true, Bool.false_eq_true, if_false]
    · simp only [hk, hc, hsup, hne', e2, if_true, Bool.false_eq_true, if_false]

/-- C49, custom conversions. A call that returns calls the conversion given with a vector destination exactly once, after
all values are final, with the occurrence flag and exactly the strings of the argument (its groups, for a destination
of vectors); an argument without list gives its text alone. -/
theorem C49_callback {scan : Str → Option D} {st : State D} {argv : List Str} (h : Ready scan st argv)
    {evs : List Event} (hl : Line st.sig st.places (argv.drop 1) evs none)
    (hok : (st.parseArguments scan argv).2 = .ok ()) {s : Slot D} (hs : s ∈ st.arguments)
    {d : Dest} (hd : s.arg.dest = some d) (hown : OwnSlot st s d) (hc : d.custom = true) :
    ∃ s' log, (st.parseArguments scan argv).1.atObj s.obj = some s' ∧
      (st.parseArguments scan argv).1.destLog = st.destLog ++ log ∧
      (s'.arg.elems = [] →
        (d.kind = .vector → writesTo d.slot log = [.callVector d.slot s'.arg.isExist [s'.arg.argument]]) ∧
        (d.kind = .vecvec → writesTo d.slot log = [.callVecVec d.slot s'.arg.isExist [[s'.arg.argument]]])) ∧
      (ListKind s.arg.type → Shaped s'.arg → ∀ vs, s'.arg.toVector = some vs → vs ≠ [] →
        (d.kind = .vector → writesTo d.slot log = [.callVector d.slot s'.arg.isExist vs]) ∧
        (d.kind = .vecvec → writesTo d.slot log = [.callVecVec d.slot s'.arg.isExist (vs.map fun v => [v])])) ∧
      (GroupKind s.arg.type → Shaped s'.arg → ∀ gs, s'.arg.toVecVec = some gs → gs ≠ [] →
        (d.kind = .vector → writesTo d.slot log = [.callVector d.slot s'.arg.isExist gs.flatten]) ∧
        (d.kind = .vecvec → writesTo d.slot log = [.callVecVec d.slot s'.arg.isExist gs])) := by
  obtain ⟨s', log, h1, h2, h3, h4, hn, h5, h6, h7⟩ := parse_writes h hl hok hs hd hown
  refine ⟨s', log, h1, h6, ?_, ?_, ?_⟩
  · intro he
    rw [h7]
    unfold Argument.toDest
    rw [h3]
    refine ⟨fun hk => ?_, fun hk => ?_⟩ <;> simp [hk, hc, he]
  · intro ht hsh vs hvs hne
    obtain ⟨e2, e3, hne'⟩ := list_strings h2 ht hsh hvs hne
    rw [h7]
    unfold Argument.toDest
    rw [h3]
    refine ⟨fun hk => ?_, fun hk => ?_⟩ <;> simp [hk, hc, hne', e2, e3]
  · intro ht hsh gs hgs hne
    obtain ⟨e2, e3, hne'⟩ := group_strings (h.settled s hs) hn h2 ht hsh hgs hne
    rw [h7]
    unfold Argument.toDest
    rw [h3]
    refine ⟨fun hk => ?_, fun hk => ?_⟩ <;> simp [hk, hc, hne', e2, e3]

/-- A grouped option and a list with custom conversions. -/
example :
    let st := runOps demoScan parser [.dest 6 ⟨0, .vecvec, true, true, fun _ => none⟩, .dest 4 ⟨1, .vector, true, false, fun _ => none⟩];
    (Ready demoScan st parserLine ∧ (st.parseArguments demoScan parserLine).2 = .ok () ∧
    (st.parseArguments demoScan parserLine).1.destLog =
      [.callVecVec 0 true [["e".toList, "f".toList], ["i".toList, "j".toList]],
       .callVector 1 true ["x".toList, "y".toList]]) :=
  ⟨.of_history (reachableBy_runOps parser_history _ (by decide +kernel)) (by decide +kernel) (by decide)
    ⟨"prog".toList, rfl, by decide +kernel⟩, by decide +kernel, by decide +kernel⟩

/-! ### Concrete cases

The hypotheses of the theorems above are met by the reference parser and its variants. -/

/-- Executable form of `Passes`. -/
def passesB (evs : List Event) (s : Slot Unit) : Bool :=
  (match s.arg.valid with
    | none => true
    | some v => !decide (Occurs s.node evs) || (!Reader.valueless s.arg.type &&
      match v.check (s.arg.given (uses s.node evs) (fills s.node evs)) with | .accept _ => true | _ => false)) &&
  (match s.arg.dest with | none => true | some d => d.custom || d.supported)

theorem passes_of_bool {evs : List Event} {s : Slot Unit} (h : passesB evs s = true) : Passes s evs := by
  unfold passesB at h
  rw [Bool.and_eq_true] at h
  refine ⟨fun v hv ho => ?_, fun d hd => ?_⟩
  · have h1 := h.1
    rw [hv] at h1
    simp only [ho, decide_true, Bool.not_true, Bool.false_or, Bool.and_eq_true] at h1
    refine ⟨?_, ?_⟩
    · intro hk
      have : Reader.valueless s.arg.type = true := by
        unfold Reader.valueless
        rcases hk with e | e | e | e | e <;> rw [e] <;> rfl
      rw [this] at h1
      exact Bool.false_ne_true h1.1
    · have h2 := h1.2
      split at h2
      · rename_i out e; exact ⟨out, e⟩
      · cases h2
  · have h2 := h.2
    rw [hd] at h2
    simpa using h2

theorem silent_of {st : State Unit} {evs : List Event} {ref : Nat} (h : (st.atObj ref).isSome = true) (hh : st.helpOption = some ref)
    (ho : ¬Occurs (argOf st ref h).node evs) (hv : st.versionOption = none) : Silent st evs :=
  ⟨⟨argOf st ref h, argOf_mem st ref h, by rw [(State.atObj_some (argOf_at st ref h)).2]; exact hh, ho⟩,
    fun o e => by rw [hv] at e; cases e⟩

theorem parserLine_silent : Silent parser parserSays :=
  silent_of (ref := 9) (by decide +kernel) (by decide +kernel) (by decide +kernel) (by decide +kernel)

/-- A list, cut at a position. -/
theorem cut_at {α : Type} (l : List α) (i : Nat) (h : i < l.length) : l = l.take i ++ l[i] :: l.drop (i + 1) := by
  rw [← List.drop_eq_getElem_cons h, List.take_append_drop]

/-- No callback. -/
def plainDestB (s : Slot Unit) : Bool := match s.arg.dest with | none => true | some d => !d.custom

theorem returning_of_plain {s : Slot Unit} (h : plainDestB s = true) : Returning s := by
  intro d hd hc
  unfold plainDestB at h
  rw [hd] at h
  simp only [hc] at h
  cases h

attribute [local irreducible] parser in
/-- C32: `-v -h`, with the exception. -/
example : let st := runOps demoScan parser [.setHelpException true]
    (st.parseArguments demoScan (["prog", "-v", "-h"].map String.toList)).2 =
      .throw ⟨.help, [], ({ st with binaryName := "prog".toList } : State Unit).getUsage⟩ := by
  intro st
  have h := ready_words [.setHelpException true] ["-v", "-h"] (by decide +kernel)
  have := (C32_help h (h.says (evs := [.option 2 false .nothing, .option 9 false .nothing]) (by decide +kernel))
    (argOf_mem _ 9) (by decide +kernel) (by decide +kernel)).1
  rwa [show (runOps demoScan parser [.setHelpException true]).isHelpException = true by decide +kernel,
    show programName (runOps demoScan parser [.setHelpException true]) ("prog".toList :: ["-v", "-h"].map String.toList) = "prog".toList
      by decide +kernel] at this

attribute [local irreducible] parser in
/-- C32: a parser with a version option; the required argument is missing. -/
example :=
  have h := ready_words [.add ["-V".toList], .action 12 .version, .setVersion "1.0".toList] ["-q", "-V"] (by decide +kernel)
  C32_version h (h.says (evs := [.option 7 false .nothing, .option 12 false .nothing]) (by decide +kernel))
    (argOf_mem _ 9) (by decide +kernel) (by decide +kernel) (argOf_mem _ 12) (by decide +kernel) (by decide +kernel)

attribute [local irreducible] parser in
/-- C33: the required argument of the long line. -/
example := C33_required parserLine_ready parserLine_says parserLine_ok (argOf_mem parser 1) (by decide +kernel)

attribute [local irreducible] parser in
/-- C33: the required argument is missing; it is listed last but one. -/
example :=
  have h := parser_words ["-v"] (by decide +kernel)
  C33_missing h (h.says (evs := [.option 2 false .nothing]) (by decide +kernel))
    (silent_of (ref := 9) (by decide +kernel) (by decide +kernel) (by decide +kernel) (by decide +kernel))
    (cut_at parser.arguments 10 (by decide +kernel)) (by decide +kernel) (by decide +kernel) (by decide +kernel)

/-- C34: a parser with two validators. -/
def checkedOps : List Op :=
  [.valid 0 (some ⟨0, fun vs => if vs = ["2".toList] then .accept ["two".toList] else .reject⟩) true,
   .valid 4 (some ⟨1, fun vs => if vs.length = 2 then .accept vs.reverse else .throwValid "two!".toList⟩) true]

def checked : State Unit := runOps demoScan parser checkedOps

theorem checked_words (ws : List String) (h : decide (ws.length < 1000) = true) :
    Ready demoScan checked ("prog".toList :: ws.map String.toList) := by
  refine ready_words checkedOps ws ?_
  rw [h]
  decide +kernel

/-- The words of the long line. -/
def parserWords : List String :=
  ["-vv", "--out=1", "-o2", "-n", "a", "b", "-l", "x", "y", "-a", "c", "in", "-ad", "-g", "e", "f", "-q",
    "-g", "i", "j", "-e", "p", "q", "-er", "-x", "1", "2", "3", "4", "--", "k", "l"]

section
attribute [local irreducible] parser checked parserWords

theorem checked_ready : Ready demoScan checked ("prog".toList :: parserWords.map String.toList) :=
  checked_words _ (by decide +kernel)

theorem checked_says : Line checked.sig checked.places (("prog".toList :: parserWords.map String.toList).drop 1) parserSays none :=
  checked_ready.says (by decide +kernel)

theorem checked_silent : Silent checked parserSays :=
  silent_of (ref := 9) (by decide +kernel) (by decide +kernel) (by decide +kernel) (by decide +kernel)

theorem checked_complete : NoneMissing checked parserSays := by unfold NoneMissing; decide +kernel

/-- C34: the long line passes both validators. -/
theorem checked_ok : (checked.parseArguments demoScan ("prog".toList :: parserWords.map String.toList)).2 = .ok () :=
  (C34_accepts_iff checked_ready checked_says checked_silent checked_complete
    (fun s hs => returning_of_plain (List.all_eq_true.1 (by decide +kernel) s hs))).2
    fun s hs => passes_of_bool (List.all_eq_true.1 (by decide +kernel) s hs)

example : Passes (argOf checked 4) parserSays :=
  C34_returned checked_ready checked_says checked_silent checked_complete checked_ok _ (argOf_mem checked 4)

instance (k : Ty) : Decidable (Valueless k) := by unfold Valueless; infer_instance

/-- C34: the list was given `x y`, and its validator reverses it. -/
example := C34_accepted checked_ready checked_says checked_ok (argOf_mem checked 4) (by decide +kernel) (by decide +kernel)

theorem checked_fifth : (checked.arguments[4]'(by decide +kernel)).arg.valid.isSome = true := by decide +kernel

/-- C34: three values for the list. -/
example :=
  have h := checked_words ["in", "-l", "x", "y", "z"] (by decide +kernel)
  C34_rejected h (h.says (evs := [.positional 1 (.single "in".toList),
      .option 4 false (.list (["x", "y", "z"].map String.toList))]) (by decide +kernel))
    (silent_of (ref := 9) (by decide +kernel) (by decide +kernel) (by decide +kernel) (by decide +kernel))
    (by unfold NoneMissing; decide +kernel) (cut_at checked.arguments 4 (by decide +kernel)) 
    (fun s hs => ⟨passes_of_bool (List.all_eq_true.1 (by decide +kernel) s hs), returning_of_plain (List.all_eq_true.1 (by decide +kernel) s hs)⟩)
    (Option.some_get checked_fifth).symm (by decide +kernel) (by decide +kernel)

/-- Executable form of `OwnSlot`. -/
def ownSlotB (st : State Unit) (s : Slot Unit) (n : Nat) : Bool :=
  st.arguments.all fun t => t.node == s.node || match t.arg.dest with | none => true | some d => d.slot != n

theorem own_of_bool {st : State Unit} {s : Slot Unit} {d : Dest} (h : ownSlotB st s d.slot = true) : OwnSlot st s d := by
  intro t ht hne d' hd' e
  have := List.all_eq_true.1 h t ht
  rw [hd'] at this
  simp only [Bool.or_eq_true, beq_iff_eq, hne, false_or, bne_iff_ne] at this
  exact this e

/-- The destination of an argument of a concrete parser. -/
def destOf (s : Slot Unit) (h : s.arg.dest.isSome = true := by decide +kernel) : Dest := s.arg.dest.get h

theorem destOf_eq (s : Slot Unit) (h : s.arg.dest.isSome = true) : s.arg.dest = some (destOf s h) := (Option.some_get h).symm

/-- A parser with destinations: a scalar for `-o`, vectors for `-l` and `-a`, a vector of vectors for `-g`, a callback for
`-x`; references 12 to 16. -/
def writing : State Unit := runOps demoScan parser
  [.dest 0 ⟨0, .scalar, false, true, fun _ => none⟩, .dest 4 ⟨1, .vector, false, true, fun _ => none⟩,
   .dest 5 ⟨2, .vector, false, true, fun _ => none⟩, .dest 6 ⟨3, .vecvec, false, true, fun _ => none⟩,
   .dest 11 ⟨4, .vecvec, true, true, fun _ => none⟩]

theorem writing_ready : Ready demoScan writing ("prog".toList :: parserWords.map String.toList) :=
  ready_words _ _ (by decide +kernel)

attribute [local irreducible] writing

theorem writing_says : Line writing.sig writing.places (("prog".toList :: parserWords.map String.toList).drop 1) parserSays none :=
  writing_ready.says (by decide +kernel)

theorem writing_ok : (writing.parseArguments demoScan ("prog".toList :: parserWords.map String.toList)).2 = .ok () := by decide +kernel

/-- C48: the scalar of `-o`. -/
example := C48_scalar writing_ready writing_says writing_ok (argOf_mem writing 12) (destOf_eq _ (by decide +kernel))
  (own_of_bool (by decide +kernel)) (by decide +kernel)

/-- C49: the vectors of `-l`, `-a` and `-g`. -/
example := C49_vector writing_ready writing_says writing_ok (argOf_mem writing 13) (destOf_eq _ (by decide +kernel))
  (own_of_bool (by decide +kernel)) (by decide +kernel)
example := C49_vector writing_ready writing_says writing_ok (argOf_mem writing 14) (destOf_eq _ (by decide +kernel))
  (own_of_bool (by decide +kernel)) (by decide +kernel)
example := C49_vector writing_ready writing_says writing_ok (argOf_mem writing 15) (destOf_eq _ (by decide +kernel))
  (own_of_bool (by decide +kernel)) (by decide +kernel)

/-- C49: the callback of `-x`. -/
example := C49_callback writing_ready writing_says writing_ok (argOf_mem writing 16) (destOf_eq _ (by decide +kernel))
  (own_of_bool (by decide +kernel)) (by decide +kernel)

end

end BletArgs
