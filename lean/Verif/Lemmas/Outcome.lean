import Verif.Lemmas.Unique
import Verif.Spec.Outcome
import Verif.Lemmas.FailInv
/-
From the events of a command line to the arguments after the parse.
-/
namespace BletArgs
open Spec
variable {D : Type} {full : Prop}

/-! ### Nothing overflows and groups are not empty -/

theorem settled_groups {a : Argument D} (h : Settled a) (ht : a.type = .multiNumberInfinite ∨
    a.type = .infiniteNumberPos ∨ a.type = .numberPos) : 0 < a.nargs := by
  obtain ⟨act, n, h⟩ := h
  generalize a.type = k at *
  generalize a.nargs = m at *
  generalize a.isPositional = p at *
  unfold kindOf at h
  cases p <;> cases act <;> simp only [Bool.false_eq_true, if_false, if_true] at h <;>
    grind

theorem Ready.inv {scan : Str → Option D} {st : State D} {argv : List Str} (h : Ready scan st argv) : GInv False st :=
  h.history.choose_spec.inv

theorem Ready.sane {scan : Str → Option D} {st : State D} {argv : List Str} (h : Ready scan st argv) :
    Sane st argv.length :=
  ⟨h.inv, h.small, fun s hs ht => settled_groups (h.settled s hs) ht⟩

/-! ### The beginning of a parse -/

/-- The state in which the tokens are read: nothing occurred, the program name is known. -/
def State.begin (st : State D) (argv : List Str) : State D :=
  { st.resetAll with binaryName := if st.binaryName.isEmpty then argv.headD [] else st.binaryName }

theorem begin_queue (st : State D) (argv : List Str) : (st.begin argv).queue = st.places := by
  unfold State.queue State.places State.begin State.resetAll
  simp only
  generalize st.arguments = l
  induction l with
  | nil => rfl
  | cons s l ih =>
    rw [List.map_cons, List.filter_cons, List.filter_cons]
    have e : Slot.pending { s with arg := s.arg.reset } = s.arg.isPositional := rfl
    rw [e]
    split
    · rw [List.map_cons, List.map_cons, ih]; rfl
    · exact ih

theorem begin_config (st : State D) (argv : List Str) :
    (st.begin argv).config = { st.config with binaryName := (st.begin argv).binaryName } := by
  have := resetAll_config st
  unfold State.begin
  rw [← this]
  rfl

theorem sig_of_config' {st st' : State D} {b : Str} (h : st'.config = { st.config with binaryName := b }) :
    st'.sig = st.sig := by
  have e : ({ st with binaryName := b } : State D).sig = st.sig := rfl
  rw [← e]
  exact sig_of_config h

theorem Sane.of_config' {st st' : State D} {len : Nat} {b : Str} (h : st'.config = { st.config with binaryName := b })
    (hs : Sane st len) : Sane st' len := by
  have : Sane ({ st with binaryName := b } : State D) len :=
    ⟨inv_of_eq hs.inv rfl rfl rfl rfl rfl, hs.small, hs.groups⟩
  exact Sane.of_config (st := { st with binaryName := b }) h this

theorem setBinary_eq {st : State D} {argv : List Str} (hne : argv ≠ []) :
    st.resetAll.setBinaryIfEmpty argv = (st.begin argv, .ok ()) := by
  unfold State.setBinaryIfEmpty State.begin
  have e : st.resetAll.binaryName = st.binaryName := rfl
  rw [e]
  cases argv with
  | nil => exact absurd rfl hne
  | cons p ts =>
    cases hb : st.binaryName.isEmpty with
    | true => simp
    | false => simp [← e]

/-- The token phase of `parseArguments`, for a parser that is ready. -/
theorem parse_tokens {scan : Str → Option D} {st : State D} {argv : List Str} (h : Ready scan st argv) :
    ∃ evs err, Line st.sig st.places (argv.drop 1) evs err ∧
      (∀ x, err = some x → (st.parseArguments scan argv).2 = .throw x) ∧
      (err = none → st.parseArguments scan argv = ((st.begin argv).recordAll evs).afterLoop scan) := by
  obtain ⟨p, hp, hp'⟩ := h.program
  have hne : argv ≠ [] := by rintro rfl; cases hp
  have hauto : st.resetAll.autoHelp = (st.resetAll, .ok true) := by
    unfold State.autoHelp
    have : st.resetAll.helpOption.isNone = false := by
      show st.helpOption.isNone = false
      cases hh : st.helpOption with
      | none => exact absurd hh h.help
      | some _ => rfl
    rw [this]
    rfl
  have hc := begin_config st argv
  have hsane : Sane (st.begin argv) argv.length := Sane.of_config' hc h.sane
  have hbudget : argv.length < (st.begin argv).loopBudget argv := by
    unfold State.loopBudget
    have : argv.length + 1 ≤ (argv.length + 1) * ((st.begin argv).arguments.length + 2) :=
      Nat.le_mul_of_pos_right _ (by omega)
    omega
  have h0 : argv[0]? ≠ some ['-', '-'] := by
    rw [← List.head?_eq_getElem?, hp]
    intro e; cases e; exact hp' rfl
  obtain ⟨evs, err, h1, h2, h3⟩ := tokens_agree hsane hbudget h0
  rw [sig_of_config' hc, begin_queue] at h1
  refine ⟨evs, err, h1, ?_, ?_⟩
  · intro x hx
    have := h2 x hx
    unfold State.parseArguments
    rw [hauto]
    simp only
    rw [setBinary_eq hne]
    simp only
    generalize State.mainLoop argv (endOptionIndex argv) ((st.begin argv).loopBudget argv) 1 (st.begin argv) = r at this ⊢
    obtain ⟨st1, r⟩ := r
    simp only at this
    subst this
    rfl
  · intro hn
    have := h3 hn
    unfold State.parseArguments
    rw [hauto]
    simp only
    rw [setBinary_eq hne]
    simp only
    rw [this]

theorem sane_sized {st : State D} {len : Nat} (h : Sane st len) : Sig.Sized st.sig := by
  intro name e hf hk
  rcases flag_cases h.inv name with ⟨_, h1⟩ | ⟨s, hs, _, _, h1, _⟩
  · rw [h1] at hf; cases hf
  · rw [h1] at hf
    cases hf
    exact h.groups s hs (by rcases hk with hk | hk; exact .inl hk; exact .inr (.inl hk))

theorem sane_places {st : State D} {len : Nat} (h : Sane st len) : PlacesSized st.places := by
  intro p hp hk
  unfold State.places at hp
  rw [List.mem_map] at hp
  obtain ⟨s, hs, rfl⟩ := hp
  exact h.groups s (List.mem_filter.1 hs).1 (by rcases hk with hk | hk; exact .inl hk; exact .inr (.inl hk))

/-- The result of the token phase, given a derivation. -/
theorem parse_of_line {scan : Str → Option D} {st : State D} {argv : List Str} (h : Ready scan st argv)
    {evs : List Event} {err : Option Exn} (hl : Line st.sig st.places (argv.drop 1) evs err) :
    (∀ x, err = some x → (st.parseArguments scan argv).2 = .throw x) ∧
    (err = none → st.parseArguments scan argv = ((st.begin argv).recordAll evs).afterLoop scan) := by
  obtain ⟨evs', err', h1, h2⟩ := parse_tokens h
  obtain ⟨rfl, rfl⟩ := line_unique (sane_sized h.sane) (sane_places h.sane) hl h1
  exact h2

/-! ### What the events make of each argument -/

/-- The effect of an event on the argument stored in list element `id`. -/
def Argument.see (id : Nat) (a : Argument D) : Event → Argument D
  | .option i att vals => if i = id then a.occur att vals else a
  | .positional i vals => if i = id then a.fill vals else a
  | .extra _ => a

theorem record_arguments (st : State D) (ev : Event) :
    (st.record ev).arguments = st.arguments.map fun s => { s with arg := s.arg.see s.node ev } := by
  have id : st.arguments = st.arguments.map fun s => s := by simp
  cases ev with
  | option i att vals =>
    show st.arguments.map _ = _
    refine List.map_congr_left fun s _ => ?_
    unfold Argument.see
    by_cases h : s.node = i
    · subst h; simp
    · have h' : ¬i = s.node := fun e => h e.symm
      simp [h, h']
  | positional i vals =>
    show st.arguments.map _ = _
    refine List.map_congr_left fun s _ => ?_
    unfold Argument.see
    by_cases h : s.node = i
    · subst h; simp
    · have h' : ¬i = s.node := fun e => h e.symm
      simp [h, h']
  | extra w => exact id

theorem recordAll_arguments (st : State D) (evs : List Event) :
    (st.recordAll evs).arguments = st.arguments.map fun s => { s with arg := evs.foldl (Argument.see s.node) s.arg } := by
  induction evs generalizing st with
  | nil => simp [State.recordAll]
  | cons ev evs ih =>
    show ((st.record ev).recordAll evs).arguments = _
    rw [ih, record_arguments, List.map_map]
    rfl

theorem recordAll_additional (st : State D) (evs : List Event) :
    (st.recordAll evs).additional = st.additional ++ extras evs := by
  induction evs generalizing st with
  | nil => simp [State.recordAll, extras]
  | cons ev evs ih =>
    show ((st.record ev).recordAll evs).additional = _
    rw [ih]
    cases ev with
    | option => rfl
    | positional => rfl
    | extra w => simp [State.record, extras]

/-! ### Every event has the values its argument wants -/

theorem takes_fit {stop : Str → Prop} {n : Nat} {k : Ty} {ts rest : List Str} {vals : Values}
    (h : Takes stop n k ts vals rest) : ValuesFit n k vals := by
  cases h with
  | nothing _ h => exact .nothing h
  | one v _ h => exact .single v h
  | oneMore v => exact .one v
  | fixed vs _ h hl => exact .fixed vs h hl
  | fixedMore vs _ hl => exact .group vs hl
  | many vs _ h => exact .many vs h
  | manyGroups gs _ h hg => exact .groups gs h fun g hg' => (hg g hg').1

theorem takesOne_fit {n : Nat} {k : Ty} {v : Str} {vals : Values}
    (h : TakesOne k v vals) : ValuesFit n k vals := by
  cases h with
  | simple => exact .single v (.inl rfl)
  | list _ h =>
    rcases h with rfl | rfl | rfl
    · exact .many _ (.inl rfl)
    · exact .one v
    · exact .many _ (.inr (.inl rfl))

/-- An event that fits the signature. -/
def EventFits (sig : Sig) (queue : List Place) : Event → Prop
  | .option id att vals => ∃ cs e, sig.flag ('-' :: cs) = some e ∧ e.id = id ∧ ValuesFit e.arity e.kind vals ∧
      (att = true → e.kind = .simple ∨ e.kind = .infinite ∨ e.kind = .multi ∨ e.kind = .multiInfinite)
  | .positional id vals => ∃ p ∈ queue, p.id = id ∧ ValuesFit p.arity p.kind vals
  | .extra _ => sig.strict = false

theorem optionReads_fit {sig : Sig} {q : List Place} {stop : Str → Prop} {name fl : Str} {e : Entry} 
    (hf : sig.flag ('-' :: fl) = some e) {att : Bool} {eq : Option Str} (ha : att = true → eq ≠ none) {ts : List Str}
    {evs : List Event} {out : Out} (h : OptionReads stop name e att eq ts evs out) : ∀ ev ∈ evs, EventFits sig q ev := by
  cases h with
  | value _ h =>
    intro ev hev
    rw [List.mem_singleton] at hev
    subst hev
    refine ⟨fl, e, hf, rfl, takesOne_fit h, fun _ => ?_⟩
    revert h
    generalize e.kind = k
    intro h
    cases h with
    | simple => exact .inl rfl
    | list _ h => exact .inr h
  | following h =>
    intro ev hev
    rw [List.mem_singleton] at hev
    subst hev
    exact ⟨fl, e, hf, rfl, takes_fit h, fun e => absurd rfl (ha e)⟩
  | _ => simp

theorem clusterReads_fit {sig : Sig} {q : List Place} {stop : Str → Prop} {eq : Option Str} {ts : List Str} {cs : List Char}
    {evs : List Event} {out : Out} (h : ClusterReads sig stop eq ts cs evs out) : ∀ ev ∈ evs, EventFits sig q ev := by
  induction h with
  | none => simp
  | unknown => simp
  | last hf h => exact optionReads_fit hf (fun e => by cases e) h
  | attached _ hf _ ha h => exact optionReads_fit hf (fun _ e => by cases e) h
  | notLast => simp
  | switch _ hf hs _ ih =>
    intro ev hev
    rcases List.mem_cons.1 hev with rfl | hev
    · refine ⟨_, _, hf, rfl, .nothing ?_, fun e => (by cases e)⟩
      rcases hs with h | h
      · exact .inr (.inr (.inr (.inl h)))
      · exact .inr (.inr (.inr (.inr h)))
    · exact ih ev hev

theorem tokenReads_fit {sig : Sig} {q : List Place} {stop : Str → Prop} {tok : Str} {ts : List Str}
    {evs : List Event} {out : Out} (h : TokenReads sig stop tok ts evs out) : ∀ ev ∈ evs, EventFits sig q ev := by
  cases h with
  | long hl hs hf h =>
    obtain ⟨cs, rfl⟩ := long_name hl hs
    exact optionReads_fit hf (fun e => by cases e) h
  | unknownLong => simp
  | alternative _ hs _ hf h => exact optionReads_fit hf (fun e => by cases e) h
  | cluster _ _ _ h => exact clusterReads_fit h

theorem wordReads_fit {sig : Sig} {stop : Str → Prop} {q q1 : List Place} {ts r1 : List Str} {e1 : Event}
    (h1 : WordReads stop sig.strict q ts e1 q1 r1) : EventFits sig q e1 ∧ ∀ p ∈ q1, p ∈ q := by
  cases h1 with
  | fill h => exact ⟨⟨_, List.mem_cons_self, rfl, takes_fit h⟩, fun p hp => List.mem_cons_of_mem _ hp⟩
  | surplus _ _ h => exact ⟨h, fun p hp => hp⟩

theorem EventFits.mono {sig : Sig} {q q' : List Place} (hq : ∀ p ∈ q', p ∈ q) {ev : Event} (h : EventFits sig q' ev) :
    EventFits sig q ev := by
  cases ev with
  | option => exact h
  | positional => obtain ⟨p, hp, h⟩ := h; exact ⟨p, hq p hp, h⟩
  | extra => exact h

theorem reads_fit {sig : Sig} {q q1 : List Place} {ts : List Str} {evs : List Event} {err : Option Exn}
    (h : Reads sig q ts evs q1 err) : (∀ ev ∈ evs, EventFits sig q ev) ∧ ∀ p ∈ q1, p ∈ q := by
  induction h with
  | nil => simp
  | option h _ ih =>
    refine ⟨?_, ih.2⟩
    intro ev hev
    rcases List.mem_append.1 hev with hev | hev
    · exact tokenReads_fit h ev hev
    · exact ih.1 ev hev
  | badOption h => exact ⟨fun ev hev => tokenReads_fit h ev hev, fun p hp => hp⟩
  | word _ h _ ih =>
    obtain ⟨h1, h2⟩ := wordReads_fit h
    refine ⟨?_, fun p hp => h2 p (ih.2 p hp)⟩
    intro ev hev
    rcases List.mem_cons.1 hev with rfl | hev
    · exact h1
    · exact (ih.1 ev hev).mono h2
  | badWord => simp

theorem readsWords_fit {sig : Sig} {strict : Bool} (hstr : strict = sig.strict) {q q1 : List Place} {ts : List Str} {evs : List Event} {err : Option Exn}
    (h : ReadsWords strict q ts evs q1 err) : (∀ ev ∈ evs, EventFits sig q ev) ∧ ∀ p ∈ q1, p ∈ q := by
  induction h with
  | nil => simp
  | word h _ ih =>
    rw [hstr] at h
    obtain ⟨h1, h2⟩ := wordReads_fit h
    refine ⟨?_, fun p hp => h2 p (ih.2 p hp)⟩
    intro ev hev
    rcases List.mem_cons.1 hev with rfl | hev
    · exact h1
    · exact (ih.1 ev hev).mono h2
  | badWord => simp

theorem line_fit {sig : Sig} {q : List Place} {ts : List Str} {evs : List Event} {err : Option Exn}
    (h : Line sig q ts evs err) : ∀ ev ∈ evs, EventFits sig q ev := by
  cases h with
  | whole _ h => exact (reads_fit h).1
  | splitBad _ h => exact (reads_fit h).1
  | split _ h h' =>
    intro ev hev
    rcases List.mem_append.1 hev with hev | hev
    · exact (reads_fit h).1 ev hev
    · exact ((readsWords_fit rfl h').1 ev hev).mono (reads_fit h).2

/-! ### Each positional argument is filled at most once, in order -/

/-- The positional events of a list, in order. -/
def filled (evs : List Event) : List Nat :=
  evs.filterMap fun
    | .positional i _ => some i
    | _ => none

theorem filled_append (a b : List Event) : filled (a ++ b) = filled a ++ filled b := by
  unfold filled; rw [List.filterMap_append]

theorem filled_cons (ev : Event) (evs : List Event) : filled (ev :: evs) = filled [ev] ++ filled evs :=
  filled_append [ev] evs

theorem filled_tokens {evs : List Event} (h : ∀ ev ∈ evs, ∃ i a v, ev = .option i a v) :
    filled evs = [] := by
  unfold filled
  rw [List.filterMap_eq_nil_iff]
  intro ev hev
  obtain ⟨i, a, v, rfl⟩ := h ev hev
  rfl

theorem wordReads_filled {stop : Str → Prop} {strict : Bool} {q q1 : List Place} {ts r1 : List Str} {e1 : Event}
    (h1 : WordReads stop strict q ts e1 q1 r1) : filled [e1] ++ q1.map (·.id) = q.map (·.id) := by
  cases h1 <;> rfl

theorem reads_filled {sig : Sig} {q q1 : List Place} {ts : List Str} {evs : List Event} {err : Option Exn}
    (h : Reads sig q ts evs q1 err) : filled evs ++ q1.map (·.id) = q.map (·.id) := by
  induction h with
  | nil => rfl
  | option h _ ih =>
    rw [filled_append, filled_tokens, List.nil_append, ih]
    intro ev hev
    obtain ⟨_, e, a, v, _, h⟩ := tokenReads_events h ev hev
    exact ⟨_, a, v, h⟩
  | badOption h =>
    rw [filled_tokens, List.nil_append]
    intro ev hev
    obtain ⟨_, e, a, v, _, h⟩ := tokenReads_events h ev hev
    exact ⟨_, a, v, h⟩
  | word _ h _ ih =>
    rw [filled_cons, List.append_assoc, ih, wordReads_filled h]
  | badWord => rfl

theorem readsWords_filled {strict : Bool} {q q1 : List Place} {ts : List Str} {evs : List Event} {err : Option Exn}
    (h : ReadsWords strict q ts evs q1 err) : filled evs ++ q1.map (·.id) = q.map (·.id) := by
  induction h with
  | nil => rfl
  | word h _ ih =>
    rw [filled_cons, List.append_assoc, ih, wordReads_filled h]
  | badWord => rfl

theorem line_filled {sig : Sig} {q : List Place} {ts : List Str} {evs : List Event} {err : Option Exn}
    (h : Line sig q ts evs err) : ∃ q1 : List Place, filled evs ++ q1.map (·.id) = q.map (·.id) := by
  cases h with
  | whole _ h => exact ⟨_, reads_filled h⟩
  | splitBad _ h => exact ⟨_, reads_filled h⟩
  | split _ h h' =>
    have e1 := reads_filled h
    rw [← readsWords_filled h', ← List.append_assoc, ← filled_append] at e1
    exact ⟨_, e1⟩

end BletArgs

namespace BletArgs
open Spec
variable {D : Type}

/-! ### The arguments after the token phase -/

theorem see_uses {n : Nat} {evs : List Event} (h : ∀ i v, .positional i v ∈ evs → i ≠ n) (a : Argument D) :
    evs.foldl (Argument.see n) a = (uses n evs).foldl (fun a u => a.occur u.1 u.2) a := by
  induction evs generalizing a with
  | nil => rfl
  | cons ev evs ih =>
    rw [List.foldl_cons, ih fun i v hm => h i v (List.mem_cons_of_mem _ hm)]
    cases ev with
    | option i att vals =>
      by_cases e : i = n
      · simp [uses, Argument.see, e]
      · simp [uses, Argument.see, e]
    | positional i vals =>
      have := h i vals List.mem_cons_self
      simp [uses, Argument.see, this]
    | extra w => simp [uses, Argument.see]

theorem see_fills {n : Nat} {evs : List Event} (h : ∀ i a v, .option i a v ∈ evs → i ≠ n) (a : Argument D) :
    evs.foldl (Argument.see n) a = (fills n evs).foldl (fun a v => a.fill v) a := by
  induction evs generalizing a with
  | nil => rfl
  | cons ev evs ih =>
    rw [List.foldl_cons, ih fun i a v hm => h i a v (List.mem_cons_of_mem _ hm)]
    cases ev with
    | option i att vals =>
      have := h i att vals List.mem_cons_self
      simp [fills, Argument.see, this]
    | positional i vals =>
      by_cases e : i = n
      · simp [fills, Argument.see, e]
      · simp [fills, Argument.see, e]
    | extra w => simp [fills, Argument.see]

theorem mem_uses {n : Nat} {evs : List Event} {att : Bool} {vals : Values} :
    (att, vals) ∈ uses n evs ↔ .option n att vals ∈ evs := by
  unfold uses
  rw [List.mem_filterMap]
  constructor
  · rintro ⟨ev, hev, h⟩
    cases ev with
    | option i a v =>
      simp only at h
      split at h
      · rename_i e; subst e; cases h; exact hev
      · cases h
    | _ => cases h
  · intro h
    exact ⟨_, h, by simp⟩

theorem mem_fills {n : Nat} {evs : List Event} {vals : Values} :
    vals ∈ fills n evs ↔ .positional n vals ∈ evs := by
  unfold fills
  rw [List.mem_filterMap]
  constructor
  · rintro ⟨ev, hev, h⟩
    cases ev with
    | positional i v =>
      simp only at h
      split at h
      · rename_i e; subst e; cases h; exact hev
      · cases h
    | _ => cases h
  · intro h
    exact ⟨_, h, by simp⟩

theorem fills_length_aux (n : Nat) (evs : List Event) : (fills n evs).length = (filled evs).countP (· = n) := by
  induction evs with
  | nil => rfl
  | cons ev evs ih =>
    cases ev with
    | positional i v =>
      by_cases e : i = n
      · simp only [fills, filled] at ih ⊢
        simp [e, ih]
      · simp only [fills, filled] at ih ⊢
        simp [e, ih]
    | option i a v => simpa [fills, filled] using ih
    | extra w => simpa [fills, filled] using ih

/-- An option slot of a consistent parser: the events of its id are option occurrences that fit it. -/
theorem option_uses {st : State D} (hi : GInv full st) {s : Slot D} (hs : s ∈ st.arguments) (hp : s.arg.isPositional = false)
    {ts : List Str} {evs : List Event} {err : Option Exn} (hl : Line st.sig st.places ts evs err) :
    (∀ i v, .positional i v ∈ evs → i ≠ s.node) ∧
    ∀ u ∈ uses s.node evs, ValuesFit s.arg.nargs s.arg.type u.2 ∧
      (u.1 = true → s.arg.type = .simple ∨ s.arg.type = .infinite ∨ s.arg.type = .multi ∨ s.arg.type = .multiInfinite) := by
  have hf := line_fit hl
  constructor
  · intro i v hm e
    obtain ⟨p, hp', h1, _⟩ := hf _ hm
    unfold State.places at hp'
    rw [List.mem_map] at hp'
    obtain ⟨t, ht, rfl⟩ := hp'
    rw [List.mem_filter] at ht
    have : t = s := eq_of_node hi hs ht.1 (h1.trans e)
    rw [this, hp] at ht
    cases ht.2
  · rintro ⟨att, vals⟩ hu
    obtain ⟨cs, e, h1, h2, h3, h4⟩ := hf _ (mem_uses.1 hu)
    rcases flag_cases hi ('-' :: cs) with ⟨_, h⟩ | ⟨t, ht, _, _, h, _⟩
    · rw [h] at h1; cases h1
    · rw [h] at h1
      cases h1
      have : t = s := eq_of_node hi hs ht h2
      subst this
      exact ⟨h3, h4⟩

theorem positional_fills {st : State D} (hi : GInv full st) {s : Slot D} (hs : s ∈ st.arguments) (hp : s.arg.isPositional = true)
    {ts : List Str} {evs : List Event} {err : Option Exn} (hl : Line st.sig st.places ts evs err) :
    (∀ i a v, .option i a v ∈ evs → i ≠ s.node) ∧ (fills s.node evs).length ≤ 1 ∧
    ∀ vals ∈ fills s.node evs, ValuesFit s.arg.nargs s.arg.type vals := by
  have hf := line_fit hl
  refine ⟨?_, ?_, ?_⟩
  · intro i a v hm e
    obtain ⟨cs, e', h1, h2, _⟩ := hf _ hm
    rcases flag_cases hi ('-' :: cs) with ⟨_, h⟩ | ⟨t, ht, _, _, h, hn⟩
    · rw [h] at h1; cases h1
    · rw [h] at h1
      cases h1
      have : t = s := eq_of_node hi hs ht (h2.trans e)
      subst this
      rw [dashed_option hi hs hn] at hp
      cases hp
  · obtain ⟨q1, hq⟩ := line_filled hl
    have hnd : (st.places.map (·.id)).Nodup := by
      have h1 : st.places.map (·.id) = (st.arguments.filter fun s => s.arg.isPositional).map (·.node) := by
        unfold State.places; rw [List.map_map]; rfl
      rw [h1]
      exact hi.nodes.sublist (List.filter_sublist.map _)
    rw [← hq, List.nodup_append] at hnd
    rw [fills_length_aux]
    have := List.nodup_iff_count.1 hnd.1 s.node
    rw [List.count] at this
    have e : (filled evs).countP (· = s.node) = (filled evs).countP (· == s.node) := by
      congr 1
    rw [e]; exact this
  · intro vals hv
    obtain ⟨p, hp', h1, h2⟩ := hf _ (mem_fills.1 hv)
    unfold State.places at hp'
    rw [List.mem_map] at hp'
    obtain ⟨t, ht, rfl⟩ := hp'
    have : t = s := eq_of_node hi hs (List.mem_filter.1 ht).1 h1
    subst this
    exact h2

end BletArgs
