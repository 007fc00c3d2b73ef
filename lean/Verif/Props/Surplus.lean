import Verif.Spec.Surplus
import Verif.Props.Extend
import Verif.Props.Listing
import Verif.Props.Order
import Verif.Props.Strict
import Verif.Props.Values
/-
C102: a new positional argument takes the first surplus word, and nothing else changes.
-/
namespace BletArgs
open Spec
variable {D : Type}

/-! ### Readings with one more place -/

theorem givenTo_none {id : Nat} {evs : List Event} (h : extras evs = []) : givenTo id evs = evs := by
  induction evs with
  | nil => rfl
  | cons ev evs ih =>
    cases ev with
    | extra w => simp [extras] at h
    | _ =>
      show _ :: givenTo id evs = _
      rw [ih (by simpa [extras] using h)]

theorem givenTo_append_none {id : Nat} {evs evs' : List Event} (h : extras evs = []) :
    givenTo id (evs ++ evs') = evs ++ givenTo id evs' := by
  induction evs with
  | nil => rfl
  | cons ev evs ih =>
    cases ev with
    | extra w => simp [extras] at h
    | _ =>
      show _ :: givenTo id (evs ++ evs') = _
      rw [ih (by simpa [extras] using h)]
      rfl

theorem givenTo_append_some {id : Nat} {evs evs' : List Event} (h : extras evs ≠ []) :
    givenTo id (evs ++ evs') = givenTo id evs ++ evs' := by
  induction evs with
  | nil => exact absurd rfl h
  | cons ev evs ih =>
    cases ev with
    | extra w => rfl
    | _ =>
      show _ :: givenTo id (evs ++ evs') = _
      rw [ih (by simpa [extras] using h)]
      rfl

theorem extras_append (evs evs' : List Event) : extras (evs ++ evs') = extras evs ++ extras evs' := by
  unfold extras; rw [List.filterMap_append]

theorem extras_givenTo (id : Nat) (evs : List Event) : extras (givenTo id evs) = (extras evs).drop 1 := by
  induction evs with
  | nil => rfl
  | cons ev evs ih =>
    cases ev with
    | extra w => rfl
    | _ => exact ih

theorem uses_givenTo (id : Nat) (evs : List Event) : ∀ i, uses i (givenTo id evs) = uses i evs := by
  intro i
  induction evs with
  | nil => rfl
  | cons ev evs ih =>
    cases ev with
    | extra w => rfl
    | option j a v =>
      have e : givenTo id (.option j a v :: evs) = .option j a v :: givenTo id evs := rfl
      rw [e]
      unfold uses at *
      rw [List.filterMap_cons, List.filterMap_cons, ih]
    | positional j v => exact ih

theorem fills_givenTo {id : Nat} {evs : List Event} (h : fills id evs = []) :
    fills id (givenTo id evs) = ((extras evs).head?.map Values.single).toList := by
  induction evs with
  | nil => rfl
  | cons ev evs ih =>
    cases ev with
    | extra w =>
      have e : givenTo id (.extra w :: evs) = .positional id (.single w) :: evs := rfl
      rw [e]
      have h' : fills id evs = [] := h
      unfold fills at *
      rw [List.filterMap_cons]
      simp only [if_true]
      rw [h']
      rfl
    | option j a v => exact ih h
    | positional j v =>
      have e : givenTo id (.positional j v :: evs) = .positional j v :: givenTo id evs := rfl
      rw [e]
      by_cases hj : j = id
      · subst hj
        simp [fills] at h
      · unfold fills at *
        rw [List.filterMap_cons] at h ⊢
        simp only [hj, if_false] at h ⊢
        exact ih h

theorem foldl_givenTo (id n : Nat) (h : id ≠ n) (evs : List Event) (a : Argument D) :
    (givenTo id evs).foldl (Argument.see n) a = evs.foldl (Argument.see n) a := by
  induction evs generalizing a with
  | nil => rfl
  | cons ev evs ih =>
    cases ev with
    | extra w =>
      have e : givenTo id (.extra w :: evs) = .positional id (.single w) :: evs := rfl
      rw [e, List.foldl_cons, List.foldl_cons]
      congr 1
      unfold Argument.see
      simp only [h, if_false]
    | _ => exact ih _

/-- The event of a token is never a surplus word. -/
theorem tokenReads_extras {sig : Sig} {stop : Str → Prop} {tok : Str} {ts : List Str} {evs : List Event} {out : Out}
    (h : TokenReads sig stop tok ts evs out) : extras evs = [] := by
  unfold extras
  rw [List.filterMap_eq_nil_iff]
  intro ev hev
  obtain ⟨name, e, _, _, _, he⟩ := tokenReads_events h _ hev
  subst he
  rfl

/-- What a parser that is not strict, or a strict one that finds no surplus word, reads with one more place for one
word. -/
theorem reads_more {sig : Sig} {b : Bool} {p : Place} (hp : p.kind = .pos) {q q1 : List Place} {ts : List Str} {evs : List Event}
    {err : Option Exn} (h : Reads { sig with strict := b } q ts evs q1 err) (herr : ∀ w, b = true → err ≠ some (surplusError w)) :
    (extras evs = [] → Reads sig (q ++ [p]) ts evs (q1 ++ [p]) err) ∧
    (extras evs ≠ [] → (sig.strict = true → (extras evs).length ≤ 1) → Reads sig (q ++ [p]) ts (givenTo p.id evs) [] err ∧ q1 = []) := by
  have stop : ∀ t, OptionForm { sig with strict := b } t ↔ OptionForm sig t :=
    fun t => ⟨optionForm_agree (s := { sig with strict := b }) (s' := sig) rfl fun _ _ => rfl,
      optionForm_agree (s := sig) (s' := { sig with strict := b }) rfl fun _ _ => rfl⟩
  have tok : ∀ {tok : Str} {ts : List Str} {evs : List Event} {out : Out},
      TokenReads { sig with strict := b } (OptionForm { sig with strict := b }) tok ts evs out →
      TokenReads sig (OptionForm sig) tok ts evs out :=
    fun h => tokenReads_agree (s := { sig with strict := b }) (s' := sig) rfl (fun t _ => stop t) (fun _ _ => rfl) h
  -- with no place left on the old side and no new one, nothing changes as long as no word is surplus
  have rest : ∀ {q q1 : List Place} {ts : List Str} {evs : List Event} {err : Option Exn},
      Reads { sig with strict := b } q ts evs q1 err → q = [] → (∀ w, b = true → err ≠ some (surplusError w)) →
      (sig.strict = true → extras evs = []) → Reads sig [] ts evs [] err ∧ q1 = [] := by
    intro q q1 ts evs err h hq herr hs
    induction h with
    | nil => subst hq; exact ⟨.nil _, rfl⟩
    | option h _ ih =>
      obtain ⟨h1, h2⟩ := ih hq herr fun e => by have := hs e; rw [extras_append] at this; exact (List.append_eq_nil_iff.1 this).2
      exact ⟨.option (tok h) h1, h2⟩
    | badOption h => subst hq; exact ⟨.badOption (tok h), rfl⟩
    | word hw h _ ih =>
      cases h with
      | fill => cases hq
      | surplus _ _ hb =>
        have hn : sig.strict = false := by
          rw [← Bool.not_eq_true]; intro e; have := hs e; simp [extras] at this
        obtain ⟨h1, h2⟩ := ih rfl herr fun e => by rw [hn] at e; cases e
        exact ⟨.word hw (.surplus _ _ hn) h1, h2⟩
    | badWord hw h =>
      cases h with
      | missing => cases hq
      | surplus _ _ hb => exact absurd rfl (herr _ hb)
  induction h with
  | nil => exact ⟨fun _ => .nil _, fun h => absurd rfl h⟩
  | option h _ ih =>
    obtain ⟨h1, h2⟩ := ih herr
    have he := tokenReads_extras h
    rw [extras_append, he, List.nil_append, givenTo_append_none he]
    exact ⟨fun e => .option (tok h) (h1 e), fun e e' => ⟨.option (tok h) (h2 e e').1, (h2 e e').2⟩⟩
  | badOption h => exact ⟨fun _ => .badOption (tok h), fun e => absurd (tokenReads_extras h) e⟩
  | word hw h hr ih =>
    cases h with
    | fill h =>
      obtain ⟨h1, h2⟩ := ih herr
      have h := takes_congr (fun t _ => stop t) h
      exact ⟨fun e => .word hw (.fill h) (h1 e), fun e e' => ⟨.word hw (.fill h) (h2 e e').1, (h2 e e').2⟩⟩
    | surplus _ _ hb =>
      refine ⟨fun e => by simp [extras] at e, fun _ hle => ?_⟩
      obtain ⟨g1, g2⟩ := rest hr rfl herr fun e => by
        have := hle e
        simp only [extras, List.filterMap_cons, List.length_cons] at this
        exact List.length_eq_zero_iff.1 (by show (List.filterMap _ _).length = 0; omega)
      exact ⟨.word hw (.fill (.one _ _ (.inr hp))) g1, g2⟩
  | badWord hw h =>
    refine ⟨fun _ => ?_, fun e => absurd rfl e⟩
    cases h with
    | missing h => exact .badWord hw (.missing (tooFew_congr (fun t _ => stop t) h))
    | surplus _ _ hb => exact absurd rfl (herr _ hb)

theorem readsWords_more {b c : Bool} {p : Place} (hp : p.kind = .pos) {q q1 : List Place} {ts : List Str} {evs : List Event}
    {err : Option Exn} (h : ReadsWords b q ts evs q1 err) (herr : ∀ w, b = true → err ≠ some (surplusError w)) :
    ((c = true → (extras evs).length ≤ 1) → ∃ q2, ReadsWords c (q ++ [p]) ts (givenTo p.id evs) q2 err) ∧
    (q = [] → (c = true → extras evs = []) → ∃ q2, ReadsWords c [] ts evs q2 err) := by
  induction h with
  | nil => exact ⟨fun _ => ⟨_, .nil _⟩, fun _ _ => ⟨_, .nil _⟩⟩
  | word h _ ih =>
    obtain ⟨h1, h2⟩ := ih herr
    cases h with
    | fill h =>
      exact ⟨fun e => by obtain ⟨_, g⟩ := h1 e; exact ⟨_, .word (.fill h) g⟩, fun e => by cases e⟩
    | surplus _ _ hb =>
      constructor
      · intro e
        obtain ⟨_, g⟩ := h2 rfl fun ec => by
          have := e ec
          simp only [extras, List.filterMap_cons, List.length_cons] at this
          exact List.length_eq_zero_iff.1 (by show (List.filterMap _ _).length = 0; omega)
        exact ⟨_, .word (.fill (.one _ _ (.inr hp))) g⟩
      · intro _ e
        have hn : c = false := by rw [← Bool.not_eq_true]; intro ec; have := e ec; simp [extras] at this
        obtain ⟨_, g⟩ := h2 rfl fun ec => by rw [hn] at ec; cases ec
        exact ⟨_, .word (.surplus _ _ hn) g⟩
  | badWord h =>
    cases h with
    | missing h => exact ⟨fun _ => ⟨_, .badWord (.missing h)⟩, fun e => by cases e⟩
    | surplus _ _ hb => exact absurd rfl (herr _ hb)

theorem line_more {sig : Sig} {b : Bool} {p : Place} (hp : p.kind = .pos) {q : List Place} {ts : List Str} {evs : List Event}
    {err : Option Exn} (h : Line { sig with strict := b } q ts evs err) (herr : ∀ w, b = true → err ≠ some (surplusError w))
    (hle : sig.strict = true → (extras evs).length ≤ 1) : Line sig (q ++ [p]) ts (givenTo p.id evs) err := by
  cases h with
  | whole hn h =>
    obtain ⟨h1, h2⟩ := reads_more hp h herr
    by_cases e : extras evs = []
    · rw [givenTo_none e]; exact .whole hn (h1 e)
    · exact .whole hn (h2 e hle).1
  | splitBad hn h =>
    obtain ⟨h1, h2⟩ := reads_more hp h herr
    by_cases e : extras evs = []
    · rw [givenTo_none e]; exact .splitBad hn (h1 e)
    · exact .splitBad hn (h2 e hle).1
  | @split ts ts' evs evs' q q' err hn h h' =>
    obtain ⟨h1, h2⟩ := reads_more hp h fun _ _ e => by cases e
    have h' : ReadsWords b q ts' evs' q' err := h'
    rw [extras_append] at hle
    by_cases e : extras evs = []
    · obtain ⟨_, g⟩ := (readsWords_more (c := sig.strict) hp h' herr).1 fun es => by have := hle es; rw [e] at this; exact this
      rw [givenTo_append_none e]
      exact .split hn (h1 e) g
    · have lens : sig.strict = true → (extras evs).length ≤ 1 ∧ extras evs' = [] := by
        intro es
        have := hle es
        rw [List.length_append] at this
        have := List.length_pos_iff.2 e
        exact ⟨by omega, List.length_eq_zero_iff.1 (by omega)⟩
      obtain ⟨g1, g2⟩ := h2 e fun es => (lens es).1
      obtain ⟨_, g⟩ := (readsWords_more (c := sig.strict) hp h' herr).2 g2 fun es => (lens es).2
      rw [givenTo_append_some e]
      exact .split hn g1 g

/-! ### The two parsers -/

/-- `st'` is `st` with one more positional argument `s`, listed last. -/
structure Surplus.Added (st st' : State D) (s : Slot D) : Prop where
  same : (st'.arguments.filter fun t => t.obj != s.obj) = st.arguments
  perm : st'.arguments.Perm (s :: st.arguments)
  self : ∀ t ∈ st'.arguments, t.obj = s.obj → t = s
  arg : ∃ names, s.arg = freshArgument names true
  help : st'.helpOption ≠ some s.obj
  version : st'.versionOption ≠ some s.obj
  places : st'.places = st.places ++ [s.place]
  flag : ∀ cs, st'.sig.flag ('-' :: cs) = st.sig.flag ('-' :: cs)
  settings : SameSettings st st'

theorem places_classes {scan : Str → Option D} {st : State D} (h : Reachable scan st) :
    st.places = (st.arguments.filter (inClass true)).map Slot.place ++ (st.arguments.filter (inClass false)).map Slot.place := by
  have hs := h.inv.sorted
  have hrank : st.arguments.Pairwise fun a b =>
      rank a.arg.isPositional a.arg.isRequired ≤ rank b.arg.isPositional b.arg.isRequired := by
    refine hs.imp fun {a b} hab => ?_
    have hnl : ¬ListedBefore b.arg a.arg := by
      rw [← compareOption_iff]
      simpa [slotLt] using hab
    exact Nat.le_of_not_lt fun hlt => hnl (.inl hlt)
  have h2 := filter_split (fun s : Slot D => s.arg.isRequired)
    (st.arguments.filter fun s => s.arg.isPositional) (by
      refine List.Pairwise.imp_of_mem ?_ (hrank.filter _)
      intro a b ha hb hab
      rw [List.mem_filter] at ha hb
      have e1 : a.arg.isPositional = true := by simpa using ha.2
      have e2 : b.arg.isPositional = true := by simpa using hb.2
      rw [e1, e2] at hab
      revert hab
      cases a.arg.isRequired <;> cases b.arg.isRequired <;> simp [rank])
  unfold State.places
  rw [h2, List.map_append, List.filter_filter, List.filter_filter]
  congr 1
  · refine congrArg _ (List.filter_congr fun s _ => ?_)
    unfold inClass
    cases s.arg.isPositional <;> cases s.arg.isRequired <;> rfl
  · refine congrArg _ (List.filter_congr fun s _ => ?_)
    unfold inClass
    cases s.arg.isPositional <;> cases s.arg.isRequired <;> rfl

theorem Surplus.added {scan : Str → Option D} {st st' : State D} (h : Reachable scan st) {nof : List Str} {ref : Nat}
    (hr : st.addArgument nof = (st', .ok ref)) (ho : asksPositional nof = true) :
    ∃ s, s.obj = ref ∧ Surplus.Added st st' s := by
  obtain ⟨s, names, e1, e2, _, e4, _, e6, e7, e8, e9, e10, e11⟩ := C06_add_effect h hr
  have eref : ref = st.nextObj := by
    have ha := addArgument_outcome h.inv nof
    rw [hr] at ha
    cases ha <;> rfl
  have self : ∀ t ∈ st'.arguments, t.obj = ref → t = s := by
    intro t ht e
    rcases List.mem_cons.1 (e7.mem_iff.1 ht) with rfl | ht
    · rfl
    · exact absurd e (e2 t ht)
  have h' : Reachable scan st' := by
    have hst : st' = (step scan st (.add nof)).1 := by
      show st' = (st.addArgument nof).1
      rw [hr]
    rw [hst]
    refine h.step _ ?_
    show (st.addArgument nof).2.void.goesOn = true
    rw [hr]; rfl
  have old := h.ptrsOld
  have h1 : st'.helpOption = st.helpOption := by rw [e11]
  have h2 : st'.versionOption = st.versionOption := by rw [e11]
  rw [ho] at e4
  refine ⟨s, e1, ⟨by rw [e1]; exact e8, e7, by rw [e1]; exact self, ⟨names, e4⟩, ?_, ?_, ?_, ?_, e11⟩⟩
  · intro e; have := old s.obj (.inl (h1 ▸ e)); omega
  · intro e; have := old s.obj (.inr (h2 ▸ e)); omega
  · have stable := (C11_calls_are_stable h true).2 nof st' ref hr
    have stable' := (C11_calls_are_stable h false).2 nof st' ref hr
    have cls : ∀ r, ((st'.arguments.filter (inClass r)).filter fun t => t.obj != ref) = st.arguments.filter (inClass r) := by
      intro r
      rw [← e8, List.filter_filter, List.filter_filter]
      exact List.filter_congr fun t _ => Bool.and_comm _ _
    have c1 : st'.arguments.filter (inClass true) = st.arguments.filter (inClass true) := by
      rw [← cls true]
      refine (List.filter_eq_self.2 fun t ht => ?_).symm
      rw [List.mem_filter] at ht
      simp only [bne_iff_ne, ne_eq]
      intro e
      obtain rfl := self t ht.1 e
      have := ht.2
      unfold inClass at this
      rw [e4] at this
      cases this
    have c2 : st'.arguments.filter (inClass false) = st.arguments.filter (inClass false) ++ [s] := by
      rw [ho] at stable'
      simp only [Bool.not_false, Bool.and_true, if_true] at stable'
      obtain ⟨l1, l2, a, b, c⟩ := List.map_eq_append_iff.1 stable'
      obtain ⟨x, rfl, ex⟩ := List.map_eq_singleton_iff.1 c
      have hx : x = s := by
        refine self x ?_ ex
        have : x ∈ st'.arguments.filter (inClass false) := by rw [a]; simp
        exact (List.mem_filter.1 this).1
      subst hx
      have := cls false
      rw [a, List.filter_append] at this
      have k1 : (l1.filter fun t => t.obj != ref) = l1 := by
        refine List.filter_eq_self.2 fun t ht => ?_
        simp only [bne_iff_ne, ne_eq]
        have : t.obj ∈ (st.arguments.filter (inClass false)).map (·.obj) := b ▸ List.mem_map_of_mem ht
        obtain ⟨u, hu, eu⟩ := List.mem_map.1 this
        rw [← eu]
        exact e2 u (List.mem_filter.1 hu).1
      rw [k1] at this
      simp only [List.filter_cons, ex, bne_self_eq_false, Bool.false_eq_true, if_false, List.filter_nil, List.append_nil] at this
      rw [a, this]
    rw [places_classes h, places_classes h', c1, c2, List.map_append, List.append_assoc]
    rfl
  · intro cs
    have hn : '-' :: cs ∉ nof := by
      intro hm
      unfold asksPositional at ho
      split at ho
      · simp only [List.mem_singleton] at hm
        subst hm
        simp at ho
      · cases ho
    have hl : st'.getArgument ('-' :: cs) = st.getArgument ('-' :: cs) := by
      rw [e10, if_neg hn]
      rcases C13_lookup h ('-' :: cs) with ⟨h1, _⟩ | ⟨h1, h2⟩
      · rw [if_pos h1]
      · rw [h1, h2]; rfl
    unfold State.getArgument at hl
    rcases flag_cases h.inv ('-' :: cs) with ⟨h1, h2⟩ | ⟨s, hs, h1, h2, h3, _⟩ <;>
      rcases flag_cases h'.inv ('-' :: cs) with ⟨g1, g2⟩ | ⟨t, ht, g1, g2, g3, _⟩
    · rw [h2, g2]
    · rw [g1, h1] at hl
      simp only [g2] at hl
      cases hl
    · rw [g1, h1] at hl
      simp only [h2] at hl
      cases hl
    · rw [g1, h1] at hl
      simp only [h2, g2] at hl
      cases hl
      rw [h3, g3]

theorem Spec.Mentions.dashed {tok f : Str} (h : Mentions tok f) : ∃ cs, f = '-' :: cs := by
  cases h with
  | long h h' => exact long_name h h'
  | alternative => exact ⟨_, rfl⟩
  | letter => exact ⟨_, rfl⟩

variable {st st' : State D} {s : Slot D}

theorem Surplus.Added.line (hx : Surplus.Added st st' s) {b : Bool} {line : List Str} {evs : List Event} {err : Option Exn}
    (h : Line { st.sig with strict := b } st.places line evs err) (herr : ∀ w, b = true → err ≠ some (surplusError w))
    (hle : st.isStrict = true → (extras evs).length ≤ 1) : Line st'.sig st'.places line (givenTo s.node evs) err := by
  have ha : st'.sig.alternative = st.sig.alternative := by show st'.isAlternative = st.isAlternative; rw [hx.settings]
  have hs : st'.sig.strict = st.sig.strict := by show st'.isStrict = st.isStrict; rw [hx.settings]
  have h1 : Line { st'.sig with strict := b } st.places line evs err :=
    line_agree (s := { st.sig with strict := b }) (s' := { st'.sig with strict := b }) ha rfl
      (fun X _ t _ f hf => by obtain ⟨cs, rfl⟩ := hf.dashed; exact hx.flag cs) h
  rw [hx.places]
  refine line_more (p := s.place) ?_ h1 herr fun e => hle (hs.symm.trans e)
  obtain ⟨names, e⟩ := hx.arg
  show s.arg.type = .pos
  rw [e]; rfl

theorem Surplus.Added.ready (hx : Surplus.Added st st' s) {scan : Str → Option D} {argv : List Str} (h : Ready scan st argv)
    {nof : List Str} {ref : Nat} (hr : st.addArgument nof = (st', .ok ref)) (hsize : argv.length + 1 < two64) : Ready scan st' argv := by
  obtain ⟨names, ea⟩ := hx.arg
  refine ⟨?_, ?_, ?_, ?_, h.program⟩
  · have hst : st' = (step scan st (.add nof)).1 := by
      show st' = (st.addArgument nof).1
      rw [hr]
    rw [hst]
    refine survives_step h.history _ ?_
    show (st.addArgument nof).2.void.goesOn = true
    rw [hr]; rfl
  · intro t ht
    rcases List.mem_cons.1 (hx.perm.mem_iff.1 ht) with rfl | ht
    · rw [ea]; exact ⟨.none, 1, rfl⟩
    · exact h.settled t ht
  · intro t ht
    rcases List.mem_cons.1 (hx.perm.mem_iff.1 ht) with rfl | ht
    · rw [ea]; exact hsize
    · exact h.small t ht
  · rw [hx.settings]; exact h.help

theorem finish_plain (scan : Str → Option D) {a : Argument D} (h1 : a.valid = none) (h2 : a.dest = none) :
    (a.finish scan).2.2 = .ok () ∧ (a.finish scan).2.1 = [] := by
  have : a.runValid = (a, .ok ()) := by
    unfold Argument.runValid
    rw [h1]
  unfold Argument.finish
  rw [this]
  simp only
  unfold Argument.toDest
  rw [toNumber_dest, h2]
  exact ⟨rfl, rfl⟩

theorem Surplus.Added.outcome (hx : Surplus.Added st st' s) {full : Prop} (hi' : GInv full st') (scan : Str → Option D)
    (argv : List Str) (evs : List Event) (b : Bool) :
    SameButUsage ((({ st with isStrict := b } : State D).seen argv evs).afterLoop scan).2
      ((st'.seen argv (givenTo s.node evs)).afterLoop scan).2 ∧
    (((({ st with isStrict := b } : State D).seen argv evs).afterLoop scan).2 = .ok () →
      ((st'.seen argv (givenTo s.node evs)).afterLoop scan).2 = .ok () ∧
      ((st'.seen argv (givenTo s.node evs)).afterLoop scan).1.destLog =
        ((({ st with isStrict := b } : State D).seen argv evs).afterLoop scan).1.destLog) := by
  obtain ⟨names, ea⟩ := hx.arg
  have hs : s ∈ st'.arguments := hx.perm.mem_iff.2 (by simp)
  generalize hu : ({ st with isStrict := b } : State D).seen argv evs = u
  generalize hv : st'.seen argv (givenTo s.node evs) = v
  have s1 : v.helpOption = u.helpOption := by rw [← hu, ← hv]; show st'.helpOption = st.helpOption; rw [hx.settings]
  have s2 : v.versionOption = u.versionOption := by rw [← hu, ← hv]; show st'.versionOption = st.versionOption; rw [hx.settings]
  have s3 : v.isHelpException = u.isHelpException := by
    rw [← hu, ← hv]; show st'.isHelpException = st.isHelpException; rw [hx.settings]
  have s4 : v.isVersionException = u.isVersionException := by
    rw [← hu, ← hv]; show st'.isVersionException = st.isVersionException; rw [hx.settings]
  have s5 : v.version = u.version := by rw [← hu, ← hv]; show st'.version = st.version; rw [hx.settings]
  have s6 : v.destLog = u.destLog := by rw [← hu, ← hv]; show st'.destLog = st.destLog; rw [hx.settings]
  have p1 : v.helpOption ≠ some s.obj := by rw [← hv]; exact hx.help
  have p2 : v.versionOption ≠ some s.obj := by rw [← hv]; exact hx.version
  have hargs : u.arguments = v.arguments.filter fun t => t.obj != s.obj := by
    rw [← hu, ← hv]
    show st.arguments.map _ = (st'.arguments.map _).filter _
    rw [List.filter_map, ← hx.same]
    refine List.map_congr_left fun t ht => ?_
    rw [List.mem_filter] at ht
    have hn : s.node ≠ t.node := by
      intro e
      obtain rfl := eq_of_node hi' hs ht.1 e.symm
      simp at ht
    show ({ t with arg := t.arg.afterTokens t.node evs } : Slot D) = { t with arg := t.arg.afterTokens t.node (givenTo s.node evs) }
    unfold Argument.afterTokens
    rw [foldl_givenTo _ _ hn]
  have hnew : ∀ t ∈ v.arguments, (t.obj != s.obj) = false →
      t.arg.isRequired = false ∧ t.arg.valid = none ∧ t.arg.dest = none := by
    rw [← hv]
    intro t ht e
    obtain ⟨t', ht', rfl⟩ := List.mem_map.1 ht
    have et : t' = s := hx.self t' ht' (by simpa using e)
    subst et
    have hc := afterTokens_config t'.node (givenTo t'.node evs) t'.arg
    refine ⟨(congrArg (fun x : Argument D => x.isRequired) hc :).trans ?_, (congrArg (fun x : Argument D => x.valid) hc :).trans ?_,
      (congrArg (fun x : Argument D => x.dest) hc :).trans ?_⟩ <;> rw [ea] <;> rfl
  have seen : ∀ o : Option Nat, o ≠ some s.obj → v.optionSeen o = u.optionSeen o := by
    intro o ho
    cases o with
    | none => rfl
    | some o =>
      unfold State.optionSeen State.atObj
      simp only
      rw [hargs, find_filter_skip]
      intro t ht hk
      rw [← Bool.not_eq_true]
      intro e
      have e : t.obj = o := by simpa using e
      have k : t.obj = s.obj := by simpa using hk
      exact ho (by rw [← e, k])
  have hfin : SameButUsage (u.finishParse scan).2 (v.finishParse scan).2 ∧
      ((u.finishParse scan).2 = .ok () → (v.finishParse scan).2 = .ok () ∧
        (v.finishParse scan).1.destLog = (u.finishParse scan).1.destLog) := by
    have hmiss : firstMissing u.arguments = firstMissing v.arguments := by
      unfold firstMissing
      rw [hargs, find_filter_skip]
      intro t ht hk
      simp only [(hnew t ht hk).1, Bool.false_and]
    have hfa : (finishAll scan u.arguments).2 = (finishAll scan v.arguments).2 := by
      rw [hargs]
      exact finishAll_skip fun t ht hk => finish_plain scan (hnew t ht hk).2.1 (hnew t ht hk).2.2
    unfold State.finishParse
    rw [hmiss]
    cases firstMissing v.arguments with
    | some e => exact ⟨.inl rfl, fun h => by cases h⟩
    | none =>
      simp only
      rw [hfa]
      exact ⟨.inl rfl, fun h => ⟨h, by rw [s6]⟩⟩
  unfold State.afterLoop
  rw [seen _ p1, seen _ p2, s1, s2, s3, s4, s5]
  cases u.optionSeen u.helpOption with
  | none => exact ⟨.inl rfl, fun h => by cases h⟩
  | some c =>
    cases c with
    | true =>
      simp only
      cases u.isHelpException with
      | true => exact ⟨.inr (.inl ⟨_, _, rfl, rfl⟩), fun h => by cases h⟩
      | false => exact ⟨.inr (.inr ⟨_, _, rfl, rfl⟩), fun h => by cases h⟩
    | false =>
      simp only
      cases u.optionSeen u.versionOption with
      | none => exact ⟨.inl rfl, fun h => by cases h⟩
      | some c =>
        cases c with
        | true =>
          simp only
          cases u.isVersionException with
          | true => exact ⟨.inl rfl, fun h => by cases h⟩
          | false => exact ⟨.inl rfl, fun h => by cases h⟩
        | false => exact hfin

variable {scan : Str → Option D} {nof : List Str} {ref : Nat} {argv : List Str}

/-- C102, reading. After `addArgument` of one more positional argument a command line is read as before, except that the
first surplus word becomes the value of the new argument. (Before: by the parser without strict mode, which refuses
surplus words; a strict parser with the new argument then still reads lines with one surplus word.) -/
theorem C102_reading (hreach : Reachable scan st) (hr : st.addArgument nof = (st', .ok ref))
    (ho : asksPositional nof = true) {line : List Str} {evs : List Event} {err : Option Exn}
    (hl : Line ({ st with isStrict := false } : State D).sig st.places line evs err)
    (hle : st.isStrict = true → (extras evs).length ≤ 1) :
    ∃ s ∈ st'.arguments, s.obj = ref ∧ Line st'.sig st'.places line (givenTo s.node evs) err := by
  obtain ⟨s, es, hx⟩ := Surplus.added hreach hr ho
  exact ⟨s, hx.perm.mem_iff.2 (by simp), es, hx.line (b := false) hl (fun _ e => by cases e) hle⟩

/-- C102, effect. Compared with the parser before the addition, in non-strict mode, the call ends the same way (up to the
text of the usage when help is asked for), and if it returns the other arguments and the writes to variables are the
same, the new argument is there exactly if there was a surplus word, its value is the first one, and the additional
arguments are those without it. -/
theorem C102_effect (h : Ready scan st argv) (hreach : Reachable scan st) (hsize : argv.length + 1 < two64)
    (hr : st.addArgument nof = (st', .ok ref)) (ho : asksPositional nof = true) {evs : List Event} {err : Option Exn}
    (hl : Line ({ st with isStrict := false } : State D).sig st.places (argv.drop 1) evs err)
    (hle : st.isStrict = true → (extras evs).length ≤ 1) :
    SameButUsage (((step scan st (.setStrict false)).1.parseArguments scan argv)).2 (st'.parseArguments scan argv).2 ∧
    (((step scan st (.setStrict false)).1.parseArguments scan argv).2 = .ok () →
      (∀ s ∈ st.arguments, (st'.parseArguments scan argv).1.atObj s.obj =
        ((step scan st (.setStrict false)).1.parseArguments scan argv).1.atObj s.obj) ∧
      (∃ s', (st'.parseArguments scan argv).1.atObj ref = some s' ∧ (s'.arg.isExist = true ↔ extras evs ≠ []) ∧
        ∀ w, (extras evs).head? = some w → s'.arg.toVector = some [w]) ∧
      ((step scan st (.setStrict false)).1.parseArguments scan argv).1.additional = st.additional ++ extras evs ∧
      (st'.parseArguments scan argv).1.additional = st.additional ++ (extras evs).drop 1 ∧
      (st'.parseArguments scan argv).1.destLog =
        ((step scan st (.setStrict false)).1.parseArguments scan argv).1.destLog) := by
  have e0 : (step scan st (.setStrict false)).1 = { st with isStrict := false } := rfl
  rw [e0]
  obtain ⟨s, es, hx⟩ := Surplus.added hreach hr ho
  have hs : s ∈ st'.arguments := hx.perm.mem_iff.2 (by simp)
  have h0 : Ready scan ({ st with isStrict := false } : State D) argv :=
    ⟨survives_step h.history (.setStrict false) rfl, h.settled, h.small, h.help, h.program⟩
  have h' := hx.ready h hr hsize
  have hi' := h'.inv
  have hl0 : Line ({ st with isStrict := false } : State D).sig ({ st with isStrict := false } : State D).places (argv.drop 1) evs err := hl
  have hl' : Line st'.sig st'.places (argv.drop 1) (givenTo s.node evs) err := hx.line (b := false) hl (fun _ e => by cases e) hle
  cases err with
  | some x =>
    rw [(parse_of_line h0 hl0).1 x rfl, (parse_of_line h' hl').1 x rfl]
    exact ⟨.inl rfl, fun e => by cases e⟩
  | none =>
    obtain ⟨h1, h2⟩ := hx.outcome hi' scan argv evs false
    rw [← parse_seen h0 hl0, ← parse_seen h' hl'] at h1 h2
    refine ⟨h1, fun hok => ?_⟩
    obtain ⟨hok', hlog⟩ := h2 hok
    obtain ⟨names, ea⟩ := hx.arg
    have hsh := (shows_of_line h' hl' hok')
    refine ⟨?_, ?_, ?_, ?_, hlog⟩
    · intro t ht
      have ht' : t ∈ st'.arguments := hx.perm.mem_iff.2 (by simp [ht])
      rw [parse_atObj h0 hl0 hok (s := t) ht, parse_atObj h' hl' hok' ht']
      have hn : s.node ≠ t.node := by
        intro e
        obtain rfl := eq_of_node hi' hs ht' e.symm
        rw [← hx.same] at ht
        simp at ht
      unfold Argument.afterTokens
      rw [foldl_givenTo _ _ hn]
    · have hu : uses s.node (givenTo s.node evs) = [] := by
        rw [← List.isEmpty_iff, ← Bool.not_eq_false]
        intro e
        obtain ⟨u, l, hul⟩ : ∃ u l, uses s.node (givenTo s.node evs) = u :: l := by
          cases hu : uses s.node (givenTo s.node evs) with
          | nil => rw [hu] at e; cases e
          | cons u l => exact ⟨u, l, rfl⟩
        have hm : u ∈ uses s.node (givenTo s.node evs) := by rw [hul]; simp
        exact (positional_fills hi' hs (by rw [ea]; rfl) hl').1 _ _ _ (mem_uses.1 hm) rfl
      have hf0 : fills s.node evs = [] := by
        refine Classical.byContradiction fun hne => ?_
        obtain ⟨v, hv⟩ := List.exists_mem_of_ne_nil _ hne
        obtain ⟨p, hp, hpe, _⟩ := line_fit hl0 _ (mem_fills.1 hv)
        obtain ⟨t, ht, rfl⟩ := List.mem_map.1 hp
        have ht : t ∈ st.arguments := (List.mem_filter.1 ht).1
        have ht' : t ∈ st'.arguments := hx.perm.mem_iff.2 (by simp [ht])
        obtain rfl := eq_of_node hi' hs ht' hpe
        rw [← hx.same] at ht
        simp at ht
      have hf := fills_givenTo hf0
      obtain ⟨s', a1, a2, a3, a4, a5⟩ := hsh.1 s hs
      have hocc : Occurs s.node (givenTo s.node evs) ↔ extras evs ≠ [] := by
        unfold Occurs
        rw [hu, hf]
        cases extras evs <;> simp
      refine ⟨s', es ▸ a1, a3.trans hocc, fun w hw => ?_⟩
      have hne : extras evs ≠ [] := by rintro e; rw [e] at hw; cases hw
      have hv := (a5 (hocc.2 hne) (by rw [ea]; simp [Valueless, freshArgument])).1
      rw [hu, hf, hw, ea] at hv
      simpa [Validated, freshArgument, Argument.given, Values.flat] using hv
    · exact (shows_of_line h0 hl0 hok).2
    · have := hsh.2
      rw [extras_givenTo] at this
      rw [this, show st'.additional = st.additional by rw [hx.settings]]

/-- C102, in the words of the parsers alone. If the parser before the addition is not strict then the call ends the same
way, and if it returns the additional arguments it collected are shared: the new argument has the first one, the others
remain. -/
theorem C102_shared (h : Ready scan st argv) (hreach : Reachable scan st) (hsize : argv.length + 1 < two64)
    (hr : st.addArgument nof = (st', .ok ref)) (ho : asksPositional nof = true) (hs : st.isStrict = false) :
    SameButUsage (st.parseArguments scan argv).2 (st'.parseArguments scan argv).2 ∧
    ((st.parseArguments scan argv).2 = .ok () →
      (∀ s ∈ st.arguments, (st'.parseArguments scan argv).1.atObj s.obj = (st.parseArguments scan argv).1.atObj s.obj) ∧
      (st'.parseArguments scan argv).1.destLog = (st.parseArguments scan argv).1.destLog ∧
      ∃ s' surplus, (st'.parseArguments scan argv).1.atObj ref = some s' ∧
        (st.parseArguments scan argv).1.additional = st.additional ++ surplus ∧
        (surplus = [] → s'.arg.isExist = false ∧ (st'.parseArguments scan argv).1.additional = st.additional) ∧
        ∀ w ws, surplus = w :: ws → s'.arg.isExist = true ∧ s'.arg.toVector = some [w] ∧
          (st'.parseArguments scan argv).1.additional = st.additional ++ ws) := by
  obtain ⟨evs, err, hl, _⟩ := parse_tokens h
  have e0 : (step scan st (.setStrict false)).1 = st := by
    show ({ st with isStrict := false } : State D) = st
    rw [← hs]
  have e1 : ({ st with isStrict := false } : State D).sig = st.sig := by
    rw [show ({ st with isStrict := false } : State D) = st from e0]
  have := C102_effect h hreach hsize hr ho (evs := evs) (err := err) (by rw [e1]; exact hl) (by rw [hs]; intro e; cases e)
  rw [e0] at this
  obtain ⟨h1, h2⟩ := this
  refine ⟨h1, fun hok => ?_⟩
  obtain ⟨a, ⟨s', b1, b2, b3⟩, c, d, e⟩ := h2 hok
  refine ⟨a, e, s', extras evs, b1, c, fun en => ?_, fun w ws ew => ?_⟩
  · rw [d, en]
    refine ⟨?_, by simp⟩
    rw [← Bool.not_eq_true, b2, en]
    simp
  · rw [d, ew]
    exact ⟨b2.2 (by rw [ew]; simp), b3 w (by rw [ew]; rfl), rfl⟩

/-- C102, strict mode. A strict parser with the new argument refuses the second surplus word. -/
theorem C102_strict (h : Ready scan st argv) (hreach : Reachable scan st) (hsize : argv.length + 1 < two64)
    (hr : st.addArgument nof = (st', .ok ref)) (ho : asksPositional nof = true) (hs : st.isStrict = true)
    {evs : List Event} {err : Option Exn}
    (hl : Line ({ st with isStrict := false } : State D).sig st.places (argv.drop 1) evs err)
    {w w' : Str} {ws : List Str} (he : extras evs = w :: w' :: ws) :
    (st.parseArguments scan argv).2 = .throw (surplusError w) ∧
    (st'.parseArguments scan argv).2 = .throw (surplusError w') := by
  obtain ⟨s, es, hx⟩ := Surplus.added hreach hr ho
  have hs' : st'.isStrict = true := by rw [hx.settings]; exact hs
  have h' := hx.ready h hr hsize
  refine ⟨C22_strict h hs hl he, C22_strict h' hs' (evs := givenTo s.node evs) (err := err) ?_ (by rw [extras_givenTo, he]; rfl)⟩
  have ha : st'.sig.alternative = st.sig.alternative := by show st'.isAlternative = st.isAlternative; rw [hx.settings]
  have h1 : Line { st'.sig with strict := false } st.places (argv.drop 1) evs err :=
    line_agree (s := { st.sig with strict := false }) (s' := { st'.sig with strict := false }) ha rfl
      (fun X _ t _ f hf => by obtain ⟨cs, rfl⟩ := hf.dashed; exact hx.flag cs) hl
  show Line { st'.sig with strict := false } st'.places (argv.drop 1) (givenTo s.node evs) err
  rw [hx.places]
  refine line_more (sig := { st'.sig with strict := false }) (b := false) (p := s.place) ?_ h1 (fun _ e => by cases e) (fun e => by cases e)
  obtain ⟨names, e⟩ := hx.arg
  show s.arg.type = .pos
  rw [e]; rfl

/-! ### A case -/

section
/-- `-v`, a required positional `in`, and help. -/
def inOps : List Op :=
  [.add ["-v".toList], .action 0 .storeTrue, .add ["in".toList], .required 1 true, .add ["-h".toList, "--help".toList], .action 2 .help]

def inParser : State Unit := runOps demoScan State.init inOps

theorem inParser_history : ReachableBy demoScan Disciplined inParser := reachableBy_runOps .init _ (by decide +kernel)

def inLine : List Str := ["prog", "file", "-v", "fast", "x", "y"].map String.toList

theorem inLine_ready : Ready demoScan inParser inLine :=
  .of_history inParser_history (by decide +kernel) (by decide +kernel) ⟨"prog".toList, rfl, by decide +kernel⟩

/-- The new argument `mode` takes `fast`, and `x` and `y` remain. -/
example : (inParser.parseArguments demoScan inLine).2 = .ok () ∧
    (inParser.parseArguments demoScan inLine).1.additional = ["fast", "x", "y"].map String.toList ∧
    ∃ st', inParser.addArgument ["mode".toList] = (st', .ok 3) ∧ (st'.parseArguments demoScan inLine).2 = .ok () ∧
      (∃ s', (st'.parseArguments demoScan inLine).1.atObj 3 = some s' ∧ s'.arg.toVector = some ["fast".toList]) ∧
      (st'.parseArguments demoScan inLine).1.additional = ["x", "y"].map String.toList := by
  have hok : (inParser.parseArguments demoScan inLine).2 = .ok () := by decide +kernel
  have hadd : (inParser.parseArguments demoScan inLine).1.additional = ["fast", "x", "y"].map String.toList := by decide +kernel
  have hempty : inParser.additional = [] := by decide +kernel
  have hr : inParser.addArgument ["mode".toList] = ((inParser.addArgument ["mode".toList]).1, .ok 3) := pair_of (by decide +kernel)
  have h := C102_shared inLine_ready inParser_history.reachable (by decide +kernel) hr (by decide +kernel) (by decide +kernel)
  obtain ⟨_, _, s', surplus, a, b, _, c⟩ := h.2 hok
  rw [hadd, hempty, List.nil_append] at b
  obtain ⟨_, c2, c3⟩ := c "fast".toList (["x", "y"].map String.toList) b.symm
  refine ⟨hok, hadd, _, hr, ?_, ⟨s', a, c2⟩, by rw [c3, hempty]; rfl⟩
  rcases h.1 with e | ⟨u, u', e, _⟩ | ⟨u, u', e, _⟩
  · rw [e]; exact hok
  · rw [hok] at e; cases e
  · rw [hok] at e; cases e

def strictOps : List Op := inOps ++ [.setStrict true]

def strictIn : State Unit := runOps demoScan State.init strictOps

theorem strictIn_history : ReachableBy demoScan Disciplined strictIn := reachableBy_runOps .init _ (by decide +kernel)

/-- In strict mode `x` is refused in place of `fast`. -/
example : (strictIn.parseArguments demoScan inLine).2 = .throw (surplusError "fast".toList) ∧
    ((strictIn.addArgument ["mode".toList]).1.parseArguments demoScan inLine).2 = .throw (surplusError "x".toList) := by
  have hrd : Ready demoScan strictIn inLine :=
    .of_history strictIn_history (by decide +kernel) (by decide +kernel) ⟨"prog".toList, rfl, by decide +kernel⟩
  have hr : strictIn.addArgument ["mode".toList] = ((strictIn.addArgument ["mode".toList]).1, .ok 3) := pair_of (by decide +kernel)
  have hl : Line inParser.sig inParser.places (inLine.drop 1) _ _ := inLine_ready.says rfl
  exact C102_strict hrd strictIn_history.reachable (by decide +kernel) hr (by decide +kernel) (by decide +kernel)
    (evs := (Reader.line inParser.sig inParser.places (inLine.drop 1)).1) (err := (Reader.line inParser.sig inParser.places (inLine.drop 1)).2)
    hl (w := "fast".toList) (w' := "x".toList) (ws := ["y".toList]) (by decide +kernel)

/-- With one surplus word the strict parser returns, once it has the new argument. -/
example : (strictIn.parseArguments demoScan (inLine.take 4)).2 = .throw (surplusError "fast".toList) ∧
    ((strictIn.addArgument ["mode".toList]).1.parseArguments demoScan (inLine.take 4)).2 = .ok () := by decide +kernel
end

end BletArgs
