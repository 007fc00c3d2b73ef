import Verif.Lemmas.Reads
import Verif.Lemmas.Slots
import Verif.Spec.Sig
/-
Option tokens: the parser against the grammar.
-/
namespace BletArgs
open Spec
variable {D : Type} {full : Prop}

/-- Requirements on a parser and on the number of tokens: the registry is consistent, `index + nargs` does
not overflow, groups are not empty. -/
structure Sane (st : State D) (len : Nat) : Prop where
  inv : GInv False st
  small : ∀ s ∈ st.arguments, len + s.arg.nargs < two64
  groups : ∀ s ∈ st.arguments, s.arg.type = .multiNumberInfinite ∨ s.arg.type = .infiniteNumberPos ∨
    s.arg.type = .numberPos → 0 < s.arg.nargs

theorem Sane.of_config {st st' : State D} {len : Nat} (h : st'.config = st.config) (hs : Sane st len) :
    Sane st' len := by
  have e : st'.arguments.map Slot.config = st.arguments.map Slot.config := congrArg State.arguments h
  refine ⟨inv_of_config h hs.inv, ?_, ?_⟩
  · intro s hs'
    obtain ⟨u, hu, e⟩ := slots_of_config e hs'
    have e2 : s.arg.nargs = u.arg.nargs := (congrArg (fun x : Slot D => x.arg.nargs) e :)
    rw [e2]; exact hs.small u hu
  · intro s hs' ht
    obtain ⟨u, hu, e⟩ := slots_of_config e hs'
    have e2 : s.arg.nargs = u.arg.nargs := (congrArg (fun x : Slot D => x.arg.nargs) e :)
    have e3 : s.arg.type = u.arg.type := (congrArg (fun x : Slot D => x.arg.type) e :)
    rw [e2]; rw [e3] at ht; exact hs.groups u hu ht

theorem atNode_config {st st' : State D} (h : st'.config = st.config) (n : Nat) :
    (st'.atNode n).map Slot.config = (st.atNode n).map Slot.config := by
  have e : st'.arguments.map Slot.config = st.arguments.map Slot.config := congrArg State.arguments h
  have key : ∀ l : List (Slot D), (l.find? fun s => s.node == n).map Slot.config =
      (l.map Slot.config).find? fun s => s.node == n := by
    intro l
    rw [List.find?_map]
    rfl
  unfold State.atNode
  rw [key, key, e]

theorem sig_of_config {st st' : State D} (h : st'.config = st.config) : st'.sig = st.sig := by
  have e1 : st'.byName = st.byName := (congrArg (fun x : State D => x.byName) h :)
  have e2 : st'.isAlternative = st.isAlternative := (congrArg (fun x : State D => x.isAlternative) h :)
  have e3 : st'.isStrict = st.isStrict := (congrArg (fun x : State D => x.isStrict) h :)
  unfold State.sig
  rw [e1, e2, e3]
  congr 1
  funext name
  congr 1
  funext n
  have := congrArg (Option.map Slot.entry) (atNode_config h n)
  rw [Option.map_map, Option.map_map] at this
  exact this

/-- A registered name, seen by the parser and by the grammar. -/
theorem flag_cases {st : State D} (hi : GInv full st) (name : Str) :
    (lookupName st.byName name = none ∧ st.sig.flag name = none) ∨
    ∃ s ∈ st.arguments, lookupName st.byName name = some s.node ∧ st.atNode s.node = some s ∧
      st.sig.flag name = some s.entry ∧ name ∈ s.arg.names := by
  cases h : lookupName st.byName name with
  | none => left; unfold State.sig; simp [h]
  | some n =>
    right
    obtain ⟨s, hs, e, hn⟩ := hi.entries _ (lookupName_mem h)
    simp only at e hn
    subst e
    have := State.atNode_of_mem hi.nodes hs
    exact ⟨s, hs, rfl, this, by unfold State.sig; simp [h, this], hn⟩

theorem exists_iff {st : State D} (hi : GInv full st) (name : Str) :
    st.argumentExists name = true ↔ ∃ e, st.sig.flag name = some e := by
  unfold State.argumentExists
  rcases flag_cases hi name with ⟨h1, h2⟩ | ⟨s, _, h1, _, h2, _⟩
  · rw [h1, h2]; simp
  · rw [h1, h2]; simp

/-- A dashed name never designates a positional argument. -/
theorem dashed_option {st : State D} (hi : GInv full st) {s : Slot D} (hs : s ∈ st.arguments) {cs : List Char}
    (hn : '-' :: cs ∈ s.arg.names) : s.arg.isPositional = false := by
  cases hp : s.arg.isPositional with
  | false => rfl
  | true =>
    obtain ⟨n, e, c, r, hc, hne⟩ := (hi.forms s hs).positional hp
    rw [e, List.mem_singleton] at hn
    rw [hc] at hn
    cases hn
    exact absurd rfl hne

/-- `--` alone is never registered. -/
theorem no_double_dash {st : State D} (hi : GInv full st) : lookupName st.byName ['-', '-'] = none := by
  rcases flag_cases hi ['-', '-'] with ⟨h, _⟩ | ⟨s, hs, _, _, _, hn⟩
  · exact h
  · have := ((hi.forms s hs).option (dashed_option hi hs hn)).2 _ hn
    rcases this with ⟨c, hc, e⟩ | ⟨c, r, e⟩
    · cases e; exact absurd rfl hc
    · cases e

theorem endOfClusters_iff {st : State D} (hi : GInv full st) (hasArg : Bool) (arg : Str) (cs : List Char) :
    st.endOfClusters hasArg cs = true ↔ ClusterForm st.sig (eqOf hasArg arg) cs := by
  induction cs with
  | nil =>
    unfold State.endOfClusters State.argumentExists shortFlag
    rw [no_double_dash hi]
    simp only [Option.isSome_none, Bool.false_eq_true, false_iff]
    intro h; cases h
  | cons c cs ih =>
    cases cs with
    | nil =>
      unfold State.endOfClusters
      rw [exists_iff hi]
      constructor
      · rintro ⟨e, h⟩; exact .last h
      · intro h
        cases h with
        | last h => exact ⟨_, h⟩
        | first h => exact absurd rfl h
        | later h => exact absurd rfl h
    | cons c2 rest =>
      unfold State.endOfClusters State.typeOf
      rcases flag_cases hi (shortFlag c) with ⟨h1, h2⟩ | ⟨s, _, h1, h3, h2, _⟩
      · rw [h1]
        simp only [Bool.false_eq_true, false_iff]
        intro h
        unfold shortFlag at h2
        cases h with
        | first _ h => rw [h2] at h; cases h
        | later _ h => rw [h2] at h; cases h
      · rw [h1]
        simp only [h3, Option.map_some]
        unfold shortFlag at h2
        have heq : (!hasArg) = true ↔ eqOf hasArg arg = none := by cases hasArg <;> simp [eqOf]
        by_cases hA : (!hasArg && s.arg.type.takesAttached) = true
        · rw [if_pos hA]
          rw [Bool.and_eq_true, heq, takesAttached_iff] at hA
          simp only [true_iff]
          exact .first (by simp) h2 (.inr hA)
        · rw [if_neg hA]
          by_cases hB : s.arg.type.isBoolean = true
          · rw [if_pos hB]
            simp only [true_iff]
            exact .first (by simp) h2 (.inl ((isBoolean_iff _).1 hB))
          · rw [if_neg hB, ih]
            constructor
            · intro h; exact .later (by simp) h2 h
            · intro h
              cases h with
              | first _ h h' =>
                rw [h2] at h
                cases h
                exfalso
                rcases h' with h' | h'
                · exact hB ((isBoolean_iff _).2 h')
                · exact hA (by rw [Bool.and_eq_true, heq, takesAttached_iff]; exact h')
              | later _ h h' => exact h'

theorem short_name {tok name : Str} {eq : Option Str} (hs : ShortTok tok) (h : Splits tok name eq) :
    ∃ cs, name = '-' :: cs := by
  obtain ⟨c, r, rfl, hc⟩ := hs
  cases h with
  | eq _ _ h =>
    cases name with
    | nil => simp [SplitsAt] at h
    | cons a n =>
      have := h.1
      simp only [List.cons_append, List.cons.injEq] at this
      exact ⟨n, by rw [this.1]⟩
  | bare _ => exact ⟨_, rfl⟩

theorem shortLong {tok : Str} (h1 : ShortTok tok) (h2 : LongTok tok) : False :=
  (C01_token_classes tok).2.2.2.2.1 ⟨h1, h2⟩

/-- `endOfInfiniteArgument_` recognises the option forms. -/
theorem endOfInfinite_iff {st : State D} (hi : GInv full st) (tok : Str) :
    st.endOfInfinite tok = true ↔ OptionForm st.sig tok := by
  have hsp := splits_takeArg tok
  unfold State.endOfInfinite
  by_cases h1 : isShortOption tok = true
  · rw [if_pos h1]
    rw [isShortOption_iff] at h1
    obtain ⟨cs, hcs⟩ := short_name h1 hsp
    simp only
    have key := endOfClusters_iff hi (takeArg tok).2.2 (takeArg tok).2.1 cs
    rw [hcs] at hsp ⊢
    rw [List.drop_one, List.tail_cons]
    by_cases ha : (st.isAlternative && st.argumentExists ('-' :: '-' :: cs)) = true
    · rw [if_pos ha]
      simp only [true_iff]
      rw [Bool.and_eq_true, exists_iff hi] at ha
      obtain ⟨ha, e, he⟩ := ha
      exact .alternative h1 hsp ha he
    · rw [if_neg ha, key]
      constructor
      · exact fun h => .cluster h1 hsp h
      · intro h
        cases h with
        | long h => exact (shortLong h1 h).elim
        | alternative _ hs ha' he =>
          obtain ⟨rfl, rfl⟩ := splits_unique hs hsp
          exact absurd (by rw [Bool.and_eq_true, exists_iff hi]; exact ⟨ha', _, he⟩) ha
        | cluster _ hs h =>
          obtain ⟨e, rfl⟩ := splits_unique hs hsp
          cases e
          exact h
  · rw [if_neg h1]
    rw [isShortOption_iff] at h1
    by_cases h2 : isLongOption tok = true
    · rw [if_pos h2]
      rw [isLongOption_iff] at h2
      simp only
      rw [exists_iff hi]
      constructor
      · rintro ⟨e, he⟩; exact .long h2 hsp he
      · intro h
        cases h with
        | long _ hs he =>
          obtain ⟨rfl, rfl⟩ := splits_unique hs hsp
          exact ⟨_, he⟩
        | alternative h => exact absurd h h1
        | cluster h => exact absurd h h1
    · rw [if_neg h2]
      rw [isLongOption_iff] at h2
      simp only [Bool.false_eq_true, false_iff]
      intro h
      cases h with
      | long h => exact h2 h
      | alternative h => exact h1 h
      | cluster h => exact h1 h

theorem endOfInfinite_eq {st : State D} (hi : GInv full st) :
    (fun t => st.endOfInfinite t = true) = OptionForm st.sig :=
  funext fun t => propext (endOfInfinite_iff hi t)

namespace State

/-- What one event of the command line does to the parser. -/
def record (st : State D) : Event → State D
  | .option id att vals => st.modNode id (Argument.occur att vals)
  | .positional id vals => st.modNode id (Argument.fill vals)
  | .extra w => { st with additional := st.additional ++ [w] }

/-- What a list of events does. -/
def recordAll (st : State D) (evs : List Event) : State D := evs.foldl record st

end State

theorem take_config (vals : Values) (a : Argument D) : (a.take vals).config = a.config := by
  have hc : a.clearIfFirst.config = a.config := by unfold Argument.clearIfFirst; split <;> rfl
  cases vals with
  | nothing => rfl
  | single v => rfl
  | list vs =>
    unfold Argument.take
    simp only
    split
    · exact hc
    · exact hc
    · rfl
  | groups gs => exact hc

theorem occur_config (att : Bool) (vals : Values) (a : Argument D) : (a.occur att vals).config = a.config := by
  unfold Argument.occur
  rw [mark_config, take_config]
  split <;> rfl

theorem fill_config (vals : Values) (a : Argument D) : (a.fill vals).config = a.config := by
  cases vals <;> rfl

theorem record_config (st : State D) (ev : Event) : (st.record ev).config = st.config := by
  cases ev with
  | option id att vals => exact modNode_config fun s _ _ => occur_config att vals s.arg
  | positional id vals => exact modNode_config fun s _ _ => fill_config vals s.arg
  | extra w => rfl

theorem recordAll_config (evs : List Event) (st : State D) : (st.recordAll evs).config = st.config := by
  induction evs generalizing st with
  | nil => rfl
  | cons ev evs ih => exact (ih (st := st.record ev)).trans (record_config st ev)

theorem recordAll_append (st : State D) (evs evs' : List Event) :
    st.recordAll (evs ++ evs') = (st.recordAll evs).recordAll evs' := by
  unfold State.recordAll; rw [List.foldl_append]

theorem modNode_const {st : State D} (hi : GInv full st) {s : Slot D} (hs : s ∈ st.arguments)
    (f : Argument D → Argument D) : (st.modNode s.node fun _ => f s.arg) = st.modNode s.node f := by
  rw [modNode_eq, modNode_eq]
  rw [updNode_congr (g := f)]
  intro t ht e
  rw [eq_of_node hi hs ht e]

theorem modNode_modNode (st : State D) (n : Nat) (f g : Argument D → Argument D) :
    (st.modNode n f).modNode n g = st.modNode n fun a => g (f a) := by
  rw [modNode_eq, modNode_eq, modNode_eq]
  simp only [updNode_updNode]

/-- `parseArgument_` on a registered option. -/
theorem parseAt_reads {st : State D} {argv : List Str} {max index : Nat} (hm : max ≤ argv.length)
    (hi : index < max) (hsane : Sane st max) {s : Slot D} (hs : s ∈ st.arguments) (hp : s.arg.isPositional = false)
    (hasArg : Bool) (option arg : Str) (att : Bool) :
    (∃ vals j, index < j ∧ j ≤ max ∧
      OptionReads (OptionForm st.sig) option s.entry att (eqOf hasArg arg)
        (seg argv (index + 1) max) [.option s.node att vals] (.rest (seg argv j max)) ∧
      st.parseAt argv max index hasArg option arg s.node =
        (st.modNode s.node fun a => (a.take vals).mark, .ok j)) ∨
    (∃ e, OptionReads (OptionForm st.sig) option s.entry att (eqOf hasArg arg)
        (seg argv (index + 1) max) [] (.error e) ∧
      (st.parseAt argv max index hasArg option arg s.node).2 = .throw e) := by
  have hat := State.atNode_of_mem hsane.inv.nodes hs
  have key := parseArgument_reads (stop := st.endOfInfinite) hm hi (hsane.small s hs) hp
    (fun h => hsane.groups s hs (.inl h)) hasArg option arg s.node att
  rw [endOfInfinite_eq hsane.inv] at key
  unfold State.parseAt
  rw [hat]
  simp only
  rcases key with ⟨vals, j, h1, h2, h3, h4⟩ | ⟨e, h3, h4⟩
  · left
    refine ⟨vals, j, h1, h2, h3, ?_⟩
    rw [h4]
    simp only
    rw [modNode_const hsane.inv hs fun a => (a.take vals).mark]
  · right
    exact ⟨e, h3, h4⟩

/-- The result of reading one item agrees with the grammar: same events and rest, or same exception. -/
def Agrees (argv : List Str) (max index : Nat) (st : State D) (r : State D × Res Nat) (evs : List Event) (out : Out) :
    Prop :=
  (∃ j, index < j ∧ j ≤ max ∧ out = .rest (seg argv j max) ∧ r = (st.recordAll evs, .ok j)) ∨
  (∃ e, out = .error e ∧ r.2 = .throw e)

/-- A plain (not attached) option. -/
theorem parseAt_agrees {st : State D} {argv : List Str} {max index : Nat} (hm : max ≤ argv.length)
    (hi : index < max) (hsane : Sane st max) {s : Slot D} (hs : s ∈ st.arguments) (hp : s.arg.isPositional = false)
    (hasArg : Bool) (option arg : Str) :
    ∃ evs out, OptionReads (OptionForm st.sig) option s.entry false (eqOf hasArg arg) (seg argv (index + 1) max) evs out ∧
      Agrees argv max index st (st.parseAt argv max index hasArg option arg s.node) evs out := by
  rcases parseAt_reads hm hi hsane hs hp hasArg option arg false with ⟨vals, j, h1, h2, h3, h4⟩ | ⟨e, h3, h4⟩
  · exact ⟨_, _, h3, .inl ⟨j, h1, h2, rfl, h4⟩⟩
  · exact ⟨_, _, h3, .inr ⟨e, rfl, h4⟩⟩

/-- Clusters. -/
theorem parseCluster_agrees {argv : List Str} {max index : Nat} (hm : max ≤ argv.length) (hi : index < max)
    (hasArg : Bool) (arg : Str) (cs : List Char) {st : State D} (hsane : Sane st max) :
    ∃ evs out, ClusterReads st.sig (OptionForm st.sig) (eqOf hasArg arg) (seg argv (index + 1) max) cs evs out ∧
      Agrees argv max index st (State.parseCluster argv max index hasArg arg cs st) evs out := by
  induction cs generalizing st with
  | nil =>
    refine ⟨[], _, .none, .inr ⟨_, rfl, ?_⟩⟩
    unfold State.parseCluster shortFlag
    rw [no_double_dash hsane.inv]
    rfl
  | cons c cs ih =>
    rcases flag_cases hsane.inv (shortFlag c) with ⟨h1, h2⟩ | ⟨s, hs, h1, h3, h2, hn⟩
    · refine ⟨[], _, .unknown h2, .inr ⟨_, rfl, ?_⟩⟩
      cases cs with
      | nil => unfold State.parseCluster; rw [h1]; rfl
      | cons c2 rest => unfold State.parseCluster; rw [h1]; rfl
    · have hp := dashed_option hsane.inv hs hn
      cases cs with
      | nil =>
        obtain ⟨evs, out, h4, h5⟩ := parseAt_agrees hm hi hsane hs hp hasArg [c] arg
        refine ⟨evs, out, .last h2 h4, ?_⟩
        unfold State.parseCluster
        rw [h1]
        exact h5
      | cons c2 rest =>
        unfold State.parseCluster
        rw [h1]
        simp only [h3]
        have heq : (!hasArg) = true ↔ eqOf hasArg arg = none := by cases hasArg <;> simp [eqOf]
        have hcfg : (st.modNode s.node Argument.mark).config = st.config :=
          modNode_config fun t _ _ => mark_config t.arg
        by_cases hA : (!hasArg && s.arg.type.takesAttached) = true
        · rw [if_pos hA]
          rw [Bool.and_eq_true, heq, takesAttached_iff] at hA
          have hs' : { s with arg := s.arg.mark } ∈ (st.modNode s.node Argument.mark).arguments := by
            rw [modNode_arguments]
            refine List.mem_map.2 ⟨s, hs, ?_⟩
            simp
          have := parseAt_reads (st := st.modNode s.node Argument.mark) (s := { s with arg := s.arg.mark }) hm hi
            (hsane.of_config hcfg) hs' hp true [c] (c2 :: rest) true
          rw [sig_of_config hcfg] at this
          rcases this with ⟨vals, j, g1, g2, g3, g4⟩ | ⟨e, g3, g4⟩
          · refine ⟨_, _, .attached (by simp) h2 hA.1 hA.2 g3, .inl ⟨j, g1, g2, rfl, ?_⟩⟩
            rw [g4, modNode_modNode]
            rfl
          · exact ⟨_, _, .attached (by simp) h2 hA.1 hA.2 g3, .inr ⟨e, rfl, g4⟩⟩
        · rw [if_neg hA]
          rw [Bool.and_eq_true, heq, takesAttached_iff] at hA
          by_cases hB : s.arg.type.isBoolean = true
          · rw [if_neg (by simp [hB])]
            obtain ⟨evs, out, g1, g2⟩ := ih (st := st.modNode s.node Argument.mark) (hsane.of_config hcfg)
            rw [sig_of_config hcfg] at g1
            refine ⟨_, _, .switch (by simp) h2 ((isBoolean_iff _).1 hB) g1, ?_⟩
            rcases g2 with ⟨j, k1, k2, k3, k4⟩ | ⟨e, k1, k2⟩
            · exact .inl ⟨j, k1, k2, k3, k4⟩
            · exact .inr ⟨e, k1, k2⟩
          · rw [if_pos (by simp [hB])]
            refine ⟨[], _, .notLast (by simp) h2 hA (fun h => hB ((isBoolean_iff _).2 h)), .inr ⟨_, rfl, rfl⟩⟩

/-- Short tokens. -/
theorem parseShort_agrees {argv : List Str} {max index : Nat} (hm : max ≤ argv.length) (hi : index < max)
    {st : State D} (hsane : Sane st max) {tok : Str} (ht : ShortTok tok) :
    ∃ evs out, TokenReads st.sig (OptionForm st.sig) tok (seg argv (index + 1) max) evs out ∧
      Agrees argv max index st (st.parseShort argv max index tok) evs out := by
  have hsp := splits_takeArg tok
  obtain ⟨cs, hcs⟩ := short_name ht hsp
  unfold State.parseShort
  simp only
  rw [hcs] at hsp ⊢
  rw [List.drop_one, List.tail_cons]
  have clusterCase : ¬(st.isAlternative = true ∧ (st.sig.flag ('-' :: '-' :: cs)).isSome = true) →
      ∃ evs out, TokenReads st.sig (OptionForm st.sig) tok (seg argv (index + 1) max) evs out ∧
      Agrees argv max index st (State.parseCluster argv max index (takeArg tok).2.2 (takeArg tok).2.1 cs st) evs out := by
    intro h
    obtain ⟨evs, out, g1, g2⟩ := parseCluster_agrees hm hi (takeArg tok).2.2 (takeArg tok).2.1 cs hsane
    exact ⟨evs, out, .cluster ht hsp h g1, g2⟩
  cases ha : st.isAlternative with
  | false =>
    simp only [Bool.false_eq_true, if_false]
    exact clusterCase (by simp [ha])
  | true =>
    simp only [if_true]
    rcases flag_cases hsane.inv ('-' :: '-' :: cs) with ⟨h1, h2⟩ | ⟨s, hs, h1, h3, h2, hn⟩
    · rw [h1]
      exact clusterCase (by simp [h2])
    · rw [h1]
      simp only
      obtain ⟨evs, out, g1, g2⟩ := parseAt_agrees hm hi hsane hs (dashed_option hsane.inv hs hn)
        (takeArg tok).2.2 cs (takeArg tok).2.1
      exact ⟨evs, out, .alternative ht hsp ha h2 g1, g2⟩

theorem long_name {tok name : Str} {eq : Option Str} (hs : LongTok tok) (h : Splits tok name eq) :
    ∃ cs, name = '-' :: cs := by
  obtain ⟨c, r, rfl⟩ := hs
  cases h with
  | eq _ _ h =>
    cases name with
    | nil => simp [SplitsAt] at h
    | cons a n =>
      have := h.1
      simp only [List.cons_append, List.cons.injEq] at this
      exact ⟨n, by rw [this.1]⟩
  | bare _ => exact ⟨_, rfl⟩

/-- Long tokens. -/
theorem parseLong_agrees {argv : List Str} {max index : Nat} (hm : max ≤ argv.length) (hi : index < max)
    {st : State D} (hsane : Sane st max) {tok : Str} (ht : LongTok tok) :
    ∃ evs out, TokenReads st.sig (OptionForm st.sig) tok (seg argv (index + 1) max) evs out ∧
      Agrees argv max index st (st.parseLong argv max index tok) evs out := by
  have hsp := splits_takeArg tok
  unfold State.parseLong
  simp only
  rcases flag_cases hsane.inv (takeArg tok).1 with ⟨h1, h2⟩ | ⟨s, hs, h1, h3, h2, hn⟩
  · rw [h1]
    exact ⟨[], _, .unknownLong ht hsp h2, .inr ⟨_, rfl, rfl⟩⟩
  · rw [h1]
    simp only
    obtain ⟨cs, hcs⟩ := long_name ht hsp
    obtain ⟨evs, out, g1, g2⟩ := parseAt_agrees hm hi hsane hs (dashed_option hsane.inv hs (hcs ▸ hn))
      (takeArg tok).2.2 ((takeArg tok).1.drop 2) (takeArg tok).2.1
    exact ⟨evs, out, .long ht hsp h2 g1, g2⟩

end BletArgs
