import Verif.Lemmas.Alias
/-
C97, C99: giving options other names changes nothing for a command line that uses neither the names they lose nor those they get.
-/
namespace BletArgs
open Spec
variable {D : Type}

/-- The same argument, with other names. -/
def respell (ns : Slot D → List Str) (t : Slot D) : Slot D := { t with arg := t.arg.called (ns t) }

theorem respell_after (ns : Slot D → List Str) (t : Slot D) (evs : List Event) (scan : Str → Option D) :
    (((respell ns t).arg.afterTokens t.node evs).finish scan).1 = ((t.arg.afterTokens t.node evs).finish scan).1.called (ns t) ∧
    (((respell ns t).arg.afterTokens t.node evs).finish scan).2.1 = ((t.arg.afterTokens t.node evs).finish scan).2.1 ∧
    ((((respell ns t).arg.afterTokens t.node evs).finish scan).2.2 = .ok () ↔
      ((t.arg.afterTokens t.node evs).finish scan).2.2 = .ok ()) := by
  unfold respell
  simp only
  rw [Argument.called_afterTokens]
  exact Argument.called_finish ..

/-- The parser `st'` is `st` with other names for some options; only the names `P` may lead elsewhere. -/
structure Respelled (st st' : State D) (P : Str → Prop) (ns : Slot D → List Str) : Prop where
  eq : st' = { st with arguments := stableSort slotLt (st.arguments.map (respell ns)), byName := st'.byName }
  inv : GInv True st'
  by_ : ∀ n, ¬P n → lookupName st'.byName n = lookupName st.byName n
  positional : ∀ t ∈ st.arguments, t.arg.isPositional = true → ns t = t.arg.names

namespace Respelled
variable {scan : Str → Option D} {st st' : State D} {P : Str → Prop} {ns : Slot D → List Str} (h : Respelled st st' P ns)
include h

theorem mem {x : Slot D} : x ∈ st'.arguments ↔ ∃ t ∈ st.arguments, respell ns t = x := by
  rw [h.eq]
  simp only [mem_stableSort, List.mem_map]

theorem places_eq (hi : GInv True st) : st'.places = st.places := by
  rw [h.eq]
  unfold State.places
  simp only
  congr 1
  refine sort_positionals hi.sorted ?_
  have hfix : ∀ t ∈ st.arguments, t.arg.isPositional = true → respell ns t = t := by
    intro t ht hp
    unfold respell
    rw [h.positional t ht hp]
    rfl
  rw [List.filter_map]
  rw [show ((fun s : Slot D => s.arg.isPositional) ∘ respell ns) = fun s : Slot D => s.arg.isPositional from rfl]
  refine (List.map_congr_left (g := id) fun t ht => ?_).trans (List.map_id _)
  obtain ⟨h1, h2⟩ := List.mem_filter.1 ht
  exact hfix t h1 h2

theorem sig_flag (hi : GInv True st) {n : Str} (hn : ¬P n) : st'.sig.flag n = st.sig.flag n := by
  have hby := h.by_ n hn
  rcases flag_cases hi n with ⟨h1, h2⟩ | ⟨t, ht, h1, _, h2, _⟩ <;>
    rcases flag_cases h.inv n with ⟨g1, g2⟩ | ⟨u, hu, g1, _, g2, _⟩
  · rw [h2, g2]
  · rw [hby, h1] at g1; cases g1
  · rw [hby, h1] at g1; cases g1
  · rw [hby, h1] at g1
    obtain ⟨v, hv, rfl⟩ := h.mem.1 hu
    obtain rfl := eq_of_node hi ht hv (Option.some.inj g1).symm
    rw [h2, g2]
    rfl

theorem line_iff (hi : GInv True st) {line : List Str} (hsil : Silences P line)
    {evs : List Event} {err : Option Exn} : Line st'.sig st'.places line evs err ↔ Line st.sig st.places line evs err := by
  have ha : st'.sig.alternative = st.sig.alternative := by rw [h.eq]; rfl
  have hst : st'.sig.strict = st.sig.strict := by rw [h.eq]; rfl
  rw [h.places_eq hi]
  constructor
  · exact line_agree ha.symm hst.symm fun X hX t ht g hg => (h.sig_flag hi (hsil X hX t ht g hg)).symm
  · exact line_agree ha hst fun X hX t ht g hg => h.sig_flag hi (hsil X hX t ht g hg)

theorem ready {argv : List Str} (hrdy : Ready scan st argv) {op : Op} (hok : step scan st op = (st', .ok ())) : Ready scan st' argv := by
  have hst' : st' = (step scan st op).1 := by rw [hok]
  have hh : st'.helpOption = st.helpOption := by rw [h.eq]
  refine ⟨?_, ?_, ?_, by rw [hh]; exact hrdy.help, hrdy.program⟩
  · rw [hst']
    exact survives_step hrdy.history _ (by rw [hok]; rfl)
  · intro x hx
    obtain ⟨t, ht, rfl⟩ := h.mem.1 hx
    exact hrdy.settled t ht
  · intro x hx
    obtain ⟨t, ht, rfl⟩ := h.mem.1 hx
    exact hrdy.small t ht

theorem reading {argv : List Str} (hi : GInv True st) (hr : Ready scan st argv) (h1 : Ready scan st' argv) (hsil : Silences P (argv.drop 1)) :
    (∀ evs err, Line st'.sig st'.places (argv.drop 1) evs err ↔ Line st.sig st.places (argv.drop 1) evs err) ∧
    ∀ evs x, Line st.sig st.places (argv.drop 1) evs (some x) →
      (st'.parseArguments scan argv).2 = .throw x ∧ (st.parseArguments scan argv).2 = .throw x :=
  ⟨fun _ _ => h.line_iff hi hsil, fun _ x hl => ⟨(parse_of_line h1 ((h.line_iff hi hsil).2 hl)).1 x rfl, (parse_of_line hr hl).1 x rfl⟩⟩

theorem accepts {argv : List Str} (hi : GInv True st) (hr : Ready scan st argv) (h1 : Ready scan st' argv) (hsil : Silences P (argv.drop 1)) :
    (st'.parseArguments scan argv).2 = .ok () ↔ (st.parseArguments scan argv).2 = .ok () := by
  obtain ⟨h2, h3⟩ := h.reading hi hr h1 hsil
  obtain ⟨evs, err, hl, -⟩ := parse_tokens hr
  cases err with
  | some x =>
    obtain ⟨e1, e2⟩ := h3 evs x hl
    rw [e1, e2]
  | none =>
    have hl' := (h2 evs none).2 hl
    rw [parse_ok_iff hr hl, parse_ok_iff h1 hl']
    have hh : st'.helpOption = st.helpOption := by rw [h.eq]
    have hv : st'.versionOption = st.versionOption := by rw [h.eq]
    have hex : ∀ Q : Nat → Nat → Prop, (∃ x ∈ st'.arguments, Q x.obj x.node) ↔ ∃ t ∈ st.arguments, Q t.obj t.node := by
      intro Q
      constructor
      · rintro ⟨x, hx, hq⟩
        obtain ⟨t, ht, rfl⟩ := h.mem.1 hx
        exact ⟨t, ht, hq⟩
      · rintro ⟨t, ht, hq⟩
        exact ⟨respell ns t, h.mem.2 ⟨t, ht, rfl⟩, hq⟩
    have c1 : Silent st' evs ↔ Silent st evs := by
      constructor
      · rintro ⟨g1, g2⟩
        rw [hh] at g1
        rw [hv] at g2
        exact ⟨(hex fun o n => st.helpOption = some o ∧ ¬Occurs n evs).1 g1,
          fun o e => (hex fun p n => p = o ∧ ¬Occurs n evs).1 (g2 o e)⟩
      · rintro ⟨g1, g2⟩
        refine ⟨?_, ?_⟩
        · rw [hh]
          exact (hex fun o n => st.helpOption = some o ∧ ¬Occurs n evs).2 g1
        · rw [hv]
          exact fun o e => (hex fun p n => p = o ∧ ¬Occurs n evs).2 (g2 o e)
    have c2 : NoneMissing st' evs ↔ NoneMissing st evs := by
      unfold NoneMissing
      constructor
      · exact fun g t ht hq => g (respell ns t) (h.mem.2 ⟨t, ht, rfl⟩) hq
      · intro g x hx hq
        obtain ⟨t, ht, rfl⟩ := h.mem.1 hx
        exact g t ht hq
    have c3 : (∀ x ∈ st'.arguments, ((x.arg.afterTokens x.node evs).finish scan).2.2 = .ok ()) ↔
        ∀ t ∈ st.arguments, ((t.arg.afterTokens t.node evs).finish scan).2.2 = .ok () := by
      constructor
      · exact fun g t ht => (respell_after ..).2.2.1 (g _ (h.mem.2 ⟨t, ht, rfl⟩))
      · intro g x hx
        obtain ⟨t, ht, rfl⟩ := h.mem.1 hx
        exact (respell_after ..).2.2.2 (g t ht)
    rw [c1, c2, c3]

theorem effect {argv : List Str} (hi : GInv True st) (hr : Ready scan st argv) (h1 : Ready scan st' argv) (hsil : Silences P (argv.drop 1))
    (hok : (st.parseArguments scan argv).2 = .ok ()) :
    let r := (st.parseArguments scan argv).1
    let r' := (st'.parseArguments scan argv).1
    (∀ t ∈ st.arguments, r'.atObj t.obj = (r.atObj t.obj).map fun u => { u with arg := { u.arg with names := ns t } }) ∧
    (∀ o, (∀ t ∈ st.arguments, t.obj ≠ o) → r'.atObj o = none ∧ r.atObj o = none) ∧
    r'.additional = r.additional ∧ r'.binaryName = r.binaryName ∧
    r'.destLog.Perm r.destLog ∧
    ∀ k, (∀ t ∈ st.arguments, ∀ u ∈ st.arguments, ∀ d e, t.arg.dest = some d → u.arg.dest = some e →
      d.slot = k → e.slot = k → t = u) → writesTo k r'.destLog = writesTo k r.destLog := by
  have hok' := (h.accepts hi hr h1 hsil).2 hok
  obtain ⟨h2, _⟩ := h.reading hi hr h1 hsil
  obtain ⟨evs, hl, _⟩ := parse_ok hr hok
  have hl' := (h2 evs none).2 hl
  have hres := (parse_result hr hl hok).2.2
  have hres' := (parse_result h1 hl' hok').2.2
  have e := h.eq
  have hperm : (st'.arguments).Perm (st.arguments.map (respell ns)) := by
    rw [e]; exact stableSort_perm _
  have hlog : (st.parseArguments scan argv).1.destLog = st.destLog ++ st.arguments.flatMap (fun t => ((t.arg.afterTokens t.node evs).finish scan).2.1) ∧
      (st'.parseArguments scan argv).1.destLog = st.destLog ++
        st'.arguments.flatMap (fun t => ((t.arg.afterTokens t.node evs).finish scan).2.1) := by
    refine ⟨by rw [hres], ?_⟩
    rw [hres', show st'.destLog = st.destLog by rw [e]]
  obtain ⟨w1, w2⟩ := hlog
  have hsame : (st.arguments.map (respell ns)).flatMap (fun t => ((t.arg.afterTokens t.node evs).finish scan).2.1) =
      st.arguments.flatMap (fun t => ((t.arg.afterTokens t.node evs).finish scan).2.1) := by
    rw [List.flatMap_map]
    congr 1
    funext t
    exact (respell_after ns t evs scan).2.1
  intro r r'
  refine ⟨fun t ht => ?_, fun o hno => ⟨?_, ?_⟩, ?_, ?_, ?_, fun k hk => ?_⟩
  · have g1 := parse_atObj h1 hl' hok' (h.mem.2 ⟨t, ht, rfl⟩)
    have g2 := parse_atObj hr hl hok ht
    show (State.parseArguments ..).1.atObj (respell ns t).obj = ((State.parseArguments ..).1.atObj t.obj).map _
    rw [g1, g2]
    simp only [Option.map_some, Option.some.injEq]
    unfold Argument.finished
    rw [show (respell ns t).node = t.node from rfl, (respell_after ..).1]
    rfl
  · show (State.parseArguments ..).1.atObj o = none
    rw [hres']
    unfold State.atObj
    rw [List.find?_eq_none]
    intro x hx
    obtain ⟨u, hu, rfl⟩ := List.mem_map.1 hx
    obtain ⟨t, ht, rfl⟩ := h.mem.1 hu
    intro hc
    have hc : (respell ns t).obj = o := by simpa using hc
    exact hno t ht hc
  · show (State.parseArguments ..).1.atObj o = none
    rw [hres]
    unfold State.atObj
    rw [List.find?_eq_none]
    intro x hx
    obtain ⟨t, ht, rfl⟩ := List.mem_map.1 hx
    exact fun hc => hno t ht (by simpa using hc)
  · show (State.parseArguments ..).1.additional = (State.parseArguments ..).1.additional
    rw [hres, hres', e]
  · show (State.parseArguments ..).1.binaryName = (State.parseArguments ..).1.binaryName
    rw [hres, hres', e]
    rfl
  · show ((State.parseArguments ..).1.destLog).Perm (State.parseArguments ..).1.destLog
    rw [w1, w2]
    refine List.Perm.append_left _ ?_
    rw [← hsame]
    exact hperm.flatMap_right _
  · show writesTo k (State.parseArguments ..).1.destLog = writesTo k (State.parseArguments ..).1.destLog
    rw [w1, w2]
    have : ∀ x y : List DestWrite, writesTo k (x ++ y) = writesTo k x ++ writesTo k y := fun x y => List.filter_append ..
    rw [this, this, ← hsame]
    congr 1
    have hdest : ∀ t : Slot D, writesTo k ((t.arg.afterTokens t.node evs).finish scan).2.1 ≠ [] → ∃ d, t.arg.dest = some d ∧ d.slot = k := by
      intro t hw
      obtain ⟨w, hw⟩ := List.exists_mem_of_ne_nil _ hw
      obtain ⟨hw, hk⟩ := List.mem_filter.1 hw
      unfold Argument.finish at hw
      have hd1 := runValid_dest (t.arg.afterTokens t.node evs)
      generalize (t.arg.afterTokens t.node evs).runValid = x at hw hd1
      obtain ⟨c, x⟩ := x
      cases x with
      | ok u =>
        simp only at hw hd1
        obtain ⟨d, e1, e2⟩ := toDest_slot _ w hw
        rw [toNumber_dest, hd1, show (t.arg.afterTokens t.node evs).dest = t.arg.dest from
          (congrArg (fun x : Argument D => x.dest) (afterTokens_config t.node evs t.arg) :)] at e1
        exact ⟨d, e1, by rw [← e2]; simpa using hk⟩
      | _ => cases hw
    refine writesTo_one hperm ?_ ?_
    · intro x hx y hy n1 n2
      obtain ⟨t, ht, rfl⟩ := List.mem_map.1 hx
      obtain ⟨u, hu, rfl⟩ := List.mem_map.1 hy
      obtain ⟨d1, a1, a2⟩ := hdest _ n1
      obtain ⟨d2, b1, b2⟩ := hdest _ n2
      rw [hk t ht u hu d1 d2 a1 b1 a2 b2]
    · have hn := hi.nodes
      have key : ∀ l : List (Slot D), (l.map (·.node)).Nodup → l.Nodup := fun l hl =>
        (List.pairwise_map.1 hl).imp fun hne e => hne (by rw [e])
      refine key _ ?_
      rw [List.map_map, show ((fun x : Slot D => x.node) ∘ respell ns) = fun x : Slot D => x.node from rfl]
      exact hn

end Respelled

end BletArgs
