import Verif.Lemmas.Required
import Verif.Spec.Required
/-
C88: making an option required, or no longer so, adds or removes a check, and does nothing else.
-/
namespace BletArgs
open Spec
variable {D : Type}

/-- The parser `st` after `required(b)` on the option `ref`. -/
abbrev afterRequired (scan : Str → Option D) (st : State D) (ref : Nat) (b : Bool) : State D := (step scan st (.required ref b)).1

section
variable {scan : Str → Option D} {st : State D} {ref : Nat} {s : Slot D} {b : Bool}

theorem marking_node (n : Nat) (b : Bool) (t : Slot D) : (marking n b t).node = t.node := by unfold marking; split <;> rfl
theorem marking_obj (n : Nat) (b : Bool) (t : Slot D) : (marking n b t).obj = t.obj := by unfold marking; split <;> rfl

theorem marking_after (n : Nat) (b : Bool) (t : Slot D) (evs : List Event) (scan : Str → Option D) :
    ((marking n b t).arg.afterTokens (marking n b t).node evs).finish scan =
      ((if t.node == n then ((t.arg.afterTokens t.node evs).finish scan).1.needing b
        else ((t.arg.afterTokens t.node evs).finish scan).1), ((t.arg.afterTokens t.node evs).finish scan).2) := by
  unfold marking
  split
  · simp only
    rw [Argument.needing_afterTokens, Argument.needing_finish]
  · rfl

theorem afterRequired_mem {full : Prop} (hi : GInv full st) (hs : st.atObj ref = some s) {x : Slot D} :
    x ∈ (afterRequired scan st ref b).arguments ↔ ∃ t ∈ st.arguments, marking s.node b t = x := by
  unfold afterRequired
  rw [required_eq hi hs]
  simp only [mem_stableSort, List.mem_map]

theorem afterRequired_sig (hr : Reachable scan st) (hs : st.atObj ref = some s) : (afterRequired scan st ref b).sig = st.sig := by
  have hi : GInv True st := hr.inv
  have hi' : GInv True (afterRequired scan st ref b) := by
    have := (required_ok hi hs b).2
    exact this
  have e : afterRequired scan st ref b = { st with arguments := stableSort slotLt (st.arguments.map (marking s.node b)) } := by
    unfold afterRequired; rw [required_eq hi hs]
  have hby : (afterRequired scan st ref b).byName = st.byName := by rw [e]
  have hf : (afterRequired scan st ref b).sig.flag = st.sig.flag := by
    funext f
    rcases flag_cases hi f with ⟨h1, h2⟩ | ⟨t, ht, h1, _, h2, _⟩ <;>
      rcases flag_cases hi' f with ⟨g1, g2⟩ | ⟨u, hu, g1, _, g2, _⟩
    · rw [h2, g2]
    · rw [hby, h1] at g1; cases g1
    · rw [hby, h1] at g1; cases g1
    · rw [hby, h1] at g1
      obtain ⟨v, hv, rfl⟩ := (afterRequired_mem hi hs).1 hu
      rw [marking_node] at g1
      obtain rfl := eq_of_node hi ht hv (Option.some.inj g1).symm
      rw [h2, g2]
      unfold marking
      split <;> rfl
  have ha : (afterRequired scan st ref b).sig.alternative = st.sig.alternative := by rw [e]; rfl
  have hst : (afterRequired scan st ref b).sig.strict = st.sig.strict := by rw [e]; rfl
  generalize (afterRequired scan st ref b).sig = x at *
  generalize st.sig = y at *
  obtain ⟨x1, x2, x3⟩ := x
  obtain ⟨y1, y2, y3⟩ := y
  simp only at hf ha hst
  rw [hf, ha, hst]

theorem afterRequired_places_option (hr : Reachable scan st) (hs : st.atObj ref = some s) (ho : s.arg.isPositional = false) :
    (afterRequired scan st ref b).places = st.places := by
  have hi : GInv True st := hr.inv
  have hm := State.atObj_some hs
  unfold afterRequired
  rw [required_eq hi hs]
  unfold State.places
  simp only
  congr 1
  refine sort_positionals hi.sorted ?_
  have hfix : ∀ t ∈ st.arguments, t.arg.isPositional = true → marking s.node b t = t := by
    intro t ht hp
    unfold marking
    rw [if_neg]
    intro e
    obtain rfl := eq_of_node hi hm.1 ht (by simpa using e)
    rw [ho] at hp; cases hp
  have hpos : ∀ t : Slot D, (marking s.node b t).arg.isPositional = t.arg.isPositional := by
    intro t; unfold marking; split <;> rfl
  rw [List.filter_map]
  rw [show ((fun s : Slot D => s.arg.isPositional) ∘ marking s.node b) = fun s : Slot D => s.arg.isPositional from funext hpos]
  refine (List.map_congr_left (g := id) fun t ht => ?_).trans (List.map_id _)
  obtain ⟨h1, h2⟩ := List.mem_filter.1 ht
  exact hfix t h1 h2

theorem afterRequired_places (hr : Reachable scan st) (hs : st.atObj ref = some s) (ho : AtBorder st s) :
    (afterRequired scan st ref b).places = st.places := by
  rcases ho with ho | ⟨before, after, hl, hb, ha⟩
  · exact afterRequired_places_option hr hs ho
  cases hp : s.arg.isPositional with
  | false => exact afterRequired_places_option hr hs hp
  | true =>
    have hi : GInv True st := hr.inv
    unfold afterRequired
    rw [required_eq hi hs]
    unfold State.places
    simp only
    have hnd := hi.nodes
    have hsort : SortedBy slotLt (st.arguments.filter fun s => s.arg.isPositional) := List.Pairwise.filter _ hi.sorted
    rw [hl, List.map_append, List.map_cons, List.nodup_append] at hnd
    obtain ⟨_, n2, n3⟩ := hnd
    rw [List.nodup_cons] at n2
    have other : ∀ t : Slot D, t.node ≠ s.node → marking s.node b t = t := by
      intro t h; unfold marking; rw [if_neg (by simpa using h)]
    have m1 : before.map (marking s.node b) = before :=
      (List.map_congr_left (g := id) fun t ht => other t (n3 _ (List.mem_map_of_mem ht) _ (by simp))).trans (List.map_id _)
    have m2 : after.map (marking s.node b) = after :=
      (List.map_congr_left (g := id) fun t ht => other t (fun e => n2.1 (e ▸ List.mem_map_of_mem ht))).trans (List.map_id _)
    have hself : marking s.node b s = { s with arg := s.arg.needing b } := by unfold marking; rw [if_pos (by simp)]
    have hp' : ({ s with arg := s.arg.needing b } : Slot D).arg.isPositional = true := hp
    rw [hl] at hsort ⊢
    rw [List.map_append, List.map_cons, m1, m2, hself]
    rw [List.filter_append, List.filter_cons_of_pos (p := fun s : Slot D => s.arg.isPositional) hp] at hsort
    rw [sort_positionals_of (m := (before.filter fun s => s.arg.isPositional) ++
        ({ s with arg := s.arg.needing b } : Slot D) :: after.filter fun s => s.arg.isPositional) ?_
        (by rw [List.filter_append, List.filter_cons_of_pos (p := fun s : Slot D => s.arg.isPositional) hp'])]
    · rw [List.filter_append, List.filter_cons_of_pos (p := fun s : Slot D => s.arg.isPositional) hp, List.map_append, List.map_append]
      rfl
    · unfold SortedBy at *
      rw [List.pairwise_append, List.pairwise_cons] at hsort ⊢
      obtain ⟨s1, ⟨_, s2⟩, s3⟩ := hsort
      refine ⟨s1, ⟨fun t ht => ?_, s2⟩, fun t ht u hu => ?_⟩
      · obtain ⟨ht, hpt⟩ := List.mem_filter.1 ht
        have := ha t ht hpt
        unfold slotLt Argument.compareOption
        rw [hp', this, hpt]
        cases ({ s with arg := s.arg.needing b } : Slot D).arg.isRequired <;> rfl
      · rcases List.mem_cons.1 hu with rfl | hu
        · obtain ⟨ht, hpt⟩ := List.mem_filter.1 ht
          have := hb t ht hpt
          unfold slotLt Argument.compareOption
          rw [hp', this, hpt]
          cases ({ s with arg := s.arg.needing b } : Slot D).arg.isRequired <;> rfl
        · exact s3 t ht u (List.mem_cons_of_mem _ hu)

/-- C88, the words. After `required(b)` on an option, or on a positional argument between the
required and the optional ones, which returns, the parser reads every command line in the same way: the
same occurrences, values and surplus words; a line that could not be read throws the same exception as before. -/
theorem C88_reading {argv : List Str} (hr : Reachable scan st) (h : Ready scan st argv)
    (hs : st.atObj ref = some s) (ho : AtBorder st s) (b : Bool) :
    (step scan st (.required ref b)).2 = .ok () ∧
    Ready scan (afterRequired scan st ref b) argv ∧
    (∀ evs err, Line (afterRequired scan st ref b).sig (afterRequired scan st ref b).places (argv.drop 1) evs err ↔
      Line st.sig st.places (argv.drop 1) evs err) ∧
    ∀ evs x, Line st.sig st.places (argv.drop 1) evs (some x) →
      ((afterRequired scan st ref b).parseArguments scan argv).2 = .throw x ∧
      (st.parseArguments scan argv).2 = .throw x := by
  have hi : GInv True st := hr.inv
  have hok : (step scan st (.required ref b)).2 = .ok () := by rw [required_eq hi hs]
  have hh : (afterRequired scan st ref b).helpOption = st.helpOption := by unfold afterRequired; rw [required_eq hi hs]
  have h1 : Ready scan (afterRequired scan st ref b) argv := by
    refine ⟨survives_step h.history _ (by rw [hok]; rfl), ?_, ?_, by rw [hh]; exact h.help, h.program⟩
    · intro x hx
      obtain ⟨t, ht, rfl⟩ := (afterRequired_mem hi hs).1 hx
      have := h.settled t ht
      unfold marking
      split <;> exact this
    · intro x hx
      obtain ⟨t, ht, rfl⟩ := (afterRequired_mem hi hs).1 hx
      have := h.small t ht
      unfold marking
      split <;> exact this
  have e1 : (afterRequired scan st ref b).sig = st.sig := afterRequired_sig hr hs
  have e2 : (afterRequired scan st ref b).places = st.places := afterRequired_places hr hs ho
  refine ⟨hok, h1, fun evs err => by rw [e1, e2], fun evs x hl => ⟨?_, (parse_of_line h hl).1 x rfl⟩⟩
  exact (parse_of_line h1 (by rw [e1, e2]; exact hl)).1 x rfl

/-- C88, the outcome. A line that can be read is parsed after `required(b)` and passes the old requirement if and only if it
was parsed before and passes the new one. So `required(true)` takes away exactly the lines without the argument, and
`required(false)` none. -/
theorem C88_accepts {argv : List Str} (hr : Reachable scan st) (h : Ready scan st argv)
    (hs : st.atObj ref = some s) (ho : AtBorder st s) (b : Bool)
    {evs : List Event} (hl : Line st.sig st.places (argv.drop 1) evs none) :
    (((afterRequired scan st ref b).parseArguments scan argv).2 = .ok () ∧ (s.arg.isRequired = true → Occurs s.node evs)) ↔
    ((st.parseArguments scan argv).2 = .ok () ∧ (b = true → Occurs s.node evs)) := by
  have hi : GInv True st := hr.inv
  have hm := State.atObj_some hs
  obtain ⟨_, h1, h2, _⟩ := C88_reading hr h hs ho b
  have hl' := (h2 evs none).2 hl
  rw [parse_ok_iff h hl, parse_ok_iff h1 hl']
  have hh : (afterRequired scan st ref b).helpOption = st.helpOption := by unfold afterRequired; rw [required_eq hi hs]
  have hv : (afterRequired scan st ref b).versionOption = st.versionOption := by unfold afterRequired; rw [required_eq hi hs]
  have hmem : ∀ {x : Slot D}, x ∈ (afterRequired scan st ref b).arguments ↔ ∃ t ∈ st.arguments, marking s.node b t = x :=
    fun {x} => afterRequired_mem hi hs
  have hex : ∀ P : Nat → Nat → Prop, (∃ x ∈ (afterRequired scan st ref b).arguments, P x.obj x.node) ↔ ∃ t ∈ st.arguments, P t.obj t.node := by
    intro P
    constructor
    · rintro ⟨x, hx, hp⟩
      obtain ⟨t, ht, rfl⟩ := hmem.1 hx
      rw [marking_node, marking_obj] at hp
      exact ⟨t, ht, hp⟩
    · rintro ⟨t, ht, hp⟩
      exact ⟨_, hmem.2 ⟨t, ht, rfl⟩, by rw [marking_node, marking_obj]; exact hp⟩
  have c1 : Silent (afterRequired scan st ref b) evs ↔ Silent st evs := by
    constructor
    · rintro ⟨g1, g2⟩
      rw [hh] at g1
      rw [hv] at g2
      exact ⟨(hex fun o n => st.helpOption = some o ∧ ¬Occurs n evs).1 g1,
        fun o e => (hex fun p n => p = o ∧ ¬Occurs n evs).1 (g2 o e)⟩
    · rintro ⟨g1, g2⟩
      refine ⟨?_, ?_⟩
      · rw [hh]
        exact (hex fun o n => st.helpOption = some o ∧ ¬Occurs n evs).2 g1
      · rw [hv]
        exact fun o e => (hex fun p n => p = o ∧ ¬Occurs n evs).2 (g2 o e)
  have c2 : (NoneMissing (afterRequired scan st ref b) evs ∧ (s.arg.isRequired = true → Occurs s.node evs)) ↔
      (NoneMissing st evs ∧ (b = true → Occurs s.node evs)) := by
    unfold NoneMissing
    constructor
    · rintro ⟨g1, g2⟩
      constructor
      · intro t ht hq
        by_cases e : t.node = s.node
        · obtain rfl := eq_of_node hi hm.1 ht e
          exact g2 hq
        · have := g1 _ (hmem.2 ⟨t, ht, rfl⟩)
          unfold marking at this
          rw [if_neg (by simpa using e)] at this
          exact this hq
      · intro hb
        have := g1 _ (hmem.2 ⟨s, hm.1, rfl⟩)
        unfold marking at this
        rw [if_pos (by simp)] at this
        exact this hb
    · rintro ⟨g1, g2⟩
      refine ⟨?_, g1 s hm.1⟩
      intro x hx
      obtain ⟨t, ht, rfl⟩ := hmem.1 hx
      unfold marking
      split
      · rename_i e
        obtain rfl := eq_of_node hi hm.1 ht (by simpa using e)
        exact g2
      · exact g1 t ht
  have c3 : (∀ x ∈ (afterRequired scan st ref b).arguments, ((x.arg.afterTokens x.node evs).finish scan).2.2 = .ok ()) ↔
      ∀ t ∈ st.arguments, ((t.arg.afterTokens t.node evs).finish scan).2.2 = .ok () := by
    constructor
    · intro g t ht
      have := g _ (hmem.2 ⟨t, ht, rfl⟩)
      rw [marking_after] at this
      exact this
    · intro g x hx
      obtain ⟨t, ht, rfl⟩ := hmem.1 hx
      rw [marking_after]
      exact g t ht
  rw [c1, c3]
  constructor
  · rintro ⟨⟨a1, a2, a3⟩, a4⟩
    obtain ⟨b1, b2⟩ := c2.1 ⟨a2, a4⟩
    exact ⟨⟨a1, b1, a3⟩, b2⟩
  · rintro ⟨⟨a1, a2, a3⟩, a4⟩
    obtain ⟨b1, b2⟩ := c2.2 ⟨a2, a4⟩
    exact ⟨⟨a1, b1, a3⟩, b2⟩

/-- C88, the exception. A line that was parsed, and does not have the argument, now throws the `ParseArgumentRequiredException`
that names it by its first flag or its name, before anything is written to a destination. -/
theorem C88_refuses {argv : List Str} (hr : Reachable scan st) (h : Ready scan st argv)
    (hs : st.atObj ref = some s) (ho : AtBorder st s)
    {evs : List Event} (hl : Line st.sig st.places (argv.drop 1) evs none)
    (hok : (st.parseArguments scan argv).2 = .ok ()) (hno : ¬Occurs s.node evs) :
    ((afterRequired scan st ref true).parseArguments scan argv).2 =
      .throw ⟨.required, s.arg.front,
        if s.arg.type = .pos then "argument is required".toList else "option is required".toList⟩ ∧
    ((afterRequired scan st ref true).parseArguments scan argv).1.destLog = st.destLog := by
  have hi : GInv True st := hr.inv
  have hm := State.atObj_some hs
  obtain ⟨_, h1, h2, _⟩ := C88_reading hr h hs ho true
  have hl' := (h2 evs none).2 hl
  have hd : (afterRequired scan st ref true).destLog = st.destLog := by unfold afterRequired; rw [required_eq hi hs]
  obtain ⟨hq, hmiss, _⟩ := (parse_ok_iff h hl).1 hok
  have hmem : ∀ {x : Slot D}, x ∈ (afterRequired scan st ref true).arguments ↔ ∃ t ∈ st.arguments, marking s.node true t = x :=
    fun {x} => afterRequired_mem hi hs
  have hq' : Silent (afterRequired scan st ref true) evs := by
    refine ⟨?_, ?_⟩
    · obtain ⟨t, ht, e, hn⟩ := hq.help
      refine ⟨_, hmem.2 ⟨t, ht, rfl⟩, ?_, by rw [marking_node]; exact hn⟩
      rw [marking_obj, ← e]
      unfold afterRequired; rw [required_eq hi hs]
    · intro o e
      have e' : st.versionOption = some o := by
        rw [← e]; unfold afterRequired; rw [required_eq hi hs]
      obtain ⟨t, ht, e, hn⟩ := hq.version o e'
      exact ⟨_, hmem.2 ⟨t, ht, rfl⟩, by rw [marking_obj]; exact e, by rw [marking_node]; exact hn⟩
  have hin : marking s.node true s ∈ (afterRequired scan st ref true).arguments := hmem.2 ⟨s, hm.1, rfl⟩
  obtain ⟨l1, l2, hsplit⟩ := List.append_of_mem hin
  have hself : marking s.node true s = { s with arg := s.arg.needing true } := by unfold marking; rw [if_pos (by simp)]
  have hnd : ((afterRequired scan st ref true).arguments.map (·.node)).Nodup := h1.inv.nodes
  have := C33_missing h1 hl' hq' hsplit (by
    intro x hx hreq
    obtain ⟨t, ht, rfl⟩ := hmem.1 (show x ∈ (afterRequired scan st ref true).arguments by rw [hsplit]; simp [hx])
    by_cases e : t.node = s.node
    · exfalso
      rw [hsplit, List.map_append, List.map_cons] at hnd
      have hdis := (List.nodup_append.1 hnd).2.2
      exact hdis _ (List.mem_map_of_mem hx) _ (List.mem_cons_self) (by simp only [marking_node, e])
    · rw [marking_node]
      refine hmiss t ht ?_
      unfold marking at hreq
      rw [if_neg (by simpa using e)] at hreq
      exact hreq) (by rw [hself]; rfl) (by rw [marking_node]; exact hno)
  rw [hself] at this
  rw [hd] at this
  rw [show (({ s with arg := s.arg.needing true } : Slot D).arg.type) = s.arg.type from rfl] at this
  exact this

theorem writesTo_one {α : Type} {f : α → List DestWrite} {k : Nat} {l l' : List α} (hp : l'.Perm l)
    (h1 : ∀ x ∈ l, ∀ y ∈ l, writesTo k (f x) ≠ [] → writesTo k (f y) ≠ [] → x = y) (hnd : l.Nodup) :
    writesTo k (l'.flatMap f) = writesTo k (l.flatMap f) := by
  have key : ∀ l : List α, writesTo k (l.flatMap f) = (l.filter fun x => !(writesTo k (f x)).isEmpty).flatMap fun x => writesTo k (f x) := by
    intro l
    induction l with
    | nil => rfl
    | cons x l ih =>
      rw [List.flatMap_cons, List.filter_cons]
      have : writesTo k (f x ++ l.flatMap f) = writesTo k (f x) ++ writesTo k (l.flatMap f) := List.filter_append ..
      rw [this, ih]
      cases hx : writesTo k (f x) with
      | nil => simp
      | cons w ws => simp [hx]
  rw [key l', key l]
  have hp' : (l'.filter fun x => !(writesTo k (f x)).isEmpty).Perm (l.filter fun x => !(writesTo k (f x)).isEmpty) := hp.filter _
  have hlen : ∀ x ∈ l.filter fun x => !(writesTo k (f x)).isEmpty, ∀ y ∈ l.filter fun x => !(writesTo k (f x)).isEmpty, x = y := by
    intro x hx y hy
    obtain ⟨a1, a2⟩ := List.mem_filter.1 hx
    obtain ⟨b1, b2⟩ := List.mem_filter.1 hy
    exact h1 x a1 y b1 (by simpa using a2) (by simpa using b2)
  have hnd' : (l.filter fun x => !(writesTo k (f x)).isEmpty).Nodup := hnd.filter _
  generalize (l.filter fun x => !(writesTo k (f x)).isEmpty) = m at *
  generalize (l'.filter fun x => !(writesTo k (f x)).isEmpty) = m' at *
  cases m with
  | nil => rw [hp'.eq_nil]
  | cons x m =>
    cases m with
    | nil => rw [List.perm_singleton.1 hp']
    | cons y m =>
      have := hlen x (by simp) y (by simp)
      subst this
      simp at hnd'

/-- C88, the effect. When a line is parsed before and after `required(b)`, every argument ends the same – the one itself
but for the mark –, and so do the additional arguments, the program name and every variable to which at most one argument
writes; all in all the same writes are made to destinations, though an option may come earlier or later among them, as in
the listing. -/
theorem C88_effect {argv : List Str} (hr : Reachable scan st) (h : Ready scan st argv)
    (hs : st.atObj ref = some s) (ho : AtBorder st s) (b : Bool)
    (hok : (st.parseArguments scan argv).2 = .ok ())
    (hok' : ((afterRequired scan st ref b).parseArguments scan argv).2 = .ok ()) :
    let r := (st.parseArguments scan argv).1
    let r' := ((afterRequired scan st ref b).parseArguments scan argv).1
    (∀ o, o ≠ ref → r'.atObj o = r.atObj o) ∧
    r'.atObj ref = (r.atObj ref).map (fun t => { t with arg := { t.arg with isRequired := b } }) ∧
    r'.additional = r.additional ∧ r'.binaryName = r.binaryName ∧
    r'.destLog.Perm r.destLog ∧
    ∀ k, (∀ t ∈ st.arguments, ∀ u ∈ st.arguments, ∀ d e, t.arg.dest = some d → u.arg.dest = some e →
      d.slot = k → e.slot = k → t = u) → writesTo k r'.destLog = writesTo k r.destLog := by
  have hi : GInv True st := hr.inv
  have hm := State.atObj_some hs
  obtain ⟨_, h1, h2, _⟩ := C88_reading hr h hs ho b
  obtain ⟨evs, hl, _⟩ := parse_ok h hok
  have hl' := (h2 evs none).2 hl
  have hres := (parse_result h hl hok).2.2
  have hres' := (parse_result h1 hl' hok').2.2
  have hmem : ∀ {x : Slot D}, x ∈ (afterRequired scan st ref b).arguments ↔ ∃ t ∈ st.arguments, marking s.node b t = x :=
    fun {x} => afterRequired_mem hi hs
  have e : afterRequired scan st ref b = { st with arguments := stableSort slotLt (st.arguments.map (marking s.node b)) } := by
    unfold afterRequired; rw [required_eq hi hs]
  have hperm : ((afterRequired scan st ref b).arguments).Perm (st.arguments.map (marking s.node b)) := by
    rw [e]; exact stableSort_perm _
  have hlog : (st.parseArguments scan argv).1.destLog = st.destLog ++ st.arguments.flatMap (fun t => ((t.arg.afterTokens t.node evs).finish scan).2.1) ∧
      ((afterRequired scan st ref b).parseArguments scan argv).1.destLog = st.destLog ++
        (afterRequired scan st ref b).arguments.flatMap (fun t => ((t.arg.afterTokens t.node evs).finish scan).2.1) := by
    refine ⟨by rw [hres], ?_⟩
    rw [hres', show (afterRequired scan st ref b).destLog = st.destLog by rw [e]]
  obtain ⟨w1, w2⟩ := hlog
  have hsame : (st.arguments.map (marking s.node b)).flatMap (fun t => ((t.arg.afterTokens t.node evs).finish scan).2.1) =
      st.arguments.flatMap (fun t => ((t.arg.afterTokens t.node evs).finish scan).2.1) := by
    rw [List.flatMap_map]
    congr 1
    funext t
    rw [marking_after]
  intro r r'
  have one : ∀ t ∈ st.arguments, r'.atObj t.obj =
      some ⟨t.node, t.obj, ((marking s.node b t).arg.afterTokens (marking s.node b t).node evs).finished scan⟩ := by
    intro t ht
    have := parse_atObj h1 hl' hok' (hmem.2 ⟨t, ht, rfl⟩)
    rw [marking_obj] at this
    rw [this, marking_node]
  refine ⟨fun o hne => ?_, ?_, ?_, ?_, ?_, fun k hk => ?_⟩
  · by_cases hex : ∃ t ∈ st.arguments, t.obj = o
    · obtain ⟨t, ht, rfl⟩ := hex
      rw [one t ht, parse_atObj h hl hok ht]
      have : marking s.node b t = t := by
        unfold marking
        rw [if_neg]
        intro e
        obtain rfl := eq_of_node hi hm.1 ht (by simpa using e)
        exact hne hm.2
      rw [this]
    · have n1 : r.atObj o = none := by
        show (State.parseArguments ..).1.atObj o = none
        rw [hres]
        unfold State.atObj
        rw [List.find?_eq_none]
        intro x hx
        obtain ⟨t, ht, rfl⟩ := List.mem_map.1 hx
        exact fun hc => hex ⟨t, ht, by simpa using hc⟩
      have n2 : r'.atObj o = none := by
        show (State.parseArguments ..).1.atObj o = none
        rw [hres']
        unfold State.atObj
        rw [List.find?_eq_none]
        intro x hx
        obtain ⟨u, hu, rfl⟩ := List.mem_map.1 hx
        obtain ⟨t, ht, rfl⟩ := hmem.1 hu
        intro hc
        refine hex ⟨t, ht, ?_⟩
        have : (marking s.node b t).obj = o := by simpa using hc
        rw [marking_obj] at this
        exact this
      rw [n1, n2]
  · have g1 := one s hm.1
    have g2 := parse_atObj h hl hok hm.1
    rw [hm.2] at g1 g2
    rw [g1]
    show _ = ((State.parseArguments ..).1.atObj ref).map _
    rw [g2]
    simp only [Option.map_some, Option.some.injEq]
    unfold Argument.finished
    rw [marking_after, if_pos (by simp)]
    rfl
  · show (State.parseArguments ..).1.additional = (State.parseArguments ..).1.additional
    rw [hres, hres', e]
  · show (State.parseArguments ..).1.binaryName = (State.parseArguments ..).1.binaryName
    rw [hres, hres', e]
    rfl
  · show ((State.parseArguments ..).1.destLog).Perm (State.parseArguments ..).1.destLog
    rw [w1, w2]
    refine List.Perm.append_left _ ?_
    rw [← hsame]
    exact hperm.flatMap_right _
  · show writesTo k (State.parseArguments ..).1.destLog = writesTo k (State.parseArguments ..).1.destLog
    rw [w1, w2]
    have : ∀ x y : List DestWrite, writesTo k (x ++ y) = writesTo k x ++ writesTo k y := fun x y => List.filter_append ..
    rw [this, this, ← hsame]
    congr 1
    have hdest : ∀ t : Slot D, writesTo k ((t.arg.afterTokens t.node evs).finish scan).2.1 ≠ [] → ∃ d, t.arg.dest = some d ∧ d.slot = k := by
      intro t hw
      obtain ⟨w, hw⟩ := List.exists_mem_of_ne_nil _ hw
      obtain ⟨hw, hk⟩ := List.mem_filter.1 hw
      unfold Argument.finish at hw
      have hd1 := runValid_dest (t.arg.afterTokens t.node evs)
      generalize (t.arg.afterTokens t.node evs).runValid = x at hw hd1
      obtain ⟨c, x⟩ := x
      cases x with
      | ok u =>
        simp only at hw hd1
        obtain ⟨d, e1, e2⟩ := toDest_slot _ w hw
        rw [toNumber_dest, hd1, show (t.arg.afterTokens t.node evs).dest = t.arg.dest from
          (congrArg (fun x : Argument D => x.dest) (afterTokens_config t.node evs t.arg) :)] at e1
        exact ⟨d, e1, by rw [← e2]; simpa using hk⟩
      | _ => cases hw
    have hmd : ∀ t : Slot D, (marking s.node b t).arg.dest = t.arg.dest := by intro t; unfold marking; split <;> rfl
    refine writesTo_one hperm ?_ ?_
    · intro x hx y hy n1 n2
      obtain ⟨t, ht, rfl⟩ := List.mem_map.1 hx
      obtain ⟨u, hu, rfl⟩ := List.mem_map.1 hy
      obtain ⟨d1, a1, a2⟩ := hdest _ n1
      obtain ⟨d2, b1, b2⟩ := hdest _ n2
      rw [hmd] at a1 b1
      rw [hk t ht u hu d1 d2 a1 b1 a2 b2]
    · have hn := hi.nodes
      have key : ∀ l : List (Slot D), (l.map (·.node)).Nodup → l.Nodup := fun l hl =>
        (List.pairwise_map.1 hl).imp fun hne e => hne (by rw [e])
      refine key _ ?_
      rw [List.map_map, show ((fun x : Slot D => x.node) ∘ marking s.node b) = fun x : Slot D => x.node from funext fun t => marking_node _ _ t]
      exact hn

end

/-! ### The hypotheses are met by concrete cases -/

section
attribute [local irreducible] parser parserLine parserSays

/-- `-v` occurs on the line of `parserLine`; so does `-l`. -/
example := C88_reading parser_history.reachable parserLine_ready (argOf_at parser 4 (by decide +kernel)) (.inl (by decide +kernel)) true
example := (C88_reading parser_history.reachable (parser_words ["-v", "--nope"] (by decide +kernel))
  (argOf_at parser 4 (by decide +kernel)) (.inl (by decide +kernel)) true).2.2.2
  _ _ (parser_says (ws := ["-v", "--nope"]) (evs := [.option 2 false .nothing])
    (err := some ⟨.parse, "nope".toList, "invalid option".toList⟩) (by decide +kernel) (by decide +kernel))
example := (C88_accepts parser_history.reachable parserLine_ready (argOf_at parser 4 (by decide +kernel)) (.inl (by decide +kernel)) true
  parserLine_says).2 ⟨parserLine_ok, by decide +kernel⟩
/-- `-v f`: `-l` does not occur. -/
example := C88_refuses parser_history.reachable (parser_words ["-v", "f"] (by decide +kernel)) (argOf_at parser 4 (by decide +kernel))
  (.inl (by decide +kernel)) shortLine_says (by decide +kernel) (by decide +kernel)
example := C88_effect parser_history.reachable parserLine_ready (argOf_at parser 4 (by decide +kernel)) (.inl (by decide +kernel)) true
  parserLine_ok (by decide +kernel)
/-- `rest`, the last argument listed, comes behind `file`, which is required. -/
theorem rest_at : parser.atObj 8 = some (parser.arguments[11]'(by decide +kernel)) := by
  have h := State.atObj_of_mem parser_history.reachable.inv.objs (List.getElem_mem (show 11 < parser.arguments.length by decide +kernel))
  rwa [show (parser.arguments[11]'(by decide +kernel)).obj = 8 by decide +kernel] at h
theorem rest_border : AtBorder parser (parser.arguments[11]'(by decide +kernel)) :=
  .inr ⟨parser.arguments.take 11, parser.arguments.drop 12, by rw [← List.drop_eq_getElem_cons, List.take_append_drop],
    by decide +kernel, by decide +kernel⟩
example := C88_effect parser_history.reachable parserLine_ready rest_at rest_border true parserLine_ok (by decide +kernel)
example := (C88_accepts parser_history.reachable parserLine_ready rest_at rest_border true parserLine_says).2 ⟨parserLine_ok, by decide +kernel⟩
/-- `-v f`: `rest` does not occur. -/
example := C88_refuses parser_history.reachable (parser_words ["-v", "f"] (by decide +kernel)) rest_at rest_border shortLine_says
  (by decide +kernel) (by decide +kernel)
/-- The condition is needed: `b` overtakes `a`. -/
example : let p := runOps demoScan (State.init (D := Unit)) [.add ["a".toList], .add ["b".toList], .add ["-h".toList], .action 2 .help]
    let line := ["prog", "x", "y"].map String.toList
    ((p.parseArguments demoScan line).1.atObj 0).map (·.arg.argument) = some "x".toList ∧
    (((afterRequired demoScan p 1 true).parseArguments demoScan line).1.atObj 0).map (·.arg.argument) = some "y".toList := by
  decide +kernel
/-- The required option is listed, and so written to its destination, before the others. -/
example : ((afterRequired demoScan parser 4 true).arguments.map (·.obj)) ≠ parser.arguments.map (·.obj) := by decide +kernel

end

end BletArgs
