import Verif.Spec.Write
import Verif.Props.Blocks
import Verif.Props.Extend
/-
C69: everything can be written.
-/
namespace BletArgs
open Spec
variable {D : Type}

theorem Spec.Writes.equals {sig : Sig} {e : Entry} {flag : Str} (h : Writes sig e flag none) (v : Str) :
    Writes sig e (flag ++ '=' :: v) (some v) := by
  have go : ∀ {t n : Str}, Splits t n none → Splits (t ++ '=' :: v) n (some v) := by
    intro t n h
    cases h with
    | bare h => exact .eq _ _ ⟨rfl, h⟩
  cases h with
  | long ht hs hf =>
    obtain ⟨c, r, rfl⟩ := ht
    exact .long ⟨c, r ++ '=' :: v, rfl⟩ (go hs) hf
  | alternative ht hs ha hf =>
    obtain ⟨c, r, rfl, hc⟩ := ht
    exact .alternative ⟨c, r ++ '=' :: v, rfl, hc⟩ (go hs) ha hf
  | short ht hs hn hf =>
    obtain ⟨c, r, rfl, hc⟩ := ht
    exact .short ⟨c, r ++ '=' :: v, rfl, hc⟩ (go hs) hn hf

theorem Spec.Use.Ok.block {sig : Sig} {u : Use} (h : u.Ok sig) : ∃ l, UseBlock sig u.option u.tokens false u.vals l := by
  obtain ⟨e, flag, vals⟩ := u
  obtain ⟨hw, hs⟩ := h
  dsimp only at hw hs
  have hmany : ∀ {vs : List Str}, e.kind = .infinite ∨ e.kind = .multiInfinite → (∀ v ∈ vs, ¬EndTok v ∧ ¬OptionForm sig v) →
      UseBlock sig e (flag :: vs) false (.list vs) true :=
    fun hk hv => .many hw hk fun v h => ⟨(hv v h).2, (hv v h).1⟩
  have hone : ∀ v, e.kind = .multi ∨ e.kind = .infinite ∨ e.kind = .multiInfinite →
      UseBlock sig e [flag ++ '=' :: v] false (.list [v]) false := by
    intro v hk
    refine .equals (hw.equals v) (.list v ?_)
    rcases hk with h | h | h <;> simp [h]
  cases hs with
  | nothing hk => exact ⟨_, .switch hw hk⟩
  | single v hk => exact ⟨_, .equals (hw.equals v) (by rw [hk]; exact .simple v)⟩
  | one v hk =>
    refine ⟨false, ?_⟩
    have : e.kind ≠ .number := by rcases hk with h | h | h <;> simp [h]
    show UseBlock sig e (if e.kind = .number then [flag, v] else [flag ++ '=' :: v]) _ _ _
    rw [if_neg this]
    exact hone v hk
  | @fixed vs hk hl hv =>
    refine ⟨false, ?_⟩
    have : Use.tokens ⟨e, flag, .list vs⟩ = flag :: vs := by
      unfold Use.tokens
      dsimp only
      split <;> simp_all
    rw [this]
    exact .fixed hw hk hl hv
  | @many vs hk hv =>
    have hn : e.kind ≠ .number := by rcases hk with h | h <;> simp [h]
    match vs, hv with
    | [], hv => exact ⟨_, hmany hk hv⟩
    | [v], hv =>
      refine ⟨false, ?_⟩
      show UseBlock sig e (if e.kind = .number then [flag, v] else [flag ++ '=' :: v]) _ _ _
      rw [if_neg hn]
      exact hone v (by rcases hk with h | h <;> simp [h])
    | v :: w :: vs, hv => exact ⟨_, hmany hk hv⟩
  | @group g hk hl hv =>
    refine ⟨false, ?_⟩
    show UseBlock sig e (flag :: [g].flatten) _ _ _
    rw [List.flatten_singleton]
    exact .fixedMore hw hk hl hv
  | @groups gs hk hg =>
    refine ⟨true, .manyGroups hw hk (fun g h => ⟨(hg g h).1, (hg g h).2.2⟩) ?_⟩
    intro v hv
    obtain ⟨g, hgs, hv⟩ := List.mem_flatten.1 hv
    exact (hg g hgs).2.1 v hv

theorem uses_read {sig : Sig} (q : List Place) {us : List Use} (h : ∀ u ∈ us, u.Ok sig) :
    Reads sig q (us.flatMap Use.tokens) (us.map Use.event) q none ∧ (∀ t ∈ us.flatMap Use.tokens, ¬EndTok t) ∧
      ∀ t, (us.flatMap Use.tokens).head? = some t → OptionForm sig t := by
  induction us with
  | nil => exact ⟨.nil q, by simp, by simp⟩
  | cons u us ih =>
    obtain ⟨h1, h2, h3⟩ := ih fun v hv => h v (List.mem_cons_of_mem _ hv)
    obtain ⟨l, hb⟩ := (h u List.mem_cons_self).block
    obtain ⟨tok, vs, ht, ho, hr⟩ := hb.reads (us.flatMap Use.tokens) (fun _ => h3)
    have hn := hb.noEnd
    rw [List.flatMap_cons, List.map_cons]
    refine ⟨?_, ?_, ?_⟩
    · rw [ht]
      exact .option hr h1
    · intro t ht
      rcases List.mem_append.1 ht with ht | ht
      · exact hn t ht
      · exact h2 t ht
    · rw [ht]
      intro t h
      cases h
      exact ho

theorem words_read {strict : Bool} (ws : List Str) (h : strict = false) :
    ReadsWords strict [] ws (ws.map .extra) [] none := by
  induction ws with
  | nil => exact .nil []
  | cons w ws ih => exact .word (.surplus w ws h) ih

theorem filled_read {strict : Bool} {q : List Place} {fs : List Values} {ws : List Str} (h : Filled strict q fs ws)
    (ha : ∀ p ∈ q, p.kind = .numberPos → 0 < p.arity) :
    ∃ q', ReadsWords strict q (fs.flatMap Values.flat ++ ws)
      (List.zipWith (fun p vals => Event.positional p.id vals) q fs ++ ws.map .extra) q' none := by
  induction h with
  | stop q => exact ⟨q, by cases q <;> exact .nil _⟩
  | surplus ws hs => exact ⟨[], words_read ws hs⟩
  | @next p q vals fs ws hk hv _ ih =>
    obtain ⟨q', hr⟩ := ih fun p hp => ha p (List.mem_cons_of_mem _ hp)
    refine ⟨q', ?_⟩
    rw [List.flatMap_cons, List.append_assoc]
    have ht : Takes (fun _ => False) p.arity p.kind (vals.flat ++ (fs.flatMap Values.flat ++ ws)) vals
        (fs.flatMap Values.flat ++ ws) ∧ vals.flat ≠ [] := by
      have hp := ha p List.mem_cons_self
      generalize p.kind = k at hk hv hp
      cases hv with
      | nothing h => rcases hk with rfl | rfl <;> simp [Valueless] at h
      | single v h => exact ⟨.one v _ h, by simp [Values.flat]⟩
      | one v => simp at hk
      | fixed vs h hl =>
        refine ⟨.fixed vs _ h hl, ?_⟩
        rcases hk with rfl | rfl
        · simp at h
        · intro h0
          have := hp rfl
          simp only [Values.flat] at h0
          rw [h0] at hl
          simp at hl
          omega
      | many vs h => rcases hk with rfl | rfl <;> simp at h
      | group g h => simp at hk
      | groups gs h => rcases hk with rfl | rfl <;> simp at h
    obtain ⟨ht, hne⟩ := ht
    obtain ⟨t, ts, e⟩ : ∃ t ts, vals.flat = t :: ts := by
      cases hf : vals.flat with
      | nil => exact absurd hf hne
      | cons t ts => exact ⟨t, ts, rfl⟩
    rw [e] at ht ⊢
    exact .word (.fill ht) hr
  | @last p q vals hk hv hne =>
    refine ⟨q, ?_⟩
    have ht : Takes (fun _ => False) p.arity p.kind (vals.flat ++ []) vals [] := by
      generalize p.kind = k at hk hv
      cases hv with
      | nothing h => rcases hk with rfl | rfl <;> simp [Valueless] at h
      | single v h => rcases hk with rfl | rfl <;> simp at h
      | one v => simp at hk
      | fixed vs h hl => rcases hk with rfl | rfl <;> simp at h
      | many vs h => exact .many vs _ h ⟨by simp, by simp⟩
      | group g h => simp at hk
      | groups gs h hg => exact .manyGroups gs _ h (fun g hgs => ⟨hg g hgs, by simp⟩) (by simp)
    obtain ⟨t, ts, e⟩ : ∃ t ts, vals.flat = t :: ts := by
      cases hf : vals.flat with
      | nil => exact absurd hf hne
      | cons t ts => exact ⟨t, ts, rfl⟩
    have e' : [vals].flatMap Values.flat ++ [] = vals.flat ++ [] := by simp
    rw [e']
    rw [e] at ht ⊢
    cases q <;> exact .word (.fill ht) (.nil _)

theorem written_line {sig : Sig} {q : List Place} (ha : ∀ p ∈ q, p.kind = .numberPos → 0 < p.arity) {us : List Use}
    {fs : List Values} {ws : List Str} (hu : ∀ u ∈ us, u.Ok sig) (hf : Filled sig.strict q fs ws) :
    Line sig q (written us fs ws) (said q us fs ws) none := by
  obtain ⟨h1, h2, _⟩ := uses_read q hu
  obtain ⟨q', h3⟩ := filled_read hf ha
  exact .split h2 h1 h3

/-- C69. For every parser and all the things one can wish to say, in any order and as often as wanted — uses of options
with values they can be given, values for the positional arguments, surplus words — the command line written from
them is accepted, says exactly these things and nothing else, and the parser shows them; the call returns unless help
or version is among them, a required argument is not, or a validator or conversion objects. -/
theorem C69_written {scan : Str → Option D} {st : State D} {prog : Str} {us : List Use} {fs : List Values} {ws : List Str}
    (h : Ready scan st (prog :: written us fs ws)) (hu : ∀ u ∈ us, u.Ok st.sig)
    (hf : Filled st.isStrict st.places fs ws) :
    Line st.sig st.places (written us fs ws) (said st.places us fs ws) none ∧
    (∀ evs err, Line st.sig st.places (written us fs ws) evs err → evs = said st.places us fs ws ∧ err = none) ∧
    ((st.parseArguments scan (prog :: written us fs ws)).2 = .ok () →
      Shows st (said st.places us fs ws) (st.parseArguments scan (prog :: written us fs ws)).1) ∧
    (Silent st (said st.places us fs ws) → NoneMissing st (said st.places us fs ws) → (∀ s ∈ st.arguments, Returning s) →
      ((st.parseArguments scan (prog :: written us fs ws)).2 = .ok () ↔
        ∀ s ∈ st.arguments, Passes s (said st.places us fs ws))) := by
  have hl : Line st.sig st.places (written us fs ws) (said st.places us fs ws) none := by
    refine written_line (fun p hp hk => ?_) hu hf
    obtain ⟨s, hs, rfl⟩ := List.mem_map.1 hp
    have hs' := (List.mem_filter.1 hs).1
    exact h.sane.groups s hs' (.inr (.inr hk))
  exact ⟨hl, fun evs err hl' => line_unique h.sized h.placesSized hl' hl, fun hok => C20_shows h hl hok,
    fun hq hm hr => C34_accepts_iff h hl hq hm hr⟩

/-- C69, without `--`: when only options are used it can be left out. -/
theorem C69_options {scan : Str → Option D} {st : State D} {prog : Str} {us : List Use}
    (h : Ready scan st (prog :: us.flatMap Use.tokens)) (hu : ∀ u ∈ us, u.Ok st.sig) :
    Line st.sig st.places (us.flatMap Use.tokens) (us.map Use.event) none ∧
    ((st.parseArguments scan (prog :: us.flatMap Use.tokens)).2 = .ok () →
      Shows st (us.map Use.event) (st.parseArguments scan (prog :: us.flatMap Use.tokens)).1) := by
  obtain ⟨h1, h2, _⟩ := uses_read st.places hu
  have hl : Line st.sig st.places (us.flatMap Use.tokens) (us.map Use.event) none := .whole h2 h1
  exact ⟨hl, fun hok => C20_shows h hl hok⟩

/-! ### Nothing else can be written -/

theorem takes_sayable {sig : Sig} {e : Entry} {ts rest : List Str} {vals : Values} (hn : ∀ t ∈ ts, ¬EndTok t)
    (hp : e.kind ≠ .pos ∧ e.kind ≠ .numberPos ∧ e.kind ≠ .infinitePos ∧ e.kind ≠ .infiniteNumberPos)
    (h : Takes (OptionForm sig) e.arity e.kind ts vals rest) : Sayable sig e vals := by
  generalize hk : e.kind = k at h
  cases h with
  | nothing _ hv => exact .nothing (hk ▸ hv)
  | one v _ h =>
    rcases h with rfl | rfl
    · exact .single v hk
    · exact absurd hk hp.1
  | oneMore v => exact .one v (.inl hk)
  | fixed vs ts h hl =>
    rcases h with rfl | rfl
    · exact .fixed hk hl fun v hv => hn v (List.mem_append_left _ hv)
    · exact absurd hk hp.2.1
  | fixedMore vs ts hl => exact .group hk hl fun v hv => hn v (List.mem_append_left _ hv)
  | many vs ts h hlong =>
    have : e.kind = .infinite ∨ e.kind = .multiInfinite := by
      rcases h with rfl | rfl | rfl
      · exact .inl hk
      · exact .inr hk
      · exact absurd hk hp.2.2.1
    exact .many this fun v hv => ⟨hn v (List.mem_append_left _ hv), hlong.1 v hv⟩
  | manyGroups gs ts h hg _ =>
    rcases h with rfl | rfl
    · refine .groups hk fun g hgs => ⟨(hg g hgs).1, fun v hv => ?_, (hg g hgs).2⟩
      exact hn v (List.mem_append_left _ (List.mem_flatten.2 ⟨g, hgs, hv⟩))
    · exact absurd hk hp.2.2.2

theorem takesOne_sayable {sig : Sig} {e : Entry} {v : Str} {vals : Values} (h : TakesOne e.kind v vals) :
    Sayable sig e vals := by
  generalize hk : e.kind = k at h
  cases h with
  | simple => exact .single v hk
  | list _ h =>
    refine .one v ?_
    rcases h with rfl | rfl | rfl <;> simp [hk]

theorem takes_suffix {stop : Str → Prop} {n : Nat} {k : Ty} {ts rest : List Str} {vals : Values}
    (h : Takes stop n k ts vals rest) : rest <:+ ts := by
  cases h with
  | nothing => exact List.suffix_refl _
  | one v => exact List.suffix_cons _ _
  | oneMore v => exact List.suffix_cons _ _
  | fixed vs => exact List.suffix_append _ _
  | fixedMore vs => exact List.suffix_append _ _
  | many vs => exact List.suffix_append _ _
  | manyGroups gs => exact List.suffix_append _ _

theorem optionReads_suffix {stop : Str → Prop} {name : Str} {e : Entry} {att : Bool} {eq : Option Str} {ts rest : List Str}
    {evs : List Event} (h : OptionReads stop name e att eq ts evs (.rest rest)) : rest <:+ ts := by
  cases h with
  | value => exact List.suffix_refl _
  | following h => exact takes_suffix h

theorem clusterReads_suffix {sig : Sig} {stop : Str → Prop} {eq : Option Str} {ts rest : List Str} {cs : List Char}
    {evs : List Event} (h : ClusterReads sig stop eq ts cs evs (.rest rest)) : rest <:+ ts := by
  generalize ho : Out.rest rest = out at h
  induction h with
  | none => cases ho
  | unknown => cases ho
  | last _ h => exact optionReads_suffix (ho ▸ h)
  | attached _ _ _ _ h => exact optionReads_suffix (ho ▸ h)
  | notLast => cases ho
  | switch _ _ _ _ ih => exact ih ho

theorem tokenReads_suffix {sig : Sig} {stop : Str → Prop} {tok : Str} {ts rest : List Str}
    {evs : List Event} (h : TokenReads sig stop tok ts evs (.rest rest)) : rest <:+ ts := by
  cases h with
  | long _ _ _ h => exact optionReads_suffix h
  | alternative _ _ _ _ h => exact optionReads_suffix h
  | cluster _ _ _ h => exact clusterReads_suffix h

theorem wordReads_suffix {stop : Str → Prop} {strict : Bool} {q q' : List Place} {ts rest : List Str} {ev : Event}
    (h : WordReads stop strict q ts ev q' rest) : rest <:+ ts := by
  cases h with
  | fill h => exact takes_suffix h
  | surplus => exact List.suffix_cons _ _

/-- Dashed names are names of options. -/
def DashedOptions (sig : Sig) : Prop :=
  ∀ name e, sig.flag ('-' :: name) = some e →
    e.kind ≠ .pos ∧ e.kind ≠ .numberPos ∧ e.kind ≠ .infinitePos ∧ e.kind ≠ .infiniteNumberPos

/-- The event is a use of an option with values it can be given. -/
def SaidBy (sig : Sig) (ev : Event) : Prop :=
  ∃ name e att vals, sig.flag ('-' :: name) = some e ∧ ev = .option e.id att vals ∧ Sayable sig e vals

theorem optionReads_sayable {sig : Sig} (hd : DashedOptions sig) {name n : Str} {e : Entry} (hf : sig.flag ('-' :: n) = some e)
    {att : Bool} {eq : Option Str} {ts : List Str} {evs : List Event} {out : Out} (hn : ∀ t ∈ ts, ¬EndTok t)
    (h : OptionReads (OptionForm sig) name e att eq ts evs out) : ∀ ev ∈ evs, SaidBy sig ev := by
  cases h with
  | value _ h =>
    intro ev hev
    rw [List.mem_singleton.1 hev]
    exact ⟨n, e, _, _, hf, rfl, takesOne_sayable h⟩
  | following h =>
    intro ev hev
    rw [List.mem_singleton.1 hev]
    exact ⟨n, e, _, _, hf, rfl, takes_sayable hn (hd n e hf) h⟩
  | valueForSeveral => simp
  | valueForNone => simp
  | missing => simp

theorem clusterReads_sayable {sig : Sig} (hd : DashedOptions sig) {eq : Option Str} {ts : List Str} {cs : List Char}
    {evs : List Event} {out : Out} (hn : ∀ t ∈ ts, ¬EndTok t)
    (h : ClusterReads sig (OptionForm sig) eq ts cs evs out) : ∀ ev ∈ evs, SaidBy sig ev := by
  induction h with
  | none => simp
  | unknown => simp
  | last hf h => exact optionReads_sayable hd hf hn h
  | attached _ hf _ _ h => exact optionReads_sayable hd hf hn h
  | notLast => simp
  | switch _ hf hs _ ih =>
    intro ev hev
    rcases List.mem_cons.1 hev with rfl | hev
    · refine ⟨_, _, false, .nothing, hf, rfl, .nothing ?_⟩
      rcases hs with h | h <;> simp [Valueless, h]
    · exact ih ev hev

theorem tokenReads_sayable {sig : Sig} (hd : DashedOptions sig) {tok : Str} {ts : List Str}
    {evs : List Event} {out : Out} (hn : ∀ t ∈ ts, ¬EndTok t)
    (h : TokenReads sig (OptionForm sig) tok ts evs out) : ∀ ev ∈ evs, SaidBy sig ev := by
  cases h with
  | long hl hs hf h =>
    obtain ⟨cs, rfl⟩ := long_name hl hs
    exact optionReads_sayable hd hf hn h
  | unknownLong => simp
  | alternative _ hs _ hf h => exact optionReads_sayable hd hf hn h
  | cluster _ _ _ h => exact clusterReads_sayable hd hn h

theorem reads_sayable {sig : Sig} (hd : DashedOptions sig) {q q' : List Place} {ts : List Str} {evs : List Event}
    {err : Option Exn} (h : Reads sig q ts evs q' err) (hn : ∀ t ∈ ts, ¬EndTok t) {id : Nat} {att : Bool} {vals : Values}
    (hm : Event.option id att vals ∈ evs) : SaidBy sig (.option id att vals) := by
  induction h with
  | nil => simp at hm
  | option ht hr ih =>
    have hn' := fun t h => hn t (List.mem_cons_of_mem _ h)
    rcases List.mem_append.1 hm with hm | hm
    · exact tokenReads_sayable hd hn' ht _ hm
    · exact ih (fun t h => hn' t ((tokenReads_suffix ht).subset h)) hm
  | badOption ht => exact tokenReads_sayable hd (fun t h => hn t (List.mem_cons_of_mem _ h)) ht _ hm
  | word _ hw hr ih =>
    rcases List.mem_cons.1 hm with hm | hm
    · cases hw <;> cases hm
    · exact ih (fun t h => hn t ((wordReads_suffix hw).subset h)) hm
  | badWord => simp at hm

/-- C69, nothing else: whatever the command line, each use of an option it denotes has values of that description. -/
theorem C69_sayable {scan : Str → Option D} {st : State D} {argv : List Str} (h : Ready scan st argv)
    {evs : List Event} {err : Option Exn} (hl : Line st.sig st.places (argv.drop 1) evs err)
    {s : Slot D} (hs : s ∈ st.arguments) : ∀ u ∈ uses s.node evs, Sayable st.sig s.entry u.2 := by
  have hi := h.inv
  have hd : DashedOptions st.sig := by
    intro name e hf
    rcases flag_cases hi ('-' :: name) with ⟨_, h⟩ | ⟨t, ht, _, _, h, hn⟩
    · rw [h] at hf; cases hf
    · rw [h] at hf
      cases hf
      have hp := dashed_option hi ht hn
      unfold Argument.isPositional Ty.isPositional at hp
      simp only [Slot.entry]
      revert hp
      cases t.arg.type <;> simp
  intro u hu
  obtain ⟨att, vals⟩ := u
  have hm : Event.option s.node att vals ∈ evs := mem_uses.1 hu
  have : SaidBy st.sig (.option s.node att vals) := by
    generalize argv.drop 1 = line at hl
    cases hl with
    | whole hn hr => exact reads_sayable hd hr hn hm
    | splitBad hn hr => exact reads_sayable hd hr hn hm
    | split hn hr hr' =>
      rcases List.mem_append.1 hm with hm | hm
      · exact reads_sayable hd hr hn hm
      · exact absurd hm (readsWords_option hr')
  obtain ⟨name, e, att', vals', hf, heq, hsay⟩ := this
  injection heq with e1 e2 e3
  subst e3
  rcases flag_cases hi ('-' :: name) with ⟨_, h⟩ | ⟨t, ht, _, _, h, hn⟩
  · rw [h] at hf; cases hf
  · rw [h] at hf
    cases hf
    have := eq_of_node hi hs ht e1.symm
    subst this
    exact hsay

/-- C69, flags. Which flags can be typed: every flag by which `getArgument` finds the option and that holds no `=`, unless it
is one letter and the alternative mode gives `-c` to the long option `--c`. -/
theorem C69_flags {scan : Str → Option D} {st : State D} (h : Reachable scan st) {flag : Str} {s : Slot D}
    (hg : st.getArgument flag = .ok s) (ho : s.arg.isPositional = false) (heq : '=' ∉ flag)
    (hshort : ∀ c, flag = ['-', c] → st.isAlternative = true → ∀ t, st.getArgument ['-', '-', c] ≠ .ok t) :
    Writes st.sig s.entry flag none := by
  have hi := h.inv
  obtain ⟨h1, hs⟩ := entry_of_getArgument hg
  have hf : st.sig.flag flag = some s.entry := by
    rcases flag_cases hi flag with ⟨h2, _⟩ | ⟨t, ht, h2, _, h3, _⟩
    · rw [h2] at h1; cases h1
    · rw [h2] at h1
      injection h1 with h1
      rw [h3, eq_of_node hi hs ht h1]
  have hn : flag ∈ s.arg.names := by
    rcases flag_cases hi flag with ⟨h2, _⟩ | ⟨t, ht, h2, _, _, h3⟩
    · rw [h2] at h1; cases h1
    · rw [h2] at h1
      injection h1 with h1
      rw [← eq_of_node hi hs ht h1]; exact h3
  rcases ((C03_names_wellformed h s hs).2 ho).2 flag hn with ⟨c, hc, rfl⟩ | hlong
  · refine .short ⟨c, [], rfl, hc⟩ (.bare heq) ?_ hf
    rintro ⟨ha, hx⟩
    rcases flag_cases hi ['-', '-', c] with ⟨_, h2⟩ | ⟨t, ht, h2, _⟩
    · rw [h2] at hx; cases hx
    · exact hshort c rfl ha t (getArgument_of_entry hi ht h2)
  · exact .long hlong (.bare heq) hf

/-- C69, one value. Any text at all can be given to a single-value option and is what the argument reads, whatever else
is said with other options before and after. -/
theorem C69_any_text {scan : Str → Option D} {st : State D} {prog v : Str} {us us' : List Use} {u : Use} {fs : List Values}
    {ws : List Str} (h : Ready scan st (prog :: written (us ++ u :: us') fs ws))
    (hu : ∀ x ∈ us ++ us', x.Ok st.sig) (hf : Filled st.isStrict st.places fs ws) {s : Slot D} (hs : s ∈ st.arguments)
    (hk : s.arg.type = .simple) (hvalid : s.arg.valid = none) (hw : Writes st.sig s.entry u.flag none)
    (he : u.option = s.entry) (hv : u.vals = .single v) (hother : ∀ x ∈ us', x.option.id ≠ s.node)
    (hok : (st.parseArguments scan (prog :: written (us ++ u :: us') fs ws)).2 = .ok ()) :
    ∃ s', (st.parseArguments scan (prog :: written (us ++ u :: us') fs ws)).1.atObj s.obj = some s' ∧
      s'.arg.toVector = some [v] := by
  have hu' : ∀ x ∈ us ++ u :: us', x.Ok st.sig := by
    intro x hx
    rcases List.mem_append.1 hx with hx | hx
    · exact hu x (List.mem_append_left _ hx)
    · rcases List.mem_cons.1 hx with rfl | hx
      · refine ⟨by rw [he]; exact hw, ?_⟩
        rw [hv, he]
        exact .single v hk
      · exact hu x (List.mem_append_right _ hx)
  obtain ⟨hl, _⟩ := C69_written h hu' hf
  have e1 : uses s.node (said st.places (us ++ u :: us') fs ws) = uses s.node (us.map Use.event) ++ [(false, .single v)] := by
    have hnil : ∀ (q : List Place) (fs : List Values) (ws : List Str),
        uses s.node (List.zipWith (fun p vals => Event.positional p.id vals) q fs ++ ws.map .extra) = [] := by
      intro q fs ws
      unfold uses
      rw [List.filterMap_eq_nil_iff]
      intro ev hev
      rcases List.mem_append.1 hev with hev | hev
      · obtain ⟨i, hi, rfl⟩ := List.mem_iff_getElem.1 hev
        simp
      · obtain ⟨w, _, rfl⟩ := List.mem_map.1 hev
        rfl
    have hnil' : uses s.node (us'.map Use.event) = [] := by
      unfold uses
      rw [List.filterMap_eq_nil_iff]
      intro ev hev
      obtain ⟨x, hx, rfl⟩ := List.mem_map.1 hev
      simp [Use.event, hother x hx]
    unfold said
    have happ : ∀ a b, uses s.node (a ++ b) = uses s.node a ++ uses s.node b := fun a b => List.filterMap_append
    rw [happ, hnil, List.append_nil, List.map_append, happ, List.map_cons]
    congr 1
    have : uses s.node (u.event :: us'.map Use.event) = (false, .single v) :: uses s.node (us'.map Use.event) := by
      unfold uses Use.event
      rw [List.filterMap_cons, he, hv]
      simp [Slot.entry]
    rw [this, hnil']
  obtain ⟨s', h1, h2, _⟩ := C25_last_wins h hl hok hs (.inl hk) e1
  rw [hvalid] at h2
  exact ⟨s', h1, h2⟩

/-! ### Concrete cases -/

/-- Values that look like options, `--` and empty texts, given to `parser`. -/
def demoUses : List Use :=
  [⟨⟨0, .simple, 1⟩, "--out".toList, .single "--".toList⟩, ⟨⟨3, .number, 2⟩, "-n".toList, .list ["-v".toList, [] ]⟩,
   ⟨⟨4, .infinite, 1⟩, "-l".toList, .list ["--out".toList]⟩, ⟨⟨2, .boolean, 0⟩, "-v".toList, .nothing⟩,
   ⟨⟨5, .multi, 1⟩, "-a".toList, .list ["a=b".toList]⟩, ⟨⟨6, .multiNumber, 2⟩, "-g".toList, .groups [["-h".toList, "y".toList] ]⟩]

def demoFills : List Values := [.single "--".toList, .list ["-v".toList, "--".toList] ]

/-- `prog --out=-- -n -v '' -l=--out -v -a=a=b -g -h y -- -- -v --`. -/
theorem demo_written : written demoUses demoFills [] = ["--out=--", "-n", "-v", "", "-l=--out", "-v", "-a=a=b", "-g", "-h", "y",
    "--", "--", "-v", "--"].map String.toList := by decide +kernel

theorem demo_ok : (∀ u ∈ demoUses, u.Ok parser.sig) ∧ Filled parser.isStrict parser.places demoFills [] := by
  have hr := parser_history.reachable
  have w : ∀ (f : Str) (e : Entry), '=' ∉ f →
      (match parser.getArgument f with | .ok s => decide (s.arg.isPositional = false ∧ s.entry = e) | _ => false) = true →
      Writes parser.sig e f none := by
    intro f e heq h
    obtain ⟨s, h1, h2, rfl⟩ : ∃ s, parser.getArgument f = .ok s ∧ s.arg.isPositional = false ∧ s.entry = e := by
      revert h
      cases parser.getArgument f with
      | ok s => intro h; exact ⟨s, rfl, by simpa using h⟩
      | _ => intro h; cases h
    refine C69_flags hr h1 h2 heq fun c _ ha => ?_
    exact absurd ha (by decide +kernel)
  have noEnd : ∀ t : Str, t ≠ ['-', '-'] → ¬EndTok t := fun t h => h
  refine ⟨?_, ?_⟩
  · intro u hu
    simp only [demoUses, List.mem_cons, List.not_mem_nil, or_false] at hu
    rcases hu with rfl | rfl | rfl | rfl | rfl | rfl
    · exact ⟨w _ _ (by decide +kernel) (by decide +kernel), .single _ rfl⟩
    · exact ⟨w _ _ (by decide +kernel) (by decide +kernel), .fixed rfl rfl (by decide +kernel)⟩
    · exact ⟨w _ _ (by decide +kernel) (by decide +kernel), .one _ (.inr (.inl rfl))⟩
    · exact ⟨w _ _ (by decide +kernel) (by decide +kernel), .nothing (by simp [Valueless])⟩
    · exact ⟨w _ _ (by decide +kernel) (by decide +kernel), .one _ (.inl rfl)⟩
    · exact ⟨w _ _ (by decide +kernel) (by decide +kernel), .group rfl rfl (by decide +kernel)⟩
  · have hp : parser.places = [⟨1, "file".toList, .pos, 1⟩, ⟨8, "rest".toList, .infinitePos, 1⟩] := by decide +kernel
    rw [hp]
    exact .next (.inl rfl) (.single _ (.inr rfl)) (.last (.inl rfl) (.many _ (.inr (.inr rfl))) (by decide +kernel))

example : (parser.parseArguments demoScan ("prog".toList :: written demoUses demoFills [])).2 = .ok () ∧
    Shows parser (said parser.places demoUses demoFills [])
      (parser.parseArguments demoScan ("prog".toList :: written demoUses demoFills [])).1 := by
  have hr : Ready demoScan parser ("prog".toList :: written demoUses demoFills []) := by
    rw [demo_written]
    exact parser_ready' _ (by decide)
  have hok : (parser.parseArguments demoScan ("prog".toList :: written demoUses demoFills [])).2 = .ok () := by decide +kernel
  exact ⟨hok, (C69_written hr demo_ok.1 demo_ok.2).2.2.1 hok⟩

/-- The option reads `--`. -/
example : ∃ s', (parser.parseArguments demoScan ("prog".toList :: written demoUses demoFills [])).1.atObj 0 = some s' ∧
    s'.arg.toVector = some ["--".toList] := by
  have hr : Ready demoScan parser ("prog".toList :: written demoUses demoFills []) := by
    rw [demo_written]
    exact parser_ready' _ (by decide)
  have hok : (parser.parseArguments demoScan ("prog".toList :: written demoUses demoFills [])).2 = .ok () := by decide +kernel
  obtain ⟨s, hs, h0, h1, h2, h3⟩ : ∃ s ∈ parser.arguments, s.obj = 0 ∧ s.entry = ⟨0, .simple, 1⟩ ∧ s.arg.type = .simple ∧
      s.arg.valid = none := by
    refine ⟨(parser.atObj 0).get (by decide +kernel), ?_, ?_⟩
    · exact List.mem_of_find?_eq_some (Option.some_get _).symm
    · exact ⟨by decide +kernel, by decide +kernel, by decide +kernel, Option.isNone_iff_eq_none.1 (by decide +kernel)⟩
  rw [← h0]
  refine C69_any_text (us := []) (u := demoUses.head (by decide +kernel)) (us' := demoUses.tail) hr ?_ demo_ok.2 hs h2 h3 ?_ h1.symm rfl ?_ hok
  · intro x hx
    exact demo_ok.1 x (List.mem_of_mem_tail hx)
  · rw [h1]
    exact (demo_ok.1 _ List.mem_cons_self).1
  · intro x hx
    have : s.node = 0 := congrArg Entry.id h1
    rw [this]
    revert x hx
    decide +kernel

/-- A list that has more than one element cannot hold an option: no command line gives `-l` the values `--out`, `x`. -/
example {argv : List Str} (h : Ready demoScan parser argv) {evs : List Event} {err : Option Exn}
    (hl : Line parser.sig parser.places (argv.drop 1) evs err) {att : Bool} :
    (att, Values.list ["--out".toList, "x".toList]) ∉ uses 4 evs := by
  intro hu
  obtain ⟨s, hs, h1⟩ : ∃ s ∈ parser.arguments, s.entry = ⟨4, .infinite, 1⟩ := by
    refine ⟨(parser.atObj 4).get (by decide +kernel), ?_, by decide +kernel⟩
    exact List.mem_of_find?_eq_some (Option.some_get _).symm
  have hn : s.node = 4 := congrArg Entry.id h1
  have := C69_sayable h hl hs _ (by rw [hn]; exact hu)
  rw [h1] at this
  cases this with
  | fixed h => cases h
  | many _ h =>
    refine (h "--out".toList List.mem_cons_self).2 (.long (e := ⟨0, .simple, 1⟩) ⟨_, _, rfl⟩ (.bare (by decide +kernel)) (by decide +kernel))

end BletArgs
