import Verif.Spec.Blocks
import Verif.Props.Lines
/-
Properties C65 (values are taken verbatim) and C66 (the order of options is irrelevant).
-/
namespace BletArgs
open Spec
variable {D : Type}

/-! ### Lines with the same events -/

theorem see_uses_fills {st : State D} {full : Prop} (hi : GInv full st) {s : Slot D} (hs : s ∈ st.arguments)
    {ts ts' : List Str} {evs evs' : List Event} {err err' : Option Exn} (hl : Line st.sig st.places ts evs err)
    (hl' : Line st.sig st.places ts' evs' err') (hu : uses s.node evs' = uses s.node evs)
    (hf : fills s.node evs' = fills s.node evs) : s.arg.afterTokens s.node evs' = s.arg.afterTokens s.node evs := by
  cases hp : s.arg.isPositional with
  | false => rw [afterTokens_option hi hs hp hl, afterTokens_option hi hs hp hl', hu]
  | true =>
    rcases afterTokens_positional hi hs hp hl with ⟨a, b⟩ | ⟨v, a, _, b⟩ <;>
      rcases afterTokens_positional hi hs hp hl' with ⟨a', b'⟩ | ⟨v', a', _, b'⟩
    · rw [b, b']
    · rw [hf, a] at a'; cases a'
    · rw [hf, a] at a'; cases a'
    · rw [hf, a] at a'; cases a'; rw [b, b']

/-- Two accepted command lines that give each argument the same values and leave the same surplus words. -/
theorem same_events {scan : Str → Option D} {st : State D} {argv argv' : List Str} (h : Ready scan st argv)
    (h' : Ready scan st argv') (hh : argv'.head? = argv.head?) {evs evs' : List Event}
    (hl : Line st.sig st.places (argv.drop 1) evs none) (hl' : Line st.sig st.places (argv'.drop 1) evs' none)
    (hu : ∀ id, uses id evs' = uses id evs) (hf : ∀ id, fills id evs' = fills id evs) (he : extras evs' = extras evs) :
    st.parseArguments scan argv' = st.parseArguments scan argv := by
  rw [parse_seen h hl, parse_seen h' hl']
  have hb : st.begin argv' = st.begin argv := by
    unfold State.begin
    rw [show argv'.headD [] = argv.headD [] by cases argv <;> cases argv' <;> simp_all]
  have : st.seen argv' evs' = st.seen argv evs := by
    have hm : (st.arguments.map fun s : Slot D => { s with arg := s.arg.afterTokens s.node evs' }) =
        st.arguments.map fun s : Slot D => { s with arg := s.arg.afterTokens s.node evs } := by
      refine List.map_congr_left fun s hs => ?_
      rw [see_uses_fills h.inv hs hl hl' (hu _) (hf _)]
    unfold State.seen
    rw [hb, he, hm]
  rw [this]

/-! ### Blocks -/

theorem Spec.UseBlock.noEnd {sig : Sig} {e : Entry} {ts : List Str} {att : Bool} {vals : Values} {l : Bool}
    (h : UseBlock sig e ts att vals l) : ∀ t ∈ ts, ¬EndTok t := by
  cases h with
  | switch hw _ => simpa using hw.notWord.2
  | equals hw _ => simpa using hw.notWord.2
  | attached hc hv _ _ _ _ =>
    rename_i c v
    simp only [List.mem_singleton, forall_eq]
    intro h; cases h; exact hc rfl
  | one hw _ hv => simpa using ⟨hw.notWord.2, hv⟩
  | oneMore hw _ hv => simpa using ⟨hw.notWord.2, hv⟩
  | fixed hw _ _ hv => simpa using ⟨hw.notWord.2, hv⟩
  | fixedMore hw _ _ hv => simpa using ⟨hw.notWord.2, hv⟩
  | many hw _ hv => simpa using ⟨hw.notWord.2, fun v h => (hv v h).2⟩
  | manyGroups hw _ _ hv => 
    intro t ht
    rcases List.mem_cons.1 ht with rfl | ht
    · exact hw.notWord.2
    · exact hv t ht

/-- A block is read as one use, whatever follows (for a list: if an option follows). -/
theorem Spec.UseBlock.reads {sig : Sig} {e : Entry} {ts : List Str} {att : Bool} {vals : Values} {l : Bool}
    (h : UseBlock sig e ts att vals l) (X : List Str) (hX : l = true → ∀ t, X.head? = some t → OptionForm sig t) :
    ∃ tok vs, ts = tok :: vs ∧ OptionForm sig tok ∧
      TokenReads sig (OptionForm sig) tok (vs ++ X) [.option e.id att vals] (.rest X) := by
  have go : ∀ {tok : Str} {eq : Option Str} {vs : List Str}, Writes sig e tok eq →
      (∀ name, OptionReads (OptionForm sig) name e false eq (vs ++ X) [.option e.id false vals] (.rest X)) →
      OptionForm sig tok ∧ TokenReads sig (OptionForm sig) tok (vs ++ X) [.option e.id false vals] (.rest X) := by
    intro tok eq vs hw ho
    obtain ⟨n, hn⟩ := hw.reads
    exact ⟨hw.form, (hn _ _ _ _).2 (ho n)⟩
  cases h with
  | switch hw hk => exact ⟨_, [], rfl, go hw fun n => .following (.nothing _ hk)⟩
  | equals hw hk => exact ⟨_, [], rfl, go hw fun n => .value _ hk⟩
  | @attached c v _ hc hv heq hn hf hk =>
    have ht : ShortTok ('-' :: c :: v) := ⟨c, v, rfl, hc⟩
    have hsp : Splits ('-' :: c :: v) ('-' :: c :: v) none := .bare (by
      intro h; rcases List.mem_cons.1 h with h | h
      · cases h
      · exact heq h)
    have ha : Attaches e.kind := by
      generalize e.kind = k at hk
      cases hk with
      | simple => simp [Attaches]
      | list _ h => unfold Attaches; rcases h with h | h | h <;> simp [h]
    refine ⟨_, [], rfl, .cluster ht hsp (.first hv hf (.inr ⟨rfl, ha⟩)), .cluster ht hsp hn ?_⟩
    exact .attached hv hf rfl ha (.value _ hk)
  | one hw hk _ => exact ⟨_, [_], rfl, go hw fun n => .following (.one _ _ (.inl hk))⟩
  | oneMore hw hk _ => exact ⟨_, [_], rfl, go hw fun n => .following (by rw [hk]; exact .oneMore _ _)⟩
  | fixed hw hk hl _ => exact ⟨_, _, rfl, go hw fun n => .following (.fixed _ _ (.inl hk) hl)⟩
  | fixedMore hw hk hl _ => exact ⟨_, _, rfl, go hw fun n => .following (by rw [hk]; exact .fixedMore _ _ hl)⟩
  | many hw hk hv =>
    exact ⟨_, _, rfl, go hw fun n => .following (.many _ _ (by rcases hk with hk | hk; exact .inl hk; exact .inr (.inl hk))
      ⟨fun v h => (hv v h).1, hX rfl⟩)⟩
  | manyGroups hw hk hg _ =>
    exact ⟨_, _, rfl, go hw fun n => .following (.manyGroups _ _ (.inl hk) hg (hX rfl))⟩

/-! ### Items -/

/-- What the use written `ts` of option `id` says. -/
noncomputable def saysOf (sig : Sig) (id : Nat) (ts : List Str) : Bool × Values :=
  open Classical in
  if h : ∃ x : Bool × Values, ∃ e l, e.id = id ∧ UseBlock sig e ts x.1 x.2 l then h.choose else (false, .nothing)

theorem saysOf_spec {sig : Sig} {id : Nat} {ts : List Str} (h : (Item.use id ts).Valid sig) :
    ∃ e l, e.id = id ∧ UseBlock sig e ts (saysOf sig id ts).1 (saysOf sig id ts).2 l := by
  have h' : ∃ x : Bool × Values, ∃ e l, e.id = id ∧ UseBlock sig e ts x.1 x.2 l := by
    obtain ⟨e, att, vals, l, h1, h2⟩ := h
    exact ⟨(att, vals), e, l, h1, h2⟩
  unfold saysOf
  rw [dif_pos h']
  exact h'.choose_spec

theorem Spec.Items.valid {sig : Sig} {is : List Item} (h : Items sig is) : ∀ i ∈ is, i.Valid sig := by
  induction h with
  | nil => simp
  | last h => simpa using h
  | cons h _ _ ih => 
    intro i hi
    rcases List.mem_cons.1 hi with rfl | hi
    · exact h
    · exact ih i hi

theorem Spec.Item.head {sig : Sig} {i : Item} (h : i.Valid sig) : (∃ w, i = .word w) ∨ ∃ t ts, i.tokens = t :: ts ∧ OptionForm sig t := by
  cases i with
  | word w => exact .inl ⟨w, rfl⟩
  | use id ts =>
    obtain ⟨e, att, vals, l, _, hb⟩ := h
    have hb' := hb
    right
    cases hb with
    | switch hw _ => exact ⟨_, _, rfl, hw.form⟩
    | equals hw _ => exact ⟨_, _, rfl, hw.form⟩
    | attached =>
      obtain ⟨t, vs, h1, h2, _⟩ := hb'.reads [] (fun h => by cases h)
      exact ⟨t, vs, h1, h2⟩
    | one hw _ hv => exact ⟨_, _, rfl, hw.form⟩
    | oneMore hw _ hv => exact ⟨_, _, rfl, hw.form⟩
    | fixed hw _ _ hv => exact ⟨_, _, rfl, hw.form⟩
    | fixedMore hw _ _ hv => exact ⟨_, _, rfl, hw.form⟩
    | many hw _ hv => exact ⟨_, _, rfl, hw.form⟩
    | manyGroups hw _ _ hv => exact ⟨_, _, rfl, hw.form⟩

/-- The exception for the first surplus word. -/
def surplusError (strict : Bool) (n : Nat) (ws : List Str) : Option Exn :=
  if strict then (ws.drop n).head?.map fun w => parseError w "invalid additional argument" else none

theorem items_reads {sig : Sig} {is : List Item} (h : Items sig is) : ∀ {q : List Place}, (∀ p ∈ q, p.kind = .pos) →
    ∃ evs q', Reads sig q (is.flatMap Item.tokens) evs q' (surplusError sig.strict q.length (wordsOf is)) ∧
      (surplusError sig.strict q.length (wordsOf is) = none → q' = q.drop (wordsOf is).length ∧
        (∀ id, uses id evs = (blocksOf id is).map (saysOf sig id)) ∧
        (∀ id, fills id evs = (q.zip (wordsOf is)).filterMap fun x => if x.1.id = id then some (.single x.2) else none) ∧
        extras evs = (wordsOf is).drop q.length) := by
  have step : ∀ {i : Item} {is : List Item}, i.Valid sig → 
      (∀ id ts, i = .use id ts → ∀ e att vals, UseBlock sig e ts att vals true →
        ∀ t, (is.flatMap Item.tokens).head? = some t → OptionForm sig t) →
      (∀ {q : List Place}, (∀ p ∈ q, p.kind = .pos) →
        ∃ evs q', Reads sig q (is.flatMap Item.tokens) evs q' (surplusError sig.strict q.length (wordsOf is)) ∧
        (surplusError sig.strict q.length (wordsOf is) = none → q' = q.drop (wordsOf is).length ∧
        (∀ id, uses id evs = (blocksOf id is).map (saysOf sig id)) ∧
        (∀ id, fills id evs = (q.zip (wordsOf is)).filterMap fun x => if x.1.id = id then some (.single x.2) else none) ∧
        extras evs = (wordsOf is).drop q.length)) →
      ∀ {q : List Place}, (∀ p ∈ q, p.kind = .pos) →
      ∃ evs q', Reads sig q ((i :: is).flatMap Item.tokens) evs q' (surplusError sig.strict q.length (wordsOf (i :: is))) ∧
      (surplusError sig.strict q.length (wordsOf (i :: is)) = none → q' = q.drop (wordsOf (i :: is)).length ∧
        (∀ id, uses id evs = (blocksOf id (i :: is)).map (saysOf sig id)) ∧
        (∀ id, fills id evs = (q.zip (wordsOf (i :: is))).filterMap fun x => if x.1.id = id then some (.single x.2) else none) ∧
        extras evs = (wordsOf (i :: is)).drop q.length) := by
    intro i is hv hnext ih q hq
    rw [List.flatMap_cons]
    cases i with
    | use id ts =>
      obtain ⟨e, l, he, hb⟩ := saysOf_spec hv
      obtain ⟨evs, q', h1, h2⟩ := ih hq
      obtain ⟨tok, vs, rfl, _, hr⟩ := hb.reads (is.flatMap Item.tokens) (fun hl => hnext id ts rfl e _ _ (hl ▸ hb))
      have hw : wordsOf (.use id (tok :: vs) :: is) = wordsOf is := rfl
      rw [hw]
      refine ⟨_, q', .option hr h1, fun hs => ?_⟩
      obtain ⟨a, b, c, d⟩ := h2 hs
      refine ⟨a, ?_, ?_, ?_⟩
      · intro i
        unfold uses blocksOf at *
        have := b i
        by_cases hid : id = i
        · subst hid
          simp [he, ← this]
        · simp [he, hid, ← this]
      · intro i
        rw [← c i]
        rfl
      · rw [← d]; rfl
    | word w =>
      have hwt : WordTok w := hv
      have hw : wordsOf (.word w :: is) = w :: wordsOf is := rfl
      rw [hw]
      show ∃ evs q', Reads sig q (w :: is.flatMap Item.tokens) _ _ _ ∧ _
      cases q with
      | nil =>
        cases hs : sig.strict with
        | true =>
          refine ⟨[], [], ?_, fun h => by simp [surplusError] at h⟩
          exact .badWord hwt (.surplus _ _ hs)
        | false =>
          obtain ⟨evs, q', h1, h2⟩ := ih hq
          rw [hs] at h1 h2
          have e1 : surplusError false ([] : List Place).length (w :: wordsOf is) = none := rfl
          have e2 : surplusError false ([] : List Place).length (wordsOf is) = none := rfl
          rw [e1]
          rw [e2] at h1
          refine ⟨_, q', .word hwt (.surplus _ _ hs) h1, fun _ => ?_⟩
          obtain ⟨a, b, c, d⟩ := h2 e2
          refine ⟨by simpa using a, ?_, ?_, ?_⟩
          · intro i; rw [show blocksOf i (.word w :: is) = blocksOf i is from rfl, ← b i]; rfl
          · intro i; rw [show fills i (.extra w :: evs) = fills i evs from rfl]; simpa using c i
          · show w :: extras evs = _
            rw [d]; rfl
      | cons p q =>
        obtain ⟨evs, q', h1, h2⟩ := ih (q := q) (fun x hx => hq x (List.mem_cons_of_mem _ hx))
        have e1 : surplusError sig.strict (p :: q).length (w :: wordsOf is) = surplusError sig.strict q.length (wordsOf is) := rfl
        rw [e1]
        refine ⟨_, q', .word hwt (.fill (.one w _ (.inr (hq p List.mem_cons_self)))) h1, fun hs => ?_⟩
        obtain ⟨a, b, c, d⟩ := h2 hs
        refine ⟨by simpa using a, ?_, ?_, ?_⟩
        · intro i; rw [show blocksOf i (.word w :: is) = blocksOf i is from rfl, ← b i]; rfl
        · intro i
          have := c i
          unfold fills at *
          rw [List.filterMap_cons, List.zip_cons_cons, List.filterMap_cons, this]
        · show extras evs = _; rw [d]; rfl
  induction h with
  | nil =>
    intro q _
    have : surplusError sig.strict q.length (wordsOf []) = none := by
      unfold surplusError wordsOf; split <;> simp
    rw [this]
    refine ⟨[], q, .nil q, fun _ => ⟨rfl, fun _ => rfl, fun id => ?_, by simp [extras, wordsOf]⟩⟩
    simp [fills, wordsOf]
  | last hv =>
    intro q hq
    refine step (is := []) hv (fun _ _ _ _ _ _ _ t ht => by cases ht) ?_ hq
    intro q _
    have : surplusError sig.strict q.length (wordsOf []) = none := by
      unfold surplusError wordsOf; split <;> simp
    rw [this]
    refine ⟨[], q, .nil q, fun _ => ⟨rfl, fun _ => rfl, fun id => ?_, by simp [extras, wordsOf]⟩⟩
    simp [fills, wordsOf]
  | @cons i j is hv hjs hnw ih =>
    intro q hq
    refine step hv ?_ (fun hq => ih hq) hq
    intro id ts hi e att vals hb t ht
    rcases Item.head (hjs.valid j List.mem_cons_self) with ⟨w, rfl⟩ | ⟨t', ts', h1, h2⟩
    · exact absurd hb (hnw id ts w hi rfl e att vals)
    · rw [List.flatMap_cons, h1] at ht
      cases ht
      exact h2

theorem items_noEnd {sig : Sig} {is : List Item} (h : Items sig is) : ∀ t ∈ is.flatMap Item.tokens, ¬EndTok t := by
  intro t ht
  obtain ⟨i, hi, ht⟩ := List.mem_flatMap.1 ht
  have := h.valid i hi
  cases i with
  | use id ts =>
    obtain ⟨e, att, vals, l, _, hb⟩ := this
    exact hb.noEnd t ht
  | word w =>
    rw [List.mem_singleton.1 ht]
    intro he
    exact absurd this (by rw [show w = ['-', '-'] from he]; rintro (h | h | ⟨c, r, h, hc⟩) <;> cases h; exact hc rfl)

/-- C66. When every positional argument takes one word, the order of the options does not matter: two command
lines made of the same words in the same order and, for each option, the same uses in the same order have the
same outcome: the same exception, or the same state of the parser. Both may be followed by the same `--` and
words. -/
theorem C66_interleaving {scan : Str → Option D} {st : State D} {prog : Str} {is js : List Item} {tail : List Str}
    (h : Ready scan st (prog :: (is.flatMap Item.tokens ++ tail)))
    (h' : Ready scan st (prog :: (js.flatMap Item.tokens ++ tail)))
    (hpos : ∀ s ∈ st.arguments, s.arg.isPositional = true → s.arg.type = .pos)
    (hi : Items st.sig is) (hj : Items st.sig js) (hr : Reordered is js)
    (htail : tail = [] ∨ ∃ back, tail = ['-', '-'] :: back) :
    (st.parseArguments scan (prog :: (js.flatMap Item.tokens ++ tail))).2 =
      (st.parseArguments scan (prog :: (is.flatMap Item.tokens ++ tail))).2 ∧
    ((∃ evs, Line st.sig st.places (is.flatMap Item.tokens ++ tail) evs none) →
      st.parseArguments scan (prog :: (js.flatMap Item.tokens ++ tail)) =
        st.parseArguments scan (prog :: (is.flatMap Item.tokens ++ tail))) := by
  have hq : ∀ p ∈ st.places, p.kind = .pos := by
    intro p hp
    unfold State.places at hp
    rw [List.mem_map] at hp
    obtain ⟨s, hs, rfl⟩ := hp
    rw [List.mem_filter] at hs
    exact hpos s hs.1 hs.2
  obtain ⟨evs, q', r1, r2⟩ := items_reads hi hq
  obtain ⟨evs', q'', r1', r2'⟩ := items_reads hj hq
  rw [← hr.1] at r1' r2'
  have n1 := items_noEnd hi
  have n2 := items_noEnd hj
  generalize hX : surplusError st.sig.strict st.places.length (wordsOf is) = err at *
  have front : ∀ ts : List Str, (∀ t ∈ ts, ¬EndTok t) → Front (ts ++ tail) ts := by
    intro ts hn
    refine ⟨hn, ?_⟩
    rcases htail with rfl | ⟨back, rfl⟩
    · left; simp
    · right; exact ⟨back, rfl⟩
  cases err with
  | some x =>
    have l1 := Line.of_front (front _ n1) r1
    have l2 := Line.of_front (front _ n2) r1'
    refine ⟨by rw [(parse_of_line h l1).1 x rfl, (parse_of_line h' l2).1 x rfl], ?_⟩
    rintro ⟨evs0, l0⟩
    obtain ⟨_, h0⟩ := line_unique h.sized h.placesSized l0 l1
    cases h0
  | none =>
    obtain ⟨a, b, c, d⟩ := r2 rfl
    obtain ⟨a', b', c', d'⟩ := r2' rfl
    have hu : ∀ id, uses id evs' = uses id evs := fun id => by rw [b, b', hr.2]
    have hf : ∀ id, fills id evs' = fills id evs := fun id => by rw [c, c']
    have he : extras evs' = extras evs := by rw [d, d']
    subst a a'
    -- the words after `--`
    have both : ∃ e2 err2, Line st.sig st.places (is.flatMap Item.tokens ++ tail) (evs ++ e2) err2 ∧
        Line st.sig st.places (js.flatMap Item.tokens ++ tail) (evs' ++ e2) err2 := by
      rcases htail with rfl | ⟨back, rfl⟩
      · exact ⟨[], none, by simpa using Line.whole n1 r1, by simpa using Line.whole n2 r1'⟩
      · obtain ⟨ev0, er0, l0, _⟩ := parse_tokens h
        obtain ⟨e1, e2, q1, x1, g1, rfl, g2⟩ := Line.front (front _ n1) l0
        obtain ⟨rfl, rfl, rfl⟩ := reads_unique h.sized h.placesSized g1 r1
        rcases g2 with ⟨rfl, rfl, g3⟩ | ⟨_, back', q2, g3, g4⟩
        · rcases g3 with g3 | ⟨x, g3⟩
          · exact absurd (congrArg List.length g3) (by simp)
          · cases g3
        · have := List.append_cancel_left g3
          cases this
          exact ⟨e2, er0, .split n1 r1 g4, .split n2 r1' g4⟩
    obtain ⟨e2, err2, l1, l2⟩ := both
    have whole : err2 = none → st.parseArguments scan (prog :: (js.flatMap Item.tokens ++ tail)) =
        st.parseArguments scan (prog :: (is.flatMap Item.tokens ++ tail)) := by
      rintro rfl
      refine same_events h h' rfl l1 l2 ?_ ?_ ?_
      · intro id; have := hu id; unfold uses at *; rw [List.filterMap_append, List.filterMap_append, this]
      · intro id; have := hf id; unfold fills at *; rw [List.filterMap_append, List.filterMap_append, this]
      · unfold extras at *; rw [List.filterMap_append, List.filterMap_append, he]
    cases err2 with
    | none => exact ⟨by rw [whole rfl], fun _ => whole rfl⟩
    | some x =>
      refine ⟨by rw [(parse_of_line h l1).1 x rfl, (parse_of_line h' l2).1 x rfl], ?_⟩
      rintro ⟨evs0, l0⟩
      obtain ⟨_, h0⟩ := line_unique h.sized h.placesSized l0 l1
      cases h0

/-! ### Neighbours -/

theorem line_change {sig : Sig} {q : List Place} {A A' post X : List Str} {evs : List Event} {err : Option Exn}
    (hA : ∀ t ∈ A, ¬EndTok t) (hA' : ∀ t ∈ A', ¬EndTok t) (hf : Front post X) (h : Line sig q (A ++ post) evs err) :
    ∃ e1 e2 q1 x, evs = e1 ++ e2 ∧ Reads sig q (A ++ X) e1 q1 x ∧
      ∀ e1', Reads sig q (A' ++ X) e1' q1 x → Line sig q (A' ++ post) (e1' ++ e2) err := by
  obtain ⟨evs1, evs2, q1, err1, h1, rfl, h2⟩ := h.front (hf.append hA)
  refine ⟨evs1, evs2, q1, err1, rfl, h1, fun e1' h1' => ?_⟩
  rcases h2 with ⟨rfl, rfl, hx⟩ | ⟨rfl, back, q2, e, h2⟩
  · rw [List.append_nil]
    rcases hx with hx | ⟨x, rfl⟩
    · rw [List.append_cancel_left hx]
      exact .whole (hf.append hA').1 h1'
    · exact .of_front (hf.append hA') h1'
  · rw [List.append_assoc] at e
    rw [List.append_cancel_left e, ← List.append_assoc]
    exact .split (hf.append hA').1 h1' h2

/-- C66, neighbours. Whatever the positional arguments: two neighbouring uses of different options can be
exchanged anywhere in front of `--` without changing the outcome. A list of values must also be followed by an
option (or the end) afterwards. -/
theorem C66_exchange {scan : Str → Option D} {st : State D} {argv argv' : List Str} (h : Ready scan st argv)
    (h' : Ready scan st argv') (hh : argv'.head? = argv.head?) {pre vs B post : List Str} {tok : Str}
    (hargv : argv.drop 1 = pre ++ tok :: (vs ++ (B ++ post))) (hargv' : argv'.drop 1 = pre ++ (B ++ tok :: (vs ++ post)))
    (hm : MetAt st.sig st.places pre tok (vs ++ (B ++ post))) {e e' : Entry} {att att' l l' : Bool} {vals vals' : Values}
    (hA : UseBlock st.sig e (tok :: vs) att vals l) (hB : UseBlock st.sig e' B att' vals' l') (hne : e.id ≠ e'.id)
    (hlist : l = true ∨ l' = true → ∀ t, post.head? = some t → OptionForm st.sig t ∨ EndTok t) :
    (st.parseArguments scan argv').2 = (st.parseArguments scan argv).2 ∧
    ((∃ evs, Line st.sig st.places (argv.drop 1) evs none) →
      st.parseArguments scan argv' = st.parseArguments scan argv) := by
  obtain ⟨X0, e0, q0, hpre, hf0, hreach⟩ := hm
  obtain ⟨X, hf⟩ := Front.exists post
  have nA := hA.noEnd
  have nB := hB.noEnd
  have nvs : ∀ t ∈ vs, ¬EndTok t := fun t ht => nA t (List.mem_cons_of_mem _ ht)
  obtain rfl := hf0.unique ((hf.append nB).append nvs)
  have hX : l = true ∨ l' = true → ∀ t, X.head? = some t → OptionForm st.sig t := by
    intro hl t ht
    have hx : post.head? = some t := by
      cases X with
      | nil => cases ht
      | cons x X =>
        cases ht
        rcases hf.2 with hp | ⟨b, hp⟩ <;> rw [hp] <;> rfl
    rcases hlist hl t hx with h | h
    · exact h
    · cases X with
      | nil => cases ht
      | cons x X => cases ht; exact absurd h (hf.1 _ List.mem_cons_self)
  obtain ⟨tB, vB, rfl, oB, rB⟩ := hB.reads X (fun hl => hX (.inr hl))
  obtain ⟨tB', vB', eB, _, rB'⟩ := hB.reads (tok :: (vs ++ X)) (fun _ t ht => by
    cases ht
    obtain ⟨_, _, hc, ho, _⟩ := hA.reads (tB :: (vB ++ X)) (fun _ t ht => by cases ht; exact oB)
    cases hc; exact ho)
  cases eB
  obtain ⟨tA, vA, eA, oA, rA⟩ := hA.reads X (fun hl => hX (.inl hl))
  cases eA
  obtain ⟨tA, vA, eA, _, rA'⟩ := hA.reads (tB :: (vB ++ X)) (fun _ t ht => by cases ht; exact oB)
  cases eA
  obtain ⟨p, hp, hswap⟩ := hreach.swap h.placesTake
  obtain rfl := List.append_cancel_right hp
  have hreach' := hswap tB (vB ++ tok :: (vs ++ X)) (fun _ => oB)
  have go : Reaches st.sig st.places (pre ++ tok :: (vs ++ (tB :: vB ++ X)))
      (e0 ++ ([.option e.id att vals] ++ ([.option e'.id att' vals'] ++ []))) q0 X :=
    hreach.trans (.option rA' (.option rB (.here _ _)))
  have go' : Reaches st.sig st.places (pre ++ tB :: (vB ++ tok :: (vs ++ X)))
      (e0 ++ ([.option e'.id att' vals'] ++ ([.option e.id att vals] ++ []))) q0 X :=
    hreach'.trans (.option rB' (.option rA (.here _ _)))
  obtain ⟨evs, err, hl, _⟩ := parse_tokens h
  have s1 : ∀ Y : List Str, pre ++ tok :: (vs ++ (tB :: vB ++ Y)) = (pre ++ tok :: (vs ++ tB :: vB)) ++ Y := by intro Y; simp
  have s2 : ∀ Y : List Str, pre ++ (tB :: vB ++ tok :: (vs ++ Y)) = (pre ++ tB :: (vB ++ tok :: vs)) ++ Y := by intro Y; simp
  have hl0 := hl
  rw [hargv, s1] at hl
  obtain ⟨e1, e2, q1, x, rfl, hr, hnew⟩ := line_change (A' := pre ++ tB :: (vB ++ tok :: vs)) (by
      intro t ht
      simp only [List.mem_append, List.mem_cons] at ht
      rcases ht with ht | rfl | ht | rfl | ht
      · exact hpre t ht
      · exact nA _ List.mem_cons_self
      · exact nvs t ht
      · exact nB _ List.mem_cons_self
      · exact nB t (List.mem_cons_of_mem _ ht)) (by
      intro t ht
      simp only [List.mem_append, List.mem_cons] at ht
      rcases ht with ht | rfl | ht | rfl | ht
      · exact hpre t ht
      · exact nB _ List.mem_cons_self
      · exact nB t (List.mem_cons_of_mem _ ht)
      · exact nA _ List.mem_cons_self
      · exact nvs t ht) hf hl
  rw [← s1] at hr
  obtain ⟨e3, rfl, hr3⟩ := go.continues h.sized h.placesSized hr
  have hr' := go'.reads hr3
  rw [show pre ++ tB :: (vB ++ tok :: (vs ++ X)) = (pre ++ tB :: (vB ++ tok :: vs)) ++ X by simp] at hr'
  have hl' := hnew _ hr'
  rw [← s2, ← hargv'] at hl'
  have whole : err = none → st.parseArguments scan argv' = st.parseArguments scan argv := by
    rintro rfl
    refine same_events h h' hh hl0 hl' ?_ ?_ ?_
    · intro id
      unfold uses
      simp only [List.filterMap_append, List.filterMap_cons, List.filterMap_nil]
      by_cases h1 : e.id = id <;> by_cases h2 : e'.id = id
      · exact absurd (h1.trans h2.symm) hne
      all_goals simp [h1, h2]
    · intro id
      unfold fills
      simp only [List.filterMap_append, List.filterMap_cons, List.filterMap_nil]
    · unfold extras
      simp only [List.filterMap_append, List.filterMap_cons, List.filterMap_nil]
  cases err with
  | none => exact ⟨by rw [whole rfl], fun _ => whole rfl⟩
  | some x =>
    refine ⟨by rw [(parse_of_line h hl0).1 x rfl, (parse_of_line h' hl').1 x rfl], ?_⟩
    rintro ⟨evs0, l0⟩
    obtain ⟨_, h0⟩ := line_unique h.sized h.placesSized l0 hl0
    cases h0

/-! ### C65: values are verbatim -/

/-- C65. One use of an option is read as written, wherever it is met and whatever its values look like: the
values are the very characters of the tokens, and the parser shows them. -/
theorem C65_use {scan : Str → Option D} {st : State D} {argv : List Str} (h : Ready scan st argv)
    {pre vs post : List Str} {tok : Str} (hargv : argv.drop 1 = pre ++ tok :: (vs ++ post))
    (hm : MetAt st.sig st.places pre tok (vs ++ post)) {e : Entry} {att l : Bool} {vals : Values}
    (hA : UseBlock st.sig e (tok :: vs) att vals l)
    (hlist : l = true → ∀ t, post.head? = some t → OptionForm st.sig t ∨ EndTok t)
    {evs : List Event} {err : Option Exn} (hl : Line st.sig st.places (argv.drop 1) evs err) :
    (∃ before after, evs = before ++ .option e.id att vals :: after) ∧
    ((st.parseArguments scan argv).2 = .ok () → Shows st evs (st.parseArguments scan argv).1) := by
  refine ⟨?_, shows_of_line h hl⟩
  obtain ⟨X0, e0, q0, hpre, hf0, hreach⟩ := hm
  obtain ⟨X, hf⟩ := Front.exists post
  have nA := hA.noEnd
  have nvs : ∀ t ∈ vs, ¬EndTok t := fun t ht => nA t (List.mem_cons_of_mem _ ht)
  obtain rfl := hf0.unique (hf.append nvs)
  obtain ⟨tA, vA, eA, oA, rA⟩ := hA.reads X (fun hl t ht => by
    have hx : post.head? = some t := by
      cases X with
      | nil => cases ht
      | cons x X =>
        cases ht
        rcases hf.2 with hp | ⟨b, hp⟩ <;> rw [hp] <;> rfl
    rcases hlist hl t hx with h | h
    · exact h
    · cases X with
      | nil => cases ht
      | cons x X => cases ht; exact absurd h (hf.1 _ List.mem_cons_self))
  cases eA
  have go := hreach.trans (.option rA (.here _ _))
  have hfront : Front (argv.drop 1) (pre ++ tok :: (vs ++ X)) := by
    rw [hargv]
    have := hf.append (A := pre ++ tok :: vs) (by
      intro t ht
      rcases List.mem_append.1 ht with ht | ht
      · exact hpre t ht
      · exact nA t ht)
    simpa using this
  obtain ⟨e1, e2, q1, x1, h1, rfl, _⟩ := Line.front hfront hl
  obtain ⟨e3, rfl, _⟩ := go.continues h.sized h.placesSized h1
  exact ⟨e0, e3 ++ e2, by simp⟩

/-- C65, reading. When the command line ends with a use of an option that keeps its last values and has no
validator, and the call returns, the argument reads exactly the values written. -/
theorem C65_reads {scan : Str → Option D} {st : State D} {argv : List Str} (h : Ready scan st argv)
    {pre vs : List Str} {tok : Str} (hargv : argv.drop 1 = pre ++ tok :: vs)
    (hm : MetAt st.sig st.places pre tok vs) {e : Entry} {att l : Bool} {vals : Values}
    (hA : UseBlock st.sig e (tok :: vs) att vals l) (hok : (st.parseArguments scan argv).2 = .ok ())
    {s : Slot D} (hs : s ∈ st.arguments) (hid : s.node = e.id)
    (ht : s.arg.type = .simple ∨ s.arg.type = .number ∨ s.arg.type = .infinite) (hv : s.arg.valid = none) :
    ∃ s', (st.parseArguments scan argv).1.atObj s.obj = some s' ∧ s'.arg.toVector = some vals.flat := by
  obtain ⟨evs, err, hl, hx, _⟩ := parse_tokens h
  cases err with
  | some x => rw [hx x rfl] at hok; cases hok
  | none =>
    obtain ⟨X0, e0, q0, hpre, hf0, hreach⟩ := hm
    have nA := hA.noEnd
    have nvs : ∀ t ∈ vs, ¬EndTok t := fun t ht => nA t (List.mem_cons_of_mem _ ht)
    obtain rfl := hf0.unique ⟨nvs, .inl rfl⟩
    obtain ⟨tA, vA, eA, oA, rA⟩ := hA.reads [] (fun hl t ht => by cases ht)
    cases eA
    rw [List.append_nil] at rA
    have go := (hreach.trans (.option rA (.here _ _))).reads (.nil _)
    have hl' : Line st.sig st.places (argv.drop 1) (e0 ++ ([.option e.id att vals] ++ []) ++ []) none := by
      rw [hargv]
      refine .whole ?_ go
      intro t ht
      rcases List.mem_append.1 ht with ht | ht
      · exact hpre t ht
      · exact nA t ht
    obtain ⟨s', h1, h2, _⟩ := C25_last_wins h hl' hok hs ht (us := uses s.node e0) (att := att) (vals := vals) (by
      unfold uses
      simp [List.filterMap_append, hid])
    refine ⟨s', h1, ?_⟩
    rw [hv] at h2
    exact h2

/-- `flag=v` for every text `v`: dashes, spaces, further `=`, nothing at all. -/
theorem block_equals {sig : Sig} {e : Entry} {flag v : Str} (hf : sig.flag flag = some e) (hlong : LongTok flag)
    (heq : '=' ∉ flag) (hk : e.kind = .simple) : UseBlock sig e [flag ++ '=' :: v] false (.single v) false := by
  refine .equals (.long ?_ (.eq flag v ⟨rfl, heq⟩) hf) (by rw [hk]; exact .simple v)
  obtain ⟨c, r, rfl⟩ := hlong
  exact ⟨c, r ++ '=' :: v, rfl⟩

/-- C65, attached values end at `=`: `-oa=b` does not give the value `a=b` but throws. -/
theorem C65_attached_equals {scan : Str → Option D} {st : State D} {argv : List Str} (h : Ready scan st argv)
    {pre post : List Str} {c : Char} {a b : Str} (hargv : argv.drop 1 = pre ++ ('-' :: c :: (a ++ '=' :: b)) :: post)
    (hm : MetAt st.sig st.places pre ('-' :: c :: (a ++ '=' :: b)) post) (hc : c ≠ '-') (hce : c ≠ '=') (ha : a ≠ [])
    (hae : '=' ∉ a) {e : Entry} (hf : st.sig.flag ['-', c] = some e) (hk : Attaches e.kind)
    (halt : ¬(st.isAlternative = true ∧ (st.sig.flag ('-' :: '-' :: c :: a)).isSome)) :
    (st.parseArguments scan argv).2 = .throw ⟨.parse, [c], "only last option can be use a parameter".toList⟩ := by
  obtain ⟨X, evs, q, hpre, hfr, hr⟩ := hm
  have ht : ShortTok ('-' :: c :: (a ++ '=' :: b)) := ⟨c, _, rfl, hc⟩
  refine C56_fault_throws h (.option (ts := pre ++ _ :: X) ?_ hr (.notLast (.mk (ss := []) (cs := a) (eq := some b)
    ht (.eq _ b ⟨rfl, ?_⟩) ha halt (by simp) hf ?_ (by simp))))
  · rw [hargv]
    have := hfr.append (A := pre ++ ['-' :: c :: (a ++ '=' :: b)]) (by
      intro t hm
      rcases List.mem_append.1 hm with hm | hm
      · exact hpre t hm
      · rw [List.mem_singleton.1 hm]; exact noEnd_short ht)
    simpa using this
  · simp [Ne.symm hce, hae]
  · unfold Switch Attaches at *
    intro hs
    rcases hs with hs | hs <;> rw [hs] at hk <;> simp at hk

/-! ### Concrete cases -/

/-- Options and two one-word positional arguments. -/
def wordsOps : List Op :=
  [.add ["-o".toList, "--out".toList], .add ["from".toList], .required 1 true, .add ["to".toList],
   .add ["-v".toList], .action 3 .storeTrue, .add ["-l".toList], .nargs 4 43, .add ["-h".toList], .action 5 .help]

def wordsParser : State Unit := runOps demoScan State.init wordsOps

theorem words_ready (ts : List Str) (h : ts.length < 1000) : Ready demoScan wordsParser ("prog".toList :: ts) :=
  .of_history (reachableBy_runOps .init _ (by decide +kernel)) (by decide +kernel) (by rw [List.length_cons]; omega)
    ⟨_, rfl, by decide +kernel⟩

theorem words_items : Items wordsParser.sig
      [.use 0 ["--out=-v".toList], .word "a".toList, .use 3 ["-v".toList], .use 0 ["-o".toList, "-l".toList], .word "b".toList,
       .use 4 ["-l".toList, "x".toList, "y".toList]] ∧
    Items wordsParser.sig
      [.use 3 ["-v".toList], .use 4 ["-l".toList, "x".toList, "y".toList], .use 0 ["--out=-v".toList],
       .use 0 ["-o".toList, "-l".toList], .word "a".toList, .word "b".toList] := by
  have w0 : Writes wordsParser.sig ⟨0, .simple, 1⟩ "--out=-v".toList (some "-v".toList) :=
    .long ⟨'o', _, rfl⟩ (.eq "--out".toList "-v".toList ⟨rfl, by decide +kernel⟩) (by decide +kernel)
  have noAlt : ¬(wordsParser.sig.alternative = true ∧ False) := by simp
  have sh : ∀ c : Char, c ≠ '-' → c ≠ '=' → ∀ e, wordsParser.sig.flag ['-', c] = some e → Writes wordsParser.sig e ['-', c] none := by
    intro c h1 h2 e he
    exact writes_switch h1 h2 he (by rintro ⟨h, _⟩; revert h; decide +kernel)
  have v0 : (Item.use 0 ["--out=-v".toList]).Valid wordsParser.sig := ⟨_, _, _, _, rfl, .equals w0 (.simple _)⟩
  have v1 : (Item.use 0 ["-o".toList, "-l".toList]).Valid wordsParser.sig :=
    ⟨⟨0, .simple, 1⟩, _, _, _, rfl, .one (sh 'o' (by decide) (by decide) _ (by decide +kernel)) rfl (by decide +kernel)⟩
  have v2 : (Item.use 3 ["-v".toList]).Valid wordsParser.sig :=
    ⟨⟨3, .boolean, 0⟩, _, _, _, rfl, .switch (sh 'v' (by decide) (by decide) _ (by decide +kernel)) (by simp [Valueless])⟩
  have v3 : (Item.use 4 ["-l".toList, "x".toList, "y".toList]).Valid wordsParser.sig := by
    refine ⟨⟨4, .infinite, 1⟩, _, _, _, rfl, .many (sh 'l' (by decide) (by decide) _ (by decide +kernel)) (.inl rfl) ?_⟩
    intro v hv
    have word : ∀ c : Char, c ≠ '-' → ¬OptionForm wordsParser.sig [c] ∧ ¬EndTok [c] := by
      intro c hc
      refine ⟨?_, by intro h; cases h⟩
      intro h
      cases h with
      | long h => obtain ⟨_, _, h⟩ := h; cases h
      | alternative h => obtain ⟨_, _, h, _⟩ := h; cases h
      | cluster h => obtain ⟨_, _, h, _⟩ := h; cases h
    rw [List.mem_cons, List.mem_singleton] at hv
    rcases hv with rfl | rfl
    · exact word 'x' (by decide)
    · exact word 'y' (by decide)
  have wa : ∀ c : Char, c ≠ '-' → (Item.word [c]).Valid wordsParser.sig := fun c hc => .inr (.inr ⟨c, [], rfl, hc⟩)
  have nl : ∀ {tok : Str} {vs : List Str} {e : Entry} {att : Bool} {vals : Values},
      (∀ e', Writes wordsParser.sig e' tok none → e'.kind = .simple ∨ e'.kind = .boolean) →
      ¬UseBlock wordsParser.sig e (tok :: vs) att vals true := by
    intro tok vs e att vals hk hb
    cases hb with
    | many hw hk' => rcases hk _ hw with h | h <;> rw [h] at hk' <;> simp at hk'
    | manyGroups hw hk' => rcases hk _ hw with h | h <;> rw [h] at hk' <;> simp at hk'
  have noAl : wordsParser.sig.alternative = false := by decide +kernel
  have k1 : ∀ e', Writes wordsParser.sig e' "-o".toList none → e'.kind = .simple ∨ e'.kind = .boolean := by
    intro e' hw
    generalize hn : (none : Option Str) = eq at hw
    cases hw with
    | long h => obtain ⟨_, _, h⟩ := h; cases h
    | alternative _ _ h => rw [noAl] at h; cases h
    | short _ hs _ hf =>
      subst hn
      have e : "-o".toList = ['-', 'o'] := by decide +kernel
      rw [e] at hs
      cases hs
      have : wordsParser.sig.flag ['-', 'o'] = some ⟨0, .simple, 1⟩ := by decide +kernel
      rw [this] at hf; cases hf; exact .inl rfl
  have k0 : ∀ e', Writes wordsParser.sig e' "--out=-v".toList none → e'.kind = .simple ∨ e'.kind = .boolean := by
    intro e' hw
    generalize hn : (none : Option Str) = eq at hw
    cases hw with
    | long _ hs =>
      subst hn
      generalize ht : "--out=-v".toList = t at hs
      cases hs with
      | bare h => subst ht; exact absurd (by decide +kernel) h
    | alternative _ _ h => rw [noAl] at h; cases h
    | short h => obtain ⟨_, _, h, h'⟩ := h; cases h; exact absurd rfl h'
  refine ⟨?_, ?_⟩
  · refine .cons v0 (.cons (wa 'a' (by decide)) (.cons v2 (.cons v1 (.cons (wa 'b' (by decide)) (.last v3) ?_) ?_) ?_) ?_) ?_
    · rintro _ _ _ h _; cases h
    · rintro _ _ _ h _; cases h; intro e att vals; exact nl k1
    · rintro _ _ _ _ h; cases h
    · rintro _ _ _ h _; cases h
    · rintro _ _ _ h _; cases h; intro e att vals; exact nl k0
  · refine .cons v2 (.cons v3 (.cons v0 (.cons v1 (.cons (wa 'a' (by decide)) (.last (wa 'b' (by decide))) ?_) ?_) ?_) ?_) ?_
    · rintro _ _ _ h _; cases h
    · rintro _ _ _ h _; cases h; intro e att vals; exact nl k1
    · rintro _ _ _ _ h; cases h
    · rintro _ _ _ _ h; cases h
    · rintro _ _ _ _ h; cases h

/-- `prog --out=-v a -v -o -l b -l x y` and `prog -v -l x y --out=-v -o -l a b` are the same. -/
example : wordsParser.parseArguments demoScan (["prog", "-v", "-l", "x", "y", "--out=-v", "-o", "-l", "a", "b"].map String.toList) =
    wordsParser.parseArguments demoScan (["prog", "--out=-v", "a", "-v", "-o", "-l", "b", "-l", "x", "y"].map String.toList) := by
  have h := C66_interleaving (tail := []) (words_ready _ (by decide)) (words_ready _ (by decide)) (by decide +kernel)
    words_items.1 words_items.2 ⟨rfl, fun id => by
      by_cases h0 : 0 = id
      · subst h0; rfl
      · by_cases h3 : 3 = id
        · subst h3; rfl
        · by_cases h4 : 4 = id
          · subst h4; rfl
          · simp [blocksOf, h0, h3, h4]⟩ (.inl rfl)
  refine h.2 ?_
  obtain ⟨evs, err, hl, he, _⟩ := parse_tokens (words_ready (["--out=-v", "a", "-v", "-o", "-l", "b", "-l", "x", "y"].map String.toList) (by decide))
  cases err with
  | none => exact ⟨evs, hl⟩
  | some x =>
    have := he x rfl
    rw [show (wordsParser.parseArguments demoScan ("prog".toList :: ["--out=-v", "a", "-v", "-o", "-l", "b", "-l", "x", "y"].map String.toList)).2 =
      .ok () by decide +kernel] at this
    cases this

/-- `prog -v --out=--out=-- x`: the value is `--out=-- x`, dashes, `=` and space included. -/
example : ∃ s', (parser.parseArguments demoScan (["prog", "f", "-v", "--out=--out=-- x"].map String.toList)).1.atObj 0 = some s' ∧
    s'.arg.toVector = some ["--out=-- x".toList] := by
  have hflag : parser.sig.flag "--out".toList = some ⟨0, .simple, 1⟩ := by decide +kernel
  have hw : WordTok ['f'] := .inr (.inr ⟨'f', [], rfl, by decide⟩)
  obtain ⟨Q, hp⟩ : ∃ Q, parser.places = ⟨1, "file".toList, .pos, 1⟩ :: Q := ⟨parser.places.tail, by decide +kernel⟩
  have hr : Ready demoScan parser (["prog", "f", "-v", "--out=--out=-- x"].map String.toList) :=
    parser_ready' (["f", "-v", "--out=--out=-- x"].map String.toList) (by decide)
  have hm : MetAt parser.sig parser.places [['f'], ['-', 'v']] ("--out".toList ++ '=' :: "--out=-- x".toList) [] := by
    refine ⟨[], .positional 1 (.single ['f']) :: ([.option 2 false .nothing] ++ []), Q, by decide +kernel, ⟨by simp, .inl rfl⟩, ?_⟩
    rw [hp]
    exact .word hw (.fill (.one _ _ (.inr rfl))) (.option parser_v (.here _ _))
  have ho : ((parser.atObj 0).get (by decide +kernel)).obj = 0 := by decide +kernel
  have := C65_reads (s := (parser.atObj 0).get (by decide +kernel)) hr
    (pre := [['f'], ['-', 'v']]) (vs := []) (tok := "--out".toList ++ '=' :: "--out=-- x".toList) (by decide +kernel) hm
    (block_equals (e := ⟨0, .simple, 1⟩) hflag ⟨'o', _, rfl⟩ (by decide +kernel) rfl) (by decide +kernel)
    (List.mem_of_find?_eq_some (Option.some_get (by decide +kernel)).symm)
    (by decide +kernel) (.inl (by decide +kernel)) (by decide +kernel)
  rw [ho] at this
  exact this

/-- `prog -v -oa=b` throws for `o`. -/
example : (parser.parseArguments demoScan (["prog", "-v", "-oa=b", "f"].map String.toList)).2 =
    .throw ⟨.parse, "o".toList, "only last option can be use a parameter".toList⟩ := by
  have hr : Ready demoScan parser (["prog", "-v", "-oa=b", "f"].map String.toList) :=
    parser_ready' (["-v", "-oa=b", "f"].map String.toList) (by decide)
  rw [show "o".toList = ['o'] from by decide +kernel]
  exact C65_attached_equals (pre := ["-v".toList]) (post := ["f".toList]) (c := 'o') (a := "a".toList) (b := "b".toList)
    hr (by decide +kernel) (parser_met _ _) (by decide) (by decide) (by decide +kernel) (by decide +kernel)
    (e := ⟨0, .simple, 1⟩) (by decide +kernel) (by simp [Attaches]) (by rintro ⟨h, _⟩; revert h; decide +kernel)

/-- `prog -v -n a b -o 1 f` and `prog -v -o 1 -n a b f` are the same, although `rest` is a positional list. -/
example : parser.parseArguments demoScan (["prog", "-v", "-o", "1", "-n", "a", "b", "f"].map String.toList) =
    parser.parseArguments demoScan (["prog", "-v", "-n", "a", "b", "-o", "1", "f"].map String.toList) := by
  have sh : ∀ c : Char, c ≠ '-' → c ≠ '=' → ∀ e, parser.sig.flag ['-', c] = some e → Writes parser.sig e ['-', c] none := by
    intro c h1 h2 e he
    exact writes_switch h1 h2 he (by rintro ⟨h, _⟩; revert h; decide +kernel)
  have hr : Ready demoScan parser (["prog", "-v", "-o", "1", "-n", "a", "b", "f"].map String.toList) :=
    parser_ready' (["-v", "-o", "1", "-n", "a", "b", "f"].map String.toList) (by decide)
  have hr' : Ready demoScan parser (["prog", "-v", "-n", "a", "b", "-o", "1", "f"].map String.toList) :=
    parser_ready' (["-v", "-n", "a", "b", "-o", "1", "f"].map String.toList) (by decide)
  refine (C66_exchange (pre := ["-v".toList]) (tok := "-n".toList) (vs := ["a".toList, "b".toList]) (B := ["-o".toList, "1".toList])
    (post := ["f".toList]) hr' hr rfl (by decide +kernel) (by decide +kernel)
    (parser_met _ _) (e := ⟨3, .number, 2⟩) (e' := ⟨0, .simple, 1⟩) (l := false) (l' := false)
    (.fixed (sh 'n' (by decide) (by decide) _ (by decide +kernel)) rfl rfl (by decide +kernel))
    (.one (sh 'o' (by decide) (by decide) _ (by decide +kernel)) rfl (by decide +kernel)) (by decide) (by simp)).2 ?_
  obtain ⟨evs, err, hl, he, _⟩ := parse_tokens (parser_ready' (["-v", "-n", "a", "b", "-o", "1", "f"].map String.toList) (by decide))
  cases err with
  | none => exact ⟨evs, hl⟩
  | some x =>
    have := he x rfl
    rw [show (parser.parseArguments demoScan ("prog".toList :: ["-v", "-n", "a", "b", "-o", "1", "f"].map String.toList)).2 =
      .ok () by decide +kernel] at this
    cases this

end BletArgs
