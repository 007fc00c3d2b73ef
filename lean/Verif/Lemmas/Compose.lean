import Verif.Spec.Compose
import Verif.Lemmas.Position
import Verif.Lemmas.Blame
/-
Lemmas for C92: one command line after another.
-/
namespace BletArgs.Spec

/-- `O` holds of the identifiers of the arguments with unlimited kinds. -/
def OpenIds (sig : Sig) (q : List Place) (O : Nat → Prop) : Prop :=
  (∀ name e, sig.flag name = some e → Unlimited e.kind → O e.id) ∧ ∀ p ∈ q, Unlimited p.kind → O p.id

/-- The last event is about no such argument. -/
def Tight (O : Nat → Prop) (evs : List Event) : Prop := ∀ ev, evs.getLast? = some ev → ∀ i, ev.about = some i → ¬O i

theorem takes_tight {stop : Str → Prop} {n : Nat} {k : Ty} {ts : List Str} {vals : Values}
    (h : Takes stop n k ts vals []) (hk : ¬Unlimited k) (X : List Str) : Takes stop n k (ts ++ X) vals X := by
  generalize hr : ([] : List Str) = r at h
  cases h with
  | nothing _ hv => subst hr; exact .nothing X hv
  | one v _ hv => subst hr; exact .one v X hv
  | oneMore v _ => subst hr; exact .oneMore v X
  | fixed vs _ hv hl => subst hr; rw [List.append_nil]; exact .fixed vs X hv hl
  | fixedMore vs _ hl => subst hr; rw [List.append_nil]; exact .fixedMore vs X hl
  | many vs _ hv hl => exact absurd (by unfold Unlimited; rcases hv with h | h | h <;> simp [h]) hk
  | manyGroups gs _ hv hg hl => exact absurd (by unfold Unlimited; rcases hv with h | h <;> simp [h]) hk

/-- What the reading of an item needs of what comes behind. -/
def Behaves (stop : Str → Prop) (O : Nat → Prop) (evs : List Event) (X : List Str) : Prop :=
  (∀ t, X.head? = some t → stop t) ∨ Tight O evs

theorem takes_more {stop : Str → Prop} {n : Nat} {k : Ty} {ts rest : List Str} {vals : Values}
    (h : Takes stop n k ts vals rest) (X : List Str) (hX : rest = [] → (∀ t, X.head? = some t → stop t) ∨ ¬Unlimited k) :
    Takes stop n k (ts ++ X) vals (rest ++ X) := by
  cases rest with
  | nil =>
    rcases hX rfl with hX | hX
    · obtain ⟨p, e, h⟩ := takes_swap h
      rw [List.append_nil] at e
      subst e
      exact h X fun _ => hX
    · exact takes_tight h hX X
  | cons t rest =>
    obtain ⟨p, rfl, h'⟩ := takes_swap h
    rw [List.append_assoc]
    exact h' (t :: rest ++ X) fun hh x hx => hh x hx

theorem optionReads_more {stop : Str → Prop} {O : Nat → Prop} {name : Str} {e : Entry} {att : Bool} {eq : Option Str} {ts rest : List Str}
    {evs : List Event} (h : OptionReads stop name e att eq ts evs (.rest rest)) (hO : Unlimited e.kind → O e.id)
    (X : List Str) (hX : rest = [] → Behaves stop O evs X) :
    OptionReads stop name e att eq (ts ++ X) evs (.rest (rest ++ X)) := by
  cases h with
  | value _ h => exact .value _ h
  | following h =>
    refine .following (takes_more h X fun hr => ?_)
    rcases hX hr with h | h
    · exact .inl h
    · exact .inr fun hk => h _ rfl _ rfl (hO hk)

theorem clusterReads_some {sig : Sig} {stop : Str → Prop} {eq : Option Str} {ts : List Str} {cs : List Char}
    {evs : List Event} {out : Out} (h : ClusterReads sig stop eq ts cs evs out) : ∀ rest, out = .rest rest → evs ≠ [] := by
  induction h with
  | none | unknown | notLast => intro r e; cases e
  | last hf h => rintro r rfl; cases h <;> simp
  | attached hne hf he ha h => rintro r rfl; cases h <;> simp
  | switch => intro _ _; simp

theorem tokenReads_some {sig : Sig} {stop : Str → Prop} {tok : Str} {ts rest : List Str}
    {evs : List Event} (h : TokenReads sig stop tok ts evs (.rest rest)) : evs ≠ [] := by
  cases h with
  | long _ _ _ h => cases h <;> simp
  | alternative _ _ _ _ h => cases h <;> simp
  | cluster _ _ _ h => exact clusterReads_some h _ rfl

theorem getLast_cons {α : Type} {a : α} {l : List α} (h : l ≠ []) : (a :: l).getLast? = l.getLast? := by
  cases l with
  | nil => exact absurd rfl h
  | cons b l => rfl

theorem clusterReads_more {sig : Sig} {stop : Str → Prop} {O : Nat → Prop} {eq : Option Str} {ts : List Str} {cs : List Char}
    (hO : ∀ name e, sig.flag name = some e → Unlimited e.kind → O e.id)
    {evs : List Event} {out : Out} (X : List Str) (h : ClusterReads sig stop eq ts cs evs out) : ∀ rest, out = .rest rest →
    (rest = [] → Behaves stop O evs X) → ClusterReads sig stop eq (ts ++ X) cs evs (.rest (rest ++ X)) := by
  induction h with
  | none | unknown | notLast => intro r e; cases e
  | last hf h => rintro r rfl hX; exact .last hf (optionReads_more h (hO _ _ hf) X hX)
  | attached hne hf he ha h => rintro r rfl hX; exact .attached hne hf he ha (optionReads_more h (hO _ _ hf) X hX)
  | switch hne hf hs h ih =>
    intro r e hX
    refine .switch hne hf hs (ih r e fun hr => ?_)
    rcases hX hr with h' | h'
    · exact .inl h'
    · refine .inr ?_
      unfold Tight at h' ⊢
      rwa [getLast_cons (clusterReads_some h r e)] at h'

theorem tokenReads_more {sig : Sig} {stop : Str → Prop} {O : Nat → Prop} {tok : Str} {ts rest : List Str}
    (hO : ∀ name e, sig.flag name = some e → Unlimited e.kind → O e.id)
    {evs : List Event} (h : TokenReads sig stop tok ts evs (.rest rest)) (X : List Str) (hX : rest = [] → Behaves stop O evs X) :
    TokenReads sig stop tok (ts ++ X) evs (.rest (rest ++ X)) := by
  cases h with
  | long a b c h => exact .long a b c (optionReads_more h (hO _ _ c) X hX)
  | alternative a b c d h => exact .alternative a b c d (optionReads_more h (hO _ _ d) X hX)
  | cluster a b c h => exact .cluster a b c (clusterReads_more hO X h _ rfl hX)

theorem wordReads_more {stop : Str → Prop} {O : Nat → Prop} {strict : Bool} {q q1 : List Place} {ts rest : List Str} {ev : Event}
    (hO : ∀ p ∈ q, Unlimited p.kind → O p.id) (h : WordReads stop strict q ts ev q1 rest) (X : List Str)
    (hX : rest = [] → Behaves stop O [ev] X) : WordReads stop strict q (ts ++ X) ev q1 (rest ++ X) := by
  cases h with
  | fill h =>
    refine .fill (takes_more h X fun hr => ?_)
    rcases hX hr with h | h
    · exact .inl h
    · exact .inr fun hk => h _ rfl _ rfl (hO _ List.mem_cons_self hk)
  | surplus w _ hs => exact .surplus w _ hs

theorem wordReads_tail {stop : Str → Prop} {strict : Bool} {q q1 : List Place} {ts rest : List Str} {ev : Event}
    (h : WordReads stop strict q ts ev q1 rest) : ∀ p ∈ q1, p ∈ q := by
  cases h with
  | fill => exact fun p hp => List.mem_cons_of_mem _ hp
  | surplus => exact fun p hp => hp

theorem reads_empty {sig : Sig} {q q1 : List Place} {evs : List Event} {err : Option Exn} (h : Reads sig q [] evs q1 err) :
    evs = [] ∧ q1 = q ∧ err = none := by
  cases h; exact ⟨rfl, rfl, rfl⟩

theorem Tight.right {O : Nat → Prop} {a b : List Event} : Tight O (a ++ b) → Tight O b := by
  unfold Tight
  rw [List.getLast?_append]
  intro h ev he
  exact h ev (by rw [he]; rfl)

/-- A front that is read, followed by more. -/
theorem Reads.reaches {sig : Sig} {O : Nat → Prop} {q q1 : List Place} {ts : List Str} {evs : List Event} {err : Option Exn}
    (h : Reads sig q ts evs q1 err) (hO : OpenIds sig q O) (he : err = none) (X : List Str)
    (hX : Behaves (OptionForm sig) O evs X) : Reaches sig q (ts ++ X) evs q1 X := by
  induction h with
  | nil => exact .here _ _
  | option h g ih =>
    refine .option (tokenReads_more (O := O) hO.1 h X ?_) (ih hO he ?_)
    · rintro rfl
      obtain ⟨rfl, _⟩ := reads_empty g
      rwa [List.append_nil] at hX
    · rcases hX with hX | hX
      · exact .inl hX
      · exact .inr hX.right
  | badOption => cases he
  | word hw h g ih =>
    refine .word hw (wordReads_more (O := O) hO.2 h X ?_) (ih ⟨hO.1, fun p hp => hO.2 p (wordReads_tail h p hp)⟩ he ?_)
    · rintro rfl
      obtain ⟨rfl, _⟩ := reads_empty g
      exact hX
    · rcases hX with hX | hX
      · exact .inl hX
      · rename_i ev _ _
        exact .inr (Tight.right (a := [ev]) hX)
  | badWord => cases he

theorem readsWords_empty {strict : Bool} {q q1 : List Place} {evs : List Event} {err : Option Exn} (h : ReadsWords strict q [] evs q1 err) :
    evs = [] ∧ q1 = q ∧ err = none := by
  cases h; exact ⟨rfl, rfl, rfl⟩

theorem ReadsWords.reaches {strict : Bool} {O : Nat → Prop} {q q1 : List Place} {ts : List Str} {evs : List Event} {err : Option Exn}
    (h : ReadsWords strict q ts evs q1 err) (hO : ∀ p ∈ q, Unlimited p.kind → O p.id) (he : err = none) (X : List Str)
    (hX : Tight O evs) : ReachesWords strict q (ts ++ X) evs q1 X := by
  induction h with
  | nil => exact .here _ _
  | word h g ih =>
    refine .word (wordReads_more (O := O) hO h X ?_) (ih (fun p hp => hO p (wordReads_tail h p hp)) he ?_)
    · rintro rfl
      obtain ⟨rfl, _⟩ := readsWords_empty g
      exact .inr hX
    · rename_i ev _ _
      exact Tight.right (a := [ev]) hX
  | badWord => cases he

theorem ReachesWords.continues {strict : Bool} {q q1 q2 : List Place} (hq : PlacesSized q)
    {ts X : List Str} {e1 e : List Event} {err : Option Exn} (h : ReachesWords strict q ts e1 q1 X)
    (g : ReadsWords strict q ts e q2 err) : ∃ e2, e = e1 ++ e2 ∧ ReadsWords strict q1 X e2 q2 err := by
  induction h generalizing e with
  | here => exact ⟨e, rfl, g⟩
  | word h _ ih =>
    cases g with
    | word h' g' =>
      obtain ⟨rfl, rfl, rfl⟩ := wordReads_unique hq h h'
      obtain ⟨e2, rfl, k⟩ := ih (wordReads_sized hq h) g'
      exact ⟨e2, rfl, k⟩
    | badWord h' => exact (wordReads_not_fails hq h h').elim

/-! ### The positional arguments left -/

theorem wordReads_unfilled {stop : Str → Prop} {strict : Bool} {q q1 : List Place} {ts rest : List Str} {ev : Event}
    (h : WordReads stop strict q ts ev q1 rest) (hq : (q.map (·.id)).Nodup) (evs : List Event) :
    unfilled (ev :: evs) q = unfilled evs q1 ∧ (q1.map (·.id)).Nodup := by
  cases h with
  | @fill p q ts rest vals h =>
    rw [List.map_cons, List.nodup_cons] at hq
    refine ⟨?_, hq.2⟩
    unfold unfilled
    rw [List.filter_cons_of_neg (by simp [fills])]
    apply List.filter_congr
    intro x hx
    have : p.id ≠ x.id := fun e => hq.1 (e ▸ List.mem_map_of_mem hx)
    simp [fills, List.filterMap_cons, this]
  | surplus => exact ⟨rfl, hq⟩

theorem option_events {sig : Sig} {stop : Str → Prop} {tok : Str} {ts : List Str} {evs : List Event} {out : Out}
    (h : TokenReads sig stop tok ts evs out) : ∀ id, fills id evs = [] := by
  have opt : ∀ {name e att eq ts evs out}, OptionReads stop name e att eq ts evs out → ∀ id, fills id evs = [] := by
    intro name e att eq ts evs out h id
    cases h <;> rfl
  have clu : ∀ {eq ts cs evs out}, ClusterReads sig stop eq ts cs evs out → ∀ id, fills id evs = [] := by
    intro eq ts cs evs out h id
    induction h with
    | none | unknown | notLast => rfl
    | last _ h => exact opt h id
    | attached _ _ _ _ h => exact opt h id
    | switch _ _ _ _ ih => exact ih
  cases h with
  | long _ _ _ h => exact opt h
  | unknownLong => intro; rfl
  | alternative _ _ _ _ h => exact opt h
  | cluster _ _ _ h => exact clu h

theorem fills_append (id : Nat) (a b : List Event) : fills id (a ++ b) = fills id a ++ fills id b := List.filterMap_append

theorem unfilled_append_options {a b : List Event} (h : ∀ id, fills id a = []) (q : List Place) : unfilled (a ++ b) q = unfilled b q := by
  unfold unfilled
  simp [fills_append, h]

theorem unfilled_nil (q : List Place) : unfilled [] q = q := by
  unfold unfilled fills
  simp

theorem Reads.left {sig : Sig} {q q1 : List Place} {ts : List Str} {evs : List Event} {err : Option Exn}
    (h : Reads sig q ts evs q1 err) (he : err = none) (hq : (q.map (·.id)).Nodup) :
    q1 = unfilled evs q ∧ (q1.map (·.id)).Nodup := by
  induction h with
  | nil => exact ⟨(unfilled_nil _).symm, hq⟩
  | option h _ ih => rw [unfilled_append_options (option_events h)]; exact ih he hq
  | badOption => cases he
  | word _ h _ ih =>
    obtain ⟨e, hn⟩ := wordReads_unfilled h hq _
    rw [e]
    exact ih he hn
  | badWord => cases he

theorem ReadsWords.left {strict : Bool} {q q1 : List Place} {ts : List Str} {evs : List Event} {err : Option Exn}
    (h : ReadsWords strict q ts evs q1 err) (he : err = none) (hq : (q.map (·.id)).Nodup) :
    q1 = unfilled evs q := by
  induction h with
  | nil => exact (unfilled_nil _).symm
  | word h _ ih =>
    obtain ⟨e, hn⟩ := wordReads_unfilled h hq _
    rw [e]
    exact ih he hn
  | badWord => cases he

theorem unfilled_twice (a b : List Event) (q : List Place) : unfilled b (unfilled a q) = unfilled (a ++ b) q := by
  unfold unfilled
  rw [List.filter_filter]
  apply List.filter_congr
  intro x _
  rw [fills_append]
  cases fills x.id a <;> simp

/-! ### Lines -/

/-- A line through a place that is always reached. -/
theorem line_through {sig : Sig} (hsig : Sig.Sized sig) {q q1 : List Place} (hz : PlacesSized q)
    {ws1 ws2 : List Str} {evs1 : List Event} (hend : ∀ t ∈ ws1, ¬EndTok t)
    (reach : ∀ X, Front ws2 X → Reaches sig q (ws1 ++ X) evs1 q1 X) (evs : List Event) (err : Option Exn) :
    Line sig q (ws1 ++ ws2) evs err ↔ ∃ evs2, evs = evs1 ++ evs2 ∧ Line sig q1 ws2 evs2 err := by
  constructor
  · intro h
    obtain ⟨X, hf⟩ := Front.exists ws2
    obtain ⟨ea, eb, qa, xa, ga, rfl, hh⟩ := h.front (hf.append hend)
    obtain ⟨e2, rfl, g⟩ := (reach X hf).continues hsig hz ga
    refine ⟨e2 ++ eb, by rw [List.append_assoc], ?_⟩
    rcases hh with ⟨rfl, rfl, hx⟩ | ⟨rfl, back, q2, e, g2⟩
    · rw [List.append_nil]
      rcases hx with hx | ⟨x, rfl⟩
      · rw [List.append_cancel_left hx]; exact .whole hf.1 g
      · exact Line.of_front hf g
    · rw [List.append_assoc] at e
      rw [List.append_cancel_left e]
      exact .split hf.1 g g2
  · rintro ⟨evs2, rfl, h⟩
    have noEnd : ∀ B : List Str, (∀ t ∈ B, ¬EndTok t) → ∀ t ∈ ws1 ++ B, ¬EndTok t := by
      intro B hB t ht
      rcases List.mem_append.1 ht with ht | ht
      · exact hend t ht
      · exact hB t ht
    cases h with
    | whole h g => exact .whole (noEnd _ h) ((reach _ ⟨h, .inl rfl⟩).reads g)
    | split h g g2 =>
      rw [← List.append_assoc, ← List.append_assoc]
      exact .split (noEnd _ h) ((reach _ ⟨h, .inr ⟨_, rfl⟩⟩).reads g) g2
    | splitBad h g =>
      rw [← List.append_assoc]
      exact .splitBad (noEnd _ h) ((reach _ ⟨h, .inr ⟨_, rfl⟩⟩).reads g)

theorem line_append {sig : Sig} {O : Nat → Prop} (hsig : Sig.Sized sig) {q : List Place} (hz : PlacesSized q)
    (hn : (q.map (·.id)).Nodup) (hO : OpenIds sig q O) {ws1 ws2 : List Str} {evs1 : List Event} (hend : ∀ t ∈ ws1, ¬EndTok t)
    (h1 : Line sig q ws1 evs1 none) (hb : Fresh sig ws2 ∨ Tight O evs1) (evs : List Event) (err : Option Exn) :
    Line sig q (ws1 ++ ws2) evs err ↔ ∃ evs2, evs = evs1 ++ evs2 ∧ Line sig (unfilled evs1 q) ws2 evs2 err := by
  have hr : ∃ q1, Reads sig q ws1 evs1 q1 none := by
    cases h1 with
    | whole _ h => exact ⟨_, h⟩
    | split => exact noEnd_back hend
  obtain ⟨q1, hr⟩ := hr
  obtain ⟨hq1, _⟩ := hr.left rfl hn
  subst hq1
  have reach : ∀ X, Front ws2 X → Reaches sig q (ws1 ++ X) evs1 (unfilled evs1 q) X := by
    intro X hf
    refine hr.reaches hO rfl X ?_
    rcases hb with hb | hb
    · refine .inl fun t ht => ?_
      have hm : t ∈ X := List.mem_of_mem_head? ht
      have : ws2.head? = some t := by
        rcases hf.2 with rfl | ⟨b, rfl⟩
        · exact ht
        · rw [List.head?_append, ht]; rfl
      exact (hb t this).resolve_right (hf.1 t hm)
    · exact .inr hb
  exact line_through hsig hz hend reach evs err

theorem line_append_words {sig : Sig} {O : Nat → Prop} {q : List Place} (hz : PlacesSized q)
    (hn : (q.map (·.id)).Nodup) (hO : ∀ p ∈ q, Unlimited p.kind → O p.id) {ws1 ws2 : List Str} {evs1 : List Event}
    (hend : ∃ t ∈ ws1, EndTok t) (hsig : Sig.Sized sig)
    (h1 : Line sig q ws1 evs1 none) (hb : Tight O evs1) (evs : List Event) (err : Option Exn) :
    Line sig q (ws1 ++ ws2) evs err ↔ ∃ evs2, evs = evs1 ++ evs2 ∧ Line sig (unfilled evs1 q) (['-', '-'] :: ws2) evs2 err := by
  have back : ∀ {q : List Place} {evs err}, Line sig q (['-', '-'] :: ws2) evs err ↔ ∃ q', ReadsWords sig.strict q ws2 evs q' err := by
    intro q evs err
    constructor
    · intro h
      have hf : Front (['-', '-'] :: ws2) [] := ⟨by simp, .inr ⟨ws2, rfl⟩⟩
      obtain ⟨ea, eb, qa, xa, ga, rfl, hh⟩ := h.front hf
      obtain ⟨rfl, rfl, rfl⟩ := reads_empty ga
      rcases hh with ⟨rfl, rfl, hx | ⟨x, hx⟩⟩ | ⟨_, b, q2, e, g2⟩
      · cases hx
      · cases hx
      · cases e; exact ⟨q2, g2⟩
    · rintro ⟨q', h⟩
      exact Line.split (ts := []) (evs := []) (by simp) (.nil q) h
  cases h1 with
  | whole h => obtain ⟨t, ht, he⟩ := hend; exact absurd he (h t ht)
  | @split ts ts' ea eb qa qb _ hne g1 g2 =>
    obtain ⟨rfl, hna⟩ := g1.left rfl hn
    have hqa : ∀ p ∈ unfilled ea q, p ∈ q := fun p hp => (List.mem_filter.1 hp).1
    have hqb := g2.left rfl hna
    rw [unfilled_twice] at hqb
    subst hqb
    have ht : Tight O eb := hb.right
    have reach := g2.reaches (O := O) (fun p hp => hO p (hqa p hp)) rfl ws2 ht
    have hsz : PlacesSized (unfilled ea q) := reads_sized hz g1
    constructor
    · intro h
      rw [List.append_assoc, List.cons_append] at h
      have hf : Front (ts ++ ['-', '-'] :: (ts' ++ ws2)) ts := ⟨hne, .inr ⟨_, rfl⟩⟩
      obtain ⟨ec, ed, qc, xc, gc, rfl, hh⟩ := h.front hf
      obtain ⟨rfl, rfl, rfl⟩ := reads_unique hsig hz g1 gc
      rcases hh with ⟨rfl, rfl, hx | ⟨x, hx⟩⟩ | ⟨_, b, q2, e, gd⟩
      · have := congrArg List.length hx; simp at this
      · cases hx
      · have := List.append_cancel_left e
        cases this
        obtain ⟨e2, rfl, g⟩ := reach.continues hsz gd
        exact ⟨e2, by rw [List.append_assoc], back.2 ⟨_, g⟩⟩
    · rintro ⟨e2, rfl, h⟩
      obtain ⟨q', g⟩ := back.1 h
      rw [List.append_assoc, List.append_assoc, List.cons_append]
      exact .split hne g1 (reach.reads g)

/-! ### Errors stay -/

/-- The reading ended because words were missing. -/
def Exn.fewWords (x : Exn) : Prop := x.what = "bad number of argument".toList

theorem takesErr_more {stop : Str → Prop} {name : Str} {e : Entry} {att : Bool} {eq : Option Str} {ts : List Str}
    {evs : List Event} {x : Exn} (h : OptionReads stop name e att eq ts evs (.error x)) (hx : ¬Exn.fewWords x) (X : List Str) :
    OptionReads stop name e att eq (ts ++ X) evs (.error x) := by
  cases h with
  | valueForSeveral v _ h => exact .valueForSeveral v _ h
  | valueForNone v _ h => exact .valueForNone v _ h
  | missing h => exact absurd rfl hx

theorem clusterErr_more {sig : Sig} {stop : Str → Prop} {eq : Option Str} {ts : List Str} {cs : List Char}
    {evs : List Event} {out : Out} (h : ClusterReads sig stop eq ts cs evs out) {x : Exn} (hx : ¬Exn.fewWords x) (X : List Str) :
    out = .error x → ClusterReads sig stop eq (ts ++ X) cs evs (.error x) := by
  induction h with
  | none => intro e; cases e; exact .none
  | unknown hf => intro e; cases e; exact .unknown hf
  | notLast a b c d => intro e; cases e; exact .notLast a b c d
  | last hf h => rintro rfl; exact .last hf (takesErr_more h hx X)
  | attached a b c d h => rintro rfl; exact .attached a b c d (takesErr_more h hx X)
  | switch a b c _ ih => intro e; exact .switch a b c (ih e)

theorem tokenErr_more {sig : Sig} {stop : Str → Prop} {tok : Str} {ts : List Str} {evs : List Event} {x : Exn}
    (h : TokenReads sig stop tok ts evs (.error x)) (hx : ¬Exn.fewWords x) (X : List Str) :
    TokenReads sig stop tok (ts ++ X) evs (.error x) := by
  generalize hout : Out.error x = out at h
  cases h with
  | long a b c h => subst hout; exact .long a b c (takesErr_more h hx X)
  | unknownLong a b c => cases hout; exact .unknownLong a b c
  | alternative a b c d h => subst hout; exact .alternative a b c d (takesErr_more h hx X)
  | cluster a b c h => subst hout; exact .cluster a b c (clusterErr_more h hx X rfl)

theorem wordErr_more {stop : Str → Prop} {strict : Bool} {q : List Place} {ts : List Str} {x : Exn}
    (h : WordFails stop strict q ts x) (hx : ¬Exn.fewWords x) (X : List Str) : WordFails stop strict q (ts ++ X) x := by
  cases h with
  | missing h => exact absurd rfl hx
  | surplus w ts h => exact .surplus w _ h

theorem readsErr_more {sig : Sig} {q q1 : List Place} {ts : List Str} {evs : List Event} {err : Option Exn}
    (h : Reads sig q ts evs q1 err) {x : Exn} (he : err = some x) (hx : ¬Exn.fewWords x) (X : List Str) :
    Reads sig q (ts ++ X) evs q1 (some x) := by
  induction h with
  | nil => cases he
  | option h g ih =>
    refine .option (tokenReads_more (O := fun _ => True) (fun _ _ _ _ => trivial) h X ?_) (ih he)
    rintro rfl
    have := (reads_empty g).2.2
    rw [he] at this; cases this
  | badOption h => cases he; exact .badOption (tokenErr_more h hx X)
  | word hw h g ih =>
    refine .word hw (wordReads_more (O := fun _ => True) (fun _ _ _ => trivial) h X ?_) (ih he)
    rintro rfl
    have := (reads_empty g).2.2
    rw [he] at this; cases this
  | badWord hw h => cases he; exact .badWord hw (wordErr_more h hx X)

theorem readsWordsErr_more {strict : Bool} {q q1 : List Place} {ts : List Str} {evs : List Event} {err : Option Exn}
    (h : ReadsWords strict q ts evs q1 err) {x : Exn} (he : err = some x) (hx : ¬Exn.fewWords x) (X : List Str) :
    ReadsWords strict q (ts ++ X) evs q1 (some x) := by
  induction h with
  | nil => cases he
  | word h g ih =>
    refine .word (wordReads_more (O := fun _ => True) (fun _ _ _ => trivial) h X ?_) (ih he)
    rintro rfl
    have := (readsWords_empty g).2.2
    rw [he] at this; cases this
  | badWord h => cases he; exact .badWord (wordErr_more h hx X)

theorem lineErr_more {sig : Sig} {q : List Place} {ws : List Str} {evs : List Event} {x : Exn}
    (h : Line sig q ws evs (some x)) (hx : ¬Exn.fewWords x) (X : List Str) : Line sig q (ws ++ X) evs (some x) := by
  cases h with
  | whole hn h =>
    obtain ⟨Y, hY⟩ := Front.exists X
    exact Line.of_front (hY.append hn) (readsErr_more h rfl hx Y)
  | split hn h h' =>
    rw [List.append_assoc, List.cons_append]
    exact .split hn h (readsWordsErr_more h' rfl hx X)
  | splitBad hn h =>
    rw [List.append_assoc, List.cons_append]
    exact .splitBad hn h

end BletArgs.Spec
