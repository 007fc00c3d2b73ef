import Verif.Lemmas.ReadsLine
/-
The grammar of command lines is unambiguous.
-/
namespace BletArgs
open Spec

/-- Kinds read by groups have a group size. -/
def GroupsSized (kind : Ty) (arity : Nat) : Prop :=
  kind = .multiNumberInfinite ∨ kind = .infiniteNumberPos → 0 < arity

theorem longest_unique {stop : Str → Prop} : ∀ {vs vs' r r' : List Str}, Longest stop vs r → Longest stop vs' r' →
    vs ++ r = vs' ++ r' → vs = vs' ∧ r = r'
  | [], [], _, _, _, _, e => ⟨rfl, e⟩
  | [], v :: vs', r, r', h, h', e => by
    exfalso
    have e : r = v :: (vs' ++ r') := e
    exact h'.1 v List.mem_cons_self (h.2 v (by rw [e]; rfl))
  | v :: vs, [], r, r', h, h', e => by
    exfalso
    have e : v :: (vs ++ r) = r' := e
    exact h.1 v List.mem_cons_self (h'.2 v (by rw [← e]; rfl))
  | v :: vs, v' :: vs', r, r', h, h', e => by
    simp only [List.cons_append, List.cons.injEq] at e
    obtain ⟨rfl, e⟩ := e
    have := longest_unique (vs := vs) (vs' := vs') (r := r) (r' := r')
      ⟨fun x hx => h.1 x (List.mem_cons_of_mem _ hx), h.2⟩ ⟨fun x hx => h'.1 x (List.mem_cons_of_mem _ hx), h'.2⟩ e
    exact ⟨by rw [this.1], this.2⟩

/-- After the groups: nothing, a token that stops, or not enough tokens. -/
def AfterGroups (stop : Str → Prop) (n : Nat) (r : List Str) : Prop :=
  (∀ t, r.head? = some t → stop t) ∨ r.length < n

theorem groups_unique_aux {stop : Str → Prop} {n : Nat} (hn : 0 < n) {g : List Str} {gs : List (List Str)}
    {r r' : List Str} (h : Groups stop n (g :: gs)) (ha : AfterGroups stop n r) (e : r = g ++ (gs.flatten ++ r')) :
    False := by
  obtain ⟨h1, h2⟩ := h g List.mem_cons_self
  cases g with
  | nil => simp at h1; omega
  | cons a g =>
    rcases ha with ha | ha
    · exact h2 a rfl (ha a (by rw [e]; rfl))
    · rw [e, List.length_append] at ha
      omega

theorem groups_unique {stop : Str → Prop} {n : Nat} (hn : 0 < n) : ∀ {gs gs' : List (List Str)} {r r' : List Str},
    Groups stop n gs → Groups stop n gs' → AfterGroups stop n r → AfterGroups stop n r' →
    gs.flatten ++ r = gs'.flatten ++ r' → gs = gs' ∧ r = r'
  | [], [], _, _, _, _, _, _, e => ⟨rfl, e⟩
  | [], g :: gs', r, r', _, h', ha, _, e => by
    exfalso
    exact groups_unique_aux hn h' ha (by simpa using e)
  | g :: gs, [], r, r', h, _, _, ha, e => by
    exfalso
    exact groups_unique_aux hn h ha (by simpa using e.symm)
  | g :: gs, g' :: gs', r, r', h, h', ha, ha', e => by
    rw [List.flatten_cons, List.flatten_cons, List.append_assoc, List.append_assoc] at e
    have hl : g.length = g'.length := by
      rw [(h g List.mem_cons_self).1, (h' g' List.mem_cons_self).1]
    obtain ⟨rfl, e2⟩ := List.append_inj e hl
    have := groups_unique hn (gs := gs) (gs' := gs') (fun x hx => h x (List.mem_cons_of_mem _ hx))
      (fun x hx => h' x (List.mem_cons_of_mem _ hx)) ha ha' e2
    exact ⟨by rw [this.1], this.2⟩

theorem takes_unique {stop : Str → Prop} {n : Nat} {k : Ty} (hk : GroupsSized k n) {ts rest rest' : List Str}
    {vals vals' : Values} (h : Takes stop n k ts vals rest) (h' : Takes stop n k ts vals' rest') :
    vals = vals' ∧ rest = rest' := by
  generalize hts : ts = ts' at h'
  cases h with
  | nothing _ hv =>
    cases h' with
    | nothing => exact ⟨rfl, hts⟩
    | _ => exfalso; grind [Valueless]
  | one v ts hv =>
    cases h' with
    | one => cases hts; exact ⟨rfl, rfl⟩
    | _ => exfalso; grind [Valueless]
  | oneMore v ts => cases h' <;> simp_all [Valueless]
  | fixed vs ts hv hl =>
    cases h' with
    | fixed vs' ts' _ hl' =>
      obtain ⟨rfl, rfl⟩ := List.append_inj hts (by rw [hl, hl'])
      exact ⟨rfl, rfl⟩
    | _ => exfalso; grind [Valueless]
  | fixedMore vs ts hl =>
    cases h' with
    | fixedMore vs' ts' hl' =>
      obtain ⟨rfl, rfl⟩ := List.append_inj hts (by rw [hl, hl'])
      exact ⟨rfl, rfl⟩
    | _ => exfalso; grind [Valueless]
  | many vs ts hv hl =>
    cases h' with
    | many vs' ts' _ hl' =>
      obtain ⟨rfl, rfl⟩ := longest_unique hl hl' hts
      exact ⟨rfl, rfl⟩
    | _ => exfalso; grind [Valueless]
  | manyGroups gs ts hv hg hr =>
    cases h' with
    | manyGroups gs' ts' _ hg' hr' =>
      obtain ⟨rfl, rfl⟩ := groups_unique (hk hv) hg hg' (.inl hr) (.inl hr') hts
      exact ⟨rfl, rfl⟩
    | _ => exfalso; grind [Valueless]

theorem takes_not_tooFew {stop : Str → Prop} {n : Nat} {k : Ty} (hk : GroupsSized k n) {ts rest : List Str}
    {vals : Values} (h : Takes stop n k ts vals rest) (h' : TooFew stop n k ts) : False := by
  generalize hts : ts = ts' at h'
  cases h' with
  | one hv =>
    cases h with
    | one | oneMore => cases hts
    | _ => exfalso; grind [Valueless]
  | fixed _ hv hl =>
    cases h with
    | fixed vs ts _ hl' => subst hts; simp at hl; omega
    | fixedMore vs ts hl' => subst hts; simp at hl; omega
    | _ => exfalso; grind [Valueless]
  | group gs t ts hv hg ht hl =>
    cases h with
    | manyGroups gs' ts' _ hg' hr' =>
      obtain ⟨rfl, rfl⟩ := groups_unique (hk hv) hg' hg (.inl hr') (.inr hl) hts
      exact ht (hr' t rfl)
    | _ => exfalso; grind [Valueless]

theorem takesOne_unique {k : Ty} {v : Str} {vals vals' : Values} (h : TakesOne k v vals) (h' : TakesOne k v vals') :
    vals = vals' := by
  cases h <;> cases h' <;> simp_all

theorem optionReads_unique {stop : Str → Prop} {name : Str} {e : Entry} (hk : GroupsSized e.kind e.arity)
    {att : Bool} {eq : Option Str} {ts : List Str}
    {evs evs' : List Event} {out out' : Out} (h : OptionReads stop name e att eq ts evs out)
    (h' : OptionReads stop name e att eq ts evs' out') : evs = evs' ∧ out = out' := by
  have one : ∀ {v vals}, TakesOne e.kind v vals → ¬Several e.kind ∧ ¬Valueless e.kind := by
    intro v vals h
    unfold Several Valueless
    generalize e.kind = k at h
    cases h with
    | simple => simp
    | list _ h => rcases h with h | h | h <;> simp [h]
  have several : Several e.kind → ¬Valueless e.kind := by
    unfold Several Valueless
    rintro (h | h | h) <;> simp [h]
  cases h with
  | value _ h =>
    cases h' with
    | value _ h' => rw [takesOne_unique h h']; exact ⟨rfl, rfl⟩
    | valueForSeveral _ _ h' => exact absurd h' (one h).1
    | valueForNone _ _ h' => exact absurd h' (one h).2
  | valueForSeveral _ _ h =>
    cases h' with
    | value _ h' => exact absurd h (one h').1
    | valueForSeveral _ _ h' => exact ⟨rfl, rfl⟩
    | valueForNone _ _ h' => exact absurd h' (several h)
  | valueForNone _ _ h =>
    cases h' with
    | value _ h' => exact absurd h (one h').2
    | valueForSeveral _ _ h' => exact absurd h (several h')
    | valueForNone _ _ h' => exact ⟨rfl, rfl⟩
  | following h =>
    cases h' with
    | following h' =>
      obtain ⟨rfl, rfl⟩ := takes_unique hk h h'
      exact ⟨rfl, rfl⟩
    | missing h' => exact (takes_not_tooFew hk h h').elim
  | missing h =>
    cases h' with
    | following h' => exact (takes_not_tooFew hk h' h).elim
    | missing h' => exact ⟨rfl, rfl⟩

theorem switch_not_attaches {k : Ty} (h : Switch k) : ¬Attaches k := by
  unfold Attaches
  rcases h with rfl | rfl <;> simp

/-- Every entry of a signature with groups has a group size. -/
def Sig.Sized (sig : Sig) : Prop := ∀ name e, sig.flag name = some e → GroupsSized e.kind e.arity

theorem clusterReads_unique {sig : Sig} (hsig : Sig.Sized sig) {stop : Str → Prop} {eq : Option Str} {ts : List Str}
    {cs : List Char} {evs evs' : List Event} {out out' : Out} (h : ClusterReads sig stop eq ts cs evs out)
    (h' : ClusterReads sig stop eq ts cs evs' out') : evs = evs' ∧ out = out' := by
  induction h generalizing evs' out' with
  | none => cases h'; exact ⟨rfl, rfl⟩
  | unknown hf => cases h' <;> simp_all
  | last hf h =>
    cases h' with
    | unknown hf' => rw [hf] at hf'; cases hf'
    | last hf' h' =>
      rw [hf] at hf'; cases hf'
      exact optionReads_unique (hsig _ _ hf) h h'
    | attached hne => exact absurd rfl hne
    | notLast hne => exact absurd rfl hne
    | switch hne => exact absurd rfl hne
  | attached hne hf he ha h =>
    cases h' with
    | unknown hf' => rw [hf] at hf'; cases hf'
    | last => exact absurd rfl hne
    | attached _ hf' _ _ h' =>
      rw [hf] at hf'; cases hf'
      exact optionReads_unique (hsig _ _ hf) h h'
    | notLast _ hf' hn => rw [hf] at hf'; cases hf'; exact absurd ⟨he, ha⟩ hn
    | switch _ hf' hs => rw [hf] at hf'; cases hf'; exact absurd ha (switch_not_attaches hs)
  | notLast hne hf hn hs =>
    cases h' with
    | unknown hf' => rw [hf] at hf'; cases hf'
    | last => exact absurd rfl hne
    | attached _ hf' he ha => rw [hf] at hf'; cases hf'; exact absurd ⟨he, ha⟩ hn
    | notLast => exact ⟨rfl, rfl⟩
    | switch _ hf' hs' => rw [hf] at hf'; cases hf'; exact absurd hs' hs
  | switch hne hf hs _ ih =>
    cases h' with
    | unknown hf' => rw [hf] at hf'; cases hf'
    | last => exact absurd rfl hne
    | attached _ hf' he ha => rw [hf] at hf'; cases hf'; exact absurd ha (switch_not_attaches hs)
    | notLast _ hf' _ hs' => rw [hf] at hf'; cases hf'; exact absurd hs hs'
    | switch _ hf' _ h' =>
      rw [hf] at hf'; cases hf'
      obtain ⟨rfl, rfl⟩ := ih h'
      exact ⟨rfl, rfl⟩

theorem long_not_short {tok : Str} (h : LongTok tok) (h' : ShortTok tok) : False :=
  (C01_token_classes tok).2.2.2.2.1 ⟨h', h⟩

theorem tokenReads_unique {sig : Sig} (hsig : Sig.Sized sig) {stop : Str → Prop} {tok : Str} {ts : List Str}
    {evs evs' : List Event} {out out' : Out} (h : TokenReads sig stop tok ts evs out)
    (h' : TokenReads sig stop tok ts evs' out') : evs = evs' ∧ out = out' := by
  cases h with
  | long hl hs hf h =>
    cases h' with
    | long hl' hs' hf' h' =>
      obtain ⟨rfl, rfl⟩ := splits_unique hs hs'
      rw [hf] at hf'; cases hf'
      exact optionReads_unique (hsig _ _ hf) h h'
    | unknownLong hl' hs' hf' =>
      obtain ⟨rfl, rfl⟩ := splits_unique hs hs'
      rw [hf] at hf'; cases hf'
    | alternative h' => exact (long_not_short hl h').elim
    | cluster h' => exact (long_not_short hl h').elim
  | unknownLong hl hs hf =>
    cases h' with
    | long hl' hs' hf' h' =>
      obtain ⟨rfl, rfl⟩ := splits_unique hs hs'
      rw [hf] at hf'; cases hf'
    | unknownLong hl' hs' hf' =>
      obtain ⟨rfl, rfl⟩ := splits_unique hs hs'
      exact ⟨rfl, rfl⟩
    | alternative h' => exact (long_not_short hl h').elim
    | cluster h' => exact (long_not_short hl h').elim
  | alternative hh hs ha hf h =>
    cases h' with
    | long hl' => exact (long_not_short hl' hh).elim
    | unknownLong hl' => exact (long_not_short hl' hh).elim
    | alternative _ hs' _ hf' h' =>
      obtain ⟨rfl, rfl⟩ := splits_unique hs hs'
      rw [hf] at hf'; cases hf'
      exact optionReads_unique (hsig _ _ hf) h h'
    | cluster _ hs' hn =>
      obtain ⟨rfl, rfl⟩ := splits_unique hs hs'
      exact absurd ⟨ha, by rw [hf]; rfl⟩ hn
  | cluster hh hs hn h =>
    cases h' with
    | long hl' => exact (long_not_short hl' hh).elim
    | unknownLong hl' => exact (long_not_short hl' hh).elim
    | alternative _ hs' ha hf =>
      obtain ⟨rfl, rfl⟩ := splits_unique hs hs'
      exact absurd ⟨ha, by rw [hf]; rfl⟩ hn
    | cluster _ hs' _ h' =>
      obtain ⟨e, rfl⟩ := splits_unique hs hs'
      cases e
      exact clusterReads_unique hsig h h'

theorem tokenReads_dashed {sig : Sig} {stop : Str → Prop} {tok : Str} {ts : List Str}
    {evs : List Event} {out : Out} (h : TokenReads sig stop tok ts evs out) : ¬WordTok tok := by
  have := C01_token_classes tok
  intro hw
  cases h with
  | long hl => exact this.2.2.2.2.2.2.2.2.1 ⟨hl, hw⟩
  | unknownLong hl => exact this.2.2.2.2.2.2.2.2.1 ⟨hl, hw⟩
  | alternative hs => exact this.2.2.2.2.2.2.1 ⟨hs, hw⟩
  | cluster hs => exact this.2.2.2.2.2.2.1 ⟨hs, hw⟩

/-- Every positional argument with groups has a group size. -/
def PlacesSized (q : List Place) : Prop := ∀ p ∈ q, GroupsSized p.kind p.arity

theorem wordReads_unique {stop : Str → Prop} {strict : Bool} {q q1 q2 : List Place} (hq : PlacesSized q)
    {ts r1 r2 : List Str} {e1 e2 : Event} (h1 : WordReads stop strict q ts e1 q1 r1)
    (h2 : WordReads stop strict q ts e2 q2 r2) : e1 = e2 ∧ q1 = q2 ∧ r1 = r2 := by
  cases h1 with
  | fill h1 =>
    cases h2 with
    | fill h2 =>
      obtain ⟨rfl, rfl⟩ := takes_unique (hq _ List.mem_cons_self) h1 h2
      exact ⟨rfl, rfl, rfl⟩
  | surplus => cases h2; exact ⟨rfl, rfl, rfl⟩

theorem wordReads_sized {stop : Str → Prop} {strict : Bool} {q q1 : List Place} (hq : PlacesSized q)
    {ts r1 : List Str} {e1 : Event} (h1 : WordReads stop strict q ts e1 q1 r1) : PlacesSized q1 := by
  cases h1 with
  | fill h1 => exact fun p hp => hq p (List.mem_cons_of_mem _ hp)
  | surplus => exact hq

theorem wordFails_unique {stop : Str → Prop} {strict : Bool} {q : List Place}
    {ts : List Str} {e1 e2 : Exn} (h1 : WordFails stop strict q ts e1)
    (h2 : WordFails stop strict q ts e2) : e1 = e2 := by
  cases h1 <;> cases h2 <;> rfl

theorem wordReads_not_fails {stop : Str → Prop} {strict : Bool} {q q1 : List Place} (hq : PlacesSized q)
    {ts r1 : List Str} {e1 : Event} {e : Exn} (h1 : WordReads stop strict q ts e1 q1 r1)
    (h2 : WordFails stop strict q ts e) : False := by
  cases h1 with
  | fill h1 =>
    cases h2 with
    | missing h2 => exact takes_not_tooFew (hq _ List.mem_cons_self) h1 h2
  | surplus _ _ h => cases h2 with | surplus _ _ h' => rw [h] at h'; cases h'

theorem reads_unique {sig : Sig} (hsig : Sig.Sized sig) {q q1 q2 : List Place} (hq : PlacesSized q)
    {ts : List Str} {e1 e2 : List Event} {x1 x2 : Option Exn} (h1 : Reads sig q ts e1 q1 x1)
    (h2 : Reads sig q ts e2 q2 x2) : e1 = e2 ∧ q1 = q2 ∧ x1 = x2 := by
  induction h1 generalizing e2 q2 x2 with
  | nil => cases h2; exact ⟨rfl, rfl, rfl⟩
  | option h _ ih =>
    cases h2 with
    | option h' g' =>
      obtain ⟨rfl, e⟩ := tokenReads_unique hsig h h'
      cases e
      obtain ⟨rfl, rfl, rfl⟩ := ih hq g'
      exact ⟨rfl, rfl, rfl⟩
    | badOption h' =>
      obtain ⟨_, e⟩ := tokenReads_unique hsig h h'
      cases e
    | word hw => exact absurd hw (tokenReads_dashed h)
    | badWord hw => exact absurd hw (tokenReads_dashed h)
  | badOption h =>
    cases h2 with
    | option h' g' =>
      obtain ⟨_, e⟩ := tokenReads_unique hsig h h'
      cases e
    | badOption h' =>
      obtain ⟨rfl, e⟩ := tokenReads_unique hsig h h'
      cases e
      exact ⟨rfl, rfl, rfl⟩
    | word hw => exact absurd hw (tokenReads_dashed h)
    | badWord hw => exact absurd hw (tokenReads_dashed h)
  | word hw h _ ih =>
    cases h2 with
    | option h' => exact absurd hw (tokenReads_dashed h')
    | badOption h' => exact absurd hw (tokenReads_dashed h')
    | word _ h' g' =>
      obtain ⟨rfl, rfl, rfl⟩ := wordReads_unique hq h h'
      obtain ⟨rfl, rfl, rfl⟩ := ih (wordReads_sized hq h) g'
      exact ⟨rfl, rfl, rfl⟩
    | badWord _ h' => exact (wordReads_not_fails hq h h').elim
  | badWord hw h =>
    cases h2 with
    | option h' => exact absurd hw (tokenReads_dashed h')
    | badOption h' => exact absurd hw (tokenReads_dashed h')
    | word _ h' g' => exact (wordReads_not_fails hq h' h).elim
    | badWord _ h' => rw [wordFails_unique h h']; exact ⟨rfl, rfl, rfl⟩

theorem reads_sized {sig : Sig} {q q1 : List Place} (hq : PlacesSized q)
    {ts : List Str} {e1 : List Event} {x1 : Option Exn} (h1 : Reads sig q ts e1 q1 x1) : PlacesSized q1 := by
  induction h1 with
  | nil => exact hq
  | option _ _ ih => exact ih hq
  | badOption => exact hq
  | word _ h _ ih => exact ih (wordReads_sized hq h)
  | badWord => exact hq

theorem readsWords_unique {strict : Bool} {q q1 q2 : List Place} (hq : PlacesSized q)
    {ts : List Str} {e1 e2 : List Event} {x1 x2 : Option Exn} (h1 : ReadsWords strict q ts e1 q1 x1)
    (h2 : ReadsWords strict q ts e2 q2 x2) : e1 = e2 ∧ q1 = q2 ∧ x1 = x2 := by
  induction h1 generalizing e2 q2 x2 with
  | nil => cases h2; exact ⟨rfl, rfl, rfl⟩
  | word h _ ih =>
    cases h2 with
    | word h' g' =>
      obtain ⟨rfl, rfl, rfl⟩ := wordReads_unique hq h h'
      obtain ⟨rfl, rfl, rfl⟩ := ih (wordReads_sized hq h) g'
      exact ⟨rfl, rfl, rfl⟩
    | badWord h' => exact (wordReads_not_fails hq h h').elim
  | badWord h =>
    cases h2 with
    | word h' g' => exact (wordReads_not_fails hq h' h).elim
    | badWord h' => rw [wordFails_unique h h']; exact ⟨rfl, rfl, rfl⟩

/-- The first `--` is at one place. -/
theorem split_unique : ∀ {ts1 ts2 r1 r2 : List Str}, (∀ t ∈ ts1, ¬EndTok t) → (∀ t ∈ ts2, ¬EndTok t) →
    ts1 ++ ['-', '-'] :: r1 = ts2 ++ ['-', '-'] :: r2 → ts1 = ts2 ∧ r1 = r2
  | [], [], _, _, _, _, e => by cases e; exact ⟨rfl, rfl⟩
  | [], t :: _, _, _, _, h2, e => by
    exfalso
    simp only [List.nil_append, List.cons_append, List.cons.injEq] at e
    exact h2 t List.mem_cons_self e.1.symm
  | t :: _, [], _, _, h1, _, e => by
    exfalso
    simp only [List.nil_append, List.cons_append, List.cons.injEq] at e
    exact h1 t List.mem_cons_self e.1
  | t :: ts1, t' :: ts2, r1, r2, h1, h2, e => by
    simp only [List.cons_append, List.cons.injEq] at e
    obtain ⟨rfl, e⟩ := e
    obtain ⟨rfl, rfl⟩ := split_unique (fun x hx => h1 x (List.mem_cons_of_mem _ hx))
      (fun x hx => h2 x (List.mem_cons_of_mem _ hx)) e
    exact ⟨rfl, rfl⟩

theorem line_unique {sig : Sig} (hsig : Sig.Sized sig) {q : List Place} (hq : PlacesSized q)
    {ts : List Str} {e1 e2 : List Event} {x1 x2 : Option Exn} (h1 : Line sig q ts e1 x1)
    (h2 : Line sig q ts e2 x2) : e1 = e2 ∧ x1 = x2 := by
  have noEnd : ∀ {a b : List Str} {P : Prop}, (∀ t ∈ a ++ ['-', '-'] :: b, ¬EndTok t) → P :=
    fun h => absurd rfl (h ['-', '-'] (by simp))
  generalize hts : ts = ts' at h2
  cases h1 with
  | whole h1 g1 =>
    cases h2 with
    | whole h2 g2 =>
      subst hts
      obtain ⟨rfl, _, rfl⟩ := reads_unique hsig hq g1 g2
      exact ⟨rfl, rfl⟩
    | split h2 => subst hts; exact noEnd h1
    | splitBad h2 => subst hts; exact noEnd h1
  | split h1 g1 k1 =>
    cases h2 with
    | whole h2 g2 => subst hts; exact noEnd h2
    | split h2 g2 k2 =>
      obtain ⟨rfl, rfl⟩ := split_unique h1 h2 hts
      obtain ⟨rfl, rfl, _⟩ := reads_unique hsig hq g1 g2
      obtain ⟨rfl, _, rfl⟩ := readsWords_unique (reads_sized hq g1) k1 k2
      exact ⟨rfl, rfl⟩
    | splitBad h2 g2 =>
      obtain ⟨rfl, rfl⟩ := split_unique h1 h2 hts
      have := (reads_unique hsig hq g1 g2).2.2
      cases this
  | splitBad h1 g1 =>
    cases h2 with
    | whole h2 g2 => subst hts; exact noEnd h2
    | split h2 g2 k2 =>
      obtain ⟨rfl, rfl⟩ := split_unique h1 h2 hts
      have := (reads_unique hsig hq g1 g2).2.2
      cases this
    | splitBad h2 g2 =>
      obtain ⟨rfl, rfl⟩ := split_unique h1 h2 hts
      obtain ⟨rfl, _, e⟩ := reads_unique hsig hq g1 g2
      exact ⟨rfl, e⟩

end BletArgs
