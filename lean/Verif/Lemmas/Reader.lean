import Verif.Spec.Reader
import Verif.Lemmas.Unique
/-
The reference parser of `Spec/Reader.lean` computes what the grammar derives.
-/
namespace BletArgs
open Spec
namespace Reader
open Spec.Reader

theorem split_of {tok name : Str} {eq : Option Str} (h : Splits tok name eq) : split tok = (name, eq) := by
  cases h with
  | eq name v h =>
    obtain ⟨rfl, hn⟩ := h
    induction name with
    | nil => simp [split]
    | cons c cs ih =>
      have hc : c ≠ '=' := fun e => hn (by simp [e])
      rw [List.cons_append, split, if_neg hc, ih (fun hm => hn (List.mem_cons_of_mem _ hm))]
  | bare hn =>
    induction tok with
    | nil => rfl
    | cons c cs ih =>
      have hc : c ≠ '=' := fun e => hn (by simp [e])
      rw [split, if_neg hc, ih (fun hm => hn (List.mem_cons_of_mem _ hm))]

theorem splits_split (tok : Str) : Splits tok (split tok).1 (split tok).2 := by
  by_cases h : '=' ∈ tok
  · have : ∃ p q, SplitsAt tok p q := by
      induction tok with
      | nil => cases h
      | cons c cs ih =>
        by_cases hc : c = '='
        · exact ⟨[], cs, by rw [hc]; rfl, by simp⟩
        · obtain ⟨p, q, rfl, hp⟩ := ih (by
            rcases List.mem_cons.1 h with h | h
            · exact absurd h.symm hc
            · exact h)
          exact ⟨c :: p, q, rfl, fun hm => by
            rcases List.mem_cons.1 hm with e | e
            · exact hc e.symm
            · exact hp e⟩
    obtain ⟨p, q, hs⟩ := this
    have hs' := Splits.eq p q hs
    rw [split_of hs']
    exact hs'
  · have := split_of (Splits.bare h)
    rw [this]
    exact .bare h

theorem short_iff (t : Str) : short t = true ↔ ShortTok t := by
  unfold ShortTok
  constructor
  · intro h
    unfold short at h
    split at h
    · rename_i c r
      exact ⟨c, r, rfl, by simpa using h⟩
    · cases h
  · rintro ⟨c, r, rfl, h⟩
    simpa [short] using h

theorem long_iff (t : Str) : long t = true ↔ LongTok t := by
  unfold LongTok
  constructor
  · intro h
    unfold long at h
    split at h
    · rename_i c r
      exact ⟨c, r, rfl⟩
    · cases h
  · rintro ⟨c, r, rfl⟩
    rfl

theorem switch_iff (k : Ty) : switch k = true ↔ Switch k := by simp [switch, Switch]
theorem several_iff (k : Ty) : several k = true ↔ Several k := by simp [several, Several, or_assoc]
theorem attaches_iff (k : Ty) : attaches k = true ↔ Attaches k := by simp [attaches, Attaches, or_assoc]

theorem clusterForm_iff (sig : Sig) (eq : Option Str) (cs : List Char) : clusterForm sig eq cs = true ↔ ClusterForm sig eq cs := by
  induction cs with
  | nil => exact ⟨nofun, nofun⟩
  | cons c cs ih =>
    unfold clusterForm
    cases hf : sig.flag ['-', c] with
    | none =>
      refine ⟨nofun, fun h => ?_⟩
      cases h <;> simp_all
    | some e =>
      simp only [Bool.or_eq_true, Bool.and_eq_true, List.isEmpty_iff, Option.isNone_iff_eq_none, switch_iff, attaches_iff, ih]
      constructor
      · rintro (((h | h) | h) | h)
        · subst h; exact .last hf
        · by_cases hc : cs = []
          · subst hc; exact .last hf
          · exact .first hc hf (.inl h)
        · by_cases hc : cs = []
          · subst hc; exact .last hf
          · exact .first hc hf (.inr h)
        · have hc : cs ≠ [] := by rintro rfl; cases h
          exact .later hc hf h
      · intro h
        cases h with
        | last => exact .inl (.inl (.inl rfl))
        | first _ hf' h =>
          rw [hf] at hf'
          cases hf'
          rcases h with h | h
          · exact .inl (.inl (.inr h))
          · exact .inl (.inr h)
        | later _ _ h => exact .inr h

theorem optionForm_iff (sig : Sig) (tok : Str) : optionForm sig tok = true ↔ OptionForm sig tok := by
  have hs := splits_split tok
  unfold optionForm
  simp only [Bool.or_eq_true, Bool.and_eq_true, short_iff, long_iff, clusterForm_iff]
  constructor
  · rintro (⟨h1, h2⟩ | ⟨h1, ⟨h2, h3⟩ | h2⟩)
    · obtain ⟨e, he⟩ := Option.isSome_iff_exists.1 h2
      exact .long h1 hs he
    · obtain ⟨e, he⟩ := Option.isSome_iff_exists.1 h3
      exact .alternative h1 hs h2 he
    · obtain ⟨c, r, rfl, hc⟩ := h1
      have : (split ('-' :: c :: r)).1 = '-' :: (split ('-' :: c :: r)).1.drop 1 := by
        rw [split, if_neg (by decide)]
        rfl
      rw [this] at hs
      exact .cluster ⟨c, r, rfl, hc⟩ hs h2
  · intro h
    cases h with
    | long h1 h2 h3 => rw [split_of h2]; exact .inl ⟨h1, by simp [h3]⟩
    | alternative h1 h2 h3 h4 => rw [split_of h2]; exact .inr ⟨h1, .inl ⟨h3, by simp [h4]⟩⟩
    | cluster h1 h2 h3 => rw [split_of h2]; exact .inr ⟨h1, .inr h3⟩

theorem groups_of {stop : Str → Prop} {stopb : Str → Bool} (hb : ∀ t, stopb t = true ↔ stop t) {arity : Nat} (ha : 0 < arity)
    {gs : List (List Str)} (h : Groups stop arity gs) {ts : List Str} {n : Nat} (hn : (gs.flatten ++ ts).length < n) :
    groups stopb arity n (gs.flatten ++ ts) =
      (groups stopb arity (n - gs.length) ts).map fun r => (gs ++ r.1, r.2) := by
  induction gs generalizing n with
  | nil => simp
  | cons g gs ih =>
    have hg := h g (List.mem_cons_self ..)
    obtain ⟨n, rfl⟩ : ∃ m, n = m + 1 := ⟨n - 1, by omega⟩
    cases g with
    | nil => simp at hg; omega
    | cons t g =>
      have ht : stopb t = false := by
        cases hs : stopb t with
        | false => rfl
        | true => exact absurd ((hb t).1 hs) (hg.2 t rfl)
      have hl : ((t :: g) ++ (gs.flatten ++ ts)).length < n + 1 := by
        rw [List.flatten_cons, List.append_assoc] at hn; exact hn
      rw [List.flatten_cons, List.append_assoc]
      have e1 : ((t :: g) ++ (gs.flatten ++ ts)).drop arity = gs.flatten ++ ts := List.drop_left' hg.1
      have e2 : ((t :: g) ++ (gs.flatten ++ ts)).take arity = t :: g := List.take_left' hg.1
      have e3 : ¬((t :: g) ++ (gs.flatten ++ ts)).length < arity := by rw [List.length_append, hg.1]; omega
      rw [List.cons_append] at e1 e2 e3 ⊢
      rw [groups, if_neg (by rw [ht]; exact Bool.false_ne_true), if_neg e3, e1, e2,
        ih (fun x hx => h x (List.mem_cons_of_mem _ hx)) (by rw [List.length_append, hg.1] at hl; omega)]
      rw [show n + 1 - (((t :: g) :: gs).length) = n - gs.length by rw [List.length_cons]; omega]
      cases groups stopb arity (n - gs.length) ts <;> rfl

theorem takes_of {stop : Str → Prop} {stopb : Str → Bool} (hb : ∀ t, stopb t = true ↔ stop t) {arity : Nat} {k : Ty}
    (hk : GroupsSized k arity) {ts rest : List Str} {vals : Values} (h : Takes stop arity k ts vals rest) :
    takes stopb arity k ts = some (vals, rest) := by
  cases h with
  | nothing _ h => rcases h with rfl | rfl | rfl | rfl | rfl <;> rfl
  | one v _ h => rcases h with rfl | rfl <;> rfl
  | oneMore v _ => rfl
  | fixed vs ts h hl =>
    subst hl
    rcases h with rfl | rfl <;> simp [takes]
  | fixedMore vs ts hl =>
    subst hl
    simp [takes]
  | many vs ts h hl =>
    have e : (vs ++ rest).takeWhile (fun t => !stopb t) = vs ∧ (vs ++ rest).dropWhile (fun t => !stopb t) = rest := by
      have hv : ∀ v ∈ vs, (!stopb v) = true := by
        intro v hv
        have := hl.1 v hv
        rw [← hb] at this
        simpa using this
      rw [List.takeWhile_append_of_pos hv, List.dropWhile_append_of_pos hv]
      cases rest with
      | nil => simp
      | cons t r =>
        have ht : stopb t = true := (hb t).2 (hl.2 t rfl)
        simp [ht]
    rcases h with rfl | rfl | rfl <;> simp only [takes, e]
  | manyGroups gs ts h hg hr =>
    have ha := hk h
    have e : groups stopb arity ((gs.flatten ++ rest).length + 1) (gs.flatten ++ rest) = some (gs, rest) := by
      rw [groups_of hb ha hg (Nat.lt_succ_self _)]
      have hpos : 0 < (gs.flatten ++ rest).length + 1 - gs.length := by
        have : gs.length ≤ gs.flatten.length := by
          clear hr h
          induction gs with
          | nil => simp
          | cons g gs ih =>
            have h1 := ih (fun x hx => hg x (List.mem_cons_of_mem _ hx))
            have h2 := (hg g (List.mem_cons_self ..)).1
            simp only [List.flatten_cons, List.length_append, List.length_cons]
            omega
        rw [List.length_append]; omega
      obtain ⟨m, hm⟩ : ∃ m, (gs.flatten ++ rest).length + 1 - gs.length = m + 1 := ⟨_, (Nat.sub_add_cancel hpos).symm⟩
      rw [hm]
      cases rest with
      | nil => simp [groups]
      | cons t r => simp [groups, (hb t).2 (hr t rfl)]
    rcases h with rfl | rfl <;> simp only [takes, e] <;> rfl

theorem tooFew_of {stop : Str → Prop} {stopb : Str → Bool} (hb : ∀ t, stopb t = true ↔ stop t) {arity : Nat} {k : Ty}
    (hk : GroupsSized k arity) {ts : List Str} (h : TooFew stop arity k ts) : takes stopb arity k ts = none := by
  cases h with
  | one h => rcases h with rfl | rfl | rfl <;> rfl
  | fixed _ h hl => rcases h with rfl | rfl | rfl <;> simp [takes, hl]
  | group gs t ts h hg ht hl =>
    have ha := hk h
    have e : groups stopb arity ((gs.flatten ++ t :: ts).length + 1) (gs.flatten ++ t :: ts) = none := by
      rw [groups_of hb ha hg (Nat.lt_succ_self _)]
      have hs : stopb t = false := by
        cases hs : stopb t with
        | false => rfl
        | true => exact absurd ((hb t).1 hs) ht
      cases (gs.flatten ++ t :: ts).length + 1 - gs.length with
      | zero => rfl
      | succ m => rw [groups, if_neg (by rw [hs]; exact Bool.false_ne_true), if_pos hl]; rfl
    rcases h with rfl | rfl <;> simp only [takes, e] <;> rfl

theorem option_of {stop : Str → Prop} {stopb : Str → Bool} (hb : ∀ t, stopb t = true ↔ stop t) {name : Str} {e : Entry}
    (hk : GroupsSized e.kind e.arity) {att : Bool} {eq : Option Str} {ts : List Str} {evs : List Event} {out : Out}
    (h : OptionReads stop name e att eq ts evs out) : option stopb name e att eq ts = (evs, out) := by
  unfold Spec.Reader.option
  cases h with
  | value _ h =>
    generalize e.kind = k at h
    cases h with
    | simple => rfl
    | list _ h => rcases h with rfl | rfl | rfl <;> rfl
  | valueForSeveral _ _ h => simp only [(several_iff _).2 h, if_true]
  | valueForNone _ _ h => rcases h with h | h | h | h | h <;> rw [h] <;> rfl
  | following h => simp only [takes_of hb hk h]
  | missing h => simp only [tooFew_of hb hk h]

theorem cluster_of {sig : Sig} (hsig : Sig.Sized sig) {stop : Str → Prop} {stopb : Str → Bool} (hb : ∀ t, stopb t = true ↔ stop t)
    {eq : Option Str} {ts : List Str} {cs : List Char} {evs : List Event} {out : Out} (h : ClusterReads sig stop eq ts cs evs out) :
    cluster sig stopb eq ts cs = (evs, out) := by
  induction h with
  | none => rfl
  | unknown hf => simp only [cluster, hf]
  | last hf h => simp only [cluster, hf]; exact option_of hb (hsig _ _ hf) h
  | attached hne hf he ha h =>
    simp only [cluster, hf, List.isEmpty_eq_false_iff.2 hne, he, (attaches_iff _).2 ha]
    exact option_of hb (hsig _ _ hf) h
  | @notLast c cs e hne hf ha hs =>
    have h1 : (eq.isNone && attaches e.kind) = false := by
      rw [← Bool.not_eq_true, Bool.and_eq_true, Option.isNone_iff_eq_none, attaches_iff]; exact ha
    have h2 : switch e.kind = false := by rw [← Bool.not_eq_true, switch_iff]; exact hs
    simp only [cluster, hf, List.isEmpty_eq_false_iff.2 hne, h1, h2]
    rfl
  | @switch c cs e _ _ hne hf hs _ ih =>
    have h1 : (eq.isNone && attaches e.kind) = false := by
      rw [← Bool.not_eq_true, Bool.and_eq_true, attaches_iff]; exact fun h => switch_not_attaches hs h.2
    simp only [cluster, hf, List.isEmpty_eq_false_iff.2 hne, h1, (switch_iff _).2 hs, ih]
    rfl

theorem token_of {sig : Sig} (hsig : Sig.Sized sig) {stop : Str → Prop} {stopb : Str → Bool} (hb : ∀ t, stopb t = true ↔ stop t)
    {tok : Str} {ts : List Str} {evs : List Event} {out : Out} (h : TokenReads sig stop tok ts evs out) :
    token sig stopb tok ts = (evs, out) ∧ (short tok || long tok) = true := by
  have hl : ShortTok tok → long tok = false := by
    intro h
    rw [← Bool.not_eq_true, long_iff]
    exact fun h' => long_not_short h' h
  unfold token
  cases h with
  | long h1 h2 h3 h4 =>
    simp only [split_of h2, (long_iff _).2 h1, if_true, h3]
    exact ⟨option_of hb (hsig _ _ h3) h4, by simp⟩
  | unknownLong h1 h2 h3 =>
    simp only [split_of h2, (long_iff _).2 h1, if_true, h3, Bool.or_true, and_self]
  | alternative h1 h2 h3 h4 h5 =>
    simp only [split_of h2, hl h1, h3, if_true, h4, (short_iff _).2 h1]
    exact ⟨option_of hb (hsig _ _ h4) h5, rfl⟩
  | @cluster cs eq _ _ h1 h2 h3 h4 =>
    simp only [split_of h2, hl h1, (short_iff _).2 h1]
    have : (if sig.alternative = true then sig.flag ('-' :: '-' :: cs) else none) = none := by
      split
      · rename_i ha
        cases hf : sig.flag ('-' :: '-' :: cs) with
        | none => rfl
        | some e => exact absurd ⟨ha, by rw [hf]; rfl⟩ h3
      · rfl
    rw [this]
    exact ⟨cluster_of hsig hb h4, rfl⟩

theorem wordTok_of {tok : Str} (h : WordTok tok) : (short tok || long tok) = false := by
  rcases h with rfl | rfl | ⟨c, r, rfl, hc⟩
  · rfl
  · rfl
  · simp [short, long, hc]

theorem word_of {stop : Str → Prop} {stopb : Str → Bool} (hb : ∀ t, stopb t = true ↔ stop t) {strict : Bool} {q q' : List Place}
    (hq : PlacesSized q) {tok : Str} {ts rest : List Str} {ev : Event} (h : WordReads stop strict q (tok :: ts) ev q' rest) :
    word stopb strict q tok ts = .ok (ev, q', rest) := by
  cases h with
  | fill h => simp only [word, takes_of hb (hq _ (List.mem_cons_self ..)) h]
  | surplus _ _ h => simp only [word, h]; rfl

theorem wordFails_of {stop : Str → Prop} {stopb : Str → Bool} (hb : ∀ t, stopb t = true ↔ stop t) {strict : Bool} {q : List Place}
    (hq : PlacesSized q) {tok : Str} {ts : List Str} {e : Exn} (h : WordFails stop strict q (tok :: ts) e) :
    word stopb strict q tok ts = .error e := by
  cases h with
  | missing h => simp only [word, tooFew_of hb (hq _ (List.mem_cons_self ..)) h]
  | surplus _ _ h => simp only [word, h]; rfl

/-- The tokens left by an argument are an end of those it was given. -/
theorem takes_length {stop : Str → Prop} {arity : Nat} {k : Ty} {ts rest : List Str} {vals : Values}
    (h : Takes stop arity k ts vals rest) : rest.length ≤ ts.length := by
  cases h with
  | nothing => exact Nat.le_refl _
  | one | oneMore => exact Nat.le_succ _
  | _ => rw [List.length_append]; omega

theorem option_length {stop : Str → Prop} {name : Str} {e : Entry} {att : Bool} {eq : Option Str} {ts rest : List Str}
    {evs : List Event} (h : OptionReads stop name e att eq ts evs (.rest rest)) : rest.length ≤ ts.length := by
  cases h with
  | value => exact Nat.le_refl _
  | following h => exact takes_length h

theorem cluster_length {sig : Sig} {stop : Str → Prop} {eq : Option Str} {ts rest : List Str} {cs : List Char} {evs : List Event}
    (h : ClusterReads sig stop eq ts cs evs (.rest rest)) : rest.length ≤ ts.length := by
  generalize ho : Out.rest rest = out at h
  induction h with
  | none | unknown | notLast => cases ho
  | last _ h => subst ho; exact option_length h
  | attached _ _ _ _ h => subst ho; exact option_length h
  | switch _ _ _ _ ih => exact ih ho

theorem token_length {sig : Sig} {stop : Str → Prop} {tok : Str} {ts rest : List Str} {evs : List Event}
    (h : TokenReads sig stop tok ts evs (.rest rest)) : rest.length ≤ ts.length := by
  cases h with
  | long _ _ _ h => exact option_length h
  | alternative _ _ _ _ h => exact option_length h
  | cluster _ _ _ h => exact cluster_length h

theorem word_length {stop : Str → Prop} {strict : Bool} {q q' : List Place} {ts rest : List Str} {ev : Event}
    (h : WordReads stop strict q ts ev q' rest) : rest.length + q'.length < ts.length + q.length := by
  cases h with
  | fill h => have := takes_length h; rw [List.length_cons]; omega
  | surplus => simp

theorem words_of {strict : Bool} {q q' : List Place} (hq : PlacesSized q) {ts : List Str} {evs : List Event} {err : Option Exn}
    (h : ReadsWords strict q ts evs q' err) {n : Nat} (hn : ts.length + q.length < n) : words strict n q ts = (evs, err) := by
  have hb : ∀ t : Str, (fun _ => false : Str → Bool) t = true ↔ (fun _ => False : Str → Prop) t := fun _ => by simp
  induction h generalizing n with
  | nil q =>
    obtain ⟨n, rfl⟩ : ∃ m, n = m + 1 := ⟨n - 1, by omega⟩
    rfl
  | word h _ ih =>
    obtain ⟨n, rfl⟩ : ∃ m, n = m + 1 := ⟨n - 1, by omega⟩
    have hl := word_length h
    rw [words, word_of hb hq h]
    simp only
    rw [ih (wordReads_sized hq h) (by omega)]
  | badWord h =>
    obtain ⟨n, rfl⟩ : ∃ m, n = m + 1 := ⟨n - 1, by omega⟩
    rw [words, wordFails_of hb hq h]

theorem tokens_of {sig : Sig} (hsig : Sig.Sized sig) {q q' : List Place} (hq : PlacesSized q) {ts : List Str} {evs : List Event}
    {err : Option Exn} (h : Reads sig q ts evs q' err) {n : Nat} (hn : ts.length + q.length < n) :
    tokens sig n q ts = (evs, q', err) := by
  have hb := optionForm_iff sig
  induction h generalizing n with
  | nil q =>
    obtain ⟨n, rfl⟩ : ∃ m, n = m + 1 := ⟨n - 1, by omega⟩
    rfl
  | option h _ ih =>
    obtain ⟨n, rfl⟩ : ∃ m, n = m + 1 := ⟨n - 1, by omega⟩
    have hl := token_length h
    obtain ⟨h1, h2⟩ := token_of hsig hb h
    rw [tokens, if_pos h2, h1]
    simp only
    rw [ih hq (by rw [List.length_cons] at hn; omega)]
  | badOption h =>
    obtain ⟨n, rfl⟩ : ∃ m, n = m + 1 := ⟨n - 1, by omega⟩
    obtain ⟨h1, h2⟩ := token_of hsig hb h
    rw [tokens, if_pos h2, h1]
  | word hw h _ ih =>
    obtain ⟨n, rfl⟩ : ∃ m, n = m + 1 := ⟨n - 1, by omega⟩
    have hl := word_length h
    rw [tokens, if_neg (by rw [wordTok_of hw]; exact Bool.false_ne_true), word_of hb hq h]
    simp only
    rw [ih (wordReads_sized hq h) (by omega)]
  | badWord hw h =>
    obtain ⟨n, rfl⟩ : ∃ m, n = m + 1 := ⟨n - 1, by omega⟩
    rw [tokens, if_neg (by rw [wordTok_of hw]; exact Bool.false_ne_true), wordFails_of hb hq h]

theorem reads_length {sig : Sig} {q q' : List Place} {ts : List Str} {evs : List Event} {err : Option Exn}
    (h : Reads sig q ts evs q' err) : q'.length ≤ q.length := by
  induction h with
  | nil | badOption | badWord => exact Nat.le_refl _
  | option _ _ ih => exact ih
  | word _ h _ ih =>
    refine Nat.le_trans ih ?_
    cases h with
    | fill => exact Nat.le_succ _
    | surplus => exact Nat.le_refl _

/-- The reference parser computes what the grammar derives. -/
theorem line_of {sig : Sig} (hsig : Sig.Sized sig) {q : List Place} (hq : PlacesSized q) {ts : List Str} {evs : List Event}
    {err : Option Exn} (h : Line sig q ts evs err) : Spec.Reader.line sig q ts = (evs, err) := by
  have hne : ∀ {l : List Str}, (∀ t ∈ l, ¬EndTok t) → ∀ t ∈ l, (t != ['-', '-']) = true := by
    intro l hl t ht
    rw [bne_iff_ne]
    exact hl t ht
  unfold Spec.Reader.line
  cases h with
  | whole he h =>
    have e1 : ts.takeWhile (fun t => t != ['-', '-']) = ts := by
      simpa using List.takeWhile_append_of_pos (l₂ := []) (hne he)
    have e2 : ts.dropWhile (fun t => t != ['-', '-']) = [] := by
      simpa using List.dropWhile_append_of_pos (l₂ := []) (hne he)
    simp only [e1, e2]
    rw [tokens_of hsig hq h (Nat.lt_succ_self _)]
    cases err <;> rfl
  | @split ts ts' _ _ _ _ _ he h h' =>
    have e1 : (ts ++ ['-', '-'] :: ts').takeWhile (fun t => t != ['-', '-']) = ts := by
      rw [List.takeWhile_append_of_pos (hne he)]; simp
    have e2 : (ts ++ ['-', '-'] :: ts').dropWhile (fun t => t != ['-', '-']) = ['-', '-'] :: ts' := by
      rw [List.dropWhile_append_of_pos (hne he)]; simp
    have hl := reads_length h
    simp only [e1, e2]
    rw [tokens_of hsig hq h (by rw [List.length_append]; omega)]
    simp only
    rw [words_of (reads_sized hq h) h' (by rw [List.length_append, List.length_cons]; omega)]
  | @splitBad ts ts' _ _ _ he h =>
    have e1 : (ts ++ ['-', '-'] :: ts').takeWhile (fun t => t != ['-', '-']) = ts := by
      rw [List.takeWhile_append_of_pos (hne he)]; simp
    simp only [e1]
    rw [tokens_of hsig hq h (by rw [List.length_append]; omega)]

end Reader
end BletArgs
