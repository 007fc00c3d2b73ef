import Verif.Spec.Mention
import Verif.Lemmas.Spell
/-
Readings depend only on the flags the tokens mention.
-/
namespace BletArgs.Spec

/-- The two signatures agree about every flag mentioned by the tokens. -/
def Agree (s s' : Sig) (ts : List Str) : Prop := ∀ t ∈ ts, ∀ f, Mentions t f → s'.flag f = s.flag f

theorem Agree.mono {s s' : Sig} {ts ts' : List Str} (h : Agree s s' ts) (hs : ∀ t ∈ ts', t ∈ ts) : Agree s s' ts' :=
  fun t ht => h t (hs t ht)

theorem Agree.symm {s s' : Sig} {ts : List Str} (h : Agree s s' ts) : Agree s' s ts :=
  fun t ht f hf => (h t ht f hf).symm

theorem clusterForm_agree {s s' : Sig} {eq : Option Str} {cs : List Char}
    (hf : ∀ c ∈ cs, s'.flag ['-', c] = s.flag ['-', c]) (h : ClusterForm s eq cs) : ClusterForm s' eq cs := by
  induction h with
  | last h => exact .last (by rw [hf _ (by simp)]; exact h)
  | first hne h h' => exact .first hne (by rw [hf _ (by simp)]; exact h) h'
  | later hne h _ ih => exact .later hne (by rw [hf _ (by simp)]; exact h) (ih fun c hc => hf c (by simp [hc]))

theorem optionForm_agree {s s' : Sig} (ha : s'.alternative = s.alternative) {tok : Str}
    (hf : ∀ f, Mentions tok f → s'.flag f = s.flag f) (h : OptionForm s tok) : OptionForm s' tok := by
  cases h with
  | long ht hsp h => exact .long ht hsp (by rw [hf _ (.long ht hsp)]; exact h)
  | alternative ht hsp h h' =>
    exact .alternative ht hsp (by rw [ha]; exact h) (by rw [hf _ (.alternative ht hsp)]; exact h')
  | cluster ht hsp h => exact .cluster ht hsp (clusterForm_agree (fun c hc => hf _ (.letter ht hsp hc)) h)

theorem clusterReads_agree {s s' : Sig} {stop stop' : Str → Prop} {eq : Option Str} {ts : List Str}
    (hst : ∀ t ∈ ts, stop t ↔ stop' t) {cs : List Char} (hf : ∀ c ∈ cs, s'.flag ['-', c] = s.flag ['-', c])
    {evs : List Event} {out : Out} (h : ClusterReads s stop eq ts cs evs out) : ClusterReads s' stop' eq ts cs evs out := by
  induction h with
  | none => exact .none
  | unknown h => exact .unknown (by rw [hf _ (by simp)]; exact h)
  | last h h' => exact .last (by rw [hf _ (by simp)]; exact h) (optionReads_congr hst h')
  | attached hne h he ha h' => exact .attached hne (by rw [hf _ (by simp)]; exact h) he ha (optionReads_congr hst h')
  | notLast hne h ha hs => exact .notLast hne (by rw [hf _ (by simp)]; exact h) ha hs
  | switch hne h hs _ ih => exact .switch hne (by rw [hf _ (by simp)]; exact h) hs (ih fun c hc => hf c (by simp [hc]))

theorem tokenReads_agree {s s' : Sig} (ha : s'.alternative = s.alternative) {stop stop' : Str → Prop}
    {tok : Str} {ts : List Str} (hst : ∀ t ∈ ts, stop t ↔ stop' t) (hf : ∀ f, Mentions tok f → s'.flag f = s.flag f)
    {evs : List Event} {out : Out} (h : TokenReads s stop tok ts evs out) : TokenReads s' stop' tok ts evs out := by
  cases h with
  | long ht hsp h h' => exact .long ht hsp (by rw [hf _ (.long ht hsp)]; exact h) (optionReads_congr hst h')
  | unknownLong ht hsp h => exact .unknownLong ht hsp (by rw [hf _ (.long ht hsp)]; exact h)
  | alternative ht hsp h h1 h' =>
    exact .alternative ht hsp (by rw [ha]; exact h) (by rw [hf _ (.alternative ht hsp)]; exact h1) (optionReads_congr hst h')
  | cluster ht hsp h h' =>
    refine .cluster ht hsp ?_ (clusterReads_agree hst (fun c hc => hf _ (.letter ht hsp hc)) h')
    rw [ha, hf _ (.alternative ht hsp)]
    exact h

theorem reads_agree {s s' : Sig} (ha : s'.alternative = s.alternative) (hs : s'.strict = s.strict)
    {q q1 : List Place} {ts : List Str}
    (hag : Agree s s' ts) {evs : List Event} {err : Option Exn} (h : Reads s q ts evs q1 err) :
    Reads s' q ts evs q1 err := by
  have stop : ∀ {ts : List Str}, Agree s s' ts → ∀ t ∈ ts, OptionForm s t ↔ OptionForm s' t := by
    intro ts hag t ht
    exact ⟨optionForm_agree ha (hag t ht), optionForm_agree ha.symm (hag.symm t ht)⟩
  induction h with
  | nil => exact .nil _
  | @option q q' tok ts rest evs evs' err h _ ih =>
    have h' := tokenReads_agree ha (stop (hag.mono fun t ht => List.mem_cons_of_mem _ ht)) (hag tok List.mem_cons_self) h
    obtain ⟨p, e, _⟩ := tokenReads_swap h
    exact .option h' (ih (hag.mono fun t ht => List.mem_cons_of_mem _ (by rw [e]; exact List.mem_append_right _ ht)))
  | badOption h =>
    exact .badOption (tokenReads_agree ha (stop (hag.mono fun t ht => List.mem_cons_of_mem _ ht)) (hag _ List.mem_cons_self) h)
  | word hw h _ ih =>
    have e := wordReads_words h
    have hr := ih (hag.mono fun t ht => by rw [e]; exact List.mem_append_right _ ht)
    cases h with
    | fill h => exact .word hw (.fill (takes_congr (stop hag) h)) hr
    | surplus _ _ hh => exact .word hw (.surplus _ _ (hs.trans hh)) hr
  | badWord hw h =>
    cases h with
    | missing h => exact .badWord hw (.missing (tooFew_congr (stop hag) h))
    | surplus _ _ hh => exact .badWord hw (.surplus _ _ (hs.trans hh))

theorem line_agree {s s' : Sig} (ha : s'.alternative = s.alternative) (hs : s'.strict = s.strict) {q : List Place}
    {ts : List Str} (hag : ∀ X, Front ts X → Agree s s' X) {evs : List Event} {err : Option Exn} (h : Line s q ts evs err) :
    Line s' q ts evs err := by
  cases h with
  | whole hn h => exact .whole hn (reads_agree ha hs (hag _ ⟨hn, .inl rfl⟩) h)
  | splitBad hn h => exact .splitBad hn (reads_agree ha hs (hag _ ⟨hn, .inr ⟨_, rfl⟩⟩) h)
  | split hn h h' =>
    exact .split hn (reads_agree ha hs (hag _ ⟨hn, .inr ⟨_, rfl⟩⟩) h) (by rw [hs]; exact h')

theorem reaches_agree {s s' : Sig} (ha : s'.alternative = s.alternative) (hs : s'.strict = s.strict)
    {q q1 : List Place} {ts rest : List Str}
    (hag : Agree s s' ts) {evs : List Event} (h : Reaches s q ts evs q1 rest) :
    Reaches s' q ts evs q1 rest := by
  have stop : ∀ {ts : List Str}, Agree s s' ts → ∀ t ∈ ts, OptionForm s t ↔ OptionForm s' t := by
    intro ts hag t ht
    exact ⟨optionForm_agree ha (hag t ht), optionForm_agree ha.symm (hag.symm t ht)⟩
  induction h with
  | here => exact .here _ _
  | option h _ ih =>
    have h' := tokenReads_agree ha (stop (hag.mono fun t ht => List.mem_cons_of_mem _ ht)) (hag _ List.mem_cons_self) h
    obtain ⟨p, e, _⟩ := tokenReads_swap h
    exact .option h' (ih (hag.mono fun t ht => List.mem_cons_of_mem _ (by rw [e]; exact List.mem_append_right _ ht)))
  | word hw h _ ih =>
    have e := wordReads_words h
    have hr := ih (hag.mono fun t ht => by rw [e]; exact List.mem_append_right _ ht)
    cases h with
    | fill h => exact .word hw (.fill (takes_congr (stop hag) h)) hr
    | surplus _ _ hh => exact .word hw (.surplus _ _ (hs.trans hh)) hr

end BletArgs.Spec
