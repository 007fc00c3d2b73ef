import Verif.Lemmas.Finish
/-
The part of a parse after the tokens.
-/
namespace BletArgs
open Spec
variable {D : Type}

theorem tokens_arguments (st : State D) (argv : List Str) (evs : List Event) :
    ((st.begin argv).recordAll evs).arguments =
      st.arguments.map fun s => { s with arg := s.arg.afterTokens s.node evs } := by
  rw [recordAll_arguments]
  unfold State.begin State.resetAll
  simp only [List.map_map]
  rfl

theorem recordAll_rest (evs : List Event) (s0 : State D) : s0.recordAll evs = { s0 with
    arguments := (s0.recordAll evs).arguments, additional := (s0.recordAll evs).additional } := by
  induction evs generalizing s0 with
  | nil => rfl
  | cons ev evs ih =>
    show (s0.record ev).recordAll evs = _
    rw [ih]
    cases ev <;> rfl

/-- The state after the tokens. -/
def State.seen (st : State D) (argv : List Str) (evs : List Event) : State D :=
  { st.begin argv with
    arguments := st.arguments.map fun s => { s with arg := s.arg.afterTokens s.node evs }
    additional := st.additional ++ extras evs }

theorem seen_eq (st : State D) (argv : List Str) (evs : List Event) : (st.begin argv).recordAll evs = st.seen argv evs := by
  rw [recordAll_rest, tokens_arguments, recordAll_additional]
  rfl

theorem parse_seen {scan : Str → Option D} {st : State D} {argv : List Str} (h : Ready scan st argv)
    {evs : List Event} (hl : Line st.sig st.places (argv.drop 1) evs none) :
    st.parseArguments scan argv = (st.seen argv evs).afterLoop scan := by
  rw [(parse_of_line h hl).2 rfl, seen_eq]

theorem see_config (id : Nat) (ev : Event) (a : Argument D) : (a.see id ev).config = a.config := by
  unfold Argument.see
  split
  · split
    · exact occur_config _ _ _
    · rfl
  · split
    · exact fill_config _ _
    · rfl
  · rfl

theorem afterTokens_config (n : Nat) (evs : List Event) (a : Argument D) : (a.afterTokens n evs).config = a.config := by
  unfold Argument.afterTokens
  have : ∀ b : Argument D, (evs.foldl (Argument.see n) b).config = b.config := by
    induction evs with
    | nil => intro b; rfl
    | cons ev evs ih => intro b; rw [List.foldl_cons, ih, see_config]
  rw [this]
  rfl

theorem occurs_iff {st : State D} {full : Prop} (hi : GInv full st) {s : Slot D} (hs : s ∈ st.arguments)
    {ts : List Str} {evs : List Event} {err : Option Exn} (hl : Line st.sig st.places ts evs err) :
    (s.arg.afterTokens s.node evs).isExist = true ↔ Occurs s.node evs := (afterTokens_marks hi hs hl).1

theorem seen_atObj {st : State D} {full : Prop} (hi : GInv full st) (argv : List Str) (evs : List Event) {s : Slot D} (hs : s ∈ st.arguments) :
    (st.seen argv evs).atObj s.obj = some { s with arg := s.arg.afterTokens s.node evs } := by
  have := State.atObj_of_mem hi.objs hs
  unfold State.atObj State.seen at *
  simp only
  rw [List.find?_map]
  rw [show ((fun x : Slot D => x.obj == s.obj) ∘ fun s : Slot D => { s with arg := s.arg.afterTokens s.node evs }) =
    fun x => x.obj == s.obj from rfl, this]
  rfl

theorem seen_optionSeen {st : State D} {full : Prop} (hi : GInv full st) (argv : List Str) (evs : List Event) {s : Slot D} (hs : s ∈ st.arguments) :
    (st.seen argv evs).optionSeen (some s.obj) = some (s.arg.afterTokens s.node evs).isExist := by
  unfold State.optionSeen
  simp only
  rw [seen_atObj hi argv evs hs]
  rfl

/-! ### The usage text does not depend on what was parsed -/

theorem getUsage_config (st : State D) : st.config.getUsage = st.getUsage := by
  have ha : st.config.arguments.map (·.arg) = (st.arguments.map (·.arg)).map Argument.config := by
    unfold State.config
    simp only [List.map_map]
    rfl
  have hf : ∀ (f g : UsageVars → Argument D → UsageVars) (v : UsageVars), (∀ v a, f v (Argument.config a) = g v a) →
      (st.config.arguments.map (·.arg)).foldl f v = (st.arguments.map (·.arg)).foldl g v := by
    intro f g v h
    rw [ha, List.foldl_map, (funext fun v => funext fun a => h v a : (fun v a => f v (Argument.config a)) = g)]
  have he : st.config.arguments.isEmpty = st.arguments.isEmpty := by
    unfold State.config
    simp only [List.isEmpty_map]
  have hu : st.config.usageLine = st.usageLine := by
    unfold State.usageLine
    simp only
    rw [hf (UsageVars.optionStep st.config.usageHead.length st.config.indexMax) (UsageVars.optionStep st.usageHead.length st.indexMax) _ (fun _ _ => rfl),
      hf (UsageVars.positionalStep st.config.usageHead.length st.config.indexMax) (UsageVars.positionalStep st.usageHead.length st.indexMax) _ (fun _ _ => rfl)]
    rfl
  have hs : ∀ v, st.config.sections v = st.sections v := by
    intro v
    unfold State.sections
    simp only
    rw [he, hf st.config.positionalRow st.positionalRow _ (fun _ _ => rfl), hf st.config.optionRow st.optionRow _ (fun _ _ => rfl)]
  unfold State.getUsage
  rw [hu]
  simp only
  rw [hs]
  rfl

theorem seen_config (st : State D) (argv : List Str) (evs : List Event) :
    (st.seen argv evs).config = { st.config with binaryName := (st.begin argv).binaryName } := by
  have e : ∀ l : List (Slot D), (l.map fun s => ({ s with arg := s.arg.afterTokens s.node evs } : Slot D)).map Slot.config =
      l.map Slot.config := by
    intro l
    rw [List.map_map]
    refine List.map_congr_left fun s _ => ?_
    show ({ s with arg := (s.arg.afterTokens s.node evs).config } : Slot D) = _
    rw [afterTokens_config]
    rfl
  unfold State.config State.seen
  simp only
  rw [e]
  rfl

theorem seen_usage (st : State D) (argv : List Str) (evs : List Event) :
    (st.seen argv evs).getUsage =
      ({ st with binaryName := (st.begin argv).binaryName } : State D).getUsage := by
  rw [← getUsage_config (st.seen argv evs), seen_config, ← getUsage_config { st with binaryName := _ }]
  rfl

/-! ### Validators -/

theorem rewritten_cons (v o : Str) (vs out : List Str) : rewritten (v :: vs) (o :: out) = o :: rewritten vs out := rfl

theorem rewritten_none (vs : List Str) : rewritten vs [] = vs := by simp [rewritten]

theorem rewritten_nil (out : List Str) : rewritten [] out = [] := by simp [rewritten]

theorem rewritten_all {vs out : List Str} (h : out.length = vs.length) : rewritten vs out = out := by
  unfold rewritten
  rw [List.take_of_length_le (by omega), List.drop_of_length_le (by omega), List.append_nil]

theorem rewritten_append (vs ws out : List Str) :
    rewritten (vs ++ ws) out = rewritten vs out ++ rewritten ws (out.drop vs.length) := by
  induction vs generalizing out with
  | nil => simp [rewritten_nil]
  | cons v vs ih =>
    cases out with
    | nil => simp [rewritten_none]
    | cons o out => rw [List.cons_append, rewritten_cons, rewritten_cons, ih]; rfl

theorem writeElems_all (es : List (Elem D)) (out : List Str) :
    (writeElems es out).map (·.argument) = rewritten (es.map (·.argument)) out := by
  induction es generalizing out with
  | nil => cases out <;> simp [writeElems, rewritten_nil]
  | cons e es ih =>
    cases out with
    | nil => simp [writeElems, rewritten_none]
    | cons o out => simp [writeElems, ih, rewritten_cons]

theorem writeLeaves_spec (ls : List (Leaf D)) (out : List Str) :
    (writeLeaves ls out).1.map (·.argument) = rewritten (ls.map (·.argument)) out ∧
    (writeLeaves ls out).2 = out.drop ls.length := by
  induction ls generalizing out with
  | nil => cases out <;> simp [writeLeaves, rewritten_nil]
  | cons l ls ih =>
    cases out with
    | nil => simp [writeLeaves, rewritten_none]
    | cons o out =>
      have := ih out
      simp [writeLeaves, this.1, this.2, rewritten_cons]

theorem writeGroups_all (es : List (Elem D)) (out : List Str) :
    ((writeGroups es out).flatMap fun e => e.subs.map (·.argument)) =
      rewritten (es.flatMap fun e => e.subs.map (·.argument)) out := by
  induction es generalizing out with
  | nil => simp [writeGroups, rewritten_nil]
  | cons e es ih =>
    obtain ⟨h1, h2⟩ := writeLeaves_spec e.subs out
    unfold writeGroups
    simp only
    rw [h2, List.flatMap_cons, List.flatMap_cons, ih, rewritten_append, List.length_map]
    simp only
    rw [h1]

/-- What a successful last loop says about an argument that occurred. -/
theorem finish_valid {scan : Str → Option D} {a : Argument D} {v : Validator} (hv : a.valid = some v)
    (hx : a.isExist = true) (hok : (a.finish scan).2.2 = .ok ()) :
    ∃ vs out, a.toVector = some vs ∧ v.check vs = .accept out ∧
      (a.finished scan).toVector = some (rewritten vs out) ∧
      ((a.finished scan).toVecVec.map fun gs : List (List Str) => gs.map List.length) = (a.toVecVec.map fun gs : List (List Str) => gs.map List.length) := by
  unfold Argument.finished
  unfold Argument.finish at hok ⊢
  generalize hr : a.runValid = r at hok ⊢
  unfold Argument.runValid at hr
  rw [hv] at hr
  simp only [hx, if_true] at hr
  cases hc : v.check (a.toVector.getD []) with
  | throwValid m => rw [hc] at hr; subst hr; cases hok
  | throwOther e => rw [hc] at hr; subst hr; cases hok
  | reject => rw [hc] at hr; subst hr; cases hok
  | accept out =>
    rw [hc] at hr
    simp only at hr
    have key : ∀ b : Argument D, r = (b, .ok ()) →
        b.toVector = some (rewritten (a.toVector.getD []) out) →
        (b.toVecVec.map fun gs : List (List Str) => gs.map List.length) = (a.toVecVec.map fun gs : List (List Str) => gs.map List.length) →
        (a.toVector ≠ none) →
        ∃ vs out, a.toVector = some vs ∧ v.check vs = .accept out ∧
          (match r with
            | (a1, Res.ok ()) => (a1.toNumber scan, (a1.toNumber scan).toDest.1, (a1.toNumber scan).toDest.2)
            | (a1, r) => (a1, [], r)).1.toVector = some (rewritten vs out) ∧
          ((match r with
            | (a1, Res.ok ()) => (a1.toNumber scan, (a1.toNumber scan).toDest.1, (a1.toNumber scan).toDest.2)
            | (a1, r) => (a1, [], r)).1.toVecVec.map fun gs : List (List Str) => gs.map List.length) =
          (a.toVecVec.map fun gs : List (List Str) => gs.map List.length) := by
      intro b e hb1 hb2 hn
      subst e
      cases hvs : a.toVector with
      | none => exact absurd hvs hn
      | some vs =>
        rw [hvs] at hc hb1
        refine ⟨vs, out, rfl, hc, ?_, ?_⟩
        · show (b.toNumber scan).toVector = _
          rw [(toNumber_vectors scan b).1]
          exact hb1
        · show ((b.toNumber scan).toVecVec.map _) = _
          rw [(toNumber_vectors scan b).2, hb2]
    have lens : ∀ es es' : List (Elem D), es'.map (fun e => e.subs.length) = es.map (fun e => e.subs.length) →
        (es'.map (fun e => e.subs.map (·.argument))).map List.length =
        (es.map (fun e => e.subs.map (·.argument))).map List.length := by
      intro es es' e
      rw [List.map_map, List.map_map]
      simpa [Function.comp_def] using e
    have lens' : ∀ (es : List (Elem D)) (out : List Str), (writeGroups es out).map (fun e => e.subs.length) =
        es.map (fun e => e.subs.length) := by
      intro es
      have hl : ∀ (ls : List (Leaf D)) (out : List Str), (writeLeaves ls out).1.length = ls.length := by
        intro ls
        induction ls with
        | nil => intro out; rfl
        | cons l ls ih =>
          intro out
          cases out with
          | nil => rfl
          | cons o out => simp [writeLeaves, ih out]
      induction es with
      | nil => intro out; rfl
      | cons e es ih => intro out; simp [writeGroups, ih, hl]
    cases ht : a.type with
    | pos | simple =>
      rw [ht] at hr
      simp only at hr
      cases out with
      | nil => exact key a hr.symm (by unfold Argument.toVector; rw [ht]; simp [rewritten_none]) rfl (by unfold Argument.toVector; rw [ht]; simp)
      | cons o out =>
        refine key _ hr.symm ?_ ?_ (by unfold Argument.toVector; rw [ht]; simp)
        · unfold Argument.toVector
          simp only [ht]
          simp [rewritten]
        · unfold Argument.toVecVec; simp only [ht]
    | number | multi | infinite | multiInfinite | numberPos | infinitePos =>
      rw [ht] at hr
      refine key _ hr.symm ?_ ?_ (by unfold Argument.toVector; rw [ht]; simp)
      · unfold Argument.toVector
        simp only [ht]
        rw [writeElems_all]
        rfl
      · unfold Argument.toVecVec; simp only [ht]
    | multiNumber | multiNumberInfinite | infiniteNumberPos =>
      rw [ht] at hr
      refine key _ hr.symm ?_ ?_ (by unfold Argument.toVector; rw [ht]; simp)
      · unfold Argument.toVector
        simp only [ht]
        rw [writeGroups_all]
        rfl
      · unfold Argument.toVecVec
        simp only [ht, Option.map_some, Option.some.injEq]
        exact lens _ _ (lens' _ _)
    | _ => rw [ht] at hr; subst hr; cases hok


/-! ### The values after the tokens -/

theorem groups_flat {n : Nat} {k : Ty} (ht : k = .multiNumber ∨ k = .multiNumberInfinite ∨ k = .infiniteNumberPos) {vals : Values} (hf : ValuesFit n k vals) :
    ∃ gs, vals = .groups gs ∧ ∀ g ∈ gs, g.length = n := by
  cases hf with
  | group g hg => exact ⟨_, rfl, by simpa using hg⟩
  | groups gs h hg => exact ⟨_, rfl, hg⟩
  | _ => exfalso; grind [Valueless]

/-- The strings an argument holds after the tokens. -/
theorem tokens_vector {st : State D} {full : Prop} (hi : GInv full st) {s : Slot D} (hs : s ∈ st.arguments)
    {ts : List Str} {evs : List Event} {err : Option Exn} (hl : Line st.sig st.places ts evs err)
    (ho : Occurs s.node evs) (hk : ¬Valueless s.arg.type) :
    (s.arg.afterTokens s.node evs).toVector = some (s.arg.given (uses s.node evs) (fills s.node evs)) ∧
    (s.arg.type = .multiNumber ∨ s.arg.type = .multiNumberInfinite ∨ s.arg.type = .infiniteNumberPos →
      (s.arg.afterTokens s.node evs).toVecVec = some (s.arg.givenGroups (uses s.node evs) (fills s.node evs))) := by
  have htyT : (s.arg.afterTokens s.node evs).type = s.arg.type :=
    (congrArg (fun x : Argument D => x.type) (afterTokens_config s.node evs s.arg) :)
  cases hp : s.arg.isPositional with
  | false =>
    obtain ⟨hnf, hfit⟩ := option_uses hi hs hp hl
    have hnf' : fills s.node evs = [] := by
      cases hf : fills s.node evs with
      | nil => rfl
      | cons v l => exact absurd rfl (hnf _ v (mem_fills.1 (by rw [hf]; simp)))
    have hu : uses s.node evs ≠ [] := by
      rcases ho with ho | ho
      · exact ho
      · exact absurd hnf' ho
    have e := afterTokens_option hi hs hp hl
    rw [hnf']
    revert hfit hu e
    generalize uses s.node evs = us
    intro hfit hu e
    by_cases hacc : Accumulates s.arg.type
    · cases us with
      | nil => exact absurd rfl hu
      | cons u us =>
        have hel := occurs_accumulates (a := s.arg.reset) hacc rfl (u := u) (us := us) (fun v hv => (hfit v hv).1)
        rw [← e] at hel
        unfold Argument.toVector Argument.toVecVec Argument.given Argument.givenGroups
        rw [htyT]
        have flat1 : s.arg.type = .multi ∨ s.arg.type = .multiInfinite →
            (s.arg.afterTokens s.node evs).elems.map (·.argument) =
            (if u.1 = true then s.arg.oldStrings else []) ++ (u :: us).flatMap fun u => u.2.flat := by
          intro ht
          rw [hel, List.map_append]
          congr 1
          · cases u.1 <;> simp [Argument.reset, Argument.oldStrings, Function.comp_def]
          · rw [List.map_flatMap, List.flatMap_def, List.flatMap_def]
            congr 1
            exact List.map_congr_left fun w hm => flat_newElems ht (hfit w hm).1
        have grp : s.arg.type = .multiNumber ∨ s.arg.type = .multiNumberInfinite →
            (s.arg.afterTokens s.node evs).elems.map (fun e => e.subs.map (·.argument)) =
            (u :: us).flatMap fun u => u.2.groupList := by
          intro ht
          have hu1 : u.1 = false := by
            cases hb : u.1 with
            | false => rfl
            | true =>
              exfalso
              have := (hfit u (by simp)).2 hb
              rcases ht with h' | h' <;> rw [h'] at this <;> simp at this
          rw [hel, hu1]
          simp only [Bool.false_eq_true, if_false, List.nil_append]
          rw [List.map_flatMap, List.flatMap_def, List.flatMap_def]
          congr 1
          refine List.map_congr_left fun w hm => group_newElems _ ?_
          obtain ⟨gs, e, _⟩ := groups_flat (by rcases ht with h' | h' <;> simp [h']) (hfit w hm).1
          exact ⟨gs, e⟩
        have flat2 : s.arg.type = .multiNumber ∨ s.arg.type = .multiNumberInfinite →
            ((s.arg.afterTokens s.node evs).elems.flatMap fun e => e.subs.map (·.argument)) =
            (u :: us).flatMap fun u => u.2.flat := by
          intro ht
          rw [List.flatMap_def, grp ht]
          have : ∀ w ∈ u :: us, w.2.flat = w.2.groupList.flatten := by
            intro w hm
            obtain ⟨gs, e, _⟩ := groups_flat (by rcases ht with h' | h' <;> simp [h']) (hfit w hm).1
            rw [e]; rfl
          rw [List.flatMap_def, List.flatMap_def, List.map_congr_left this]
          generalize u :: us = ws
          induction ws with
          | nil => rfl
          | cons w ws ih => simp [ih]
        rcases hacc with ht | ht | ht | ht
        · rw [ht]
          simp only [flat1 (.inl ht), List.head?_cons, Option.map_some, Option.some.injEq]
          exact ⟨trivial, fun h => by simp at h⟩
        · rw [ht]
          simp only [flat1 (.inr ht), List.head?_cons, Option.map_some, Option.some.injEq]
          exact ⟨trivial, fun h => by simp at h⟩
        · rw [ht]
          simp only [flat2 (.inl ht), grp (.inl ht)]
          exact ⟨trivial, fun _ => trivial⟩
        · rw [ht]
          simp only [flat2 (.inr ht), grp (.inr ht)]
          exact ⟨trivial, fun _ => trivial⟩
    · obtain ⟨us', u, rfl⟩ : ∃ us' u, us = us' ++ [u] := ⟨us.dropLast, us.getLast hu, (List.dropLast_concat_getLast hu).symm⟩
      obtain ⟨att, vals⟩ := u
      have hf := (hfit (att, vals) (by simp)).1
      have hkind : s.arg.type = .simple ∨ s.arg.type = .number ∨ s.arg.type = .infinite := by
        unfold Argument.isPositional at hp
        unfold Accumulates at hacc
        unfold Valueless at hk
        revert hp hacc hk
        generalize s.arg.type = k
        cases k <;> simp [Ty.isPositional]
      unfold Argument.toVector Argument.toVecVec Argument.given
      rw [htyT]
      refine ⟨?_, fun h => by rcases hkind with e | e | e <;> rw [e] at h <;> simp at h⟩
      rcases hkind with ht | ht
      · obtain ⟨v, rfl, g⟩ := occurs_simple (a := s.arg.reset) (us := us') (att := att) ht hf
        rw [← e] at g
        rw [ht]
        simp [g, Values.flat]
      · obtain ⟨vs, rfl, g⟩ := occurs_list (a := s.arg.reset) (us := us') (att := att) ht hf
        rw [← e] at g
        rcases ht with ht | ht <;> rw [ht] <;> simp [g, Values.flat, valElem, Function.comp_def]
  | true =>
    have hnu : uses s.node evs = [] := by
      cases hf : uses s.node evs with
      | nil => rfl
      | cons v l =>
        exfalso
        obtain ⟨a, v⟩ := v
        exact (positional_fills hi hs hp hl).1 _ a v (mem_uses.1 (by rw [hf]; simp)) rfl
    have hfl : fills s.node evs ≠ [] := by
      rcases ho with ho | ho
      · exact absurd hnu ho
      · exact ho
    rcases afterTokens_positional hi hs hp hl with ⟨h1, _⟩ | ⟨vals, h1, hfit, h2⟩
    · exact absurd h1 hfl
    rw [h1, hnu]
    unfold Argument.toVector Argument.toVecVec Argument.given Argument.givenGroups
    rw [htyT, h2]
    have hp' : s.arg.type.isPositional = true := hp
    generalize s.arg.type = k at *
    have bad : ∀ k : Ty, k.isPositional = true → k = .simple ∨ k = .number ∨ k = .infinite ∨ k = .multiInfinite ∨
        k = .multi ∨ k = .multiNumber ∨ k = .multiNumberInfinite → False := by
      intro k; cases k <;> simp [Ty.isPositional]
    cases hfit with
    | single v hk' =>
      rcases hk' with rfl | rfl
      · exact (bad _ hp' (by simp)).elim
      · simp [Argument.fill, Values.flat]
    | fixed vs hk' =>
      rcases hk' with rfl | rfl
      · exact (bad _ hp' (by simp)).elim
      · simp [Argument.fill, Values.flat, Argument.push, Argument.reset, valElem, Argument.oldStrings, Function.comp_def]
    | many vs hk' =>
      rcases hk' with rfl | rfl | rfl
      · exact (bad _ hp' (by simp)).elim
      · exact (bad _ hp' (by simp)).elim
      · simp [Argument.fill, Values.flat, Argument.push, Argument.reset, valElem, Argument.oldStrings, Function.comp_def]
    | groups gs hk' =>
      rcases hk' with rfl | rfl
      · exact (bad _ hp' (by simp)).elim
      · simp [Argument.fill, Values.flat, Values.groupList, Argument.push, Argument.reset, valGroup, Argument.oldGroups, Function.comp_def, List.flatMap_def]
    | nothing h => exact absurd h hk
    | one v => exact (bad _ hp' (by simp)).elim
    | group g => exact (bad _ hp' (by simp)).elim

/-- The strings an argument that occurred holds after a call that returns. -/
theorem parse_vector {scan : Str → Option D} {st : State D} {argv : List Str} (h : Ready scan st argv)
    {evs : List Event} (hl : Line st.sig st.places (argv.drop 1) evs none)
    (hok : (st.parseArguments scan argv).2 = .ok ()) {s : Slot D} (hs : s ∈ st.arguments)
    (ho : Occurs s.node evs) (hk : ¬Valueless s.arg.type) :
    ∃ s', (st.parseArguments scan argv).1.atObj s.obj = some s' ∧ s'.arg.type = s.arg.type ∧
      Validated s.arg.valid (s.arg.given (uses s.node evs) (fills s.node evs)) s'.arg.toVector ∧
      (s.arg.type = .multiNumber ∨ s.arg.type = .multiNumberInfinite ∨ s.arg.type = .infiniteNumberPos →
        ValidatedGroups s.arg.valid (s.arg.givenGroups (uses s.node evs) (fills s.node evs)) s'.arg.toVecVec) := by
  have hi := h.inv
  obtain ⟨t1, t2⟩ := tokens_vector hi hs hl ho hk
  obtain ⟨h1, _, _⟩ := parse_result h hl hok
  have h1 := h1 s hs
  have htyT : (s.arg.afterTokens s.node evs).type = s.arg.type :=
    (congrArg (fun x : Argument D => x.type) (afterTokens_config s.node evs s.arg) :)
  have hvT : (s.arg.afterTokens s.node evs).valid = s.arg.valid :=
    (congrArg (fun x : Argument D => x.valid) (afterTokens_config s.node evs s.arg) :)
  refine ⟨_, parse_atObj h hl hok hs, (finished_type _ _).trans htyT, ?_, ?_⟩
  · unfold Validated
    cases hv : s.arg.valid with
    | none =>
      simp only
      rw [finished_noValid (hvT.trans hv), (toNumber_vectors _ _).1, t1]
    | some v =>
      obtain ⟨vs, out, g1, g2, g3, _⟩ := finish_valid (hvT.trans hv) ((occurs_iff hi hs hl).2 ho) h1
      rw [t1] at g1
      cases g1
      exact ⟨out, g2, g3⟩
  · intro ht
    have t2 := t2 ht
    unfold ValidatedGroups
    cases hv : s.arg.valid with
    | none =>
      simp only
      rw [finished_noValid (hvT.trans hv), (toNumber_vectors _ _).2, t2]
    | some v =>
      obtain ⟨vs, out, g1, g2, g3, g4⟩ := finish_valid (hvT.trans hv) ((occurs_iff hi hs hl).2 ho) h1
      have hflat : ∀ b : Argument D, (b.type = .multiNumber ∨ b.type = .multiNumberInfinite ∨ b.type = .infiniteNumberPos) →
          ∃ gs, b.toVecVec = some gs ∧ b.toVector = some gs.flatten := by
        intro b hb
        unfold Argument.toVecVec Argument.toVector
        rcases hb with e | e | e <;> rw [e] <;> exact ⟨_, rfl, by rw [List.flatMap_def]⟩
      obtain ⟨gs, k1, k2⟩ := hflat _ (htyT ▸ ht : (s.arg.afterTokens s.node evs).type = .multiNumber ∨ _ ∨ _)
      obtain ⟨gs', k3, k4⟩ := hflat ((s.arg.afterTokens s.node evs).finished scan) (by rw [finished_type, htyT]; exact ht)
      rw [t2] at k1
      cases k1
      rw [k2] at g1
      cases g1
      refine ⟨out, gs', g2, k3, ?_, ?_⟩
      · rw [k3, t2] at g4
        simpa using g4
      · rw [k4] at g3
        exact Option.some.inj g3

end BletArgs
