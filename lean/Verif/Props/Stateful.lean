import Verif.Lemmas.Stateful
import Verif.Lemmas.After
import Verif.Props.Callback
/-
User code with a state: C76 (it can do nothing that code without a state, chosen for the occasion, cannot do) and C77
(what it is called with, in which order).
-/
namespace BletArgs
open Spec
variable {D : Type} {U : Type}

/-- C76, one parse. Whatever the validators and callbacks of the program do – they may read and write any variables, the
destinations among them – a parse of a reachable parser ends as it does with code without a state: there are functions
that, given to the same parser, make the same call end in the same way, with the same arguments, values, and writes
to destinations. -/
theorem C76_one_parse {scan : Str → Option D} (code : UserCode U) (u : U) {st : State D} (h : Reachable scan st)
    (argv : List Str) :
    ∃ st', Reachable scan st' ∧ SameButCode st st' ∧
      (st'.parseArguments scan argv).2 = (st.parseIn scan code u argv).2.1 ∧
      SameButCode (st.parseIn scan code u argv).1 (st'.parseArguments scan argv).1 := by
  obtain ⟨k, hk⟩ := Tune.parse_same scan code u h.inv argv
  refine ⟨st.tune k, Tune.reachable_tune h.inv h k, Tune.mute_tune k st, by rw [hk], ?_⟩
  rw [hk]
  exact Tune.mute_tune k _

/-- The outcome with a state does not depend on the code attached to the arguments. -/
theorem parseIn_sameButCode {scan : Str → Option D} (code : UserCode U) (u : U) {st st' : State D} (h : SameButCode st st')
    (argv : List Str) :
    SameButCode (st.parseIn scan code u argv).1 (st'.parseIn scan code u argv).1 ∧
    (st'.parseIn scan code u argv).2 = (st.parseIn scan code u argv).2 := by
  have e1 := Tune.parseIn scan code (fun _ => Tune.silent) u st argv
  have e2 := Tune.parseIn scan code (fun _ => Tune.silent) u st' argv
  have h' : st'.tune (fun _ => Tune.silent) = st.tune (fun _ => Tune.silent) := h
  rw [h', e1] at e2
  exact ⟨(congrArg Prod.fst e2).symm, (congrArg Prod.snd e2).symm⟩

/-- C76. Take any program whose validators and callbacks have a state of their own, at any point of any history, and any
next call. There is a program with validators and callbacks without a state that has the same parser – same
arguments, values, settings, references, writes to destinations – and whose same call ends in the same way and leaves
the same parser. So what is proved about all reachable parsers holds for these programs too. -/
theorem C76_no_new_behaviour {scan : Str → Option D} {code : UserCode U} {st : State D} {u : U}
    (h : ReachableIn scan code st u) (op : Op) :
    ∃ st' op', Reachable scan st' ∧ SameButCode st st' ∧
      ((∃ r c x, op = .behave r c x) ∨ op' = op) ∧
      (step scan st' op').2 = (stepIn scan code u st op).2.1 ∧
      SameButCode (stepIn scan code u st op).1 (step scan st' op').1 := by
  have next : ∀ {st : State D} {u : U} {st' : State D}, Reachable scan st' → SameButCode st st' → ∀ op : Op,
      ∃ st' op', Reachable scan st' ∧ SameButCode st st' ∧ ((∃ r c x, op = .behave r c x) ∨ op' = op) ∧
        (step scan st' op').2 = (stepIn scan code u st op).2.1 ∧
        SameButCode (stepIn scan code u st op).1 (step scan st' op').1 := by
    intro st u st' hr hs op
    by_cases hp : ∃ argv, op = .parse argv
    · obtain ⟨argv, rfl⟩ := hp
      obtain ⟨st'', h1, h2, h3, h4⟩ := C76_one_parse code u hr argv
      obtain ⟨h5, h6⟩ := parseIn_sameButCode (scan := scan) code u hs argv
      refine ⟨st'', .parse argv, h1, h2.trans hs, .inr rfl, ?_, ?_⟩
      · show (st''.parseArguments scan argv).2 = (st.parseIn scan code u argv).2.1
        rw [h3, h6]
      · show SameButCode (st.parseIn scan code u argv).1 (st''.parseArguments scan argv).1
        exact h4.trans h5
    · by_cases hb : ∃ r c x, op = .behave r c x
      · obtain ⟨r, c, x, rfl⟩ := hb
        exact ⟨st', .setVersion st'.version, hr, hs, .inl ⟨r, c, x, rfl⟩, rfl, hs⟩
      · have hp' : ∀ argv, op ≠ .parse argv := fun argv e => hp ⟨argv, e⟩
        have hb' : ∀ r c x, op ≠ .behave r c x := fun r c x e => hb ⟨r, c, x, e⟩
        obtain ⟨h1, h2⟩ := Tune.step scan op hp' hb' hs
        have e : stepIn scan code u st op = ((step scan st op).1, (step scan st op).2, u) := by
          cases op <;> first | rfl | exact absurd rfl (hp' _) | exact absurd rfl (hb' _ _ _)
        rw [e]
        exact ⟨st', op, hr, hs, .inr rfl, h2, h1⟩
  have main : ∃ st', Reachable scan st' ∧ SameButCode st st' := by
    induction h with
    | init u => exact ⟨State.init, .init, rfl⟩
    | elsewhere u' _ ih => exact ih
    | @step st u op _ hg ih =>
      obtain ⟨st', hr, hs⟩ := ih
      obtain ⟨st'', op', h1, h2, h3, h4, h5⟩ := next (u := u) hr hs op
      exact ⟨_, .step op' h1 (by rw [h4]; exact hg), h5⟩
  obtain ⟨st', hr, hs⟩ := main
  exact next hr hs op

/-! ### The calls -/

/-- The outcomes user code can see: a value or an exception. -/
theorem react_res (a : Argument D) (r : VRes) :
    (Tune.react a r).2 = .ok () ∧ VRes.accepts r = true ∨ ∃ e, (Tune.react a r).2 = .throw e := by
  cases r with
  | accept args =>
    unfold Tune.react
    cases a.type <;> first | exact .inl ⟨rfl, rfl⟩ | exact .inr ⟨_, rfl⟩
  | _ => exact .inr ⟨_, rfl⟩

theorem react_dest (a : Argument D) (r : VRes) : (Tune.react a r).1.dest = a.dest := by
  cases r with
  | accept args =>
    unfold Tune.react
    cases a.type <;> first | rfl | (cases args <;> rfl)
  | _ => rfl

/-- The check an argument gets in the last loop. -/
def Argument.checks (a : Argument D) : List UserCall :=
  match a.valid with
  | none => []
  | some v => if a.isExist then [.check v.id (a.toVector.getD [])] else []

/-- The trace of a part of the last loop: the calls made, all but the last one successes; if it goes on, all are. -/
structure Traced (calls : List UserCall) (res : Res Unit) (tr : List (UserCall × Bool)) : Prop where
  calls : tr.map (·.1) = calls
  early : ∀ e ∈ tr.dropLast, e.2 = true
  passed : res = .ok () → ∀ e ∈ tr, e.2 = true
  failed : (∃ e ∈ tr, e.2 = false) → ∃ x, res = .throw x
  res : res = .ok () ∨ ∃ x, res = .throw x

theorem Traced.append {c1 c2 : List UserCall} {r : Res Unit} {t1 t2 : List (UserCall × Bool)}
    (h1 : Traced c1 (.ok ()) t1) (h2 : Traced c2 r t2) : Traced (c1 ++ c2) r (t1 ++ t2) where
  calls := by rw [List.map_append, h1.calls, h2.calls]
  early := by
    intro e he
    rw [List.dropLast_append] at he
    split at he
    · exact h1.passed rfl e ((List.dropLast_sublist _).subset he)
    · rcases List.mem_append.1 he with he | he
      · exact h1.passed rfl e he
      · exact h2.early e he
  passed := by
    intro hr e he
    rcases List.mem_append.1 he with he | he
    · exact h1.passed rfl e he
    · exact h2.passed hr e he
  failed := by
    rintro ⟨e, he, hf⟩
    rcases List.mem_append.1 he with he | he
    · rw [h1.passed rfl e he] at hf; cases hf
    · exact h2.failed ⟨e, he, hf⟩
  res := h2.res

theorem Traced.nil : Traced [] (.ok ()) [] := ⟨rfl, nofun, fun _ => nofun, nofun, .inl rfl⟩

theorem runValidIn_traced (code : UserCode U) (u : U) (t : List (UserCall × Bool)) (a : Argument D) :
    ∃ tr, ((a.runValidIn (recorded code) (u, t)).2.2.2 = t ++ tr) ∧
      Traced a.checks (a.runValidIn (recorded code) (u, t)).2.1 tr ∧
      (a.runValidIn (recorded code) (u, t)).1.dest = a.dest := by
  rw [Tune.runValidIn_eq]
  unfold Argument.checks
  cases a.valid with
  | none => exact ⟨[], (List.append_nil _).symm, .nil, rfl⟩
  | some v =>
    cases a.isExist with
    | false => exact ⟨[], (List.append_nil _).symm, .nil, rfl⟩
    | true =>
      simp only [if_true]
      refine ⟨[(.check v.id (a.toVector.getD []), VRes.accepts (code.check v.id (a.toVector.getD []) u).1)], rfl, ?_, react_dest a _⟩
      show Traced _ (Tune.react a (code.check v.id (a.toVector.getD []) u).1).2 _
      have hr := react_res a (code.check v.id (a.toVector.getD []) u).1
      refine ⟨rfl, nofun, ?_, ?_, ?_⟩
      · intro e x hx
        rw [List.mem_singleton] at hx
        subst hx
        rcases hr with ⟨_, hr⟩ | ⟨y, hr⟩
        · exact hr
        · rw [hr] at e; cases e
      · rintro ⟨e, he, hf⟩
        rw [List.mem_singleton] at he
        subst he
        rcases hr with ⟨_, hr⟩ | hr
        · rw [hr] at hf; cases hf
        · exact hr
      · rcases hr with ⟨hr, _⟩ | hr
        · exact .inl hr
        · exact .inr hr

theorem invoke_traced (code : UserCode U) (u : U) (t : List (UserCall × Bool)) (w : DestWrite) :
    ∃ tr, ((recorded code).invoke (u, t) w).2.2.2 = t ++ tr ∧
      Traced [.write w] ((recorded code).invoke (u, t) w).2.1 tr ∧ ((recorded code).invoke (u, t) w).1 = [w] := by
  refine ⟨[(.write w, (code.call w u).1.isNone)], ?_⟩
  unfold UserCode.invoke
  simp only [recorded]
  generalize code.call w u = x
  obtain ⟨r, u1⟩ := x
  cases r with
  | none => exact ⟨rfl, ⟨rfl, nofun, fun _ => by simp, by simp, .inl rfl⟩, rfl⟩
  | some e => exact ⟨rfl, ⟨rfl, nofun, nofun, fun _ => ⟨e, rfl⟩, .inr ⟨e, rfl⟩⟩, rfl⟩

theorem assign_traced (code : UserCode U) (u : U) (t : List (UserCall × Bool)) (ws : List DestWrite) :
    ∃ tr, ((recorded code).assign (u, t) ws).2.2.2 = t ++ tr ∧
      Traced (ws.map .write) ((recorded code).assign (u, t) ws).2.1 tr ∧ ((recorded code).assign (u, t) ws).1 = ws := by
  refine ⟨ws.map fun w => (.write w, true), ?_, ⟨?_, ?_, ?_, ?_, .inl rfl⟩, rfl⟩
  · show (ws.foldl (fun u w => (recorded code).assigned w u) (u, t)).2 = _
    induction ws generalizing u t with
    | nil => simp
    | cons w ws ih => rw [List.foldl_cons]; show (ws.foldl _ (code.assigned w u, t ++ _)).2 = _; rw [ih]; simp
  · rw [List.map_map]; rfl
  · intro e he
    obtain ⟨w, _, rfl⟩ := List.mem_map.1 ((List.dropLast_sublist _).subset he)
    rfl
  · intro _ e he
    obtain ⟨w, _, rfl⟩ := List.mem_map.1 he
    rfl
  · rintro ⟨e, he, hf⟩
    obtain ⟨w, _, rfl⟩ := List.mem_map.1 he
    cases hf

theorem toDestIn_traced (code : UserCode U) (u : U) (t : List (UserCall × Bool)) (a : Argument D) :
    ∃ tr, (a.toDestIn (recorded code) (u, t)).2.2.2 = t ++ tr ∧
      Traced ((a.toDestIn (recorded code) (u, t)).1.map .write) (a.toDestIn (recorded code) (u, t)).2.1 tr ∧
      ∀ w ∈ (a.toDestIn (recorded code) (u, t)).1, ∃ d, a.dest = some d ∧ w.slot = d.slot := by
  have inv : ∀ w : DestWrite, (∃ d, a.dest = some d ∧ w.slot = d.slot) →
      ∃ tr, ((recorded code).invoke (u, t) w).2.2.2 = t ++ tr ∧
        Traced (((recorded code).invoke (u, t) w).1.map .write) ((recorded code).invoke (u, t) w).2.1 tr ∧
        ∀ w' ∈ ((recorded code).invoke (u, t) w).1, ∃ d, a.dest = some d ∧ w'.slot = d.slot := by
    intro w hw
    obtain ⟨tr, h1, h2, h3⟩ := invoke_traced code u t w
    rw [h3]
    exact ⟨tr, h1, h2, by simpa using hw⟩
  have asg : ∀ ws : List DestWrite, (∀ w ∈ ws, ∃ d, a.dest = some d ∧ w.slot = d.slot) →
      ∃ tr, ((recorded code).assign (u, t) ws).2.2.2 = t ++ tr ∧
        Traced (((recorded code).assign (u, t) ws).1.map .write) ((recorded code).assign (u, t) ws).2.1 tr ∧
        ∀ w' ∈ ((recorded code).assign (u, t) ws).1, ∃ d, a.dest = some d ∧ w'.slot = d.slot := by
    intro ws hw
    obtain ⟨tr, h1, h2, h3⟩ := assign_traced code u t ws
    rw [h3]
    exact ⟨tr, h1, h2, hw⟩
  have thr : ∃ tr, t = t ++ tr ∧ Traced [] (.throw noConversion) tr :=
    ⟨[], (List.append_nil _).symm, ⟨rfl, nofun, nofun, nofun, .inr ⟨_, rfl⟩⟩⟩
  unfold Argument.toDestIn
  cases hd : a.dest with
  | none => exact ⟨[], (List.append_nil _).symm, .nil, nofun⟩
  | some d =>
    simp only [hd] at inv asg
    have one : ∀ w : DestWrite, w.slot = d.slot → ∃ d', some d = some d' ∧ w.slot = d'.slot := fun w h => ⟨d, rfl, h⟩
    simp only
    cases d.kind with
    | scalar =>
      simp only
      cases d.custom with
      | true => exact inv _ (one _ rfl)
      | false =>
        cases d.supported with
        | true => exact asg _ fun w hw => one w (by rw [List.mem_singleton] at hw; subst hw; rfl)
        | false => obtain ⟨tr, h1, h2⟩ := thr; exact ⟨tr, h1, h2, nofun⟩
    | vector =>
      simp only
      cases d.custom with
      | true => exact inv _ (one _ rfl)
      | false =>
        cases d.supported with
        | true =>
          refine asg _ fun w hw => one w ?_
          split at hw
          · rw [List.mem_singleton] at hw; subst hw; rfl
          · obtain ⟨s, _, rfl⟩ := List.mem_map.1 hw; rfl
        | false => obtain ⟨tr, h1, h2⟩ := thr; exact ⟨tr, h1, h2, nofun⟩
    | vecvec =>
      simp only
      cases d.custom with
      | true => exact inv _ (one _ rfl)
      | false =>
        cases d.supported with
        | true =>
          refine asg _ fun w hw => one w ?_
          split at hw
          · rw [List.mem_singleton] at hw; subst hw; rfl
          · obtain ⟨s, _, rfl⟩ := List.mem_map.1 hw; rfl
        | false => obtain ⟨tr, h1, h2⟩ := thr; exact ⟨tr, h1, h2, nofun⟩

theorem finishIn_traced (scan : Str → Option D) (code : UserCode U) (u : U) (t : List (UserCall × Bool)) (a : Argument D) :
    ∃ tr, (a.finishIn scan (recorded code) (u, t)).2.2.2.2 = t ++ tr ∧
      Traced (a.checks ++ (a.finishIn scan (recorded code) (u, t)).2.1.map .write)
        (a.finishIn scan (recorded code) (u, t)).2.2.1 tr ∧
      ∀ w ∈ (a.finishIn scan (recorded code) (u, t)).2.1, ∃ d, a.dest = some d ∧ w.slot = d.slot := by
  obtain ⟨tr, h1, h2, h3⟩ := runValidIn_traced code u t a
  unfold Argument.finishIn
  generalize a.runValidIn (recorded code) (u, t) = x at h1 h2 h3
  obtain ⟨a1, res, u1, t1⟩ := x
  obtain rfl : t1 = t ++ tr := h1
  cases res with
  | ok _ =>
    simp only
    obtain ⟨tr', h4, h5, h6⟩ := toDestIn_traced code u1 (t ++ tr) (a1.toNumber scan)
    refine ⟨tr ++ tr', by rw [h4, List.append_assoc], h2.append h5, ?_⟩
    rw [show (a1.toNumber scan).dest = a.dest from (toNumber_dest scan a1).trans h3] at h6
    exact h6
  | throw e => exact ⟨tr, rfl, by simpa using h2, nofun⟩
  | exit e => rcases h2.res with h | ⟨x, h⟩ <;> cases h
  | ub e => rcases h2.res with h | ⟨x, h⟩ <;> cases h
  | diverge => rcases h2.res with h | ⟨x, h⟩ <;> cases h

theorem finishAllIn_cons (scan : Str → Option D) (code : UserCode U) (u : U) (s : Slot D) (l : List (Slot D)) :
    finishAllIn scan code u (s :: l) =
      match s.arg.finishIn scan code u with
      | (a1, w, .ok (), u) =>
        ({ s with arg := a1 } :: (finishAllIn scan code u l).1, w ++ (finishAllIn scan code u l).2.1,
          (finishAllIn scan code u l).2.2)
      | (a1, w, r, u) => ({ s with arg := a1 } :: l, w, r, u) := rfl

theorem finishAllIn_traced (scan : Str → Option D) (code : UserCode U) (u : U) (t : List (UserCall × Bool)) (l : List (Slot D))
    (hn : (l.map (·.node)).Nodup) :
    ∃ (tr : List (UserCall × Bool)) (n : Nat) (ws : Nat → List DestWrite),
      (finishAllIn scan (recorded code) (u, t) l).2.2.2.2 = t ++ tr ∧
      Traced ((l.take n).flatMap fun s => s.arg.checks ++ (ws s.node).map .write)
        (finishAllIn scan (recorded code) (u, t) l).2.2.1 tr ∧
      ((finishAllIn scan (recorded code) (u, t) l).2.2.1 = .ok () → l.length ≤ n) ∧
      (finishAllIn scan (recorded code) (u, t) l).2.1 = (l.take n).flatMap (fun s => ws s.node) ∧
      ∀ s ∈ l, ∀ w ∈ ws s.node, ∃ d, s.arg.dest = some d ∧ w.slot = d.slot := by
  induction l generalizing u t with
  | nil =>
    refine ⟨[], 0, fun _ => [], ?_, ?_, fun _ => Nat.le_refl _, ?_, fun s hs => absurd hs List.not_mem_nil⟩
    · rw [finishAllIn, List.append_nil]
    · rw [finishAllIn, List.take_zero, List.flatMap_nil]; exact .nil
    · rw [finishAllIn, List.take_zero, List.flatMap_nil]
  | cons s l ih =>
    rw [List.map_cons, List.nodup_cons] at hn
    obtain ⟨tr, h1, h2, h3⟩ := finishIn_traced scan code u t s.arg
    rw [finishAllIn_cons]
    generalize s.arg.finishIn scan (recorded code) (u, t) = x at h1 h2 h3
    obtain ⟨a1, w, res, u1, t1⟩ := x
    obtain rfl : t1 = t ++ tr := h1
    have stop : Traced (s.arg.checks ++ w.map .write) res tr →
        ∃ (tr' : List (UserCall × Bool)) (n : Nat) (ws : Nat → List DestWrite), t ++ tr = t ++ tr' ∧
        Traced (((s :: l).take n).flatMap fun s => s.arg.checks ++ (ws s.node).map .write) res tr' ∧
        (w = ((s :: l).take n).flatMap (fun s => ws s.node)) ∧
        ∀ x ∈ s :: l, ∀ w ∈ ws x.node, ∃ d, x.arg.dest = some d ∧ w.slot = d.slot := by
      intro h
      refine ⟨tr, 1, fun n => if n = s.node then w else [], rfl, by simpa using h, by simp, ?_⟩
      intro x hx w' hw
      simp only at hw
      split at hw
      · rename_i e
        rcases List.mem_cons.1 hx with rfl | hx
        · exact h3 w' hw
        · exact absurd (e ▸ List.mem_map_of_mem hx) hn.1
      · cases hw
    cases res with
    | ok _ =>
      simp only
      obtain ⟨tr', n, ws, h4, h5, h6, h7, h8⟩ := ih u1 (t ++ tr) hn.2
      have hws : ∀ x ∈ l, (if x.node = s.node then w else ws x.node) = ws x.node := by
        intro x hx
        rw [if_neg]
        intro e
        exact hn.1 (e ▸ List.mem_map_of_mem hx)
      have htk : ∀ x ∈ l.take n, x ∈ l := fun x hx => List.mem_of_mem_take hx
      refine ⟨tr ++ tr', n + 1, fun k => if k = s.node then w else ws k, by rw [h4, List.append_assoc], ?_, ?_, ?_, ?_⟩
      · rw [List.take_succ_cons, List.flatMap_cons]
        simp only [if_true]
        have e : (l.take n).flatMap (fun s' => s'.arg.checks ++ (if s'.node = s.node then w else ws s'.node).map .write) =
            (l.take n).flatMap fun s => s.arg.checks ++ (ws s.node).map .write := by
          rw [List.flatMap_def, List.flatMap_def]
          exact congrArg _ (List.map_congr_left fun x hx => by rw [hws x (htk x hx)])
        rw [e]
        exact h2.append h5
      · intro hr
        exact Nat.succ_le_succ (h6 hr)
      · rw [List.take_succ_cons, List.flatMap_cons, h7]
        simp only [if_true]
        congr 1
        rw [List.flatMap_def, List.flatMap_def]
        exact congrArg _ (List.map_congr_left fun x hx => (hws x (htk x hx)).symm)
      · intro x hx w' hw
        simp only at hw
        rcases List.mem_cons.1 hx with rfl | hx
        · rw [if_pos rfl] at hw; exact h3 w' hw
        · rw [hws x hx] at hw; exact h8 x hx w' hw
    | throw e =>
      obtain ⟨tr', n, ws, h4, h5, h6, h7⟩ := stop h2
      exact ⟨tr', n, ws, h4, h5, nofun, h6, h7⟩
    | exit e => rcases h2.res with h | ⟨x, h⟩ <;> cases h
    | ub e => rcases h2.res with h | ⟨x, h⟩ <;> cases h
    | diverge => rcases h2.res with h | ⟨x, h⟩ <;> cases h

theorem parseIn_seen {scan : Str → Option D} (code : UserCode U) (u : U) {st : State D} {argv : List Str} (h : Ready scan st argv)
    {evs : List Event} {err : Option Exn} (hl : Line st.sig st.places (argv.drop 1) evs err) :
    (∀ x, err = some x → (st.parseIn scan code u argv).2 = (.throw x, u)) ∧
    (err = none → st.parseIn scan code u argv = (st.seen argv evs).afterLoopIn scan code u) := by
  obtain ⟨p, hp, hp'⟩ := h.program
  have hne : argv ≠ [] := by rintro rfl; cases hp
  have hauto : st.resetAll.autoHelp = (st.resetAll, .ok true) := by
    unfold State.autoHelp
    have : st.resetAll.helpOption.isNone = false := by
      show st.helpOption.isNone = false
      cases hh : st.helpOption with
      | none => exact absurd hh h.help
      | some _ => rfl
    rw [this]
    rfl
  have hc := begin_config st argv
  have hsane : Sane (st.begin argv) argv.length := Sane.of_config' hc h.sane
  have hbudget : argv.length < (st.begin argv).loopBudget argv := by
    unfold State.loopBudget
    have : argv.length + 1 ≤ (argv.length + 1) * ((st.begin argv).arguments.length + 2) :=
      Nat.le_mul_of_pos_right _ (by omega)
    omega
  have h0 : argv[0]? ≠ some ['-', '-'] := by
    rw [← List.head?_eq_getElem?, hp]
    intro e; cases e; exact hp' rfl
  obtain ⟨evs', err', h1, h2, h3⟩ := tokens_agree hsane hbudget h0
  rw [sig_of_config' hc, begin_queue] at h1
  obtain ⟨rfl, rfl⟩ := line_unique (sane_sized h.sane) (sane_places h.sane) hl h1
  constructor
  · intro x hx
    have := h2 x hx
    unfold State.parseIn
    rw [hauto]
    simp only
    rw [setBinary_eq hne]
    simp only
    generalize State.mainLoop argv (endOptionIndex argv) ((st.begin argv).loopBudget argv) 1 (st.begin argv) = r at this ⊢
    obtain ⟨st1, r⟩ := r
    simp only at this
    subst this
    rfl
  · intro hn
    have := h3 hn
    unfold State.parseIn
    rw [hauto]
    simp only
    rw [setBinary_eq hne]
    simp only
    rw [this, seen_eq]

theorem checks_due {st : State D} {full : Prop} (hi : GInv full st) {ts : List Str} {evs : List Event} {err : Option Exn}
    (hl : Line st.sig st.places ts evs err) {s : Slot D} (hs : s ∈ st.arguments) :
    (s.arg.afterTokens s.node evs).checks = checkDue evs s := by
  have hc := afterTokens_config s.node evs s.arg
  have hv : (s.arg.afterTokens s.node evs).valid = s.arg.valid := (congrArg (fun x : Argument D => x.valid) hc :)
  have ht : (s.arg.afterTokens s.node evs).type = s.arg.type := (congrArg (fun x : Argument D => x.type) hc :)
  unfold Argument.checks checkDue
  rw [hv]
  cases s.arg.valid with
  | none => rfl
  | some v =>
    simp only
    by_cases ho : Occurs s.node evs
    · rw [if_pos ho, if_pos ((occurs_iff hi hs hl).2 ho)]
      by_cases hk : Valueless s.arg.type
      · have e1 : (s.arg.afterTokens s.node evs).toVector.getD [] = [] := by
          unfold Argument.toVector
          rw [ht]
          rcases hk with e | e | e | e | e <;> rw [e] <;> rfl
        have e2 : s.arg.given (uses s.node evs) (fills s.node evs) = [] := by
          unfold Argument.given
          rcases hk with e | e | e | e | e <;> rw [e]
        rw [e1, e2]
      · rw [(tokens_vector hi hs hl ho hk).1]
        rfl
    · rw [if_neg ho, if_neg (fun e => ho ((occurs_iff hi hs hl).1 e))]

/-- What a parse of the line with these events may report: the parser it leaves, how it ends, the calls recorded. -/
structure Reported (st : State D) (evs : List Event) (st' : State D) (res : Res Unit) (trace : List (UserCall × Bool)) : Prop where
  calls : ∃ (n : Nat) (ws : Nat → List DestWrite),
    trace.map (·.1) = (st.arguments.take n).flatMap (fun s => checkDue evs s ++ (ws s.node).map .write) ∧
    (∀ s ∈ st.arguments, ∀ w ∈ ws s.node, ∃ d, s.arg.dest = some d ∧ w.slot = d.slot) ∧
    (res = .ok () → st.arguments.length ≤ n)
  log : st'.destLog = st.destLog ++ (trace.map (·.1)).filterMap UserCall.written
  passed : res = .ok () → ∀ e ∈ trace, e.2 = true
  early : ∀ e ∈ trace.dropLast, e.2 = true
  failed : (∃ e ∈ trace, e.2 = false) → ∃ x, res = .throw x

theorem Reported.quiet {st : State D} {evs : List Event} {st' : State D} {res : Res Unit} (hl : st'.destLog = st.destLog)
    (hr : res ≠ .ok ()) : Reported st evs st' res [] where
  calls := ⟨0, fun _ => [], rfl, fun _ _ _ h => absurd h List.not_mem_nil, fun h => absurd h hr⟩
  log := by simp [hl]
  passed := fun h => absurd h hr
  early := nofun
  failed := nofun

theorem written_calls (l : List (Slot D)) (c : Slot D → List UserCall) (hc : ∀ s ∈ l, (c s).filterMap UserCall.written = [])
    (ws : Nat → List DestWrite) :
    (l.flatMap fun s => c s ++ (ws s.node).map .write).filterMap UserCall.written = l.flatMap fun s => ws s.node := by
  induction l with
  | nil => rfl
  | cons s l ih =>
    rw [List.flatMap_cons, List.flatMap_cons, List.filterMap_append, List.filterMap_append, hc s (List.mem_cons_self ..),
      ih fun x hx => hc x (List.mem_cons_of_mem _ hx), List.nil_append]
    congr 1
    rw [List.filterMap_map]
    exact List.filterMap_some

theorem checkDue_written (evs : List Event) (s : Slot D) : (checkDue evs s).filterMap UserCall.written = [] := by
  unfold checkDue
  split
  · rfl
  · split <;> rfl

theorem finishParseIn_reported (scan : Str → Option D) (code : UserCode U) (u : U) {st : State D} {full : Prop} (hi : GInv full st) {argv : List Str}
    {evs : List Event} (hl : Line st.sig st.places (argv.drop 1) evs none) :
    Reported st evs ((st.seen argv evs).finishParseIn scan (recorded code) (u, [])).1
      ((st.seen argv evs).finishParseIn scan (recorded code) (u, [])).2.1
      ((st.seen argv evs).finishParseIn scan (recorded code) (u, [])).2.2.2 := by
  unfold State.finishParseIn
  cases firstMissing (st.seen argv evs).arguments with
  | some e => exact .quiet rfl nofun
  | none =>
    simp only
    have ha : (st.seen argv evs).arguments = st.arguments.map fun s => { s with arg := s.arg.afterTokens s.node evs } := rfl
    have hn : ((st.seen argv evs).arguments.map (·.node)).Nodup := by
      rw [ha, List.map_map]; exact hi.nodes
    obtain ⟨tr, n, ws, h1, h2, h3, h4, h5⟩ := finishAllIn_traced scan code u [] _ hn
    generalize finishAllIn scan (recorded code) (u, []) (st.seen argv evs).arguments = x at h1 h2 h3 h4
    obtain ⟨l, wr, res, u1, t1⟩ := x
    simp only [List.nil_append] at h1 h2 h3 h4
    subst t1
    have hc : tr.map (·.1) = (st.arguments.take n).flatMap (fun s => checkDue evs s ++ (ws s.node).map .write) := by
      rw [h2.calls, ha, ← List.map_take, List.flatMap_map, List.flatMap_def, List.flatMap_def]
      refine congrArg _ (List.map_congr_left fun s hs => ?_)
      rw [checks_due hi hl (List.mem_of_mem_take hs)]
    refine ⟨⟨n, ws, hc, ?_, ?_⟩, ?_, h2.passed, h2.early, h2.failed⟩
    · intro s hs w hw
      have := h5 { s with arg := s.arg.afterTokens s.node evs } (by rw [ha]; exact List.mem_map_of_mem hs) w hw
      rw [show (s.arg.afterTokens s.node evs).dest = s.arg.dest from
        (congrArg (fun x : Argument D => x.dest) (afterTokens_config s.node evs s.arg) :)] at this
      exact this
    · intro hr
      have := h3 hr
      rw [ha, List.length_map] at this
      exact this
    · show st.destLog ++ wr = _
      rw [hc, written_calls _ _ (fun s _ => checkDue_written evs s), h4, ha, ← List.map_take, List.flatMap_map]

theorem afterLoopIn_reported (scan : Str → Option D) (code : UserCode U) (u : U) {st : State D} {full : Prop} (hi : GInv full st) {argv : List Str}
    {evs : List Event} (hl : Line st.sig st.places (argv.drop 1) evs none) :
    Reported st evs ((st.seen argv evs).afterLoopIn scan (recorded code) (u, [])).1
      ((st.seen argv evs).afterLoopIn scan (recorded code) (u, [])).2.1
      ((st.seen argv evs).afterLoopIn scan (recorded code) (u, [])).2.2.2 := by
  have main := finishParseIn_reported scan code u hi hl
  have hlog : (st.seen argv evs).destLog = st.destLog := rfl
  generalize st.seen argv evs = X at main hlog
  unfold State.afterLoopIn
  cases X.optionSeen X.helpOption with
  | none => exact .quiet hlog nofun
  | some b =>
    cases b with
    | true =>
      cases X.isHelpException with
      | true => exact .quiet hlog nofun
      | false => exact .quiet hlog nofun
    | false =>
      simp only
      cases X.optionSeen X.versionOption with
      | none => exact .quiet hlog nofun
      | some b =>
        cases b with
        | true =>
          cases X.isVersionException with
          | true => exact .quiet hlog nofun
          | false => exact .quiet hlog nofun
        | false => exact main

/-- C77. What user code is called with, and when. Record all calls of validators and callbacks and all writes to
destinations made by one parse of an accepted command line: they are made for the arguments one by one, in listing
order, up to some argument (the last one, if the call returns); for each of them first the check of its values by
its validator, exactly once, if it has one and the argument occurs; then the writes to its destination. A check that
fails or a callback that throws is the last thing that happens. Nothing else is called or written. -/
theorem C77_calls {scan : Str → Option D} (code : UserCode U) (u : U) {st : State D} {argv : List Str} (h : Ready scan st argv)
    {evs : List Event} (hl : Line st.sig st.places (argv.drop 1) evs none) {st' : State D} {res : Res Unit} {u' : U}
    {trace : List (UserCall × Bool)} (hp : st.parseIn scan (recorded code) (u, []) argv = (st', res, u', trace)) :
    (∃ (n : Nat) (ws : Nat → List DestWrite),
      trace.map (·.1) = (st.arguments.take n).flatMap (fun s => checkDue evs s ++ (ws s.node).map .write) ∧
      (∀ s ∈ st.arguments, ∀ w ∈ ws s.node, ∃ d, s.arg.dest = some d ∧ w.slot = d.slot) ∧
      (res = .ok () → st.arguments.length ≤ n)) ∧
    st'.destLog = st.destLog ++ (trace.map (·.1)).filterMap UserCall.written ∧
    (res = .ok () → ∀ e ∈ trace, e.2 = true) ∧
    (∀ e ∈ trace.dropLast, e.2 = true) ∧
    ((∃ e ∈ trace, e.2 = false) → ∃ x, res = .throw x) := by
  have r := afterLoopIn_reported scan code u h.inv (argv := argv) hl
  rw [← (parseIn_seen (recorded code) (u, []) h hl).2 rfl, hp] at r
  exact ⟨r.calls, r.log, r.passed, r.early, r.failed⟩

/-- C77. A command line that is not accepted: no user code is called, nothing is written. -/
theorem C77_refused {scan : Str → Option D} (code : UserCode U) (u : U) {st : State D} {argv : List Str} (h : Ready scan st argv)
    {evs : List Event} {x : Exn} (hl : Line st.sig st.places (argv.drop 1) evs (some x)) :
    (st.parseIn scan code u argv).2 = (.throw x, u) :=
  (parseIn_seen code u h hl).1 x rfl

/-! ### A program whose validators have a state -/

/-- `-o` has a variable and `-l`, `-n` have validators of a program that counts its checks and remembers what was last
written. (The functions without a state given here are not used by `parseIn`.) -/
def counting : State Unit :=
  runOps demoScan parser [.dest 3 ⟨0, .vector, false, true, fun _ => none⟩, .dest 4 ⟨1, .vector, true, true, fun _ => none⟩,
    .valid 13 (some ⟨7, fun _ => .reject⟩) true, .valid 0 (some ⟨8, fun _ => .reject⟩) true]

theorem counting_history : ReachableBy demoScan Disciplined counting :=
  reachableBy_runOps parser_history _ (by decide +kernel)

theorem counting_ready : Ready demoScan counting parserLine :=
  .of_history counting_history (by decide +kernel) (by decide)
    ⟨"prog".toList, rfl, by decide +kernel⟩

/-- The first check of a program is accepted, with its values reversed, the next ones only if a variable has been
written since; callbacks throw from the second call on. -/
def countingCode : UserCode (Nat × Nat × Nat) where
  check _ vs u := (if u.1 = 0 ∨ u.2.1 ≠ 0 then .accept vs.reverse else .reject, (u.1 + 1, 0, u.2.2))
  call _ u := (if u.2.2 = 0 then none else some ⟨.foreign, [], "again".toList⟩, (u.1, u.2.1, u.2.2 + 1))
  assigned _ u := (u.1, u.2.1 + 1, u.2.2)

/-- All is called in the order of the listing – the check and the callback of `-l`, the variable of `-n`, the check of
`-o` – and the call returns; called again, without its state being reset, the program throws in the callback of `-l`;
and with no variable written between the two checks the second check refuses. -/
example :
    let r := counting.parseIn demoScan (recorded countingCode) ((0, 0, 0), []) parserLine
    r.2.1 = .ok () ∧
    r.2.2.2 = [(.check 7 ["x".toList, "y".toList], true), (.write (.callVector 1 true ["y".toList, "x".toList]), true),
      (.write (.append 0 (.temp "a".toList)), true), (.write (.append 0 (.temp "b".toList)), true), (.check 8 ["2".toList], true)] ∧
    (counting.parseIn demoScan countingCode (1, 1, 1) parserLine).2 =
      (.throw ⟨.foreign, [], "again".toList⟩, (2, 0, 2)) ∧
    (counting.parseIn demoScan countingCode (1, 0, 0) parserLine).2.2 = (2, 0, 0) := by decide +kernel

/-- Such states are reachable with a program state of any kind. -/
example : ReachableIn demoScan countingCode (State.init : State Unit) (5, 5, 5) := .init _

end BletArgs
