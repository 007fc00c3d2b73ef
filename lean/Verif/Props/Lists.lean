import Verif.Spec.Lists
import Verif.Props.Registry
/-
C80: the lists of strings.
-/
namespace BletArgs
open Spec
variable {D : Type}

theorem says_iff {t : Text} {s : Str} : Says t s ↔ t.read = .ok s := by
  constructor
  · rintro (⟨s, rest, h⟩ | _ | _)
    · have hm : '\x00' ∈ s ++ '\x00' :: rest := by simp
      rw [Text.read, if_pos hm, List.takeWhile_append_of_pos (fun c hc => by
        have : c ≠ '\x00' := fun e => h (e ▸ hc)
        simpa using this)]
      simp
    · rfl
    · rfl
  · intro h
    cases t with
    | array cs =>
      rw [Text.read] at h
      split at h
      · rename_i hm
        cases h
        have e : cs = cs.takeWhile (· != '\x00') ++ cs.dropWhile (· != '\x00') := (List.takeWhile_append_dropWhile).symm
        have hn : '\x00' ∉ cs.takeWhile (· != '\x00') := fun hc => by
          have := List.all_eq_true.1 (List.all_takeWhile (p := (· != '\x00')) (l := cs)) _ hc
          simp at this
        cases hd : cs.dropWhile (· != '\x00') with
        | nil => rw [hd, List.append_nil] at e; rw [e] at hm; exact (hn hm).elim
        | cons c rest =>
          have : c = '\x00' := by
            have := List.head_dropWhile_not (p := (· != '\x00')) (l := cs) (by rw [hd]; simp)
            simpa [hd] using this
          subst this
          have := Says.array _ rest hn
          rw [← hd, ← e] at this
          exact this
      · cases h
    | pointer p =>
      cases p with
      | none => cases h
      | some s => cases h; exact .pointer _
    | string s => cases h; exact .string _

theorem saysAll_length {ts : List Text} {ss : List Str} (h : SaysAll ts ss) : ts.length = ss.length := by
  induction h with
  | nil => rfl
  | cons _ _ ih => simp [ih]

theorem pushAll_ok {ts : List Text} {v w : List Str} : pushAll v ts = .ok w ↔ ∃ ss, SaysAll ts ss ∧ w = v ++ ss := by
  induction ts generalizing v with
  | nil =>
    constructor
    · intro h; cases h; exact ⟨[], .nil, by simp⟩
    · rintro ⟨ss, h, rfl⟩; cases h; simp [pushAll]
  | cons t ts ih =>
    unfold pushAll
    constructor
    · intro h
      cases ht : t.read <;> rw [ht] at h <;> simp only [Res.andThen, Res.cast] at h <;> try cases h
      obtain ⟨ss, h1, rfl⟩ := ih.1 h
      exact ⟨_ :: ss, .cons (says_iff.2 ht) h1, by simp⟩
    · rintro ⟨ss, h, rfl⟩
      cases h with
      | cons h1 h2 =>
        rw [says_iff.1 h1]
        exact ih.2 ⟨_, h2, by simp⟩

theorem assignAll_ok {ps : List (Option Str)} {v : List Str} {w : List Str} :
    assignAll (v ++ List.replicate ps.length []) v.length (ps.map .pointer) = .ok w ↔ ∃ l, ps = l.map some ∧ w = v ++ l := by
  induction ps generalizing v with
  | nil =>
    constructor
    · intro h; cases h; exact ⟨[], rfl, by simp⟩
    · rintro ⟨l, h, rfl⟩
      have : l = [] := by simpa using h.symm
      simp [assignAll, this]
  | cons p ps ih =>
    rw [List.map_cons]
    unfold assignAll
    cases p with
    | none =>
      constructor
      · intro h; cases h
      · rintro ⟨l, h, _⟩; cases l <;> simp at h
    | some s =>
      have e : (v ++ List.replicate (some s :: ps).length []).set v.length s = (v ++ [s]) ++ List.replicate ps.length [] := by
        simp [List.replicate_succ]
      simp only [Text.read, Res.andThen]
      have e2 : v.length + 1 = (v ++ [s]).length := by simp
      rw [e, e2, ih]
      constructor
      · rintro ⟨l, rfl, rfl⟩; exact ⟨s :: l, by simp, by simp⟩
      · rintro ⟨l, h, rfl⟩
        cases l with
        | nil => simp at h
        | cons x l => simp at h; exact ⟨l, h.2, by simp [h.1]⟩

/-- C80. A new list holds the strings given, in their order, or as many empty strings as the number given; nothing else
builds a list. -/
theorem C80_sources (s : Source) (v : List Str) : s.build = .ok v ↔ Holds s v := by
  cases s with
  | empty => exact ⟨fun h => by cases h; exact .empty, fun h => by cases h; rfl⟩
  | size n =>
    rw [Source.build]
    constructor
    · intro h
      split at h
      · cases h
      · cases h
        have : n = (n.toNat : Int) := by omega
        rw [this]
        exact .size _
    · intro h
      cases h
      rw [if_neg (by omega)]
      rfl
  | arrayOf ts =>
    rw [Source.build]
    rw [pushAll_ok]
    exact ⟨fun ⟨ss, h, e⟩ => by subst e; exact .arrayOf h, fun h => by cases h with | arrayOf h => exact ⟨_, h, rfl⟩⟩
  | one t =>
    rw [Source.build]
    constructor
    · intro h
      cases ht : t.read <;> rw [ht] at h <;> cases h
      exact .one (says_iff.2 ht)
    · intro h
      cases h with
      | one h => rw [says_iff.1 h]; rfl
  | list l => exact ⟨fun h => by cases h; exact .list _, fun h => by cases h; rfl⟩
  | vector ps =>
    rw [Source.build]
    have := assignAll_ok (ps := ps) (v := []) (w := v)
    rw [List.nil_append] at this
    rw [show (0 : Nat) = ([] : List Str).length from rfl, this]
    constructor
    · rintro ⟨l, rfl, rfl⟩; exact .vector _
    · intro h; cases h; exact ⟨_, rfl, rfl⟩

/-- C80. A negative number throws. -/
theorem C80_negative (n : Int) (h : n < 0) : ∃ e, (Source.size n).build = .throw e := ⟨_, if_pos h⟩

/-- Every expression is a variable or a new list, to which texts are added. -/
theorem expr_sum (e : VExpr) : (∃ x ts, e = sumOf (.var x) ts) ∨ (∃ s ts, e = sumOf (.new s) ts) := by
  induction e with
  | var x => exact .inl ⟨x, [], rfl⟩
  | new s => exact .inr ⟨s, [], rfl⟩
  | plus e t ih =>
    rcases ih with ⟨x, ts, rfl⟩ | ⟨s, ts, rfl⟩
    · exact .inl ⟨x, ts ++ [t], by simp [sumOf]⟩
    · exact .inr ⟨s, ts ++ [t], by simp [sumOf]⟩

/-- Several strings added to an object. -/
def addedAll (env : Env) (ss : List Str) : Loc → Env × Res Loc
  | .var x => (env.set x (env x ++ ss), .ok (.var x))
  | .temp v => (env, .ok (.temp (v ++ ss)))

/-- The texts, added one after the other to an object. -/
theorem eval_sum_ok {env env1 : Env} {b : VExpr} {l : Loc} (hb : b.eval env = (env1, .ok l)) {ts : List Text} {ss : List Str}
    (hs : SaysAll ts ss) :
    (sumOf b ts).eval env = addedAll env1 ss l := by
  induction hs generalizing b env1 l with
  | nil =>
    have : sumOf b [] = b := rfl
    rw [this, hb]
    cases l with
    | var x =>
      have : env1.set x (env1 x ++ []) = env1 := by
        funext y; unfold Env.set; split <;> simp_all
      simp only [addedAll, this]
    | temp v => simp [addedAll]
  | @cons t s ts ss h1 h2 ih =>
    have hb' : (VExpr.plus b t).eval env = ((l.push env1 s).1, .ok (l.push env1 s).2) := by
      rw [VExpr.eval, hb]
      simp only [says_iff.1 h1]
    have := ih hb'
    have e : sumOf b (t :: ts) = sumOf (b.plus t) ts := rfl
    rw [e, this]
    cases l with
    | var x =>
      simp only [Loc.push, addedAll]
      congr 1
      funext y
      unfold Env.set
      by_cases h : y = x <;> simp [h]
    | temp v => simp [Loc.push, addedAll]

/-- C80. The value of `x + t1 + … + tn` is the contents of the variable `x` followed by the strings – and the variable itself
is what has grown: the other variables are unchanged. -/
theorem C80_sum (env : Env) (x : Nat) {ts : List Text} {ss : List Str} (hs : SaysAll ts ss) :
    ∃ env', (sumOf (.var x) ts).eval env = (env', .ok (.var x)) ∧ (Loc.var x).value env' = env x ++ ss ∧
      env' x = env x ++ ss ∧ ∀ y, y ≠ x → env' y = env y := by
  refine ⟨env.set x (env x ++ ss), by rw [eval_sum_ok (l := .var x) rfl hs]; rfl, ?_, ?_, fun y hy => ?_⟩
  · simp [Loc.value, Env.set]
  · simp [Env.set]
  · simp [Env.set, hy]

/-- C80. A sum that starts with a new list changes no variable. -/
theorem C80_sum_new (env : Env) {s : Source} {v : List Str} (hv : Holds s v) {ts : List Text} {ss : List Str} (hs : SaysAll ts ss) :
    (sumOf (.new s) ts).eval env = (env, .ok (.temp (v ++ ss))) := by
  have hb : (VExpr.new s).eval env = (env, .ok (.temp v)) := by
    rw [VExpr.eval, (C80_sources s v).2 hv]
    rfl
  rw [eval_sum_ok hb hs]
  rfl

theorem eval_says {env : Env} {b : VExpr} {ts : List Text} (h : ((sumOf b ts).eval env).2.goesOn = true)
    {l : Loc} {env1 : Env} (hb : b.eval env = (env1, .ok l)) : ∃ ss, SaysAll ts ss := by
  induction ts generalizing b l env1 with
  | nil => exact ⟨[], .nil⟩
  | cons t ts ih =>
    have e : sumOf b (t :: ts) = sumOf (b.plus t) ts := rfl
    rw [e] at h
    have stuck : ∀ (ts : List Text) (b : VExpr) (r : String), (b.eval env).2 = .ub r → ((sumOf b ts).eval env).2 = .ub r := by
      intro ts
      induction ts with
      | nil => exact fun _ _ h => h
      | cons t ts ih =>
        intro b r h
        refine ih (b.plus t) r ?_
        rw [VExpr.eval]
        cases he : b.eval env with
        | mk env1 q =>
          rw [he] at h
          simp only at h
          rw [h]
    cases hr : t.read with
    | ok s =>
      have hb' : (VExpr.plus b t).eval env = ((l.push env1 s).1, .ok (l.push env1 s).2) := by
        rw [VExpr.eval, hb]
        simp only [hr]
      obtain ⟨ss, h1⟩ := ih h hb'
      exact ⟨s :: ss, .cons (says_iff.2 hr) h1⟩
    | ub w =>
      have : ((VExpr.plus b t).eval env).2 = .ub w := by
        rw [VExpr.eval, hb]
        simp only [hr, Res.cast]
      rw [stuck ts _ w this] at h
      cases h
    | throw e => cases t with
      | array cs => rw [Text.read] at hr; split at hr <;> cases hr
      | pointer p => cases p <;> cases hr
      | string s => cases hr
    | exit e => cases t with
      | array cs => rw [Text.read] at hr; split at hr <;> cases hr
      | pointer p => cases p <;> cases hr
      | string s => cases hr
    | diverge => cases t with
      | array cs => rw [Text.read] at hr; split at hr <;> cases hr
      | pointer p => cases p <;> cases hr
      | string s => cases hr

/-- A sum that starts with a new list changes no variable, however it ends. -/
theorem eval_new (env : Env) (s : Source) (ts : List Text) : ((sumOf (.new s) ts).eval env).1 = env ∧
    ∀ x, ((sumOf (.new s) ts).eval env).2 ≠ .ok (.var x) := by
  suffices H : ∀ b : VExpr, (b.eval env).1 = env → (∀ x, (b.eval env).2 ≠ .ok (.var x)) →
      ((sumOf b ts).eval env).1 = env ∧ ∀ x, ((sumOf b ts).eval env).2 ≠ .ok (.var x) from
    H _ rfl (fun x => by
      rw [VExpr.eval]
      cases s.build <;> simp [Res.andThen, Res.cast])
  induction ts with
  | nil => exact fun _ h h' => ⟨h, h'⟩
  | cons t ts ih =>
    intro b h h'
    refine ih (b.plus t) ?_ ?_
    · rw [VExpr.eval]
      cases he : b.eval env with
      | mk env1 r =>
        rw [he] at h h'
        simp only at h h'
        subst h
        cases r with
        | ok l =>
          cases t.read with
          | ok w =>
            cases l with
            | var x => exact (h' x rfl).elim
            | temp v => rfl
          | _ => rfl
        | _ => rfl
    · intro x
      rw [VExpr.eval]
      cases he : b.eval env with
      | mk env1 r =>
        rw [he] at h h'
        simp only at h h'
        cases r with
        | ok l =>
          cases t.read with
          | ok w =>
            cases l with
            | var x => exact (h' x rfl).elim
            | temp v => simp [Loc.push]
          | _ => simp [Res.cast]
        | _ => simp

/-- C80. A call of the library receives the value of the expression, and the variable – this one only – keeps what was added
to it, also if the call throws. -/
theorem C80_call (scan : Str → Option D) (env : Env) (st : State D) (f : List Str → Op) (x : Nat) {ts : List Text} {ss : List Str}
    (hs : SaysAll ts ss) :
    (runVCall scan env st (.call f (sumOf (.var x) ts))).2 = step scan st (f (env x ++ ss)) ∧
    (runVCall scan env st (.call f (sumOf (.var x) ts))).1 x = env x ++ ss ∧
    (∀ y, y ≠ x → (runVCall scan env st (.call f (sumOf (.var x) ts))).1 y = env y) ∧
    (∀ {s : Source} {v : List Str}, Holds s v →
      runVCall scan env st (.call f (sumOf (.new s) ts)) = (env, step scan st (f (v ++ ss)))) := by
  obtain ⟨env', e, hv, h1, h2⟩ := C80_sum env x hs
  have er : runVCall scan env st (.call f (sumOf (.var x) ts)) = (env', step scan st (f (env x ++ ss))) := by
    unfold runVCall
    simp only [VCall.expr]
    rw [e]
    simp only
    rw [hv]
  rw [er]
  refine ⟨rfl, h1, h2, ?_⟩
  · intro s v hv
    unfold runVCall
    simp only [VCall.expr]
    rw [C80_sum_new env hv hs]
    rfl

/-- C80. Whatever the program did, a variable holds what it held, followed by every string added to it since, in this order –
also by expressions whose value was used for something else. -/
theorem C80_history {scan : Str → Option D} {env env' : Env} {st st' : State D} {cs : List VCall} (h : VRun scan env st cs env' st')
    (x : Nat) (hx : ∀ e, .store x e ∉ cs) :
    ∃ added : List (List Str), added.length = cs.length ∧ (∀ p ∈ cs.zip added, Adds x p.1 p.2) ∧ env' x = env x ++ added.flatten := by
  induction h with
  | nil => exact ⟨[], rfl, by simp, by simp⟩
  | @cons env env' st st' c cs hg _ ih =>
    obtain ⟨added, h1, h2, h3⟩ := ih (fun e he => hx e (by simp [he]))
    have hc : ∀ e, c ≠ .store x e := fun e he => hx e (by simp [he])
    have hstep : ∃ ss, Adds x c ss ∧ (runVCall scan env st c).1 x = env x ++ ss := by
      have hrun : (runVCall scan env st c).1 x = (c.expr.eval env).1 x := by
        unfold runVCall
        cases he : c.expr.eval env with
        | mk env1 r =>
          cases r with
          | ok l =>
            cases c with
            | discard e => rfl
            | store y e =>
              have : x ≠ y := fun h => hc e (by rw [h])
              simp [Env.set, this]
            | call f e => rfl
          | _ => rfl
      have hgo : (c.expr.eval env).2.goesOn = true := by
        unfold runVCall at hg
        cases he : c.expr.eval env with
        | mk env1 r =>
          rw [he] at hg
          cases r with
          | ok l => rfl
          | throw e => rfl
          | exit o => cases hg
          | ub w => cases hg
          | diverge => cases hg
      rcases expr_sum c.expr with ⟨y, ts, e⟩ | ⟨s, ts, e⟩
      · rw [e] at hgo
        obtain ⟨ss, hs⟩ := eval_says hgo (l := .var y) rfl
        obtain ⟨env1, e1, -, e2, e3⟩ := C80_sum env y hs
        by_cases hy : y = x
        · subst hy
          exact ⟨ss, .sum e hs, by rw [hrun, e, e1]; exact e2⟩
        · exact ⟨[], .other e hy, by rw [hrun, e, e1, List.append_nil]; exact e3 x (fun h => hy h.symm)⟩
      · exact ⟨[], .new e, by rw [hrun, e, (eval_new env s ts).1, List.append_nil]⟩
    obtain ⟨ss, ha, he⟩ := hstep
    refine ⟨ss :: added, by simp [h1], ?_, ?_⟩
    · intro p hp
      rw [List.zip_cons_cons, List.mem_cons] at hp
      rcases hp with rfl | hp
      · exact ha
      · exact h2 p hp
    · rw [h3, he]; simp

/-- C80. The same variable in two declarations: if `addArgument(x + …)` is accepted, `addArgument(x + …)` is refused next,
with an `ArgumentException` and no effect on the parser. -/
theorem C80_twice {scan : Str → Option D} {env env' : Env} {st st' : State D} (hr : Reachable scan st) (x : Nat)
    {ts us : List Text} {ss vs : List Str} (ht : SaysAll ts ss) (hu : SaysAll us vs)
    (h : runVCall scan env st (.call .add (sumOf (.var x) ts)) = (env', st', .ok ())) :
    ∃ e, e.kind = .argument ∧ (runVCall scan env' st' (.call .add (sumOf (.var x) us))).2 = (st', .throw e) := by
  have h1 := (C80_call scan env st .add x ht).1
  rw [h] at h1
  have hx : env' x = env x ++ ss := by
    have := (C80_call scan env st .add x ht).2.1
    rw [h] at this
    exact this
  rw [(C80_call scan env' st' .add x hu).1, hx]
  generalize env x ++ ss = names at h1
  have hst : st' = (st.addArgument names).1 := congrArg Prod.fst h1
  have hok : ∃ ref, (st.addArgument names).2 = .ok ref := by
    have : (st.addArgument names).2.void = .ok () := (congrArg Prod.snd h1).symm
    cases hq : (st.addArgument names).2 <;> rw [hq] at this <;> simp only [Res.void, Res.cast] at this <;> try cases this
    exact ⟨_, rfl⟩
  obtain ⟨ref, hok⟩ := hok
  have hadd : st.addArgument names = (st', .ok ref) := Prod.ext hst.symm hok
  have hr' : Reachable scan st' := by
    have e : BletArgs.step scan st (.add names) = (st', .ok ()) := h1.symm
    have := hr.step (.add names) (by rw [e]; rfl)
    rw [e] at this
    exact this
  obtain ⟨s, ns, -, -, -, -, -, -, -, -, hex, -⟩ := C06_add_effect hr hadd
  have hne : names ≠ [] := by
    rintro rfl
    rw [State.addArgument] at hadd
    cases congrArg Prod.snd hadd
  have hbad : AddRefused st'.argumentExists (names ++ vs) := by
    cases names with
    | nil => exact (hne rfl).elim
    | cons first rest =>
      have hk : st'.argumentExists first = true := by rw [hex]; simp
      by_cases hrest : rest ++ vs = []
      · rw [List.cons_append, hrest]
        cases hf : first with
        | nil => exact .emptyName
        | cons c r =>
          by_cases hc : c = '-'
          · subst hc; exact .usedFlag (.inr ⟨_, rfl⟩) (hf ▸ hk)
          · exact .usedName (by rw [nameForm_iff]; simp [hc]) (hf ▸ hk)
      · exact .usedFlag (.inl hrest) hk
  rcases C05_add_refused hr' (names ++ vs) with ⟨-, e, he, hq⟩ | ⟨hq, -⟩
  · refine ⟨e, he, ?_⟩
    rw [BletArgs.step, hq]
    rfl
  · exact (hq hbad).elim

/-- The text `"-b"` in the source of a program: an array of three characters. -/
def dashB : Text := .array ['-', 'b', '\x00']

theorem dashB_says : SaysAll [dashB, .pointer (some "--bb".toList)] ["-b".toList, "--bb".toList] :=
  .cons (.array ['-', 'b'] [] (by decide)) (.cons (.pointer _) .nil)

/-- C80: `Args::vector("-a", "--all")` and an array of pointers. -/
example : (Source.vector [some "-a".toList, some "--all".toList]).build = .ok ["-a".toList, "--all".toList] :=
  (C80_sources _ _).2 (.vector ["-a".toList, "--all".toList])
example : (Source.arrayOf [dashB, .pointer (some "--bb".toList)]).build = .ok ["-b".toList, "--bb".toList] :=
  (C80_sources _ _).2 (.arrayOf dashB_says)

/-- C80: a variable that holds `-a`. -/
example := C80_sum (fun _ => ["-a".toList]) 0 dashB_says
example := C80_sum_new (fun _ => ["-a".toList]) (.list ["-x".toList]) dashB_says
example := C80_call demoScan (fun _ => ["-a".toList]) demo .add 0 dashB_says

/-- C80: `common + "-b"` is declared, then `common + "--bb"` is refused although no argument has the flag `--bb`. -/
example :=
  C80_twice (D := Unit) (scan := demoScan) (env := fun _ => ["-a".toList]) .init 0 (ts := [dashB]) (ss := ["-b".toList])
    (.cons (.array ['-', 'b'] [] (by decide)) .nil) (.cons (.pointer "--bb".toList) .nil) rfl

/-- C80: three steps, the second of which throws. -/
def commonCalls : List VCall :=
  [.call .add (sumOf (.var 0) [dashB]), .call .add (sumOf (.var 0) [.string "-c".toList]), .discard (sumOf (.var 1) [.string "-d".toList])]

example : ∃ env' : Env, ∃ st' : State Unit, VRun demoScan (fun _ => ["-a".toList]) State.init commonCalls env' st' ∧
    env' 0 = ["-a".toList, "-b".toList, "-c".toList] ∧ (∀ e, VCall.store 0 e ∉ commonCalls) :=
  ⟨_, _, .cons (by decide +kernel) (.cons (by decide +kernel) (.cons (by decide +kernel) .nil)), by decide +kernel, by
    intro e h; simp [commonCalls] at h⟩

/-- C80: `defaults(1)` gives an empty text, not `1`. -/
theorem C80_defaults_number : ∃ st : State Unit, Reachable demoScan st ∧ ∃ s ∈ st.arguments, s.obj = 0 ∧
    ((runVCall demoScan (fun _ => []) st (.call (.defaults 0) (.new (.size 1)))).2.1.atObj 0).map (·.arg.dflt) = some [] ∧
    ((runVCall demoScan (fun _ => []) st (.call (.defaults 0) (.new (.one (.string "1".toList))))).2.1.atObj 0).map (·.arg.dflt) = some ['1'] := by
  refine ⟨runOps demoScan State.init [.add ["-o".toList]], reachable_runOps .init _ (by decide +kernel), ?_⟩
  refine ⟨_, List.mem_of_getElem? (i := 0) rfl, by decide +kernel, by decide +kernel, by decide +kernel⟩

end BletArgs
