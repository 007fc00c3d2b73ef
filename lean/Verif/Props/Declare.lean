import Verif.Lemmas.ChainSwap
/-
The order in which the arguments of a parser are declared and configured.
-/
namespace BletArgs
open Spec
variable {D : Type}

/-- C70: two statements that have nothing to do with each other (`Independent`) can be exchanged: if all their calls return
in one order, so do they in the other, and the two parsers cannot be told apart. -/
theorem C70_exchange {scan : Str → Option D} {st : State D} (hr : ReachableBy scan CleanAdds st) {a b : Chain}
    (hi : Independent st a b) (hs : Succeeds scan st (program st.nextObj [a, b])) :
    Succeeds scan st (program st.nextObj [b, a]) ∧
    Alike (exchange st.nextObj a.creates b.creates) (Spec.after scan st (program st.nextObj [a, b]))
      (Spec.after scan st (program st.nextObj [b, a])) := by
  have e : ∀ (x y : Chain), program st.nextObj [x, y] = x.ops st.nextObj ++ y.ops (st.nextObj + x.creates) := by
    intro x y
    show x.ops _ ++ (y.ops _ ++ []) = _
    rw [List.append_nil]
  rw [e] at *
  rw [e]
  have := chains_commute hr hi hs
  exact ⟨this.1, this.2.alike⟩

/-! ### Any number of declarations -/

theorem Renamed.trans {r q : Ren} {s s' s'' : State D} (h : Renamed r s s') (h' : Renamed q s' s'') :
    Renamed ⟨fun k => q.n (r.n k), fun k => q.o (r.o k), fun _ _ e => r.ninj _ _ (q.ninj _ _ e),
      fun _ _ e => r.oinj _ _ (q.oinj _ _ e)⟩ s s'' where
  args := by rw [h'.args, h.args, List.map_map]; rfl
  look x := by rw [h'.look, h.look, Option.map_map]; rfl
  keys := h.keys
  keys' := h'.keys'
  help := by rw [h'.help, h.help, Option.map_map]; rfl
  version := by rw [h'.version, h.version, Option.map_map]; rfl
  node k _ := by show q.n (r.n _) = _; rw [h.node _ trivial, h'.node _ trivial]
  obj k _ := by show q.o (r.o _) = _; rw [h.obj _ trivial, h'.obj _ trivial]
  plain := h'.plain.trans h.plain
  books := fun h => h.elim

def Ren.refl : Ren := ⟨id, id, fun _ _ e => e, fun _ _ e => e⟩

theorem Renamed.refl {s : State D} (h : (s.byName.map (·.1)).Nodup) : Renamed Ren.refl s s where
  args := by
    have : (Ren.refl.slot : Slot D → Slot D) = id := rfl
    rw [this, List.map_id]
  look x := by show _ = (lookupName s.byName x).map id; rw [Option.map_id]; rfl
  keys := h
  keys' := h
  help := by show _ = s.helpOption.map id; rw [Option.map_id]; rfl
  version := by show _ = s.versionOption.map id; rw [Option.map_id]; rfl
  node _ _ := rfl
  obj _ _ := rfl
  plain := rfl
  books := fun h => h.elim

theorem Renamed.succeeds {r : Ren} {s s' : State D} (h : Renamed r s s') {scan : Str → Option D} {ops : List Op}
    (hs : Succeeds scan s ops) : Succeeds scan s' (ops.map (Spec.Op.rename r.o)) := by
  unfold Succeeds
  rw [(h.after scan ops).2]
  exact hs

theorem chained_rename {o : Nat → Nat} {next next' : Nat} (ho : ∀ k, o (next + k) = next' + k) :
    ∀ (cs : List Call) (cur : Nat), (chained cur next cs).map (Spec.Op.rename o) = chained (o cur) next' cs := by
  intro cs
  induction cs generalizing next next' with
  | nil => intro cur; rfl
  | cons c cs ih =>
    intro cur
    unfold chained
    rw [List.map_cons]
    have e1 : Spec.Op.rename o (c.on cur) = c.on (o cur) := by cases c <;> rfl
    rw [e1]
    cases c.isDest with
    | true =>
      simp only [if_true]
      rw [ih (next := next + 1) (next' := next' + 1) fun k => by
        have := ho (1 + k); rw [← Nat.add_assoc, ← Nat.add_assoc] at this; exact this]
      rw [show o next = next' from ho 0]
    | false =>
      simp only [Bool.false_eq_true, if_false]
      rw [ih ho]

theorem program_rename {o : Nat → Nat} {next next' : Nat} (ho : ∀ k, o (next + k) = next' + k) :
    ∀ (cs : List Chain), (∀ c ∈ cs, c.target = none) → (program next cs).map (Spec.Op.rename o) = program next' cs := by
  intro cs
  induction cs generalizing next next' with
  | nil => intro _; rfl
  | cons c cs ih =>
    intro hn
    unfold program
    rw [List.map_append, ih (next' := next' + c.creates) (fun k => by
      rw [Nat.add_assoc, ho, Nat.add_assoc]) fun c hc => hn c (by simp [hc])]
    congr 1
    cases c with
    | through ref calls => exact absurd (hn (.through ref calls) (by simp)) (by simp [Chain.target])
    | new names calls =>
      unfold Chain.ops
      rw [List.map_cons, chained_rename (next := next + 1) (next' := next' + 1) fun k => by
        have := ho (1 + k); rw [← Nat.add_assoc, ← Nat.add_assoc] at this; exact this]
      rw [show o next = next' from ho 0]
      rfl

/-- Whenever the first program succeeds, the second does, with the same effect. -/
def Replaces (scan : Str → Option D) (st : State D) (ds es : List Chain) : Prop :=
  Succeeds scan st (program st.nextObj ds) →
  Succeeds scan st (program st.nextObj es) ∧
  ∃ r : Ren, (∀ k, k < st.nextObj → r.o k = k) ∧
    Renamed r (Spec.after scan st (program st.nextObj ds)) (Spec.after scan st (program st.nextObj es))

theorem Replaces.trans {scan : Str → Option D} {st : State D} {ds es fs : List Chain} (h : Replaces scan st ds es)
    (h' : Replaces scan st es fs) : Replaces scan st ds fs := by
  intro hs
  obtain ⟨h1, r, h2, h3⟩ := h hs
  obtain ⟨h4, q, h5, h6⟩ := h' h1
  refine ⟨h4, _, ?_, h3.trans h6⟩
  intro k hk
  show q.o (r.o k) = k
  rw [h2 k hk, h5 k hk]

/-- The state after a statement. -/
theorem declared {scan : Str → Option D} {st : State D} (hr : ReachableBy scan CleanAdds st) {c : Chain} {cs : List Chain}
    (hd : Declarations st (c :: cs)) (hs : Succeeds scan st (c.ops st.nextObj)) :
    ReachableBy scan CleanAdds (Spec.after scan st (c.ops st.nextObj)) ∧
    (Spec.after scan st (c.ops st.nextObj)).nextObj = st.nextObj + c.creates ∧
    Declarations (Spec.after scan st (c.ops st.nextObj)) cs := by
  have hn := hd.new c (by simp)
  have k := chain_spec hr c (fun ref h => by rw [hn] at h; cases h)
    (fun n h => hd.unused c (by simp) n (Chain.added_names h))
  cases he : c.editAt st with
  | none => rw [he] at k; exact absurd hs k
  | some e =>
    rw [he] at k
    obtain ⟨-, ed, hr'⟩ := k
    obtain ⟨d1, o1, f1, g1⟩ := chain_shape he
    refine ⟨hr', by rw [ed.obj, o1], ?_⟩
    have hp := List.pairwise_cons.1 hd.names
    refine ⟨fun x hx => hd.new x (by simp [hx]), hp.2, ?_, (List.pairwise_cons.1 hd.help).2, (List.pairwise_cons.1 hd.version).2⟩
    intro x hx n hn'
    rw [ed.known, hd.unused x (by simp [hx]) n hn', decide_eq_false fun h => hp.1 x hx n (f1 n h) hn']
    rfl

theorem Replaces.cons {scan : Str → Option D} {st : State D} (hr : ReachableBy scan CleanAdds st) {c : Chain}
    {ds es : List Chain} (hd : Declarations st (c :: ds))
    (h : ∀ s, ReachableBy scan CleanAdds s → Declarations s ds → Replaces scan s ds es) :
    Replaces scan st (c :: ds) (c :: es) := by
  intro hs
  unfold program at *
  rw [succeeds_append] at *
  obtain ⟨h1, h2⟩ := hs
  obtain ⟨k1, k2, k3⟩ := declared hr hd h1
  rw [after_append h1, after_append h1]
  rw [← k2] at h2 ⊢
  obtain ⟨a1, r, a2, a3⟩ := h _ k1 k3 h2
  exact ⟨⟨h1, a1⟩, r, fun k hk => a2 k (by rw [k2]; omega), a3⟩

theorem Replaces.swap {scan : Str → Option D} {st : State D} (hr : ReachableBy scan CleanAdds st) {a b : Chain}
    {cs : List Chain} (hd : Declarations st (a :: b :: cs)) (hp : ¬(a.isPositional = true ∧ b.isPositional = true)) :
    Replaces scan st (a :: b :: cs) (b :: a :: cs) := by
  intro hs
  have ha : a.target = none := hd.new a (by simp)
  have hb : b.target = none := hd.new b (by simp)
  have about : ∀ (c : Chain) x, c.target = none → c.about st x → .action x ∈ c.calls := by
    rintro c x h (h' | ⟨ref, t, h', _⟩)
    · exact h'
    · rw [h] at h'; cases h'
  have requeues : ∀ c : Chain, c.target = none → c.requeues st → c.isPositional = true := by
    rintro c h (h' | ⟨ref, t, b, h', _⟩)
    · exact h'
    · rw [h] at h'; cases h'
  have hi : Independent st a b := by
    refine ⟨?_, ?_, ?_, ?_, ?_, ?_, ?_⟩
    · rintro ref (h | h)
      · rw [ha] at h; cases h
      · rw [hb] at h; cases h
    · intro ref h
      rw [ha] at h; cases h
    · exact (List.pairwise_cons.1 hd.names).1 b (by simp)
    · rintro n (h | h)
      · exact hd.unused a (by simp) n (Chain.added_names h)
      · exact hd.unused b (by simp) n (Chain.added_names h)
    · exact fun h => hp ⟨requeues a ha h.1, requeues b hb h.2⟩
    · exact fun h => (List.pairwise_cons.1 hd.help).1 b (by simp) ⟨about a _ ha h.1, about b _ hb h.2⟩
    · exact fun h => (List.pairwise_cons.1 hd.version).1 b (by simp) ⟨about a _ ha h.1, about b _ hb h.2⟩
  have e1 : ∀ (x y : Chain), program st.nextObj (x :: y :: cs) =
      (x.ops st.nextObj ++ y.ops (st.nextObj + x.creates)) ++ program (st.nextObj + x.creates + y.creates) cs := by
    intro x y
    show x.ops _ ++ (y.ops _ ++ _) = _
    rw [List.append_assoc]
  rw [e1] at hs
  rw [e1 b a, e1 a b]
  rw [succeeds_append] at *
  obtain ⟨h1, h2⟩ := hs
  obtain ⟨k1, k2⟩ := chains_commute hr hi h1
  rw [after_append h1, after_append k1]
  have key : ∀ k, (exchangeRen st.nextNode a.nodes b.nodes st.nextObj a.creates b.creates).o
      (st.nextObj + a.creates + b.creates + k) = st.nextObj + b.creates + a.creates + k := by
    intro k
    show exchange _ _ _ _ = _
    unfold exchange; repeat' split
    all_goals omega
  have e2 := program_rename key cs fun c hc => hd.new c (by simp [hc])
  refine ⟨⟨k1, ?_⟩, exchangeRen st.nextNode a.nodes b.nodes st.nextObj a.creates b.creates, ?_, ?_⟩
  · rw [← e2]
    exact k2.succeeds h2
  · intro k hk
    show exchange _ _ _ _ = _
    unfold exchange; rw [if_pos hk]
  · rw [← e2]
    exact (k2.after scan _).1

theorem Spec.Declarations.perm {st : State D} {ds es : List Chain} (h : Declarations st ds) (hp : ds.Perm es) :
    Declarations st es where
  new c hc := h.new c (hp.mem_iff.2 hc)
  names := (hp.pairwise_iff fun h n h1 h2 => h n h2 h1).1 h.names
  unused c hc := h.unused c (hp.mem_iff.2 hc)
  help := (hp.pairwise_iff fun h h' => h h'.symm).1 h.help
  version := (hp.pairwise_iff fun h h' => h h'.symm).1 h.version

theorem program_reachable {scan : Str → Option D} {cs : List Chain} : ∀ {st : State D}, ReachableBy scan CleanAdds st →
    Declarations st cs → Succeeds scan st (program st.nextObj cs) →
    ReachableBy scan CleanAdds (Spec.after scan st (program st.nextObj cs)) := by
  induction cs with
  | nil => intro st hr _ _; exact hr
  | cons c cs ih =>
    intro st hr hd hs
    unfold program at hs ⊢
    rw [succeeds_append] at hs
    obtain ⟨h1, h2⟩ := hs
    obtain ⟨k1, k2, k3⟩ := declared hr hd h1
    rw [after_append h1]
    rw [← k2] at h2 ⊢
    exact ih k1 k3 h2

theorem Replaces.refl {scan : Str → Option D} {st : State D} {cs : List Chain} (hr : ReachableBy scan CleanAdds st)
    (hd : Declarations st cs) : Replaces scan st cs cs := fun hs =>
  ⟨hs, Ren.refl, fun _ _ => rfl, Renamed.refl (program_reachable hr hd hs).reachable.inv.keys⟩

/-- A declaration moved to the front. -/
theorem Replaces.front {scan : Str → Option D} {c : Chain} : ∀ {pre post : List Chain} {st : State D}, ReachableBy scan CleanAdds st →
    Declarations st (c :: (pre ++ post)) → (∀ x ∈ pre, ¬(c.isPositional = true ∧ x.isPositional = true)) →
    Replaces scan st (c :: (pre ++ post)) (pre ++ c :: post)
  | [], _, _, hr, hd, _ => Replaces.refl hr hd
  | x :: pre, post, st, hr, hd, hp => by
    refine (Replaces.swap hr hd (hp x (by simp))).trans ?_
    refine Replaces.cons hr ?_ fun s hr' hd' => Replaces.front hr' hd' fun y hy => hp y (by simp [hy])
    exact hd.perm (List.Perm.swap x c (pre ++ post))

theorem Replaces.any {scan : Str → Option D} : ∀ {ds es : List Chain} {st : State D}, ReachableBy scan CleanAdds st →
    Declarations st ds → ds.Perm es → es.filter Chain.isPositional = ds.filter Chain.isPositional → Replaces scan st ds es
  | [], es, st, hr, hd, hp, _ => by
    obtain rfl := hp.nil_eq
    exact Replaces.refl hr hd
  | c :: ds, es, st, hr, hd, hp, hq => by
    obtain ⟨pre, post, rfl⟩ := List.append_of_mem (hp.mem_iff.1 (List.mem_cons_self (a := c) (l := ds)))
    have hp' : ds.Perm (pre ++ post) := (hp.trans List.perm_middle).cons_inv
    have hd' := hd.perm hp
    have apart : ∀ x ∈ pre, ∀ n ∈ x.names, n ∉ c.names := by
      intro x hx
      have := (List.pairwise_append.1 hd'.names).2.2 x hx c (by simp)
      exact this
    have main : (∀ x ∈ pre, ¬(c.isPositional = true ∧ x.isPositional = true)) ∧
        (pre ++ post).filter Chain.isPositional = ds.filter Chain.isPositional := by
      rw [List.filter_append] at hq ⊢
      cases hc : c.isPositional with
      | false =>
        rw [List.filter_cons_of_neg (by rw [hc]; simp), List.filter_cons_of_neg (by rw [hc]; simp)] at hq
        exact ⟨fun x _ h => absurd h.1 (by simp), hq⟩
      | true =>
        rw [List.filter_cons_of_pos hc, List.filter_cons_of_pos hc] at hq
        have hnil : pre.filter Chain.isPositional = [] := by
          cases hf : pre.filter Chain.isPositional with
          | nil => rfl
          | cons y ys =>
            exfalso
            rw [hf, List.cons_append] at hq
            injection hq with e _
            have hy : y ∈ pre := (List.mem_filter.1 (by rw [hf]; simp : y ∈ pre.filter Chain.isPositional)).1
            rw [e] at hy
            have hne : ∃ n, n ∈ c.names := by
              unfold Chain.isPositional at hc
              unfold Chain.names
              cases hadd : c.added with
              | nil => rw [hadd] at hc; cases hc
              | cons n ns => exact ⟨n, by simp⟩
            obtain ⟨n, hn⟩ := hne
            exact apart c hy n hn hn
        rw [hnil, List.nil_append] at hq ⊢
        injection hq with _ e
        refine ⟨?_, e⟩
        intro x hx h
        have : x ∈ pre.filter Chain.isPositional := List.mem_filter.2 ⟨hx, h.2⟩
        rw [hnil] at this
        cases this
    refine (Replaces.cons hr hd fun s hr' hd' => Replaces.any hr' hd' hp' main.2).trans ?_
    exact Replaces.front hr (hd.perm (hp'.cons c)) main.1

/-- C70: the order in which arguments are declared is irrelevant, but for the order of the positional ones: if all calls
return in one order, so do they in any other that keeps the positional arguments in order, and the two parsers cannot be
told apart (`o` says which reference of the second parser corresponds to one of the first; those that were there before stay
the same). -/
theorem C70_any_order {scan : Str → Option D} {st : State D} (hr : ReachableBy scan CleanAdds st) {ds es : List Chain}
    (hd : Declarations st ds) (hp : ds.Perm es) (hq : es.filter Chain.isPositional = ds.filter Chain.isPositional)
    (hs : Succeeds scan st (program st.nextObj ds)) :
    Succeeds scan st (program st.nextObj es) ∧
    ∃ o, (∀ k, k < st.nextObj → o k = k) ∧
      Alike o (Spec.after scan st (program st.nextObj ds)) (Spec.after scan st (program st.nextObj es)) := by
  obtain ⟨h1, r, h2, h3⟩ := Replaces.any hr hd hp hq hs
  exact ⟨h1, r.o, h2, h3.alike⟩

/-! ### Examples -/

/-- `addArgument("-o", "--out").nargs(2).dest(x).defaults({"a", "b"}); addArgument("file").required(true);
addArgument("-i").action(help).flag("--info"); addArgument("dir");` -/
def someDecls : List Chain :=
  [.new ["-o".toList, "--out".toList] [.nargs 2, .dest ⟨0, .vector, false, true, fun _ => none⟩, .defaults ["a".toList, "b".toList]],
   .new ["file".toList] [.required true],
   .new ["-i".toList] [.action .help, .flag "--info".toList],
   .new ["dir".toList] []]

theorem someDecls_ok : Declarations (State.init (D := Unit)) someDecls where
  new c hc := by
    simp only [someDecls, List.mem_cons, List.not_mem_nil, or_false] at hc
    rcases hc with rfl | rfl | rfl | rfl <;> rfl
  names := by
    simp only [someDecls, List.pairwise_cons, List.forall_mem_cons]
    decide +kernel
  unused c hc n hn := rfl
  help := by
    simp [someDecls, Chain.calls]
  version := by
    simp [someDecls, Chain.calls]

theorem someDecls_succeed : Succeeds demoScan State.init (program 0 someDecls) := by unfold Succeeds; decide +kernel

/-- The same arguments declared in another order: `-i`, `file`, `-o`, `dir`. -/
example : ∃ o, Alike o (Spec.after demoScan State.init (program 0 someDecls))
    (Spec.after demoScan State.init (program 0
      [.new ["-i".toList] [.action .help, .flag "--info".toList],
       .new ["file".toList] [.required true],
       .new ["-o".toList, "--out".toList] [.nargs 2, .dest ⟨0, .vector, false, true, fun _ => none⟩, .defaults ["a".toList, "b".toList]],
       .new ["dir".toList] []])) := by
  have h := C70_any_order (es := [.new ["-i".toList] [.action .help, .flag "--info".toList],
       .new ["file".toList] [.required true],
       .new ["-o".toList, "--out".toList] [.nargs 2, .dest ⟨0, .vector, false, true, fun _ => none⟩, .defaults ["a".toList, "b".toList]],
       .new ["dir".toList] []]) (scan := demoScan) .init someDecls_ok ?_ rfl someDecls_succeed
  · obtain ⟨-, o, -, h⟩ := h
    exact ⟨o, h⟩
  · unfold someDecls
    exact ((List.Perm.cons _ (List.Perm.swap _ _ _)).trans (List.Perm.swap _ _ _)).trans (List.Perm.cons _ (List.Perm.swap _ _ _))

/-- The parser these declarations make. -/
def someParser : State Unit := Spec.after demoScan State.init (program 0 someDecls)

/-- Configuring `-o` and configuring `-i`, in one order and the other; both get a new destination, so each creates a
reference (the next numbers are 5 and 6), and these are exchanged. -/
example : Alike (exchange 5 1 1)
    (Spec.after demoScan someParser (program 5
      [.through 1 [.dest ⟨1, .vector, false, true, fun _ => none⟩, .required true], .through 3 [.help "x".toList, .dest ⟨2, .scalar, false, true, fun _ => none⟩]]))
    (Spec.after demoScan someParser (program 5
      [.through 3 [.help "x".toList, .dest ⟨2, .scalar, false, true, fun _ => none⟩], .through 1 [.dest ⟨1, .vector, false, true, fun _ => none⟩, .required true]])) := by
  have hn : someParser.nextObj = 5 := by decide +kernel
  have live : ∀ k, (someParser.atObj k).isSome = true → someParser.atObj k ≠ none := by
    intro k h e; rw [e] at h; cases h
  have h := C70_exchange (program_reachable .init someDecls_ok someDecls_succeed)
    (a := .through 1 [.dest ⟨1, .vector, false, true, fun _ => none⟩, .required true])
    (b := .through 3 [.help "x".toList, .dest ⟨2, .scalar, false, true, fun _ => none⟩])
  rw [show (Spec.after demoScan State.init (program State.init.nextObj someDecls)) = someParser from rfl, hn] at h
  refine (h ⟨?_, ?_, ?_, ?_, ?_, ?_, ?_⟩ ?_).2
  · rintro ref (h | h)
    · cases h; exact live 1 (by decide +kernel)
    · cases h; exact live 3 (by decide +kernel)
  · intro ref h1 h2
    cases h1; cases h2
  · intro n hn; cases hn
  · rintro n (h | h) <;> cases h
  · rintro ⟨-, h | ⟨ref, t, b, h1, h2, h3, h4⟩⟩
    · cases h
    · simp [Chain.calls] at h4
  · rintro ⟨h | ⟨ref, t, h1, h2, h3⟩, -⟩
    · simp [Chain.calls] at h
    · cases h1
      have : (someParser.atObj 1).all (fun t => t.arg.action != .help) = true := by decide +kernel
      rw [h2] at this
      simp [h3] at this
  · rintro ⟨h | ⟨ref, t, h1, h2, h3⟩, -⟩
    · simp [Chain.calls] at h
    · cases h1
      have : (someParser.atObj 1).all (fun t => t.arg.action != .version) = true := by decide +kernel
      rw [h2] at this
      simp [h3] at this
  · unfold Succeeds; decide +kernel

/-- Positional arguments declared in another order are not the same: the first word goes to the first. -/
example : (Spec.after demoScan State.init (program 0 [.new ["a".toList] [], .new ["b".toList] []])).arguments.map
      (·.arg.names) = [["a".toList], ["b".toList]] ∧
    (Spec.after demoScan State.init (program 0 [.new ["b".toList] [], .new ["a".toList] []])).arguments.map
      (·.arg.names) = [["b".toList], ["a".toList]] := by
  decide +kernel

/-- Two arguments cannot both have the action help: the second is refused. -/
example : outcomes demoScan (State.init (D := Unit))
    (program 0 [.new ["-i".toList] [.action .help], .new ["-j".toList] [.action .help]]) ≠ [.ok (), .ok (), .ok (), .ok ()] := by
  decide +kernel

end BletArgs
