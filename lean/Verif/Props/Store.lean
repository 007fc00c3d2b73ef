import Verif.Props.Defaults
import Verif.Props.Numbers
import Verif.Props.Convert
import Verif.Spec.Store
/-
C60: what the program finds in the variables given to `dest()`, by type.
-/
namespace BletArgs
open Spec
variable {D : Type}

theorem writes_one (F : Doubles D) (ty : ElemTy) (x : Var D) (w : DestWrite) : x.writes F ty [w] = x.write F ty w := by
  unfold Var.writes
  generalize x.write F ty w = r
  cases r <;> rfl

/-- The writes of a list of texts. -/
theorem writes_append (F : Doubles D) (ty : ElemTy) (slot : Nat) (l : List (Cell D)) (vs : List Src) :
    (Var.many l).writes F ty (vs.map fun v => .append slot v) =
      match convertAll F ty vs with | .ok cs => .ok (.many (l ++ cs)) | r => r.cast := by
  induction vs generalizing l with
  | nil => simp [Var.writes, convertAll]
  | cons v vs ih =>
    rw [List.map_cons]
    unfold Var.writes Var.write
    simp only [convertAll]
    generalize convert F ty v .other = r
    cases r with
    | ok c =>
      simp only
      rw [ih]
      generalize convertAll F ty vs = r2
      cases r2 with
      | ok cs => simp
      | _ => rfl
    | _ => rfl

theorem writes_appendVec (F : Doubles D) (ty : ElemTy) (slot : Nat) (l : List (List (Cell D))) (gs : List (List Src))
    (css : List (List (Cell D))) (h : gs.map (convertAll F ty) = css.map Res.ok) :
    (Var.nested l).writes F ty (gs.map fun g => .appendVec slot g) = .ok (.nested (l ++ css)) := by
  induction gs generalizing l css with
  | nil => cases css <;> simp_all [Var.writes]
  | cons g gs ih =>
    cases css with
    | nil => simp at h
    | cons cs css =>
      rw [List.map_cons, List.map_cons, List.cons.injEq] at h
      rw [List.map_cons]
      unfold Var.writes Var.write
      simp only
      rw [h.1]
      simp only
      rw [ih _ css h.2]
      simp

theorem convertAll_ints {F : Doubles D} {lo hi : Int} {vs : List Str} {ns : List Int} (h : DenoteAll F lo hi vs ns) :
    convertAll F (.int lo hi) (vs.map Src.temp) = .ok (ns.map Cell.int) := by
  induction h with
  | nil => rfl
  | cons h _ ih =>
    rw [List.map_cons]
    unfold convertAll convert strTo toInt
    simp only [h.1]
    rw [if_pos h.2, ih]
    rfl

theorem convertAll_groups {F : Doubles D} {lo hi : Int} {gs : List (List Str)} {ns : List (List Int)}
    (h : DenoteGroups F lo hi gs ns) :
    (gs.map fun g => g.map Src.temp).map (convertAll F (.int lo hi)) = (ns.map fun n => n.map Cell.int).map Res.ok := by
  induction h with
  | nil => rfl
  | cons h _ ih =>
    simp only [List.map_cons]
    rw [convertAll_ints h]
    simp only [List.map_map] at ih ⊢
    rw [ih]

theorem convertAll_bad {F : Doubles D} {lo hi : Int} {vs : List Str} (h : ∃ v ∈ vs, ∀ n, ¬Denotes F lo hi v n) :
    ∃ w, convertAll F (.int lo hi) (vs.map Src.temp) = .ub w := by
  induction vs with
  | nil => obtain ⟨v, hv, _⟩ := h; cases hv
  | cons x vs ih =>
    rw [List.map_cons]
    unfold convertAll convert strTo toInt
    simp only
    cases ht : F.trunc (F.strtod x) with
    | none => exact ⟨_, rfl⟩
    | some n =>
      simp only
      by_cases hb : lo ≤ n ∧ n ≤ hi
      · obtain ⟨v, hv, hn⟩ := h
        rcases List.mem_cons.1 hv with rfl | hv
        · exact absurd ⟨ht, hb⟩ (hn n)
        · obtain ⟨w, e⟩ := ih ⟨v, hv, hn⟩
          rw [if_pos hb, e]
          exact ⟨w, rfl⟩
      · rw [if_neg hb]; exact ⟨_, rfl⟩

theorem convertAll_texts (F : Doubles D) (vs : List Str) :
    convertAll F .string (vs.map Src.temp) = .ok (vs.map Cell.string) ∧
    convertAll F .real (vs.map Src.temp) = .ok (vs.map fun v => Cell.real (F.strtod v)) ∧
    convertAll F .bool (vs.map Src.temp) = .ok (vs.map fun v => Cell.bool (!F.isZero (F.strtod v))) ∧
    convertAll F .cstr (vs.map Src.temp) = .ok (vs.map fun v => Cell.ptr .dead v) := by
  induction vs with
  | nil => exact ⟨rfl, rfl, rfl, rfl⟩
  | cons v vs ih =>
    obtain ⟨h1, h2, h3, h4⟩ := ih
    simp only [List.map_cons]
    unfold convertAll convert strTo
    simp only
    exact ⟨by rw [h1], by rw [h2], by rw [h3], by rw [h4]⟩

/-- C60, single values. After a call that returns, the variable given to `dest()` of a single-value argument holds the
conversion of the text `x` that the argument reads: an integer variable the integral part of the number, which must
fit its type (otherwise the call has undefined behaviour); a floating variable the number; a `bool` whether the number is
not zero; a string the text; a `const char*` the text held by the argument object; a `char` array the part of the text
that fits, with its terminator. -/
theorem C60_single {scan : Str → Option D} {st : State D} {argv : List Str} (h : Ready scan st argv)
    {evs : List Event} (hl : Line st.sig st.places (argv.drop 1) evs none)
    (hok : (st.parseArguments scan argv).2 = .ok ()) {s : Slot D} (hs : s ∈ st.arguments)
    {d : Dest} (hd : s.arg.dest = some d) (hown : OwnSlot st s d) (hkind : d.kind = .scalar) (hc : d.custom = false)
    (hty : SingleKind s.arg.type) :
    ∃ s' log x, (st.parseArguments scan argv).1.atObj s.obj = some s' ∧
      (st.parseArguments scan argv).1.destLog = st.destLog ++ log ∧ s'.arg.toVector = some [x] ∧
      ∀ F : Doubles D,
        (∀ c lo hi n, Denotes F lo hi x n →
          (Var.one c).writes F (.int lo hi) (writesTo d.slot log) = .ok (.one (.int n))) ∧
        (∀ c lo hi, (∀ n, ¬Denotes F lo hi x n) → ∃ w, (Var.one c).writes F (.int lo hi) (writesTo d.slot log) = .ub w) ∧
        (∀ c, (Var.one c).writes F .real (writesTo d.slot log) = .ok (.one (.real (F.strtod x)))) ∧
        (∀ c, (Var.one c).writes F .bool (writesTo d.slot log) = .ok (.one (.bool (!F.isZero (F.strtod x))))) ∧
        (∀ c, (Var.one c).writes F .string (writesTo d.slot log) = .ok (.one (.string x))) ∧
        (∀ c, (Var.one c).writes F .cstr (writesTo d.slot log) = .ok (.one (.ptr .member x))) ∧
        (∀ buf : Buf, 0 < buf.length → ∃ r, r.length = buf.length ∧ cString r = some (x.take (buf.length - 1)) ∧
          (Var.one (.array buf)).writes F .array (writesTo d.slot log) = .ok (.one (.array r))) := by
  obtain ⟨s', log, x, h1, h2, h3, h4, _⟩ := C48_scalar h hl hok hs hd hown hkind
  have hnb : ¬(s.arg.type = .boolean ∨ s.arg.type = .reverse) := by
    rcases hty with e | e <;> rw [e] <;> simp
  rw [hc, if_neg hnb] at h3
  simp only [Bool.false_eq_true, if_false] at h3
  refine ⟨s', log, x, h1, h2, h4 hty, fun F => ?_⟩
  rw [h3]
  simp only [writes_one]
  unfold Var.write convert strTo
  simp only
  refine ⟨?_, ?_, by simp, by simp, by simp, by simp, ?_⟩
  · intro c lo hi n hn
    unfold toInt
    rw [hn.1]
    simp only
    rw [if_pos hn.2]
  · intro c lo hi hn
    unfold toInt
    cases ht : F.trunc (F.strtod x) with
    | none => exact ⟨_, rfl⟩
    | some n =>
      simp only
      rw [if_neg fun hb => hn n ⟨ht, hb⟩]
      exact ⟨_, rfl⟩
  · intro buf hb
    obtain ⟨r, e1, e2, e3, _⟩ := C51_string_to_array x buf hb
    refine ⟨r, e2, e3, ?_⟩
    rw [e1]

/-- C60, boolean options: 1 or 0, true or false, `true` or `false` as text. -/
theorem C60_boolean {scan : Str → Option D} {st : State D} {argv : List Str} (h : Ready scan st argv)
    {evs : List Event} (hl : Line st.sig st.places (argv.drop 1) evs none)
    (hok : (st.parseArguments scan argv).2 = .ok ()) {s : Slot D} (hs : s ∈ st.arguments)
    {d : Dest} (hd : s.arg.dest = some d) (hown : OwnSlot st s d) (hkind : d.kind = .scalar) (hc : d.custom = false)
    (hty : s.arg.type = .boolean ∨ s.arg.type = .reverse) :
    ∃ s' log, (st.parseArguments scan argv).1.atObj s.obj = some s' ∧
      (st.parseArguments scan argv).1.destLog = st.destLog ++ log ∧
      ∀ F : Doubles D,
        (∀ c, (Var.one c).writes F .bool (writesTo d.slot log) = .ok (.one (.bool s'.arg.toBool))) ∧
        (∀ c lo hi, (Var.one c).writes F (.int lo hi) (writesTo d.slot log) =
          .ok (.one (.int (if s'.arg.toBool then 1 else 0)))) ∧
        (∀ c, (Var.one c).writes F .real (writesTo d.slot log) = .ok (.one (.real (F.ofBool s'.arg.toBool)))) ∧
        (∀ c, (Var.one c).writes F .string (writesTo d.slot log) = .ok (.one (.string s'.arg.getString))) ∧
        (∀ c, (Var.one c).writes F .cstr (writesTo d.slot log) = .ok (.one (.ptr .literal s'.arg.getString))) ∧
        (∀ buf : Buf, 0 < buf.length → ∃ r, r.length = buf.length ∧
          cString r = some (s'.arg.getString.take (buf.length - 1)) ∧
          (Var.one (.array buf)).writes F .array (writesTo d.slot log) = .ok (.one (.array r))) := by
  obtain ⟨s', log, x, h1, h2, h3, _, _⟩ := C48_scalar h hl hok hs hd hown hkind
  rw [hc, if_pos hty] at h3
  simp only [Bool.false_eq_true, if_false] at h3
  have ht' : s'.arg.type = s.arg.type := by
    have := parse_atObj h hl hok hs
    rw [h1] at this
    rw [Option.some.inj this]
    simp only
    rw [finished_type]
    exact (congrArg (fun x : Argument D => x.type) (afterTokens_config s.node evs s.arg) :)
  have hg : s'.arg.getString = if s'.arg.toBool then "true".toList else "false".toList := by
    have e := C52_boolean s'.arg (by rw [ht']; exact hty)
    exact e.2.2
  refine ⟨s', log, h1, h2, fun F => ?_⟩
  rw [h3, hg]
  simp only [writes_one]
  unfold Var.write convert boolTo
  simp only
  refine ⟨by simp, by simp, by simp, by simp, by simp, ?_⟩
  intro buf hb
  obtain ⟨r, e1, e2, e3⟩ := C51_bool_to_array s'.arg.toBool buf hb
  refine ⟨r, e2, e3, ?_⟩
  rw [e1]

/-- C60, lists. The vector given to `dest()` of a list argument that reads the texts `vs` is extended, in order, by their
conversions; it takes one text that fits no integer of the element type to make the call undefined. -/
theorem C60_list {scan : Str → Option D} {st : State D} (hr : ReachableBy scan Careful st) {argv : List Str}
    (h : Ready scan st argv) (hlen : argv.length < 2 ^ 31)
    {evs : List Event} (hl : Line st.sig st.places (argv.drop 1) evs none)
    (hok : (st.parseArguments scan argv).2 = .ok ()) {s : Slot D} (hs : s ∈ st.arguments)
    {d : Dest} (hd : s.arg.dest = some d) (hown : OwnSlot st s d) (hkind : d.kind = .vector) (hc : d.custom = false)
    (hty : ListKind s.arg.type) :
    ∃ s' log, (st.parseArguments scan argv).1.atObj s.obj = some s' ∧
      (st.parseArguments scan argv).1.destLog = st.destLog ++ log ∧
      ∀ vs, s'.arg.toVector = some vs → vs ≠ [] → ∀ F : Doubles D, ∀ old : List (Cell D),
        (∀ lo hi ns, DenoteAll F lo hi vs ns →
          (Var.many old).writes F (.int lo hi) (writesTo d.slot log) = .ok (.many (old ++ ns.map .int))) ∧
        (∀ lo hi, (∃ v ∈ vs, ∀ n, ¬Denotes F lo hi v n) →
          ∃ w, (Var.many old).writes F (.int lo hi) (writesTo d.slot log) = .ub w) ∧
        (Var.many old).writes F .real (writesTo d.slot log) = .ok (.many (old ++ vs.map fun v => .real (F.strtod v))) ∧
        (Var.many old).writes F .bool (writesTo d.slot log) =
          .ok (.many (old ++ vs.map fun v => .bool (!F.isZero (F.strtod v)))) ∧
        (Var.many old).writes F .string (writesTo d.slot log) = .ok (.many (old ++ vs.map .string)) := by
  obtain ⟨s', log, h1, h2, h3, _, _⟩ := C49_vector_careful hr h hlen hl hok hs hd hown hc
  refine ⟨s', log, h1, h2, fun vs hvs hne F old => ?_⟩
  have e := (h3 hty vs hvs hne).1 hkind
  rw [e]
  have m : (vs.map fun v => DestWrite.append d.slot (.temp v)) = (vs.map Src.temp).map fun v => .append d.slot v := by
    rw [List.map_map]; rfl
  rw [m]
  simp only [writes_append]
  obtain ⟨t1, t2, t3, _⟩ := convertAll_texts F vs
  refine ⟨fun lo hi ns hn => ?_, fun lo hi hb => ?_, by rw [t2], by rw [t3], by rw [t1]⟩
  · rw [convertAll_ints hn]
  · obtain ⟨w, e⟩ := convertAll_bad hb
    rw [e]
    exact ⟨w, rfl⟩

/-- C60, pointers in vectors. The `const char*` pushed to a vector for the texts of a list are all dangling when the call
returns: they pointed to temporary strings. -/
theorem C60_dangling {scan : Str → Option D} {st : State D} (hr : ReachableBy scan Careful st) {argv : List Str}
    (h : Ready scan st argv) (hlen : argv.length < 2 ^ 31)
    {evs : List Event} (hl : Line st.sig st.places (argv.drop 1) evs none)
    (hok : (st.parseArguments scan argv).2 = .ok ()) {s : Slot D} (hs : s ∈ st.arguments)
    {d : Dest} (hd : s.arg.dest = some d) (hown : OwnSlot st s d) (hkind : d.kind = .vector) (hc : d.custom = false)
    (hty : ListKind s.arg.type) :
    ∃ s' log, (st.parseArguments scan argv).1.atObj s.obj = some s' ∧
      (st.parseArguments scan argv).1.destLog = st.destLog ++ log ∧
      ∀ vs, s'.arg.toVector = some vs → vs ≠ [] → ∀ F : Doubles D, ∀ old : List (Cell D),
        ∃ new : List (Cell D), new.length = vs.length ∧ (∀ c ∈ new, ∃ v, c = .ptr .dead v) ∧
          (Var.many old).writes F .cstr (writesTo d.slot log) = .ok (.many (old ++ new)) := by
  obtain ⟨s', log, h1, h2, h3, _, _⟩ := C49_vector_careful hr h hlen hl hok hs hd hown hc
  refine ⟨s', log, h1, h2, fun vs hvs hne F old => ⟨vs.map fun v => .ptr .dead v, by simp, ?_, ?_⟩⟩
  · intro c hc
    obtain ⟨v, _, rfl⟩ := List.mem_map.1 hc
    exact ⟨v, rfl⟩
  · have e := (h3 hty vs hvs hne).1 hkind
    rw [e]
    have m : (vs.map fun v => DestWrite.append d.slot (.temp v)) = (vs.map Src.temp).map fun v => .append d.slot v := by
      rw [List.map_map]; rfl
    rw [m, writes_append, (convertAll_texts F vs).2.2.2]

/-- C60, groups. The vector of vectors given to `dest()` of a grouped argument is extended by one vector per group. -/
theorem C60_groups {scan : Str → Option D} {st : State D} (hr : ReachableBy scan Careful st) {argv : List Str}
    (h : Ready scan st argv) (hlen : argv.length < 2 ^ 31)
    {evs : List Event} (hl : Line st.sig st.places (argv.drop 1) evs none)
    (hok : (st.parseArguments scan argv).2 = .ok ()) {s : Slot D} (hs : s ∈ st.arguments)
    {d : Dest} (hd : s.arg.dest = some d) (hown : OwnSlot st s d) (hkind : d.kind = .vecvec) (hc : d.custom = false)
    (hty : GroupKind s.arg.type) :
    ∃ s' log, (st.parseArguments scan argv).1.atObj s.obj = some s' ∧
      (st.parseArguments scan argv).1.destLog = st.destLog ++ log ∧
      ∀ gs, s'.arg.toVecVec = some gs → gs ≠ [] → ∀ F : Doubles D, ∀ old : List (List (Cell D)),
        (∀ lo hi ns, DenoteGroups F lo hi gs ns →
          (Var.nested old).writes F (.int lo hi) (writesTo d.slot log) =
            .ok (.nested (old ++ ns.map fun g => g.map .int))) ∧
        (Var.nested old).writes F .string (writesTo d.slot log) =
          .ok (.nested (old ++ gs.map fun g => g.map .string)) := by
  obtain ⟨s', log, h1, h2, _, h3, _⟩ := C49_vector_careful hr h hlen hl hok hs hd hown hc
  refine ⟨s', log, h1, h2, fun gs hgs hne F old => ?_⟩
  have e := (h3 hty gs hgs hne).2 hkind
  rw [e]
  have m : (gs.map fun g => DestWrite.appendVec d.slot (g.map .temp)) =
      (gs.map fun g => g.map Src.temp).map fun g => .appendVec d.slot g := by
    rw [List.map_map]; rfl
  rw [m]
  refine ⟨fun lo hi ns hn => writes_appendVec F _ _ _ _ _ (convertAll_groups hn), writes_appendVec F _ _ _ _ _ ?_⟩
  rw [List.map_map, List.map_map]
  exact List.map_congr_left fun g _ => (convertAll_texts F g).1

/-! ### Example -/

/-- The number written in decimal at the front of a text, 0 without digits. -/
def leadingDigits (s : Str) : Nat := (s.takeWhile Char.isDigit).foldl (fun n c => n * 10 + (c.toNat - 48)) 0

/-- Naturals as numbers, for the examples. -/
def natDoubles : Doubles Nat where
  strtod := leadingDigits
  trunc n := some n
  isZero n := n == 0
  ofBool b := if b then 1 else 0

/-- The parser of `numberOps` with destinations. -/
def storeOps : List Op :=
  numberOps ++ [.dest 1 ⟨1, .scalar, false, true, fun _ => none⟩, .dest 2 ⟨2, .vecvec, false, true, fun _ => none⟩, .dest 3 ⟨3, .scalar, false, true, fun _ => none⟩,
    .dest 4 ⟨4, .vector, false, true, fun _ => none⟩]

def storeLine : List Str := ["prog", "-v", "-n", "5", "-g", "1", "2", "7", "8kg"].map String.toList

def storeParser : State Nat := runOps digits State.init storeOps

theorem ownSlot_of {st : State D} {s : Slot D} {d : Dest}
    (h : ∀ t ∈ st.arguments, t.node ≠ s.node → ∀ d' ∈ t.arg.dest.toList, d'.slot ≠ d.slot) : OwnSlot st s d :=
  fun t ht hn d' hd => h t ht hn d' (by rw [hd]; simp)

/-- The hypotheses of the theorems are met by all four destinations of the example. -/
example : ReachableBy digits Careful storeParser ∧ Ready digits storeParser storeLine ∧
    (storeParser.parseArguments digits storeLine).2 = .ok () ∧
    ∀ s ∈ storeParser.arguments, ∀ d, s.arg.dest = some d → OwnSlot storeParser s d ∧ d.custom = false := by
  refine ⟨(careful_runOps .init _ (by decide +kernel)).mono fun _ _ _ h => h.1,
    .of_history (reachableBy_runOps .init _ (by decide +kernel)) (by decide +kernel) (by decide)
      ⟨"prog".toList, rfl, by decide +kernel⟩, by decide +kernel, ?_⟩
  have : ∀ s ∈ storeParser.arguments, ∀ d ∈ s.arg.dest.toList,
      (∀ t ∈ storeParser.arguments, t.node ≠ s.node → ∀ d' ∈ t.arg.dest.toList, d'.slot ≠ d.slot) ∧
      d.custom = false := by decide +kernel
  intro s hs d hd
  have h := this s hs d (by rw [hd]; simp)
  exact ⟨ownSlot_of h.1, h.2⟩

/-- A variable as an `int` (or a vector of them, or of vectors). -/
def Var.ints : Var D → List (List Int)
  | .one (.int n) => [[n]]
  | .many l => [l.map fun | .int n => n | _ => 0]
  | .nested l => l.map fun g => g.map fun | .int n => n | _ => 0
  | _ => []

/-- What the program finds in `int`, `bool` as `int`, `std::vector<int>` and `std::vector<std::vector<int> >`. -/
example :
    let log := (storeParser.parseArguments digits storeLine).1.destLog;
    let ints := fun (x : Var Nat) slot =>
      match x.writes natDoubles (.int (-100) 100) (writesTo slot log) with | .ok x => x.ints | _ => [];
    ints (.one .other) 1 = [[5]] ∧ ints (.nested []) 2 = [[1, 2]] ∧ ints (.one .other) 3 = [[1]] ∧
    ints (.many [.int 42]) 4 = [[42, 7, 8]] := by decide +kernel

end BletArgs
