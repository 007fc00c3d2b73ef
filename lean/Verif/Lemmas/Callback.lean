import Verif.Model.Parse
/-
What `toDest` does, by cases: there is no destination, its callback is called, its type has a conversion, or it has none.
-/
namespace BletArgs
variable {D : Type}

/-- The call the callback of destination `d` gets. -/
def Argument.destCall (a : Argument D) (d : Dest) : DestWrite :=
  match d.kind with
  | .scalar => .callScalar d.slot a.isExist a.argument
  | .vector => .callVector d.slot a.isExist (if a.elems.isEmpty then [a.argument] else a.flatStrings)
  | .vecvec => .callVecVec d.slot a.isExist (if a.elems.isEmpty then [[a.argument]] else a.groupedStrings)

theorem toDest_custom {a : Argument D} {d : Dest} (hd : a.dest = some d) (hc : d.custom = true) :
    a.toDest = d.invoke (a.destCall d) := by
  unfold Argument.toDest Argument.destCall
  rw [hd]
  cases hk : d.kind <;> simp only [hk, hc, if_true]

theorem toDest_plain {a : Argument D} {d : Dest} (hd : a.dest = some d) (hc : d.custom = false) :
    a.toDest.2 = if d.supported = true then .ok () else .throw noConversion := by
  unfold Argument.toDest
  rw [hd]
  cases hk : d.kind <;> cases hs : d.supported <;> simp only [hk, hs, hc, if_true, Bool.false_eq_true, if_false]

theorem toDest_none {a : Argument D} (hd : a.dest = none) : a.toDest = ([], .ok ()) := by
  unfold Argument.toDest
  rw [hd]

@[simp] theorem invoke_fst (d : Dest) (w : DestWrite) : (d.invoke w).1 = [w] := rfl

theorem invoke_ok (d : Dest) (w : DestWrite) : (d.invoke w).2 = .ok () ↔ d.refuses w = none := by
  unfold Dest.invoke
  cases d.refuses w <;> simp

theorem invoke_throw (d : Dest) (w : DestWrite) (e : Exn) : (d.invoke w).2 = .throw e ↔ d.refuses w = some e := by
  unfold Dest.invoke
  cases d.refuses w <;> simp

/-- Why `toDest` throws. -/
theorem toDest_throw {a : Argument D} {e : Exn} (h : a.toDest.2 = .throw e) :
    ∃ d, a.dest = some d ∧ (d.custom = true ∧ d.refuses (a.destCall d) = some e ∨
      d.custom = false ∧ d.supported = false ∧ e = noConversion) := by
  cases hd : a.dest with
  | none => rw [toDest_none hd] at h; cases h
  | some d =>
    refine ⟨d, rfl, ?_⟩
    cases hc : d.custom with
    | true =>
      rw [toDest_custom hd hc, invoke_throw] at h
      exact .inl ⟨rfl, h⟩
    | false =>
      rw [toDest_plain hd hc] at h
      cases hs : d.supported with
      | true => rw [hs] at h; cases h
      | false => rw [hs] at h; cases h; exact .inr ⟨rfl, rfl, rfl⟩

/-- `toDest` returns or throws. -/
theorem toDest_ends (a : Argument D) : a.toDest.2 = .ok () ∨ ∃ e, a.toDest.2 = .throw e := by
  cases hd : a.dest with
  | none => rw [toDest_none hd]; exact .inl rfl
  | some d =>
    cases hc : d.custom with
    | true =>
      rw [toDest_custom hd hc]
      unfold Dest.invoke
      cases d.refuses (a.destCall d) with
      | none => exact .inl rfl
      | some e => exact .inr ⟨e, rfl⟩
    | false =>
      rw [toDest_plain hd hc]
      cases d.supported with
      | true => exact .inl rfl
      | false => exact .inr ⟨_, rfl⟩

end BletArgs
