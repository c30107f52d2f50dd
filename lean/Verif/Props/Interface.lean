import Verif.Proofs.Back
import Verif.Proofs.Blank
import Verif.Test.QBackend

/-!
# Interface properties: shapes, empty data, rejected arguments (C01, C15, C16, C19-C22)

All theorems hold for every `Backend`, i.e. whatever the arithmetic is.
-/

set_option linter.unusedSectionVars false

namespace KK

variable {F : Type} [Backend F]

/-- `rows` consists of exactly `n` arrays of the given shape, with dtype float64. -/
def RowsHave (rows : List (Arr F)) (n : ℕ) (shape : List ℕ) : Prop :=
  rows.length = n ∧ ∀ a ∈ rows, a.shape = shape ∧ a.dtype = .float64

/-! ## C01 -/

/-- C01 for `KalmanFilter.filter`. -/
theorem C01_filter_shapes (kf kf' : KalmanFilter F) (Z : NDArray F) (U : Option (NDArray F))
    (xs Ps : List (Arr F)) (h : (KalmanFilter.filter Z U).run kf = (.ok (xs, Ps), kf')) :
    ∃ n, Z.len = .ok n ∧ RowsHave xs n [kf.stateSize] ∧ RowsHave Ps n [kf.stateSize, kf.stateSize] := by
  obtain ⟨n, hn, hx, hP, hxs, hPs⟩ := KalmanFilter.filter_rowsOk h
  exact ⟨n, hn, ⟨hx, hxs⟩, ⟨hP, hPs⟩⟩

/-- C01 for `ExtendedKalmanFilter.filter`. -/
theorem C01_ekf_filter_shapes (kf kf' : ExtendedKalmanFilter F) (Z : NDArray F)
    (U : Option (NDArray F)) (xs Ps : List (Arr F))
    (h : (ExtendedKalmanFilter.filter Z U).run kf = (.ok (xs, Ps), kf')) :
    ∃ n, Z.len = .ok n ∧ RowsHave xs n [kf.stateSize] ∧ RowsHave Ps n [kf.stateSize, kf.stateSize] := by
  obtain ⟨n, hn, hx, hP, hxs, hPs⟩ := ExtendedKalmanFilter.filter_rowsOk h
  exact ⟨n, hn, ⟨hx, hxs⟩, ⟨hP, hPs⟩⟩

theorem KalmanFilter.body_rowsOk {A Q B U : NDArray F} {s : ℕ} {xe Pe : List (Arr F)} {k : ℕ}
    {x P : Arr F} {r : Arr F × Arr F} (h : KalmanFilter.body A Q B U s xe Pe k x P = .ok r) :
    RowsOk s r := by
  simp only [KalmanFilter.body] at h
  rcases h1 : A.item (k + 1) with e | Ak; · simp [h1] at h
  simp only [h1, Except.bind_ok'] at h
  rcases h2 : Q.item (k + 1) with e | Qk; · simp [h2] at h
  simp only [h2, Except.bind_ok'] at h
  rcases h3 : B.item (k + 1) with e | Bk; · simp [h3] at h
  simp only [h3, Except.bind_ok'] at h
  rcases h4 : U.item (k + 1) with e | uk; · simp [h4] at h
  simp only [h4, Except.bind_ok'] at h
  rcases h5 : getRow Pe k with e | Pk; · simp [h5] at h
  simp only [h5, Except.bind_ok'] at h
  rcases h6 : getRow xe k with e | xk; · simp [h6] at h
  simp only [h6, Except.bind_ok'] at h
  rcases h7 : KalmanFilter.smoothStep xk Pk Ak Qk Bk uk x P with e | ⟨x', P'⟩; · simp [h7] at h
  simp only [h7, Except.bind_ok'] at h
  rcases h8 : x'.assignVec s with e | xr; · simp [h8] at h
  simp only [h8, Except.bind_ok'] at h
  rcases h9 : P'.assignMat s with e | Pr; · simp [h9] at h
  simp only [h9, Except.bind_ok', Except.ok.injEq] at h
  subst h
  exact ⟨assignVec_shape h8, assignMat_shape h9⟩

theorem ExtendedKalmanFilter.body_rowsOk {kf : ExtendedKalmanFilter F} {Q U : NDArray F}
    {xe Pe : List (Arr F)} {k : ℕ}
    {x P : Arr F} {r : Arr F × Arr F} (h : kf.body Q U xe Pe k x P = .ok r) :
    RowsOk kf.stateSize r := by
  simp only [ExtendedKalmanFilter.body] at h
  rcases h2 : Q.item (k + 1) with e | Qk; · simp [h2] at h
  simp only [h2, Except.bind_ok'] at h
  rcases h4 : U.item (k + 1) with e | uk; · simp [h4] at h
  simp only [h4, Except.bind_ok'] at h
  rcases h5 : getRow Pe k with e | Pk; · simp [h5] at h
  simp only [h5, Except.bind_ok'] at h
  rcases h6 : getRow xe k with e | xk; · simp [h6] at h
  simp only [h6, Except.bind_ok'] at h
  rcases h7 : kf.smoothStep xk Pk Qk uk x P with e | ⟨x', P'⟩; · simp [h7] at h
  simp only [h7, Except.bind_ok'] at h
  rcases h8 : x'.assignVec kf.stateSize with e | xr; · simp [h8] at h
  simp only [h8, Except.bind_ok'] at h
  rcases h9 : P'.assignMat kf.stateSize with e | Pr; · simp [h9] at h
  simp only [h9, Except.bind_ok', Except.ok.injEq] at h
  subst h
  exact ⟨assignVec_shape h8, assignMat_shape h9⟩

/-- A successful `smooth`: the filter run under it, the last rows, the backward recursion. -/
theorem KalmanFilter.smooth_ok {Z : NDArray F} {U : Option (NDArray F)} {kf kf' : KalmanFilter F}
    {xs Ps : List (Arr F)} (h : (smooth Z U).run kf = (.ok (xs, Ps), kf')) :
    ∃ xe Pe x P l, (filter Z U).run kf = (.ok (xe, Pe), kf') ∧ xe ≠ [] ∧ xe.length = Pe.length ∧
      xe[xe.length - 1]? = some x ∧ Pe[xe.length - 1]? = some P ∧
      back (body kf.A kf.Q kf.B (checkNoneAndBroadcast U Z) kf.stateSize xe Pe)
        (xe.length - 1) (x, P) = .ok l ∧ xs = l.map Prod.fst ∧ Ps = l.map Prod.snd := by
  rw [smooth_eq] at h
  rcases hf : (filter Z U).run kf with ⟨e | ⟨xe, Pe⟩, kf1⟩
  · simp [hf] at h
  obtain ⟨n, hn, hx, hP, hxs, hPs⟩ := filter_rowsOk hf
  simp only [hf, Prod.mk.injEq] at h
  obtain ⟨h, rfl⟩ := h
  rcases h1 : xe[xe.length - 1]? with _ | x; · simp [h1] at h
  rcases h2 : Pe[xe.length - 1]? with _ | P; · simp [h1, h2] at h
  simp only [h1, h2] at h
  rcases h3 : back (body kf.A kf.Q kf.B (checkNoneAndBroadcast U Z) kf.stateSize xe Pe)
      (xe.length - 1) (x, P) with e | l
  · simp [h3, Except.map] at h
  · simp [h3, Except.map] at h
    refine ⟨xe, Pe, x, P, l, rfl, ?_, by omega, h1, h2, h3, h.1.symm, h.2.symm⟩
    rintro rfl
    simp at h1

theorem ExtendedKalmanFilter.smooth_ok {Z : NDArray F} {U : Option (NDArray F)}
    {kf kf' : ExtendedKalmanFilter F}
    {xs Ps : List (Arr F)} (h : (smooth Z U).run kf = (.ok (xs, Ps), kf')) :
    ∃ xe Pe x P l, (filter Z U).run kf = (.ok (xe, Pe), kf') ∧ xe ≠ [] ∧ xe.length = Pe.length ∧
      xe[xe.length - 1]? = some x ∧ Pe[xe.length - 1]? = some P ∧
      back (kf.body kf.Q (checkNoneAndBroadcast U Z) xe Pe)
        (xe.length - 1) (x, P) = .ok l ∧ xs = l.map Prod.fst ∧ Ps = l.map Prod.snd := by
  rw [smooth_eq] at h
  rcases hf : (filter Z U).run kf with ⟨e | ⟨xe, Pe⟩, kf1⟩
  · simp [hf] at h
  obtain ⟨n, hn, hx, hP, hxs, hPs⟩ := filter_rowsOk hf
  simp only [hf, Prod.mk.injEq] at h
  obtain ⟨h, rfl⟩ := h
  rcases h1 : xe[xe.length - 1]? with _ | x; · simp [h1] at h
  rcases h2 : Pe[xe.length - 1]? with _ | P; · simp [h1, h2] at h
  simp only [h1, h2] at h
  rcases h3 : back (kf.body kf.Q (checkNoneAndBroadcast U Z) xe Pe)
      (xe.length - 1) (x, P) with e | l
  · simp [h3, Except.map] at h
  · simp [h3, Except.map] at h
    refine ⟨xe, Pe, x, P, l, rfl, ?_, by omega, h1, h2, h3, h.1.symm, h.2.symm⟩
    rintro rfl
    simp at h1

/-- C01 for `KalmanFilter.smooth`. -/
theorem C01_smooth_shapes (kf kf' : KalmanFilter F) (Z : NDArray F) (U : Option (NDArray F))
    (xs Ps : List (Arr F)) (h : (KalmanFilter.smooth Z U).run kf = (.ok (xs, Ps), kf')) :
    ∃ n, Z.len = .ok n ∧ RowsHave xs n [kf.stateSize] ∧ RowsHave Ps n [kf.stateSize, kf.stateSize] := by
  obtain ⟨xe, Pe, x, P, l, hf, hne, hl, hx, hP, hb, rfl, rfl⟩ := KalmanFilter.smooth_ok h
  obtain ⟨n, hn, hxl, hPl, hxs, hPs⟩ := KalmanFilter.filter_rowsOk hf
  have hpos : 0 < xe.length := List.length_pos_iff.2 hne
  have hlen := back_length hb
  have hall := back_forall (RowsOk kf.stateSize)
    (fun k x P r _ hb => KalmanFilter.body_rowsOk hb)
    ⟨hxs _ (List.mem_of_getElem? hx), hPs _ (List.mem_of_getElem? hP)⟩ hb
  refine ⟨n, hn, ⟨by simp [hlen]; omega, ?_⟩, ⟨by simp [hlen]; omega, ?_⟩⟩
  · intro a ha
    obtain ⟨o, ho, rfl⟩ := List.mem_map.1 ha
    exact (hall o ho).1
  · intro a ha
    obtain ⟨o, ho, rfl⟩ := List.mem_map.1 ha
    exact (hall o ho).2

/-- C01 for `ExtendedKalmanFilter.smooth`. -/
theorem C01_ekf_smooth_shapes (kf kf' : ExtendedKalmanFilter F) (Z : NDArray F)
    (U : Option (NDArray F)) (xs Ps : List (Arr F))
    (h : (ExtendedKalmanFilter.smooth Z U).run kf = (.ok (xs, Ps), kf')) :
    ∃ n, Z.len = .ok n ∧ RowsHave xs n [kf.stateSize] ∧ RowsHave Ps n [kf.stateSize, kf.stateSize] := by
  obtain ⟨xe, Pe, x, P, l, hf, hne, hl, hx, hP, hb, rfl, rfl⟩ := ExtendedKalmanFilter.smooth_ok h
  obtain ⟨n, hn, hxl, hPl, hxs, hPs⟩ := ExtendedKalmanFilter.filter_rowsOk hf
  have hpos : 0 < xe.length := List.length_pos_iff.2 hne
  have hlen := back_length hb
  have hall := back_forall (RowsOk kf.stateSize)
    (fun k x P r _ hb => ExtendedKalmanFilter.body_rowsOk hb)
    ⟨hxs _ (List.mem_of_getElem? hx), hPs _ (List.mem_of_getElem? hP)⟩ hb
  refine ⟨n, hn, ⟨by simp [hlen]; omega, ?_⟩, ⟨by simp [hlen]; omega, ?_⟩⟩
  · intro a ha
    obtain ⟨o, ho, rfl⟩ := List.mem_map.1 ha
    exact (hall o ho).1
  · intro a ha
    obtain ⟨o, ho, rfl⟩ := List.mem_map.1 ha
    exact (hall o ho).2

/-! The hypotheses are met: two-dimensional constant-velocity model, three observations. -/
example : ∃ r kf', (KalmanFilter.filter Ex.zs (some Ex.us)).run (Ex.cv 3) = (.ok r, kf') :=
  (Ex.returned_iff _).1 (by decide +kernel)
example : ∃ r kf', (KalmanFilter.smooth Ex.zs (some Ex.us)).run (Ex.cv 3) = (.ok r, kf') :=
  (Ex.returned_iff _).1 (by decide +kernel)
example : ∃ r kf', (ExtendedKalmanFilter.filter Ex.zs (some Ex.us)).run (Ex.ecv 3) = (.ok r, kf') :=
  (Ex.returned_iff _).1 (by decide +kernel)
example : ∃ r kf', (ExtendedKalmanFilter.smooth Ex.zs (some Ex.us)).run (Ex.ecv 3) = (.ok r, kf') :=
  (Ex.returned_iff _).1 (by decide +kernel)

/-! ## C15 -/

/-- C15: the last smoothed row is the last filtered row; with one observation the results coincide. -/
theorem C15_last_smoothed (kf kf' : KalmanFilter F) (Z : NDArray F) (U : Option (NDArray F))
    (xs Ps : List (Arr F)) (h : (KalmanFilter.smooth Z U).run kf = (.ok (xs, Ps), kf')) :
    ∃ xe Pe, (KalmanFilter.filter Z U).run kf = (.ok (xe, Pe), kf') ∧
      xe ≠ [] ∧ Pe ≠ [] ∧ xs.getLast? = xe.getLast? ∧ Ps.getLast? = Pe.getLast? ∧
      (Z.len = .ok 1 → xs = xe ∧ Ps = Pe) := by
  obtain ⟨xe, Pe, x, P, l, hf, hne, hl, hx, hP, hb, rfl, rfl⟩ := KalmanFilter.smooth_ok h
  obtain ⟨n, hn, hxl, hPl, hxs, hPs⟩ := KalmanFilter.filter_rowsOk hf
  have hpos : 0 < xe.length := List.length_pos_iff.2 hne
  have hlen := back_length hb
  have hlast := back_last hb
  refine ⟨xe, Pe, hf, hne, ?_, ?_, ?_, ?_⟩
  · rw [← List.length_pos_iff]; omega
  · rw [List.getLast?_eq_getElem?, List.getLast?_eq_getElem?, hx]
    rw [List.length_map, hlen, Nat.add_sub_cancel, List.getElem?_map, hlast]; rfl
  · rw [List.getLast?_eq_getElem?, List.getLast?_eq_getElem?, ← hl, hP]
    rw [List.length_map, hlen, Nat.add_sub_cancel, List.getElem?_map, hlast]; rfl
  · intro h1
    rw [hn] at h1
    simp only [Except.ok.injEq] at h1
    have e1 : xe.length = 1 := by omega
    have e2 : Pe.length = 1 := by omega
    obtain ⟨x', rfl⟩ := List.length_eq_one_iff.1 e1
    obtain ⟨P', rfl⟩ := List.length_eq_one_iff.1 e2
    simp at hx hP
    simp only [List.length_singleton, Nat.sub_self, back, Except.ok.injEq] at hb
    subst hb
    simp [hx, hP]

/-- C15 for the extended filter. -/
theorem C15_ekf_last_smoothed (kf kf' : ExtendedKalmanFilter F) (Z : NDArray F)
    (U : Option (NDArray F))
    (xs Ps : List (Arr F)) (h : (ExtendedKalmanFilter.smooth Z U).run kf = (.ok (xs, Ps), kf')) :
    ∃ xe Pe, (ExtendedKalmanFilter.filter Z U).run kf = (.ok (xe, Pe), kf') ∧
      xe ≠ [] ∧ Pe ≠ [] ∧ xs.getLast? = xe.getLast? ∧ Ps.getLast? = Pe.getLast? ∧
      (Z.len = .ok 1 → xs = xe ∧ Ps = Pe) := by
  obtain ⟨xe, Pe, x, P, l, hf, hne, hl, hx, hP, hb, rfl, rfl⟩ := ExtendedKalmanFilter.smooth_ok h
  obtain ⟨n, hn, hxl, hPl, hxs, hPs⟩ := ExtendedKalmanFilter.filter_rowsOk hf
  have hpos : 0 < xe.length := List.length_pos_iff.2 hne
  have hlen := back_length hb
  have hlast := back_last hb
  refine ⟨xe, Pe, hf, hne, ?_, ?_, ?_, ?_⟩
  · rw [← List.length_pos_iff]; omega
  · rw [List.getLast?_eq_getElem?, List.getLast?_eq_getElem?, hx]
    rw [List.length_map, hlen, Nat.add_sub_cancel, List.getElem?_map, hlast]; rfl
  · rw [List.getLast?_eq_getElem?, List.getLast?_eq_getElem?, ← hl, hP]
    rw [List.length_map, hlen, Nat.add_sub_cancel, List.getElem?_map, hlast]; rfl
  · intro h1
    rw [hn] at h1
    simp only [Except.ok.injEq] at h1
    have e1 : xe.length = 1 := by omega
    have e2 : Pe.length = 1 := by omega
    obtain ⟨x', rfl⟩ := List.length_eq_one_iff.1 e1
    obtain ⟨P', rfl⟩ := List.length_eq_one_iff.1 e2
    simp at hx hP
    simp only [List.length_singleton, Nat.sub_self, back, Except.ok.injEq] at hb
    subst hb
    simp [hx, hP]

/-! ## C16 -/

/-- C16: on empty data `filter` returns two empty results and leaves the object alone, `smooth` raises
IndexError. -/
theorem C16_empty (kf : KalmanFilter F) (Z : NDArray F) (U : Option (NDArray F))
    (hZ : Z.len = .ok 0) (hA : kf.A.Iterable) (hB : kf.B.Iterable) (hH : kf.H.Iterable)
    (hQ : kf.Q.Iterable) (hR : kf.R.Iterable) (hU : ∀ u, U = some u → u.Iterable) :
    (KalmanFilter.filter Z U).run kf = (.ok ([], []), kf) ∧
    (KalmanFilter.smooth Z U).run kf = (.error .indexError, kf) := by
  obtain ⟨z, rfl, hz⟩ := NDArray.len_ok hZ
  rw [List.length_eq_zero_iff] at hz
  subst hz
  obtain ⟨a, ha⟩ := hA.exists
  obtain ⟨b, hb⟩ := hB.exists
  obtain ⟨h, hh⟩ := hH.exists
  obtain ⟨q, hq⟩ := hQ.exists
  obtain ⟨r, hr⟩ := hR.exists
  obtain ⟨u, hu⟩ : ∃ u, checkNoneAndBroadcast U (.stack []) = .stack u := by
    cases U with
    | none => exact ⟨_, rfl⟩
    | some u => exact (hU u rfl).exists
  have hf : (KalmanFilter.filter (.stack []) U).run kf = (.ok ([], []), kf) := by
    rw [KalmanFilter.filter_eq]
    simp [ha, hb, hh, hq, hr, hu, KalmanFilter.zipRows_stack, trace, Trace.result, overwrite]
  refine ⟨hf, ?_⟩
  rw [KalmanFilter.smooth_eq, hf]
  rfl

/-- C16 for the extended filter. -/
theorem C16_ekf_empty (kf : ExtendedKalmanFilter F) (Z : NDArray F) (U : Option (NDArray F))
    (hZ : Z.len = .ok 0) (hQ : kf.Q.Iterable) (hR : kf.R.Iterable)
    (hU : ∀ u, U = some u → u.Iterable) :
    (ExtendedKalmanFilter.filter Z U).run kf = (.ok ([], []), kf) ∧
    (ExtendedKalmanFilter.smooth Z U).run kf = (.error .indexError, kf) := by
  obtain ⟨z, rfl, hz⟩ := NDArray.len_ok hZ
  rw [List.length_eq_zero_iff] at hz
  subst hz
  obtain ⟨q, hq⟩ := hQ.exists
  obtain ⟨r, hr⟩ := hR.exists
  obtain ⟨u, hu⟩ : ∃ u, checkNoneAndBroadcast U (.stack []) = .stack u := by
    cases U with
    | none => exact ⟨_, rfl⟩
    | some u => exact (hU u rfl).exists
  have hf : (ExtendedKalmanFilter.filter (.stack []) U).run kf = (.ok ([], []), kf) := by
    rw [ExtendedKalmanFilter.filter_eq]
    simp [hq, hr, hu, ExtendedKalmanFilter.zipRows_stack, trace, Trace.result, overwrite]
  refine ⟨hf, ?_⟩
  rw [ExtendedKalmanFilter.smooth_eq, hf]
  rfl

example : (Ex.cv 3).A.Iterable ∧ (NDArray.stack ([] : List (Arr Ex.QN))).len = .ok 0 :=
  ⟨trivial, rfl⟩

/-! ## C19 -/

/-- C19: a 0-d array for any sequence parameter or argument makes `filter` and `smooth` raise TypeError,
and the object (in particular `kalman_gains`) is unchanged. -/
theorem C19_scalar_parameter (kf : KalmanFilter F) (Z : NDArray F) (U : Option (NDArray F))
    (h : ¬ kf.A.Iterable ∨ ¬ kf.H.Iterable ∨ ¬ kf.B.Iterable ∨ ¬ kf.Q.Iterable ∨ ¬ kf.R.Iterable ∨
      ¬ Z.Iterable ∨ ∃ u, U = some u ∧ ¬ u.Iterable) :
    (KalmanFilter.filter Z U).run kf = (.error .typeError, kf) ∧
    (KalmanFilter.smooth Z U).run kf = (.error .typeError, kf) := by
  have hf : (KalmanFilter.filter Z U).run kf = (.error .typeError, kf) := by
    rw [KalmanFilter.filter_eq]
    cases Z with
    | d0 => rfl
    | stack z =>
      simp only [NDArray.len_stack]
      have : KalmanFilter.zipRows kf.A kf.H kf.B (checkNoneAndBroadcast U (.stack z)) (.stack z)
          kf.Q kf.R = .error .typeError := by
        rcases h with h | h | h | h | h | h | ⟨u, rfl, h⟩
        · cases hA : kf.A <;> simp_all [KalmanFilter.zipRows, NDArray.iter, NDArray.Iterable]
        · cases hA : kf.A <;> cases hH : kf.H <;>
            simp_all [KalmanFilter.zipRows, NDArray.iter, NDArray.Iterable]
        · cases hA : kf.A <;> cases hH : kf.H <;> cases hB : kf.B <;>
            simp_all [KalmanFilter.zipRows, NDArray.iter, NDArray.Iterable]
        · cases hA : kf.A <;> cases hH : kf.H <;> cases hB : kf.B <;>
            cases hU : checkNoneAndBroadcast U (.stack z) <;> cases hQ : kf.Q <;>
            simp_all [KalmanFilter.zipRows, NDArray.iter, NDArray.Iterable]
        · cases hA : kf.A <;> cases hH : kf.H <;> cases hB : kf.B <;>
            cases hU : checkNoneAndBroadcast U (.stack z) <;> cases hQ : kf.Q <;> cases hR : kf.R <;>
            simp_all [KalmanFilter.zipRows, NDArray.iter, NDArray.Iterable]
        · simp [NDArray.Iterable] at h
        · cases u with
          | stack _ => simp [NDArray.Iterable] at h
          | d0 d x =>
            cases hA : kf.A <;> cases hH : kf.H <;> cases hB : kf.B <;>
              simp_all [KalmanFilter.zipRows, NDArray.iter, NDArray.Iterable, checkNoneAndBroadcast]
      simp [this]
  exact ⟨hf, by rw [KalmanFilter.smooth_eq, hf]⟩

/-- C19 for the extended filter. -/
theorem C19_ekf_scalar_parameter (kf : ExtendedKalmanFilter F) (Z : NDArray F)
    (U : Option (NDArray F))
    (h : ¬ kf.Q.Iterable ∨ ¬ kf.R.Iterable ∨ ¬ Z.Iterable ∨ ∃ u, U = some u ∧ ¬ u.Iterable) :
    (ExtendedKalmanFilter.filter Z U).run kf = (.error .typeError, kf) ∧
    (ExtendedKalmanFilter.smooth Z U).run kf = (.error .typeError, kf) := by
  have hf : (ExtendedKalmanFilter.filter Z U).run kf = (.error .typeError, kf) := by
    rw [ExtendedKalmanFilter.filter_eq]
    cases Z with
    | d0 => rfl
    | stack z =>
      simp only [NDArray.len_stack]
      have : ExtendedKalmanFilter.zipRows (checkNoneAndBroadcast U (.stack z)) (.stack z)
          kf.Q kf.R = .error .typeError := by
        rcases h with h | h | h | ⟨u, rfl, h⟩
        · cases hU : checkNoneAndBroadcast U (.stack z) <;> cases hQ : kf.Q <;>
            simp_all [ExtendedKalmanFilter.zipRows, NDArray.iter, NDArray.Iterable]
        · cases hU : checkNoneAndBroadcast U (.stack z) <;> cases hQ : kf.Q <;> cases hR : kf.R <;>
            simp_all [ExtendedKalmanFilter.zipRows, NDArray.iter, NDArray.Iterable]
        · simp [NDArray.Iterable] at h
        · cases u with
          | stack _ => simp [NDArray.Iterable] at h
          | d0 d x =>
            simp [ExtendedKalmanFilter.zipRows, NDArray.iter, checkNoneAndBroadcast]
      simp [this]
  exact ⟨hf, by rw [ExtendedKalmanFilter.smooth_eq, hf]⟩

/-- The documented `R : float` form is such a case. -/
example : ¬ ({ Ex.cv 3 with R := .d0 .float64 (some 1) } : KalmanFilter Ex.QN).R.Iterable := id

/-! ## C20 -/

/-- C20: `predict` raises TypeError for `Bk = None`, and for `uk = None` unless `Bk` is all-NaN. -/
theorem C20_predict_none (Ak xk Pk Qk : Arr F) :
    (∀ uk, KalmanFilter.predict Ak xk none uk Pk Qk = .error .typeError) ∧
    (∀ Bk : Arr F, ¬ Bk.Blank →
      KalmanFilter.predict Ak xk (some Bk) none Pk Qk = .error .typeError) ∧
    (∀ Bk : Arr F, Bk.Blank →
      ∀ u, KalmanFilter.predict Ak xk (some Bk) none Pk Qk =
        KalmanFilter.predict Ak xk (some Bk) u Pk Qk) := by
  refine ⟨fun uk => rfl, fun Bk h => ?_, fun Bk h u => ?_⟩
  · simp only [KalmanFilter.predict, isNanAll, (Arr.isnanAll_false_iff _).2 h]; rfl
  · simp only [KalmanFilter.predict, isNanAll, (Arr.isnanAll_iff_blank _).2 h, Except.bind_ok', if_true]

example : ¬ (Ex.col2 (some (1/2)) (some 1)).Blank ∧ (Ex.col2 none none).Blank := by
  rw [← Arr.isnanAll_false_iff, ← Arr.isnanAll_iff_blank]
  constructor <;> rfl

/-! ## C21 -/

/-- Number of entries. -/
def Arr.size (a : Arr F) : ℕ := a.shape.prod

/-- Entry at row-major position given by indices. -/
def Arr.Entry (a : Arr F) (x : F) : Prop :=
  match a with
  | .scalar _ y => x = y
  | .vec _ v => ∃ i, x = v i
  | .mat _ M => ∃ i j, x = M i j

theorem isnanAll_iff (a : Arr F) :
    a.isnanAll = true ↔ ∀ x, a.Entry x → Arr.isnanEntry a.dtype x = true := by
  cases a with
  | scalar d y => simp [Arr.isnanAll, Arr.Entry, Arr.dtype]
  | vec d v =>
    simp only [Arr.isnanAll, decide_eq_true_eq, Arr.Entry, Arr.dtype]
    exact ⟨fun h x ⟨i, hx⟩ => hx ▸ h i, fun h i => h _ ⟨i, rfl⟩⟩
  | mat d M =>
    simp only [Arr.isnanAll, decide_eq_true_eq, Arr.Entry, Arr.dtype]
    exact ⟨fun h x ⟨i, j, hx⟩ => hx ▸ h i j, fun h i j => h _ ⟨i, j, rfl⟩⟩

theorem size_eq_zero_iff (a : Arr F) : a.size = 0 ↔ ∀ x, ¬ a.Entry x := by
  cases a with
  | scalar d y => simp [Arr.size, Arr.shape, Arr.Entry]
  | @vec d n v =>
    simp only [Arr.size, Arr.shape, Arr.Entry, List.prod_cons, List.prod_nil, mul_one]
    refine ⟨?_, fun h => ?_⟩
    · rintro rfl x ⟨i, -⟩; exact i.elim0
    · by_contra hn; exact h _ ⟨⟨0, by omega⟩, rfl⟩
  | @mat d m n M =>
    simp only [Arr.size, Arr.shape, Arr.Entry, List.prod_cons, List.prod_nil, mul_one,
      Nat.mul_eq_zero]
    refine ⟨?_, fun h => ?_⟩
    · rintro (rfl | rfl) x ⟨i, j, -⟩
      · exact i.elim0
      · exact j.elim0
    · by_contra hn
      push Not at hn
      exact h _ ⟨⟨0, by omega⟩, ⟨0, by omega⟩, rfl⟩

/-- C21: `is_nan_all` answers True exactly when every entry is NaN; integers are never NaN; an empty
array of either dtype counts as all-NaN; it never raises on an array. -/
theorem C21_is_nan_all (a : Arr F) :
    (∃ b, isNanAll (some a) = .ok b) ∧
    (a.dtype = .float64 →
      (isNanAll (some a) = .ok true ↔ ∀ x, a.Entry x → Backend.isnan x = true)) ∧
    (a.dtype = .int64 → (isNanAll (some a) = .ok true ↔ a.size = 0)) ∧
    (a.size = 0 → isNanAll (some a) = .ok true) ∧
    (∀ x, a.Entry x → Backend.isnan x = false → isNanAll (some a) = .ok false) := by
  have htrue : isNanAll (some a) = .ok true ↔ ∀ x, a.Entry x → Arr.isnanEntry a.dtype x = true := by
    rw [← isnanAll_iff]; simp [isNanAll]
  have hfalse : isNanAll (some a) = .ok false ↔ ¬ ∀ x, a.Entry x → Arr.isnanEntry a.dtype x = true := by
    rw [← isnanAll_iff]; simp [isNanAll]
  refine ⟨⟨_, rfl⟩, fun hd => ?_, fun hd => ?_, fun h => ?_, fun x hx hn => ?_⟩
  · rw [htrue, hd]; rfl
  · rw [htrue, size_eq_zero_iff, hd]; simp [Arr.isnanEntry]
  · rw [htrue]; exact fun x hx => absurd hx ((size_eq_zero_iff a).1 h x)
  · rw [hfalse]
    intro h
    have := h x hx
    cases hd : a.dtype <;> simp_all [Arr.isnanEntry]

example : isNanAll (some (Ex.mat2 none none none none)) = .ok true ∧
    isNanAll (some (Ex.mat2 none none none (some 0))) = .ok false := by
  constructor <;> rfl

/-! ## C22 -/

/-- C22: `check_none_and_broadcast` returns a given array unchanged; for `None` it returns an array with
the rows, shapes and dtypes of `broad_to`, each float row of which `is_nan_all` accepts (a 0-d `broad_to` gives a 0-d array
of the same dtype, NaN if it is a float array). -/
theorem C22_check_none_and_broadcast (hnan : Backend.isnan (Backend.nan : F) = true)
    (broadTo : NDArray F) :
    (∀ a, checkNoneAndBroadcast (some a) broadTo = a) ∧
    (checkNoneAndBroadcast none broadTo).len = broadTo.len ∧
    (∀ (k : ℕ) (a : Arr F), broadTo.rows[k]? = some a →
      ∃ b : Arr F, (checkNoneAndBroadcast none broadTo).rows[k]? = some b ∧ b.shape = a.shape ∧
        b.dtype = a.dtype ∧ (a.dtype = .float64 → b.Blank ∧ isNanAll (some b) = .ok true)) ∧
    (∀ (d : DType) (x : F), broadTo = .d0 d x →
      ∃ y : F, checkNoneAndBroadcast none broadTo = .d0 d y ∧ (d = .float64 → Backend.isnan y = true)) := by
  refine ⟨fun a => rfl, ?_, ?_, ?_⟩
  · cases broadTo <;> simp [checkNoneAndBroadcast, NDArray.fullLikeNan, NDArray.len]
  · intro k a h
    cases broadTo with
    | d0 d x => simp [NDArray.rows] at h
    | stack r =>
      simp only [NDArray.rows_stack] at h
      refine ⟨a.fullLikeNan, ?_, ?_, ?_, ?_⟩
      · simp [checkNoneAndBroadcast, NDArray.fullLikeNan, NDArray.rows, h]
      · cases a <;> rfl
      · cases a <;> rfl
      · intro hd
        cases a <;> simp_all [isNanAll, Arr.Blank, Arr.fullLikeNan, Arr.isnanAll, Arr.isnanEntry, Arr.nanFill,
          Arr.dtype]
  · rintro d x rfl
    refine ⟨_, rfl, ?_⟩
    rintro rfl
    simpa [Arr.nanFill] using hnan

example : Backend.isnan (Backend.nan : Ex.QN) = true := rfl

end KK
