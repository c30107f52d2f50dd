import Verif.Spec.TwoFilter
import Verif.Props.Monotone
import Verif.Props.Smoother
import Verif.Props.Convergence

/-!
# The smoother as filter plus information from later data
-/

set_option linter.unusedSectionVars false

namespace KK

open Matrix

section algebra

variable {n : ℕ}

/-- `1 + W Q` is invertible for positive semidefinite `W`, `Q`. -/
theorem one_add_mul_det {W Q : Matrix (Fin n) (Fin n) ℝ} (hW : W.PosSemidef) (hQ : Q.PosSemidef) : (1 + W * Q).det ≠ 0 := by
  intro h0
  obtain ⟨v, hv, h⟩ := Matrix.exists_mulVec_eq_zero_iff.2 h0
  rw [add_mulVec, one_mulVec, ← mulVec_mulVec] at h
  have e : v = -(W *ᵥ (Q *ᵥ v)) := eq_neg_of_add_eq_zero_left h
  have h1 := hQ.dotProduct_mulVec_nonneg v
  have h2 := hW.dotProduct_mulVec_nonneg (Q *ᵥ v)
  rw [star_trivial] at h1 h2
  have h3 : v ⬝ᵥ Q *ᵥ v = -((Q *ᵥ v) ⬝ᵥ W *ᵥ (Q *ᵥ v)) := by
    rw [dotProduct_comm v, ← dotProduct_neg, ← e]
  have h4 : v ⬝ᵥ Q *ᵥ v = 0 := by linarith
  have h5 : Q *ᵥ v = 0 := by
    have := (hQ.dotProduct_mulVec_zero_iff v).1 (by rw [star_trivial]; exact h4)
    exact this
  rw [h5, mulVec_zero, neg_zero] at e
  exact hv e

/-- `(1 + W Q)⁻¹ W` -/
noncomputable def damp (W Q : Matrix (Fin n) (Fin n) ℝ) : Matrix (Fin n) (Fin n) ℝ := (1 + W * Q)⁻¹ * W

theorem damp_eq {W Q : Matrix (Fin n) (Fin n) ℝ} (hW : W.PosSemidef) (hQ : Q.PosSemidef) :
    damp W Q + W * Q * damp W Q = W := by
  have h := mul_nonsing_inv _ (isUnit_iff_ne_zero.2 (one_add_mul_det hW hQ))
  have : (1 + W * Q) * damp W Q = W := by rw [damp, ← Matrix.mul_assoc, h, Matrix.one_mul]
  rwa [Matrix.add_mul, Matrix.one_mul] at this

theorem damp_eq' {W Q : Matrix (Fin n) (Fin n) ℝ} (hW : W.PosSemidef) (hQ : Q.PosSemidef) :
    damp W Q = W * (1 + Q * W)⁻¹ := by
  have h := mul_nonsing_inv _ (isUnit_iff_ne_zero.2 (one_add_mul_det hQ hW))
  have h' := nonsing_inv_mul _ (isUnit_iff_ne_zero.2 (one_add_mul_det hW hQ))
  have e : (1 + W * Q) * W = W * (1 + Q * W) := by
    rw [Matrix.add_mul, Matrix.mul_add, Matrix.one_mul, Matrix.mul_one, Matrix.mul_assoc]
  calc damp W Q = (1 + W * Q)⁻¹ * (W * (1 + Q * W)) * (1 + Q * W)⁻¹ := by
        rw [Matrix.mul_assoc, Matrix.mul_assoc, h, Matrix.mul_one, damp]
    _ = W * (1 + Q * W)⁻¹ := by rw [← e, ← Matrix.mul_assoc, h', Matrix.one_mul]

theorem damp_posSemidef {W Q : Matrix (Fin n) (Fin n) ℝ} (hW : W.PosSemidef) (hQ : Q.PosSemidef) :
    (damp W Q).PosSemidef := by
  have hWs := IsHermitian.symm' hW.1
  have hQs := IsHermitian.symm' hQ.1
  have h := mul_nonsing_inv _ (isUnit_iff_ne_zero.2 (one_add_mul_det hQ hW))
  have hT : ((1 + W * Q)⁻¹)ᵀ = (1 + Q * W)⁻¹ := by
    rw [transpose_nonsing_inv, transpose_add, transpose_one, transpose_mul, hWs, hQs]
  have key := posSemidef_conj (hW.add (posSemidef_conj hQ W)) (1 + W * Q)⁻¹
  have e : (1 + W * Q)⁻¹ * (W + W * Q * Wᵀ) * ((1 + W * Q)⁻¹)ᵀ = damp W Q := by
    rw [hT, hWs, show W + W * Q * W = W * (1 + Q * W) by rw [Matrix.mul_add, Matrix.mul_one, Matrix.mul_assoc], damp]
    rw [Matrix.mul_assoc, Matrix.mul_assoc, h, Matrix.mul_one]
  rwa [e] at key

/-- One step of the smoother covariance: with `N = (1 + W Q)⁻¹ W`. -/
theorem smooth_cov_step {P A Q W : Matrix (Fin n) (Fin n) ℝ} (hP : P.PosDef) (hQ : Q.PosSemidef) (hW : W.PosSemidef)
    (hM : (priorCov A P Q).PosDef) :
    (P + P * Aᵀ * (priorCov A P Q)⁻¹ * (((priorCov A P Q)⁻¹ + W)⁻¹ - priorCov A P Q) * (P * Aᵀ * (priorCov A P Q)⁻¹)ᵀ) *
      (P⁻¹ + Aᵀ * damp W Q * A) = 1 ∧
    P * Aᵀ * (priorCov A P Q)⁻¹ * ((priorCov A P Q)⁻¹ + W)⁻¹ =
      (P + P * Aᵀ * (priorCov A P Q)⁻¹ * (((priorCov A P Q)⁻¹ + W)⁻¹ - priorCov A P Q) *
        (P * Aᵀ * (priorCov A P Q)⁻¹)ᵀ) * (Aᵀ * (1 + W * Q)⁻¹) := by
  have hPA : A * P * Aᵀ = priorCov A P Q - Q := by rw [priorCov, add_sub_cancel_right]
  have hPs := IsHermitian.symm' hP.1
  have hWs := IsHermitian.symm' hW.1
  have hMs := IsHermitian.symm' hM.1
  generalize priorCov A P Q = M at *
  have hMu := isUnit_iff_ne_zero.2 (posDef_det_ne hM)
  have hTu : IsUnit (M⁻¹ + W).det := isUnit_iff_ne_zero.2 (posDef_det_ne (hM.inv.add_posSemidef hW))
  have hN := damp_eq hW hQ
  have hN' := mul_nonsing_inv _ (isUnit_iff_ne_zero.2 (one_add_mul_det hW hQ))
  -- E = (1 + W M)⁻¹ = M⁻¹ T
  have hE := isUnit_iff_ne_zero.2 (one_add_mul_det hW hM.posSemidef)
  have hTE : (M⁻¹ + W) * M = 1 + W * M := by rw [Matrix.add_mul, nonsing_inv_mul _ hMu]
  have hT : M⁻¹ * (M⁻¹ + W)⁻¹ = (1 + W * M)⁻¹ := by rw [← hTE, Matrix.mul_inv_rev]
  have hTs : ((M⁻¹ + W)⁻¹)ᵀ = (M⁻¹ + W)⁻¹ := by
    rw [transpose_nonsing_inv, transpose_add, transpose_nonsing_inv, hMs, hWs]
  -- T - M = - M W T
  have hTM : (M⁻¹ + W)⁻¹ - M = -(M * W * (M⁻¹ + W)⁻¹) := by
    have h1 := mul_nonsing_inv _ hTu
    have h2 : M * ((M⁻¹ + W) * (M⁻¹ + W)⁻¹) = M := by rw [h1, Matrix.mul_one]
    rw [Matrix.add_mul, Matrix.mul_add, ← Matrix.mul_assoc M, mul_nonsing_inv _ hMu, Matrix.one_mul] at h2
    rw [← Matrix.mul_assoc] at h2
    calc (M⁻¹ + W)⁻¹ - M = (M⁻¹ + W)⁻¹ - ((M⁻¹ + W)⁻¹ + M * W * (M⁻¹ + W)⁻¹) := by rw [h2]
      _ = _ := by abel
  generalize hTd : (M⁻¹ + W)⁻¹ = T at *
  -- V = (1 + W M)⁻¹ W
  have hVdef : W * T * M⁻¹ = (1 + W * M)⁻¹ * W := by
    have : T * M⁻¹ = (1 + M * W)⁻¹ := by
      rw [← hTd, ← Matrix.mul_inv_rev, Matrix.mul_add, mul_nonsing_inv _ hMu]
    rw [Matrix.mul_assoc, this]
    exact (damp_eq' hW hM.posSemidef).symm
  have hS : P + P * Aᵀ * M⁻¹ * (T - M) * (P * Aᵀ * M⁻¹)ᵀ = P - P * Aᵀ * ((1 + W * M)⁻¹ * W) * A * P := by
    have hMis : (M⁻¹)ᵀ = M⁻¹ := by rw [transpose_nonsing_inv, hMs]
    rw [hTM, transpose_mul, transpose_mul, transpose_transpose, hPs, hMis, ← hVdef, Matrix.mul_neg, Matrix.neg_mul,
      ← sub_eq_add_neg]
    congr 1
    simp only [Matrix.mul_assoc]
    rw [← Matrix.mul_assoc M⁻¹ M, nonsing_inv_mul _ hMu, Matrix.one_mul]
  rw [hS]
  have hEm := nonsing_inv_mul _ hE
  generalize hEd : (1 + W * M)⁻¹ = E at *
  constructor
  · generalize damp W Q = N at *
    have hPi := mul_nonsing_inv _ (isUnit_iff_ne_zero.2 (posDef_det_ne hP))
    -- the bracket vanishes
    have hz : N - E * W - E * W * (M - Q) * N = 0 := by
      have h1 : E * ((1 + W * M) * N) = N := by rw [← Matrix.mul_assoc, hEm, Matrix.one_mul]
      have h2 : E * (N + W * Q * N) = E * W := by rw [hN]
      calc N - E * W - E * W * (M - Q) * N = E * ((1 + W * M) * N) - E * (N + W * Q * N) - E * W * (M - Q) * N := by rw [h1, h2]
        _ = 0 := by
          simp only [Matrix.mul_add, Matrix.add_mul, Matrix.mul_sub, Matrix.sub_mul, Matrix.one_mul, Matrix.mul_assoc]
          abel
    calc (P - P * Aᵀ * (E * W) * A * P) * (P⁻¹ + Aᵀ * N * A)
        = P * P⁻¹ + P * Aᵀ * N * A - P * Aᵀ * (E * W) * A * (P * P⁻¹) - P * Aᵀ * (E * W) * (A * P * Aᵀ) * N * A := by
          simp only [Matrix.mul_add, Matrix.sub_mul, Matrix.mul_assoc]
          abel
      _ = 1 + P * Aᵀ * (N - E * W - E * W * (M - Q) * N) * A := by
          rw [hPi, hPA, Matrix.mul_one]
          simp only [Matrix.mul_sub, Matrix.sub_mul, Matrix.mul_assoc]
          abel
      _ = 1 := by rw [hz]; simp
  · have hz : E = (1 - E * W * (M - Q)) * (1 + W * Q)⁻¹ := by
      have h1 : E * (1 + W * M) = 1 := hEm
      have h2 : 1 - E * W * (M - Q) = E * (1 + W * Q) := by
        calc 1 - E * W * (M - Q) = E * (1 + W * M) - E * W * (M - Q) := by rw [h1]
          _ = _ := by
            simp only [Matrix.mul_add, Matrix.mul_sub, Matrix.mul_assoc]
            abel
      rw [h2, Matrix.mul_assoc, hN', Matrix.mul_one]
    calc P * Aᵀ * M⁻¹ * T = P * Aᵀ * E := by rw [Matrix.mul_assoc, hT]
      _ = P * Aᵀ * ((1 - E * W * (A * P * Aᵀ)) * (1 + W * Q)⁻¹) := by rw [hPA, ← hz]
      _ = _ := by
        simp only [Matrix.mul_sub, Matrix.sub_mul, Matrix.one_mul, Matrix.mul_assoc]

/-! ### monotonicity -/

theorem damp_symm {W Q : Matrix (Fin n) (Fin n) ℝ} (hW : W.PosSemidef) (hQ : Q.PosSemidef) :
    (damp W Q)ᵀ = damp W Q := IsHermitian.symm' (damp_posSemidef hW hQ).1

theorem damp_joseph {W Q : Matrix (Fin n) (Fin n) ℝ} (hW : W.PosSemidef) (hQ : Q.PosSemidef)
    (G : Matrix (Fin n) (Fin n) ℝ) :
    (1 - G * Q) * W * (1 - G * Q)ᵀ + G * Q * Gᵀ =
      damp W Q + (G - damp W Q) * (Q + Q * W * Qᵀ) * (G - damp W Q)ᵀ := by
  have hWs := IsHermitian.symm' hW.1
  have hQs := IsHermitian.symm' hQ.1
  have hNs := damp_symm hW hQ
  have e1 := damp_eq hW hQ
  have e2 : damp W Q + damp W Q * Q * W = W := by
    have := congrArg transpose e1
    rwa [transpose_add, transpose_mul, transpose_mul, hNs, hWs, hQs, ← Matrix.mul_assoc] at this
  generalize damp W Q = N at *
  have c1 : N * (Q + Q * W * Q) = W * Q := by
    calc N * (Q + Q * W * Q) = (N + N * Q * W) * Q := by
          simp only [Matrix.mul_add, Matrix.add_mul, Matrix.mul_assoc]
      _ = W * Q := by rw [e2]
  have c2 : (Q + Q * W * Q) * N = Q * W := by
    calc (Q + Q * W * Q) * N = Q * (N + W * Q * N) := by
          simp only [Matrix.mul_add, Matrix.add_mul, Matrix.mul_assoc]
      _ = Q * W := by rw [e1]
  have c3 : N * (Q + Q * W * Q) * N = W - N := by
    rw [c1, eq_sub_iff_add_eq, add_comm]; exact e1
  rw [transpose_sub, transpose_sub, transpose_one, transpose_mul, hQs, hNs]
  have : (G - N) * (Q + Q * W * Q) * (Gᵀ - N) = G * (Q + Q * W * Q) * Gᵀ - G * ((Q + Q * W * Q) * N) -
      (N * (Q + Q * W * Q)) * Gᵀ + N * (Q + Q * W * Q) * N := by
    generalize Q + Q * W * Q = X
    simp only [Matrix.sub_mul, Matrix.mul_sub, Matrix.mul_assoc]
    abel
  rw [this, c1, c2, show W * Q * N = W - N by rw [eq_sub_iff_add_eq, add_comm]; exact e1]
  simp only [Matrix.sub_mul, Matrix.mul_sub, Matrix.mul_add, Matrix.add_mul, Matrix.mul_assoc, Matrix.one_mul, Matrix.mul_one]
  abel

theorem damp_mono_left {W W' Q : Matrix (Fin n) (Fin n) ℝ} (hW : W.PosSemidef) (hQ : Q.PosSemidef)
    (h : (W' - W).PosSemidef) : (damp W' Q - damp W Q).PosSemidef := by
  have hW' : W'.PosSemidef := by have := h.add hW; rwa [sub_add_cancel] at this
  have h1 := damp_joseph hW' hQ (damp W' Q)
  have h2 := damp_joseph hW hQ (damp W' Q)
  rw [sub_self, Matrix.zero_mul, Matrix.zero_mul, add_zero] at h1
  have h3 := posSemidef_conj h (1 - damp W' Q * Q)
  have h4 := posSemidef_conj (hQ.add (posSemidef_conj hW Q)) (damp W' Q - damp W Q)
  convert h3.add h4 using 1
  have h5 : (damp W' Q - damp W Q) * (Q + Q * W * Qᵀ) * (damp W' Q - damp W Q)ᵀ =
      (1 - damp W' Q * Q) * W * (1 - damp W' Q * Q)ᵀ + damp W' Q * Q * (damp W' Q)ᵀ - damp W Q := by
    rw [h2, add_sub_cancel_left]
  rw [h5]
  calc damp W' Q - damp W Q = (1 - damp W' Q * Q) * W' * (1 - damp W' Q * Q)ᵀ + damp W' Q * Q * (damp W' Q)ᵀ - damp W Q := by
        rw [h1]
    _ = _ := by
      rw [Matrix.mul_sub _ W' W, Matrix.sub_mul _ _ (1 - damp W' Q * Q)ᵀ]
      abel

theorem damp_dual {W Q : Matrix (Fin n) (Fin n) ℝ} (hW : W.PosSemidef) (hQ : Q.PosSemidef) :
    damp W Q = W - W * damp Q W * W := by
  have e1 := damp_eq hW hQ
  have e2 : damp Q W * W = Q * damp W Q := by
    rw [damp_eq' hQ hW, damp, Matrix.mul_assoc]
  rw [Matrix.mul_assoc, e2, ← Matrix.mul_assoc, eq_sub_iff_add_eq]
  exact e1

theorem damp_anti_right {W Q Q' : Matrix (Fin n) (Fin n) ℝ} (hW : W.PosSemidef) (hQ : Q.PosSemidef)
    (h : (Q' - Q).PosSemidef) : (damp W Q - damp W Q').PosSemidef := by
  have hQ' : Q'.PosSemidef := by have := h.add hQ; rwa [sub_add_cancel] at this
  have hWs := IsHermitian.symm' hW.1
  have := posSemidef_conj (damp_mono_left hQ hW h) W
  rw [hWs] at this
  rw [damp_dual hW hQ, damp_dual hW hQ']
  convert this using 1
  rw [Matrix.mul_sub, Matrix.sub_mul]
  abel

/-- `(1 + W Q)⁻¹ W` increases in `W` and decreases in `Q`. -/
theorem damp_mono {W W' Q Q' : Matrix (Fin n) (Fin n) ℝ} (hW : W.PosSemidef) (hQ' : Q'.PosSemidef)
    (h : (W' - W).PosSemidef) (h' : (Q - Q').PosSemidef) : (damp W' Q' - damp W Q).PosSemidef := by
  have := (damp_mono_left hW hQ' h).add (damp_anti_right hW hQ' h')
  rwa [sub_add_sub_cancel] at this

theorem postCov_eq_damp {k : ℕ} {H : Matrix (Fin k) (Fin n) ℝ} {P : Matrix (Fin n) (Fin n) ℝ} {R : Matrix (Fin k) (Fin k) ℝ}
    (hP : P.PosSemidef) (hR : R.PosDef) : postCov H P R = damp P (Hᵀ * R⁻¹ * H) := by
  have hI : (Hᵀ * R⁻¹ * H).PosSemidef := by
    have := posSemidef_conj hR.inv.posSemidef Hᵀ
    rwa [transpose_transpose] at this
  have h1 : postCov H P R * (1 + Hᵀ * R⁻¹ * H * P) = P := by
    have : postCov H P R = P - postCov H P R * (Hᵀ * R⁻¹) * H * P := by
      conv_lhs => rw [postCov, kGain_post hR hP]
      rw [Matrix.sub_mul, Matrix.one_mul]
    rw [Matrix.mul_add, Matrix.mul_one]
    conv_lhs => enter [1]; rw [this]
    simp only [Matrix.mul_assoc]
    abel
  have hu := mul_nonsing_inv _ (isUnit_iff_ne_zero.2 (one_add_mul_det hI hP))
  calc postCov H P R = postCov H P R * (1 + Hᵀ * R⁻¹ * H * P) * (1 + Hᵀ * R⁻¹ * H * P)⁻¹ := by
        rw [Matrix.mul_assoc, hu, Matrix.mul_one]
    _ = _ := by rw [h1, damp_eq' hP hI]

/-- The smoothed covariance in terms of the filtered one. -/
theorem inv_add_eq_damp {P Y : Matrix (Fin n) (Fin n) ℝ} (hP : P.PosDef) (hY : Y.PosSemidef) :
    (P⁻¹ + Y)⁻¹ = damp P Y := by
  have hPi := mul_nonsing_inv _ (isUnit_iff_ne_zero.2 (posDef_det_ne hP))
  have hPi' := nonsing_inv_mul _ (isUnit_iff_ne_zero.2 (posDef_det_ne hP))
  refine inv_eq_right_inv ?_
  have := damp_eq hP.posSemidef hY
  have h2 : P⁻¹ * (damp P Y + P * Y * damp P Y) = 1 := by rw [this, hPi']
  rw [Matrix.mul_add, Matrix.mul_assoc P, ← Matrix.mul_assoc P⁻¹ P, hPi', Matrix.one_mul] at h2
  rw [Matrix.add_mul]
  exact h2

end algebra

variable {n m : ℕ}

theorem Info.measure_psd {s : LinStep n m} {i : Info n} (hR : s.R.PosDef) (hi : i.Y.PosSemidef) :
    (i.measure s).Y.PosSemidef := by
  have := posSemidef_conj hR.inv.posSemidef s.Hᵀ
  rw [transpose_transpose] at this
  exact hi.add this

theorem Info.pull_psd {s : LinStep n m} {i : Info n} (hQ : s.Q.PosSemidef) (hi : i.Y.PosSemidef) :
    (i.pull s).Y.PosSemidef := by
  have := posSemidef_conj (damp_posSemidef hi hQ) s.Aᵀ
  rw [transpose_transpose] at this
  exact this

theorem futureInfo_psd (ss : List (LinStep n m)) (hQ : ∀ s ∈ ss, s.Q.PosSemidef) (hR : ∀ s ∈ ss, s.R.PosDef) :
    (futureInfo ss).Y.PosSemidef := by
  induction ss with
  | nil => exact PosSemidef.zero
  | cons s ss ih =>
    exact Info.pull_psd (hQ s (by simp)) (Info.measure_psd (hR s (by simp))
      (ih (fun t ht => hQ t (by simp [ht])) fun t ht => hR t (by simp [ht])))

/-- What it means to combine a belief with further information. -/
def Combines (f q : Belief n) (i : Info n) : Prop :=
  q.P.PosDef ∧ q.P⁻¹ = f.P⁻¹ + i.Y ∧ q.P⁻¹ *ᵥ q.x = f.P⁻¹ *ᵥ f.x + i.y

theorem Combines.of_eq {f q : Belief n} {i : Info n} (hf : f.P.PosDef) (hi : i.Y.PosSemidef)
    (h1 : q.P * (f.P⁻¹ + i.Y) = 1) (h2 : q.x = f.x + q.P *ᵥ (i.y - i.Y *ᵥ f.x)) : Combines f q i := by
  have hinv : q.P⁻¹ = f.P⁻¹ + i.Y := inv_eq_right_inv h1
  have hd : q.P.det ≠ 0 := by
    intro h0
    have := congrArg det h1
    rw [det_mul, h0, zero_mul, det_one] at this
    exact zero_ne_one this
  have hpd : (q.P⁻¹).PosDef := by rw [hinv]; exact hf.inv.add_posSemidef hi
  refine ⟨?_, hinv, ?_⟩
  · have := hpd.inv
    rwa [nonsing_inv_nonsing_inv _ (isUnit_iff_ne_zero.2 hd)] at this
  · rw [h2, mulVec_add, mulVec_mulVec, nonsing_inv_mul _ (isUnit_iff_ne_zero.2 hd), one_mulVec, hinv, add_mulVec]
    abel

theorem Combines.mean {f q : Belief n} {i : Info n} (h : Combines f q i) :
    q.x = f.x + q.P *ᵥ (i.y - i.Y *ᵥ f.x) := by
  obtain ⟨h0, h1, h2⟩ := h
  have hq := mul_nonsing_inv _ (isUnit_iff_ne_zero.2 (posDef_det_ne h0))
  have : q.P *ᵥ (q.P⁻¹ *ᵥ q.x) = q.P *ᵥ (f.P⁻¹ *ᵥ f.x + i.y) := by rw [h2]
  rw [mulVec_mulVec, hq, one_mulVec] at this
  have e : f.P⁻¹ = q.P⁻¹ - i.Y := by rw [h1, add_sub_cancel_right]
  rw [this, e, sub_mulVec, mulVec_add, mulVec_sub, mulVec_mulVec, hq, one_mulVec, mulVec_sub]
  abel

/-- The filtered belief after a step combines the prediction with the measurement. -/
theorem update_combines (s : LinStep n m) (p : Belief n) (hp : p.P.PosDef) (hR : s.R.PosDef) :
    Combines p (s.update p) ((⟨0, 0⟩ : Info n).measure s) := by
  have hS := posDef_det_ne (innovCov_posDef (H := s.H) hp.posSemidef hR)
  have hpost : (postCov s.H p.P s.R).PosDef := postCov_posDef hp hR
  refine Combines.of_eq hp (Info.measure_psd hR PosSemidef.zero) ?_ ?_
  · simp only [Info.measure, zero_add]
    exact postCov_mul_info (posDef_det_ne hp) (posDef_det_ne hR) hS
  · simp only [Info.measure, zero_add, LinStep.update, LinStep.gain]
    rw [kGain_post hR hp.posSemidef, ← mulVec_mulVec, mulVec_sub, mulVec_mulVec]

theorem Combines.trans {f g q : Belief n} {i j : Info n} (h1 : Combines f g i) (h2 : Combines g q j) :
    Combines f q ⟨i.Y + j.Y, i.y + j.y⟩ :=
  ⟨h2.1, by rw [h2.2.1, h1.2.1, add_assoc], by rw [h2.2.2, h1.2.2, add_assoc]⟩

/-- One backward step. -/
theorem rtsStep_combines (b : Belief n) (s : LinStep n m) (q : Belief n) (i : Info n) (hb : b.P.PosDef)
    (hQ : s.Q.PosSemidef) (hp : (s.predict b).P.PosDef) (hi : i.Y.PosSemidef) (h : Combines (s.predict b) q i) :
    Combines b (rtsStep b s q) (i.pull s) := by
  have hx := h.mean
  obtain ⟨h0, h1, h2⟩ := h
  have hq : q.P = ((s.predict b).P⁻¹ + i.Y)⁻¹ := by
    rw [← h1, nonsing_inv_nonsing_inv _ (isUnit_iff_ne_zero.2 (posDef_det_ne h0))]
  obtain ⟨k1, k2⟩ := smooth_cov_step (A := s.A) hb hQ hi hp
  refine Combines.of_eq hb (Info.pull_psd hQ hi) ?_ ?_
  · simp only [rtsStep]
    rw [hq]
    exact k1
  · simp only [rtsStep]
    rw [hx, add_sub_cancel_left, mulVec_mulVec, hq]
    simp only [LinStep.predict] at k2 ⊢
    rw [k2, ← mulVec_mulVec]
    simp only [Info.pull]
    congr 2
    rw [mulVec_add, ← mulVec_mulVec, ← mulVec_mulVec, ← mulVec_mulVec, ← mulVec_mulVec, ← mulVec_mulVec, ← mulVec_sub,
      ← mulVec_sub, sub_sub, add_comm (i.Y *ᵥ s.c)]

/-- Smoothed beliefs are filtered beliefs combined with the information of the later steps. -/
theorem rts_combines (b : Belief n) (ss : List (LinStep n m)) (hb : b.P.PosDef) (hs : ∀ s ∈ ss, PdStep s) :
    ∃ q qs, rts b ss = q :: qs ∧ Combines b q (futureInfo ss) ∧
      ∀ k f r, (filtered b ss)[k]? = some f → qs[k]? = some r → Combines f r (futureInfo (ss.drop (k + 1))) := by
  induction ss generalizing b with
  | nil =>
    refine ⟨b, [], rfl, ⟨hb, by simp [futureInfo], by simp [futureInfo]⟩, by simp [filtered]⟩
  | cons s ss ih =>
    have hs0 := hs s (by simp)
    have hn := hs0.next hb
    obtain ⟨q, qs, h1, h2, h3⟩ := ih (s.next b) hn fun t ht => hs t (by simp [ht])
    have hp := hs0.prior hb
    have hW := futureInfo_psd ss (fun t ht => (hs t (by simp [ht])).1) fun t ht => (hs t (by simp [ht])).2.1
    refine ⟨rtsStep b s q, q :: qs, by rw [rts, h1], ?_, ?_⟩
    · refine rtsStep_combines b s q _ hb hs0.1 hp (Info.measure_psd hs0.2.1 hW) ?_
      have := (update_combines s (s.predict b) hp hs0.2.1).trans h2
      simp only [Info.measure, zero_add] at this ⊢
      rw [add_comm (s.Hᵀ * s.R⁻¹ * s.H), add_comm ((s.Hᵀ * s.R⁻¹) *ᵥ s.z)] at this
      exact this
    · rintro (_ | k) f r hf hr
      · simp only [filtered, List.getElem?_cons_zero, Option.some.injEq] at hf hr
        subst hf hr
        exact h2
      · simp only [filtered, List.getElem?_cons_succ] at hf hr
        exact h3 k f r hf hr

end KK
