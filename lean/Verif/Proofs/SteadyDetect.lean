import Verif.Proofs.Detectable
import Mathlib.Algebra.Order.Chebyshev

/-!
# The covariance recursion of a detectable and stabilizable model
-/

set_option linter.unusedSectionVars false

namespace KK

open Matrix Filter Topology
open scoped Matrix.Norms.Elementwise

variable {n m : ℕ} {A Q : Matrix (Fin n) (Fin n) ℝ} {H : Matrix (Fin m) (Fin n) ℝ} {R : Matrix (Fin m) (Fin m) ℝ}

theorem form_le_norm (X : Matrix (Fin n) (Fin n) ℝ) (v : Fin n → ℝ) : |v ⬝ᵥ (X *ᵥ v)| ≤ n * ‖X‖ * (v ⬝ᵥ v) := by
  have h1 : |v ⬝ᵥ (X *ᵥ v)| ≤ ∑ i, ∑ j, ‖X‖ * (|v i| * |v j|) := by
    rw [dotProduct]
    refine (Finset.abs_sum_le_sum_abs _ _).trans (Finset.sum_le_sum fun i _ => ?_)
    rw [abs_mul, mulVec, dotProduct]
    refine (mul_le_mul_of_nonneg_left (Finset.abs_sum_le_sum_abs _ _) (abs_nonneg _)).trans ?_
    rw [Finset.mul_sum]
    refine Finset.sum_le_sum fun j _ => ?_
    rw [abs_mul]
    have := mul_le_mul_of_nonneg_right (entry_le_norm X i j) (show 0 ≤ |v i| * |v j| by positivity)
    calc _ = |X i j| * (|v i| * |v j|) := by ring
      _ ≤ _ := this
  have h2 : ∑ i, ∑ j, ‖X‖ * (|v i| * |v j|) = ‖X‖ * (∑ i, |v i|) ^ 2 := by
    rw [sq, Finset.sum_mul_sum, Finset.mul_sum]
    exact Finset.sum_congr rfl fun i _ => by rw [Finset.mul_sum]
  have h3 : (∑ i, |v i|) ^ 2 ≤ n * (v ⬝ᵥ v) := by
    have := sq_sum_le_card_mul_sum_sq (s := Finset.univ) (f := fun i => |v i|)
    simp only [Finset.card_univ, Fintype.card_fin, sq_abs] at this
    rw [dotProduct]
    simpa only [sq] using this
  rw [h2] at h1
  refine h1.trans ?_
  have := mul_le_mul_of_nonneg_left h3 (norm_nonneg X)
  linarith

/-- A symmetric matrix is at most its norm times the dimension times the identity. -/
theorem norm_sub_psd {X : Matrix (Fin n) (Fin n) ℝ} (hX : Xᵀ = X) {c : ℝ} (h : n * ‖X‖ ≤ c) :
    (c • (1 : Matrix (Fin n) (Fin n) ℝ) - X).PosSemidef := by
  refine Matrix.posSemidef_iff_dotProduct_mulVec.2 ⟨?_, fun v => ?_⟩
  · refine isHermitian_of_symm ?_
    rw [transpose_sub, transpose_smul, transpose_one, hX]
  · rw [star_trivial, sub_mulVec, dotProduct_sub, smul_mulVec, one_mulVec, dotProduct_smul, smul_eq_mul]
    have h1 := (le_abs_self _).trans (form_le_norm X v)
    have h2 : 0 ≤ v ⬝ᵥ v := by rw [dotProduct]; exact Finset.sum_nonneg fun i _ => mul_self_nonneg _
    have := mul_le_mul_of_nonneg_right h h2
    linarith

/-- The optimal one-step predictor is at least as good as any other. -/
theorem pred_step (hR : R.PosDef) {M : Matrix (Fin n) (Fin n) ℝ} (hM : M.PosSemidef) (L : Matrix (Fin n) (Fin m) ℝ) :
    ((A - L * H) * M * (A - L * H)ᵀ + L * R * Lᵀ - A * postCov H M R * Aᵀ).PosSemidef := by
  have hS := innovCov_posDef (H := H) hM hR
  have hMs := IsHermitian.symm' hM.1
  have hRs := IsHermitian.symm' hR.1
  have h1 := kGain_mul_innov (posDef_det_ne hS)
  have h2 := innov_mul_kGainT hMs hRs (posDef_det_ne hS)
  have h3 := postCov_eq_sub hMs hRs (posDef_det_ne hS)
  have := posSemidef_conj hS.posSemidef (L - A * kGain H M R)
  convert this using 1
  rw [h3]
  generalize kGain H M R = K at *
  have e1 : M * Hᵀ = K * innovCov H M R := h1.symm
  have e2 : H * M = innovCov H M R * Kᵀ := h2.symm
  have e3 : L * R * Lᵀ = L * innovCov H M R * Lᵀ - L * (H * M) * Hᵀ * Lᵀ := by
    rw [innovCov]; simp only [Matrix.mul_add, Matrix.add_mul, Matrix.mul_assoc]; abel
  have e4 : (A - L * H) * M * (A - L * H)ᵀ =
      A * M * Aᵀ - A * (M * Hᵀ) * Lᵀ - L * (H * M) * Aᵀ + L * (H * M) * Hᵀ * Lᵀ := by
    simp only [transpose_sub, transpose_mul, Matrix.mul_sub, Matrix.sub_mul, Matrix.mul_assoc]; abel
  rw [e3, e4, e1, e2]
  simp only [transpose_sub, transpose_mul, Matrix.mul_sub, Matrix.sub_mul, Matrix.mul_assoc]
  abel

/-! ### bounded -/

theorem iter_bound_detectable (hQ : Q.PosSemidef) (hR : R.PosDef) (hd : Detectable A H) :
    ∃ c : ℝ, 0 ≤ c ∧ ∀ P : Matrix (Fin n) (Fin n) ℝ, P.PosSemidef → ∀ k,
      ((c * (1 + ‖P‖)) • (1 : Matrix (Fin n) (Fin n) ℝ) - (ric A H Q R)^[k] P).PosSemidef := by
  obtain ⟨L, hF⟩ := hd
  obtain ⟨C, ρ, hC, h0, h1, hb⟩ := hF.decay
  have hρ : 0 < (1 - ρ)⁻¹ := inv_pos.2 (by linarith)
  refine ⟨n + n * (n ^ 2 * C ^ 2 * (‖L * R * Lᵀ + Q‖ + (n * ‖A‖) ^ 2) * (1 - ρ)⁻¹), by positivity, fun P hP k => ?_⟩
  set F := A - L * H with hFd
  set W := L * R * Lᵀ + Q + A * P * Aᵀ with hW
  have hAP := posSemidef_conj hP A
  have hWp : W.PosSemidef := ((posSemidef_conj hR.posSemidef L).add hQ).add hAP
  -- the recursion with the fixed gain
  let X : ℕ → Matrix (Fin n) (Fin n) ℝ := fun k => ∑ i ∈ Finset.range k, F ^ i * W * (F ^ i)ᵀ
  have hX1 : ∀ k, X (k + 1) = F * X k * Fᵀ + W := by
    intro k
    show ∑ i ∈ Finset.range (k + 1), _ = _
    rw [Finset.sum_range_succ', Matrix.mul_sum, Finset.sum_mul]
    congr 1
    · refine Finset.sum_congr rfl fun i _ => ?_
      rw [pow_succ', transpose_mul]; simp only [Matrix.mul_assoc]
    · simp
  have hXp : ∀ k, (X k).PosSemidef := by
    intro k
    induction k with
    | zero => simpa [X] using (Matrix.PosSemidef.zero (n := Fin n) (R := ℝ))
    | succ k ih => rw [hX1]; exact (posSemidef_conj ih F).add hWp
  have hle : ∀ k, (X (k + 1) - priorCov A ((ric A H Q R)^[k] P) Q).PosSemidef := by
    intro k
    induction k with
    | zero =>
      rw [hX1]
      have e : X 0 = 0 := by simp [X]
      have : F * X 0 * Fᵀ + W - priorCov A ((ric A H Q R)^[0] P) Q = L * R * Lᵀ := by
        rw [e, hW, Function.iterate_zero_apply, priorCov, Matrix.mul_zero, Matrix.zero_mul, zero_add]
        abel
      rw [this]
      exact posSemidef_conj hR.posSemidef L
    | succ k ih =>
      have hp := priorCov_posSemidef (A := A) (iter_psd (A := A) (H := H) hQ hR hP k) hQ
      have e1 := pred_step (A := A) (H := H) hR hp L
      have e2 := posSemidef_conj ih F
      have := (e2.add e1).add hAP
      convert this using 1
      rw [hX1, Function.iterate_succ_apply', hW, ← hFd]
      generalize (ric A H Q R)^[k] P = P'
      show F * X (k + 1) * Fᵀ + (L * R * Lᵀ + Q + A * P * Aᵀ) - priorCov A (postCov H (priorCov A P' Q) R) Q = _
      rw [priorCov.eq_def A (postCov _ _ _)]
      simp only [Matrix.mul_sub, Matrix.sub_mul]
      abel
  have hXb : ∀ k, ‖X k‖ ≤ n ^ 2 * C ^ 2 * ‖W‖ * (1 - ρ)⁻¹ := by
    intro k
    have e1 : ∀ i, ‖F ^ i * W * (F ^ i)ᵀ‖ ≤ n ^ 2 * C ^ 2 * ‖W‖ * ρ ^ i := by
      intro i
      refine (conj_norm_le _ _).trans ?_
      have e2 := hb i
      have e3 : ρ ^ i ≤ 1 := pow_le_one₀ h0.le h1.le
      have e4 : 0 ≤ ρ ^ i := by positivity
      have e5 : (n * ‖F ^ i‖) ^ 2 ≤ n ^ 2 * C ^ 2 * ρ ^ i := by
        have : ‖F ^ i‖ ^ 2 ≤ (C * ρ ^ i) ^ 2 := pow_le_pow_left₀ (norm_nonneg _) e2 2
        have e6 : (C * ρ ^ i) ^ 2 ≤ C ^ 2 * ρ ^ i := by
          have : ρ ^ i * ρ ^ i ≤ ρ ^ i := mul_le_of_le_one_right e4 e3
          have := mul_le_mul_of_nonneg_left this (sq_nonneg C)
          nlinarith
        have := mul_le_mul_of_nonneg_left (this.trans e6) (show (0 : ℝ) ≤ (n : ℝ) ^ 2 by positivity)
        rw [mul_pow]; linarith
      have := mul_le_mul_of_nonneg_right e5 (norm_nonneg W)
      linarith
    refine (norm_sum_le _ _).trans ((Finset.sum_le_sum fun i _ => e1 i).trans ?_)
    rw [← Finset.mul_sum]
    refine mul_le_mul_of_nonneg_left ?_ (by positivity)
    have hs := (summable_geometric_of_lt_one h0.le h1)
    have := hs.sum_le_tsum (Finset.range k) (fun i _ => by positivity)
    rwa [tsum_geometric_of_lt_one h0.le h1] at this
  have hWn : ‖W‖ ≤ ‖L * R * Lᵀ + Q‖ + (n * ‖A‖) ^ 2 * ‖P‖ := (norm_add_le _ _).trans (add_le_add_right (conj_norm_le A P) _)
  have hWP : ‖W‖ ≤ (‖L * R * Lᵀ + Q‖ + (n * ‖A‖) ^ 2) * (1 + ‖P‖) := by
    have e1 := norm_nonneg (L * R * Lᵀ + Q)
    have e2 := norm_nonneg P
    have e3 : 0 ≤ (n * ‖A‖) ^ 2 := by positivity
    nlinarith [mul_nonneg e1 e2]
  have hXn : ∀ j, n * ‖X j‖ ≤ n * (n ^ 2 * C ^ 2 * (‖L * R * Lᵀ + Q‖ + (n * ‖A‖) ^ 2) * (1 - ρ)⁻¹) * (1 + ‖P‖) := by
    intro j
    have e1 : n ^ 2 * C ^ 2 * ‖W‖ * (1 - ρ)⁻¹ ≤
        n ^ 2 * C ^ 2 * ((‖L * R * Lᵀ + Q‖ + (n * ‖A‖) ^ 2) * (1 + ‖P‖)) * (1 - ρ)⁻¹ :=
      mul_le_mul_of_nonneg_right (mul_le_mul_of_nonneg_left hWP (by positivity)) hρ.le
    have := mul_le_mul_of_nonneg_left ((hXb j).trans e1) (Nat.cast_nonneg (α := ℝ) n)
    linarith
  have hn0 : 0 ≤ n * (1 + ‖P‖) := by positivity
  cases k with
  | zero =>
    refine norm_sub_psd (IsHermitian.symm' hP.1) ?_
    have e1 := (mul_nonneg (Nat.cast_nonneg (α := ℝ) n) (norm_nonneg (X 0))).trans (hXn 0)
    have e2 : n * ‖P‖ ≤ n * (1 + ‖P‖) := mul_le_mul_of_nonneg_left (by linarith) (Nat.cast_nonneg n)
    rw [add_mul]
    linarith
  | succ k =>
    have hp := priorCov_posSemidef (A := A) (iter_psd (A := A) (H := H) hQ hR hP k) hQ
    have e1 := postCov_le (H := H) hp hR.posSemidef (posDef_det_ne (innovCov_posDef hp hR))
    rw [Function.iterate_succ_apply']
    refine psd_trans e1 (psd_trans (hle k) (norm_sub_psd (IsHermitian.symm' (hXp _).1) ?_))
    rw [add_mul]
    linarith [hXn (k + 1)]

theorem iter_bounded_of_detectable (hQ : Q.PosSemidef) (hR : R.PosDef) (hd : Detectable A H) :
    ∃ G : Matrix (Fin n) (Fin n) ℝ, ∀ k, (G - (ric A H Q R)^[k] 0).PosSemidef := by
  obtain ⟨c, -, h⟩ := iter_bound_detectable (A := A) (H := H) hQ hR hd
  exact ⟨_, fun k => h 0 Matrix.PosSemidef.zero k⟩

/-! ### the steady state -/

theorem exists_limit (hQ : Q.PosSemidef) (hR : R.PosDef) (hd : Detectable A H) :
    ∃ F : Matrix (Fin n) (Fin n) ℝ, F.PosSemidef ∧ ric A H Q R F = F ∧ Tendsto (fun k => (ric A H Q R)^[k] 0) atTop (𝓝 F) := by
  obtain ⟨G, hG⟩ := iter_bounded_of_detectable (A := A) (H := H) hQ hR hd
  have hz := fun k => iter_psd (A := A) (H := H) hQ hR (Matrix.PosSemidef.zero (n := Fin n)) k
  have hu := iter_up (A := A) (H := H) hQ hR Matrix.PosSemidef.zero
    (by rw [sub_zero]; exact ric_psd hQ hR Matrix.PosSemidef.zero)
  obtain ⟨F, hF, hT⟩ := psd_tendsto_up hz hu hG
  exact ⟨F, hF, iter_limit hQ hR hF hT, hT⟩

/-- The closed loop: the error of the estimate in the steady state. -/
noncomputable def closedLoop (A Q : Matrix (Fin n) (Fin n) ℝ) (H : Matrix (Fin m) (Fin n) ℝ) (R : Matrix (Fin m) (Fin m) ℝ)
    (F : Matrix (Fin n) (Fin n) ℝ) : Matrix (Fin n) (Fin n) ℝ :=
  (1 - kGain H (priorCov A F Q) R * H) * A

theorem closedLoop_stable (hQ : Q.PosSemidef) (hR : R.PosDef) (hs : Stabilizable A Q) {F : Matrix (Fin n) (Fin n) ℝ}
    (hF : F.PosSemidef) (hfix : ric A H Q R F = F) : Stable (closedLoop A Q H R F) := by
  obtain ⟨S, hT⟩ := hs
  have hp := priorCov_posSemidef (A := A) hF hQ
  have hQs := IsHermitian.symm' hQ.1
  set K := kGain H (priorCov A F Q) R with hK
  set Fc := closedLoop A Q H R F with hFc
  have hFcK : Fc = (1 - K * H) * A := rfl
  -- the steady state as its own image with the gain fixed
  have hj : F = Fc * F * Fcᵀ + ((1 - K * H) * Q * (1 - K * H)ᵀ + K * R * Kᵀ) := by
    have e := josephCov_eq (H := H) (R := R) K (IsHermitian.symm' hp.1) (IsHermitian.symm' hR.1)
      (posDef_det_ne (innovCov_posDef (H := H) hp hR))
    rw [← hK, sub_self] at e
    simp only [Matrix.zero_mul, add_zero] at e
    have e' : postCov H (priorCov A F Q) R = F := hfix
    rw [e'] at e
    rw [hFcK]
    calc F = josephCov K H (priorCov A F Q) R := e.symm
      _ = _ := by
        simp only [josephCov, priorCov, transpose_mul, Matrix.mul_add, Matrix.add_mul, Matrix.mul_assoc]
        abel
  suffices h : ∀ w : Fin n → ℝ, Tendsto (fun k => (Fcᵀ) ^ k *ᵥ w) atTop (𝓝 0) by
    have h1 : Stable Fcᵀ := by
      refine tendsto_pi_nhds.2 fun i => tendsto_pi_nhds.2 fun j => ?_
      have := (tendsto_pi_nhds.1 (h (Pi.single j 1))) i
      simpa [mulVec_single_one] using this
    simpa using h1.transpose
  intro w
  set y : ℕ → Fin n → ℝ := fun k => (Fcᵀ) ^ k *ᵥ w with hy
  have hy1 : ∀ k, y (k + 1) = Fcᵀ *ᵥ y k := fun k => by simp only [hy]; rw [pow_succ', mulVec_mulVec]
  let u : ℕ → Fin n → ℝ := fun k => (1 - K * H)ᵀ *ᵥ y k
  have hyu : ∀ k, y (k + 1) = Aᵀ *ᵥ u k := fun k => by
    rw [hy1, hFcK, transpose_mul, ← mulVec_mulVec]
  have form : ∀ (B M : Matrix (Fin n) (Fin n) ℝ) (v : Fin n → ℝ), v ⬝ᵥ ((B * M * Bᵀ) *ᵥ v) = (Bᵀ *ᵥ v) ⬝ᵥ (M *ᵥ (Bᵀ *ᵥ v)) := by
    intro B M v
    rw [← mulVec_mulVec, ← mulVec_mulVec, dotProduct_mulVec v B, ← mulVec_transpose]
  have form' : ∀ (B : Matrix (Fin n) (Fin m) ℝ) (M : Matrix (Fin m) (Fin m) ℝ) (v : Fin n → ℝ),
      v ⬝ᵥ ((B * M * Bᵀ) *ᵥ v) = (Bᵀ *ᵥ v) ⬝ᵥ (M *ᵥ (Bᵀ *ᵥ v)) := by
    intro B M v
    rw [← mulVec_mulVec, ← mulVec_mulVec, dotProduct_mulVec v B, ← mulVec_transpose]
  -- the energy
  have hq : ∀ k, y k ⬝ᵥ (F *ᵥ y k) =
      y (k + 1) ⬝ᵥ (F *ᵥ y (k + 1)) + (u k ⬝ᵥ (Q *ᵥ u k) + (Kᵀ *ᵥ y k) ⬝ᵥ (R *ᵥ (Kᵀ *ᵥ y k))) := by
    intro k
    rw [hy1, ← form, ← form', ← form, ← dotProduct_add, ← dotProduct_add, ← add_mulVec, ← add_mulVec, ← hj]
  have nonneg : ∀ {k : ℕ} {M : Matrix (Fin k) (Fin k) ℝ}, M.PosSemidef → ∀ v, 0 ≤ v ⬝ᵥ (M *ᵥ v) := fun hM v => by
    have := hM.dotProduct_mulVec_nonneg v
    rwa [star_trivial] at this
  have hl : ∃ l, Tendsto (fun k => y k ⬝ᵥ (F *ᵥ y k)) atTop (𝓝 l) := by
    refine ⟨_, tendsto_atTop_ciInf (antitone_nat_of_succ_le fun k => ?_) ⟨0, ?_⟩⟩
    · have h1 := nonneg hQ (u k)
      have h2 := nonneg hR.posSemidef (Kᵀ *ᵥ y k)
      have := hq k
      linarith
    · rintro _ ⟨k, rfl⟩
      exact nonneg hF _
  obtain ⟨l, hl⟩ := hl
  have hdiff : Tendsto (fun k => y k ⬝ᵥ (F *ᵥ y k) - y (k + 1) ⬝ᵥ (F *ᵥ y (k + 1))) atTop (𝓝 0) := by
    have := hl.sub ((tendsto_add_atTop_iff_nat 1).2 hl)
    rwa [sub_self] at this
  have hQu : Tendsto (fun k => Q *ᵥ u k) atTop (𝓝 0) := by
    refine psd_form_dies hQ (squeeze_zero (fun k => nonneg hQ _) (fun k => ?_) hdiff)
    have h2 := nonneg hR.posSemidef (Kᵀ *ᵥ y k)
    have := hq k
    linarith
  have hKy : Tendsto (fun k => Kᵀ *ᵥ y k) atTop (𝓝 0) := by
    have h1 : Tendsto (fun k => R *ᵥ (Kᵀ *ᵥ y k)) atTop (𝓝 0) := by
      refine psd_form_dies hR.posSemidef (squeeze_zero (fun k => nonneg hR.posSemidef _) (fun k => ?_) hdiff)
      have h2 := nonneg hQ (u k)
      have := hq k
      linarith
    have h2 : Continuous fun v : Fin m → ℝ => R⁻¹ *ᵥ v := by fun_prop
    have h3 := (h2.tendsto 0).comp h1
    rw [mulVec_zero] at h3
    refine h3.congr fun k => ?_
    show R⁻¹ *ᵥ (R *ᵥ _) = _
    rw [mulVec_mulVec, Matrix.nonsing_inv_mul _ (posDef_isUnit_det hR), one_mulVec]
  have hHKy : Tendsto (fun k => Hᵀ *ᵥ (Kᵀ *ᵥ y k)) atTop (𝓝 0) := by
    have h2 : Continuous fun v : Fin m → ℝ => Hᵀ *ᵥ v := by fun_prop
    have h3 := (h2.tendsto 0).comp hKy
    rwa [mulVec_zero] at h3
  have huy : ∀ k, u k = y k - Hᵀ *ᵥ (Kᵀ *ᵥ y k) := by
    intro k
    show (1 - K * H)ᵀ *ᵥ y k = _
    rw [transpose_sub, transpose_one, transpose_mul, sub_mulVec, one_mulVec, ← mulVec_mulVec]
  have hu : Tendsto u atTop (𝓝 0) := by
    refine input_dies hT.transpose (d := fun k => Sᵀ *ᵥ (Q *ᵥ u k) - Hᵀ *ᵥ (Kᵀ *ᵥ y (k + 1))) (fun k => ?_) ?_
    · have e : (A - Q * S)ᵀ *ᵥ u k = Aᵀ *ᵥ u k - Sᵀ *ᵥ (Q *ᵥ u k) := by
        rw [transpose_sub, transpose_mul, hQs, sub_mulVec, ← mulVec_mulVec]
      rw [huy (k + 1), hyu k, e]
      abel
    · have h2 : Continuous fun v : Fin n → ℝ => Sᵀ *ᵥ v := by fun_prop
      have h3 := (h2.tendsto 0).comp hQu
      rw [mulVec_zero] at h3
      have := h3.sub ((tendsto_add_atTop_iff_nat 1).2 hHKy)
      rwa [sub_zero] at this
  have := hu.add hHKy
  rw [add_zero] at this
  refine this.congr fun k => ?_
  rw [huy, sub_add_cancel]

end KK
