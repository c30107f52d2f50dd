import Verif.Props.Textbook

/-!
# C26-C31: covariances returned by `filter` and `update` in exact arithmetic
-/

set_option linter.unusedSectionVars false

namespace KK

open Matrix

variable [Platform] {n m : ℕ}

theorem zerosMat_is (n : ℕ) : MatIs (0 : Matrix (Fin n) (Fin n) ℝ) (Arr.zerosMat n) := ⟨_, rfl⟩

/-! ## C26 -/

/-- C26: PSD initial covariance and process noise, PD measurement noise: `filter` returns, and every
returned covariance row is a symmetric positive semidefinite matrix. -/
theorem C26_psd (kf : KalmanFilter Fl) (Z : NDArray Fl) (U : Option (NDArray Fl)) (b : Belief n)
    (ss : List (LinStep n m)) (h : Represents kf Z U b ss) (hP : b.P.PosSemidef)
    (hQ : ∀ s ∈ ss, s.Q.PosSemidef) (hR : ∀ s ∈ ss, s.R.PosDef) :
    ∃ xs Ps kf', (KalmanFilter.filter Z U).run kf = (.ok (xs, Ps), kf') ∧
      ∀ a ∈ Ps, ∃ M : Matrix (Fin n) (Fin n) ℝ, MatIs M a ∧ Mᵀ = M ∧ M.PosSemidef := by
  have hs := solvable_psd hP hQ hR
  refine ⟨_, _, _, C24_filter_textbook kf Z U b ss h hs, ?_⟩
  intro a ha
  simp only [List.mem_append, List.mem_map, List.mem_replicate] at ha
  rcases ha with ⟨q, hq, rfl⟩ | ⟨-, rfl⟩
  · have := filtered_forall (fun b => b.P.PosSemidef) b ss hP
      (fun s hs b hb => (psd_next hb (hQ s hs) (hR s hs)).1) q hq
    exact ⟨q.P, ⟨_, rfl⟩, IsHermitian.symm' this.1, this⟩
  · exact ⟨0, zerosMat_is n, by simp, Matrix.PosSemidef.zero⟩

/-! ## C27 -/

/-- C27: with PD initial covariance and measurement noise, PSD process noise, and at each step an invertible
transition or a PD process noise, all covariances of processed steps are positive definite. -/
theorem C27_pd (kf : KalmanFilter Fl) (Z : NDArray Fl) (U : Option (NDArray Fl)) (b : Belief n)
    (ss : List (LinStep n m)) (h : Represents kf Z U b ss) (hP : b.P.PosDef)
    (hQ : ∀ s ∈ ss, s.Q.PosSemidef) (hR : ∀ s ∈ ss, s.R.PosDef)
    (hA : ∀ s ∈ ss, s.A.det ≠ 0 ∨ s.Q.PosDef) :
    ∃ xs Ps kf', (KalmanFilter.filter Z U).run kf = (.ok (xs, Ps), kf') ∧
      ∀ k < ss.length, ∃ (a : Arr Fl) (M : Matrix (Fin n) (Fin n) ℝ), Ps[k]? = some a ∧ MatIs M a ∧
        M.PosDef := by
  have hs := solvable_psd hP.posSemidef hQ hR
  refine ⟨_, _, _, C24_filter_textbook kf Z U b ss h hs, ?_⟩
  intro k hk
  have hk' : k < (filtered b ss).length := by rwa [filtered_length]
  refine ⟨covRow (filtered b ss)[k], (filtered b ss)[k].P, ?_, ⟨_, rfl⟩, ?_⟩
  · rw [List.getElem?_append_left (by simpa using hk'), List.getElem?_map, List.getElem?_eq_getElem hk']
    rfl
  · refine filtered_forall (fun b => b.P.PosDef) b ss hP (fun s hs b hb => ?_) _ (List.getElem_mem hk')
    refine postCov_posDef ?_ (hR s hs)
    rcases hA s hs with h1 | h1
    · exact priorCov_posDef_A hb (hQ s hs) h1
    · exact priorCov_posDef_Q hb.posSemidef h1

-- C26, C27: the constant-velocity model on arbitrary data meets the hypotheses.
example (uz : List (ℝ × ℝ)) : Ex.cvBelief.P.PosDef ∧ (∀ s ∈ Ex.cvSteps uz, s.Q.PosSemidef) ∧
    (∀ s ∈ Ex.cvSteps uz, s.R.PosDef) ∧ (∀ s ∈ Ex.cvSteps uz, s.A.det ≠ 0 ∨ s.Q.PosDef) := by
  refine ⟨Ex.cv_posDef, ?_, ?_, ?_⟩ <;> intro s hs <;>
    simp only [Ex.cvSteps, List.mem_map] at hs <;> obtain ⟨p, -, rfl⟩ := hs
  · exact (Ex.cvStep_Q _ _).posSemidef
  · exact Ex.cvStep_R _ _
  · exact .inr (Ex.cvStep_Q _ _)

/-! ## C28-C31: one call of `update` -/

/-- A call of `update` on arrays holding `H`, `P`, `R`, `x`, `z` (vector state, or 1x1 state with one or a
scalar observation). -/
structure UpdateCall (kf : KalmanFilter Fl) (H : Matrix (Fin m) (Fin n) ℝ) (R : Matrix (Fin m) (Fin m) ℝ)
    (z : Fin m → ℝ) (x : Fin n → ℝ) (P : Matrix (Fin n) (Fin n) ℝ) (Hk Rk zk xk Pk : Arr Fl) : Prop where
  I : kf.I = Arr.identity n
  meas : MeasIs H R z Hk Rk zk
  state : StateIs x xk
  cov : MatIs P Pk
  col : VecIs x xk ∨ m = 1 ∨ zk.shape = []

theorem UpdateCall.run {kf : KalmanFilter Fl} {H : Matrix (Fin m) (Fin n) ℝ} {R : Matrix (Fin m) (Fin m) ℝ}
    {z : Fin m → ℝ} {x : Fin n → ℝ} {P : Matrix (Fin n) (Fin n) ℝ} {Hk Rk zk xk Pk : Arr Fl}
    (h : UpdateCall kf H R z x P Hk Rk zk xk Pk) (hdet : (innovCov H P R).det ≠ 0) :
    ∃ x' P', (KalmanFilter.update Hk xk Pk zk Rk).run kf =
        (.ok (x', P'), { kf with kalmanGains := kf.kalmanGains ++ [gainRow (kGain H P R)] }) ∧
      StateIs (x + kGain H P R *ᵥ (z - H *ᵥ x)) x' ∧ MatIs (postCov H P R) P' :=
  (C24_update kf H R z x P Hk Rk zk xk Pk h.I h.meas h.state h.cov h.col).1 hdet

/-- C28: for PSD prior and PD measurement noise `update` returns a covariance below the prior in the Loewner
order; every directional variance and the trace do not increase. -/
theorem C28_update_reduces (kf : KalmanFilter Fl) (H : Matrix (Fin m) (Fin n) ℝ) (R : Matrix (Fin m) (Fin m) ℝ)
    (z : Fin m → ℝ) (x : Fin n → ℝ) (P : Matrix (Fin n) (Fin n) ℝ) (Hk Rk zk xk Pk : Arr Fl)
    (h : UpdateCall kf H R z x P Hk Rk zk xk Pk) (hP : P.PosSemidef) (hR : R.PosDef) :
    ∃ x' P' kf', (KalmanFilter.update Hk xk Pk zk Rk).run kf = (.ok (x', P'), kf') ∧
      ∃ M : Matrix (Fin n) (Fin n) ℝ, MatIs M P' ∧ M.PosSemidef ∧ (P - M).PosSemidef ∧
        (∀ v : Fin n → ℝ, v ⬝ᵥ (M *ᵥ v) ≤ v ⬝ᵥ (P *ᵥ v)) ∧ (∀ i, M i i ≤ P i i) ∧ M.trace ≤ P.trace := by
  have hS := posDef_det_ne (innovCov_posDef (H := H) hP hR)
  obtain ⟨x', P', hr, -, hM⟩ := h.run hS
  have hle := postCov_le hP hR.posSemidef hS
  refine ⟨x', P', _, hr, postCov H P R, hM, postCov_posSemidef hP hR.posSemidef hS, hle, ?_, ?_, ?_⟩
  · intro v
    have := hle.dotProduct_mulVec_nonneg v
    rw [star_trivial, Matrix.sub_mulVec, dotProduct_sub] at this
    linarith
  · intro i
    have := hle.diag_nonneg (i := i)
    simp only [Matrix.sub_apply] at this
    linarith
  · have := hle.trace_nonneg
    rw [Matrix.trace_sub] at this
    linarith

/-- C29: symmetric prior and measurement noise, regular `S`: the returned covariance equals the Joseph form
and `P - K S K'`, for the gain `K` that the call records. -/
theorem C29_joseph (kf : KalmanFilter Fl) (H : Matrix (Fin m) (Fin n) ℝ) (R : Matrix (Fin m) (Fin m) ℝ)
    (z : Fin m → ℝ) (x : Fin n → ℝ) (P : Matrix (Fin n) (Fin n) ℝ) (Hk Rk zk xk Pk : Arr Fl)
    (h : UpdateCall kf H R z x P Hk Rk zk xk Pk) (hP : Pᵀ = P) (hR : Rᵀ = R)
    (hS : (H * P * Hᵀ + R).det ≠ 0) :
    ∃ x' P' kf', (KalmanFilter.update Hk xk Pk zk Rk).run kf = (.ok (x', P'), kf') ∧
      ∃ (K : Matrix (Fin n) (Fin m) ℝ) (M : Matrix (Fin n) (Fin n) ℝ),
        kf'.kalmanGains = kf.kalmanGains ++ [gainRow K] ∧ MatIs M P' ∧
        M = (1 - K * H) * P * (1 - K * H)ᵀ + K * R * Kᵀ ∧
        M = P - K * (H * P * Hᵀ + R) * Kᵀ := by
  obtain ⟨x', P', hr, -, hM⟩ := h.run hS
  exact ⟨x', P', _, hr, kGain H P R, postCov H P R, rfl, hM, postCov_eq_joseph hP hR hS,
    postCov_eq_sub hP hR hS⟩

/-- C30: any other gain `L` gives an error covariance exceeding the returned one by `(L-K) S (L-K)'`, which
is PSD; so `K` minimises every directional variance and the trace. -/
theorem C30_gain_optimal (kf : KalmanFilter Fl) (H : Matrix (Fin m) (Fin n) ℝ) (R : Matrix (Fin m) (Fin m) ℝ)
    (z : Fin m → ℝ) (x : Fin n → ℝ) (P : Matrix (Fin n) (Fin n) ℝ) (Hk Rk zk xk Pk : Arr Fl)
    (h : UpdateCall kf H R z x P Hk Rk zk xk Pk) (hP : P.PosSemidef) (hR : R.PosSemidef)
    (hS : (H * P * Hᵀ + R).det ≠ 0) :
    ∃ x' P' kf', (KalmanFilter.update Hk xk Pk zk Rk).run kf = (.ok (x', P'), kf') ∧
      ∃ (K : Matrix (Fin n) (Fin m) ℝ) (M : Matrix (Fin n) (Fin n) ℝ),
        kf'.kalmanGains = kf.kalmanGains ++ [gainRow K] ∧ MatIs M P' ∧
        ∀ L : Matrix (Fin n) (Fin m) ℝ,
          (1 - L * H) * P * (1 - L * H)ᵀ + L * R * Lᵀ = M + (L - K) * (H * P * Hᵀ + R) * (L - K)ᵀ ∧
          ((1 - L * H) * P * (1 - L * H)ᵀ + L * R * Lᵀ - M).PosSemidef ∧
          (∀ v : Fin n → ℝ, v ⬝ᵥ (M *ᵥ v) ≤ v ⬝ᵥ (((1 - L * H) * P * (1 - L * H)ᵀ + L * R * Lᵀ) *ᵥ v)) ∧
          M.trace ≤ ((1 - L * H) * P * (1 - L * H)ᵀ + L * R * Lᵀ).trace := by
  obtain ⟨x', P', hr, -, hM⟩ := h.run hS
  refine ⟨x', P', _, hr, kGain H P R, postCov H P R, rfl, hM, fun L => ?_⟩
  have hj := josephCov_eq L (IsHermitian.symm' hP.1) (IsHermitian.symm' hR.1) hS
  have hle : (josephCov L H P R - postCov H P R).PosSemidef := by
    rw [hj, add_sub_cancel_left]
    exact posSemidef_conj ((posSemidef_conj hP H).add hR) _
  refine ⟨hj, hle, fun v => ?_, ?_⟩
  · have := hle.dotProduct_mulVec_nonneg v
    rw [star_trivial, Matrix.sub_mulVec, dotProduct_sub] at this
    simp only [josephCov] at this
    linarith
  have := hle.trace_nonneg
  rw [Matrix.trace_sub] at this
  simp only [josephCov] at this
  linarith

/-- C31: PD prior and measurement noise: information form. -/
theorem C31_information (kf : KalmanFilter Fl) (H : Matrix (Fin m) (Fin n) ℝ) (R : Matrix (Fin m) (Fin m) ℝ)
    (z : Fin m → ℝ) (x : Fin n → ℝ) (P : Matrix (Fin n) (Fin n) ℝ) (Hk Rk zk xk Pk : Arr Fl)
    (h : UpdateCall kf H R z x P Hk Rk zk xk Pk) (hP : P.PosDef) (hR : R.PosDef) :
    ∃ x' P' kf', (KalmanFilter.update Hk xk Pk zk Rk).run kf = (.ok (x', P'), kf') ∧
      ∃ (y : Fin n → ℝ) (M : Matrix (Fin n) (Fin n) ℝ), StateIs y x' ∧ MatIs M P' ∧ M.PosDef ∧
        M⁻¹ = P⁻¹ + Hᵀ * R⁻¹ * H ∧ M⁻¹ *ᵥ y = P⁻¹ *ᵥ x + (Hᵀ * R⁻¹) *ᵥ z := by
  have hS := posDef_det_ne (innovCov_posDef (H := H) hP.posSemidef hR)
  have hPd := posDef_det_ne hP
  have hRd := posDef_det_ne hR
  obtain ⟨x', P', hr, hx, hM⟩ := h.run hS
  have hinv := postCov_inv (H := H) hPd hRd hS
  have hpd : (postCov H P R).PosDef := postCov_posDef hP hR
  refine ⟨x', P', _, hr, _, postCov H P R, hx, hM, hpd, hinv, ?_⟩
  have hK := kGain_eq_post (H := H) hPd hRd hS
  have hMM : (postCov H P R)⁻¹ * postCov H P R = 1 :=
    Matrix.nonsing_inv_mul _ (posDef_isUnit_det hpd)
  have h1 : (postCov H P R)⁻¹ * kGain H P R = Hᵀ * R⁻¹ := by
    rw [hK, ← Matrix.mul_assoc, ← Matrix.mul_assoc, hMM, Matrix.one_mul]
  rw [Matrix.mulVec_add, Matrix.mulVec_mulVec, h1, hinv, Matrix.add_mulVec, Matrix.mulVec_sub,
    Matrix.mulVec_mulVec]
  abel

-- C28-C31: hypotheses are met by the constant-velocity measurement, from any state and observation.
example (x0 x1 z : ℝ) : UpdateCall (Ex.encode Ex.cvBelief (Ex.cvSteps [])) (Ex.cvStep 0 z).H (Ex.cvStep 0 z).R
      (Ex.cvStep 0 z).z ![x0, x1] Ex.cvBelief.P (.mat .float64 (finM (Ex.cvStep 0 z).H))
      (.mat .float64 (finM (Ex.cvStep 0 z).R)) (.vec .float64 (finV (Ex.cvStep 0 z).z))
      (.vec .float64 (finV ![x0, x1])) (.mat .float64 (finM Ex.cvBelief.P)) ∧
    Ex.cvBelief.P.PosDef ∧ (Ex.cvStep 0 z).R.PosDef :=
  ⟨⟨rfl, ⟨⟨_, rfl⟩, .inl ⟨_, rfl⟩, .inl ⟨_, rfl⟩⟩, .inl ⟨_, rfl⟩, ⟨_, rfl⟩, .inl ⟨_, rfl⟩⟩, Ex.cv_posDef,
    Ex.cvStep_R _ _⟩

end KK
