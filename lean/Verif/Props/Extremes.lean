import Verif.Proofs.Transfer
import Mathlib.Data.Matrix.ColumnRowPartitioned
import Mathlib.LinearAlgebra.Matrix.SchurComplement

/-!
# C34, C38, C39: stacked and successive measurements, perfect and useless measurements, certain priors
-/

set_option linter.unusedSectionVars false

namespace KK

open Matrix

variable [Platform] {n m : ℕ}

/-! ## C38 -/

/-- C38: without measurement noise (`R = 0`, regular `S`) `update` returns a mean that reproduces the
observation exactly, `H x' = z`, with no remaining uncertainty in the measured directions, `H P' = 0`. -/
theorem C38_perfect_measurement (kf : KalmanFilter Fl) (H : Matrix (Fin m) (Fin n) ℝ)
    (z : Fin m → ℝ) (x : Fin n → ℝ) (P : Matrix (Fin n) (Fin n) ℝ) (Hk Rk zk xk Pk : Arr Fl)
    (h : UpdateCall kf H 0 z x P Hk Rk zk xk Pk) (hS : (H * P * Hᵀ).det ≠ 0) :
    ∃ x' P' kf', (KalmanFilter.update Hk xk Pk zk Rk).run kf = (.ok (x', P'), kf') ∧
      ∃ (y : Fin n → ℝ) (M : Matrix (Fin n) (Fin n) ℝ), StateIs y x' ∧ MatIs M P' ∧
        H *ᵥ y = z ∧ H * M = 0 := by
  have hi : innovCov H P 0 = H * P * Hᵀ := by simp [innovCov]
  obtain ⟨x', P', hr, hx, hM⟩ := h.run (by rw [hi]; exact hS)
  have hK : H * kGain H P 0 = 1 := by
    rw [kGain, hi, ← Matrix.mul_assoc, ← Matrix.mul_assoc, Matrix.mul_nonsing_inv _ (isUnit_iff_ne_zero.2 hS)]
  refine ⟨x', P', _, hr, _, _, hx, hM, ?_, ?_⟩
  · rw [Matrix.mulVec_add, Matrix.mulVec_mulVec, hK, Matrix.one_mulVec]; abel
  · rw [postCov, ← Matrix.mul_assoc, Matrix.mul_sub, ← Matrix.mul_assoc, hK, Matrix.mul_one, Matrix.one_mul,
      sub_self, Matrix.zero_mul]

/-- C38 for an invertible `H`: the mean becomes `H⁻¹ z` and the covariance 0. -/
theorem C38_perfect_invertible (kf : KalmanFilter Fl) (H : Matrix (Fin n) (Fin n) ℝ)
    (z : Fin n → ℝ) (x : Fin n → ℝ) (P : Matrix (Fin n) (Fin n) ℝ) (Hk Rk zk xk Pk : Arr Fl)
    (h : UpdateCall kf H 0 z x P Hk Rk zk xk Pk) (hH : H.det ≠ 0) (hP : P.det ≠ 0) :
    ∃ x' P' kf', (KalmanFilter.update Hk xk Pk zk Rk).run kf = (.ok (x', P'), kf') ∧
      StateIs (H⁻¹ *ᵥ z) x' ∧ MatIs (0 : Matrix (Fin n) (Fin n) ℝ) P' := by
  obtain ⟨x', P', kf', hr, y, M, hx, hM, h1, h2⟩ := C38_perfect_measurement kf H z x P Hk Rk zk xk Pk h
    (by simp [Matrix.det_mul, hH, hP])
  have hHH : H⁻¹ * H = 1 := Matrix.nonsing_inv_mul _ (isUnit_iff_ne_zero.2 hH)
  have ey : y = H⁻¹ *ᵥ z := by rw [← h1, Matrix.mulVec_mulVec, hHH, Matrix.one_mulVec]
  have eM : M = 0 := by
    have := congrArg (fun X => H⁻¹ * X) h2
    simpa only [← Matrix.mul_assoc, hHH, Matrix.one_mul, Matrix.mul_zero] using this
  exact ⟨x', P', kf', hr, ey ▸ hx, eM ▸ hM⟩

-- C38: measuring both components of a two-dimensional state without noise.
example (x0 x1 z0 z1 : ℝ) : UpdateCall (Ex.encode Ex.cvBelief (Ex.cvSteps [])) !![2, 1; 0, 1]
      (0 : Matrix (Fin 2) (Fin 2) ℝ) ![z0, z1] ![x0, x1] Ex.cvBelief.P
      (.mat .float64 (finM !![2, 1; 0, 1])) (.mat .float64 (finM (0 : Matrix (Fin 2) (Fin 2) ℝ)))
      (.vec .float64 (finV ![z0, z1])) (.vec .float64 (finV ![x0, x1])) (.mat .float64 (finM Ex.cvBelief.P)) ∧
    (!![2, 1; 0, 1] : Matrix (Fin 2) (Fin 2) ℝ).det ≠ 0 ∧ Ex.cvBelief.P.det ≠ 0 :=
  ⟨⟨rfl, ⟨⟨_, rfl⟩, .inl ⟨_, rfl⟩, .inl ⟨_, rfl⟩⟩, .inl ⟨_, rfl⟩, ⟨_, rfl⟩, .inl ⟨_, rfl⟩⟩,
    by simp [Matrix.det_fin_two], posDef_det_ne Ex.cv_posDef⟩

/-! ## C39 -/

/-- C39: if `H = 0` or the prior covariance is 0, and `R` is invertible, `update` returns the prior mean and
covariance unchanged. -/
theorem C39_useless (kf : KalmanFilter Fl) (H : Matrix (Fin m) (Fin n) ℝ) (R : Matrix (Fin m) (Fin m) ℝ)
    (z : Fin m → ℝ) (x : Fin n → ℝ) (P : Matrix (Fin n) (Fin n) ℝ) (Hk Rk zk xk Pk : Arr Fl)
    (h : UpdateCall kf H R z x P Hk Rk zk xk Pk) (hR : R.det ≠ 0) (h0 : H = 0 ∨ P = 0) :
    ∃ x' P' kf', (KalmanFilter.update Hk xk Pk zk Rk).run kf = (.ok (x', P'), kf') ∧
      StateIs x x' ∧ MatIs P P' := by
  have hS : innovCov H P R = R := by rcases h0 with rfl | rfl <;> simp [innovCov]
  have hK : kGain H P R = 0 := by rcases h0 with rfl | rfl <;> simp [kGain]
  obtain ⟨x', P', hr, hx, hM⟩ := h.run (by rw [hS]; exact hR)
  refine ⟨x', P', _, hr, ?_, ?_⟩
  · simpa [hK] using hx
  · simpa [postCov, hK] using hM

/-- The open-loop predictions: the model iterated from `x` without looking at any observation. -/
def openLoop : (Fin n → ℝ) → List (LinStep n m) → List (Fin n → ℝ)
  | _, [] => []
  | x, s :: ss => (s.A *ᵥ x + s.c) :: openLoop (s.A *ᵥ x + s.c) ss

theorem certain_runs (x : Fin n → ℝ) (ss : List (LinStep n m)) (hQ : ∀ s ∈ ss, s.Q = 0)
    (hR : ∀ s ∈ ss, s.R.det ≠ 0) :
    Solvable ⟨x, 0⟩ ss ∧ filtered ⟨x, 0⟩ ss = (openLoop x ss).map fun y => ⟨y, 0⟩ := by
  induction ss generalizing x with
  | nil => exact ⟨trivial, rfl⟩
  | cons s ss ih =>
    obtain ⟨h1, h2⟩ := ih (s.A *ᵥ x + s.c) (fun s' h => hQ s' (by simp [h])) (fun s' h => hR s' (by simp [h]))
    have hp : s.predict ⟨x, 0⟩ = ⟨s.A *ᵥ x + s.c, 0⟩ := by
      simp [LinStep.predict, priorCov, hQ s (by simp)]
    have hn : s.next ⟨x, 0⟩ = ⟨s.A *ᵥ x + s.c, 0⟩ := by
      simp [LinStep.next, hp, LinStep.update, LinStep.gain, kGain, postCov]
    refine ⟨⟨?_, ?_⟩, ?_⟩
    · rw [hp]; simpa [LinStep.innov, innovCov] using hR s (by simp)
    · rw [hn]; exact h1
    · rw [filtered, hn, h2]; rfl

/-- C39 for whole runs: with initial covariance 0, all `Q` zero and all `R` invertible, `filter` ignores the
observations: it returns the open-loop prediction with covariance 0. -/
theorem C39_certain_run (kf : KalmanFilter Fl) (Z : NDArray Fl) (U : Option (NDArray Fl)) (x : Fin n → ℝ)
    (ss : List (LinStep n m)) (h : Represents kf Z U ⟨x, 0⟩ ss) (hQ : ∀ s ∈ ss, s.Q = 0)
    (hR : ∀ s ∈ ss, s.R.det ≠ 0) :
    ∃ Ks : List (Matrix (Fin n) (Fin m) ℝ),
      FilterReturns kf Z U ((openLoop x ss).map fun y => (⟨y, 0⟩ : Belief n)) Ks := by
  obtain ⟨h1, h2⟩ := certain_runs x ss hQ hR
  exact ⟨_, h2 ▸ h.returns h1⟩

-- C39: a certain prior for the constant-velocity measurement, and a certain run of a scalar random walk.
example (x0 x1 z : ℝ) (zs : List ℝ) : UpdateCall (Ex.encode Ex.cvBelief (Ex.cvSteps [])) (Ex.cvStep 0 z).H
      (Ex.cvStep 0 z).R (Ex.cvStep 0 z).z ![x0, x1] (0 : Matrix (Fin 2) (Fin 2) ℝ)
      (.mat .float64 (finM (Ex.cvStep 0 z).H)) (.mat .float64 (finM (Ex.cvStep 0 z).R))
      (.vec .float64 (finV (Ex.cvStep 0 z).z)) (.vec .float64 (finV ![x0, x1]))
      (.mat .float64 (finM (0 : Matrix (Fin 2) (Fin 2) ℝ))) ∧ (Ex.cvStep 0 z).R.det ≠ 0 ∧
    ∀ s ∈ zs.map fun z => (⟨1, 0, 1, 0, 1, fun _ => z⟩ : LinStep 1 1), s.Q = 0 ∧ s.R.det ≠ 0 := by
  refine ⟨⟨rfl, ⟨⟨_, rfl⟩, .inl ⟨_, rfl⟩, .inl ⟨_, rfl⟩⟩, .inl ⟨_, rfl⟩, ⟨_, rfl⟩, .inl ⟨_, rfl⟩⟩,
    posDef_det_ne (Ex.cvStep_R _ _), ?_⟩
  intro s hs
  simp only [List.mem_map] at hs
  obtain ⟨z, -, rfl⟩ := hs
  simp

/-! ## C34 -/

section blocks
variable {ι κ₁ κ₂ : Type} [Fintype ι] [Fintype κ₁] [Fintype κ₂] [DecidableEq ι] [DecidableEq κ₁] [DecidableEq κ₂]

theorem stacked_innov (H₁ : Matrix κ₁ ι ℝ) (H₂ : Matrix κ₂ ι ℝ) (R₁ : Matrix κ₁ κ₁ ℝ) (R₂ : Matrix κ₂ κ₂ ℝ)
    (P : Matrix ι ι ℝ) : innovCov (fromRows H₁ H₂) P (fromBlocks R₁ 0 0 R₂) =
      fromBlocks (innovCov H₁ P R₁) (H₁ * P * H₂ᵀ) (H₂ * P * H₁ᵀ) (H₂ * P * H₂ᵀ + R₂) := by
  rw [innovCov, transpose_fromRows, fromRows_mul, fromRows_mul_fromCols, fromBlocks_add]
  simp [innovCov]

/-- Two measurements as one, with independent noises (`Sum`-indexed). -/
theorem stacked_gain (H₁ : Matrix κ₁ ι ℝ) (H₂ : Matrix κ₂ ι ℝ) (R₁ : Matrix κ₁ κ₁ ℝ) (R₂ : Matrix κ₂ κ₂ ℝ)
    (P : Matrix ι ι ℝ) (h1 : (innovCov H₁ P R₁).det ≠ 0) (h2 : (innovCov H₂ (postCov H₁ P R₁) R₂).det ≠ 0) :
    (innovCov (fromRows H₁ H₂) P (fromBlocks R₁ 0 0 R₂)).det ≠ 0 ∧
    kGain (fromRows H₁ H₂) P (fromBlocks R₁ 0 0 R₂) =
      fromCols ((1 - kGain H₂ (postCov H₁ P R₁) R₂ * H₂) * kGain H₁ P R₁) (kGain H₂ (postCov H₁ P R₁) R₂) := by
  have e1 := kGain_mul_innov h1
  have e2 := kGain_mul_innov h2
  set K₁ := kGain H₁ P R₁ with hK₁
  set P₁ := postCov H₁ P R₁ with hP₁
  set K₂ := kGain H₂ P₁ R₂ with hK₂
  have hS := stacked_innov H₁ H₂ R₁ R₂ P
  have hPP : K₁ * H₁ * P = P - P₁ := by
    rw [hP₁, postCov, Matrix.sub_mul, Matrix.one_mul, sub_sub_cancel]
  have hdet : (innovCov (fromRows H₁ H₂) P (fromBlocks R₁ 0 0 R₂)).det ≠ 0 := by
    let _ : Invertible (innovCov H₁ P R₁) := Matrix.invertibleOfIsUnitDet _ (isUnit_iff_ne_zero.2 h1)
    rw [hS, Matrix.det_fromBlocks₁₁, Matrix.invOf_eq_nonsing_inv]
    refine mul_ne_zero h1 ?_
    have : H₂ * P * H₂ᵀ + R₂ - H₂ * P * H₁ᵀ * (innovCov H₁ P R₁)⁻¹ * (H₁ * P * H₂ᵀ) = innovCov H₂ P₁ R₂ := by
      have hk : H₂ * P * H₁ᵀ * (innovCov H₁ P R₁)⁻¹ * (H₁ * P * H₂ᵀ) = H₂ * (K₁ * H₁ * P) * H₂ᵀ := by
        simp only [hK₁, kGain, Matrix.mul_assoc]
      rw [hk, hPP, innovCov, Matrix.mul_sub, Matrix.sub_mul]
      abel
    rw [this]
    exact h2
  refine ⟨hdet, ?_⟩
  have hL : fromCols ((1 - K₂ * H₂) * K₁) K₂ * innovCov (fromRows H₁ H₂) P (fromBlocks R₁ 0 0 R₂) =
      P * (fromRows H₁ H₂)ᵀ := by
    rw [hS, fromCols_mul_fromBlocks, transpose_fromRows, mul_fromCols]
    congr 1
    · rw [Matrix.mul_assoc, e1]
      simp only [Matrix.sub_mul, Matrix.one_mul, Matrix.mul_assoc]
      abel
    · have : (1 - K₂ * H₂) * K₁ * (H₁ * P * H₂ᵀ) = (1 - K₂ * H₂) * (K₁ * H₁ * P) * H₂ᵀ := by
        simp only [Matrix.mul_assoc]
      rw [this, hPP]
      have e2' : K₂ * H₂ * P₁ * H₂ᵀ + K₂ * R₂ = P₁ * H₂ᵀ := by
        rw [← e2, innovCov, Matrix.mul_add]
        simp only [Matrix.mul_assoc]
      have : (1 - K₂ * H₂) * (P - P₁) * H₂ᵀ + K₂ * (H₂ * P * H₂ᵀ + R₂) =
          P * H₂ᵀ - P₁ * H₂ᵀ + (K₂ * H₂ * P₁ * H₂ᵀ + K₂ * R₂) := by
        simp only [Matrix.sub_mul, Matrix.mul_sub, Matrix.mul_add, Matrix.one_mul, Matrix.mul_assoc]
        abel
      rw [this, e2']
      abel
  rw [kGain, ← hL, Matrix.mul_assoc, Matrix.mul_nonsing_inv _ (isUnit_iff_ne_zero.2 hdet), Matrix.mul_one]

theorem stacked_gain' (H₁ : Matrix κ₁ ι ℝ) (H₂ : Matrix κ₂ ι ℝ) (R₁ : Matrix κ₁ κ₁ ℝ) (R₂ : Matrix κ₂ κ₂ ℝ)
    (P : Matrix ι ι ℝ) (h1 : (innovCov H₂ P R₂).det ≠ 0) (h2 : (innovCov H₁ (postCov H₂ P R₂) R₁).det ≠ 0) :
    (innovCov (fromRows H₁ H₂) P (fromBlocks R₁ 0 0 R₂)).det ≠ 0 ∧
    kGain (fromRows H₁ H₂) P (fromBlocks R₁ 0 0 R₂) =
      fromCols (kGain H₁ (postCov H₂ P R₂) R₁) ((1 - kGain H₁ (postCov H₂ P R₂) R₁ * H₁) * kGain H₂ P R₂) := by
  obtain ⟨hd, hk⟩ := stacked_gain H₂ H₁ R₂ R₁ P h1 h2
  have e : innovCov (fromRows H₁ H₂) P (fromBlocks R₁ 0 0 R₂) =
      (innovCov (fromRows H₂ H₁) P (fromBlocks R₂ 0 0 R₁)).submatrix (Equiv.sumComm κ₁ κ₂) (Equiv.sumComm κ₁ κ₂) := by
    rw [stacked_innov, stacked_innov]
    simp [innovCov]
  constructor
  · rw [e, Matrix.det_submatrix_equiv_self]; exact hd
  · have : kGain (fromRows H₁ H₂) P (fromBlocks R₁ 0 0 R₂) =
        (kGain (fromRows H₂ H₁) P (fromBlocks R₂ 0 0 R₁)).submatrix id (Equiv.sumComm κ₁ κ₂) := by
      have eH : P * (fromRows H₁ H₂)ᵀ = (P * (fromRows H₂ H₁)ᵀ).submatrix id (Equiv.sumComm κ₁ κ₂) := by
        rw [transpose_fromRows, transpose_fromRows, mul_fromCols, mul_fromCols]
        ext i (j | j) <;> rfl
      rw [kGain, kGain, e, eH, Matrix.inv_submatrix_equiv, Matrix.submatrix_mul_equiv]
    rw [this, hk]
    ext i (j | j) <;> rfl

theorem kGain_reindex {κ κ' : Type} [Fintype κ] [Fintype κ'] [DecidableEq κ] [DecidableEq κ'] (e : κ' ≃ κ)
    (H : Matrix κ ι ℝ) (P : Matrix ι ι ℝ) (R : Matrix κ κ ℝ) :
    innovCov (H.submatrix e id) P (R.submatrix e e) = (innovCov H P R).submatrix e e ∧
    kGain (H.submatrix e id) P (R.submatrix e e) = (kGain H P R).submatrix id e ∧
    kGain (H.submatrix e id) P (R.submatrix e e) * H.submatrix e id = kGain H P R * H := by
  have h1 : innovCov (H.submatrix e id) P (R.submatrix e e) = (innovCov H P R).submatrix e e := rfl
  have h2 : kGain (H.submatrix e id) P (R.submatrix e e) = (kGain H P R).submatrix id e := by
    rw [kGain, h1, Matrix.inv_submatrix_equiv, kGain]
    have : P * (H.submatrix e id)ᵀ = (P * Hᵀ).submatrix id e := rfl
    rw [this, Matrix.submatrix_mul_equiv]
  refine ⟨h1, h2, ?_⟩
  rw [h2, Matrix.submatrix_mul_equiv, Matrix.submatrix_id_id]

end blocks

/-- Rows of `H₁` followed by rows of `H₂`. -/
def stackH {m₁ m₂ : ℕ} (H₁ : Matrix (Fin m₁) (Fin n) ℝ) (H₂ : Matrix (Fin m₂) (Fin n) ℝ) :
    Matrix (Fin (m₁ + m₂)) (Fin n) ℝ := (fromRows H₁ H₂).submatrix finSumFinEquiv.symm id

/-- Block diagonal `R₁`, `R₂`. -/
def stackR {m₁ m₂ : ℕ} (R₁ : Matrix (Fin m₁) (Fin m₁) ℝ) (R₂ : Matrix (Fin m₂) (Fin m₂) ℝ) :
    Matrix (Fin (m₁ + m₂)) (Fin (m₁ + m₂)) ℝ :=
  (fromBlocks R₁ 0 0 R₂).submatrix finSumFinEquiv.symm finSumFinEquiv.symm

/-- `z₁` followed by `z₂`. -/
def stackZ {m₁ m₂ : ℕ} (z₁ : Fin m₁ → ℝ) (z₂ : Fin m₂ → ℝ) : Fin (m₁ + m₂) → ℝ :=
  Sum.elim z₁ z₂ ∘ finSumFinEquiv.symm

/-- One stacked update equals two successive ones, in either order. -/
theorem stacked_update {m₁ m₂ : ℕ} (H₁ : Matrix (Fin m₁) (Fin n) ℝ) (R₁ : Matrix (Fin m₁) (Fin m₁) ℝ)
    (z₁ : Fin m₁ → ℝ) (H₂ : Matrix (Fin m₂) (Fin n) ℝ) (R₂ : Matrix (Fin m₂) (Fin m₂) ℝ) (z₂ : Fin m₂ → ℝ)
    (x : Fin n → ℝ) (P : Matrix (Fin n) (Fin n) ℝ)
    (h1 : (innovCov H₁ P R₁).det ≠ 0) (h2 : (innovCov H₂ (postCov H₁ P R₁) R₂).det ≠ 0) :
    (innovCov (stackH H₁ H₂) P (stackR R₁ R₂)).det ≠ 0 ∧
    postCov (stackH H₁ H₂) P (stackR R₁ R₂) = postCov H₂ (postCov H₁ P R₁) R₂ ∧
    x + kGain (stackH H₁ H₂) P (stackR R₁ R₂) *ᵥ (stackZ z₁ z₂ - stackH H₁ H₂ *ᵥ x) =
      (x + kGain H₁ P R₁ *ᵥ (z₁ - H₁ *ᵥ x)) + kGain H₂ (postCov H₁ P R₁) R₂ *ᵥ
        (z₂ - H₂ *ᵥ (x + kGain H₁ P R₁ *ᵥ (z₁ - H₁ *ᵥ x))) := by
  obtain ⟨hd, hk⟩ := stacked_gain H₁ H₂ R₁ R₂ P h1 h2
  obtain ⟨e1, e2, e3⟩ := kGain_reindex (finSumFinEquiv (m := m₁) (n := m₂)).symm (fromRows H₁ H₂) P
    (fromBlocks R₁ 0 0 R₂)
  refine ⟨?_, ?_, ?_⟩
  · rw [stackH, stackR, e1, Matrix.det_submatrix_equiv_self]; exact hd
  · rw [postCov, stackH, stackR, e3, hk, fromCols_mul_fromRows, postCov, postCov]
    simp only [Matrix.sub_mul, Matrix.mul_sub, Matrix.one_mul, Matrix.mul_assoc, Matrix.add_mul]
    abel
  · have hz : stackZ z₁ z₂ - stackH H₁ H₂ *ᵥ x =
        Sum.elim (z₁ - H₁ *ᵥ x) (z₂ - H₂ *ᵥ x) ∘ finSumFinEquiv.symm := by
      funext i
      simp only [stackZ, stackH, Pi.sub_apply, Function.comp]
      have : ((fromRows H₁ H₂).submatrix finSumFinEquiv.symm id *ᵥ x) i =
          (fromRows H₁ H₂ *ᵥ x) (finSumFinEquiv.symm i) := rfl
      rw [this, fromRows_mulVec]
      rcases finSumFinEquiv.symm i with j | j <;> rfl
    rw [hz, stackH, stackR, e2]
    have hm : ∀ (K : Matrix (Fin n) (Fin m₁ ⊕ Fin m₂) ℝ) (w : Fin m₁ ⊕ Fin m₂ → ℝ),
        K.submatrix id finSumFinEquiv.symm *ᵥ (w ∘ finSumFinEquiv.symm) = K *ᵥ w := by
      intro K w
      funext i
      simp only [Matrix.mulVec, dotProduct, Matrix.submatrix_apply, id, Function.comp]
      exact (finSumFinEquiv (m := m₁) (n := m₂)).symm.sum_comp fun j => K i j * w j
    rw [hm, hk, fromCols_mulVec_sumElim]
    simp only [Matrix.mulVec_add, Matrix.mulVec_sub, Matrix.sub_mulVec, Matrix.mulVec_mulVec, Matrix.mul_assoc,
      Matrix.sub_mul, Matrix.one_mul]
    abel

theorem stacked_comm {m₁ m₂ : ℕ} (H₁ : Matrix (Fin m₁) (Fin n) ℝ) (R₁ : Matrix (Fin m₁) (Fin m₁) ℝ)
    (z₁ : Fin m₁ → ℝ) (H₂ : Matrix (Fin m₂) (Fin n) ℝ) (R₂ : Matrix (Fin m₂) (Fin m₂) ℝ) (z₂ : Fin m₂ → ℝ)
    (x : Fin n → ℝ) (P : Matrix (Fin n) (Fin n) ℝ) :
    ((innovCov (stackH H₂ H₁) P (stackR R₂ R₁)).det ≠ 0 ↔ (innovCov (stackH H₁ H₂) P (stackR R₁ R₂)).det ≠ 0) ∧
    postCov (stackH H₂ H₁) P (stackR R₂ R₁) = postCov (stackH H₁ H₂) P (stackR R₁ R₂) ∧
    kGain (stackH H₂ H₁) P (stackR R₂ R₁) *ᵥ (stackZ z₂ z₁ - stackH H₂ H₁ *ᵥ x) =
      kGain (stackH H₁ H₂) P (stackR R₁ R₂) *ᵥ (stackZ z₁ z₂ - stackH H₁ H₂ *ᵥ x) := by
  let e : Fin (m₂ + m₁) ≃ Fin (m₁ + m₂) :=
    (finSumFinEquiv.symm.trans (Equiv.sumComm _ _)).trans finSumFinEquiv
  have eH : stackH H₂ H₁ = (stackH H₁ H₂).submatrix e id := by
    ext i j
    simp only [stackH, e, Matrix.submatrix_apply, id, Equiv.trans_apply, Equiv.symm_apply_apply]
    rcases finSumFinEquiv.symm i with k | k <;> rfl
  have eR : stackR R₂ R₁ = (stackR R₁ R₂).submatrix e e := by
    ext i j
    simp only [stackR, e, Matrix.submatrix_apply, Equiv.trans_apply, Equiv.symm_apply_apply]
    rcases finSumFinEquiv.symm i with k | k <;> rcases finSumFinEquiv.symm j with l | l <;> rfl
  have eZ : stackZ z₂ z₁ = stackZ z₁ z₂ ∘ e := by
    funext i
    simp only [stackZ, e, Function.comp, Equiv.trans_apply, Equiv.symm_apply_apply]
    rcases finSumFinEquiv.symm i with k | k <;> rfl
  obtain ⟨e1, e2, e3⟩ := kGain_reindex e (stackH H₁ H₂) P (stackR R₁ R₂)
  rw [eH, eR, eZ]
  refine ⟨by rw [e1, Matrix.det_submatrix_equiv_self], ?_, ?_⟩
  · rw [postCov, e3, postCov]
  · rw [e2]
    funext i
    simp only [Matrix.mulVec, dotProduct, Matrix.submatrix_apply, id, Function.comp, Pi.sub_apply]
    exact e.sum_comp fun j => kGain (stackH H₁ H₂) P (stackR R₁ R₂) i j *
      (stackZ z₁ z₂ j - ∑ k, stackH H₁ H₂ j k * x k)

/-- `update` on a 1-d state. -/
theorem update_vec (kf : KalmanFilter Fl) (H : Matrix (Fin m) (Fin n) ℝ) (R : Matrix (Fin m) (Fin m) ℝ)
    (z : Fin m → ℝ) (x : Fin n → ℝ) (P : Matrix (Fin n) (Fin n) ℝ) (Hk Rk zk xk Pk : Arr Fl)
    (hI : kf.I = Arr.identity n) (h : MeasIs H R z Hk Rk zk) (hx : VecIs x xk) (hP : MatIs P Pk) :
    ((innovCov H P R).det ≠ 0 → (KalmanFilter.update Hk xk Pk zk Rk).run kf =
      (.ok (stateRow ⟨x + kGain H P R *ᵥ (z - H *ᵥ x), postCov H P R⟩,
            covRow ⟨x + kGain H P R *ᵥ (z - H *ᵥ x), postCov H P R⟩),
       { kf with kalmanGains := kf.kalmanGains ++ [gainRow (kGain H P R)] })) ∧
    ((innovCov H P R).det = 0 →
      (KalmanFilter.update Hk xk Pk zk Rk).run kf = (.error .linAlgError, kf)) := by
  refine ⟨fun hdet => ?_,
    (C24_update kf H R z x P Hk Rk zk xk Pk hI h (.inl hx) hP (.inl hx)).2⟩
  let s : LinStep n m := ⟨0, 0, H, 0, R, z⟩
  let p : Belief n := ⟨x, P⟩
  have hs : StepIs s (.mat .float64 (finM 0)) Hk (.mat .float64 (finM (0 : Matrix (Fin n) (Fin 0) ℝ)))
      (.vec .float64 (finV (0 : Fin 0 → ℝ))) zk (.mat .float64 (finM 0)) Rk :=
    ⟨⟨_, rfl⟩, h.H, .inr ⟨0, 0, 0, ⟨_, rfl⟩, ⟨_, rfl⟩, by simp [s]⟩, h.z, .inl ⟨_, rfl⟩, h.R⟩
  obtain ⟨e, rfl⟩ := hP
  obtain ⟨d, rfl⟩ := hx
  have hg := gain_exact (e := e) (p := p) hs
  have hdet' : (s.innov p).det ≠ 0 := hdet
  simp only [hdet', if_false] at hg
  have hc := (correct_exact (d := d) (e := e) (p := p) hs).1
  simp only [KalmanFilter.update, Py.run_bind, Py.run_lift, p, Py.run_mutate, Py.run_self, hI] at hg hc ⊢
  rw [hg]
  simp only [Py.run_mutate, Py.run_self, hI, hc]
  rfl

/-- C34: two measurements of one state with independent noises.  If processing them one at a time
(`update` with the first, then `update` of the result with the second) does not raise, then one `update` with
the stacked measurement does not raise and returns the same mean and covariance; likewise if they are
processed in the other order. -/
theorem C34_sequential {m₁ m₂ : ℕ} (kf : KalmanFilter Fl)
    (H₁ : Matrix (Fin m₁) (Fin n) ℝ) (R₁ : Matrix (Fin m₁) (Fin m₁) ℝ) (z₁ : Fin m₁ → ℝ)
    (H₂ : Matrix (Fin m₂) (Fin n) ℝ) (R₂ : Matrix (Fin m₂) (Fin m₂) ℝ) (z₂ : Fin m₂ → ℝ)
    (x : Fin n → ℝ) (P : Matrix (Fin n) (Fin n) ℝ)
    (Hk₁ Rk₁ zk₁ Hk₂ Rk₂ zk₂ Hk Rk zk xk Pk : Arr Fl) (hI : kf.I = Arr.identity n)
    (hm₁ : MeasIs H₁ R₁ z₁ Hk₁ Rk₁ zk₁) (hm₂ : MeasIs H₂ R₂ z₂ Hk₂ Rk₂ zk₂)
    (hm : MeasIs (stackH H₁ H₂) (stackR R₁ R₂) (stackZ z₁ z₂) Hk Rk zk) (hx : VecIs x xk) (hP : MatIs P Pk) :
    (∀ x₁ P₁ kf₁ x₂ P₂ kf₂,
      (KalmanFilter.update Hk₁ xk Pk zk₁ Rk₁).run kf = (.ok (x₁, P₁), kf₁) →
      (KalmanFilter.update Hk₂ x₁ P₁ zk₂ Rk₂).run kf₁ = (.ok (x₂, P₂), kf₂) →
      ∃ x₃ P₃ kf₃ y M, (KalmanFilter.update Hk xk Pk zk Rk).run kf = (.ok (x₃, P₃), kf₃) ∧
        VecIs (n := n) y x₂ ∧ VecIs y x₃ ∧ MatIs (m := n) (n := n) M P₂ ∧ MatIs M P₃) ∧
    (∀ x₁ P₁ kf₁ x₂ P₂ kf₂,
      (KalmanFilter.update Hk₂ xk Pk zk₂ Rk₂).run kf = (.ok (x₁, P₁), kf₁) →
      (KalmanFilter.update Hk₁ x₁ P₁ zk₁ Rk₁).run kf₁ = (.ok (x₂, P₂), kf₂) →
      ∃ x₃ P₃ kf₃ y M, (KalmanFilter.update Hk xk Pk zk Rk).run kf = (.ok (x₃, P₃), kf₃) ∧
        VecIs (n := n) y x₂ ∧ VecIs y x₃ ∧ MatIs (m := n) (n := n) M P₂ ∧ MatIs M P₃) := by
  have run2 : ∀ {m₁ m₂ : ℕ} (H₁ : Matrix (Fin m₁) (Fin n) ℝ) (R₁ : Matrix (Fin m₁) (Fin m₁) ℝ)
      (z₁ : Fin m₁ → ℝ) (H₂ : Matrix (Fin m₂) (Fin n) ℝ) (R₂ : Matrix (Fin m₂) (Fin m₂) ℝ) (z₂ : Fin m₂ → ℝ)
      (Hk₁ Rk₁ zk₁ Hk₂ Rk₂ zk₂ : Arr Fl), MeasIs H₁ R₁ z₁ Hk₁ Rk₁ zk₁ → MeasIs H₂ R₂ z₂ Hk₂ Rk₂ zk₂ →
      ∀ x₁ P₁ kf₁ x₂ P₂ kf₂,
      (KalmanFilter.update Hk₁ xk Pk zk₁ Rk₁).run kf = (.ok (x₁, P₁), kf₁) →
      (KalmanFilter.update Hk₂ x₁ P₁ zk₂ Rk₂).run kf₁ = (.ok (x₂, P₂), kf₂) →
      (innovCov H₁ P R₁).det ≠ 0 ∧ (innovCov H₂ (postCov H₁ P R₁) R₂).det ≠ 0 ∧
      VecIs ((x + kGain H₁ P R₁ *ᵥ (z₁ - H₁ *ᵥ x)) + kGain H₂ (postCov H₁ P R₁) R₂ *ᵥ
        (z₂ - H₂ *ᵥ (x + kGain H₁ P R₁ *ᵥ (z₁ - H₁ *ᵥ x)))) x₂ ∧
      MatIs (postCov H₂ (postCov H₁ P R₁) R₂) P₂ := by
    intro m₁ m₂ H₁ R₁ z₁ H₂ R₂ z₂ Hk₁ Rk₁ zk₁ Hk₂ Rk₂ zk₂ hm₁ hm₂ x₁ P₁ kf₁ x₂ P₂ kf₂ u1 u2
    obtain ⟨a1, a2⟩ := update_vec kf H₁ R₁ z₁ x P Hk₁ Rk₁ zk₁ xk Pk hI hm₁ hx hP
    by_cases d1 : (innovCov H₁ P R₁).det = 0
    · rw [a2 d1] at u1; simp at u1
    rw [a1 d1] at u1
    simp only [Prod.mk.injEq, Except.ok.injEq] at u1
    obtain ⟨⟨rfl, rfl⟩, rfl⟩ := u1
    obtain ⟨b1, b2⟩ := update_vec { kf with kalmanGains := kf.kalmanGains ++ [gainRow (kGain H₁ P R₁)] } H₂ R₂ z₂
      (x + kGain H₁ P R₁ *ᵥ (z₁ - H₁ *ᵥ x)) (postCov H₁ P R₁) Hk₂ Rk₂ zk₂
      (stateRow ⟨x + kGain H₁ P R₁ *ᵥ (z₁ - H₁ *ᵥ x), postCov H₁ P R₁⟩)
      (covRow ⟨x + kGain H₁ P R₁ *ᵥ (z₁ - H₁ *ᵥ x), postCov H₁ P R₁⟩) hI hm₂ ⟨_, rfl⟩ ⟨_, rfl⟩
    by_cases d2 : (innovCov H₂ (postCov H₁ P R₁) R₂).det = 0
    · rw [b2 d2] at u2; simp at u2
    rw [b1 d2] at u2
    simp only [Prod.mk.injEq, Except.ok.injEq] at u2
    obtain ⟨⟨rfl, rfl⟩, -⟩ := u2
    exact ⟨d1, d2, ⟨_, rfl⟩, ⟨_, rfl⟩⟩
  have run := update_vec kf (stackH H₁ H₂) (stackR R₁ R₂) (stackZ z₁ z₂) x P Hk Rk zk xk Pk hI hm hx hP
  constructor
  · intro x₁ P₁ kf₁ x₂ P₂ kf₂ u1 u2
    obtain ⟨d1, d2, ex, eP⟩ := run2 H₁ R₁ z₁ H₂ R₂ z₂ _ _ _ _ _ _ hm₁ hm₂ _ _ _ _ _ _ u1 u2
    obtain ⟨d3, c1, c2⟩ := stacked_update H₁ R₁ z₁ H₂ R₂ z₂ x P d1 d2
    refine ⟨_, _, _, _, _, run.1 d3, ex, ?_, eP, ?_⟩
    · rw [c2]; exact ⟨_, rfl⟩
    · rw [c1]; exact ⟨_, rfl⟩
  · intro x₁ P₁ kf₁ x₂ P₂ kf₂ u1 u2
    obtain ⟨d1, d2, ex, eP⟩ := run2 H₂ R₂ z₂ H₁ R₁ z₁ _ _ _ _ _ _ hm₂ hm₁ _ _ _ _ _ _ u1 u2
    obtain ⟨d3, c1, c2⟩ := stacked_update H₂ R₂ z₂ H₁ R₁ z₁ x P d1 d2
    obtain ⟨e1, e2, e3⟩ := stacked_comm H₁ R₁ z₁ H₂ R₂ z₂ x P
    rw [e2] at c1
    rw [e3] at c2
    refine ⟨_, _, _, _, _, run.1 (e1.1 d3), ex, ?_, eP, ?_⟩
    · rw [c2]; exact ⟨_, rfl⟩
    · rw [c1]; exact ⟨_, rfl⟩

/-- C34, unconditional form: with a PSD prior and PD noises nothing raises: both orders and the stacked
`update` return the same mean and covariance. -/
theorem C34_sequential_pd {m₁ m₂ : ℕ} (kf : KalmanFilter Fl)
    (H₁ : Matrix (Fin m₁) (Fin n) ℝ) (R₁ : Matrix (Fin m₁) (Fin m₁) ℝ) (z₁ : Fin m₁ → ℝ)
    (H₂ : Matrix (Fin m₂) (Fin n) ℝ) (R₂ : Matrix (Fin m₂) (Fin m₂) ℝ) (z₂ : Fin m₂ → ℝ)
    (x : Fin n → ℝ) (P : Matrix (Fin n) (Fin n) ℝ)
    (Hk₁ Rk₁ zk₁ Hk₂ Rk₂ zk₂ Hk Rk zk xk Pk : Arr Fl) (hI : kf.I = Arr.identity n)
    (hm₁ : MeasIs H₁ R₁ z₁ Hk₁ Rk₁ zk₁) (hm₂ : MeasIs H₂ R₂ z₂ Hk₂ Rk₂ zk₂)
    (hm : MeasIs (stackH H₁ H₂) (stackR R₁ R₂) (stackZ z₁ z₂) Hk Rk zk) (hx : VecIs x xk) (hP : MatIs P Pk)
    (hPp : P.PosSemidef) (hR₁ : R₁.PosDef) (hR₂ : R₂.PosDef) :
    ∃ x₁ P₁ kf₁ x₁₂ P₁₂ kf₁₂ x₂ P₂ kf₂ x₂₁ P₂₁ kf₂₁ x₃ P₃ kf₃ y M,
      (KalmanFilter.update Hk₁ xk Pk zk₁ Rk₁).run kf = (.ok (x₁, P₁), kf₁) ∧
      (KalmanFilter.update Hk₂ x₁ P₁ zk₂ Rk₂).run kf₁ = (.ok (x₁₂, P₁₂), kf₁₂) ∧
      (KalmanFilter.update Hk₂ xk Pk zk₂ Rk₂).run kf = (.ok (x₂, P₂), kf₂) ∧
      (KalmanFilter.update Hk₁ x₂ P₂ zk₁ Rk₁).run kf₂ = (.ok (x₂₁, P₂₁), kf₂₁) ∧
      (KalmanFilter.update Hk xk Pk zk Rk).run kf = (.ok (x₃, P₃), kf₃) ∧
      VecIs (n := n) y x₁₂ ∧ VecIs y x₂₁ ∧ VecIs y x₃ ∧
      MatIs (m := n) (n := n) M P₁₂ ∧ MatIs M P₂₁ ∧ MatIs M P₃ := by
  have det2 : ∀ {m₁ m₂ : ℕ} (H₁ : Matrix (Fin m₁) (Fin n) ℝ) (R₁ : Matrix (Fin m₁) (Fin m₁) ℝ)
      (H₂ : Matrix (Fin m₂) (Fin n) ℝ) (R₂ : Matrix (Fin m₂) (Fin m₂) ℝ), R₁.PosDef → R₂.PosDef →
      (innovCov H₁ P R₁).det ≠ 0 ∧ (innovCov H₂ (postCov H₁ P R₁) R₂).det ≠ 0 := by
    intro m₁ m₂ H₁ R₁ H₂ R₂ h1 h2
    have d1 := posDef_det_ne (innovCov_posDef (H := H₁) hPp h1)
    exact ⟨d1, posDef_det_ne (innovCov_posDef (H := H₂) (postCov_posSemidef hPp h1.posSemidef d1) h2)⟩
  obtain ⟨d1, d12⟩ := det2 H₁ R₁ H₂ R₂ hR₁ hR₂
  obtain ⟨d2, d21⟩ := det2 H₂ R₂ H₁ R₁ hR₂ hR₁
  have a1 := (update_vec kf H₁ R₁ z₁ x P Hk₁ Rk₁ zk₁ xk Pk hI hm₁ hx hP).1 d1
  have a2 := (update_vec kf H₂ R₂ z₂ x P Hk₂ Rk₂ zk₂ xk Pk hI hm₂ hx hP).1 d2
  have a12 := (update_vec { kf with kalmanGains := kf.kalmanGains ++ [gainRow (kGain H₁ P R₁)] } H₂ R₂ z₂
      (x + kGain H₁ P R₁ *ᵥ (z₁ - H₁ *ᵥ x)) (postCov H₁ P R₁) Hk₂ Rk₂ zk₂
      (stateRow ⟨x + kGain H₁ P R₁ *ᵥ (z₁ - H₁ *ᵥ x), postCov H₁ P R₁⟩)
      (covRow ⟨x + kGain H₁ P R₁ *ᵥ (z₁ - H₁ *ᵥ x), postCov H₁ P R₁⟩) hI hm₂ ⟨_, rfl⟩ ⟨_, rfl⟩).1 d12
  have a21 := (update_vec { kf with kalmanGains := kf.kalmanGains ++ [gainRow (kGain H₂ P R₂)] } H₁ R₁ z₁
      (x + kGain H₂ P R₂ *ᵥ (z₂ - H₂ *ᵥ x)) (postCov H₂ P R₂) Hk₁ Rk₁ zk₁
      (stateRow ⟨x + kGain H₂ P R₂ *ᵥ (z₂ - H₂ *ᵥ x), postCov H₂ P R₂⟩)
      (covRow ⟨x + kGain H₂ P R₂ *ᵥ (z₂ - H₂ *ᵥ x), postCov H₂ P R₂⟩) hI hm₁ ⟨_, rfl⟩ ⟨_, rfl⟩).1 d21
  obtain ⟨d3, c1, c2⟩ := stacked_update H₁ R₁ z₁ H₂ R₂ z₂ x P d1 d12
  obtain ⟨-, c1', c2'⟩ := stacked_update H₂ R₂ z₂ H₁ R₁ z₁ x P d2 d21
  obtain ⟨-, e2, e3⟩ := stacked_comm H₁ R₁ z₁ H₂ R₂ z₂ x P
  rw [e2] at c1'
  rw [e3] at c2'
  have a3 := (update_vec kf (stackH H₁ H₂) (stackR R₁ R₂) (stackZ z₁ z₂) x P Hk Rk zk xk Pk hI hm hx hP).1 d3
  refine ⟨_, _, _, _, _, _, _, _, _, _, _, _, _, _, _, _, _, a1, a12, a2, a21, a3, ⟨_, rfl⟩, ?_, ?_, ⟨_, rfl⟩,
    ?_, ?_⟩
  · exact ⟨.float64, by rw [← c2, c2']; rfl⟩
  · exact ⟨.float64, by rw [← c2]; rfl⟩
  · exact ⟨.float64, by rw [← c1, c1']; rfl⟩
  · exact ⟨.float64, by rw [← c1]; rfl⟩

-- C34: position measured twice, any prior mean, any observations; nothing raises.
example (x0 x1 z z' : ℝ) : MeasIs (Ex.cvStep 0 z).H (Ex.cvStep 0 z).R (Ex.cvStep 0 z).z
      (.mat .float64 (finM (Ex.cvStep 0 z).H)) (.mat .float64 (finM (Ex.cvStep 0 z).R))
      (.vec .float64 (finV (Ex.cvStep 0 z).z)) ∧
    MeasIs (stackH (Ex.cvStep 0 z).H (Ex.cvStep 0 z').H) (stackR (Ex.cvStep 0 z).R (Ex.cvStep 0 z').R)
      (stackZ (Ex.cvStep 0 z).z (Ex.cvStep 0 z').z)
      (.mat .float64 (finM (stackH (Ex.cvStep 0 z).H (Ex.cvStep 0 z').H)))
      (.mat .float64 (finM (stackR (Ex.cvStep 0 z).R (Ex.cvStep 0 z').R)))
      (.vec .float64 (finV (stackZ (Ex.cvStep 0 z).z (Ex.cvStep 0 z').z))) ∧
    VecIs ![x0, x1] (.vec .float64 (finV ![x0, x1])) ∧ Ex.cvBelief.P.PosSemidef ∧ (Ex.cvStep 0 z).R.PosDef :=
  ⟨⟨⟨_, rfl⟩, .inl ⟨_, rfl⟩, .inl ⟨_, rfl⟩⟩, ⟨⟨_, rfl⟩, .inl ⟨_, rfl⟩, .inl ⟨_, rfl⟩⟩, ⟨_, rfl⟩,
    Ex.cv_posDef.posSemidef, Ex.cvStep_R _ _⟩

end KK
