import Verif.Proofs.Global
import Mathlib.Analysis.SpecialFunctions.Pow.Real

/-! # Contraction of the covariance recursion and of the errors -/

set_option linter.unusedSectionVars false

namespace KK

open Matrix Filter Topology

variable {n m : ℕ} {A Q : Matrix (Fin n) (Fin n) ℝ} {H : Matrix (Fin m) (Fin n) ℝ} {R : Matrix (Fin m) (Fin m) ℝ}

theorem psd_trans {k : ℕ} {X Y Z : Matrix (Fin k) (Fin k) ℝ} (h : (Y - X).PosSemidef) (h' : (Z - Y).PosSemidef) :
    (Z - X).PosSemidef := by
  have := h'.add h; rwa [sub_add_sub_cancel] at this

theorem iter_mono (hQ : Q.PosSemidef) (hR : R.PosDef) {P P' : Matrix (Fin n) (Fin n) ℝ} (hP : P.PosSemidef)
    (hle : (P' - P).PosSemidef) (k : ℕ) : ((ric A H Q R)^[k] P' - (ric A H Q R)^[k] P).PosSemidef := by
  induction k with
  | zero => exact hle
  | succ k ih =>
    rw [Function.iterate_succ_apply', Function.iterate_succ_apply']
    exact ric_mono hQ hR (iter_psd hQ hR hP k) ih

theorem psd_smul {k : ℕ} {X : Matrix (Fin k) (Fin k) ℝ} (h : X.PosSemidef) {t : ℝ} (ht : 0 ≤ t) : (t • X).PosSemidef :=
  h.smul ht

/-- The comparison of two covariances contracts. -/
theorem iter_contract (hQ : Q.PosSemidef) (hR : R.PosDef) {P X : Matrix (Fin n) (Fin n) ℝ} (hP : P.PosSemidef)
    (hX : X.PosSemidef) {t δ : ℝ} (ht : 1 ≤ t) (k : ℕ) (h : (t • P - X).PosSemidef)
    (hδ : ((ric A H Q R)^[k] 0 - δ • (ric A H Q R)^[k] P).PosSemidef) :
    ((1 + (t - 1) * (1 - δ)) • (ric A H Q R)^[k] P - (ric A H Q R)^[k] X).PosSemidef := by
  have htP : (t • P).PosSemidef := psd_smul hP (by linarith)
  have h1 := iter_mono (A := A) (H := H) hQ hR hX h k
  have h2 := iter_le_withGains (A := A) (H := H) hQ hR htP (ownGains A Q H R P) k
  have h3 := iter_le_withGains (A := A) (H := H) hQ hR Matrix.PosSemidef.zero (ownGains A Q H R P) k
  have e1 := withGains_own (A := A) (H := H) hQ hR hP k
  rw [withGains_affine] at e1
  rw [withGains_affine, Matrix.mul_smul, Matrix.smul_mul] at h2
  have h4 := psd_smul (psd_trans hδ h3 |> fun h => h) (t := t - 1) (by linarith)
  have h5 := (h1.add h2).add h4
  convert h5 using 1
  rw [← eq_sub_iff_add_eq] at e1
  rw [e1]
  module

/-- The errors contract in the metric of the covariances. -/
theorem mahal_contract {P P' Ψ W : Matrix (Fin n) (Fin n) ℝ} (hP : P.PosDef) (hP' : P'.PosDef) {δ : ℝ} (hδ : δ < 1)
    (e : P' = Ψ * P * Ψᵀ + W) (hW : (W - δ • P').PosSemidef) (d : Fin n → ℝ) :
    mahal P' (Ψ *ᵥ d) ≤ (1 - δ) * mahal P d := by
  obtain ⟨y, hy⟩ : ∃ y, y = P'⁻¹ *ᵥ (Ψ *ᵥ d) := ⟨_, rfl⟩
  have hPy : P' *ᵥ y = Ψ *ᵥ d := by
    rw [hy, Matrix.mulVec_mulVec, Matrix.mul_nonsing_inv _ (posDef_isUnit_det hP'), Matrix.one_mulVec]
  have hm : y ⬝ᵥ (Ψ *ᵥ d) = mahal P' (Ψ *ᵥ d) := by rw [mahal, ← hy, dotProduct_comm]
  have h0 : 0 < 1 - δ := by linarith
  have h1 := le_mahal hP d ((1 - δ)⁻¹ • (Ψᵀ *ᵥ y))
  rw [smul_dotProduct, mulVec_smul, smul_dotProduct, dotProduct_smul, ← quad_conj, dotProduct_comm (Ψᵀ *ᵥ y),
    dotProduct_mulVec, vecMul_transpose, dotProduct_comm (Ψ *ᵥ d), hm] at h1
  simp only [smul_eq_mul] at h1
  have h2 := hW.dotProduct_mulVec_nonneg y
  rw [star_trivial] at h2
  have hW' : W = P' - Ψ * P * Ψᵀ := by rw [e]; abel
  rw [hW', sub_mulVec, sub_mulVec, dotProduct_sub, dotProduct_sub, smul_mulVec, dotProduct_smul, hPy, hm, smul_eq_mul] at h2
  have h3 : y ⬝ᵥ ((Ψ * P * Ψᵀ) *ᵥ y) ≤ (1 - δ) * mahal P' (Ψ *ᵥ d) := by linarith
  have h4 : (1 - δ)⁻¹ * ((1 - δ)⁻¹ * (y ⬝ᵥ ((Ψ * P * Ψᵀ) *ᵥ y))) ≤ (1 - δ)⁻¹ * mahal P' (Ψ *ᵥ d) := by
    have hi : 0 ≤ (1 - δ)⁻¹ := by positivity
    refine mul_le_mul_of_nonneg_left ?_ hi
    rw [inv_mul_le_iff₀ h0]; exact h3
  have h5 : (1 - δ)⁻¹ * mahal P' (Ψ *ᵥ d) ≤ mahal P d := by linarith
  rwa [inv_mul_le_iff₀ h0] at h5

/-- A symmetric matrix between `-ε C` and `ε C`. -/
theorem entry_le {k : ℕ} {M : Matrix (Fin k) (Fin k) ℝ} (hM : Mᵀ = M) {ε : ℝ}
    (h1 : (ε • (1 : Matrix (Fin k) (Fin k) ℝ) - M).PosSemidef) (h2 : (ε • (1 : Matrix (Fin k) (Fin k) ℝ) + M).PosSemidef)
    (i j : Fin k) : |M i j| ≤ ε := by
  have q1 := fun v : Fin k → ℝ => h1.dotProduct_mulVec_nonneg v
  have q2 := fun v : Fin k → ℝ => h2.dotProduct_mulVec_nonneg v
  simp only [star_trivial, sub_mulVec, add_mulVec, smul_mulVec, one_mulVec, dotProduct_sub, dotProduct_add,
    dotProduct_smul, smul_eq_mul] at q1 q2
  have hs : M j i = M i j := by
    have := congrFun (congrFun hM i) j
    simpa [Matrix.transpose_apply] using this
  have ea := q1 (Pi.single i 1 + Pi.single j 1)
  have eb := q1 (Pi.single i 1 - Pi.single j 1)
  have ec := q2 (Pi.single i 1 + Pi.single j 1)
  have ed := q2 (Pi.single i 1 - Pi.single j 1)
  simp only [Matrix.mulVec_add, Matrix.mulVec_sub, add_dotProduct, sub_dotProduct, dotProduct_add, dotProduct_sub,
    Matrix.mulVec_single_one, single_one_dotProduct, Matrix.col_apply, hs] at ea eb ec ed
  rw [abs_le]
  have : (Pi.single i 1 : Fin k → ℝ) j = (Pi.single j 1 : Fin k → ℝ) i := by
    by_cases h : i = j
    · rw [h]
    · rw [Pi.single_eq_of_ne (Ne.symm h), Pi.single_eq_of_ne h]
  simp only [Pi.single_eq_same, this] at ea eb ec ed
  constructor <;> nlinarith

/-- The data of the uniform contraction. -/
theorem exists_contraction (hQ : Q.PosSemidef) (hR : R.PosDef) (hc : Controllable A Q) (ho : Observable A H) :
    ∃ (N C : Matrix (Fin n) (Fin n) ℝ) (t : ℝ), N.PosDef ∧ C.PosSemidef ∧ 2 ≤ t ∧ (t • N - C).PosSemidef ∧
      ∀ P : Matrix (Fin n) (Fin n) ℝ, P.PosSemidef → ∀ k, n ≤ k →
        ((ric A H Q R)^[k] P - N).PosSemidef ∧ (C - (ric A H Q R)^[k] P).PosSemidef := by
  have hN := iter_zero_posDef (A := A) (H := H) hQ hR hc
  obtain ⟨C, hC, hb⟩ := iter_le_of_observable (A := A) (H := H) hQ hR ho
  obtain ⟨t, ht, hd⟩ := exists_dominating hN hC
  refine ⟨_, C, t + 1, hN, hC, by linarith, ?_, fun P hP k hk => ⟨?_, hb P hP k hk⟩⟩
  · have := hd.add hN.posSemidef
    convert this using 1
    module
  · obtain ⟨j, rfl⟩ := Nat.exists_eq_add_of_le hk
    rw [Function.iterate_add_apply]
    refine iter_mono hQ hR Matrix.PosSemidef.zero ?_ n
    rw [sub_zero]; exact iter_psd hQ hR hP j

/-- A geometric bound in blocks of `n`. -/
theorem geometric_blocks {q : ℝ} (h0 : 0 < q) (h1 : q < 1) (hn : 0 < n) :
    ∃ ρ : ℝ, 0 < ρ ∧ ρ < 1 ∧ ρ ^ n = q ∧ ∀ j, q ^ (j / n) ≤ q⁻¹ * ρ ^ j := by
  have hn' : (n : ℝ) ≠ 0 := by positivity
  have e : (q ^ ((n : ℝ)⁻¹)) ^ n = q := Real.rpow_inv_natCast_pow h0.le (by omega)
  have hp : 0 < q ^ ((n : ℝ)⁻¹) := Real.rpow_pos_of_pos h0 _
  have hl : q ^ ((n : ℝ)⁻¹) < 1 := Real.rpow_lt_one h0.le h1 (by positivity)
  refine ⟨q ^ ((n : ℝ)⁻¹), hp, hl, e, fun j => ?_⟩
  generalize q ^ ((n : ℝ)⁻¹) = ρ at *
  have h2 : j ≤ n * (j / n) + n := by
    have := Nat.div_add_mod j n
    have := Nat.mod_lt j hn
    omega
  have h3 : ρ ^ (n * (j / n) + n) ≤ ρ ^ j := pow_le_pow_of_le_one hp.le hl.le h2
  rw [pow_add, pow_mul, e] at h3
  rw [le_inv_mul_iff₀ h0, mul_comm]
  exact h3

end KK
