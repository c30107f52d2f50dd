import Verif.Props.Riccati
import Verif.Props.Stability
import Verif.Spec.Observable
import Mathlib.Analysis.InnerProductSpace.Positive
import Mathlib.LinearAlgebra.Basis.VectorSpace

/-! # Observable and controllable constant models: bounds and contraction of the covariance recursion -/

set_option linter.unusedSectionVars false

namespace KK

open Matrix Filter Topology

variable {n m : ℕ}

/-- A PD matrix dominates every PSD matrix, up to a factor. -/
theorem exists_dominating {N C : Matrix (Fin n) (Fin n) ℝ} (hN : N.PosDef) (hC : C.PosSemidef) :
    ∃ t : ℝ, 1 ≤ t ∧ (t • N - C).PosSemidef := by
  obtain ⟨k, v, hv⟩ := Matrix.posSemidef_iff_eq_sum_vecMulVec.1 hC
  have hnn : ∀ i, 0 ≤ mahal N (v i) := fun i => mahal_nonneg hN _
  refine ⟨1 + ∑ i, mahal N (v i), by linarith [Finset.sum_nonneg fun i (_ : i ∈ Finset.univ) => hnn i], ?_⟩
  have hsym : Cᵀ = C := IsHermitian.symm' hC.1
  refine Matrix.posSemidef_iff_dotProduct_mulVec.2 ⟨isHermitian_of_symm ?_, fun y => ?_⟩
  · rw [transpose_sub, transpose_smul, hsym, IsHermitian.symm' hN.1]
  rw [star_trivial, sub_mulVec, smul_mulVec, dotProduct_sub, dotProduct_smul, smul_eq_mul]
  have hy : 0 ≤ y ⬝ᵥ (N *ᵥ y) := by
    have := hN.posSemidef.dotProduct_mulVec_nonneg y; rwa [star_trivial] at this
  -- Cauchy-Schwarz
  have cs : ∀ i, (y ⬝ᵥ v i) ^ 2 ≤ mahal N (v i) * (y ⬝ᵥ (N *ᵥ y)) := by
    intro i
    have h : ∀ c : ℝ, 0 ≤ (y ⬝ᵥ (N *ᵥ y)) * (c * c) + (-(2 * (y ⬝ᵥ v i))) * c + mahal N (v i) := by
      intro c
      have := le_mahal hN (v i) (c • y)
      rw [mulVec_smul, smul_dotProduct, smul_dotProduct, dotProduct_smul] at this
      simp only [smul_eq_mul] at this
      linarith
    have hd := discrim_le_zero h
    rw [discrim] at hd
    nlinarith
  have e : y ⬝ᵥ (C *ᵥ y) = ∑ i, (y ⬝ᵥ v i) ^ 2 := by
    rw [hv, Matrix.sum_mulVec, dotProduct_sum]
    refine Finset.sum_congr rfl fun i _ => ?_
    rw [star_trivial, vecMulVec_mulVec, dotProduct_smul, MulOpposite.smul_eq_mul_unop, MulOpposite.unop_op,
      dotProduct_comm (v i) y]
    ring
  rw [e, add_mul, Finset.sum_mul]
  have := Finset.sum_le_sum fun i (_ : i ∈ Finset.univ) => cs i
  linarith

section
variable {A Q : Matrix (Fin n) (Fin n) ℝ} {H : Matrix (Fin m) (Fin n) ℝ} {R : Matrix (Fin m) (Fin m) ℝ}

/-- The error covariance after `k` steps with the fixed gains `K 0, K 1, ...`. -/
noncomputable def withGains (A Q : Matrix (Fin n) (Fin n) ℝ) (H : Matrix (Fin m) (Fin n) ℝ) (R : Matrix (Fin m) (Fin m) ℝ)
    (K : ℕ → Matrix (Fin n) (Fin m) ℝ) (P : Matrix (Fin n) (Fin n) ℝ) : ℕ → Matrix (Fin n) (Fin n) ℝ
  | 0 => P
  | k + 1 => josephCov (K k) H (priorCov A (withGains A Q H R K P k) Q) R

/-- The error after `k` steps, as a multiple of the initial error. -/
noncomputable def propagator (A : Matrix (Fin n) (Fin n) ℝ) (H : Matrix (Fin m) (Fin n) ℝ)
    (K : ℕ → Matrix (Fin n) (Fin m) ℝ) : ℕ → Matrix (Fin n) (Fin n) ℝ
  | 0 => 1
  | k + 1 => (1 - K k * H) * A * propagator A H K k

theorem withGains_affine (K : ℕ → Matrix (Fin n) (Fin m) ℝ) (P : Matrix (Fin n) (Fin n) ℝ) (k : ℕ) :
    withGains A Q H R K P k = propagator A H K k * P * (propagator A H K k)ᵀ + withGains A Q H R K 0 k := by
  induction k with
  | zero => simp [withGains, propagator]
  | succ k ih =>
    rw [withGains, ih, withGains, propagator]
    simp only [josephCov, priorCov, transpose_mul, Matrix.mul_add, Matrix.add_mul, Matrix.mul_assoc]
    abel

theorem joseph_step_mono (L : Matrix (Fin n) (Fin m) ℝ) {P P' : Matrix (Fin n) (Fin n) ℝ} (h : (P' - P).PosSemidef) :
    (josephCov L H (priorCov A P' Q) R - josephCov L H (priorCov A P Q) R).PosSemidef := by
  have := posSemidef_conj (posSemidef_conj h A) (1 - L * H)
  convert this using 1
  simp only [josephCov, priorCov, Matrix.mul_add, Matrix.add_mul, Matrix.mul_sub, Matrix.sub_mul]
  abel

theorem ric_le_joseph (hQ : Q.PosSemidef) (hR : R.PosDef) {P : Matrix (Fin n) (Fin n) ℝ} (hP : P.PosSemidef)
    (L : Matrix (Fin n) (Fin m) ℝ) : (josephCov L H (priorCov A P Q) R - ric A H Q R P).PosSemidef := by
  have hp : (priorCov A P Q).PosSemidef := priorCov_posSemidef hP hQ
  have hS := innovCov_posDef (H := H) hp hR
  rw [josephCov_eq L (IsHermitian.symm' hp.1) (IsHermitian.symm' hR.1) (posDef_det_ne hS), ric, add_sub_cancel_left]
  exact posSemidef_conj hS.posSemidef _

theorem iter_le_withGains (hQ : Q.PosSemidef) (hR : R.PosDef) {P : Matrix (Fin n) (Fin n) ℝ} (hP : P.PosSemidef)
    (K : ℕ → Matrix (Fin n) (Fin m) ℝ) (k : ℕ) :
    (withGains A Q H R K P k - (ric A H Q R)^[k] P).PosSemidef := by
  induction k with
  | zero => simp [withGains, Matrix.PosSemidef.zero]
  | succ k ih =>
    rw [withGains, Function.iterate_succ_apply']
    have h1 := joseph_step_mono (A := A) (Q := Q) (H := H) (R := R) (K k) ih
    have h2 := ric_le_joseph (A := A) (H := H) hQ hR (iter_psd (A := A) (H := H) hQ hR hP k) (K k)
    have := h1.add h2
    rwa [sub_add_sub_cancel] at this

/-- The gains of the filter started from `P`. -/
noncomputable def ownGains (A Q : Matrix (Fin n) (Fin n) ℝ) (H : Matrix (Fin m) (Fin n) ℝ) (R : Matrix (Fin m) (Fin m) ℝ)
    (P : Matrix (Fin n) (Fin n) ℝ) (k : ℕ) : Matrix (Fin n) (Fin m) ℝ :=
  kGain H (priorCov A ((ric A H Q R)^[k] P) Q) R

theorem withGains_own (hQ : Q.PosSemidef) (hR : R.PosDef) {P : Matrix (Fin n) (Fin n) ℝ} (hP : P.PosSemidef) (k : ℕ) :
    withGains A Q H R (ownGains A Q H R P) P k = (ric A H Q R)^[k] P := by
  induction k with
  | zero => rfl
  | succ k ih =>
    rw [withGains, ih, Function.iterate_succ_apply', ric]
    have hp := priorCov_posSemidef (A := A) (iter_psd (A := A) (H := H) hQ hR hP k) hQ
    have hS := innovCov_posDef (H := H) hp hR
    rw [josephCov_eq _ (IsHermitian.symm' hp.1) (IsHermitian.symm' hR.1) (posDef_det_ne hS), ownGains, sub_self]
    simp

theorem psd_kernel {k : ℕ} {M : Matrix (Fin k) (Fin k) ℝ} (h : M.PosSemidef) {v : Fin k → ℝ} (hv : v ⬝ᵥ (M *ᵥ v) = 0) :
    M *ᵥ v = 0 := by
  have := (h.dotProduct_mulVec_zero_iff v).1 (by rwa [star_trivial])
  exact this

theorem quad_conj {a b : ℕ} (B : Matrix (Fin a) (Fin b) ℝ) (M : Matrix (Fin b) (Fin b) ℝ) (y : Fin a → ℝ) :
    y ⬝ᵥ ((B * M * Bᵀ) *ᵥ y) = (Bᵀ *ᵥ y) ⬝ᵥ (M *ᵥ (Bᵀ *ᵥ y)) := by
  rw [← mulVec_mulVec, ← mulVec_mulVec, dotProduct_mulVec, ← mulVec_transpose]

theorem withGains_psd (hQ : Q.PosSemidef) (hR : R.PosSemidef) (K : ℕ → Matrix (Fin n) (Fin m) ℝ)
    {P : Matrix (Fin n) (Fin n) ℝ} (hP : P.PosSemidef) (k : ℕ) : (withGains A Q H R K P k).PosSemidef := by
  induction k with
  | zero => exact hP
  | succ k ih => exact (posSemidef_conj (priorCov_posSemidef ih hQ) _).add (posSemidef_conj hR _)

/-- A direction without error after `k` steps has had no noise in any of them. -/
theorem withGains_null (hQ : Q.PosSemidef) (hR : R.PosDef) (K : ℕ → Matrix (Fin n) (Fin m) ℝ) (k : ℕ) (y : Fin n → ℝ)
    (hy : y ⬝ᵥ (withGains A Q H R K 0 k *ᵥ y) = 0) : ∀ i < k, Q *ᵥ ((Aᵀ ^ i) *ᵥ y) = 0 := by
  induction k generalizing y with
  | zero => simp
  | succ k ih =>
    have hW := withGains_psd (A := A) (H := H) hQ hR.posSemidef K Matrix.PosSemidef.zero k
    rw [withGains, josephCov, add_mulVec, dotProduct_add, quad_conj, quad_conj] at hy
    have h1 := (priorCov_posSemidef (A := A) hW hQ).dotProduct_mulVec_nonneg ((1 - K k * H)ᵀ *ᵥ y)
    have h2 := hR.posSemidef.dotProduct_mulVec_nonneg ((K k)ᵀ *ᵥ y)
    rw [star_trivial] at h1 h2
    have hK : (K k)ᵀ *ᵥ y = 0 := by
      by_contra hne
      have := hR.dotProduct_mulVec_pos hne
      rw [star_trivial] at this
      linarith
    have e : (1 - K k * H)ᵀ *ᵥ y = y := by
      rw [transpose_sub, transpose_one, transpose_mul, sub_mulVec, one_mulVec, ← mulVec_mulVec, hK, mulVec_zero, sub_zero]
    have hp : y ⬝ᵥ (priorCov A (withGains A Q H R K 0 k) Q *ᵥ y) = 0 := by
      rw [e] at hy h1; linarith
    rw [priorCov, add_mulVec, dotProduct_add, quad_conj] at hp
    have h3 := hW.dotProduct_mulVec_nonneg (Aᵀ *ᵥ y)
    have h4 := hQ.dotProduct_mulVec_nonneg y
    rw [star_trivial] at h3 h4
    intro i hi
    rcases i with _ | i
    · rw [pow_zero, one_mulVec]
      exact psd_kernel hQ (by linarith)
    · rw [pow_succ, ← mulVec_mulVec]
      exact ih _ (by linarith) i (by omega)

theorem iter_zero_posDef (hQ : Q.PosSemidef) (hR : R.PosDef) (hc : Controllable A Q) :
    ((ric A H Q R)^[n] 0).PosDef := by
  have hp := iter_psd (A := A) (H := H) hQ hR Matrix.PosSemidef.zero n
  rw [Matrix.posDef_iff_dotProduct_mulVec]
  refine ⟨hp.1, fun {y} hy => ?_⟩
  have h0 := hp.dotProduct_mulVec_nonneg y
  rcases h0.lt_or_eq with h | h
  · exact h
  rw [star_trivial] at h
  have h1 := withGains_null (A := A) (H := H) (R := R) hQ hR (ownGains A Q H R 0) n y
    (by rw [withGains_own hQ hR Matrix.PosSemidef.zero]; exact h.symm)
  refine absurd (hc y fun i hi => ?_) hy
  rw [← h1 i hi, ← mulVec_transpose, transpose_mul, IsHermitian.symm' hQ.1, transpose_pow, mulVec_mulVec]

/-- Some gain projects a subspace onto its part that is not measured. -/
theorem exists_projecting_gain (H : Matrix (Fin m) (Fin n) ℝ) (V : Submodule ℝ (Fin n → ℝ)) :
    ∃ L : Matrix (Fin n) (Fin m) ℝ, ∀ v ∈ V, v - L *ᵥ (H *ᵥ v) ∈ V ∧ H *ᵥ (v - L *ᵥ (H *ᵥ v)) = 0 := by
  obtain ⟨g, hg⟩ := LinearMap.exists_rightInverse_of_surjective (H.mulVecLin.domRestrict V).rangeRestrict
    (LinearMap.range_rangeRestrict _)
  obtain ⟨g', hg'⟩ := LinearMap.exists_extend g
  refine ⟨LinearMap.toMatrix' (V.subtype ∘ₗ g'), fun v hv => ?_⟩
  have e : LinearMap.toMatrix' (V.subtype ∘ₗ g') *ᵥ (H *ᵥ v) = (g' (H *ᵥ v) : Fin n → ℝ) := by
    rw [LinearMap.toMatrix'_mulVec]; rfl
  rw [e]
  refine ⟨V.sub_mem hv (g' _).2, ?_⟩
  have hmem : H *ᵥ v ∈ LinearMap.range (H.mulVecLin.domRestrict V) := ⟨⟨v, hv⟩, rfl⟩
  have h1 : g' (H *ᵥ v) = g ⟨H *ᵥ v, hmem⟩ := LinearMap.congr_fun hg' ⟨H *ᵥ v, hmem⟩
  have h2 := LinearMap.congr_fun hg ⟨H *ᵥ v, hmem⟩
  have h3 : H *ᵥ (g ⟨H *ᵥ v, hmem⟩ : Fin n → ℝ) = H *ᵥ v := congrArg Subtype.val h2
  rw [mulVec_sub, h1, h3, sub_self]

/-- Gains after which only errors invisible so far remain. -/
theorem exists_deadbeat (A : Matrix (Fin n) (Fin n) ℝ) (H : Matrix (Fin m) (Fin n) ℝ) (k : ℕ) :
    ∃ K : ℕ → Matrix (Fin n) (Fin m) ℝ, ∀ v, ∃ w, propagator A H K k *ᵥ v = (A ^ k) *ᵥ w ∧
      ∀ i < k, H *ᵥ ((A ^ (i + 1)) *ᵥ w) = 0 := by
  have key : ∀ k, ∃ L : Matrix (Fin n) (Fin m) ℝ, ∀ w, (∀ i < k, H *ᵥ ((A ^ (i + 1)) *ᵥ w) = 0) →
      ∃ w', (1 - L * H) *ᵥ (A *ᵥ ((A ^ k) *ᵥ w)) = (A ^ (k + 1)) *ᵥ w' ∧
        ∀ i < k + 1, H *ᵥ ((A ^ (i + 1)) *ᵥ w') = 0 := by
    intro k
    let V : Submodule ℝ (Fin n → ℝ) :=
      (⨅ i : Fin k, LinearMap.ker (H * A ^ (i.1 + 1)).mulVecLin).map (A ^ (k + 1)).mulVecLin
    obtain ⟨L, hL⟩ := exists_projecting_gain H V
    refine ⟨L, fun w hw => ?_⟩
    have hv : (A ^ (k + 1)) *ᵥ w ∈ V := by
      refine ⟨w, ?_, rfl⟩
      simp only [SetLike.mem_coe, Submodule.mem_iInf, LinearMap.mem_ker, mulVecLin_apply]
      intro i
      rw [← mulVec_mulVec]
      exact hw i.1 i.2
    obtain ⟨⟨w', hw', e⟩, h2⟩ := hL _ hv
    simp only [SetLike.mem_coe, Submodule.mem_iInf, LinearMap.mem_ker, mulVecLin_apply] at hw' e
    refine ⟨w', ?_, fun i hi => ?_⟩
    · rw [e, sub_mulVec, one_mulVec, ← mulVec_mulVec, mulVec_mulVec (M := A), ← pow_succ']
    · rcases Nat.lt_succ_iff_lt_or_eq.1 hi with hi | rfl
      · have := hw' ⟨i, hi⟩
        rwa [← mulVec_mulVec] at this
      · rw [e]; exact h2
  choose L hL using key
  refine ⟨L, fun v => ?_⟩
  induction k with
  | zero => exact ⟨v, by simp [propagator], by simp⟩
  | succ k ih =>
    obtain ⟨w, e, hw⟩ := ih
    obtain ⟨w', e', hw'⟩ := hL k w hw
    refine ⟨w', ?_, hw'⟩
    rw [propagator, ← mulVec_mulVec, e, ← mulVec_mulVec, e']

/-- Observability bounds the covariance after `n` steps, whatever the initial covariance. -/
theorem iter_le_of_observable (hQ : Q.PosSemidef) (hR : R.PosDef) (ho : Observable A H) :
    ∃ C : Matrix (Fin n) (Fin n) ℝ, C.PosSemidef ∧ ∀ P : Matrix (Fin n) (Fin n) ℝ, P.PosSemidef → ∀ k, n ≤ k →
      (C - (ric A H Q R)^[k] P).PosSemidef := by
  obtain ⟨K, hK⟩ := exists_deadbeat A H n
  have h0 : propagator A H K n = 0 := by
    apply Matrix.ext_of_mulVec_single
    intro j
    obtain ⟨w, e, hw⟩ := hK (Pi.single j 1)
    rw [e, zero_mulVec]
    have hA : A *ᵥ w = 0 := ho _ fun i hi => by
      rw [mulVec_mulVec (M := A ^ i), ← pow_succ]; exact hw i hi
    rcases n with _ | n
    · exact Subsingleton.elim _ _
    · rw [pow_succ, ← mulVec_mulVec, hA, mulVec_zero]
  refine ⟨withGains A Q H R K 0 n, withGains_psd hQ hR.posSemidef K Matrix.PosSemidef.zero n, fun P hP k hk => ?_⟩
  obtain ⟨j, rfl⟩ := Nat.exists_eq_add_of_le hk
  rw [Function.iterate_add_apply]
  have hj := iter_psd (A := A) (H := H) hQ hR hP j
  have := iter_le_withGains (A := A) (H := H) hQ hR hj K n
  rw [withGains_affine, h0] at this
  simpa using this

end

end KK
