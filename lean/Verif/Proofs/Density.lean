import Verif.Spec.Likelihood
import Verif.Proofs.Posterior
import Mathlib.MeasureTheory.Measure.Lebesgue.Basic
import Mathlib.MeasureTheory.Constructions.Pi
import Mathlib.Analysis.Matrix.PosDef

/-!
# The density of the multivariate normal distribution
-/

namespace KK

open Matrix MeasureTheory ProbabilityTheory
open scoped ENNReal MatrixOrder

variable {n m : ℕ}

theorem lintegral_pi_prod {X : Type} [MeasurableSpace X] (ν : Measure X) [SigmaFinite ν] : ∀ (n : ℕ) (f : Fin n → X → ℝ≥0∞),
    (∀ i, Measurable (f i)) →
    ∫⁻ x, ∏ i, f i (x i) ∂(Measure.pi fun _ : Fin n => ν) = ∏ i, ∫⁻ t, f i t ∂ν
  | 0, f, _ => by simp
  | n + 1, f, hf => by
    have hmp := measurePreserving_piFinSuccAbove (fun _ : Fin (n + 1) => ν) 0
    have h1 : ∀ x : Fin (n + 1) → X, ∏ i, f i (x i) =
        (fun p : X × (Fin n → X) => f 0 p.1 * ∏ i, f i.succ (p.2 i))
          (MeasurableEquiv.piFinSuccAbove (fun _ => X) 0 x) := by
      intro x
      rw [Fin.prod_univ_succ]
      rfl
    rw [lintegral_congr h1]
    refine (hmp.lintegral_comp_emb (MeasurableEquiv.measurableEmbedding _)
      fun p : X × (Fin n → X) => f 0 p.1 * ∏ i, f i.succ (p.2 i)).trans ?_
    rw [lintegral_prod_mul (g := fun p : Fin n → X => ∏ i, f i.succ (p i)) (hf 0).aemeasurable
      (Finset.measurable_prod _ fun i _ => (hf i.succ).comp (measurable_pi_apply i)).aemeasurable,
      lintegral_pi_prod ν n _ fun i => hf i.succ, Fin.prod_univ_succ]

theorem pi_withDensity {X : Type} [MeasurableSpace X] (ν : Measure X) [SigmaFinite ν] (f : X → ℝ≥0∞) (hf : Measurable f)
    [SigmaFinite (ν.withDensity f)] :
    Measure.pi (fun _ : Fin n => ν.withDensity f) = (Measure.pi fun _ => ν).withDensity fun x => ∏ i, f (x i) := by
  refine (Measure.pi_eq fun s hs => ?_)
  rw [withDensity_apply _ (MeasurableSet.univ_pi hs), ← lintegral_indicator (MeasurableSet.univ_pi hs)]
  have h1 : ∀ x : Fin n → X, (Set.univ.pi s).indicator (fun x => ∏ i, f (x i)) x = ∏ i, (s i).indicator f (x i) := by
    intro x
    by_cases hx : x ∈ Set.univ.pi s
    · rw [Set.indicator_of_mem hx]
      exact Finset.prod_congr rfl fun i _ => by rw [Set.indicator_of_mem (hx i trivial)]
    · rw [Set.indicator_of_notMem hx]
      simp only [Set.mem_univ_pi, not_forall] at hx
      obtain ⟨i, hi⟩ := hx
      exact (Finset.prod_eq_zero (Finset.mem_univ i) (Set.indicator_of_notMem hi _)).symm
  simp only [h1]
  rw [lintegral_pi_prod ν n _ fun i => hf.indicator (hs i)]
  exact Finset.prod_congr rfl fun i _ => by rw [lintegral_indicator (hs i), withDensity_apply _ (hs i)]

/-- The product of standard normal densities. -/
theorem std_density : Measure.pi (fun _ : Fin m => gaussianReal 0 1) =
    (volume : Measure (Fin m → ℝ)).withDensity fun x => ENNReal.ofReal (gaussDensity 1 x) := by
  have h : gaussianReal 0 1 = (volume : Measure ℝ).withDensity (gaussianPDF 0 1) := gaussianReal_of_var_ne_zero 0 one_ne_zero
  have hs : SigmaFinite ((volume : Measure ℝ).withDensity (gaussianPDF 0 1)) := by rw [← h]; infer_instance
  rw [h, pi_withDensity _ _ (measurable_gaussianPDF 0 1)]
  rw [← volume_pi]
  congr 1
  funext x
  simp only [gaussianPDF]
  rw [← ENNReal.ofReal_prod_of_nonneg fun i _ => gaussianPDFReal_nonneg _ _ _]
  congr 1
  simp only [gaussianPDFReal, gaussDensity, Finset.prod_mul_distrib, Finset.prod_const, ← Real.exp_sum]
  simp only [Finset.card_univ, Fintype.card_fin, NNReal.coe_one, mul_one, sub_zero, det_one, inv_one, one_mulVec]
  rw [inv_pow]
  congr 2
  · rw [Real.sqrt_eq_rpow, Real.sqrt_eq_rpow, ← Real.rpow_natCast, ← Real.rpow_natCast, ← Real.rpow_mul (by positivity),
      ← Real.rpow_mul (by positivity), mul_comm (1 / 2 : ℝ)]
  · rw [← Finset.sum_div, Finset.sum_neg_distrib, dotProduct]
    simp only [sq]

/-- Change of variables by an invertible matrix. -/
theorem map_withDensity_matrix (L : Matrix (Fin m) (Fin m) ℝ) (hL : L.det ≠ 0) (f : (Fin m → ℝ) → ℝ≥0∞) (hf : Measurable f) :
    ((volume : Measure (Fin m → ℝ)).withDensity f).map (fun x => L *ᵥ x) =
      (volume : Measure (Fin m → ℝ)).withDensity fun y => ENNReal.ofReal |L.det⁻¹| * f (L⁻¹ *ᵥ y) := by
  have hu : IsUnit L.det := isUnit_iff_ne_zero.2 hL
  have hm : Measurable fun x : Fin m → ℝ => L *ᵥ x := (Continuous.matrix_mulVec continuous_const continuous_id).measurable
  have hm' : Measurable fun x : Fin m → ℝ => L⁻¹ *ᵥ x := (Continuous.matrix_mulVec continuous_const continuous_id).measurable
  ext s hs
  have hv : ((volume : Measure (Fin m → ℝ)).map fun x => L *ᵥ x) = ENNReal.ofReal |L.det⁻¹| • volume :=
    Real.map_matrix_volume_pi_eq_smul_volume_pi hL
  rw [Measure.map_apply hm hs, withDensity_apply _ (hm hs), withDensity_apply _ hs, 
    lintegral_const_mul (μ := volume.restrict s) (f := fun y => f (L⁻¹ *ᵥ y)) _ (hf.comp hm')]
  have h1 : ∀ x, f x = (fun y => f (L⁻¹ *ᵥ y)) (L *ᵥ x) := fun x => by
    simp only [mulVec_mulVec, nonsing_inv_mul _ hu, one_mulVec]
  rw [lintegral_congr h1, ← setLIntegral_map (f := fun y => f (L⁻¹ *ᵥ y)) hs (hf.comp hm') hm, hv, Measure.restrict_smul, lintegral_smul_measure]
  rfl

theorem normal_zero_eq (S : Matrix (Fin m) (Fin m) ℝ) :
    normal 0 S = (Measure.pi fun _ : Fin m => gaussianReal 0 1).map fun x => CFC.sqrt S *ᵥ x := by
  rw [normal, multivariateGaussian, ← map_pi_eq_stdGaussian, Measure.map_map (by fun_prop) toLp_meas,
    Measure.map_map ofLp_meas (by fun_prop)]
  congr 1
  funext x
  simp [Function.comp]

theorem sqrt_mul_sqrt {S : Matrix (Fin m) (Fin m) ℝ} (hS : S.PosDef) : CFC.sqrt S * CFC.sqrt S = S :=
  CFC.sqrt_mul_sqrt_self S (Matrix.nonneg_iff_posSemidef.2 hS.posSemidef)

theorem sqrt_det_sq {S : Matrix (Fin m) (Fin m) ℝ} (hS : S.PosDef) : (CFC.sqrt S).det * (CFC.sqrt S).det = S.det := by
  rw [← det_mul, sqrt_mul_sqrt hS]

theorem sqrt_transpose (S : Matrix (Fin m) (Fin m) ℝ) : (CFC.sqrt S)ᵀ = CFC.sqrt S := by
  have h : (CFC.sqrt S).PosSemidef := Matrix.nonneg_iff_posSemidef.1 (CFC.sqrt_nonneg S)
  have := h.isHermitian
  rwa [IsHermitian, conjTranspose_eq_transpose_of_trivial] at this

theorem gaussDensity_meas (S : Matrix (Fin m) (Fin m) ℝ) : Measurable (gaussDensity S) := by
  refine Measurable.const_mul (Real.measurable_exp.comp ?_) _
  refine Measurable.div_const (Measurable.neg ?_) _
  exact (continuous_id.dotProduct (Continuous.matrix_mulVec continuous_const continuous_id)).measurable

/-- The normal distribution with positive definite covariance has the density `gaussDensity`. -/
theorem normal_density {S : Matrix (Fin m) (Fin m) ℝ} (hS : S.PosDef) :
    normal 0 S = (volume : Measure (Fin m → ℝ)).withDensity fun y => ENNReal.ofReal (gaussDensity S y) := by
  have hd := hS.det_pos
  have hL := sqrt_det_sq hS
  have hne : (CFC.sqrt S).det ≠ 0 := fun h0 => by rw [h0] at hL; simp at hL; exact hd.ne' hL.symm
  rw [normal_zero_eq, std_density, map_withDensity_matrix _ hne _ (gaussDensity_meas 1).ennreal_ofReal]
  congr 1
  funext y
  rw [← ENNReal.ofReal_mul (abs_nonneg _)]
  congr 1
  simp only [gaussDensity, det_one, mul_one, inv_one, one_mulVec]
  have h1 : √((2 * Real.pi) ^ m * S.det) = √((2 * Real.pi) ^ m) * |(CFC.sqrt S).det| := by
    rw [Real.sqrt_mul (by positivity), ← hL, Real.sqrt_mul_self_eq_abs]
  have h2 : ((CFC.sqrt S)⁻¹ *ᵥ y) ⬝ᵥ ((CFC.sqrt S)⁻¹ *ᵥ y) = y ⬝ᵥ S⁻¹ *ᵥ y := by
    have h3 : S⁻¹ = (CFC.sqrt S)⁻¹ * (CFC.sqrt S)⁻¹ := by rw [← Matrix.mul_inv_rev, sqrt_mul_sqrt hS]
    rw [h3, ← mulVec_mulVec, dotProduct_mulVec y, ← mulVec_transpose, transpose_nonsing_inv, sqrt_transpose]
  rw [h1, h2, abs_inv, mul_inv]
  ring

theorem normal_density_at {S : Matrix (Fin m) (Fin m) ℝ} (hS : S.PosDef) (x : Fin m → ℝ) {B : Set (Fin m → ℝ)}
    (hB : MeasurableSet B) :
    normal x S B = ∫⁻ y in B, ENNReal.ofReal (gaussDensity S (y - x)) := by
  have hm : Measurable fun y : Fin m → ℝ => y + x := measurable_id.add_const x
  rw [normal_shift, Measure.map_apply hm hB, normal_density hS, withDensity_apply _ (hm hB)]
  have h1 : ∀ y : Fin m → ℝ, ENNReal.ofReal (gaussDensity S y) =
    (fun y => ENNReal.ofReal (gaussDensity S (y - x))) (y + x) := fun y => by simp
  rw [lintegral_congr h1, ← setLIntegral_map (f := fun y => ENNReal.ofReal (gaussDensity S (y - x))) hB
    ((gaussDensity_meas S).comp (measurable_id.sub_const x)).ennreal_ofReal hm]
  rw [map_add_right_eq_self]

theorem gaussDensity_pos {S : Matrix (Fin m) (Fin m) ℝ} (hS : S.PosDef) (v : Fin m → ℝ) : 0 < gaussDensity S v :=
  mul_pos (inv_pos.2 (Real.sqrt_pos.2 (mul_pos (by positivity) hS.det_pos))) (Real.exp_pos _)

end KK
