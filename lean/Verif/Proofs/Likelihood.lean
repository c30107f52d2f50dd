import Verif.Proofs.Density
import Verif.Props.Posterior

/-!
# Joint density from one-step predictive distributions
-/

namespace KK

open Matrix MeasureTheory ProbabilityTheory
open scoped ENNReal

variable {n m : ℕ} {Ω : Type} [MeasurableSpace Ω]

/-- The first `k` of `K` observations. -/
def firstOf {K : ℕ} (y : Fin K → Fin m → ℝ) (k : Fin K) : Fin k → Fin m → ℝ := fun j => y ⟨j, j.2.trans k.2⟩

theorem firstOf_meas {K : ℕ} (k : Fin K) : Measurable fun y : Fin K → Fin m → ℝ => firstOf y k :=
  measurable_pi_lambda _ fun _ => measurable_pi_apply _

theorem firstObs_meas {z : ℕ → Ω → Fin m → ℝ} {K : ℕ} (hz : ∀ k < K, Measurable (z k)) : Measurable (firstObs z K) :=
  measurable_pi_lambda _ fun k => hz k k.2

/-- The density of `K` observations whose predictive distributions are normal. -/
noncomputable def chainDensity (S : ℕ → Matrix (Fin m) (Fin m) ℝ) (g : ∀ k, (Fin k → Fin m → ℝ) → Fin m → ℝ) (K : ℕ)
    (y : Fin K → Fin m → ℝ) : ℝ≥0∞ :=
  ∏ k : Fin K, ENNReal.ofReal (gaussDensity (S k) (y k - g k (firstOf y k)))

theorem chainDensity_meas {S : ℕ → Matrix (Fin m) (Fin m) ℝ} {g : ∀ k, (Fin k → Fin m → ℝ) → Fin m → ℝ} {K : ℕ}
    (hg : ∀ k < K, Measurable (g k)) : Measurable (chainDensity S g K) :=
  Finset.measurable_prod _ fun k _ => ((gaussDensity_meas _).comp
    ((measurable_pi_apply k).sub ((hg k k.2).comp (firstOf_meas k)))).ennreal_ofReal

theorem law_density (μ : Measure Ω) [IsProbabilityMeasure μ] (z : ℕ → Ω → Fin m → ℝ) (S : ℕ → Matrix (Fin m) (Fin m) ℝ)
    (g : ∀ k, (Fin k → Fin m → ℝ) → Fin m → ℝ) (K : ℕ) (hz : ∀ k < K, Measurable (z k)) (hg : ∀ k < K, Measurable (g k))
    (hS : ∀ k < K, (S k).PosDef)
    (hj : ∀ k < K, ∀ (B : Set (Fin m → ℝ)) (D : Set (Fin k → Fin m → ℝ)), MeasurableSet B → MeasurableSet D →
      μ {ω | z k ω ∈ B ∧ firstObs z k ω ∈ D} =
        ∫⁻ ω in {ω | firstObs z k ω ∈ D}, normal (g k (firstObs z k ω)) (S k) B ∂μ) :
    μ.map (firstObs z K) = (volume : Measure (Fin K → Fin m → ℝ)).withDensity (chainDensity S g K) := by
  induction K with
  | zero =>
    have h1 : chainDensity S g 0 = fun _ => 1 := by funext y; simp [chainDensity]
    rw [h1, withDensity_const, one_smul, volume_pi, Measure.pi_of_empty]
    rw [show firstObs z 0 = fun _ => isEmptyElim from funext fun ω => Subsingleton.elim _ _]
    rw [Measure.map_const]
    simp
  | succ K ih =>
    have ih := ih (fun k hk => hz k (by omega)) (fun k hk => hg k (by omega)) (fun k hk => hS k (by omega))
      fun k hk => hj k (by omega)
    have hzK := firstObs_meas (z := z) (K := K) fun k hk => hz k (by omega)
    have hzK1 := firstObs_meas (z := z) (K := K + 1) hz
    have hgK := hg K (by omega)
    let e := MeasurableEquiv.piFinSuccAbove (fun _ : Fin (K + 1) => Fin m → ℝ) (Fin.last K)
    have he : MeasurePreserving e volume volume := volume_preserving_piFinSuccAbove _ (Fin.last K)
    have hed : Measurable fun p : (Fin m → ℝ) × (Fin K → Fin m → ℝ) =>
        ENNReal.ofReal (gaussDensity (S K) (p.1 - g K p.2)) :=
      ((gaussDensity_meas _).comp (measurable_fst.sub (hgK.comp measurable_snd))).ennreal_ofReal
    have hcd := chainDensity_meas (S := S) (g := g) (K := K) fun k hk => hg k (by omega)
    let F : (Fin m → ℝ) × (Fin K → Fin m → ℝ) → ℝ≥0∞ := fun p =>
      chainDensity S g K p.2 * ENNReal.ofReal (gaussDensity (S K) (p.1 - g K p.2))
    have hF : Measurable F := (hcd.comp measurable_snd).mul hed
    have hFe : ∀ y, chainDensity S g (K + 1) y = F (e y) := by
      intro y
      simp only [F, chainDensity, Fin.prod_univ_castSucc]
      have h1 : (e y).1 = y (Fin.last K) := rfl
      have h2 : (e y).2 = fun j : Fin K => y j.castSucc := by
        funext j
        show y ((Fin.last K).succAbove j) = _
        rw [Fin.succAbove_last]
      rw [h1, h2]
      rfl
    have hmap : ((volume : Measure (Fin (K + 1) → Fin m → ℝ)).withDensity (chainDensity S g (K + 1))).map e =
        (volume : Measure ((Fin m → ℝ) × (Fin K → Fin m → ℝ))).withDensity F := by
      ext s hs
      rw [Measure.map_apply e.measurable hs, withDensity_apply _ (e.measurable hs), withDensity_apply _ hs,
        lintegral_congr hFe, he.setLIntegral_comp_preimage hs hF]
    have hlaw : (μ.map (firstObs z (K + 1))).map e = μ.map fun ω => (z K ω, firstObs z K ω) := by
      rw [Measure.map_map e.measurable hzK1]
      congr 1
      funext ω
      refine Prod.ext rfl ?_
      funext j
      show firstObs z (K + 1) ω ((Fin.last K).succAbove j) = _
      rw [Fin.succAbove_last]
      rfl
    have hpair : Measurable fun ω => (z K ω, firstObs z K ω) := (hz K (by omega)).prodMk hzK
    suffices h : (μ.map fun ω => (z K ω, firstObs z K ω)) =
        (volume : Measure ((Fin m → ℝ) × (Fin K → Fin m → ℝ))).withDensity F by
      rw [← e.map_symm_map (μ := μ.map (firstObs z (K + 1))), hlaw, h, ← hmap, e.map_symm_map]
    haveI : IsFiniteMeasure (μ.map fun ω => (z K ω, firstObs z K ω)) := inferInstance
    refine Measure.ext_prod fun {B D} hB hD => ?_
    rw [Measure.map_apply hpair (hB.prod hD), withDensity_apply _ (hB.prod hD)]
    have h1 := hj K (by omega) B D hB hD
    have hset : (fun ω => (z K ω, firstObs z K ω)) ⁻¹' B ×ˢ D = {ω | z K ω ∈ B ∧ firstObs z K ω ∈ D} := rfl
    rw [hset, h1]
    simp only [normal_density_at (hS K (by omega)) _ hB]
    have hin : Measurable fun y : Fin K → Fin m → ℝ =>
        ∫⁻ v in B, ENNReal.ofReal (gaussDensity (S K) (v - g K y)) := by
      exact Measurable.lintegral_prod_left' (f := fun p : (Fin m → ℝ) × (Fin K → Fin m → ℝ) =>
        ENNReal.ofReal (gaussDensity (S K) (p.1 - g K p.2))) hed
    have h2 := setLIntegral_map (μ := μ) hD hin hzK
    rw [show {ω | firstObs z K ω ∈ D} = firstObs z K ⁻¹' D from rfl, ← h2, ih,
      restrict_withDensity hD, lintegral_withDensity_eq_lintegral_mul _ hcd hin]
    rw [show (volume : Measure ((Fin m → ℝ) × (Fin K → Fin m → ℝ))) = volume.prod volume from rfl, ← Measure.prod_restrict,
      lintegral_prod_symm _ hF.aemeasurable]
    refine lintegral_congr fun y => ?_
    simp only [F, Pi.mul_apply]
    rw [lintegral_const_mul]
    exact ((gaussDensity_meas _).comp (measurable_id.sub_const _)).ennreal_ofReal

end KK
