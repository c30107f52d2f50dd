import Verif.Spec.Posterior
import Verif.Proofs.StochRun
import Verif.Spec.Robust

/-!
# Error bars and posterior distributions: proofs
-/

set_option linter.unusedSectionVars false

namespace KK

open Matrix MeasureTheory ProbabilityTheory

variable {n m : ℕ} {Ω : Type} [MeasurableSpace Ω] {μ : Measure Ω} [IsProbabilityMeasure μ] {z : ℕ → Ω → Fin m → ℝ} {K : ℕ}
  {X xh : Ω → Fin n → ℝ} {P : Matrix (Fin n) (Fin n) ℝ}

/-- Chebyshev's inequality. -/
theorem Conservative.errorBars (h : Conservative μ X xh P) : ErrorBars μ X xh P := by
  intro c t ht
  obtain ⟨hi, hle⟩ := h c
  have h1 := mul_meas_ge_le_integral_of_nonneg (μ := μ) (f := fun ω => (c ⬝ᵥ (X ω - xh ω)) ^ 2)
    (.of_forall fun ω => sq_nonneg _) hi (t ^ 2)
  have h2 : {ω | t ≤ |c ⬝ᵥ (X ω - xh ω)|} = {ω | t ^ 2 ≤ (c ⬝ᵥ (X ω - xh ω)) ^ 2} := by
    ext ω
    simp only [Set.mem_setOf_eq]
    rw [← sq_abs (c ⬝ᵥ (X ω - xh ω))]
    exact (pow_le_pow_iff_left₀ ht.le (abs_nonneg _) (by norm_num)).symm
  rw [h2]
  refine (ENNReal.le_ofReal_iff_toReal_le (measure_ne_top _ _) ?_).2 ?_
  · exact div_nonneg ((integral_nonneg fun ω => sq_nonneg _).trans hle) (by positivity)
  · rw [le_div_iff₀ (by positivity), mul_comm]
    exact h1.trans hle

theorem Calibrated.functional (h : Calibrated μ X xh P) (c : Fin n → ℝ) :
    MemLp (fun ω => c ⬝ᵥ (X ω - xh ω)) 2 μ ∧ ∫ ω, c ⬝ᵥ (X ω - xh ω) ∂μ = 0 ∧
      ∀ d : Fin n → ℝ, ∫ ω, (c ⬝ᵥ (X ω - xh ω)) * (d ⬝ᵥ (X ω - xh ω)) ∂μ = c ⬝ᵥ P *ᵥ d := by
  have hint : ∀ i, Integrable (fun ω => c i * (X ω i - xh ω i)) μ := fun i =>
    ((h.sq i).integrable (by norm_num)).const_mul _
  refine ⟨?_, ?_, fun d => ?_⟩
  · have : (fun ω => c ⬝ᵥ (X ω - xh ω)) = ∑ i, fun ω => c i * (X ω i - xh ω i) := by
      funext ω
      rw [Finset.sum_apply]
      rfl
    rw [this]
    exact memLp_finset_sum' _ fun i _ => (h.sq i).const_mul _
  · simp only [dotProduct, Pi.sub_apply]
    rw [integral_finset_sum _ fun i _ => hint i]
    refine Finset.sum_eq_zero fun i _ => ?_
    rw [integral_const_mul, h.mean i, mul_zero]
  · have hij : ∀ i j, Integrable (fun ω => c i * d j * ((X ω i - xh ω i) * (X ω j - xh ω j))) μ := fun i j =>
      ((h.sq i).integrable_mul (h.sq j)).const_mul _
    have : ∀ ω, (c ⬝ᵥ (X ω - xh ω)) * (d ⬝ᵥ (X ω - xh ω)) =
        ∑ i, ∑ j, c i * d j * ((X ω i - xh ω i) * (X ω j - xh ω j)) := fun ω => by
      simp only [dotProduct, Pi.sub_apply]
      rw [Finset.sum_mul_sum]
      refine Finset.sum_congr rfl fun i _ => Finset.sum_congr rfl fun j _ => by ring
    simp only [this]
    rw [integral_finset_sum _ fun i _ => integrable_finset_sum _ fun j _ => hij i j, dotProduct]
    refine Finset.sum_congr rfl fun i _ => ?_
    rw [integral_finset_sum _ fun j _ => hij i j, mulVec, dotProduct, Finset.mul_sum]
    refine Finset.sum_congr rfl fun j _ => ?_
    rw [integral_const_mul, h.cov]
    ring

theorem Calibrated.conservative (h : Calibrated μ X xh P) : Conservative μ X xh P := by
  intro c
  obtain ⟨h1, -, h3⟩ := h.functional c
  refine ⟨h1.integrable_sq, ?_⟩
  rw [← h3 c]
  exact le_of_eq (integral_congr_ae (.of_forall fun ω => by simp only; ring))

theorem Calibrated.posSemidef (h : Calibrated μ X xh P) : P.PosSemidef := by
  refine Matrix.PosSemidef.of_dotProduct_mulVec_nonneg ?_ fun c => ?_
  · ext i j
    rw [conjTranspose_apply, star_trivial, ← h.cov, ← h.cov]
    exact integral_congr_ae (.of_forall fun ω => by simp only; ring)
  · rw [star_trivial, ← (h.functional c).2.2 c]
    exact integral_nonneg fun ω => mul_self_nonneg _

/-! ### the normal distribution -/

theorem toLp_meas : Measurable (WithLp.toLp 2 : (Fin n → ℝ) → EuclideanSpace ℝ (Fin n)) :=
  (MeasurableEquiv.toLp 2 (Fin n → ℝ)).measurable

theorem ofLp_meas : Measurable (WithLp.ofLp : EuclideanSpace ℝ (Fin n) → Fin n → ℝ) :=
  (MeasurableEquiv.toLp 2 (Fin n → ℝ)).symm.measurable

instance normal_prob (x : Fin n → ℝ) : IsProbabilityMeasure (normal x P) := by
  unfold normal
  exact Measure.isProbabilityMeasure_map ofLp_meas.aemeasurable

/-- The law of a Gaussian error. -/
theorem Calibrated.law (h : Calibrated μ X xh P) (hG : HasGaussianLaw (fun ω => X ω - xh ω) μ) :
    μ.map (fun ω => X ω - xh ω) = normal 0 P := by
  have hm : AEMeasurable (fun ω => X ω - xh ω) μ := hG.aemeasurable
  have hP := h.posSemidef
  obtain ⟨E, hE⟩ : ∃ E : Ω → EuclideanSpace ℝ (Fin n), E = fun ω => WithLp.toLp 2 (X ω - xh ω) := ⟨_, rfl⟩
  have hEm : AEMeasurable E μ := hE ▸ toLp_meas.comp_aemeasurable hm
  have hEG : HasGaussianLaw E μ := by
    have := HasGaussianLaw.toLp_pi (X := fun i ω => X ω i - xh ω i) 2 hG
    rw [hE]
    exact this
  have key : μ.map E = multivariateGaussian 0 P := by
    have : IsGaussian (μ.map E) := hEG.isGaussian_map
    apply IsGaussian.ext
    · rw [integral_id_multivariateGaussian']
      rw [integral_map hEm (by fun_prop)]
      ext i
      have h1 := (EuclideanSpace.proj (𝕜 := ℝ) i).integral_comp_comm (μ := μ) (φ := fun ω => id (E ω)) hEG.integrable
      refine (Eq.trans ?_ h1.symm).trans ?_
      · rfl
      · rw [hE]
        exact h.mean i
    · rw [← ContinuousLinearMap.toBilinForm_inj]
      refine LinearMap.BilinForm.ext_basis (EuclideanSpace.basisFun (Fin n) ℝ).toBasis fun i j => ?_
      rw [ContinuousLinearMap.toBilinForm_apply, ContinuousLinearMap.toBilinForm_apply,
        covarianceBilin_apply_eq_cov IsGaussian.memLp_two_id, covariance_map]
      · rw [covarianceBilin_multivariateGaussian hP]
        have (i : Fin n) : (fun u => inner ℝ ((EuclideanSpace.basisFun (Fin n) ℝ).toBasis i) u) ∘ E =
            fun ω => X ω i - xh ω i := by
          funext ω
          simp [hE, PiLp.inner_apply]
        rw [this, this, covariance_eq_sub (h.sq i) (h.sq j), h.mean i, zero_mul, sub_zero]
        have := h.cov i j
        simp only [Pi.mul_apply]
        rw [this]
        simp
      all_goals first | exact hEm | exact Measurable.aestronglyMeasurable (by fun_prop)
  have : (fun ω => X ω - xh ω) = WithLp.ofLp ∘ E := by rw [hE]; rfl
  rw [this, ← AEMeasurable.map_map_of_aemeasurable ofLp_meas.aemeasurable hEm, key]
  rfl

theorem normal_shift (x : Fin n → ℝ) : normal x P = (normal 0 P).map fun y => y + x := by
  have hm : Measurable fun y : EuclideanSpace ℝ (Fin n) => y + WithLp.toLp 2 x := measurable_id.add_const _
  have h1 : multivariateGaussian (WithLp.toLp 2 x) P =
      (multivariateGaussian (0 : EuclideanSpace ℝ (Fin n)) P).map fun y => y + WithLp.toLp 2 x := by
    rw [multivariateGaussian, multivariateGaussian, Measure.map_map hm (by fun_prop)]
    congr 1
    funext y
    simp only [Function.comp, zero_add]
    exact add_comm _ _
  have hs : Measurable fun y : Fin n → ℝ => y + x := measurable_id.add_const x
  have h0 : (WithLp.toLp 2 (0 : Fin n → ℝ) : EuclideanSpace ℝ (Fin n)) = 0 := rfl
  rw [normal, h1, normal, h0, Measure.map_map ofLp_meas hm, Measure.map_map hs ofLp_meas]
  rfl

theorem dot_meas (c : Fin n → ℝ) : Measurable fun y : Fin n → ℝ => c ⬝ᵥ y :=
  Finset.measurable_sum _ fun i _ => (measurable_pi_apply i).const_mul _

theorem normal_functional (hP : P.PosSemidef) (x c : Fin n → ℝ) :
    (normal x P).map (fun y => c ⬝ᵥ y) = gaussianReal (c ⬝ᵥ x) (c ⬝ᵥ P *ᵥ c).toNNReal := by
  obtain ⟨L, hL⟩ : ∃ L : EuclideanSpace ℝ (Fin n) →L[ℝ] ℝ, L = innerSL ℝ (WithLp.toLp 2 c) := ⟨_, rfl⟩
  have hLc : ∀ y : EuclideanSpace ℝ (Fin n), L y = c ⬝ᵥ WithLp.ofLp y := fun y => by
    rw [hL, innerSL_apply_apply, PiLp.inner_apply, dotProduct]
    refine Finset.sum_congr rfl fun i _ => ?_
    simp [mul_comm]
  have he : (fun y : Fin n → ℝ => c ⬝ᵥ y) ∘ (WithLp.ofLp : EuclideanSpace ℝ (Fin n) → Fin n → ℝ) = L := by
    funext y
    exact (hLc y).symm
  rw [normal, Measure.map_map (dot_meas c) ofLp_meas, he, IsGaussian.map_eq_gaussianReal,
    ContinuousLinearMap.integral_comp_id_comm IsGaussian.integrable_id, integral_id_multivariateGaussian, hLc]
  congr 2
  have h2 := covarianceBilin_multivariateGaussian (μ := WithLp.toLp 2 x) hP (WithLp.toLp 2 c) (WithLp.toLp 2 c)
  rw [covarianceBilin_apply_eq_cov IsGaussian.memLp_two_id, covariance_self (by fun_prop)] at h2
  rw [hL]
  exact h2

/-- An error that is Gaussian and independent of the data gives the posterior. -/
theorem posterior_of (h : Calibrated μ X xh P) (hG : HasGaussianLaw (fun ω => X ω - xh ω) μ)
    (hi : IndepFun (fun ω => X ω - xh ω) (firstObs z K) μ) (hz : Measurable (firstObs z K))
    (hk : ∃ g : (Fin K → Fin m → ℝ) → Fin n → ℝ, Measurable g ∧ ∀ ω, xh ω = g (firstObs z K ω)) : Posterior μ z K X xh P := by
  have joint : ∀ (B : Set (Fin n → ℝ)) (D : Set (Fin K → Fin m → ℝ)), MeasurableSet B → MeasurableSet D →
      μ {ω | X ω ∈ B ∧ firstObs z K ω ∈ D} = ∫⁻ ω in {ω | firstObs z K ω ∈ D}, normal (xh ω) P B ∂μ := by
    intro B D hB hD
    obtain ⟨g, hg, hxg⟩ := hk
    have hm : AEMeasurable (fun ω => X ω - xh ω) μ := hG.aemeasurable
    have hprod := (indepFun_iff_map_prod_eq_prod_map_map hm hz.aemeasurable).1 hi
    rw [h.law hG] at hprod
    obtain ⟨S, hS⟩ : ∃ S : Set ((Fin n → ℝ) × (Fin K → Fin m → ℝ)), S = {p | p.1 + g p.2 ∈ B ∧ p.2 ∈ D} := ⟨_, rfl⟩
    have hSm : MeasurableSet S := by
      rw [hS]
      exact ((measurable_fst.add (hg.comp measurable_snd)) hB).inter (measurable_snd hD)
    have e1 : {ω | X ω ∈ B ∧ firstObs z K ω ∈ D} = (fun ω => (X ω - xh ω, firstObs z K ω)) ⁻¹' S := by
      ext ω
      simp [hS, hxg]
    have e2 : ∀ y, normal 0 P ((fun e => (e, y)) ⁻¹' S) = D.indicator (fun y => normal (g y) P B) y := by
      intro y
      by_cases hy : y ∈ D
      · have hs : Measurable fun e : Fin n → ℝ => e + g y := measurable_id.add_const _
        rw [Set.indicator_of_mem hy, normal_shift (g y), Measure.map_apply hs hB]
        congr 1
        ext e
        simp [hS, hy]
      · rw [Set.indicator_of_notMem hy]
        have : (fun e : Fin n → ℝ => (e, y)) ⁻¹' S = ∅ := by
          ext e
          simp [hS, hy]
        rw [this, measure_empty]
    rw [e1, ← Measure.map_apply_of_aemeasurable (hm.prodMk hz.aemeasurable) hSm, hprod, Measure.prod_apply_symm hSm]
    have hmeas : Measurable fun y => normal 0 P ((fun e => (e, y)) ⁻¹' S) := measurable_measure_prodMk_right hSm
    rw [lintegral_map hmeas hz, ← lintegral_indicator (show MeasurableSet {ω | firstObs z K ω ∈ D} from hz hD)]
    refine lintegral_congr fun ω => ?_
    rw [e2]
    by_cases hy : firstObs z K ω ∈ D
    · rw [Set.indicator_of_mem hy, Set.indicator_of_mem (show ω ∈ {ω | firstObs z K ω ∈ D} from hy), hxg]
    · rw [Set.indicator_of_notMem hy, Set.indicator_of_notMem (show ω ∉ {ω | firstObs z K ω ∈ D} from hy)]
  refine ⟨hk, joint, fun c B D hB hD => ?_⟩
  have := joint _ D ((dot_meas c) hB) hD
  simp only [Set.mem_preimage] at this
  rw [this]
  refine lintegral_congr fun ω => ?_
  rw [← normal_functional h.posSemidef, Measure.map_apply (dot_meas c) hB]

namespace Stoch

variable {T : Type} {src : T → L2 μ} {vb : VB (L2 μ) n}

/-- Errors are Gaussian. -/
theorem Good.gaussian (hG : IsGaussianProcess (fun t => (src t).1) μ) (h0 : ∀ t, ip μ (src t) (one μ) = 0)
    (hX : Nice μ X) (hXg : ∀ i, liftV μ X i ∈ gen μ src)
    (hzg : ∀ k < K, ∀ i, liftV μ (z k) i ∈ gen μ src) (h : Good (ip μ) (obsSpan μ z K) (liftV μ X) vb) :
    HasGaussianLaw (fun ω => X ω - vb.fn ω) μ := by
  have hle : obsSpan μ z K ≤ gen μ src := by
    clear h
    induction K with
    | zero => exact le_sup_left
    | succ K ih =>
      refine sup_le (ih fun k hk => hzg k (by omega)) (Submodule.span_le.2 ?_)
      rintro _ ⟨i, rfl⟩
      exact hzg K (by omega) i
  have he : ∀ i, (liftV μ X - vb.x) i ∈ Submodule.span ℝ (Set.range src) := by
    intro i
    have : (liftV μ X - vb.x) i ∈ gen μ src := Submodule.sub_mem _ (hXg i) (hle (h.mem i))
    obtain ⟨a, ha, g, hg, hag⟩ := Submodule.mem_sup.1 this
    obtain ⟨c, rfl⟩ := Submodule.mem_span_singleton.1 ha
    have h1 := h.perp i _ one_mem_obsSpan
    rw [← hag, map_add, LinearMap.add_apply, span_mean h0 hg, add_zero, map_smul, LinearMap.smul_apply, ip_one_one,
      smul_eq_mul, mul_one] at h1
    rw [← hag, h1, zero_smul, zero_add]
    exact hg
  have hproc := process_of_span hG (liftV μ X - vb.x) he
  have := hproc.hasGaussianLaw Finset.univ
  have e : (fun ω => X ω - vb.fn ω) =
      (ContinuousLinearMap.pi fun i : Fin n => ContinuousLinearMap.proj (R := ℝ)
        (φ := fun _ : (Finset.univ : Finset (Fin n)) => ℝ) ⟨i, Finset.mem_univ i⟩) ∘
      fun ω => Finset.univ.restrict fun i => ((liftV μ X - vb.x) i).1 ω := by
    funext ω i
    simp only [Function.comp]
    exact (err_coe hX i ω).symm
  rw [e]
  exact this.map _

variable {b : Belief n} {ms : List (ModelStep n m)} {N : Src n m → Ω → ℝ} {X : ℕ → Ω → Fin n → ℝ}

theorem posterior_of_gaussian {d : ℕ} {Y : Ω → Fin d → ℝ} (hN : WhiteNoise μ b.P ms N) (hX : Follows b.x ms N X z)
    (hG : GaussianNoise μ ms.length N) {K : ℕ} (hK : K ≤ ms.length) {vb : VB (L2 μ) d} (hY : Nice μ Y)
    (hYg : ∀ i, liftV μ Y i ∈ gen μ (srcV μ ms.length N))
    (h : Good (ip μ) (obsSpan μ z K) (liftV μ Y) vb) : Posterior μ z K Y vb.fn vb.P := by
  have hz : ∀ k < K, Nice μ (z k) := fun k hk => nice_obs hN hX (by omega)
  have hsrc : (fun a => (srcV μ ms.length N a).1) = fun a : {a : Src n m // a.Active ms.length} => N a.1 :=
    funext fun a => srcV_coe hN a
  have hg : IsGaussianProcess (fun a => (srcV μ ms.length N a).1) μ := by rw [hsrc]; exact hG
  have h0 : ∀ a, ip μ (srcV μ ms.length N a) (one μ) = 0 := fun a => by
    rw [ip_one, srcV_coe hN a]
    exact hN.mean a.1 a.2
  have hzg : ∀ k < K, ∀ i, liftV μ (z k) i ∈ gen μ (srcV μ ms.length N) := fun k hk i => obs_gen hN hX (by omega) i
  refine posterior_of (h.calibrated hY one_mem_obsSpan) (h.gaussian hg h0 hY hYg hzg) (h.indep hg h0 hY hz hYg hzg)
    (firstObs_meas hz) ?_
  have := fun i => affine_comp (affine_of_mem hz (h.mem i))
  choose g hgm hgv using this
  exact ⟨fun y i => g i y, measurable_pi_lambda _ hgm, fun ω => funext fun i => hgv i ω⟩

theorem law_of_gaussian {d : ℕ} {Y : Ω → Fin d → ℝ} (hN : WhiteNoise μ b.P ms N) (hX : Follows b.x ms N X z)
    (hG : GaussianNoise μ ms.length N) {K : ℕ} (hK : K ≤ ms.length) {vb : VB (L2 μ) d} (hY : Nice μ Y)
    (hYg : ∀ i, liftV μ Y i ∈ gen μ (srcV μ ms.length N))
    (h : Good (ip μ) (obsSpan μ z K) (liftV μ Y) vb) : μ.map (fun ω => Y ω - vb.fn ω) = normal 0 vb.P := by
  have hsrc : (fun a => (srcV μ ms.length N a).1) = fun a : {a : Src n m // a.Active ms.length} => N a.1 :=
    funext fun a => srcV_coe hN a
  have hg : IsGaussianProcess (fun a => (srcV μ ms.length N a).1) μ := by rw [hsrc]; exact hG
  have h0 : ∀ a, ip μ (srcV μ ms.length N a) (one μ) = 0 := fun a => by
    rw [ip_one, srcV_coe hN a]
    exact hN.mean a.1 a.2
  have hzg : ∀ k < K, ∀ i, liftV μ (z k) i ∈ gen μ (srcV μ ms.length N) := fun k hk i => obs_gen hN hX (by omega) i
  exact (h.calibrated hY one_mem_obsSpan).law (h.gaussian hg h0 hY hYg hzg)

end Stoch

end KK
