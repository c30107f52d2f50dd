import Verif.Spec.Region
import Verif.Props.Likelihood

/-! # C159: confidence regions -/

set_option linter.unusedSectionVars false

namespace KK

open Matrix MeasureTheory ProbabilityTheory

section
variable [Platform] {n m : ℕ} {Ω : Type} [MeasurableSpace Ω] {μ : Measure Ω} [IsProbabilityMeasure μ]

open scoped MatrixOrder in
theorem exactRegions_of {z : ℕ → Ω → Fin m → ℝ} {K : ℕ} {X xh : Ω → Fin n → ℝ} {P : Matrix (Fin n) (Fin n) ℝ} (hP : P.PosSemidef)
    (hm : AEMeasurable (fun ω => X ω - xh ω) μ) (hl : μ.map (fun ω => X ω - xh ω) = normal 0 P)
    (hi : IndepFun (fun ω => X ω - xh ω) (firstObs z K) μ) (hz : Measurable (firstObs z K)) : ExactRegions μ z K X xh P := by
  refine ⟨hl, hi, fun hd B D hB hD => ?_⟩
  have hpd : P.PosDef := (hP.posDef_iff_det_ne_zero).2 hd
  have hmul : ∀ M : Matrix (Fin n) (Fin n) ℝ, Measurable fun v : Fin n → ℝ => M *ᵥ v :=
    fun M => (Continuous.matrix_mulVec continuous_const continuous_id).measurable
  have hsq : Measurable fun w : Fin n → ℝ => ∑ i, w i ^ 2 := by fun_prop
  have hq : Measurable fun v : Fin n → ℝ => v ⬝ᵥ (P⁻¹ *ᵥ v) := by
    simp only [normalise_sq hpd]
    exact hsq.comp (hmul _)
  have h1 := (indepFun_iff_measure_inter_preimage_eq_mul.1 hi) ((fun v : Fin n → ℝ => v ⬝ᵥ (P⁻¹ *ᵥ v)) ⁻¹' B) D (hq hB) hD
  have h2 : μ ((fun ω => X ω - xh ω) ⁻¹' ((fun v : Fin n → ℝ => v ⬝ᵥ (P⁻¹ *ᵥ v)) ⁻¹' B)) = chiSquared n B := by
    rw [← Measure.map_apply_of_aemeasurable hm (hq hB), hl, chiSquared, ← normal_one, ← normalise_law hpd,
      Measure.map_map hsq (hmul _), Measure.map_apply (hsq.comp (hmul _)) hB]
    congr 1
    ext v
    simp only [Set.mem_preimage, normalise_sq hpd, Function.comp]
  rw [h2] at h1
  exact h1

theorem Stoch.exactRegions {b : Belief n} {ms : List (ModelStep n m)} {N : Src n m → Ω → ℝ} {X : ℕ → Ω → Fin n → ℝ} {z : ℕ → Ω → Fin m → ℝ}
    {d : ℕ} {Y : Ω → Fin d → ℝ} (hN : WhiteNoise μ b.P ms N) (hX : Follows b.x ms N X z)
    (hG : GaussianNoise μ ms.length N) {K : ℕ} (hK : K ≤ ms.length) {vb : Stoch.VB (Stoch.L2 μ) d} (hY : Stoch.Nice μ Y)
    (hYg : ∀ i, Stoch.liftV μ Y i ∈ Stoch.gen μ (Stoch.srcV μ ms.length N))
    (h : Stoch.Good (Stoch.ip μ) (Stoch.obsSpan μ z K) (Stoch.liftV μ Y) vb) : ExactRegions μ z K Y vb.fn vb.P := by
  have hz : ∀ k < K, Stoch.Nice μ (z k) := fun k hk => Stoch.nice_obs hN hX (by omega)
  have hsrc : (fun a => (Stoch.srcV μ ms.length N a).1) = fun a : {a : Src n m // a.Active ms.length} => N a.1 :=
    funext fun a => Stoch.srcV_coe hN a
  have hg : IsGaussianProcess (fun a => (Stoch.srcV μ ms.length N a).1) μ := by rw [hsrc]; exact hG
  have h0 : ∀ a, Stoch.ip μ (Stoch.srcV μ ms.length N a) (Stoch.one μ) = 0 := fun a => by
    rw [Stoch.ip_one, Stoch.srcV_coe hN a]
    exact hN.mean a.1 a.2
  have hzg : ∀ k < K, ∀ i, Stoch.liftV μ (z k) i ∈ Stoch.gen μ (Stoch.srcV μ ms.length N) := fun k hk i => Stoch.obs_gen hN hX (by omega) i
  exact exactRegions_of (h.calibrated hY Stoch.one_mem_obsSpan).posSemidef (h.gaussian hg h0 hY hYg hzg).aemeasurable
    (Stoch.law_of_gaussian hN hX hG hK hY hYg h) (h.indep hg h0 hY hz hYg hzg) (Stoch.firstObs_meas hz)

open scoped MatrixOrder in
theorem Conservative.safeRegions {X xh : Ω → Fin n → ℝ} {P : Matrix (Fin n) (Fin n) ℝ} (h : Conservative μ X xh P) : SafeRegions μ X xh P := by
  intro hP
  set L := (CFC.sqrt P)⁻¹ with hL
  have hLt : Lᵀ = L := by rw [hL, transpose_nonsing_inv, sqrt_transpose]
  have hs2 := sqrt_mul_sqrt hP
  have hdet : (CFC.sqrt P).det ≠ 0 := fun h0 => by
    have := sqrt_det_sq hP
    rw [h0, zero_mul] at this
    exact hP.det_pos.ne this
  have hLP : L * P * Lᵀ = 1 := by
    rw [hLt, ← hs2, hL, ← Matrix.mul_assoc, nonsing_inv_mul _ (isUnit_iff_ne_zero.2 hdet), Matrix.one_mul,
      mul_nonsing_inv _ (isUnit_iff_ne_zero.2 hdet)]
  have hrow : ∀ i, L i ⬝ᵥ P *ᵥ L i = 1 := by
    intro i
    have := congrFun (congrFun hLP i) i
    rw [Matrix.one_apply_eq] at this
    rw [← this, Matrix.mul_assoc]
    simp only [Matrix.mul_apply, dotProduct, mulVec, transpose_apply]
  have hq : ∀ ω, squaredDistance P X xh ω = ∑ i, (L i ⬝ᵥ (X ω - xh ω)) ^ 2 := fun ω => normalise_sq hP _
  have hint : Integrable (fun ω => squaredDistance P X xh ω) μ := by
    simp only [hq]
    exact integrable_finsetSum _ fun i _ => (h (L i)).1
  have hmean : ∫ ω, squaredDistance P X xh ω ∂μ ≤ n := by
    simp only [hq]
    rw [integral_finsetSum _ fun i _ => (h (L i)).1]
    calc _ ≤ ∑ _i : Fin n, (1 : ℝ) := Finset.sum_le_sum fun i _ => (h (L i)).2.trans (hrow i).le
      _ = n := by simp
  refine ⟨hint, hmean, fun t ht => ?_⟩
  have hnn : ∀ ω, 0 ≤ squaredDistance P X xh ω := fun ω => by rw [hq]; exact Finset.sum_nonneg fun i _ => sq_nonneg _
  have h1 := mul_meas_ge_le_integral_of_nonneg (μ := μ) (.of_forall hnn) hint t
  refine (ENNReal.le_ofReal_iff_toReal_le (measure_ne_top _ _) (by positivity)).2 ?_
  rw [le_div_iff₀ ht, mul_comm]
  exact h1.trans hmean

end

variable [Platform] {n m : ℕ} {Ω : Type} [MeasurableSpace Ω] {μ : Measure Ω} [IsProbabilityMeasure μ]

variable (kf : KalmanFilter Fl) (Zs : Ω → NDArray Fl) (U : Option (NDArray Fl)) (b : Belief n)
  (ms : List (ModelStep n m)) (N : Src n m → Ω → ℝ) (X : ℕ → Ω → Fin n → ℝ) (z : ℕ → Ω → Fin m → ℝ)
  (xs Ps : Ω → List (Arr Fl)) (kf' : Ω → KalmanFilter Fl)

/-- C159 (filter): if the system follows the model with jointly Gaussian noises of the covariances the filter was told, the error of
the mean returned for step `k` is independent of the observations so far and normal with the returned covariance, and ellipsoids around
the mean given by the covariance have exactly the chi-squared probability of containing the state, whatever was observed. -/
theorem C159_filter (hN : WhiteNoise μ b.P ms N) (hX : Follows b.x ms N X z) (hG : GaussianNoise μ ms.length N)
    (h : ∀ ω, Represents kf (Zs ω) U b (withData ms fun k => z k ω))
    (hr : ∀ ω, (KalmanFilter.filter (Zs ω) U).run kf = (.ok (xs ω, Ps ω), kf' ω)) (k : ℕ) (hk : k < ms.length) :
    ∃ (xh : Ω → Fin n → ℝ) (P : Matrix (Fin n) (Fin n) ℝ), RowsHold xs Ps k xh P ∧ ExactRegions μ z (k + 1) (X (k + 1)) xh P := by
  obtain ⟨vb, hg, hv⟩ := filter_rows kf Zs U b ms N X z hN hX h xs Ps kf' hr k hk
  exact ⟨vb.fn, vb.P, hv, Stoch.exactRegions hN hX hG (by omega) (Stoch.nice_state hN hX (by omega)) (Stoch.state_gen hN hX (by omega)) hg⟩

/-- C159 (smoother): the same, with all observations. -/
theorem C159_smooth (hN : WhiteNoise μ b.P ms N) (hX : Follows b.x ms N X z) (hG : GaussianNoise μ ms.length N)
    (h : ∀ ω, Represents kf (Zs ω) U b (withData ms fun k => z k ω)) (hfull : ∀ ω, ms.length = (Zs ω).rows.length)
    (hr : ∀ ω, (KalmanFilter.smooth (Zs ω) U).run kf = (.ok (xs ω, Ps ω), kf' ω)) (k : ℕ) (hk : k < ms.length) :
    ∃ (xh : Ω → Fin n → ℝ) (P : Matrix (Fin n) (Fin n) ℝ), RowsHold xs Ps k xh P ∧ ExactRegions μ z ms.length (X (k + 1)) xh P := by
  obtain ⟨vb, hg, hv⟩ := smooth_rows kf Zs U b ms N X z hN hX h xs Ps kf' hfull hr k hk
  exact ⟨vb.fn, vb.P, hv, Stoch.exactRegions hN hX hG (by omega) (Stoch.nice_state hN hX (by omega)) (Stoch.state_gen hN hX (by omega)) hg⟩

/-- C159 (gate): the next state and the next observation, predicted from what was returned for the step before (or the initial values).
The observation falls into the validation gate `r' S⁻¹ r ≤ c` with exactly the chi-squared probability, whatever was observed before. -/
theorem C159_gate (hN : WhiteNoise μ b.P ms N) (hX : Follows b.x ms N X z) (hG : GaussianNoise μ ms.length N)
    (h : ∀ ω, Represents kf (Zs ω) U b (withData ms fun k => z k ω))
    (hr : ∀ ω, (KalmanFilter.filter (Zs ω) U).run kf = (.ok (xs ω, Ps ω), kf' ω)) :
    ∃ (xh : ℕ → Ω → Fin n → ℝ) (P : ℕ → Matrix (Fin n) (Fin n) ℝ), Estimates b ms.length xs Ps xh P ∧
      ∀ (k : ℕ) (s : ModelStep n m), ms[k]? = some s →
        ExactRegions μ z k (X (k + 1)) (s.predState (xh k)) (s.predStateCov (P k)) ∧
        ExactRegions μ z k (z k) (s.predObs (xh k)) (s.predObsCov (P k)) ∧ (s.predObsCov (P k)).det ≠ 0 := by
  obtain ⟨vb, hvb, hdet⟩ := estimates kf Zs U b ms N X z xs Ps kf' hN hX h hr
  refine ⟨_, _, hvb, fun k s hs => ?_⟩
  have hk := (List.getElem?_eq_some_iff.1 hs).1
  obtain ⟨g1, g2, hd⟩ := hdet k s hs
  rw [Stoch.predState_fn, Stoch.predObs_fn s (vb k) (s.predObsCov (vb k).P)]
  exact ⟨Stoch.exactRegions hN hX hG hk.le (Stoch.nice_state (k := k + 1) hN hX (by omega)) (Stoch.state_gen hN hX (by omega)) g1,
    Stoch.exactRegions hN hX hG hk.le (Stoch.nice_obs hN hX hk) (Stoch.obs_gen hN hX hk) g2, hd⟩

/-- C159 (any noise, filter): if the noises are uncorrelated and at most as large as the filter was told, whatever their distributions,
the squared distance is at most `n` in the mean and exceeds `t` with probability at most `n / t`. -/
theorem C159_any (hN : NoiseWithin μ b.P ms N) (hX : Follows b.x ms N X z) (hsym : Symmetric b.P ms)
    (h : ∀ ω, Represents kf (Zs ω) U b (withData ms fun k => z k ω))
    (hr : ∀ ω, (KalmanFilter.filter (Zs ω) U).run kf = (.ok (xs ω, Ps ω), kf' ω)) (k : ℕ) (hk : k < ms.length) :
    ∃ (xh : Ω → Fin n → ℝ) (P : Matrix (Fin n) (Fin n) ℝ), RowsHold xs Ps k xh P ∧ SafeRegions μ (X (k + 1)) xh P := by
  have : Nonempty Ω := μ.nonempty_of_neZero
  obtain ⟨xh, P, h1, h2⟩ := C69_conservative kf Zs U b ms N X z xs Ps kf' hN hX hsym h hr k hk
  exact ⟨xh, P, h1, h2.safeRegions⟩

/-- C159 (any noise, smoother). -/
theorem C159_any_smooth (hN : NoiseWithin μ b.P ms N) (hX : Follows b.x ms N X z) (hsym : Symmetric b.P ms)
    (h : ∀ ω, Represents kf (Zs ω) U b (withData ms fun k => z k ω)) (hfull : ∀ ω, ms.length = (Zs ω).rows.length)
    (hr : ∀ ω, (KalmanFilter.smooth (Zs ω) U).run kf = (.ok (xs ω, Ps ω), kf' ω)) (k : ℕ) (hk : k < ms.length) :
    ∃ (xh : Ω → Fin n → ℝ) (P : Matrix (Fin n) (Fin n) ℝ), RowsHold xs Ps k xh P ∧ SafeRegions μ (X (k + 1)) xh P := by
  have : Nonempty Ω := μ.nonempty_of_neZero
  obtain ⟨xh, P, h1, h2⟩ := C69_conservative_smooth kf Zs U b ms N X z xs Ps kf' hN hX hsym h hfull hr k hk
  exact ⟨xh, P, h1, h2.safeRegions⟩

-- C159: independent standard normal noises drive any model with unit covariances; the regions of every row are not degenerate.
example (x₀ : Fin n → ℝ) (ms : List (ModelStep n m)) (hQ : ∀ s ∈ ms, s.Q = 1) (hR : ∀ s ∈ ms, s.R = 1) (hne : ms ≠ []) (k : ℕ)
    (hk : k < ms.length) :
    ∃ (xs Ps : (Src n m → ℝ) → List (Arr Fl)) (xh : (Src n m → ℝ) → Fin n → ℝ) (P : Matrix (Fin n) (Fin n) ℝ), RowsHold xs Ps k xh P ∧
      ExactRegions (Ex.normals n m) (Ex.exObs x₀ ms) (k + 1) (Ex.exState x₀ ms (k + 1)) xh P ∧ P.det ≠ 0 := by
  obtain ⟨h1, h2, h3, h4, -, h6, -⟩ := Ex.stoch_case x₀ ms hQ hR hne
  choose r kf' hr using h6
  obtain ⟨xh, P, h, hw⟩ := C159_filter (μ := Ex.normals n m) _ _ _ _ ms _ _ _ (fun ω => (r ω).1) (fun ω => (r ω).2) kf' h1 h2 h3 h4 hr k hk
  refine ⟨_, _, xh, P, h, hw, ?_⟩
  have hmem : ∀ s ∈ withData ms (fun k => Ex.exObs x₀ ms k 0), s.Q = 1 ∧ s.R = 1 := by
    intro s hs
    obtain ⟨s', hs', e1, e2⟩ := Ex.withData_mem hs
    exact ⟨e1.trans (hQ s' hs'), e2.trans (hR s' hs')⟩
  obtain ⟨xs', Ps', kf'', hrun, hpd⟩ := C27_pd _ _ _ _ _ (h4 0) Matrix.PosDef.one (fun s hs => by rw [(hmem s hs).1]; exact Matrix.PosSemidef.one)
    (fun s hs => by rw [(hmem s hs).2]; exact Matrix.PosDef.one) (fun s hs => .inr (by rw [(hmem s hs).1]; exact Matrix.PosDef.one))
  obtain ⟨a, M, ha, hM, hMp⟩ := hpd k (by rw [Stoch.withData_length]; exact hk)
  obtain ⟨-, a', ha', hP⟩ := h 0
  rw [hr 0] at hrun
  obtain ⟨hrun, -⟩ := Prod.mk.inj hrun
  rw [← (Prod.mk.inj (Except.ok.inj hrun)).2, ha'] at ha
  obtain rfl := Option.some.inj ha
  obtain ⟨d, rfl⟩ := hM
  rw [hP.inj]
  exact hMp.det_pos.ne'

end KK
