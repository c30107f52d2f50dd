import Verif.Proofs.Likelihood
import Verif.Proofs.Batch
import Verif.Proofs.RoundStep

/-!
# C153: the likelihood computed from the results of `filter` is the density of the data
-/

set_option linter.unusedSectionVars false

namespace KK

open Matrix MeasureTheory ProbabilityTheory
open scoped ENNReal

variable [Platform] {n m : ℕ} {Ω : Type} [MeasurableSpace Ω] {μ : Measure Ω} [IsProbabilityMeasure μ]

/-- The estimate after `k` steps, as a function of the data. -/
noncomputable def estimateAfter (b : Belief n) (ms : List (ModelStep n m)) (k : ℕ) (y : ℕ → Fin m → ℝ) : Belief n :=
  lastOf b (withData (ms.take k) y)

theorem withData_take (ms : List (ModelStep n m)) (z : ℕ → Fin m → ℝ) (k : ℕ) :
    (withData ms z).take k = withData (ms.take k) z := by
  induction ms generalizing z k with
  | nil => simp [withData]
  | cons s ms ih =>
    rcases k with _ | k
    · simp [withData]
    · simp only [withData, List.take_succ_cons, ih]

theorem estimateAfter_congr (b : Belief n) (ms : List (ModelStep n m)) (k : ℕ) {y y' : ℕ → Fin m → ℝ}
    (h : ∀ j < k, y j = y' j) : estimateAfter b ms k y = estimateAfter b ms k y' := by
  rw [estimateAfter, Stoch.withData_congr (z' := y') _ fun j hj => h j (by rw [List.length_take] at hj; omega)]
  rfl

theorem padded_apply {T : ℕ} (y : Fin T → Fin m → ℝ) (k : Fin T) : padded y k = y k := by
  rw [padded, dif_pos k.2]

theorem lastOf_meas {D : Type} [MeasurableSpace D] (ms : List (ModelStep n m)) (x : D → Fin n → ℝ) (P : Matrix (Fin n) (Fin n) ℝ)
    (z : ℕ → D → Fin m → ℝ) (hx : Measurable x) (hz : ∀ k, Measurable (z k)) :
    Measurable fun y => (lastOf ⟨x y, P⟩ (withData ms fun k => z k y)).x := by
  induction ms generalizing x P z with
  | nil => exact hx
  | cons s ms ih =>
    have hmul : ∀ {a c : ℕ} (M : Matrix (Fin a) (Fin c) ℝ) {v : D → Fin c → ℝ}, Measurable v → Measurable fun y => M *ᵥ v y :=
      fun M _ hv => (Continuous.matrix_mulVec continuous_const continuous_id).measurable.comp hv
    have hp : Measurable fun y => s.A *ᵥ x y + s.c := (hmul s.A hx).add_const _
    have hn : Measurable fun y => (s.A *ᵥ x y + s.c) +
        kGain s.H (priorCov s.A P s.Q) s.R *ᵥ (z 0 y - s.H *ᵥ (s.A *ᵥ x y + s.c)) :=
      hp.add (hmul _ ((hz 0).sub (hmul _ hp)))
    exact ih _ (postCov s.H (priorCov s.A P s.Q) s.R) (fun k => z (k + 1)) hn fun k => hz (k + 1)

theorem lastOf_cov (ms : List (ModelStep n m)) (x x' : Fin n → ℝ) (P : Matrix (Fin n) (Fin n) ℝ)
    (z z' : ℕ → Fin m → ℝ) : (lastOf ⟨x, P⟩ (withData ms z)).P = (lastOf ⟨x', P⟩ (withData ms z')).P := by
  induction ms generalizing x x' P z z' with
  | nil => rfl
  | cons s ms ih => exact ih _ _ (postCov s.H (priorCov s.A P s.Q) s.R) _ _

theorem padded_meas {T : ℕ} (k : ℕ) : Measurable fun y : Fin T → Fin m → ℝ => padded y k := by
  unfold padded
  split
  · exact measurable_pi_apply _
  · exact measurable_const

open scoped MatrixOrder in
theorem normalise_law {S : Matrix (Fin m) (Fin m) ℝ} (hS : S.PosDef) :
    (normal 0 S).map (fun v => (CFC.sqrt S)⁻¹ *ᵥ v) = normal 0 1 := by
  have hL := sqrt_det_sq hS
  have hd := hS.det_pos
  have hne : (CFC.sqrt S).det ≠ 0 := fun h0 => by rw [h0] at hL; simp at hL; exact hd.ne' hL.symm
  have hmul : ∀ M : Matrix (Fin m) (Fin m) ℝ, Measurable fun v : Fin m → ℝ => M *ᵥ v :=
    fun M => (Continuous.matrix_mulVec continuous_const continuous_id).measurable
  rw [normal_zero_eq, normal_zero_eq, Measure.map_map (hmul _) (hmul _)]
  congr 1
  funext x
  simp only [Function.comp]
  rw [mulVec_mulVec, nonsing_inv_mul _ (isUnit_iff_ne_zero.2 hne), CFC.sqrt_one]

open scoped MatrixOrder in
theorem normalise_sq {S : Matrix (Fin m) (Fin m) ℝ} (hS : S.PosDef) (v : Fin m → ℝ) :
    v ⬝ᵥ S⁻¹ *ᵥ v = ∑ i, ((CFC.sqrt S)⁻¹ *ᵥ v) i ^ 2 := by
  have h3 : S⁻¹ = (CFC.sqrt S)⁻¹ * (CFC.sqrt S)⁻¹ := by rw [← Matrix.mul_inv_rev, sqrt_mul_sqrt hS]
  rw [h3, ← mulVec_mulVec, dotProduct_mulVec v, ← mulVec_transpose, transpose_nonsing_inv, sqrt_transpose, dotProduct]
  simp only [sq]

theorem normal_one : normal 0 (1 : Matrix (Fin m) (Fin m) ℝ) = Measure.pi fun _ => gaussianReal 0 1 := by
  rw [normal_density Matrix.PosDef.one, std_density]

open scoped MatrixOrder in
/-- White normal innovations, normalised, are independent standard normal variables. -/
theorem normalised_law (r : ℕ → Ω → Fin m → ℝ) (S : ℕ → Matrix (Fin m) (Fin m) ℝ) (T : ℕ)
    (hr : ∀ k < T, Measurable (r k)) (hS : ∀ k < T, (S k).PosDef) (hlaw : ∀ k < T, μ.map (r k) = normal 0 (S k))
    (hi : ∀ k < T, IndepFun (r k) (firstObs r k) μ) :
    μ.map (firstObs (fun k ω => (CFC.sqrt (S k))⁻¹ *ᵥ r k ω) T) =
      Measure.pi fun _ : Fin T => Measure.pi fun _ : Fin m => gaussianReal 0 1 := by
  have hmul : ∀ M : Matrix (Fin m) (Fin m) ℝ, Measurable fun v : Fin m → ℝ => M *ᵥ v :=
    fun M => (Continuous.matrix_mulVec continuous_const continuous_id).measurable
  have hw : ∀ k < T, Measurable fun ω => (CFC.sqrt (S k))⁻¹ *ᵥ r k ω := fun k hk => (hmul _).comp (hr k hk)
  rw [law_density μ _ (fun _ => 1) (fun _ _ => 0) T hw (fun _ _ => measurable_const) (fun _ _ => Matrix.PosDef.one)
    fun k hk B D hB hD => ?_]
  · rw [std_density]
    have hsf : SigmaFinite ((volume : Measure (Fin m → ℝ)).withDensity fun x => ENNReal.ofReal (gaussDensity 1 x)) := by
      rw [← std_density]; infer_instance
    rw [pi_withDensity _ _ (gaussDensity_meas 1).ennreal_ofReal]
    rw [← volume_pi]
    congr 1
    funext y
    simp only [chainDensity, sub_zero]
  · have hlk : μ.map (fun ω => (CFC.sqrt (S k))⁻¹ *ᵥ r k ω) = normal 0 1 := by
      rw [← normalise_law (hS k hk), ← hlaw k hk, Measure.map_map (hmul _) (hr k hk)]
      rfl
    have hind : IndepFun (fun ω => (CFC.sqrt (S k))⁻¹ *ᵥ r k ω) (firstObs (fun k ω => (CFC.sqrt (S k))⁻¹ *ᵥ r k ω) k) μ :=
      (hi k hk).comp (hmul _) (ψ := fun (y : Fin k → Fin m → ℝ) (j : Fin k) => (CFC.sqrt (S j))⁻¹ *ᵥ y j)
        (measurable_pi_lambda _ fun j => (hmul (CFC.sqrt (S j))⁻¹).comp (measurable_pi_apply j))
    have h1 := (indepFun_iff_measure_inter_preimage_eq_mul.1 hind) B D hB hD
    rw [setLIntegral_const, ← hlk, Measure.map_apply (hw k hk) hB]
    exact h1

section
variable (kf : KalmanFilter Fl) (U : Option (NDArray Fl)) (b : Belief n) (ms : List (ModelStep n m))
  (N : Src n m → Ω → ℝ) (X : ℕ → Ω → Fin n → ℝ) (z : ℕ → Ω → Fin m → ℝ)

/-- What `Estimates` describes is the textbook estimate. -/
theorem Estimates.eq {D : Type} {Zs : D → NDArray Fl} {y : ℕ → D → Fin m → ℝ} {xs Ps : D → List (Arr Fl)}
    {kf' : D → KalmanFilter Fl} {xh : ℕ → D → Fin n → ℝ} {P : ℕ → Matrix (Fin n) (Fin n) ℝ}
    (he : Estimates b ms.length xs Ps xh P)
    (h : ∀ ω, Represents kf (Zs ω) U b (withData ms fun k => y k ω))
    (hr : ∀ ω, (KalmanFilter.filter (Zs ω) U).run kf = (.ok (xs ω, Ps ω), kf' ω)) (k : ℕ) (hk : k ≤ ms.length) (ω : D) :
    (⟨xh k ω, P k⟩ : Belief n) = estimateAfter b ms k fun k => y k ω := by
  rcases k with _ | k
  · have h1 := he.mean0 ω
    have h2 := he.cov0
    rw [h1, h2]
    simp [estimateAfter, withData, lastOf]
  · have hs := (C25_linalgerror kf (Zs ω) U b _ (h ω)).1.1 ⟨_, _, hr ω⟩
    have hret := (h ω).returns hs
    rw [FilterReturns, hr ω] at hret
    simp only [Prod.mk.injEq, Except.ok.injEq] at hret
    have hl : k < (filtered b (withData ms fun k => y k ω)).length := by
      rw [filtered_length, Stoch.withData_length]; omega
    have hg := filtered_get b (withData ms fun k => y k ω) k (by rw [Stoch.withData_length]; omega)
    obtain ⟨⟨a, ha, hav⟩, a', ha', hav'⟩ := he.rows k (by omega) ω
    rw [hret.1.1, List.getElem?_append_left (by rw [List.length_map]; exact hl), List.getElem?_map, hg] at ha
    rw [hret.1.2, List.getElem?_append_left (by rw [List.length_map]; exact hl), List.getElem?_map, hg] at ha'
    simp only [Option.map_some, Option.some.injEq] at ha ha'
    subst ha ha'
    have e1 := VecIs.inj hav
    have e2 := MatIs.inj hav'
    rw [e1, e2, withData_take]
    rfl

/-- Estimates exist for data of any kind. -/
theorem estimates_exist {D : Type} [Nonempty D] {Zs : D → NDArray Fl} {y : ℕ → D → Fin m → ℝ} {xs Ps : D → List (Arr Fl)}
    {kf' : D → KalmanFilter Fl}
    (h : ∀ ω, Represents kf (Zs ω) U b (withData ms fun k => y k ω))
    (hr : ∀ ω, (KalmanFilter.filter (Zs ω) U).run kf = (.ok (xs ω, Ps ω), kf' ω)) :
    ∃ (xh : ℕ → D → Fin n → ℝ) (P : ℕ → Matrix (Fin n) (Fin n) ℝ), Estimates b ms.length xs Ps xh P := by
  obtain ⟨ω₀⟩ := ‹Nonempty D›
  refine ⟨fun k ω => (estimateAfter b ms k fun k => y k ω).x, fun k => (estimateAfter b ms k fun k => y k ω₀).P,
    fun ω => by simp [estimateAfter, withData, lastOf], by simp [estimateAfter, withData, lastOf], fun k hk ω => ?_⟩
  have hs := (C25_linalgerror kf (Zs ω) U b _ (h ω)).1.1 ⟨_, _, hr ω⟩
  have hret := (h ω).returns hs
  rw [FilterReturns, hr ω] at hret
  simp only [Prod.mk.injEq, Except.ok.injEq] at hret
  have hl : k < (filtered b (withData ms fun k => y k ω)).length := by
    rw [filtered_length, Stoch.withData_length]; omega
  have hg := filtered_get b (withData ms fun k => y k ω) k (by rw [Stoch.withData_length]; omega)
  rw [withData_take] at hg
  have hcov : (lastOf b (withData (ms.take (k + 1)) fun k => y k ω)).P = (lastOf b (withData (ms.take (k + 1)) fun k => y k ω₀)).P :=
    lastOf_cov _ b.x b.x b.P _ _
  constructor
  · refine ⟨stateRow (lastOf b (withData (ms.take (k + 1)) fun k => y k ω)), ?_, ⟨_, rfl⟩⟩
    rw [hret.1.1, List.getElem?_append_left (by rw [List.length_map]; exact hl), List.getElem?_map, hg]
    rfl
  · refine ⟨covRow (lastOf b (withData (ms.take (k + 1)) fun k => y k ω)), ?_, ?_⟩
    · rw [hret.1.2, List.getElem?_append_left (by rw [List.length_map]; exact hl), List.getElem?_map, hg]
      rfl
    · exact ⟨_, by rw [covRow, hcov]; rfl⟩

variable (Zs : (Fin ms.length → Fin m → ℝ) → NDArray Fl) (xs Ps : (Fin ms.length → Fin m → ℝ) → List (Arr Fl))
  (kf' : (Fin ms.length → Fin m → ℝ) → KalmanFilter Fl)

/-- C153: if the system follows the model with jointly Gaussian noises of the covariances the filter was told, then the
likelihood computed from the results of `filter` on the data `y`, as a function of `y`, is the joint probability density of
all observations.  (The innovation covariances are positive definite, and the covariances do not depend on the data.) -/
theorem C153_likelihood (hN : WhiteNoise μ b.P ms N) (hX : Follows b.x ms N X z) (hG : GaussianNoise μ ms.length N)
    (h : ∀ y, Represents kf (Zs y) U b (withData ms (padded y)))
    (hr : ∀ y, (KalmanFilter.filter (Zs y) U).run kf = (.ok (xs y, Ps y), kf' y)) :
    ∃ (xh : ℕ → (Fin ms.length → Fin m → ℝ) → Fin n → ℝ) (P : ℕ → Matrix (Fin n) (Fin n) ℝ),
      Estimates b ms.length xs Ps xh P ∧ (∀ (k : ℕ) (s : ModelStep n m), ms[k]? = some s → (s.predObsCov (P k)).PosDef) ∧
      μ.map (firstObs z ms.length) =
        volume.withDensity fun y => ENNReal.ofReal (likelihood ms (fun k => xh k y) P (padded y)) := by
  obtain ⟨xh, P, he⟩ := estimates_exist kf U b ms (y := fun k y => padded y k) h hr
  -- the run on the random data
  have hpad : ∀ ω, withData ms (padded (firstObs z ms.length ω)) = withData ms fun k => z k ω := fun ω =>
    Stoch.withData_congr _ fun k hk => by rw [padded, dif_pos hk]; rfl
  have h' : ∀ ω, Represents kf (Zs (firstObs z ms.length ω)) U b (withData ms fun k => z k ω) := fun ω => by
    rw [← hpad]; exact h _
  have hr' := fun ω => hr (firstObs z ms.length ω)
  obtain ⟨xh', P', he', hpost⟩ := C116_predictive kf (fun ω => Zs (firstObs z ms.length ω)) U b ms N X z
    (fun ω => xs (firstObs z ms.length ω)) (fun ω => Ps (firstObs z ms.length ω)) (fun ω => kf' (firstObs z ms.length ω))
    hN hX hG h' hr'
  obtain ⟨vb, hvb, hdet⟩ := estimates kf (fun ω => Zs (firstObs z ms.length ω)) U b ms N X z
    (fun ω => xs (firstObs z ms.length ω)) (fun ω => Ps (firstObs z ms.length ω)) (fun ω => kf' (firstObs z ms.length ω))
    hN hX h' hr'
  obtain ⟨ω₀⟩ : Nonempty Ω := μ.nonempty_of_neZero
  have hP : ∀ k ≤ ms.length, P k = P' k := by
    intro k hk
    have e1 := congrArg Belief.P (he.eq kf U b ms h hr k hk (firstObs z ms.length ω₀))
    have e2 := congrArg Belief.P (he'.eq kf U b ms h' hr' k hk ω₀)
    simp only at e1 e2
    rw [e1, e2, estimateAfter_congr b ms k (y' := fun j => z j ω₀) fun j hj => by rw [padded, dif_pos (by omega)]; rfl]
  have hP' : ∀ k ≤ ms.length, P k = (vb k).P := by
    intro k hk
    have e1 := congrArg Belief.P (he.eq kf U b ms h hr k hk (firstObs z ms.length ω₀))
    have e2 := congrArg Belief.P (hvb.eq kf U b ms h' hr' k hk ω₀)
    simp only at e1 e2
    rw [e1, e2, estimateAfter_congr b ms k (y' := fun j => z j ω₀) fun j hj => by rw [padded, dif_pos (by omega)]; rfl]
  have hpd : ∀ (k : ℕ) (s : ModelStep n m), ms[k]? = some s → (s.predObsCov (P k)).PosDef := by
    intro k s hs
    have hk : k < ms.length := (List.getElem?_eq_some_iff.1 hs).1
    obtain ⟨-, g2, hd⟩ := hdet k s hs
    rw [hP' k hk.le]
    have hc := g2.calibrated (Stoch.nice_obs hN hX hk) Stoch.one_mem_obsSpan
    exact (hc.posSemidef.posDef_iff_det_ne_zero).2 hd
  refine ⟨xh, P, he, hpd, ?_⟩
  -- predictive means as functions of the earlier data
  let g : ∀ k, (Fin k → Fin m → ℝ) → Fin m → ℝ := fun k y =>
    (ms[k]?.map fun s => s.H *ᵥ (s.A *ᵥ (estimateAfter b ms k (padded y)).x + s.c)).getD 0
  let S : ℕ → Matrix (Fin m) (Fin m) ℝ := fun k => (ms[k]?.map fun s => s.predObsCov (P k)).getD 1
  have hz : ∀ k < ms.length, Measurable (z k) := fun k hk => measurable_pi_lambda _ fun i => (Stoch.nice_obs hN hX hk i).1
  have hg : ∀ k < ms.length, Measurable (g k) := by
    intro k hk
    have hmul : ∀ {a c : ℕ} (M : Matrix (Fin a) (Fin c) ℝ) {v : (Fin k → Fin m → ℝ) → Fin c → ℝ},
        Measurable v → Measurable fun y => M *ᵥ v y :=
      fun M _ hv => (Continuous.matrix_mulVec continuous_const continuous_id).measurable.comp hv
    simp only [g, List.getElem?_eq_getElem hk, Option.map_some, Option.getD_some]
    exact hmul _ ((hmul _ (lastOf_meas _ (fun _ => b.x) b.P (fun j y => padded y j) measurable_const
      fun j => padded_meas j)).add_const _)
  rw [law_density μ z S g ms.length hz hg (fun k hk => by
      simp only [S, List.getElem?_eq_getElem hk, Option.map_some, Option.getD_some]
      exact hpd k _ (List.getElem?_eq_getElem hk)) fun k hk B D hB hD => ?_]
  · congr 1
    funext y
    have hpd' : ∀ k : Fin ms.length, (ms[k].predObsCov (P k)).PosDef := fun k => hpd k _ (List.getElem?_eq_getElem k.2)
    rw [likelihood, ENNReal.ofReal_prod_of_nonneg fun k _ => (gaussDensity_pos (hpd' k) _).le]
    refine Finset.prod_congr rfl fun k _ => ?_
    simp only [S, g, List.getElem?_eq_getElem k.2, Option.map_some, Option.getD_some, padded_apply]
    have e := congrArg Belief.x (he.eq kf U b ms h hr k k.2.le y)
    simp only at e
    rw [e, estimateAfter_congr b ms k (y := padded (firstOf y k)) (y' := fun k => padded y k) fun j hj => by
      rw [padded, padded, dif_pos hj, dif_pos (by omega)]; rfl]
    rfl
  · have hs := List.getElem?_eq_getElem hk
    rw [((hpost k _ hs).2).joint B D hB hD]
    refine lintegral_congr fun ω => ?_
    simp only [S, g, hs, Option.map_some, Option.getD_some]
    have e := congrArg Belief.x (he'.eq kf U b ms h' hr' k hk.le ω)
    simp only at e
    rw [ModelStep.predObs, ModelStep.predState, e, hP k hk.le,
      estimateAfter_congr b ms k (y := padded (firstObs z k ω)) (y' := fun k => z k ω) fun j hj => by
        rw [padded, dif_pos hj]; rfl]

open scoped MatrixOrder in
/-- C153 (consistency test): under the same hypotheses the normalised squared innovations `r' S⁻¹ r`, summed over any set of
steps, have the chi-squared distribution with `m` degrees of freedom per step: that of the sum of the squares of so many
independent standard normal variables. -/
theorem C153_chi_square (Zs : Ω → NDArray Fl) (xs Ps : Ω → List (Arr Fl)) (kf' : Ω → KalmanFilter Fl)
    (hN : WhiteNoise μ b.P ms N) (hX : Follows b.x ms N X z) (hG : GaussianNoise μ ms.length N)
    (h : ∀ ω, Represents kf (Zs ω) U b (withData ms fun k => z k ω))
    (hr : ∀ ω, (KalmanFilter.filter (Zs ω) U).run kf = (.ok (xs ω, Ps ω), kf' ω)) :
    ∃ (xh : ℕ → Ω → Fin n → ℝ) (P : ℕ → Matrix (Fin n) (Fin n) ℝ) (S : ℕ → Matrix (Fin m) (Fin m) ℝ),
      Estimates b ms.length xs Ps xh P ∧
      (∀ (k : ℕ) (s : ModelStep n m), ms[k]? = some s → S k = s.predObsCov (P k) ∧ (S k).PosDef) ∧
      ∀ t : Finset (Fin ms.length),
        μ.map (fun ω => ∑ k ∈ t, innovation ms z xh k ω ⬝ᵥ ((S k)⁻¹ *ᵥ innovation ms z xh k ω)) =
          (Measure.pi fun _ : Fin ms.length => Measure.pi fun _ : Fin m => gaussianReal 0 1).map
            fun w => ∑ k ∈ t, ∑ i, w k i ^ 2 := by
  obtain ⟨xh, P, S, he, hS, hw, -, hi⟩ := C67_white_innovations kf Zs U b ms N X z xs Ps kf' hN hX h hr
  obtain ⟨xh', P', he', hpost⟩ := C116_predictive kf Zs U b ms N X z xs Ps kf' hN hX hG h hr
  obtain ⟨vb, hvb, hdet⟩ := estimates kf Zs U b ms N X z xs Ps kf' hN hX h hr
  have hi := hi hG
  have hsome : ∀ k < ms.length, ∃ s, ms[k]? = some s := fun k hk => ⟨_, List.getElem?_eq_getElem hk⟩
  have hPv : ∀ k ≤ ms.length, ∀ ω, xh k ω = (vb k).fn ω ∧ P k = (vb k).P := by
    intro k hk ω
    have e := (he.eq kf U b ms h hr k hk ω).trans (hvb.eq kf U b ms h hr k hk ω).symm
    exact ⟨congrArg Belief.x e, congrArg Belief.P e⟩
  obtain ⟨ω₀⟩ : Nonempty Ω := μ.nonempty_of_neZero
  have hinn : ∀ {k : ℕ} {s : ModelStep n m}, ms[k]? = some s →
      innovation ms z xh k = fun ω => z k ω - s.predObs (vb k).fn ω := by
    intro k s hs
    funext ω
    rw [innovation, hs]
    show z k ω - s.predObs (xh k) ω = _
    rw [ModelStep.predObs, ModelStep.predState, (hPv k (List.getElem?_eq_some_iff.1 hs).1.le ω).1]
    rfl
  have hSk : ∀ {k : ℕ} {s : ModelStep n m}, ms[k]? = some s → S k = s.predObsCov (vb k).P := by
    intro k s hs
    rw [(hS k s hs).1, (hPv k (List.getElem?_eq_some_iff.1 hs).1.le ω₀).2]
  have hpd : ∀ k < ms.length, (S k).PosDef := by
    intro k hk
    obtain ⟨s, hs⟩ := hsome k hk
    obtain ⟨-, g2, hd⟩ := hdet k s hs
    rw [hSk hs]
    exact ((g2.calibrated (Stoch.nice_obs hN hX hk) Stoch.one_mem_obsSpan).posSemidef.posDef_iff_det_ne_zero).2 hd
  have hrm : ∀ k < ms.length, Measurable (innovation ms z xh k) := by
    intro k hk
    obtain ⟨s, hs⟩ := hsome k hk
    obtain ⟨-, g2, -⟩ := hdet k s hs
    have hp := Stoch.posterior_of_gaussian hN hX hG hk.le (Stoch.nice_obs hN hX hk) (Stoch.obs_gen hN hX hk) g2
    obtain ⟨g, hg, hgv⟩ := hp.known
    rw [hinn hs, Stoch.predObs_fn s (vb k) (s.predObsCov (vb k).P)]
    simp only [hgv]
    exact (measurable_pi_lambda _ fun i => (Stoch.nice_obs hN hX hk i).1).sub
      (hg.comp (firstObs_meas fun j hj => measurable_pi_lambda _ fun i => (Stoch.nice_obs hN hX (hj.trans hk) i).1))
  have hlaw : ∀ k < ms.length, μ.map (innovation ms z xh k) = normal 0 (S k) := by
    intro k hk
    obtain ⟨s, hs⟩ := hsome k hk
    obtain ⟨-, g2, -⟩ := hdet k s hs
    rw [hinn hs, hSk hs, Stoch.predObs_fn s (vb k) (s.predObsCov (vb k).P)]
    exact Stoch.law_of_gaussian hN hX hG hk.le (Stoch.nice_obs hN hX hk) (Stoch.obs_gen hN hX hk) g2
  refine ⟨xh, P, S, he, fun k s hs => ⟨(hS k s hs).1, hpd k (List.getElem?_eq_some_iff.1 hs).1⟩, fun t => ?_⟩
  have hlast := normalised_law (μ := μ) (innovation ms z xh) S ms.length hrm hpd hlaw fun k hk => (hi k hk).2
  have hF : Measurable fun w : Fin ms.length → Fin m → ℝ => ∑ k ∈ t, ∑ i, w k i ^ 2 := by fun_prop
  have hmul : ∀ M : Matrix (Fin m) (Fin m) ℝ, Measurable fun v : Fin m → ℝ => M *ᵥ v :=
    fun M => (Continuous.matrix_mulVec continuous_const continuous_id).measurable
  rw [← hlast, Measure.map_map hF (firstObs_meas (z := fun k ω => (CFC.sqrt (S k))⁻¹ *ᵥ innovation ms z xh k ω)
    fun k hk => (hmul _).comp (hrm k hk))]
  congr 1
  funext ω
  refine Finset.sum_congr rfl fun k _ => ?_
  rw [normalise_sq (hpd k k.2)]
  rfl

end

/-- C153: the logarithm of the likelihood. -/
theorem C153_log (ms : List (ModelStep n m)) (x : ℕ → Fin n → ℝ) (P : ℕ → Matrix (Fin n) (Fin n) ℝ) (y : ℕ → Fin m → ℝ)
    (hpd : ∀ (k : ℕ) (s : ModelStep n m), ms[k]? = some s → (s.predObsCov (P k)).PosDef) :
    Real.log (likelihood ms x P y) = logLikelihood ms x P y := by
  have hpd' : ∀ k : Fin ms.length, (ms[k].predObsCov (P k)).PosDef := fun k => hpd k _ (List.getElem?_eq_getElem k.2)
  rw [likelihood, Real.log_prod fun k _ => (gaussDensity_pos (hpd' k) _).ne', logLikelihood, ← Finset.sum_neg_distrib,
    Finset.sum_div]
  refine Finset.sum_congr rfl fun k _ => ?_
  have hd := (hpd' k).det_pos
  rw [gaussDensity, Real.log_mul (inv_ne_zero (Real.sqrt_ne_zero'.2 (mul_pos (by positivity) hd))) (Real.exp_ne_zero _),
    Real.log_inv, Real.log_exp, Real.log_sqrt (mul_pos (by positivity) hd).le,
    Real.log_mul (by positivity) hd.ne', Real.log_pow]
  ring

/-! ### Hypotheses are met: any model with unit covariances and standard normal noises, any data -/

example (x₀ : Fin n → ℝ) (ms : List (ModelStep n m)) (hQ : ∀ s ∈ ms, s.Q = 1) (hR : ∀ s ∈ ms, s.R = 1) (hne : ms ≠ []) :
    let b : Belief n := ⟨x₀, 1⟩
    let kf := Ex.encode b (withData ms fun _ _ => 0)
    let U := some (Ex.encU (withData ms fun _ _ => (0 : ℝ)))
    let Zs : (Fin ms.length → Fin m → ℝ) → NDArray Fl := fun y => Ex.encZ (withData ms (padded y))
    WhiteNoise (Ex.normals n m) b.P ms Ex.coord ∧ Follows b.x ms Ex.coord (Ex.exState x₀ ms) (Ex.exObs x₀ ms) ∧
    GaussianNoise (Ex.normals n m) ms.length (Ex.coord : Src n m → _) ∧
    (∀ y, Represents kf (Zs y) U b (withData ms (padded y))) ∧
    ∀ y, ∃ r kf', (KalmanFilter.filter (Zs y) U).run kf = (.ok r, kf') := by
  intro b kf U Zs
  obtain ⟨h1, h2, h3, -⟩ := Ex.stoch_case x₀ ms hQ hR hne
  have hrep : ∀ y, Represents kf (Zs y) U b (withData ms (padded y)) := by
    intro y
    have := Ex.encode_represents b (withData ms (padded y))
    obtain ⟨h1, h2⟩ := Ex.encode_withData b ms (padded y) fun _ _ => 0
    rwa [h1, h2] at this
  refine ⟨h1, h2, h3, hrep, fun y => ⟨_, _, (hrep y).returns (solvable_pd b _ Matrix.PosDef.one fun s hs => ?_)⟩⟩
  obtain ⟨s', h1, h2, h3⟩ := Ex.withData_mem hs
  have h4 : s.Q = 1 := h2.trans (hQ s' h1)
  have h5 : s.R = 1 := h3.trans (hR s' h1)
  exact ⟨h4 ▸ Matrix.PosSemidef.one, h5 ▸ Matrix.PosDef.one, .inr (h4 ▸ Matrix.PosDef.one)⟩

/-- The density used above, in one dimension, is the usual one. -/
example (σ2 x : ℝ) (h : 0 < σ2) :
    gaussDensity (Matrix.of fun _ _ : Fin 1 => σ2) (fun _ => x) = (√(2 * Real.pi * σ2))⁻¹ * Real.exp (-x ^ 2 / (2 * σ2)) := by
  unfold gaussDensity
  simp [Matrix.det_fin_one, Matrix.inv_def, dotProduct, Matrix.mulVec]
  left
  field_simp

end KK
