import Verif.Props.Stochastic

/-!
# C66, C67: predictions and innovations
-/

set_option linter.unusedSectionVars false

namespace KK

open Matrix MeasureTheory

variable [Platform] {n m : ℕ} {Ω : Type} [MeasurableSpace Ω] {μ : Measure Ω} [IsProbabilityMeasure μ]

/-- `xh 0`, `P 0` are the initial values given to the constructor, and `xh (k + 1)`, `P (k + 1)` row `k` of the
returned means and covariances. -/
structure Estimates (b : Belief n) (T : ℕ) (xs Ps : Ω → List (Arr Fl)) (xh : ℕ → Ω → Fin n → ℝ)
    (P : ℕ → Matrix (Fin n) (Fin n) ℝ) : Prop where
  mean0 : ∀ ω, xh 0 ω = b.x
  cov0 : P 0 = b.P
  rows : ∀ k < T, RowsHold xs Ps k (xh (k + 1)) (P (k + 1))

namespace Stoch

variable {b : Belief n} {ms : List (ModelStep n m)}

theorem predState_fn (s : ModelStep n m) (vb : VB (L2 μ) n) : s.predState vb.fn = (vpredict (one μ) s vb).fn := by
  funext ω
  have := congrArg Belief.x (vpredict_eval (ev ω) (ev_one ω) s vb 0)
  exact this.symm

theorem predObs_fn (s : ModelStep n m) (vb : VB (L2 μ) n) (S : Matrix (Fin m) (Fin m) ℝ) :
    s.predObs vb.fn = (⟨act s.H (vpredict (one μ) s vb).x, S⟩ : VB (L2 μ) m).fn := by
  funext ω i
  rw [ModelStep.predObs, predState_fn]
  exact (act_eval (ev ω) s.H (vpredict (one μ) s vb).x i).symm

end Stoch

section filter
variable (kf : KalmanFilter Fl) (Zs : Ω → NDArray Fl) (U : Option (NDArray Fl)) (b : Belief n)
  (ms : List (ModelStep n m)) (N : Src n m → Ω → ℝ) (X : ℕ → Ω → Fin n → ℝ) (z : ℕ → Ω → Fin m → ℝ)
  (xs Ps : Ω → List (Arr Fl)) (kf' : Ω → KalmanFilter Fl)

theorem estimates (hN : WhiteNoise μ b.P ms N) (hX : Follows b.x ms N X z)
    (h : ∀ ω, Represents kf (Zs ω) U b (withData ms fun k => z k ω))
    (hr : ∀ ω, (KalmanFilter.filter (Zs ω) U).run kf = (.ok (xs ω, Ps ω), kf' ω)) :
    ∃ vb : ℕ → Stoch.VB (Stoch.L2 μ) n, Estimates b ms.length xs Ps (fun k => (vb k).fn) (fun k => (vb k).P) ∧
      ∀ k s, ms[k]? = some s →
        Stoch.Good (Stoch.ip μ) (Stoch.obsSpan μ z k) (Stoch.liftV μ (X (k + 1))) (Stoch.vpredict (Stoch.one μ) s (vb k)) ∧
        Stoch.Good (Stoch.ip μ) (Stoch.obsSpan μ z k) (Stoch.liftV μ (z k))
          ⟨Stoch.act s.H (Stoch.vpredict (Stoch.one μ) s (vb k)).x, s.predObsCov (vb k).P⟩ ∧
        (s.predObsCov (vb k).P).det ≠ 0 := by
  have hs : ∀ ω, Solvable b (withData ms fun k => z k ω) := fun ω =>
    (C25_linalgerror kf (Zs ω) U b _ (h ω)).1.1 ⟨_, _, hr ω⟩
  obtain ⟨ω₀⟩ : Nonempty Ω := μ.nonempty_of_neZero
  obtain ⟨vb, h0, hrow, hg⟩ := Stoch.predict_core hN hX ⟨ω₀, hs ω₀⟩
  refine ⟨vb, ⟨fun ω => ?_, by rw [h0]; rfl, fun k hk ω => ?_⟩, hg⟩
  · have := congrArg Belief.x (Stoch.bV_eval (μ := μ) (b := b) ω)
    rw [h0]
    exact this
  have hret := (h ω).returns (hs ω)
  rw [FilterReturns, hr ω] at hret
  simp only [Prod.mk.injEq, Except.ok.injEq] at hret
  have hl : k < (filtered b (withData ms fun k => z k ω)).length := by
    rw [filtered_length, Stoch.withData_length]; exact hk
  constructor
  · refine ⟨stateRow ⟨(vb (k + 1)).fn ω, (vb (k + 1)).P⟩, ?_, ⟨_, rfl⟩⟩
    rw [hret.1.1, List.getElem?_append_left (by rw [List.length_map]; exact hl), List.getElem?_map, hrow k hk ω]
    rfl
  · refine ⟨covRow ⟨(vb (k + 1)).fn ω, (vb (k + 1)).P⟩, ?_, ⟨_, rfl⟩⟩
    rw [hret.1.2, List.getElem?_append_left (by rw [List.length_map]; exact hl), List.getElem?_map, hrow k hk ω]
    rfl

/-- C66: the prediction `A x + B u` of the next state, and the prediction `H (A x + B u)` of the next observation, made
from the mean returned for the previous step (the initial mean for the first one), are unbiased; the covariances of
their errors are `A P A' + Q` and `H (A P A' + Q) H' + R` with the covariance returned for that step; no affine function
of the earlier observations predicts better, and for jointly Gaussian noise no measurable one. -/
theorem C66_predictions (hN : WhiteNoise μ b.P ms N) (hX : Follows b.x ms N X z)
    (h : ∀ ω, Represents kf (Zs ω) U b (withData ms fun k => z k ω))
    (hr : ∀ ω, (KalmanFilter.filter (Zs ω) U).run kf = (.ok (xs ω, Ps ω), kf' ω)) :
    ∃ (xh : ℕ → Ω → Fin n → ℝ) (P : ℕ → Matrix (Fin n) (Fin n) ℝ), Estimates b ms.length xs Ps xh P ∧
      ∀ k s, ms[k]? = some s →
        (Calibrated μ (X (k + 1)) (s.predState (xh k)) (s.predStateCov (P k)) ∧
          BestAffine μ z k (X (k + 1)) (s.predState (xh k)) ∧
          (GaussianNoise μ ms.length N → BestEstimate μ z k (X (k + 1)) (s.predState (xh k)))) ∧
        (Calibrated μ (z k) (s.predObs (xh k)) (s.predObsCov (P k)) ∧
          BestAffine μ z k (z k) (s.predObs (xh k)) ∧
          (GaussianNoise μ ms.length N → BestEstimate μ z k (z k) (s.predObs (xh k)))) := by
  obtain ⟨vb, he, hg⟩ := estimates kf Zs U b ms N X z xs Ps kf' hN hX h hr
  refine ⟨_, _, he, fun k s hs => ?_⟩
  have hk : k < ms.length := (List.getElem?_eq_some_iff.1 hs).1
  obtain ⟨g1, g2, -⟩ := hg k s hs
  have hz : ∀ j < k, Stoch.Nice μ (z j) := fun j hj => Stoch.nice_obs hN hX (by omega)
  have hXn := Stoch.nice_state (k := k + 1) hN hX (by omega)
  have hzn := Stoch.nice_obs hN hX hk
  rw [Stoch.predState_fn, Stoch.predObs_fn s (vb k) (s.predObsCov (vb k).P)]
  exact ⟨⟨g1.calibrated hXn Stoch.one_mem_obsSpan, g1.bestAffine hXn hz, fun hG =>
      Stoch.best_of_gaussian hN hX hG (by omega) (by omega) g1⟩,
    g2.calibrated hzn Stoch.one_mem_obsSpan, g2.bestAffine hzn hz, fun hG =>
      Stoch.best_of_gaussian' hN hX hG (by omega) hzn (Stoch.obs_gen hN hX hk) g2⟩

/-- Average normalised squared error of a calibrated estimate. -/
theorem Calibrated.normalised {Y xh : Ω → Fin n → ℝ} {P : Matrix (Fin n) (Fin n) ℝ} (h : Calibrated μ Y xh P)
    (hP : P.det ≠ 0) : ∫ ω, (Y ω - xh ω) ⬝ᵥ (P⁻¹ *ᵥ (Y ω - xh ω)) ∂μ = n := by
  have hint : ∀ i j, Integrable (fun ω => (Y ω i - xh ω i) * (P⁻¹ i j * (Y ω j - xh ω j))) μ := fun i j => by
    have := ((h.sq i).integrable_mul (h.sq j)).const_mul (P⁻¹ i j)
    refine this.congr (.of_forall fun ω => ?_)
    simp only [Pi.mul_apply]; ring
  have h1 : ∀ ω, (Y ω - xh ω) ⬝ᵥ (P⁻¹ *ᵥ (Y ω - xh ω)) =
      ∑ i, ∑ j, (Y ω i - xh ω i) * (P⁻¹ i j * (Y ω j - xh ω j)) := fun ω => by
    simp only [dotProduct, Matrix.mulVec, Finset.mul_sum, Pi.sub_apply]
  simp only [h1]
  rw [integral_finset_sum _ fun i _ => integrable_finset_sum _ fun j _ => hint i j]
  have h2 : ∀ i, ∫ ω, ∑ j, (Y ω i - xh ω i) * (P⁻¹ i j * (Y ω j - xh ω j)) ∂μ = (P⁻¹ * P) i i := fun i => by
    rw [integral_finset_sum _ fun j _ => hint i j, Matrix.mul_apply]
    refine Finset.sum_congr rfl fun j _ => ?_
    rw [← h.cov j i, ← integral_const_mul]
    exact integral_congr_ae (.of_forall fun ω => by simp only; ring)
  simp only [h2]
  rw [Matrix.nonsing_inv_mul _ (isUnit_iff_ne_zero.2 hP)]
  simp

/-- C67: the innovations (each observation minus its prediction from the mean returned for the previous step) are a
white sequence: zero mean, covariance `S = H (A P A' + Q) H' + R`, uncorrelated at different steps; `S` is invertible
and the normalised innovation squared `r' S⁻¹ r` is `m` on average.  For jointly Gaussian noise each innovation is
independent of all earlier observations, and of all earlier innovations. -/
theorem C67_white_innovations (hN : WhiteNoise μ b.P ms N) (hX : Follows b.x ms N X z)
    (h : ∀ ω, Represents kf (Zs ω) U b (withData ms fun k => z k ω))
    (hr : ∀ ω, (KalmanFilter.filter (Zs ω) U).run kf = (.ok (xs ω, Ps ω), kf' ω)) :
    ∃ (xh : ℕ → Ω → Fin n → ℝ) (P : ℕ → Matrix (Fin n) (Fin n) ℝ) (S : ℕ → Matrix (Fin m) (Fin m) ℝ),
      Estimates b ms.length xs Ps xh P ∧ (∀ k s, ms[k]? = some s → S k = s.predObsCov (P k) ∧ (S k).det ≠ 0) ∧
      White μ ms.length (innovation ms z xh) S ∧
      (∀ k < ms.length, ∫ ω, innovation ms z xh k ω ⬝ᵥ ((S k)⁻¹ *ᵥ innovation ms z xh k ω) ∂μ = m) ∧
      (GaussianNoise μ ms.length N → ∀ k < ms.length,
        ProbabilityTheory.IndepFun (innovation ms z xh k) (firstObs z k) μ ∧
        ProbabilityTheory.IndepFun (innovation ms z xh k) (firstObs (innovation ms z xh) k) μ) := by
  obtain ⟨vb, he, hg⟩ := estimates kf Zs U b ms N X z xs Ps kf' hN hX h hr
  obtain ⟨xh, hxh⟩ : ∃ xh : ℕ → Ω → Fin n → ℝ, xh = fun k => (vb k).fn := ⟨_, rfl⟩
  rw [← hxh] at he
  have hsome : ∀ k < ms.length, ∃ s, ms[k]? = some s := fun k hk => ⟨_, List.getElem?_eq_getElem hk⟩
  have hzn : ∀ k < ms.length, Stoch.Nice μ (z k) := fun k hk => Stoch.nice_obs hN hX hk
  have hinn : ∀ {k s}, ms[k]? = some s → ∀ ω, innovation ms z xh k ω = z k ω - s.predObs (xh k) ω := by
    intro k s hs ω
    rw [innovation, hs]; rfl
  -- the innovations as random variables
  obtain ⟨R, hR⟩ : ∃ R : ℕ → Fin m → Stoch.L2 μ, R = fun k => (ms[k]?.map fun s =>
      Stoch.liftV μ (z k) - Stoch.act s.H (Stoch.vpredict (Stoch.one μ) s (vb k)).x).getD 0 := ⟨_, rfl⟩
  have hRk : ∀ {k s}, ms[k]? = some s →
      R k = Stoch.liftV μ (z k) - Stoch.act s.H (Stoch.vpredict (Stoch.one μ) s (vb k)).x := by
    intro k s hs; rw [hR]; simp only [hs]; rfl
  have hRc : ∀ k < ms.length, ∀ i ω, (R k i).1 ω = innovation ms z xh k ω i := by
    intro k hk i ω
    obtain ⟨s, hs⟩ := hsome k hk
    rw [hRk hs, hinn hs, hxh]
    simp only
    rw [Stoch.predObs_fn s (vb k) (s.predObsCov (vb k).P)]
    exact Stoch.err_coe (vb := ⟨Stoch.act s.H (Stoch.vpredict (Stoch.one μ) s (vb k)).x, s.predObsCov (vb k).P⟩)
      (hzn k hk) i ω
  have hRS : ∀ k < ms.length, Stoch.InS (R k) (Stoch.obsSpan μ z (k + 1)) := by
    intro k hk
    obtain ⟨s, hs⟩ := hsome k hk
    rw [hRk hs]
    refine Stoch.InS.sub (fun i => Stoch.obs_mem_obsSpan (by omega) i) ?_
    exact (hg k s hs).2.1.mem.mono le_sup_left
  have hRP : ∀ k < ms.length, Stoch.Perp (Stoch.ip μ) (R k) (Stoch.obsSpan μ z k) := by
    intro k hk
    obtain ⟨s, hs⟩ := hsome k hk
    rw [hRk hs]
    exact (hg k s hs).2.1.perp
  have hmono : ∀ {k l}, k ≤ l → Stoch.obsSpan μ z k ≤ Stoch.obsSpan μ z l := by
    intro k l hkl
    induction hkl with
    | refl => exact le_refl _
    | step _ ih => exact ih.trans le_sup_left
  have hunc : ∀ k < ms.length, ∀ l < k, ∀ i j, Stoch.ip μ (R k i) (R l j) = 0 := fun k hk l hl i j =>
    hRP k hk i _ (hmono (by omega) (hRS l (by omega) j))
  have hint : ∀ k < ms.length, ∀ l < ms.length, ∀ i j, ∫ ω, innovation ms z xh k ω i * innovation ms z xh l ω j ∂μ =
      Stoch.ip μ (R k i) (R l j) := by
    intro k hk l hl i j
    rw [Stoch.ip_apply]
    exact integral_congr_ae (.of_forall fun ω => by simp only; rw [hRc k hk, hRc l hl])
  have hcal : ∀ {k s}, ms[k]? = some s → Calibrated μ (z k) (s.predObs (xh k)) (s.predObsCov (vb k).P) := by
    intro k s hs
    have := (hg k s hs).2.1.calibrated (hzn k (List.getElem?_eq_some_iff.1 hs).1) Stoch.one_mem_obsSpan
    rwa [← Stoch.predObs_fn, show (vb k).fn = xh k by rw [hxh]] at this
  refine ⟨xh, fun k => (vb k).P, fun k => (ms[k]?.map fun s => s.predObsCov (vb k).P).getD 0, he, fun k s hs => ?_,
    ⟨fun k hk i => ?_, fun k hk i => ?_, fun k hk i j => ?_, fun k hk l hl hkl i j => ?_⟩, fun k hk => ?_,
    fun hG k hk => ?_⟩
  · simp only [hs, Option.map_some, Option.getD_some, true_and]
    exact (hg k s hs).2.2
  · have := (R k i).2.2
    rwa [show (R k i).1 = fun ω => innovation ms z xh k ω i from funext (hRc k hk i)] at this
  · obtain ⟨s, hs⟩ := hsome k hk
    simp only [hinn hs]
    exact (hcal hs).mean i
  · obtain ⟨s, hs⟩ := hsome k hk
    simp only [hinn hs, hs]
    exact (hcal hs).cov i j
  · rw [hint k hk l hl]
    rcases Nat.lt_or_gt_of_ne hkl with h' | h'
    · rw [Stoch.ip_symm]; exact hunc l hl k h' j i
    · exact hunc k hk l h' i j
  · obtain ⟨s, hs⟩ := hsome k hk
    simp only [hinn hs, hs]
    exact (hcal hs).normalised (hg k s hs).2.2
  · obtain ⟨s, hs⟩ := hsome k hk
    have hb := Stoch.best_of_gaussian' hN hX hG (K := k) (by omega) (hzn k hk) (Stoch.obs_gen hN hX hk) (hg k s hs).2.1
    have hi : ProbabilityTheory.IndepFun (innovation ms z xh k) (firstObs z k) μ := by
      have := hb.indep
      rw [← Stoch.predObs_fn, show (vb k).fn = xh k by rw [hxh]] at this
      rwa [show (fun ω => z k ω - s.predObs (xh k) ω) = innovation ms z xh k from funext fun ω => (hinn hs ω).symm] at this
    refine ⟨hi, ?_⟩
    have hz : ∀ j < k, Stoch.Nice μ (z j) := fun j hj => hzn j (by omega)
    choose G hGm hGf using fun (l : Fin k) (i : Fin m) => Stoch.affine_comp
      (Stoch.affine_of_mem hz (hmono (show (l : ℕ) + 1 ≤ k by omega) (hRS l (by omega) i)))
    have := hi.comp (φ := id) (ψ := fun y (l : Fin k) (i : Fin m) => G l i y) measurable_id
      (measurable_pi_lambda _ fun l => measurable_pi_lambda _ fun i => hGm l i)
    have he' : (fun y (l : Fin k) (i : Fin m) => G l i y) ∘ firstObs z k = firstObs (innovation ms z xh) k := by
      funext ω l i
      show G l i (firstObs z k ω) = innovation ms z xh l ω i
      rw [← hGf, hRc l (by omega)]
    rwa [he'] at this

/-- C45 (normalised errors): wherever the returned covariance is invertible, the normalised estimation error squared
`(x - xh)' P⁻¹ (x - xh)` is `n` on average. -/
theorem C45_normalised_error (hN : WhiteNoise μ b.P ms N) (hX : Follows b.x ms N X z)
    (h : ∀ ω, Represents kf (Zs ω) U b (withData ms fun k => z k ω))
    (hr : ∀ ω, (KalmanFilter.filter (Zs ω) U).run kf = (.ok (xs ω, Ps ω), kf' ω)) (k : ℕ) (hk : k < ms.length) :
    ∃ (xh : Ω → Fin n → ℝ) (P : Matrix (Fin n) (Fin n) ℝ), RowsHold xs Ps k xh P ∧
      (P.det ≠ 0 → ∫ ω, (X (k + 1) ω - xh ω) ⬝ᵥ (P⁻¹ *ᵥ (X (k + 1) ω - xh ω)) ∂μ = n) := by
  obtain ⟨xh, P, h1, h2⟩ := C45_calibrated kf Zs U b ms N X z xs Ps kf' hN hX h hr k hk
  exact ⟨xh, P, h1, h2.normalised⟩

end filter

/-! ### Hypotheses are met

An arbitrary linear model with unit covariances, driven by independent standard normal noises; the theorems apply to
the encoded calls. -/

example (x₀ : Fin n → ℝ) (ms : List (ModelStep n m)) (hQ : ∀ s ∈ ms, s.Q = 1) (hR : ∀ s ∈ ms, s.R = 1) (hne : ms ≠ []) :
    ∃ (xs Ps : (Src n m → ℝ) → List (Arr Fl)) (xh : ℕ → (Src n m → ℝ) → Fin n → ℝ) (P : ℕ → Matrix (Fin n) (Fin n) ℝ)
      (S : ℕ → Matrix (Fin m) (Fin m) ℝ),
      Estimates ⟨x₀, 1⟩ ms.length xs Ps xh P ∧
      White (Ex.normals n m) ms.length (innovation ms (Ex.exObs x₀ ms) xh) S := by
  obtain ⟨h1, h2, -, h4, -, h6, -⟩ := Ex.stoch_case x₀ ms hQ hR hne
  choose r kf' hr using h6
  obtain ⟨xh, P, S, h, -, hw, -⟩ := C67_white_innovations (μ := Ex.normals n m) _ _ _ _ ms _ _ _
    (fun ω => (r ω).1) (fun ω => (r ω).2) kf' h1 h2 h4 hr
  exact ⟨_, _, xh, P, S, h, hw⟩

end KK
