import Verif.Proofs.Posterior
import Verif.Props.Innovation
import Verif.Props.Robust

/-!
# C116: error bars and the posterior distribution
-/

set_option linter.unusedSectionVars false

namespace KK

open Matrix MeasureTheory

variable [Platform] {n m : ℕ} {Ω : Type} [MeasurableSpace Ω] {μ : Measure Ω} [IsProbabilityMeasure μ]

variable (kf : KalmanFilter Fl) (Zs : Ω → NDArray Fl) (U : Option (NDArray Fl)) (b : Belief n)
  (ms : List (ModelStep n m)) (N : Src n m → Ω → ℝ) (X : ℕ → Ω → Fin n → ℝ) (z : ℕ → Ω → Fin m → ℝ)
  (xs Ps : Ω → List (Arr Fl)) (kf' : Ω → KalmanFilter Fl)

/-- C116 (any noise, filter): if the noises are uncorrelated and at most as large as the filter was told, the probability that
a linear functional `c` of the state is off by `t` or more is at most `c' P c / t²` with the returned covariance `P`; whatever
the distributions of the noises are. -/
theorem C116_error_bars (hN : NoiseWithin μ b.P ms N) (hX : Follows b.x ms N X z) (hsym : Symmetric b.P ms)
    (h : ∀ ω, Represents kf (Zs ω) U b (withData ms fun k => z k ω))
    (hr : ∀ ω, (KalmanFilter.filter (Zs ω) U).run kf = (.ok (xs ω, Ps ω), kf' ω)) (k : ℕ) (hk : k < ms.length) :
    ∃ (xh : Ω → Fin n → ℝ) (P : Matrix (Fin n) (Fin n) ℝ), RowsHold xs Ps k xh P ∧ ErrorBars μ (X (k + 1)) xh P := by
  have : Nonempty Ω := μ.nonempty_of_neZero
  obtain ⟨xh, P, h1, h2⟩ := C69_conservative kf Zs U b ms N X z xs Ps kf' hN hX hsym h hr k hk
  exact ⟨xh, P, h1, h2.errorBars⟩

/-- C116 (any noise, smoother). -/
theorem C116_error_bars_smooth (hN : NoiseWithin μ b.P ms N) (hX : Follows b.x ms N X z) (hsym : Symmetric b.P ms)
    (h : ∀ ω, Represents kf (Zs ω) U b (withData ms fun k => z k ω)) (hfull : ∀ ω, ms.length = (Zs ω).rows.length)
    (hr : ∀ ω, (KalmanFilter.smooth (Zs ω) U).run kf = (.ok (xs ω, Ps ω), kf' ω)) (k : ℕ) (hk : k < ms.length) :
    ∃ (xh : Ω → Fin n → ℝ) (P : Matrix (Fin n) (Fin n) ℝ), RowsHold xs Ps k xh P ∧ ErrorBars μ (X (k + 1)) xh P := by
  have : Nonempty Ω := μ.nonempty_of_neZero
  obtain ⟨xh, P, h1, h2⟩ := C69_conservative_smooth kf Zs U b ms N X z xs Ps kf' hN hX hsym h hfull hr k hk
  exact ⟨xh, P, h1, h2.errorBars⟩

/-- C116 (Gaussian noise, filter): if the system follows the model with jointly Gaussian noises of the covariances the filter
was told, then given the observations up to step `k` the state is normally distributed with the mean and the covariance
returned for step `k`. -/
theorem C116_posterior (hN : WhiteNoise μ b.P ms N) (hX : Follows b.x ms N X z) (hG : GaussianNoise μ ms.length N)
    (h : ∀ ω, Represents kf (Zs ω) U b (withData ms fun k => z k ω))
    (hr : ∀ ω, (KalmanFilter.filter (Zs ω) U).run kf = (.ok (xs ω, Ps ω), kf' ω)) (k : ℕ) (hk : k < ms.length) :
    ∃ (xh : Ω → Fin n → ℝ) (P : Matrix (Fin n) (Fin n) ℝ), RowsHold xs Ps k xh P ∧
      Posterior μ z (k + 1) (X (k + 1)) xh P := by
  obtain ⟨vb, hg, hv⟩ := filter_rows kf Zs U b ms N X z hN hX h xs Ps kf' hr k hk
  exact ⟨vb.fn, vb.P, hv, Stoch.posterior_of_gaussian hN hX hG (by omega) (Stoch.nice_state hN hX (by omega))
    (Stoch.state_gen hN hX (by omega)) hg⟩

/-- C116 (Gaussian noise, smoother): given all observations, the state of step `k` is normally distributed with the smoothed
mean and covariance. -/
theorem C116_posterior_smooth (hN : WhiteNoise μ b.P ms N) (hX : Follows b.x ms N X z) (hG : GaussianNoise μ ms.length N)
    (h : ∀ ω, Represents kf (Zs ω) U b (withData ms fun k => z k ω)) (hfull : ∀ ω, ms.length = (Zs ω).rows.length)
    (hr : ∀ ω, (KalmanFilter.smooth (Zs ω) U).run kf = (.ok (xs ω, Ps ω), kf' ω)) (k : ℕ) (hk : k < ms.length) :
    ∃ (xh : Ω → Fin n → ℝ) (P : Matrix (Fin n) (Fin n) ℝ), RowsHold xs Ps k xh P ∧
      Posterior μ z ms.length (X (k + 1)) xh P := by
  obtain ⟨vb, hg, hv⟩ := smooth_rows kf Zs U b ms N X z hN hX h xs Ps kf' hfull hr k hk
  exact ⟨vb.fn, vb.P, hv, Stoch.posterior_of_gaussian hN hX hG (by omega) (Stoch.nice_state hN hX (by omega))
    (Stoch.state_gen hN hX (by omega)) hg⟩

/-- C116 (Gaussian noise, predictions): given the observations before step `k`, the state of step `k` is normally distributed
with mean `A x + B u` and covariance `A P A' + Q`, and its observation with mean `H (A x + B u)` and covariance
`H (A P A' + Q) H' + R`, where `x`, `P` are what was returned for the step before (or the initial values). -/
theorem C116_predictive (hN : WhiteNoise μ b.P ms N) (hX : Follows b.x ms N X z) (hG : GaussianNoise μ ms.length N)
    (h : ∀ ω, Represents kf (Zs ω) U b (withData ms fun k => z k ω))
    (hr : ∀ ω, (KalmanFilter.filter (Zs ω) U).run kf = (.ok (xs ω, Ps ω), kf' ω)) :
    ∃ (xh : ℕ → Ω → Fin n → ℝ) (P : ℕ → Matrix (Fin n) (Fin n) ℝ), Estimates b ms.length xs Ps xh P ∧
      ∀ (k : ℕ) (s : ModelStep n m), ms[k]? = some s →
        Posterior μ z k (X (k + 1)) (s.predState (xh k)) (s.predStateCov (P k)) ∧
        Posterior μ z k (z k) (s.predObs (xh k)) (s.predObsCov (P k)) := by
  obtain ⟨vb, he, hg⟩ := estimates kf Zs U b ms N X z xs Ps kf' hN hX h hr
  refine ⟨_, _, he, fun k s hs => ?_⟩
  have hk : k < ms.length := (List.getElem?_eq_some_iff.1 hs).1
  obtain ⟨g1, g2, -⟩ := hg k s hs
  rw [Stoch.predState_fn, Stoch.predObs_fn s (vb k) (s.predObsCov (vb k).P)]
  exact ⟨Stoch.posterior_of_gaussian hN hX hG (by omega) (Stoch.nice_state (k := k + 1) hN hX (by omega))
      (Stoch.state_gen hN hX (by omega)) g1,
    Stoch.posterior_of_gaussian hN hX hG (by omega) (Stoch.nice_obs hN hX hk) (Stoch.obs_gen hN hX hk) g2⟩

/-- The normal distribution used above, in one dimension after any linear functional. -/
example (x c : Fin n → ℝ) (P : Matrix (Fin n) (Fin n) ℝ) (hP : P.PosSemidef) :
    (normal x P).map (fun y => c ⬝ᵥ y) = ProbabilityTheory.gaussianReal (c ⬝ᵥ x) (c ⬝ᵥ P *ᵥ c).toNNReal :=
  normal_functional hP x c

-- C116: independent standard normal noises drive any model with unit covariances; all hypotheses are met and the calls return.
example (x₀ : Fin n → ℝ) (ms : List (ModelStep n m)) (hQ : ∀ s ∈ ms, s.Q = 1) (hR : ∀ s ∈ ms, s.R = 1) (hne : ms ≠ []) :
    let b : Belief n := ⟨x₀, 1⟩
    let kf := Ex.encode b (withData ms fun _ _ => 0)
    let U := some (Ex.encU (withData ms fun _ _ => (0 : ℝ)))
    let Zs : (Src n m → ℝ) → NDArray Fl := fun ω => Ex.encZ (withData ms fun k => Ex.exObs x₀ ms k ω)
    WhiteNoise (Ex.normals n m) b.P ms Ex.coord ∧ Follows b.x ms Ex.coord (Ex.exState x₀ ms) (Ex.exObs x₀ ms) ∧
    GaussianNoise (Ex.normals n m) ms.length (Ex.coord : Src n m → _) ∧
    (∀ ω, Represents kf (Zs ω) U b (withData ms fun k => Ex.exObs x₀ ms k ω)) ∧
    (∀ ω, ms.length = (Zs ω).rows.length) ∧
    (∀ ω, ∃ r kf', (KalmanFilter.filter (Zs ω) U).run kf = (.ok r, kf')) ∧
    (∀ ω, ∃ r kf', (KalmanFilter.smooth (Zs ω) U).run kf = (.ok r, kf')) :=
  Ex.stoch_case x₀ ms hQ hR hne

end KK
