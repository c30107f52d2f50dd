import Verif.Spec.Stochastic
import Mathlib.Probability.Distributions.Gaussian.Multivariate

/-!
# Error bars and posterior distributions
-/

namespace KK

open Matrix MeasureTheory ProbabilityTheory

variable {n m : ℕ} {Ω : Type} [MeasurableSpace Ω]

/-- `P` gives error bars for the estimate `xh` of `X`: for every linear functional `c` the probability of an error of at least
`t` is at most `c' P c / t²`. -/
def ErrorBars (μ : Measure Ω) (X xh : Ω → Fin n → ℝ) (P : Matrix (Fin n) (Fin n) ℝ) : Prop :=
  ∀ (c : Fin n → ℝ) (t : ℝ), 0 < t → μ {ω | t ≤ |c ⬝ᵥ (X ω - xh ω)|} ≤ ENNReal.ofReal (c ⬝ᵥ P *ᵥ c / t ^ 2)

/-- The normal distribution on `ℝⁿ` with mean `x` and covariance `P`. -/
noncomputable def normal (x : Fin n → ℝ) (P : Matrix (Fin n) (Fin n) ℝ) : Measure (Fin n → ℝ) :=
  (multivariateGaussian (WithLp.toLp 2 x) P).map WithLp.ofLp

/-- The conditional distribution of `X` given the first `K` observations is normal with mean `xh` and covariance `P`: `xh` is
a function of these observations, and for every set `B` of states and every event `D` about these observations, the
probability that `X ∈ B` and `D` is the mean over `D` of the probability that the normal distribution gives to `B`.  The same
for every linear functional `c` of `X`, whose distribution is the real normal distribution with variance `c' P c`. -/
structure Posterior (μ : Measure Ω) (z : ℕ → Ω → Fin m → ℝ) (K : ℕ) (X xh : Ω → Fin n → ℝ) (P : Matrix (Fin n) (Fin n) ℝ) :
    Prop where
  known : ∃ g : (Fin K → Fin m → ℝ) → Fin n → ℝ, Measurable g ∧ ∀ ω, xh ω = g (firstObs z K ω)
  joint : ∀ (B : Set (Fin n → ℝ)) (D : Set (Fin K → Fin m → ℝ)), MeasurableSet B → MeasurableSet D →
    μ {ω | X ω ∈ B ∧ firstObs z K ω ∈ D} = ∫⁻ ω in {ω | firstObs z K ω ∈ D}, normal (xh ω) P B ∂μ
  functional : ∀ (c : Fin n → ℝ) (B : Set ℝ) (D : Set (Fin K → Fin m → ℝ)), MeasurableSet B → MeasurableSet D →
    μ {ω | c ⬝ᵥ X ω ∈ B ∧ firstObs z K ω ∈ D} =
      ∫⁻ ω in {ω | firstObs z K ω ∈ D}, gaussianReal (c ⬝ᵥ xh ω) (c ⬝ᵥ P *ᵥ c).toNNReal B ∂μ

end KK
