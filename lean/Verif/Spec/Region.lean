import Verif.Spec.Likelihood

/-!
# Confidence regions
-/

namespace KK

open Matrix MeasureTheory ProbabilityTheory

variable {n m : ℕ} {Ω : Type} [MeasurableSpace Ω]

/-- The squared distance of the truth `X` from the estimate `xh`, in units of the covariance `P`: `(X - xh)' P⁻¹ (X - xh)`
(normalised estimation error squared, squared Mahalanobis distance). -/
noncomputable def squaredDistance (P : Matrix (Fin n) (Fin n) ℝ) (X xh : Ω → Fin n → ℝ) (ω : Ω) : ℝ :=
  (X ω - xh ω) ⬝ᵥ (P⁻¹ *ᵥ (X ω - xh ω))

/-- The chi-squared distribution with `d` degrees of freedom: that of the sum of the squares of `d` independent standard normal
variables. -/
noncomputable def chiSquared (d : ℕ) : Measure ℝ := (Measure.pi fun _ : Fin d => gaussianReal 0 1).map fun w => ∑ i, w i ^ 2

/-- The error of `xh` is normal with covariance `P` and independent of the first `K` observations; if `P` is invertible, the squared
distance has the chi-squared distribution whatever was observed: for every event `D` about the observations. -/
structure ExactRegions (μ : Measure Ω) (z : ℕ → Ω → Fin m → ℝ) (K : ℕ) (X xh : Ω → Fin n → ℝ) (P : Matrix (Fin n) (Fin n) ℝ) : Prop where
  law : μ.map (fun ω => X ω - xh ω) = normal 0 P
  independent : IndepFun (fun ω => X ω - xh ω) (firstObs z K) μ
  coverage : P.det ≠ 0 → ∀ (B : Set ℝ) (D : Set (Fin K → Fin m → ℝ)), MeasurableSet B → MeasurableSet D →
    μ {ω | squaredDistance P X xh ω ∈ B ∧ firstObs z K ω ∈ D} = chiSquared n B * μ {ω | firstObs z K ω ∈ D}

/-- Whatever the distributions of the noises: the squared distance is at most `n` in the mean, so it exceeds `t` with probability at
most `n / t`. -/
def SafeRegions (μ : Measure Ω) (X xh : Ω → Fin n → ℝ) (P : Matrix (Fin n) (Fin n) ℝ) : Prop :=
  P.PosDef → Integrable (squaredDistance P X xh) μ ∧ ∫ ω, squaredDistance P X xh ω ∂μ ≤ n ∧
    ∀ t : ℝ, 0 < t → μ {ω | t ≤ squaredDistance P X xh ω} ≤ ENNReal.ofReal (n / t)

end KK
