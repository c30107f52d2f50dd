import Verif.Spec.Posterior

/-!
# The likelihood of the data

The likelihood that a user of a Kalman filter computes from its results: the product over the steps of the normal density of
the innovation.  This file does not mention kalmankit nor any filter recursion.
-/

namespace KK

open Matrix MeasureTheory

variable {n m : ℕ}

/-- The density at `v` of the normal distribution on `ℝᵐ` with mean 0 and invertible covariance `S`. -/
noncomputable def gaussDensity (S : Matrix (Fin m) (Fin m) ℝ) (v : Fin m → ℝ) : ℝ :=
  (√((2 * Real.pi) ^ m * S.det))⁻¹ * Real.exp (-(v ⬝ᵥ S⁻¹ *ᵥ v) / 2)

/-- `T` observations as a sequence that goes on with zeros. -/
def padded {T : ℕ} (y : Fin T → Fin m → ℝ) (k : ℕ) : Fin m → ℝ := if h : k < T then y ⟨k, h⟩ else 0

/-- The likelihood of the observations `y`, computed from estimates `x 0, x 1, …` (before the first step, after the first
step, …) and their covariances `P`: the product of the densities of the innovations `y k - H (A x + c)`, which have covariance
`H (A P A' + Q) H' + R`. -/
noncomputable def likelihood (ms : List (ModelStep n m)) (x : ℕ → Fin n → ℝ) (P : ℕ → Matrix (Fin n) (Fin n) ℝ)
    (y : ℕ → Fin m → ℝ) : ℝ :=
  ∏ k : Fin ms.length, gaussDensity (ms[k].predObsCov (P k)) (y k - ms[k].H *ᵥ (ms[k].A *ᵥ x k + ms[k].c))

/-- Its logarithm, as it is usually computed. -/
noncomputable def logLikelihood (ms : List (ModelStep n m)) (x : ℕ → Fin n → ℝ) (P : ℕ → Matrix (Fin n) (Fin n) ℝ)
    (y : ℕ → Fin m → ℝ) : ℝ :=
  -(∑ k : Fin ms.length, (m * Real.log (2 * Real.pi) + Real.log (ms[k].predObsCov (P k)).det +
    (y k - ms[k].H *ᵥ (ms[k].A *ᵥ x k + ms[k].c)) ⬝ᵥ
      (ms[k].predObsCov (P k))⁻¹ *ᵥ (y k - ms[k].H *ᵥ (ms[k].A *ᵥ x k + ms[k].c)))) / 2

end KK
