import Verif.Spec.ExtReturns
import Mathlib.Analysis.Normed.Group.Constructions

/-!
# A nonlinear system observed by the extended filter

`‖·‖` of a vector is its largest entry in modulus.
-/

namespace KK

open Matrix

variable {n m : ℕ}

/-- Near the true states `x` (before the step) and `x'` (after it), up to distance `d`, the Jacobians handed to the filter have
entries at most `a`, and approximate `f` and `h` up to an error of at most `κ` times the square of the distance. -/
structure NearLinear (a κ d : ℝ) (s : ExtStep n m) (x x' : Fin n → ℝ) : Prop where
  jA : ∀ y : Fin n → ℝ, ‖x - y‖ ≤ d → ∀ i j, |s.jA y i j| ≤ a
  jH : ∀ y : Fin n → ℝ, ‖x' - y‖ ≤ d → ∀ i j, |s.jH y i j| ≤ a
  f : ∀ y : Fin n → ℝ, ‖x - y‖ ≤ d → ‖s.f x - (s.f y + s.jA y *ᵥ (x - y))‖ ≤ κ * ‖x - y‖ ^ 2
  h : ∀ y : Fin n → ℝ, ‖x' - y‖ ≤ d → ‖s.h x' - (s.h y + s.jH y *ᵥ (x' - y))‖ ≤ κ * ‖x' - y‖ ^ 2

/-- The matrix `P` is at least `q` and at most `p` (in every direction). -/
def Between (q p : ℝ) (P : Matrix (Fin n) (Fin n) ℝ) : Prop :=
  (P - q • (1 : Matrix (Fin n) (Fin n) ℝ)).PosSemidef ∧ (p • (1 : Matrix (Fin n) (Fin n) ℝ) - P).PosSemidef

end KK
