import Mathlib.Analysis.Matrix.PosDef
import Mathlib.Data.Real.Basic

/-!
# Observability and controllability of a constant model
-/

namespace KK

open Matrix

variable {n m : ℕ}

/-- Observability: only the zero state is invisible in `n` consecutive noise-free measurements. -/
def Observable (A : Matrix (Fin n) (Fin n) ℝ) (H : Matrix (Fin m) (Fin n) ℝ) : Prop :=
  ∀ x : Fin n → ℝ, (∀ i < n, H *ᵥ ((A ^ i) *ᵥ x) = 0) → x = 0

/-- Controllability by the process noise: the process noise of `n` steps reaches every direction of the state, i.e.
the matrix `[Q, A Q, ..., A^(n-1) Q]` has no left null vector. -/
def Controllable (A Q : Matrix (Fin n) (Fin n) ℝ) : Prop :=
  ∀ y : Fin n → ℝ, (∀ i < n, y ᵥ* (A ^ i * Q) = 0) → y = 0

end KK
