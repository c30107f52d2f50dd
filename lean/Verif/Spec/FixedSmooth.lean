import Verif.Spec.Steady

/-!
# The smoother with fixed gains (no covariances), for C173
-/

namespace KK

open Matrix

variable {n m : ℕ}

/-- The smoothed state of the present time, from its estimate `y` and the later steps: the estimate is corrected by `G` times the
difference between the smoothed next state and its prediction.  `K` is the gain of the observer, `G` that of the smoother. -/
noncomputable def fixedSmoothNow (A : Matrix (Fin n) (Fin n) ℝ) (H : Matrix (Fin m) (Fin n) ℝ) (K : Matrix (Fin n) (Fin m) ℝ)
    (G : Matrix (Fin n) (Fin n) ℝ) : (Fin n → ℝ) → List (LinStep n m) → (Fin n → ℝ)
  | y, [] => y
  | y, s :: ss =>
    let p := A *ᵥ y + s.c
    y + G *ᵥ (fixedSmoothNow A H K G (p + K *ᵥ (s.z - H *ᵥ p)) ss - p)

/-- The states of the fixed-gain smoother after each step, the observer being started at `y`. -/
noncomputable def fixedSmooth (A : Matrix (Fin n) (Fin n) ℝ) (H : Matrix (Fin m) (Fin n) ℝ) (K : Matrix (Fin n) (Fin m) ℝ)
    (G : Matrix (Fin n) (Fin n) ℝ) : (Fin n → ℝ) → List (LinStep n m) → List (Fin n → ℝ)
  | _, [] => []
  | y, s :: ss =>
    let p := A *ᵥ y + s.c
    fixedSmoothNow A H K G (p + K *ᵥ (s.z - H *ᵥ p)) ss :: fixedSmooth A H K G (p + K *ᵥ (s.z - H *ᵥ p)) ss

end KK
