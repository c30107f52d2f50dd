import Verif.Spec.Textbook
import Verif.Spec.ExtObserver

/-!
# Models that change from step to step

The observability and controllability of a stretch of steps, and models in which every stretch of `N` steps has both,
uniformly.
-/

namespace KK

open Matrix

variable {n m : ℕ}

/-- Observability Gramian of a stretch of steps: `x' (obsGram ss) x` is the sum of the squares of all entries of the
measurements `H₁ x, H₂ A₂ x, H₃ A₃ A₂ x, ...` that the steps would make without any noise if the state at the first
measurement were `x`. -/
noncomputable def obsGram : List (LinStep n m) → Matrix (Fin n) (Fin n) ℝ
  | [] => 0
  | [s] => s.Hᵀ * s.H
  | s :: t :: ss => s.Hᵀ * s.H + t.Aᵀ * obsGram (t :: ss) * t.A

/-- Controllability Gramian of a stretch of steps: the covariance that the process noise of these steps alone would build up,
`W ↦ A W A' + Q` from `W = 0`. -/
noncomputable def conGram (ss : List (LinStep n m)) : Matrix (Fin n) (Fin n) ℝ :=
  ss.foldl (fun W s => s.A * W * s.Aᵀ + s.Q) 0

/-- A time-varying model whose matrices are bounded by `a` (entries of `A` and `H`, size of `Q` and `R`) and whose measurement
noise is at least `r`, and in which all stretches of `N` consecutive steps are observable and controllable with margin `γ`. -/
structure UniformModel (N : ℕ) (a r γ : ℝ) (ss : List (LinStep n m)) : Prop where
  A : ∀ s ∈ ss, ∀ i j, |s.A i j| ≤ a
  H : ∀ s ∈ ss, ∀ i j, |s.H i j| ≤ a
  Q : ∀ s ∈ ss, Between 0 a s.Q
  R : ∀ s ∈ ss, Between r a s.R
  observable : ∀ w, w <:+: ss → w.length = N → (obsGram w - γ • (1 : Matrix (Fin n) (Fin n) ℝ)).PosSemidef
  controllable : ∀ w, w <:+: ss → w.length = N → (conGram w - γ • (1 : Matrix (Fin n) (Fin n) ℝ)).PosSemidef

/-- The time-varying linear model got from a nonlinear one by taking the Jacobians at the true states `x 0, x 1, ...`. -/
noncomputable def alongTruth (ss : List (ExtStep n m)) (x : ℕ → Fin n → ℝ) : List (LinStep n m) :=
  ss.mapIdx fun k s => { A := s.jA (x k), c := 0, H := s.jH (x (k + 1)), Q := s.Q, R := s.R, z := 0 }

/-- Near the true states `x` (before the step) and `x'` (after it), up to distance `d`, the entries of the Jacobians change by at most
`l` times the distance. -/
structure NearSmooth (l d : ℝ) (s : ExtStep n m) (x x' : Fin n → ℝ) : Prop where
  jA : ∀ y : Fin n → ℝ, ‖x - y‖ ≤ d → ∀ i j, |s.jA x i j - s.jA y i j| ≤ l * ‖x - y‖
  jH : ∀ y : Fin n → ℝ, ‖x' - y‖ ≤ d → ∀ i j, |s.jH x' i j - s.jH y i j| ≤ l * ‖x' - y‖

end KK
