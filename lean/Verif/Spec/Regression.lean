import Verif.Spec.Batch
import Mathlib.MeasureTheory.Function.L2Space

/-!
# Linear regression

Observations `z = H θ + noise` of one unknown, constant parameter vector.  Least squares with a prior guess (ridge regression).
This file does not mention any recursion.
-/

namespace KK

open Matrix MeasureTheory

variable {n m : ℕ}

/-- A model step under which the state is constant: `A` is the identity, no control, no process noise. -/
def LinStep.IsStatic (s : LinStep n m) : Prop := s.A = 1 ∧ s.c = 0 ∧ s.Q = 0

/-- Information about the parameter: that of the prior guess and `H' R⁻¹ H` of every observation. -/
noncomputable def information (P : Matrix (Fin n) (Fin n) ℝ) (ss : List (LinStep n m)) : Matrix (Fin n) (Fin n) ℝ :=
  P⁻¹ + (ss.map fun s => s.Hᵀ * s.R⁻¹ * s.H).sum

/-- Right-hand side of the normal equations. -/
noncomputable def normalRhs (b : Belief n) (ss : List (LinStep n m)) : Fin n → ℝ :=
  b.P⁻¹ *ᵥ b.x + (ss.map fun s => (s.Hᵀ * s.R⁻¹) *ᵥ s.z).sum

/-- Weighted sum of squares of a parameter: distance from the prior guess, and residuals of all observations. -/
noncomputable def ridgeCost (b : Belief n) (ss : List (LinStep n m)) (θ : Fin n → ℝ) : ℝ :=
  mahal b.P (θ - b.x) + (ss.map fun s => mahal s.R (s.z - s.H *ᵥ θ)).sum

/-- `T` observations of a constant parameter, with observation matrices `H k` and noise covariances `R k`. -/
def regression (H : ℕ → Matrix (Fin m) (Fin n) ℝ) (R : ℕ → Matrix (Fin m) (Fin m) ℝ) (z : ℕ → Fin m → ℝ) (T : ℕ) : List (LinStep n m) :=
  (List.range T).map fun k => ⟨1, 0, H k, 0, R k, z k⟩

/-- The observations together determine every direction of the parameter ever better. -/
def Exciting (H : ℕ → Matrix (Fin m) (Fin n) ℝ) (R : ℕ → Matrix (Fin m) (Fin m) ℝ) : Prop :=
  ∀ c : ℝ, ∃ N : ℕ, ∀ T ≥ N, ∀ v : Fin n → ℝ, c * (v ⬝ᵥ v) ≤ ∑ k ∈ Finset.range T, mahal (R k) (H k *ᵥ v)

/-- Zero-mean measurement noises with the covariances `R k`, uncorrelated at different times; nothing else is assumed about
their distributions. -/
structure MeasurementNoise {Ω : Type} [MeasurableSpace Ω] (μ : Measure Ω) (R : ℕ → Matrix (Fin m) (Fin m) ℝ)
    (v : ℕ → Ω → Fin m → ℝ) : Prop where
  sq : ∀ k i, MemLp (fun ω => v k ω i) 2 μ
  mean : ∀ k i, ∫ ω, v k ω i ∂μ = 0
  cov : ∀ k i j, ∫ ω, v k ω i * v k ω j ∂μ = R k i j
  uncorrelated : ∀ k l, k ≠ l → ∀ i j, ∫ ω, v k ω i * v l ω j ∂μ = 0

end KK
