import Verif.Spec.Stochastic

/-!
# Noise that does not have the covariances the filter was told
-/

namespace KK

open Matrix MeasureTheory

variable {n m : ℕ} {Ω : Type} [MeasurableSpace Ω]

/-- Integrable zero-mean noise; nothing else is known about it. -/
structure ZeroMeanNoise (μ : Measure Ω) (T : ℕ) (N : Src n m → Ω → ℝ) : Prop where
  int : ∀ a : Src n m, a.Active T → Integrable (N a) μ
  mean : ∀ a : Src n m, a.Active T → ∫ ω, N a ω ∂μ = 0

/-- The estimate `xh` of `X` is unbiased. -/
def Unbiased (μ : Measure Ω) (X xh : Ω → Fin n → ℝ) : Prop :=
  ∀ i, Integrable (fun ω => X ω i - xh ω i) μ ∧ ∫ ω, (X ω i - xh ω i) ∂μ = 0

/-- Sources of the same random vector: the initial error, the process noise of a step, the measurement noise of a
step. -/
def Src.SameVector : Src n m → Src n m → Prop
  | .e _, .e _ => True
  | .w k _, .w l _ => k = l
  | .v k _, .v l _ => k = l
  | _, _ => False

/-- Square-integrable zero-mean noise, uncorrelated between the initial error, the process noises and the measurement
noises of the steps, and *at most as large* as specified: in every direction `c`, the variance is at most that given
by `P`, `Q`, `R`. -/
structure NoiseWithin (μ : Measure Ω) (P : Matrix (Fin n) (Fin n) ℝ) (ms : List (ModelStep n m))
    (N : Src n m → Ω → ℝ) : Prop where
  sq : ∀ a : Src n m, a.Active ms.length → MemLp (N a) 2 μ
  mean : ∀ a : Src n m, a.Active ms.length → ∫ ω, N a ω ∂μ = 0
  uncorrelated : ∀ a a' : Src n m, a.Active ms.length → a'.Active ms.length → ¬ a.SameVector a' →
    ∫ ω, N a ω * N a' ω ∂μ = 0
  initial : ∀ c : Fin n → ℝ, ∫ ω, (c ⬝ᵥ fun i => N (.e i) ω) ^ 2 ∂μ ≤ c ⬝ᵥ P *ᵥ c
  process : ∀ k s, ms[k]? = some s → ∀ c : Fin n → ℝ, ∫ ω, (c ⬝ᵥ fun i => N (.w k i) ω) ^ 2 ∂μ ≤ c ⬝ᵥ s.Q *ᵥ c
  measurement : ∀ k s, ms[k]? = some s → ∀ c : Fin m → ℝ, ∫ ω, (c ⬝ᵥ fun i => N (.v k i) ω) ^ 2 ∂μ ≤ c ⬝ᵥ s.R *ᵥ c

/-- The covariance `P` is conservative for the estimate `xh` of `X`: for every linear functional, the mean square error
is at most what `P` says. -/
def Conservative (μ : Measure Ω) (X xh : Ω → Fin n → ℝ) (P : Matrix (Fin n) (Fin n) ℝ) : Prop :=
  ∀ c : Fin n → ℝ, Integrable (fun ω => (c ⬝ᵥ (X ω - xh ω)) ^ 2) μ ∧ ∫ ω, (c ⬝ᵥ (X ω - xh ω)) ^ 2 ∂μ ≤ c ⬝ᵥ P *ᵥ c

/-- The covariances the filter was told are symmetric. -/
def Symmetric (P : Matrix (Fin n) (Fin n) ℝ) (ms : List (ModelStep n m)) : Prop :=
  Pᵀ = P ∧ ∀ s ∈ ms, s.Qᵀ = s.Q ∧ s.Rᵀ = s.R

end KK
