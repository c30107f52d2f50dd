import Verif.Spec.Textbook
import Mathlib.MeasureTheory.Function.L2Space
import Mathlib.Probability.Distributions.Gaussian.IsGaussianProcess.Independence

/-!
# The stochastic model behind the filter

A linear system driven by random initial error, process noise and measurement noise.  This file does not mention
kalmankit nor any filter recursion.
-/

namespace KK

open Matrix MeasureTheory

/-- One time step of the model, without data. -/
structure ModelStep (n m : ℕ) where
  A : Matrix (Fin n) (Fin n) ℝ
  c : Fin n → ℝ
  H : Matrix (Fin m) (Fin n) ℝ
  Q : Matrix (Fin n) (Fin n) ℝ
  R : Matrix (Fin m) (Fin m) ℝ

/-- The same step with an observation. -/
def ModelStep.withObs {n m : ℕ} (s : ModelStep n m) (z : Fin m → ℝ) : LinStep n m := ⟨s.A, s.c, s.H, s.Q, s.R, z⟩

/-- Model steps together with the observations `z 0, z 1, …`. -/
def withData {n m : ℕ} : List (ModelStep n m) → (ℕ → Fin m → ℝ) → List (LinStep n m)
  | [], _ => []
  | s :: ms, z => s.withObs (z 0) :: withData ms fun k => z (k + 1)

/-- The scalar sources of randomness: components of the initial error, of the process noise of step `k`, of the
measurement noise of step `k`. -/
inductive Src (n m : ℕ) where
  | e (i : Fin n)
  | w (k : ℕ) (i : Fin n)
  | v (k : ℕ) (i : Fin m)

/-- Sources that matter for the first `T` steps. -/
def Src.Active {n m : ℕ} (T : ℕ) : Src n m → Prop
  | .e _ => True
  | .w k _ => k < T
  | .v k _ => k < T

/-- The covariance the filter was told: `P` for the initial error, `Q`, `R` of the step for its noises, zero between
different sources. -/
noncomputable def srcCov {n m : ℕ} (P : Matrix (Fin n) (Fin n) ℝ) (ms : List (ModelStep n m)) : Src n m → Src n m → ℝ
  | .e i, .e j => P i j
  | .w k i, .w l j => if k = l then (ms[k]?.map fun s => s.Q i j).getD 0 else 0
  | .v k i, .v l j => if k = l then (ms[k]?.map fun s => s.R i j).getD 0 else 0
  | _, _ => 0

variable {n m : ℕ} {Ω : Type} [MeasurableSpace Ω]

/-- Square-integrable, zero-mean noise with exactly the specified covariances (no distribution is assumed, and only
uncorrelatedness, not independence). -/
structure WhiteNoise (μ : Measure Ω) (P : Matrix (Fin n) (Fin n) ℝ) (ms : List (ModelStep n m))
    (N : Src n m → Ω → ℝ) : Prop where
  meas : ∀ a : Src n m, a.Active ms.length → Measurable (N a)
  sq : ∀ a : Src n m, a.Active ms.length → MemLp (N a) 2 μ
  mean : ∀ a : Src n m, a.Active ms.length → ∫ ω, N a ω ∂μ = 0
  cov : ∀ a a' : Src n m, a.Active ms.length → a'.Active ms.length → ∫ ω, N a ω * N a' ω ∂μ = srcCov P ms a a'

/-- The sources are moreover jointly Gaussian. -/
def GaussianNoise (μ : Measure Ω) (T : ℕ) (N : Src n m → Ω → ℝ) : Prop :=
  ProbabilityTheory.IsGaussianProcess (fun a : {a : Src n m // a.Active T} => N a.1) μ

omit [MeasurableSpace Ω] in
/-- The true states `X` (`X 0` is the state before the first step) and the observations `z` follow the model. -/
structure Follows (x₀ : Fin n → ℝ) (ms : List (ModelStep n m)) (N : Src n m → Ω → ℝ) (X : ℕ → Ω → Fin n → ℝ)
    (z : ℕ → Ω → Fin m → ℝ) : Prop where
  init : ∀ ω i, X 0 ω i = x₀ i + N (.e i) ω
  state : ∀ (k : ℕ) (s : ModelStep n m), ms[k]? = some s → ∀ ω i, X (k + 1) ω i = (s.A *ᵥ X k ω) i + s.c i + N (.w k i) ω
  obs : ∀ (k : ℕ) (s : ModelStep n m), ms[k]? = some s → ∀ ω i, z k ω i = (s.H *ᵥ X (k + 1) ω) i + N (.v k i) ω

/-! ### Quality of an estimate -/

/-- `xh` estimates `X` without bias and with error covariance exactly `P`. -/
structure Calibrated (μ : Measure Ω) (X xh : Ω → Fin n → ℝ) (P : Matrix (Fin n) (Fin n) ℝ) : Prop where
  sq : ∀ i, MemLp (fun ω => X ω i - xh ω i) 2 μ
  mean : ∀ i, ∫ ω, (X ω i - xh ω i) ∂μ = 0
  cov : ∀ i j, ∫ ω, (X ω i - xh ω i) * (X ω j - xh ω j) ∂μ = P i j

/-- The first `K` observations. -/
def firstObs (z : ℕ → Ω → Fin m → ℝ) (K : ℕ) (ω : Ω) : Fin K → Fin m → ℝ := fun k => z k ω

/-- An affine function of the first `K` observations. -/
def AffineIn (z : ℕ → Ω → Fin m → ℝ) (K : ℕ) (f : Ω → ℝ) : Prop :=
  ∃ (α : ℝ) (β : Fin K → Fin m → ℝ), ∀ ω, f ω = α + ∑ k : Fin K, β k ⬝ᵥ z k ω

/-- `xh` is an affine function of the first `K` observations, and no affine function of them estimates any linear
functional of `X` with a smaller mean square error. -/
structure BestAffine (μ : Measure Ω) (z : ℕ → Ω → Fin m → ℝ) (K : ℕ) (X xh : Ω → Fin n → ℝ) : Prop where
  affine : ∀ i, AffineIn z K fun ω => xh ω i
  best : ∀ (a : Fin n → ℝ) (f : Ω → ℝ), AffineIn z K f →
    Integrable (fun ω => (a ⬝ᵥ X ω - f ω) ^ 2) μ ∧
    ∫ ω, (a ⬝ᵥ X ω - a ⬝ᵥ xh ω) ^ 2 ∂μ ≤ ∫ ω, (a ⬝ᵥ X ω - f ω) ^ 2 ∂μ

/-- `xh` is the conditional expectation of `X` given the first `K` observations, the error is independent of them, and
no measurable function of them whatsoever estimates any linear functional of `X` with a smaller mean square error. -/
structure BestEstimate (μ : Measure Ω) (z : ℕ → Ω → Fin m → ℝ) (K : ℕ) (X xh : Ω → Fin n → ℝ) : Prop where
  condExp : ∀ i, μ[fun ω => X ω i | MeasurableSpace.comap (firstObs z K) inferInstance] =ᵐ[μ] fun ω => xh ω i
  indep : ProbabilityTheory.IndepFun (fun ω => X ω - xh ω) (firstObs z K) μ
  best : ∀ (a : Fin n → ℝ) (g : (Fin K → Fin m → ℝ) → ℝ), Measurable g →
    ∫⁻ ω, ENNReal.ofReal ((a ⬝ᵥ X ω - a ⬝ᵥ xh ω) ^ 2) ∂μ ≤
      ∫⁻ ω, ENNReal.ofReal ((a ⬝ᵥ X ω - g (firstObs z K ω)) ^ 2) ∂μ

/-! ### Predictions -/

/-- The state predicted for the next step from the estimate `xh`: `A xh + c`. -/
noncomputable def ModelStep.predState (s : ModelStep n m) (xh : Ω → Fin n → ℝ) (ω : Ω) : Fin n → ℝ := s.A *ᵥ xh ω + s.c

/-- The observation predicted for the next step from the estimate `xh`: `H (A xh + c)`. -/
noncomputable def ModelStep.predObs (s : ModelStep n m) (xh : Ω → Fin n → ℝ) (ω : Ω) : Fin m → ℝ :=
  s.H *ᵥ s.predState xh ω

/-- Covariance `A P A' + Q` of the predicted state. -/
noncomputable def ModelStep.predStateCov (s : ModelStep n m) (P : Matrix (Fin n) (Fin n) ℝ) : Matrix (Fin n) (Fin n) ℝ :=
  s.A * P * s.Aᵀ + s.Q

/-- Covariance `H (A P A' + Q) H' + R` of the innovation. -/
noncomputable def ModelStep.predObsCov (s : ModelStep n m) (P : Matrix (Fin n) (Fin n) ℝ) : Matrix (Fin m) (Fin m) ℝ :=
  s.H * s.predStateCov P * s.Hᵀ + s.R

/-- The innovation (residual) of step `k`: the observation minus its prediction from the estimate `xh k`. -/
noncomputable def innovation (ms : List (ModelStep n m)) (z : ℕ → Ω → Fin m → ℝ) (xh : ℕ → Ω → Fin n → ℝ) (k : ℕ) (ω : Ω) :
    Fin m → ℝ :=
  (ms[k]?.map fun s => z k ω - s.predObs (xh k) ω).getD 0

/-- Zero-mean random vectors `r 0, …, r (T - 1)` with covariances `S k`, uncorrelated at different times. -/
structure White (μ : Measure Ω) (T : ℕ) (r : ℕ → Ω → Fin m → ℝ) (S : ℕ → Matrix (Fin m) (Fin m) ℝ) : Prop where
  sq : ∀ k < T, ∀ i, MemLp (fun ω => r k ω i) 2 μ
  mean : ∀ k < T, ∀ i, ∫ ω, r k ω i ∂μ = 0
  cov : ∀ k < T, ∀ i j, ∫ ω, r k ω i * r k ω j ∂μ = S k i j
  uncorrelated : ∀ k < T, ∀ l < T, k ≠ l → ∀ i j, ∫ ω, r k ω i * r l ω j ∂μ = 0

end KK
