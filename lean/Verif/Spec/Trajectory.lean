import Verif.Spec.Posterior
import Mathlib.Logic.Equiv.Fin.Basic

/-!
# The joint distribution of all states
-/

namespace KK

open Matrix MeasureTheory

variable {n m : ℕ} {Ω : Type}

/-- The regression of the state of row `k` on the state of row `k + 1`, from the filtered covariance `P k` of row `k`:
`P A' (A P A' + Q)⁻¹` with `A`, `Q` of step `k + 1`. -/
noncomputable def lagGain (ms : List (ModelStep n m)) (P : ℕ → Matrix (Fin n) (Fin n) ℝ) (k : ℕ) : Matrix (Fin n) (Fin n) ℝ :=
  (ms[k + 1]?.map fun s => P k * s.Aᵀ * (s.predStateCov (P k))⁻¹).getD 0

/-- `g k * g (k + 1) * … * g (k + d - 1)` -/
noncomputable def chain (g : ℕ → Matrix (Fin n) (Fin n) ℝ) : ℕ → ℕ → Matrix (Fin n) (Fin n) ℝ
  | _, 0 => 1
  | k, d + 1 => g k * chain g (k + 1) d

/-- Covariance of the states of rows `k` and `l`, given all observations, from the covariances `P` returned by `filter` and `S` by
`smooth`: the gains from `k` to `l`, times the smoothed covariance of the later one. -/
noncomputable def crossCov (ms : List (ModelStep n m)) (P S : ℕ → Matrix (Fin n) (Fin n) ℝ) (k l : ℕ) : Matrix (Fin n) (Fin n) ℝ :=
  if k ≤ l then chain (lagGain ms P) k (l - k) * S l else (chain (lagGain ms P) l (k - l) * S k)ᵀ

/-- `T` vectors of length `n` as one. -/
def stack (T : ℕ) (x : ℕ → Ω → Fin n → ℝ) (ω : Ω) (i : Fin (T * n)) : ℝ :=
  x (finProdFinEquiv.symm i).1 ω (finProdFinEquiv.symm i).2

/-- `T × T` blocks as one matrix. -/
def blocks (T : ℕ) (C : ℕ → ℕ → Matrix (Fin n) (Fin n) ℝ) : Matrix (Fin (T * n)) (Fin (T * n)) ℝ := fun i j =>
  C (finProdFinEquiv.symm i).1 (finProdFinEquiv.symm j).1 (finProdFinEquiv.symm i).2 (finProdFinEquiv.symm j).2

end KK
