import Mathlib.Topology.Instances.Matrix
import Mathlib.Topology.Instances.Real.Lemmas

/-!
# Detectability and stabilizability of a constant model
-/

namespace KK

open Matrix Filter Topology

variable {n m : ℕ}

/-- The powers of `F` tend to zero: solutions of `x (k + 1) = F x k` die out. -/
def Stable (F : Matrix (Fin n) (Fin n) ℝ) : Prop := Tendsto (fun k => F ^ k) atTop (𝓝 0)

/-- Detectability: some constant observer gain `L` makes the error of `x ← A x + L (z - H x)` die out. What the measurements do
not see is stable. -/
def Detectable (A : Matrix (Fin n) (Fin n) ℝ) (H : Matrix (Fin m) (Fin n) ℝ) : Prop :=
  ∃ L : Matrix (Fin n) (Fin m) ℝ, Stable (A - L * H)

/-- Stabilizability by the process noise: some state feedback `x ← (A - Q S) x` that acts where the noise acts is stable. What the
noise does not reach is stable. -/
def Stabilizable (A Q : Matrix (Fin n) (Fin n) ℝ) : Prop :=
  ∃ S : Matrix (Fin n) (Fin n) ℝ, Stable (A - Q * S)

end KK
