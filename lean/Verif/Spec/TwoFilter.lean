import Verif.Spec.Textbook

/-!
# What later measurements say about the present state

An information pair `(Y, y)` stands for the quadratic form `x' Y x - 2 y' x` that later data contribute to the negative
logarithm of the likelihood of the present state `x`.
-/

namespace KK

open Matrix

/-- Information matrix and information vector. -/
@[ext] structure Info (n : ℕ) where
  Y : Matrix (Fin n) (Fin n) ℝ
  y : Fin n → ℝ

variable {n m : ℕ}

/-- A measurement `z = H x + v` of covariance `R` adds `H' R⁻¹ H` and `H' R⁻¹ z`. -/
noncomputable def Info.measure (s : LinStep n m) (i : Info n) : Info n :=
  ⟨i.Y + s.Hᵀ * s.R⁻¹ * s.H, i.y + (s.Hᵀ * s.R⁻¹) *ᵥ s.z⟩

/-- Information `(W, w)` about `A x + c + noise`, noise of covariance `Q`, in terms of `x`: the noise turns `W` into
`(1 + W Q)⁻¹ W` (that is `(W⁻¹ + Q)⁻¹` if `W` is invertible). -/
noncomputable def Info.pull (s : LinStep n m) (i : Info n) : Info n :=
  ⟨s.Aᵀ * ((1 + i.Y * s.Q)⁻¹ * i.Y) * s.A, (s.Aᵀ * (1 + i.Y * s.Q)⁻¹) *ᵥ (i.y - i.Y *ᵥ s.c)⟩

/-- Information about the state before the steps `ss` in the measurements of these steps. -/
noncomputable def futureInfo : List (LinStep n m) → Info n
  | [] => ⟨0, 0⟩
  | s :: ss => ((futureInfo ss).measure s).pull s

end KK
