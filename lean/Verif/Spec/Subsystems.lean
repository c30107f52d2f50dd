import Verif.Spec.Returns
import Verif.Spec.ExtReturns

/-!
# Two independent systems as one

The state of the joint system is the state of the first followed by that of the second; the same for measurements.  Model
matrices are block diagonal.
-/

namespace KK

open Matrix

/-- Block diagonal matrix. -/
def blk {a b c d : ℕ} (M : Matrix (Fin a) (Fin b) ℝ) (N : Matrix (Fin c) (Fin d) ℝ) : Matrix (Fin (a + c)) (Fin (b + d)) ℝ :=
  (fromBlocks M 0 0 N).submatrix finSumFinEquiv.symm finSumFinEquiv.symm

variable {n₁ n₂ m₁ m₂ : ℕ}

/-- Joint belief: concatenated means, block diagonal covariance (the systems are uncorrelated). -/
def Belief.join (b₁ : Belief n₁) (b₂ : Belief n₂) : Belief (n₁ + n₂) := ⟨Fin.append b₁.x b₂.x, blk b₁.P b₂.P⟩

/-- One step of the joint system. -/
def LinStep.join (s₁ : LinStep n₁ m₁) (s₂ : LinStep n₂ m₂) : LinStep (n₁ + n₂) (m₁ + m₂) where
  A := blk s₁.A s₂.A
  c := Fin.append s₁.c s₂.c
  H := blk s₁.H s₂.H
  Q := blk s₁.Q s₂.Q
  R := blk s₁.R s₂.R
  z := Fin.append s₁.z s₂.z

/-- One step of the joint nonlinear system: each part sees only its own components of the state. -/
def ExtStep.join (s₁ : ExtStep n₁ m₁) (s₂ : ExtStep n₂ m₂) : ExtStep (n₁ + n₂) (m₁ + m₂) where
  f y := Fin.append (s₁.f fun i => y (Fin.castAdd n₂ i)) (s₂.f fun i => y (Fin.natAdd n₁ i))
  jA y := blk (s₁.jA fun i => y (Fin.castAdd n₂ i)) (s₂.jA fun i => y (Fin.natAdd n₁ i))
  h y := Fin.append (s₁.h fun i => y (Fin.castAdd n₂ i)) (s₂.h fun i => y (Fin.natAdd n₁ i))
  jH y := blk (s₁.jH fun i => y (Fin.castAdd n₂ i)) (s₂.jH fun i => y (Fin.natAdd n₁ i))
  Q := blk s₁.Q s₂.Q
  R := blk s₁.R s₂.R
  z := Fin.append s₁.z s₂.z

end KK
