import Verif.Spec.Subsystems
import Mathlib.Data.Matrix.ColumnRowPartitioned

/-!
# A model whose state carries along further components that remember earlier states
-/

namespace KK

open Matrix

variable {n m p : ℕ}

/-- Matrix of four blocks. -/
def blk4 {a b c d : ℕ} (M : Matrix (Fin a) (Fin b) ℝ) (N : Matrix (Fin a) (Fin d) ℝ) (O : Matrix (Fin c) (Fin b) ℝ)
    (P : Matrix (Fin c) (Fin d) ℝ) : Matrix (Fin (a + c)) (Fin (b + d)) ℝ :=
  (fromBlocks M N O P).submatrix finSumFinEquiv.symm finSumFinEquiv.symm

/-- Two matrices side by side. -/
def hcat {a b d : ℕ} (X : Matrix (Fin a) (Fin b) ℝ) (Y : Matrix (Fin a) (Fin d) ℝ) : Matrix (Fin a) (Fin (b + d)) ℝ :=
  (fromCols X Y).submatrix id finSumFinEquiv.symm

/-- The step `s` for the state `x`, which also turns further components `y` into `E x + D y` (`x` being the state before the step).
No noise acts on them and they are not measured. -/
def LinStep.carry (s : LinStep n m) (E : Matrix (Fin p) (Fin n) ℝ) (D : Matrix (Fin p) (Fin p) ℝ) : LinStep (n + p) m where
  A := blk4 s.A 0 E D
  c := Fin.append s.c 0
  H := hcat s.H 0
  Q := blk s.Q 0
  R := s.R
  z := s.z

/-- What a belief says about the first `n` components. -/
def Belief.first (b : Belief (n + p)) : Belief n :=
  ⟨fun i => b.x (Fin.castAdd p i), fun i j => b.P (Fin.castAdd p i) (Fin.castAdd p j)⟩

/-- What a belief says about the further components. -/
def Belief.further (b : Belief (n + p)) : Belief p :=
  ⟨fun i => b.x (Fin.natAdd n i), fun i j => b.P (Fin.natAdd n i) (Fin.natAdd n j)⟩

/-- `y`, then `E₁ x₁ + D₁ y`, then `E₂ x₂ + D₂ (E₁ x₁ + D₁ y)`, and so on: the last of these. -/
def runAlong : List (Matrix (Fin p) (Fin n) ℝ × Matrix (Fin p) (Fin p) ℝ) → List (Fin n → ℝ) → (Fin p → ℝ) → (Fin p → ℝ)
  | (E, D) :: r, x :: xs, y => runAlong r xs (E *ᵥ x + D *ᵥ y)
  | _, _, y => y

end KK
