import Verif.Spec.Textbook

/-!
# The batch least-squares problem

A *trajectory* of a model with initial belief `b` and steps `s₀, …, s_{T-1}` is a state before the first step
followed by one state per step.  Its cost adds up the squared Mahalanobis distances of the initial state from
the initial mean, of every state from its prediction, and of every observation from the predicted one.
This file does not mention any recursion.
-/

namespace KK

open Matrix

variable {n m : ℕ}

/-- Squared Mahalanobis norm `v' M⁻¹ v`. -/
noncomputable def mahal {k : ℕ} (M : Matrix (Fin k) (Fin k) ℝ) (v : Fin k → ℝ) : ℝ := v ⬝ᵥ (M⁻¹ *ᵥ v)

/-- Cost of one step that leads from state `x` to state `y`. -/
noncomputable def stepCost (s : LinStep n m) (x y : Fin n → ℝ) : ℝ :=
  mahal s.Q (y - (s.A *ᵥ x + s.c)) + mahal s.R (s.z - s.H *ᵥ y)

/-- Sum of the step costs along a trajectory (the trajectory is a list with one state more than steps; on
lists of other lengths the value is irrelevant). -/
noncomputable def pathCost : List (LinStep n m) → List (Fin n → ℝ) → ℝ
  | s :: ss, x :: y :: ys => stepCost s x y + pathCost ss (y :: ys)
  | _, _ => 0

/-- Batch cost of a trajectory. -/
noncomputable def batchCost (b : Belief n) (ss : List (LinStep n m)) (t : List (Fin n → ℝ)) : ℝ :=
  mahal b.P (t.headD 0 - b.x) + pathCost ss t

/-- `t` is the unique trajectory of least batch cost. -/
def IsBatchMin (b : Belief n) (ss : List (LinStep n m)) (t : List (Fin n → ℝ)) : Prop :=
  t.length = ss.length + 1 ∧
  ∀ t' : List (Fin n → ℝ), t'.length = ss.length + 1 → t' ≠ t → batchCost b ss t < batchCost b ss t'

/-- Sum over a run of the normalised squared innovations `(z - H x⁻)' S⁻¹ (z - H x⁻)`. -/
noncomputable def nis : Belief n → List (LinStep n m) → ℝ
  | _, [] => 0
  | b, s :: ss => mahal (s.innov (s.predict b)) (s.z - s.H *ᵥ (s.predict b).x) + nis (s.next b) ss

end KK
