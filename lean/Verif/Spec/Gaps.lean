import Verif.Spec.Textbook

/-!
# Missing measurements

A time step without a measurement is a step with `H = 0` (and any invertible `R`, any `z`).
-/

namespace KK

open Matrix

variable {n m : ℕ}

/-- No measurement is made at this step. -/
def LinStep.Unmeasured (s : LinStep n m) : Prop := s.H = 0 ∧ s.R.det ≠ 0

/-- The two transitions `g`, then `s`, in one, followed by the measurement of `s`: `A = A_s A_g`, `c = A_s c_g + c_s`,
`Q = A_s Q_g A_s' + Q_s`. -/
def LinStep.after (g s : LinStep n m) : LinStep n m :=
  { s with A := s.A * g.A, c := s.A *ᵥ g.c + s.c, Q := s.A * g.Q * s.Aᵀ + s.Q }

/-- Several transitions and then `s`, in one. -/
def mergeSteps : List (LinStep n m) → LinStep n m → LinStep n m
  | [], s => s
  | g :: gs, s => g.after (mergeSteps gs s)

/-- The time steps of a list of gaps, each followed by a measured step. -/
def ungroup {α : Type} (gs : List (List α × α)) : List α := gs.flatMap fun g => g.1 ++ [g.2]

/-- Predictions without any measurement: `x ↦ A x + c`, `P ↦ A P A' + Q`, again and again. -/
def forecast : Belief n → List (LinStep n m) → List (Belief n)
  | _, [] => []
  | b, s :: ss => ⟨s.A *ᵥ b.x + s.c, s.A * b.P * s.Aᵀ + s.Q⟩ :: forecast ⟨s.A *ᵥ b.x + s.c, s.A * b.P * s.Aᵀ + s.Q⟩ ss

end KK
