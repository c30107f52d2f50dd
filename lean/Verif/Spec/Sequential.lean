import Verif.Spec.Textbook

/-!
# One measurement at a time
-/

namespace KK

open Matrix

variable {n m : ℕ}

/-- Component `i` of the measurement as a measurement of its own, made without time passing: the state does not move. -/
def LinStep.reading (s : LinStep n m) (i : Fin m) : LinStep n 1 where
  A := 1
  c := 0
  H := Matrix.of fun _ j => s.H i j
  Q := 0
  R := Matrix.of fun _ _ => s.R i i
  z := fun _ => s.z i

/-- The step `s` with its measurements taken one by one: the first together with the transition, the others without time passing. -/
def LinStep.oneByOne (s : LinStep n (m + 1)) : List (LinStep n 1) :=
  { s.reading 0 with A := s.A, c := s.c, Q := s.Q } :: List.ofFn fun i : Fin m => s.reading i.succ

/-- The components of the measurement have independent noises, of positive variance. -/
def LinStep.Uncorrelated (s : LinStep n m) : Prop := (∀ i j, i ≠ j → s.R i j = 0) ∧ ∀ i, 0 < s.R i i

end KK
