import Verif.Spec.Textbook

/-!
# Comparing sensor sets
-/

namespace KK

open Matrix

variable {n m m' : ℕ}

/-- Step `s` is modelled with at least as good knowledge as `s'`: the same transition matrix, not more process noise, and
measurements whose information `H' R⁻¹ H` about the state is at least as large.  The numbers of measurements, the measurement
matrices, the data and the controls may differ. -/
structure AtLeastAsInformative (s : LinStep n m) (s' : LinStep n m') : Prop where
  A : s'.A = s.A
  Q : (s'.Q - s.Q).PosSemidef
  info : (s.Hᵀ * s.R⁻¹ * s.H - s'.Hᵀ * s'.R⁻¹ * s'.H).PosSemidef

/-- The step in which only the combinations `L z` of the measurements are used; for instance some of them (each row of `L` has
one entry 1), or averages. -/
def LinStep.compress (L : Matrix (Fin m') (Fin m) ℝ) (s : LinStep n m) : LinStep n m' where
  A := s.A
  c := s.c
  H := L * s.H
  Q := s.Q
  R := L * s.R * Lᵀ
  z := L *ᵥ s.z

end KK
