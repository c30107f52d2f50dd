import Verif.Spec.MovingAverage
import Verif.Spec.Rounding

/-!
# Rounding in the moving-average set-up (C156)

The set-up of `Spec/MovingAverage.lean` (`/repo/docs/source/quickstart.rst` 50-120, `/repo/examples/moving_average.py` 51-72), computed in
floating point (`Spec/Float.lean`).
-/

namespace KK

/-- What the bounds of C156 assume: the unit roundoff `u`, the absolute error `μ` near zero and the largest number `M` of the arithmetic,
against the process noise `q`, observation noise `r`, initial estimate `x0` with variance `p0` and the largest observation `Z`.  In binary64,
`u` is about `10^-16`, `μ` about `10^-308` and `M` about `10^308`. -/
structure WalkNumbers (u μ M q r x0 p0 Z W κ : ℝ) : Prop where
  unit : 0 ≤ u ∧ 0 ≤ μ
  model : 0 < q ∧ 0 < r ∧ 0 ≤ p0
  start : |x0| ≤ Z
  /-- the scale of the variances, and the smallest gain in exact arithmetic -/
  scale : W = 2 * (p0 + q + 2 * r) ∧ κ = q / (q + r)
  /-- numbers near zero do not matter -/
  tiny : μ ≤ u ∧ μ ≤ u * r ∧ μ ≤ u * Z
  /-- nothing overflows -/
  huge : 1 ≤ M ∧ 2 * W ≤ M ∧ 8 * Z ≤ M
  /-- the arithmetic is precise enough for these variances -/
  fine : 8 * u * W ≤ r ∧ 32 * u ≤ κ

section
variable [Platform]

/-- The documented call (`maFilter`), on a machine that computes in floating point. -/
noncomputable def maFloat (nanInt : ℝ) (a : FloatUnit) (dx dp : DType) (x0 p q r : ℝ) (T : ℕ) : Except PyErr (KalmanFilter Fl) :=
  @KalmanFilter.new Fl (floatB nanInt a) (onesT T) (one1 dx x0) none (one1 dp p) (onesT T) (constT T q) (constT T r) none

end

end KK
