import Mathlib.Data.Real.Basic

/-!
# Forward-backward exponential smoothing, for C174
-/

namespace KK

/-- The smoothed value of the present time, from the forward average `y` and the later data: `g` times the forward average plus `1 - g`
times the smoothed next value. -/
noncomputable def expNow (g : ℝ) : ℝ → List ℝ → ℝ
  | y, [] => y
  | y, z :: zs => g * y + (1 - g) * expNow g ((1 - g) * y + g * z) zs

/-- Exponential smoothing of the data with weight `g`, first forward, starting at `y`, and then backward. -/
noncomputable def expSmooth (g : ℝ) : ℝ → List ℝ → List ℝ
  | _, [] => []
  | y, z :: zs => expNow g ((1 - g) * y + g * z) zs :: expSmooth g ((1 - g) * y + g * z) zs

end KK
