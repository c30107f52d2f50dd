import Verif.Spec.Float

/-!
# Rounding to nearest, and monotone rounding
-/

namespace KK

/-- The numbers with `p` binary digits and exponents from `emin` (with gradual underflow): `m * 2^e`.
binary64: `p = 53`, `emin = -1022`. -/
def IsBinary (p : ℕ) (emin : ℤ) (y : ℝ) : Prop := ∃ m e : ℤ, |m| < 2 ^ p ∧ emin + 1 - p ≤ e ∧ y = m * 2 ^ e

/-- IEEE rounding to nearest, whatever is done with ties, to numbers of size at most `M`; where it does not overflow (infinities are
identified with NaN). -/
def Nearest (p : ℕ) (emin : ℤ) (M : ℝ) (fl : ℝ → Fl) : Prop :=
  ∀ x : ℝ, (|x| ≤ M → ∃ r : ℝ, fl x = .fin r) ∧
    ∀ r : ℝ, fl x = .fin r → IsBinary p emin r ∧ |r| ≤ M ∧ ∀ y, IsBinary p emin y → |y| ≤ M → |r - x| ≤ |y - x|

/-- Any rounding to the numbers of some format (to nearest, up, down, to zero), with overflow to NaN. -/
structure MonotoneRounding (fl : ℝ → Fl) : Prop where
  mono : ∀ x y r s : ℝ, x ≤ y → fl x = .fin r → fl y = .fin s → r ≤ s
  idem : ∀ x r : ℝ, fl x = .fin r → fl r = .fin r
  zero : fl 0 = .fin 0
  one : fl 1 = .fin 1

/-- `x` is NaN or in `s`. -/
def Fl.InRange (s : Set ℝ) (x : Fl) : Prop := ∀ r : ℝ, x = .fin r → r ∈ s

/-- A 1 x 1 matrix with the entry `x`. -/
def IsOne (x : Fl) (a : Arr Fl) : Prop := ∃ d, a = .mat d (fun (_ _ : Fin 1) => x)

/-- A 1 x 1 matrix or a scalar, `x`. -/
def IsOneOrScalar (x : Fl) (a : Arr Fl) : Prop := IsOne x a ∨ ∃ d, a = .scalar d x

end KK
