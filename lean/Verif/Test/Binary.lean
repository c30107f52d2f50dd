import Verif.Spec.Float
import Mathlib.Data.Int.Log
import Mathlib.Algebra.Order.Round
import Mathlib.Order.ConditionallyCompleteLattice.Finset
import Mathlib.Data.Fintype.Lattice

/-!
# Binary floating-point numbers

Rounding to the nearest number with `p` binary digits, exponents from `emin` (gradual underflow below), numbers up to `M`.
binary64: `p = 53`, `emin = -1022`.
-/

namespace KK

/-- Distance of the floating-point numbers near `x`. -/
noncomputable def ulp (p : ℕ) (emin : ℤ) (x : ℝ) : ℝ := 2 ^ (max (Int.log 2 |x|) emin + 1 - p)

open Classical in
/-- Round to nearest. -/
noncomputable def binary (p : ℕ) (emin : ℤ) (M : ℝ) (x : ℝ) : Fl :=
  if |x| ≤ M then .fin (round (x / ulp p emin x) * ulp p emin x) else .nan

theorem binary_rounds (p : ℕ) (emin : ℤ) (M : ℝ) : Rounds (2 ^ (-(p : ℤ))) (2 ^ (emin - p)) M (binary p emin M) := by
  intro x hx
  refine ⟨round (x / ulp p emin x) * ulp p emin x, by rw [binary, if_pos hx], ?_⟩
  have hu : 0 < ulp p emin x := by rw [ulp]; positivity
  have h1 := abs_sub_round (x / ulp p emin x)
  have h2 : |round (x / ulp p emin x) * ulp p emin x - x| ≤ 1 / 2 * ulp p emin x := by
    have e : round (x / ulp p emin x) * ulp p emin x - x = -(x / ulp p emin x - round (x / ulp p emin x)) * ulp p emin x := by
      field_simp
      ring
    rw [e, abs_mul, abs_neg, abs_of_pos hu]
    gcongr
  rcases eq_or_ne x 0 with rfl | hx0
  · simp only [zero_div, round_zero, Int.cast_zero, zero_mul, sub_zero, abs_zero, mul_zero, zero_add]
    positivity
  refine h2.trans ?_
  have e2 : 1 / 2 * ulp p emin x = 2 ^ (max (Int.log 2 |x|) emin - p) := by
    rw [ulp, show max (Int.log 2 |x|) emin + 1 - (p : ℤ) = (max (Int.log 2 |x|) emin - p) + 1 by ring,
      zpow_add₀ (by norm_num), zpow_one]
    ring
  rw [e2]
  have hlog : (2 : ℝ) ^ (Int.log 2 |x|) ≤ |x| := by
    have := Int.zpow_log_le_self (b := 2) (by norm_num) (abs_pos.2 hx0)
    exact_mod_cast this
  rcases max_cases (Int.log 2 |x|) emin with ⟨h, -⟩ | ⟨h, -⟩
  · rw [h, sub_eq_add_neg, zpow_add₀ (by norm_num), mul_comm]
    have : (0 : ℝ) < 2 ^ (emin - p) := by positivity
    have h3 : (2 : ℝ) ^ (-(p : ℤ)) * 2 ^ Int.log 2 |x| ≤ 2 ^ (-(p : ℤ)) * |x| := by gcongr
    linarith
  · rw [h]
    have : (0 : ℝ) ≤ 2 ^ (-(p : ℤ)) * |x| := by positivity
    linarith

/-- A naive loop: one product after the other is added. -/
def SumTree.chain {k : ℕ} : (l : Fin k) → List (Fin k) → SumTree k
  | l, [] => .prod l
  | l, l' :: ls => .add (chain l' ls) (.prod l)

theorem SumTree.chain_indices {k : ℕ} (l : Fin k) (ls : List (Fin k)) :
    (SumTree.chain l ls).indices.Perm (l :: ls) := by
  induction ls generalizing l with
  | nil => exact .refl _
  | cons l' ls ih =>
    rw [chain, indices]
    refine ((ih l').append_right _).trans ?_
    simp only [indices]
    exact List.perm_append_singleton l (l' :: ls)

/-- The same with fused multiply-add. -/
def SumTree.loop {k : ℕ} : (l : Fin k) → List (Fin k) → SumTree k
  | l, [] => .prod l
  | l, l' :: ls => .fma (loop l' ls) l

theorem SumTree.loop_indices {k : ℕ} (l : Fin k) (ls : List (Fin k)) : (SumTree.loop l ls).indices = l :: ls := by
  induction ls generalizing l with
  | nil => rfl
  | cons l' ls ih => rw [loop, indices, ih l']

theorem exists_pivot (n : ℕ) (v : Fin (n + 1) → Fl) : ∃ p, ∀ j, |(v j).toReal| ≤ |(v p).toReal| :=
  Finite.exists_max fun j => |(v j).toReal|

/-- Binary floating point; dot products by a naive loop, with fused multiply-add or not. -/
noncomputable def binaryUnit (p : ℕ) (emin : ℤ) (M : ℝ) (fused : Bool) : FloatUnit where
  fl := binary p emin M
  order _ k _ _ _ := if fused then .loop 0 ((List.finRange k).map Fin.succ) else .chain 0 ((List.finRange k).map Fin.succ)
  pivot n v := Classical.choose (exists_pivot n v)
  fused := fused

theorem binaryUnit_valid (p : ℕ) (emin : ℤ) (M : ℝ) (fused : Bool) : (binaryUnit p emin M fused).Valid where
  order m k n i j := by
    have e : List.finRange (k + 1) = 0 :: (List.finRange k).map Fin.succ := List.finRange_succ
    rw [e]
    cases fused
    · exact SumTree.chain_indices _ _
    · exact .of_eq (SumTree.loop_indices _ _)
  pivot n v := Classical.choose_spec (exists_pivot n v)

end KK
