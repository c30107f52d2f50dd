import Verif.Spec.Rounding
import Verif.Test.Binary
import Verif.Proofs.Trace
import Mathlib.Tactic.Linarith
import Mathlib.Tactic.Positivity
import Mathlib.Tactic.NormNum
import Mathlib.Tactic.FieldSimp
import Mathlib.Tactic.Ring

/-!
# Lemmas on rounding, and 1 x 1 matrices in floating point
-/

namespace KK

open Matrix

/-! ### floating-point numbers are multiples of a power of two -/

/-- A number of size at least `2^s` is a multiple of `2^(s+1-p)`. -/
theorem IsBinary.multiple {p : ℕ} {emin : ℤ} {y : ℝ} (h : IsBinary p emin y) (s : ℤ) (hs : (2 : ℝ) ^ s ≤ |y|) :
    ∃ j : ℤ, y = j * 2 ^ (s + 1 - p) := by
  obtain ⟨m, e, hm, -, rfl⟩ := h
  have hm' : |(m : ℝ)| < 2 ^ (p : ℤ) := by rw [← Int.cast_abs, zpow_natCast]; exact_mod_cast hm
  have h2 : (0 : ℝ) < 2 ^ e := by positivity
  rw [abs_mul, abs_of_pos h2] at hs
  have h3 : (2 : ℝ) ^ s < 2 ^ ((p : ℤ) + e) := by
    rw [zpow_add₀ (by norm_num)]
    exact hs.trans_lt (mul_lt_mul_of_pos_right hm' h2)
  have h4 : s < p + e := (zpow_lt_zpow_iff_right₀ (by norm_num)).1 h3
  obtain ⟨k, hk⟩ : ∃ k : ℕ, e = s + 1 - p + k := ⟨(e - (s + 1 - p)).toNat, by omega⟩
  refine ⟨m * 2 ^ k, ?_⟩
  rw [hk, zpow_add₀ (by norm_num), zpow_natCast]
  push_cast
  ring

/-- Multiples of `2^e` that are not too large are numbers of the format. -/
theorem isBinary_of {p : ℕ} {emin e : ℤ} (j : ℤ) (he : emin + 1 - p ≤ e) (hj : |(j : ℝ)| < 2 ^ p) :
    IsBinary p emin (j * 2 ^ e) := ⟨j, e, by exact_mod_cast hj, he, rfl⟩

section
variable {p : ℕ} {emin : ℤ} {M : ℝ} {fl : ℝ → Fl}

/-- Numbers of the format are not rounded. -/
theorem Nearest.exact (h : Nearest p emin M fl) {x : ℝ} (hx : IsBinary p emin x) (hM : |x| ≤ M) : fl x = .fin x := by
  obtain ⟨r, h1⟩ := (h x).1 hM
  obtain ⟨-, -, h2⟩ := (h x).2 r h1
  have := h2 x hx hM
  rw [sub_self, abs_zero] at this
  have : r - x = 0 := abs_eq_zero.1 (le_antisymm this (abs_nonneg _))
  rw [h1, show r = x by linarith]

/-- If `y` is on the grid of the numbers between `2^s` and `2^(s+1)`, and `x` closer to `y` than half the distance of the grid, `x` is
rounded to `y`. -/
theorem Nearest.eq (h : Nearest p emin M fl) (s : ℤ) {x : ℝ} {j : ℤ} (hs : emin ≤ s) (hx : (2 : ℝ) ^ s ≤ x) (hM : x ≤ M)
    (hy : (2 : ℝ) ^ s ≤ j * 2 ^ (s + 1 - p)) (hyM : j * 2 ^ (s + 1 - p) ≤ M) (hj : |(j : ℝ)| < 2 ^ p)
    (hxy : |j * 2 ^ (s + 1 - p) - x| < 2 ^ (s + 1 - p) / 2) : fl x = .fin (j * 2 ^ (s + 1 - p)) := by
  have h2 : (0 : ℝ) < 2 ^ s := by positivity
  obtain ⟨g, hg⟩ : ∃ g : ℝ, g = 2 ^ (s + 1 - p) := ⟨_, rfl⟩
  have hg0 : 0 < g := by rw [hg]; positivity
  obtain ⟨r, h1⟩ := (h x).1 (by rwa [abs_of_pos (h2.trans_le hx)])
  obtain ⟨hr, -, hn⟩ := (h x).2 r h1
  have hb := hn _ (isBinary_of (p := p) (emin := emin) (e := s + 1 - p) j (by omega) hj) (by rwa [abs_of_pos (h2.trans_le hy)])
  rw [← hg] at hy hxy hb ⊢
  have hrx : |r - x| < g / 2 := hb.trans_lt hxy
  rw [abs_lt] at hrx hxy
  rw [h1]
  congr 1
  by_cases hrs : (2 : ℝ) ^ s ≤ |r|
  · obtain ⟨i, hi⟩ := hr.multiple s hrs
    rw [← hg] at hi
    have h3 : |((i - j : ℤ) : ℝ)| * g < 1 * g := by
      have : ((i - j : ℤ) : ℝ) * g = r - j * g := by push_cast; rw [hi]; ring
      rw [← abs_of_pos hg0, ← abs_mul, abs_of_pos hg0, this, abs_lt]
      constructor <;> linarith
    have h4 : |i - j| < 1 := by
      have := lt_of_mul_lt_mul_right h3 hg0.le
      exact_mod_cast this
    have : i = j := by
      rw [Int.abs_lt_one_iff] at h4
      omega
    rw [hi, this]
  · exfalso
    rw [not_le] at hrs
    have h5 : r < 2 ^ s := (le_abs_self r).trans_lt hrs
    rw [abs_le] at hb
    rcases le_or_gt (j * g) x with h6 | h6
    · have h7 : |(j : ℝ) * g - x| = x - j * g := by rw [abs_of_nonpos (by linarith)]; ring
      rw [h7] at hb
      linarith
    · -- then `j * g` is above `2^s`, by at least `g`
      obtain ⟨k, hk⟩ : ∃ k : ℤ, (2 : ℝ) ^ s = k * g := by
        have : (2 : ℝ) ^ s ≤ |(2 : ℝ) ^ s| := le_abs_self _
        rcases Nat.eq_zero_or_pos p with rfl | hp
        · simp only [pow_zero] at hj
          have : j = 0 := by
            have : |j| < 1 := by exact_mod_cast hj
            exact Int.abs_lt_one_iff.1 this
          rw [this] at hy
          simp at hy
          linarith
        · refine ⟨2 ^ (p - 1), ?_⟩
          rw [hg]
          push_cast
          rw [← zpow_natCast, ← zpow_add₀ (by norm_num)]
          congr 1
          omega
      have h8 : (k : ℝ) * g < j * g := by linarith
      have h9 : k < j := by exact_mod_cast lt_of_mul_lt_mul_right h8 hg0.le
      have h10 : (k : ℝ) + 1 ≤ j := by exact_mod_cast h9
      have h11 : ((k : ℝ) + 1) * g ≤ j * g := mul_le_mul_of_nonneg_right h10 hg0.le
      linarith

theorem Nearest.monotone (h : Nearest p emin M fl) (hp : 0 < p) (he : emin ≤ 0) (hM : 1 ≤ M) : MonotoneRounding fl where
  mono x y r s hxy hr hs := by
    rcases hxy.eq_or_lt with rfl | hlt
    · rw [hr] at hs
      injection hs with hs
      exact hs.le
    obtain ⟨h1, h2, h3⟩ := (h x).2 r hr
    obtain ⟨k1, k2, k3⟩ := (h y).2 s hs
    by_contra hc
    rw [not_le] at hc
    have e1 := h3 s k1 k2
    have e2 := k3 r h1 h2
    rcases abs_cases (r - x) with ⟨a1, a2⟩ | ⟨a1, a2⟩ <;> rcases abs_cases (s - x) with ⟨b1, b2⟩ | ⟨b1, b2⟩ <;>
      rcases abs_cases (s - y) with ⟨c1, c2⟩ | ⟨c1, c2⟩ <;> rcases abs_cases (r - y) with ⟨d1, d2⟩ | ⟨d1, d2⟩ <;> linarith
  idem x r hr := by
    obtain ⟨h1, h2, -⟩ := (h x).2 r hr
    exact h.exact h1 h2
  zero := by
    refine h.exact ⟨0, 0, by simp, by omega, by simp⟩ ?_
    rw [abs_zero]; linarith
  one := by
    refine h.exact ⟨1, 0, ?_, by omega, by simp⟩ ?_
    · rw [abs_one]; exact one_lt_pow₀ (by norm_num) hp.ne'
    · rwa [abs_one]

end

/-- `binary` of `Test/Binary` is rounding to nearest. -/
theorem binary_nearest {p : ℕ} {emin : ℤ} {M : ℝ} (hp : 0 < p) (hM : IsBinary p emin M) : Nearest p emin M (binary p emin M) := by
  intro x
  refine ⟨fun hx => ⟨_, by rw [binary, if_pos hx]⟩, fun r hr => ?_⟩
  by_cases hx : |x| ≤ M
  swap
  · rw [binary, if_neg hx] at hr; cases hr
  rw [binary, if_pos hx] at hr
  injection hr with hr
  obtain ⟨s, hs⟩ : ∃ s, s = max (Int.log 2 |x|) emin := ⟨_, rfl⟩
  obtain ⟨g, hg⟩ : ∃ g : ℝ, g = 2 ^ (s + 1 - p) := ⟨_, rfl⟩
  have hu : ulp p emin x = g := by rw [hg, hs, ulp]
  have hg0 : 0 < g := by rw [hg]; positivity
  rw [hu] at hr
  have hes : emin ≤ s := hs ▸ le_max_right _ _
  have hxs : |x| < 2 ^ (s + 1) := by
    have h1 : |x| < ((2 : ℕ) : ℝ) ^ (Int.log 2 |x| + 1) := Int.lt_zpow_succ_log_self (by norm_num) _
    refine h1.trans_le ?_
    push_cast
    exact zpow_le_zpow_right₀ (by norm_num) (by have := le_max_left (Int.log 2 |x|) emin; omega)
  -- nearest on the grid
  have grid : ∀ i : ℤ, |r - x| ≤ |i * g - x| := fun i => by
    have h1 := round_le (x / g) i
    have e1 : r - x = -(x / g - round (x / g)) * g := by rw [← hr]; field_simp; ring
    have e2 : (i : ℝ) * g - x = -(x / g - i) * g := by field_simp; ring
    rw [e1, e2, abs_mul, abs_mul, abs_neg, abs_neg]
    exact mul_le_mul_of_nonneg_right h1 (abs_nonneg _)
  have hrb : IsBinary p emin r := by
    have h1 : |(round (x / g) : ℝ)| ≤ 2 ^ p := by
      have h2 : |x / g| < 2 ^ p := by
        rw [abs_div, abs_of_pos hg0, div_lt_iff₀ hg0, hg, ← zpow_natCast, ← zpow_add₀ (by norm_num)]
        rwa [show (p : ℤ) + (s + 1 - p) = s + 1 by ring]
      rw [abs_lt] at h2
      have h3 : round (x / g) ≤ 2 ^ p := by
        rw [← Int.cast_le (R := ℝ)]
        by_contra hc
        rw [not_le] at hc
        have h4 : ((2 ^ p : ℤ) : ℝ) + 1 ≤ round (x / g) := by exact_mod_cast hc
        have h5 := round_le (x / g) (2 ^ p)
        push_cast at h4 h5
        rw [abs_of_nonpos (by linarith), abs_of_nonpos (by linarith)] at h5
        linarith
      have h3' : -(2 ^ p) ≤ round (x / g) := by
        rw [← Int.cast_le (R := ℝ)]
        by_contra hc
        rw [not_le] at hc
        have h4 : (round (x / g) : ℝ) + 1 ≤ ((-2 ^ p : ℤ) : ℝ) := by exact_mod_cast hc
        have h5 := round_le (x / g) (-2 ^ p)
        push_cast at h4 h5
        rw [abs_of_nonneg (by linarith), abs_of_nonneg (by linarith)] at h5
        linarith
      rw [abs_le]
      exact ⟨by exact_mod_cast h3', by exact_mod_cast h3⟩
    rcases h1.lt_or_eq with h1 | h1
    · have := isBinary_of (p := p) (emin := emin) (e := s + 1 - p) _ (by omega) h1
      rwa [← hg, hr] at this
    · have hp2 : (2 : ℝ) ^ p = 2 ^ (p - 1) * 2 := by rw [← pow_succ]; congr 1; omega
      have hge : g * 2 = 2 ^ (s + 1 - p + 1) := by rw [hg, zpow_add₀ (by norm_num), zpow_one]
      have hlt : |((2 ^ (p - 1) : ℤ) : ℝ)| < 2 ^ p := by
        push_cast
        rw [abs_of_pos (by positivity)]
        exact pow_lt_pow_right₀ (by norm_num) (by omega)
      rcases abs_eq (by positivity) |>.1 h1 with h1 | h1
      · have := isBinary_of (p := p) (emin := emin) (e := s + 1 - p + 1) (2 ^ (p - 1)) (by omega) hlt
        rw [← hge] at this
        rw [← hr, h1, hp2]
        push_cast at this
        rwa [show (2 : ℝ) ^ (p - 1) * (g * 2) = 2 ^ (p - 1) * 2 * g by ring] at this
      · have := isBinary_of (p := p) (emin := emin) (e := s + 1 - p + 1) (-2 ^ (p - 1)) (by omega) (by push_cast at hlt ⊢; rwa [abs_neg])
        rw [← hge] at this
        rw [← hr, h1, hp2]
        push_cast at this
        rwa [show -(2 : ℝ) ^ (p - 1) * (g * 2) = -(2 ^ (p - 1) * 2) * g by ring] at this
  have near : ∀ y, IsBinary p emin y → |r - x| ≤ |y - x| := by
    intro y hy
    rcases eq_or_ne x 0 with hx0 | hx0
    · have : r = 0 := by rw [← hr, hx0]; simp
      rw [this, hx0, sub_self, abs_zero]
      exact abs_nonneg _
    by_cases hys : (2 : ℝ) ^ s ≤ |y|
    · obtain ⟨i, hi⟩ := hy.multiple s hys
      rw [hi, ← hg]; exact grid i
    rw [not_le] at hys
    rcases le_or_gt (Int.log 2 |x|) emin with hl | hl
    · have hse : s = emin := by rw [hs, max_eq_right hl]
      obtain ⟨m, e, -, he, rfl⟩ := hy
      obtain ⟨k, hk⟩ : ∃ k : ℕ, e = s + 1 - p + k := ⟨(e - (s + 1 - p)).toNat, by omega⟩
      have := grid (m * 2 ^ k)
      rw [hg] at this
      convert this using 3
      rw [hk, zpow_add₀ (by norm_num), zpow_natCast]
      push_cast
      ring
    · have hse : s = Int.log 2 |x| := by rw [hs, max_eq_left hl.le]
      have hsx : (2 : ℝ) ^ s ≤ |x| := by
        have := Int.zpow_log_le_self (b := 2) (by norm_num) (abs_pos.2 hx0)
        rw [hse]
        exact_mod_cast this
      have h2 : (2 : ℝ) ^ s = ((2 ^ (p - 1) : ℤ) : ℝ) * g := by
        rw [hg]
        push_cast
        rw [← zpow_natCast, ← zpow_add₀ (by norm_num)]
        congr 1
        omega
      have g1 := grid (2 ^ (p - 1))
      have g2 := grid (-2 ^ (p - 1))
      rw [← h2] at g1
      rw [show ((-2 ^ (p - 1) : ℤ) : ℝ) * g = -2 ^ s by rw [h2]; push_cast; ring] at g2
      rw [abs_lt] at hys
      rcases abs_cases x with ⟨a1, a2⟩ | ⟨a1, a2⟩
      · refine g1.trans ?_
        rw [abs_of_nonpos (by linarith), abs_of_nonpos (by linarith)]
        linarith
      · refine g2.trans ?_
        rw [abs_of_nonneg (by linarith), abs_of_nonneg (by linarith)]
        linarith
  have hM0 : 0 ≤ M := (abs_nonneg x).trans hx
  refine ⟨hrb, ?_, fun y hy _ => near y hy⟩
  have n1 := near M hM
  have n2 := near (-M) (by
    obtain ⟨m, e, h1, h2, h3⟩ := hM
    exact ⟨-m, e, by rwa [abs_neg], h2, by rw [h3]; push_cast; ring⟩)
  rw [abs_le] at hx
  rw [abs_of_nonneg (by linarith : 0 ≤ M - x)] at n1
  rw [abs_of_nonpos (by linarith : -M - x ≤ 0)] at n2
  rw [abs_le] at n1 n2 ⊢
  constructor <;> linarith

end KK
