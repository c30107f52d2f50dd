import Verif.Spec.WalkFloat
import Verif.Props.FloatVariance
import Verif.Props.MovingAverage
import Verif.Test.Binary

/-!
# C156: how far rounding can take the moving average
-/

set_option linter.unusedSectionVars false

namespace KK

open Matrix

/-! ### real numbers -/

section
variable {q r : ℝ}

/-- `y / (y + r)`: the gain at the predicted variance `y` -/
theorem walk_gain_lip (hq : 0 < q) (hr : 0 < r) {y t : ℝ} (hy : q ≤ y) (ht : q ≤ t) : |y / (y + r) - t / (t + r)| ≤ |y - t| / r := by
  have h1 : 0 < y + r := by linarith
  have h2 : 0 < t + r := by linarith
  have e : y / (y + r) - t / (t + r) = (y - t) * (r / ((y + r) * (t + r))) := by field_simp; ring
  rw [e, abs_mul, div_eq_mul_one_div |y - t| r]
  refine mul_le_mul_of_nonneg_left ?_ (abs_nonneg _)
  rw [abs_of_nonneg (by positivity), div_le_div_iff₀ (by positivity) hr]
  nlinarith

theorem walk_var_lip (hq : 0 < q) (hr : 0 < r) {y t : ℝ} (hy : q ≤ y) (ht : q ≤ t) :
    |(1 - y / (y + r)) * y - (1 - t / (t + r)) * t| ≤ (1 - q / (q + r)) * |y - t| := by
  have h1 : 0 < y + r := by linarith
  have h2 : 0 < t + r := by linarith
  have h3 : 0 < q + r := by linarith
  have e : (1 - y / (y + r)) * y - (1 - t / (t + r)) * t = (r * r / ((y + r) * (t + r))) * (y - t) := by field_simp; ring
  rw [e, abs_mul]
  refine mul_le_mul_of_nonneg_right ?_ (abs_nonneg _)
  rw [abs_of_nonneg (by positivity), show 1 - q / (q + r) = r / (q + r) by field_simp; ring, div_le_div_iff₀ (by positivity) h3]
  have : (q + r) * (q + r) ≤ (y + r) * (t + r) := mul_le_mul (by linarith) (by linarith) h3.le h1.le
  nlinarith [mul_pos hr h3]

theorem walk_gain_ge (hq : 0 < q) (hr : 0 < r) {y : ℝ} (hy : q ≤ y) : q / (q + r) ≤ y / (y + r) := by
  rw [div_le_div_iff₀ (by linarith) (by linarith)]
  nlinarith

end

section
variable {u μ M q r x0 p0 Z W κ : ℝ} {fl : ℝ → Fl}

set_option maxHeartbeats 1000000 in
/-- One step, computed. -/
theorem walk_step (h : WalkNumbers u μ M q r x0 p0 Z W κ) (hm : MonotoneRounding fl) (hr : Rounds u μ M fl) (hq : fl q = .fin q) {x p z : ℝ}
    (hx : |x| ≤ 2 * Z) (hp : 0 ≤ p) (hpM : p ≤ p0 + 2 * r) (hz : |z| ≤ Z) :
    ∃ p1 S K d c x' k p', fl (p + q) = .fin p1 ∧ fl (p1 + r) = .fin S ∧ fl (p1 / S) = .fin K ∧ fl (z - x) = .fin d ∧ fl (K * d) = .fin c ∧
      fl (x + c) = .fin x' ∧ fl (1 - K) = .fin k ∧ fl (k * p1) = .fin p' ∧ S ≠ 0 ∧ q ≤ p1 ∧
      |p1 - (p + q)| ≤ 2 * u * W ∧ |K - p1 / (p1 + r)| ≤ 4 * u ∧ |p' - (1 - p1 / (p1 + r)) * p1| ≤ 8 * u * W ∧
      |x' - (x + K * (z - x))| ≤ 28 * u * Z ∧ |x'| ≤ 2 * Z ∧ 0 ≤ p' ∧ p' ≤ p0 + 2 * r := by
  obtain ⟨⟨hu0, hμ0⟩, ⟨hq0, hr0, hp0⟩, hx0, ⟨hW, hκ⟩, ⟨hμ1, hμr, hμZ⟩, ⟨hM1, hMW, hMZ⟩, huW, huκ⟩ := h
  have hZ0 : 0 ≤ Z := (abs_nonneg _).trans hz
  have hWr : 4 * r ≤ W := by linarith
  have hW0 : 0 < W := by linarith
  have hκ1 : κ ≤ 1 := by rw [hκ, div_le_one (by linarith)]; linarith
  have hu1 : u ≤ 1 / 32 := by linarith
  have huWn : 0 ≤ u * W := mul_nonneg hu0 hW0.le
  have huZn : 0 ≤ u * Z := mul_nonneg hu0 hZ0
  have huZs : u * Z ≤ 1 / 32 * Z := mul_le_mul_of_nonneg_right hu1 hZ0
  -- rounding at a scale
  have R : ∀ (B y : ℝ), |y| ≤ B → B ≤ M → μ ≤ u * B → ∃ s, fl y = .fin s ∧ |s - y| ≤ 2 * (u * B) := by
    intro B y h1 h2 h3
    obtain ⟨s, e1, e2⟩ := hr y (h1.trans h2)
    exact ⟨s, e1, by have := mul_le_mul_of_nonneg_left h1 hu0; linarith⟩
  have hμW : μ ≤ u * W := hμr.trans (mul_le_mul_of_nonneg_left (by linarith) hu0)
  -- predicted variance
  obtain ⟨p1, e1, b1⟩ := R (W / 2) (p + q) (by rw [abs_of_nonneg (by linarith)]; linarith) (by linarith)
    (hμr.trans (mul_le_mul_of_nonneg_left (by linarith) hu0))
  have b1' : |p1 - (p + q)| ≤ 2 * u * W := b1.trans (by nlinarith)
  have hp1q : q ≤ p1 := hm.mono q (p + q) q p1 (by linarith) hq e1
  have hp1W : p1 ≤ W := by
    have := (abs_le.1 b1).2
    nlinarith
  have hp1p : 0 < p1 := by linarith
  have hp1f : fl p1 = .fin p1 := hm.idem _ _ e1
  -- innovation variance
  obtain ⟨S, e2, b2⟩ := hr (p1 + r) (by rw [abs_of_nonneg (by linarith)]; linarith)
  rw [abs_of_pos (show 0 < p1 + r by linarith)] at b2
  have hS1 : p1 ≤ S := hm.mono p1 (p1 + r) p1 S (by linarith) hp1f e2
  have hS0 : 0 < S := by linarith
  have hs0 : 0 < p1 + r := by linarith
  -- gain
  have hgq : p1 / S ≤ 1 := (div_le_one hS0).2 hS1
  have hgq0 : 0 ≤ p1 / S := by positivity
  obtain ⟨K, e3, b3⟩ := R 1 (p1 / S) (by rw [abs_of_nonneg hgq0]; exact hgq) hM1 (by linarith)
  have hK0 : 0 ≤ K := hm.nonneg hgq0 e3
  have hK1 : K ≤ 1 := hm.le_one hgq e3
  have bK : |K - p1 / (p1 + r)| ≤ 4 * u := by
    have e : p1 / S - p1 / (p1 + r) = (p1 / S) * ((p1 + r - S) / (p1 + r)) := by field_simp
    have h1 : |p1 / S - p1 / (p1 + r)| ≤ 2 * u := by
      rw [e, abs_mul, abs_of_nonneg hgq0, abs_div, abs_of_pos hs0, abs_sub_comm]
      have h2 : |S - (p1 + r)| / (p1 + r) ≤ 2 * u := by
        rw [div_le_iff₀ hs0]
        nlinarith [mul_nonneg hu0 hp1p.le]
      calc p1 / S * (|S - (p1 + r)| / (p1 + r)) ≤ 1 * (|S - (p1 + r)| / (p1 + r)) :=
            mul_le_mul_of_nonneg_right hgq (div_nonneg (abs_nonneg _) hs0.le)
        _ ≤ 2 * u := by rwa [one_mul]
    calc |K - p1 / (p1 + r)| = |(K - p1 / S) + (p1 / S - p1 / (p1 + r))| := by ring_nf
      _ ≤ |K - p1 / S| + |p1 / S - p1 / (p1 + r)| := abs_add_le _ _
      _ ≤ 4 * u := by linarith
  -- innovation
  obtain ⟨d, e4, b4⟩ := R (3 * Z) (z - x) ((abs_sub _ _).trans (by linarith)) (by linarith) (by linarith)
  have hd : |d| ≤ 4 * Z := by
    have : |d| ≤ |z - x| + |d - (z - x)| := by
      have := abs_add_le (z - x) (d - (z - x))
      rwa [add_sub_cancel] at this
    have := abs_sub z x
    linarith
  obtain ⟨c, e5, b5⟩ := R (4 * Z) (K * d) (by rw [abs_mul, abs_of_nonneg hK0]; nlinarith [abs_nonneg d]) (by linarith) (by linarith)
  have hc : |c| ≤ 5 * Z := by
    have : |c| ≤ |K * d| + |c - K * d| := by
      have := abs_add_le (K * d) (c - K * d)
      rwa [add_sub_cancel] at this
    have h2 : |K * d| ≤ 4 * Z := by rw [abs_mul, abs_of_nonneg hK0]; nlinarith [abs_nonneg d]
    linarith
  obtain ⟨x', e6, b6⟩ := R (7 * Z) (x + c) ((abs_add_le _ _).trans (by linarith)) (by linarith) (by linarith)
  have bx : |x' - (x + K * (z - x))| ≤ 28 * u * Z := by
    have e : x' - (x + K * (z - x)) = (x' - (x + c)) + ((c - K * d) + K * (d - (z - x))) := by ring
    have h1 : |K * (d - (z - x))| ≤ |d - (z - x)| := by
      rw [abs_mul, abs_of_nonneg hK0]
      exact mul_le_of_le_one_left (abs_nonneg _) hK1
    rw [e]
    have h2 := abs_add_le (x' - (x + c)) ((c - K * d) + K * (d - (z - x)))
    have h3 := abs_add_le (c - K * d) (K * (d - (z - x)))
    linarith
  have hKg : 28 * u ≤ K := by
    have h1 := walk_gain_ge hq0 hr0 hp1q
    have h2 := (abs_le.1 bK).1
    rw [← hκ] at h1
    linarith
  have hx' : |x'| ≤ 2 * Z := by
    have h1 : |x + K * (z - x)| ≤ (1 - K) * (2 * Z) + K * Z := by
      rw [show x + K * (z - x) = (1 - K) * x + K * z by ring]
      refine (abs_add_le _ _).trans ?_
      rw [abs_mul, abs_mul, abs_of_nonneg hK0, abs_of_nonneg (by linarith : 0 ≤ 1 - K)]
      exact add_le_add (mul_le_mul_of_nonneg_left hx (by linarith)) (mul_le_mul_of_nonneg_left hz hK0)
    have h2 := abs_add_le (x + K * (z - x)) (x' - (x + K * (z - x)))
    rw [add_sub_cancel] at h2
    have h3 := mul_le_mul_of_nonneg_right hKg hZ0
    have h4 : (1 - K) * (2 * Z) + K * Z = 2 * Z - K * Z := by ring
    linarith
  -- variance
  obtain ⟨k, e7, b7⟩ := R 1 (1 - K) (by rw [abs_of_nonneg (by linarith)]; linarith) hM1 (by linarith)
  have hk0 : 0 ≤ k := hm.nonneg (by linarith) e7
  have hk1 : k ≤ 1 := hm.le_one (by linarith) e7
  obtain ⟨p', e8, b8⟩ := R W (k * p1) (by rw [abs_of_nonneg (by positivity)]; nlinarith) (by linarith) hμW
  have bp : |p' - (1 - p1 / (p1 + r)) * p1| ≤ 8 * u * W := by
    have e : p' - (1 - p1 / (p1 + r)) * p1 = (p' - k * p1) + ((k - (1 - K)) * p1 - (K - p1 / (p1 + r)) * p1) := by ring
    rw [e]
    have h1 : |(k - (1 - K)) * p1| ≤ 2 * u * W := by
      rw [abs_mul, abs_of_pos hp1p]
      exact mul_le_mul (by linarith) hp1W hp1p.le (by linarith)
    have h2 : |(K - p1 / (p1 + r)) * p1| ≤ 4 * u * W := by
      rw [abs_mul, abs_of_pos hp1p]
      exact mul_le_mul bK hp1W hp1p.le (by linarith)
    have h3 := abs_add_le (p' - k * p1) ((k - (1 - K)) * p1 - (K - p1 / (p1 + r)) * p1)
    have h4 := abs_sub ((k - (1 - K)) * p1) ((K - p1 / (p1 + r)) * p1)
    linarith
  have hp' : p' ≤ p0 + 2 * r := by
    have h1 : (1 - p1 / (p1 + r)) * p1 ≤ r := by
      rw [show (1 - p1 / (p1 + r)) * p1 = r * p1 / (p1 + r) by field_simp; ring, div_le_iff₀ hs0]
      nlinarith
    have := (abs_le.1 bp).2
    linarith
  exact ⟨p1, S, K, d, c, x', k, p', e1, e2, e3, e4, e5, e6, e7, e8, hS0.ne', hp1q, b1', bK, bp, bx, hx',
    hm.nonneg (mul_nonneg hk0 hp1p.le) e8, hp'⟩

/-- One step, compared with the exact one. -/
theorem walk_err (h : WalkNumbers u μ M q r x0 p0 Z W κ) {x p z y v p1 K x' p' : ℝ} (hx : |x| ≤ 2 * Z) (hz : |z| ≤ Z) (hv : 0 ≤ v)
    (hp1 : q ≤ p1) (b1 : |p1 - (p + q)| ≤ 2 * u * W) (bK : |K - p1 / (p1 + r)| ≤ 4 * u)
    (bp : |p' - (1 - p1 / (p1 + r)) * p1| ≤ 8 * u * W) (bx : |x' - (x + K * (z - x))| ≤ 28 * u * Z)
    (hpv : |p - v| ≤ 10 * u * W / κ) (hxy : |x - y| ≤ 50 * u * W * Z / (r * κ ^ 2)) :
    |p' - maCov q r v| ≤ 10 * u * W / κ ∧ |K - maGain q r v| ≤ 14 * u * W / (r * κ) ∧
    |x' - (y + maGain q r v * (z - y))| ≤ 50 * u * W * Z / (r * κ ^ 2) := by
  obtain ⟨⟨hu0, hμ0⟩, ⟨hq0, hr0, hp0⟩, hx0, ⟨hW, hκ⟩, -, -, -⟩ := h
  have hZ0 : 0 ≤ Z := (abs_nonneg _).trans hz
  have hWr : 4 * r ≤ W := by linarith
  have hW0 : 0 < W := by linarith
  have hqr : 0 < q + r := by linarith
  have hκ0 : 0 < κ := by rw [hκ]; positivity
  have hκ1 : κ ≤ 1 := by rw [hκ, div_le_one hqr]; linarith
  have hκne := hκ0.ne'
  have hvq : q ≤ v + q := by linarith
  have hvr : v + q + r ≠ 0 := by linarith
  have eg : maGain q r v = (v + q) / (v + q + r) := rfl
  have ec : maCov q r v = (1 - (v + q) / (v + q + r)) * (v + q) := by unfold maCov; field_simp; ring
  have huW : 0 ≤ u * W := mul_nonneg hu0 hW0.le
  -- difference of predicted variances
  have d1 : |p1 - (v + q)| ≤ 2 * u * W + 10 * u * W / κ := by
    have h1 := abs_add_le (p1 - (p + q)) (p - v)
    rw [show p1 - (p + q) + (p - v) = p1 - (v + q) by ring] at h1
    linarith
  refine ⟨?_, ?_⟩
  · rw [ec]
    have h1 := walk_var_lip hq0 hr0 hp1 hvq
    rw [← hκ] at h1
    have h2 := abs_add_le (p' - (1 - p1 / (p1 + r)) * p1) ((1 - p1 / (p1 + r)) * p1 - (1 - (v + q) / (v + q + r)) * (v + q))
    rw [show p' - (1 - p1 / (p1 + r)) * p1 + ((1 - p1 / (p1 + r)) * p1 - (1 - (v + q) / (v + q + r)) * (v + q)) =
      p' - (1 - (v + q) / (v + q + r)) * (v + q) by ring] at h2
    have h3 := mul_le_mul_of_nonneg_left d1 (by linarith : 0 ≤ 1 - κ)
    have e : (1 - κ) * (2 * u * W + 10 * u * W / κ) = 10 * u * W / κ - 8 * u * W - κ * (2 * u * W) := by field_simp; ring
    have : 0 ≤ κ * (2 * u * W) := by positivity
    linarith
  · have hone : 1 ≤ W / (4 * r) := by rw [le_div_iff₀ (by linarith)]; linarith
    have g1 : |K - maGain q r v| ≤ 14 * u * W / (r * κ) := by
      rw [eg]
      have h1 := walk_gain_lip hq0 hr0 hp1 hvq
      have h2 := abs_add_le (K - p1 / (p1 + r)) (p1 / (p1 + r) - (v + q) / (v + q + r))
      rw [sub_add_sub_cancel] at h2
      have h3 : |p1 - (v + q)| / r ≤ (2 * u * W + 10 * u * W / κ) / r := div_le_div_of_nonneg_right d1 hr0.le
      have h4 : 4 * u + (2 * u * W + 10 * u * W / κ) / r ≤ 14 * u * W / (r * κ) := by
        rw [show 4 * u + (2 * u * W + 10 * u * W / κ) / r = (4 * u * r * κ + 2 * u * W * κ + 10 * u * W) / (r * κ) by field_simp; ring]
        refine div_le_div_of_nonneg_right ?_ (by positivity)
        have a1 : u * W * κ ≤ u * W := mul_le_of_le_one_right huW hκ1
        have a2 : 4 * u * r * κ ≤ u * W := by
          have a0 : r * κ ≤ r := mul_le_of_le_one_right hr0.le hκ1
          have : 4 * r * κ ≤ W := by linarith
          have := mul_le_mul_of_nonneg_left this hu0
          linarith
        linarith
      linarith
    refine ⟨g1, ?_⟩
    have gk : κ ≤ maGain q r v := by rw [eg, hκ]; exact walk_gain_ge hq0 hr0 hvq
    have gk1 := (maGain_mem hq0.le hr0 hv).2
    have e : x' - (y + maGain q r v * (z - y)) = (x' - (x + K * (z - x))) + ((1 - maGain q r v) * (x - y) + (K - maGain q r v) * (z - x)) := by ring
    have h1 : |(1 - maGain q r v) * (x - y)| ≤ (1 - κ) * (50 * u * W * Z / (r * κ ^ 2)) := by
      rw [abs_mul, abs_of_nonneg (by linarith : 0 ≤ 1 - maGain q r v)]
      exact mul_le_mul (by linarith) hxy (abs_nonneg _) (by linarith)
    have h2 : |(K - maGain q r v) * (z - x)| ≤ 14 * u * W / (r * κ) * (3 * Z) := by
      rw [abs_mul]
      exact mul_le_mul g1 ((abs_sub _ _).trans (by linarith)) (abs_nonneg _) (by positivity)
    have h3 := abs_add_le (x' - (x + K * (z - x))) ((1 - maGain q r v) * (x - y) + (K - maGain q r v) * (z - x))
    have h4 := abs_add_le ((1 - maGain q r v) * (x - y)) ((K - maGain q r v) * (z - x))
    rw [← e] at h3
    have h5 : 28 * u * Z + ((1 - κ) * (50 * u * W * Z / (r * κ ^ 2)) + 14 * u * W / (r * κ) * (3 * Z)) ≤ 50 * u * W * Z / (r * κ ^ 2) := by
      have e2 : 50 * u * W * Z / (r * κ ^ 2) - (28 * u * Z + ((1 - κ) * (50 * u * W * Z / (r * κ ^ 2)) + 14 * u * W / (r * κ) * (3 * Z))) =
          (8 * u * W * Z - 28 * u * Z * r * κ) / (r * κ) := by field_simp; ring
      have : 0 ≤ (8 * u * W * Z - 28 * u * Z * r * κ) / (r * κ) := by
        refine div_nonneg ?_ (by positivity)
        have a0 : r * κ ≤ r := mul_le_of_le_one_right hr0.le hκ1
        have a1 : 28 * (r * κ) ≤ 8 * W := by linarith
        have a2 := mul_le_mul_of_nonneg_left a1 (mul_nonneg hu0 hZ0)
        have a3 : u * Z * (28 * (r * κ)) = 28 * u * Z * r * κ := by ring
        have a4 : u * Z * (8 * W) = 8 * u * W * Z := by ring
        linarith
      linarith
    linarith

end

/-! ### the program -/

section
variable {nanInt : ℝ} {a : FloatUnit} {u μ M q r x0 p0 Z W κ : ℝ}

/-- A row of the documented set-up. -/
structure WalkRow (q r z : ℝ) (row : KalmanFilter.Row Fl) : Prop where
  A : IsOne (.fin 1) row.1
  H : IsOne (.fin 1) row.2.1
  B : row.2.2.1 = .mat .float64 (fun (_ _ : Fin 1) => Fl.nan)
  z : ∃ d, row.2.2.2.2.1 = .scalar d (.fin z)
  Q : IsOneOrScalar (.fin q) row.2.2.2.2.2.1
  R : IsOneOrScalar (.fin r) row.2.2.2.2.2.2

theorem IsOne.scalar_sub {x y : Fl} {d : DType} {B : Arr Fl} (hB : IsOne y B) :
    ∃ C, @Arr.sub Fl (floatB nanInt a) (.scalar d x) B = .ok C ∧ IsOne (fsub a.fl x y) C := by
  obtain ⟨e, rfl⟩ := hB
  exact ⟨_, rfl, _, rfl⟩

theorem IsOne.atleast1d {x : Fl} {B : Arr Fl} (hB : IsOne x B) : IsOne x B.atleast1d := by
  obtain ⟨e, rfl⟩ := hB
  exact ⟨_, rfl⟩

theorem IsOne.assignVec {x : Fl} {B : Arr Fl} (hB : IsOne x B) : @Arr.assignVec Fl 1 B = .ok (.vec .float64 (fun _ : Fin 1 => x)) := by
  obtain ⟨e, rfl⟩ := hB
  rfl

theorem IsOne.assignMat {x : Fl} {B : Arr Fl} (hB : IsOne x B) : @Arr.assignMat Fl 1 B = .ok (.mat .float64 (fun (_ _ : Fin 1) => x)) := by
  obtain ⟨e, rfl⟩ := hB
  rfl

/-- One step of `filter`. -/
theorem walk_prog (hv : a.Valid) {row : KalmanFilter.Row Fl} {xk Pk : Arr Fl} {x p z p1 S K d c x' k p' : ℝ} (hrow : WalkRow q r z row)
    (hx : IsOne (.fin x) xk) (hP : IsOne (.fin p) Pk) (fx : a.fl x = .fin x) (fp : a.fl p = .fin p) (hm : MonotoneRounding a.fl)
    (e1 : a.fl (p + q) = .fin p1) (e2 : a.fl (p1 + r) = .fin S) (e3 : a.fl (p1 / S) = .fin K) (e4 : a.fl (z - x) = .fin d)
    (e5 : a.fl (K * d) = .fin c) (e6 : a.fl (x + c) = .fin x') (e7 : a.fl (1 - K) = .fin k) (e8 : a.fl (k * p1) = .fin p') (hS : S ≠ 0) :
    ∃ Kk x1 P1, @KalmanFilter.step Fl (floatB nanInt a) 1 (@Arr.identity Fl (floatB nanInt a) 1) row xk Pk =
      (some Kk, .ok ((x1, P1), (.vec .float64 (fun _ : Fin 1 => .fin x'), .mat .float64 (fun (_ _ : Fin 1) => .fin p')))) ∧
      IsOne (.fin K) Kk ∧ IsOne (.fin x') x1 ∧ IsOne (.fin p') P1 := by
  obtain ⟨hA, hH, hB, ⟨dz, hz⟩, hQ, hR⟩ := hrow
  obtain ⟨Ak, Hk, Bk, uk, zk, Qk, Rk⟩ := row
  simp only at hA hH hB hz hQ hR
  subst hz
  have f1 : a.fl p1 = .fin p1 := hm.idem _ _ e1
  have fK : a.fl K = .fin K := hm.idem _ _ e3
  -- predict
  obtain ⟨ax, m1, o1⟩ := hA.matmul (nanInt := nanInt) hv hx
  obtain ⟨pa, m2, o2⟩ := hP.matmul (nanInt := nanInt) hv hA.T
  obtain ⟨apa, m3, o3⟩ := hA.matmul (nanInt := nanInt) hv o2
  obtain ⟨Pp, m4, o4⟩ := o3.add (nanInt := nanInt) (a := a) hQ
  simp only [fmul, fadd, mul_one, one_mul, fx, fp, e1] at o1 o2 o3 o4
  have hpred : @KalmanFilter.predict Fl (floatB nanInt a) Ak xk (some Bk) (some uk) Pk Qk = .ok (ax, Pp) := by
    rw [@KalmanFilter.predict_skip Fl (floatB nanInt a), m1]
    · rw [Except.bind_ok', m2, Except.bind_ok', m3, Except.bind_ok', m4, Except.bind_ok']
    · rw [Bool.or_eq_true]
      refine .inl ?_
      subst hB
      simp only [Arr.isnanAll, decide_eq_true_eq]
      exact fun i j => rfl
  -- gain
  obtain ⟨c1, g1, q1⟩ := o4.matmul (nanInt := nanInt) hv hH.T
  obtain ⟨c2, g2, q2⟩ := hH.matmul (nanInt := nanInt) hv q1
  obtain ⟨c3, g3, q3⟩ := q2.add (nanInt := nanInt) (a := a) hR
  obtain ⟨c4, g4, q4⟩ := hH.matmul (nanInt := nanInt) hv o4.T
  simp only [fmul, fadd, mul_one, one_mul, f1, e2] at q1 q2 q3 q4
  rcases q3.T.solve (nanInt := nanInt) (a := a) q4 with ⟨n5, -⟩ | ⟨-, c5, g5, q5⟩
  · injection n5 with n5
    exact absurd n5 hS
  simp only [fdiv, e3] at q5
  have hg : @KalmanFilter.gain Fl (floatB nanInt a) Hk Pp Rk = .ok c5.T := by
    unfold KalmanFilter.gain
    rw [g1, Except.bind_ok', g2, Except.bind_ok', g3, Except.bind_ok', g4, Except.bind_ok', g5, Except.bind_ok']
  have hK := q5.T
  -- correct
  obtain ⟨hx1, k1, w1⟩ := hH.matmul (nanInt := nanInt) hv o1
  simp only [fmul, one_mul, fx] at w1
  obtain ⟨res, k2, w2⟩ := w1.scalar_sub (nanInt := nanInt) (a := a) (x := .fin z) (d := dz)
  simp only [fsub, e4] at w2
  obtain ⟨corr, k3, w3⟩ := hK.matmul (nanInt := nanInt) hv w2.atleast1d
  simp only [fmul, e5] at w3
  obtain ⟨xn, k4, w4⟩ := o1.add (nanInt := nanInt) (a := a) (.inl w3)
  simp only [fadd, e6] at w4
  obtain ⟨kh, k5, w5⟩ := hK.matmul (nanInt := nanInt) hv hH
  simp only [fmul, mul_one, fK] at w5
  obtain ⟨ikh, k6, w6⟩ := isOne_identity.sub (nanInt := nanInt) (a := a) w5
  simp only [fsub, e7] at w6
  obtain ⟨Pn, k7, w7⟩ := w6.matmul (nanInt := nanInt) hv o4
  simp only [fmul, e8] at w7
  have hc : @KalmanFilter.correct Fl (floatB nanInt a) (@Arr.identity Fl (floatB nanInt a) 1) c5.T Hk ax Pp (.scalar dz (.fin z)) = .ok (xn, Pn) := by
    unfold KalmanFilter.correct
    rw [k1, Except.bind_ok', k2, Except.bind_ok', k3, Except.bind_ok', k4, Except.bind_ok', k5, Except.bind_ok', k6, Except.bind_ok', k7,
      Except.bind_ok']
  refine ⟨c5.T, xn, Pn, ?_, hK, w4, w7⟩
  simp only [KalmanFilter.step, hpred, hg, hc, Except.bind_ok', w4.assignVec, w7.assignMat]

/-- The bounds at one row. -/
structure WalkClose (u q r Z W κ : ℝ) (o : Arr Fl × Arr Fl) (K : Arr Fl) (e : ℝ × ℝ) : Prop where
  state : ∃ x : ℝ, o.1 = .vec .float64 (fun _ : Fin 1 => .fin x) ∧ |x - e.1| ≤ 50 * u * W * Z / (r * κ ^ 2)
  cov : ∃ p : ℝ, o.2 = .mat .float64 (fun (_ _ : Fin 1) => .fin p) ∧ |p - e.2| ≤ 10 * u * W / κ
  gain : ∃ k : ℝ, IsOne (.fin k) K ∧ |k - e.2 / r| ≤ 14 * u * W / (r * κ)

/-- The whole loop. -/
theorem walk_trace (hv : a.Valid) (hm : MonotoneRounding a.fl) (hrd : Rounds u μ M a.fl) (h : WalkNumbers u μ M q r x0 p0 Z W κ)
    (hq : a.fl q = .fin q) (zs : List ℝ) (hz : ∀ z ∈ zs, |z| ≤ Z) (rows : List (KalmanFilter.Row Fl)) (hrows : List.Forall₂ (WalkRow q r) zs rows)
    {x p y v : ℝ} {xk Pk : Arr Fl} (hx : IsOne (.fin x) xk) (hP : IsOne (.fin p) Pk) (fx : a.fl x = .fin x) (fp : a.fl p = .fin p)
    (bx : |x| ≤ 2 * Z) (bp : 0 ≤ p) (bp2 : p ≤ p0 + 2 * r) (hv0 : 0 ≤ v) (hpv : |p - v| ≤ 10 * u * W / κ)
    (hxy : |x - y| ≤ 50 * u * W * Z / (r * κ ^ 2)) :
    let t := trace (@KalmanFilter.step Fl (floatB nanInt a) 1 (@Arr.identity Fl (floatB nanInt a) 1)) rows xk Pk
    t.err = none ∧ t.outs.length = zs.length ∧ t.gains.length = zs.length ∧
    ∀ (k : ℕ) o K e, t.outs[k]? = some o → t.gains[k]? = some K → (maRun q r y v zs)[k]? = some e → WalkClose u q r Z W κ o K e := by
  induction zs generalizing x p y v xk Pk rows with
  | nil =>
    cases hrows
    exact ⟨rfl, rfl, rfl, fun k o K e ho => by simp [trace] at ho⟩
  | cons z zs ih =>
    rcases hrows with _ | ⟨hrow, hrest⟩
    rename_i row rest
    have hz1 := hz z List.mem_cons_self
    obtain ⟨p1, S, K, d, c, x', k, p', e1, e2, e3, e4, e5, e6, e7, e8, hS, hp1, b1, bK, bc, bs, bx', bp', bp2'⟩ :=
      walk_step h hm hrd hq bx bp bp2 hz1
    obtain ⟨Kk, x1, P1, hstep, hK, hx1, hP1⟩ := walk_prog (nanInt := nanInt) hv hrow hx hP fx fp hm e1 e2 e3 e4 e5 e6 e7 e8 hS
    obtain ⟨t1, t2, t3⟩ := walk_err h bx hz1 hv0 hp1 b1 bK bc bs hpv hxy
    have hr0 := h.model.2.1
    have hq0 := h.model.1
    obtain ⟨i1, i2, i3, i4⟩ := ih (fun z hz' => hz z (List.mem_cons_of_mem _ hz')) rest hrest hx1 hP1 (hm.idem _ _ e6) (hm.idem _ _ e8) bx' bp' bp2'
      (maCov_nonneg hq0.le hr0 hv0) t1 t3
    simp only [trace, hstep, Option.toList, List.singleton_append, List.length_cons, i1, i2, i3, true_and]
    intro j o K' e ho hK' he
    cases j with
    | zero =>
      simp only [List.getElem?_cons_zero, Option.some.injEq, maRun] at ho hK' he
      subst ho hK' he
      refine ⟨⟨x', rfl, t3⟩, ⟨p', rfl, t1⟩, K, hK, ?_⟩
      have : maCov q r v / r = maGain q r v := by
        unfold maCov maGain
        field_simp
      rwa [this]
    | succ j =>
      simp only [List.getElem?_cons_succ, maRun] at ho hK' he
      exact i4 j o K' e ho hK' he

end

section
variable [Platform] {nanInt : ℝ} {a : FloatUnit} {u μ M q r x0 p0 Z W κ : ℝ}

theorem walk_rows (dz : DType) (q r : ℝ) (zs : List ℝ) : List.Forall₂ (WalkRow q r) zs
    ((List.replicate zs.length (one1 .float64 1)).zip ((List.replicate zs.length (one1 .float64 1)).zip
      ((List.replicate zs.length (.mat .float64 (fun (_ _ : Fin 1) => Fl.nan))).zip ((zs.map fun z => @Arr.fullLikeNan Fl (floatB nanInt a) (.scalar dz (.fin z))).zip
        ((zs.map fun z => Arr.scalar dz (.fin z)).zip ((List.replicate zs.length (.scalar .float64 (.fin q))).zip
          (List.replicate zs.length (.scalar .float64 (.fin r))))))))) := by
  induction zs with
  | nil => exact .nil
  | cons z zs ih => exact .cons ⟨⟨_, rfl⟩, ⟨_, rfl⟩, rfl, ⟨_, rfl⟩, .inr ⟨_, rfl⟩, .inr ⟨_, rfl⟩⟩ ih

/-- **C156**: the moving-average set-up of the documentation, computed in floating point: the constructor and `filter` succeed, whatever the number
of observations; every returned state, covariance and recorded gain is a number, and is as close to what the same call returns in exact
arithmetic (`states`, `errors`, the gains of `kf'`) as the bounds say, which do not depend on the number of observations. -/
theorem C156_uniform (hv : a.Valid) (hm : MonotoneRounding a.fl) (hrd : Rounds u μ M a.fl) (h : WalkNumbers u μ M q r x0 p0 Z W κ)
    (hx : a.fl x0 = .fin x0) (hp : a.fl p0 = .fin p0) (hq : a.fl q = .fin q) (dx dp dz : DType) (zs : List ℝ) (hz : ∀ z ∈ zs, |z| ≤ Z) :
    ∃ kf kf' states errors fkf fkf' fstates ferrors,
      maFilter dx dp x0 p0 q r zs.length = .ok kf ∧ (KalmanFilter.filter (dataZ dz zs) none).run kf = (.ok (states, errors), kf') ∧
      maFloat nanInt a dx dp x0 p0 q r zs.length = .ok fkf ∧
      (@KalmanFilter.filter Fl (floatB nanInt a) (dataZ dz zs) none).run fkf = (.ok (fstates, ferrors), fkf') ∧
      fstates.length = zs.length ∧ ferrors.length = zs.length ∧ fkf'.kalmanGains.length = zs.length ∧
      ∀ k < zs.length,
        (∃ x y, IsNumber fstates[k]? x ∧ IsNumber states[k]? y ∧ |x - y| ≤ 50 * u * W * Z / (r * κ ^ 2)) ∧
        (∃ p v, IsNumber1 ferrors[k]? p ∧ IsNumber1 errors[k]? v ∧ |p - v| ≤ 10 * u * W / κ) ∧
        ∃ g w, (∃ K, fkf'.kalmanGains[k]? = some K ∧ IsOne (.fin g) K) ∧ IsNumber1 kf'.kalmanGains[k]? w ∧ |g - w| ≤ 14 * u * W / (r * κ) := by
  obtain ⟨kf, kf', st, er, n1, n2, n3, n4, n5, n6⟩ := ma_returns dx dp dz (x0 := x0) h.model.2.2 h.model.1.le h.model.2.1 zs
  have hr0 := h.model.2.1
  have hq0 := h.model.1
  have hκ0 : 0 < κ := by rw [h.scale.2]; positivity
  have hW0 : 0 < W := by rw [h.scale.1]; have := h.model.2.2; positivity
  have hu0 := h.unit.1
  have hZ0 : 0 ≤ Z := (abs_nonneg _).trans h.start
  obtain ⟨t1, t2, t3, t4⟩ := walk_trace (nanInt := nanInt) hv hm hrd h hq zs hz _ (walk_rows (nanInt := nanInt) (a := a) dz q r zs) (x := x0) (p := p0) (y := x0) (v := p0)
    (xk := one1 dx x0) (Pk := one1 dp p0) ⟨dx, rfl⟩ ⟨dp, rfl⟩ hx hp (by linarith [h.start]) h.model.2.2 (by linarith) h.model.2.2
    (by rw [sub_self, abs_zero]; positivity) (by rw [sub_self, abs_zero]; positivity)
  obtain ⟨t, ht⟩ : ∃ t, t = trace (@KalmanFilter.step Fl (floatB nanInt a) 1 (@Arr.identity Fl (floatB nanInt a) 1))
    ((List.replicate zs.length (one1 .float64 1)).zip ((List.replicate zs.length (one1 .float64 1)).zip
      ((List.replicate zs.length (.mat .float64 (fun (_ _ : Fin 1) => Fl.nan))).zip ((zs.map fun z => @Arr.fullLikeNan Fl (floatB nanInt a) (.scalar dz (.fin z))).zip
        ((zs.map fun z => Arr.scalar dz (.fin z)).zip ((List.replicate zs.length (.scalar .float64 (.fin q))).zip
          (List.replicate zs.length (.scalar .float64 (.fin r))))))))) (one1 dx x0) (one1 dp p0) := ⟨_, rfl⟩
  rw [← ht] at t1 t2 t3 t4
  have hrun : ∀ fkf, maFloat nanInt a dx dp x0 p0 q r zs.length = .ok fkf → (@KalmanFilter.filter Fl (floatB nanInt a) (dataZ dz zs) none).run fkf =
      (.ok (t.outs.map Prod.fst, t.outs.map Prod.snd), fkf.addGains t.gains) := by
    intro fkf hf
    injection hf with hf
    have hb : @checkNoneAndBroadcast Fl (floatB nanInt a) none (onesT zs.length) =
        .stack (List.replicate zs.length (.mat .float64 (fun (_ _ : Fin 1) => Fl.nan))) := by
      simp only [checkNoneAndBroadcast, NDArray.fullLikeNan, onesT, List.map_replicate]
      rfl
    have hu : @checkNoneAndBroadcast Fl (floatB nanInt a) none (dataZ dz zs) =
        .stack (zs.map fun z => @Arr.fullLikeNan Fl (floatB nanInt a) (.scalar dz (.fin z))) := by
      simp only [checkNoneAndBroadcast, NDArray.fullLikeNan, dataZ, List.map_map]
      rfl
    have hl : (dataZ dz zs).len = .ok zs.length := by simp [dataZ, NDArray.len]
    rw [hb] at hf
    subst hf
    rw [@KalmanFilter.filter_eq Fl (floatB nanInt a), hl, hu]
    have e : @KalmanFilter.zipRows Fl (onesT zs.length) (onesT zs.length) (.stack (List.replicate zs.length (.mat .float64 (fun (_ _ : Fin 1) => Fl.nan))))
      (.stack (zs.map fun z => @Arr.fullLikeNan Fl (floatB nanInt a) (.scalar dz (.fin z)))) (dataZ dz zs) (constT zs.length q) (constT zs.length r) = .ok _ := rfl
    simp only [e]
    refine Prod.ext ?_ ?_
    · show Trace.result (trace (@KalmanFilter.step Fl (floatB nanInt a) 1 (@Arr.identity Fl (floatB nanInt a) 1)) _ (one1 dx x0) (one1 dp p0)) 0 _ _ = _
      rw [← ht, Trace.result, t1]
      simp only [Except.ok.injEq, Prod.mk.injEq]
      constructor
      · rw [overwrite_zero_replicate _ _ _ (by simp [t2])]; simp [t2]
      · rw [overwrite_zero_replicate _ _ _ (by simp [t2])]; simp [t2]
    · rw [ht]
  refine ⟨kf, kf', st, er, _, _, _, _, n1, n2, rfl, hrun _ rfl, by simp [t2], by simp [t2], ?_, fun k hk => ?_⟩
  · simp [KalmanFilter.addGains, t3]
  · obtain ⟨e, he⟩ := maRun_get (q := q) (r := r) zs x0 p0 k hk
    obtain ⟨m1, m2, m3⟩ := n6 k e he
    obtain ⟨o, ho⟩ : ∃ o, t.outs[k]? = some o := ⟨_, List.getElem?_eq_getElem (by omega)⟩
    obtain ⟨K, hK⟩ : ∃ K, t.gains[k]? = some K := ⟨_, List.getElem?_eq_getElem (by omega)⟩
    obtain ⟨⟨x, x1, x2⟩, ⟨p, p1, p2⟩, g, g1, g2⟩ := t4 k o K e ho hK he
    refine ⟨⟨x, _, ?_, m1, x2⟩, ⟨p, _, ?_, m2, p2⟩, g, _, ⟨K, ?_, g1⟩, m3, g2⟩
    · simp only [IsNumber, List.getElem?_map, ho, Option.map_some, x1]
    · simp only [IsNumber1, List.getElem?_map, ho, Option.map_some, p1]
      rfl
    · simpa [KalmanFilter.addGains] using hK

/-- binary64 with fused multiply-add, `q = r = p0 = 1`, integer `xk`: any number of observations between -1000 and 1000; states are off by less than
`2 * 10^-10`, variances by less than `2 * 10^-14`. -/
example (zs : List ℝ) (hz : ∀ z ∈ zs, |z| ≤ 1000) :
    ∃ kf kf' states errors fkf fkf' fstates ferrors,
      maFilter .int64 .float64 0 1 1 1 zs.length = .ok kf ∧ (KalmanFilter.filter (dataZ .float64 zs) none).run kf = (.ok (states, errors), kf') ∧
      maFloat 0 (binaryUnit 53 (-1022) ((2 ^ 53 - 1) * 2 ^ 971) true) .int64 .float64 0 1 1 1 zs.length = .ok fkf ∧
      (@KalmanFilter.filter Fl (floatB 0 (binaryUnit 53 (-1022) ((2 ^ 53 - 1) * 2 ^ 971) true)) (dataZ .float64 zs) none).run fkf =
        (.ok (fstates, ferrors), fkf') ∧
      ∀ k < zs.length,
        (∃ x y, IsNumber fstates[k]? x ∧ IsNumber states[k]? y ∧ |x - y| ≤ 2 / 10 ^ 10) ∧
        ∃ p v, IsNumber1 ferrors[k]? p ∧ IsNumber1 errors[k]? v ∧ |p - v| ≤ 2 / 10 ^ 14 := by
  have hM := binary64_max_ge
  have hbig : (2 : ℝ) ^ 20 ≤ (2 ^ 53 - 1) * 2 ^ 971 := by
    have h1 : (1 : ℝ) ≤ 2 ^ 971 := one_le_pow₀ (by norm_num)
    have h2 : (2 : ℝ) ^ 20 ≤ 2 ^ 53 - 1 := by norm_num
    calc (2 : ℝ) ^ 20 = 2 ^ 20 * 1 := by norm_num
      _ ≤ _ := mul_le_mul h2 h1 zero_le_one (by norm_num)
  have hμ : (2 : ℝ) ^ ((-1022 : ℤ) - (53 : ℕ)) ≤ 2 ^ (-(53 : ℕ) : ℤ) := zpow_le_zpow_right₀ (by norm_num) (by norm_num)
  have hu : (2 : ℝ) ^ (-(53 : ℕ) : ℤ) = 1 / 2 ^ 53 := by norm_num
  have hw : WalkNumbers (2 ^ (-(53 : ℕ) : ℤ)) (2 ^ ((-1022 : ℤ) - (53 : ℕ))) ((2 ^ 53 - 1) * 2 ^ 971) 1 1 0 1 1000 8 (1 / 2) :=
    ⟨⟨by positivity, by positivity⟩, by norm_num, by norm_num, by norm_num,
      ⟨hμ, by rw [mul_one]; exact hμ, hμ.trans (by rw [hu]; norm_num)⟩,
      ⟨one_le_two.trans hM, le_trans (by norm_num) hbig, le_trans (by norm_num) hbig⟩, by rw [hu]; norm_num⟩
  have hm := (binary64_nearest true).monotone (by norm_num) (by norm_num) (one_le_two.trans hM)
  obtain ⟨kf, kf', st, er, fkf, fkf', fst, fer, h1, h2, h3, h4, -, -, -, h5⟩ := C156_uniform (nanInt := 0) (binaryUnit_valid 53 (-1022) ((2 ^ 53 - 1) * 2 ^ 971) true) hm
    (binary_rounds _ _ _) hw hm.zero hm.one hm.one .int64 .float64 .float64 zs hz
  refine ⟨kf, kf', st, er, fkf, fkf', fst, fer, h1, h2, h3, h4, fun k hk => ?_⟩
  obtain ⟨⟨x, y, x1, x2, x3⟩, ⟨p, v, p1, p2, p3⟩, -⟩ := h5 k hk
  refine ⟨⟨x, y, x1, x2, x3.trans ?_⟩, p, v, p1, p2, p3.trans ?_⟩
  · rw [hu]; norm_num
  · rw [hu]; norm_num

end

end KK
