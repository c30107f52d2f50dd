import Verif.Spec.MovingAverage
import Verif.Proofs.Transfer
import Mathlib.Analysis.SpecialFunctions.Sqrt

/-! # C40, C54: the moving-average use of the filter -/

set_option linter.unusedSectionVars false

namespace KK

open Matrix

/-- One step of the scalar random-walk model. -/
noncomputable def maStep (q r z : ℝ) : LinStep 1 1 :=
  ⟨1, 0, 1, Matrix.of fun _ _ => q, Matrix.of fun _ _ => r, fun _ => z⟩

/-- Scalar belief. -/
noncomputable def maBelief (x p : ℝ) : Belief 1 := ⟨fun _ => x, Matrix.of fun _ _ => p⟩

/-- Scalar recursion of the covariance. -/
noncomputable def maCov (q r p : ℝ) : ℝ := (p + q) * r / (p + q + r)

/-- Scalar gain. -/
noncomputable def maGain (q r p : ℝ) : ℝ := (p + q) / (p + q + r)

theorem ma_innov (q r z x p : ℝ) : (maStep q r z).innov ((maStep q r z).predict (maBelief x p)) =
    Matrix.of fun _ _ => p + q + r := by
  ext i j
  simp [LinStep.innov, LinStep.predict, maStep, maBelief, innovCov, priorCov]

theorem ma_det (q r z x p : ℝ) :
    ((maStep q r z).innov ((maStep q r z).predict (maBelief x p))).det = p + q + r := by
  rw [ma_innov, Matrix.det_fin_one]; rfl

theorem ma_gain (q r z x p : ℝ) :
    (maStep q r z).gain ((maStep q r z).predict (maBelief x p)) = Matrix.of fun _ _ => maGain q r p := by
  have h : (maStep q r z).gain ((maStep q r z).predict (maBelief x p)) =
      ((maStep q r z).predict (maBelief x p)).P * (maStep q r z).Hᵀ *
        ((maStep q r z).innov ((maStep q r z).predict (maBelief x p)))⁻¹ := rfl
  rw [h, ma_innov]
  ext i j
  have hj : j = 0 := Subsingleton.elim _ _
  subst hj
  simp [LinStep.predict, maStep, maBelief, priorCov, maGain, Matrix.mul_apply, div_eq_mul_inv]

theorem ma_next {q r z x p : ℝ} (h : p + q + r ≠ 0) : (maStep q r z).next (maBelief x p) =
    maBelief (x + maGain q r p * (z - x)) (maCov q r p) := by
  have hg := ma_gain q r z x p
  ext i j
  · simp only [LinStep.next, LinStep.update, hg]
    simp [LinStep.predict, maStep, maBelief, Matrix.mulVec, dotProduct]
  · have h2 : ((maStep q r z).next (maBelief x p)).P = (1 - (maStep q r z).gain ((maStep q r z).predict (maBelief x p)) *
        (maStep q r z).H) * ((maStep q r z).predict (maBelief x p)).P := rfl
    rw [h2, hg]
    have hi : i = 0 := Subsingleton.elim _ _
    have hj : j = 0 := Subsingleton.elim _ _
    subst hi hj
    simp [LinStep.predict, maStep, maBelief, priorCov, maGain, maCov, Matrix.mul_apply]
    field_simp
    ring

/-- The list of scalar beliefs. -/
noncomputable def maRun (q r : ℝ) : ℝ → ℝ → List ℝ → List (ℝ × ℝ)
  | _, _, [] => []
  | x, p, z :: zs =>
    (x + maGain q r p * (z - x), maCov q r p) :: maRun q r (x + maGain q r p * (z - x)) (maCov q r p) zs

theorem maCov_nonneg {q r p : ℝ} (hq : 0 ≤ q) (hr : 0 < r) (hp : 0 ≤ p) : 0 ≤ maCov q r p := by
  unfold maCov; positivity

theorem maGain_mem {q r p : ℝ} (hq : 0 ≤ q) (hr : 0 < r) (hp : 0 ≤ p) : 0 ≤ maGain q r p ∧ maGain q r p < 1 := by
  unfold maGain
  constructor
  · positivity
  · rw [div_lt_one (by positivity)]; linarith

theorem ma_run {q r : ℝ} (hq : 0 ≤ q) (hr : 0 < r) (zs : List ℝ) (x p : ℝ) (hp : 0 ≤ p) :
    Solvable (maBelief x p) (zs.map (maStep q r)) ∧
    filtered (maBelief x p) (zs.map (maStep q r)) = (maRun q r x p zs).map fun a => maBelief a.1 a.2 := by
  induction zs generalizing x p with
  | nil => exact ⟨trivial, rfl⟩
  | cons z zs ih =>
    have hne : p + q + r ≠ 0 := by positivity
    obtain ⟨h1, h2⟩ := ih (x + maGain q r p * (z - x)) (maCov q r p) (maCov_nonneg hq hr hp)
    simp only [List.map_cons, Solvable, filtered, maRun, ma_next hne]
    exact ⟨⟨by rw [ma_det]; exact hne, h1⟩, by rw [h2]⟩

theorem ma_gains {q r : ℝ} (hq : 0 ≤ q) (hr : 0 < r) (zs : List ℝ) (x p : ℝ) (hp : 0 ≤ p) :
    gainsOf (maBelief x p) (zs.map (maStep q r)) =
      (maRun q r x p zs).map fun a => (Matrix.of fun _ _ => a.2 / r : Matrix (Fin 1) (Fin 1) ℝ) := by
  induction zs generalizing x p with
  | nil => rfl
  | cons z zs ih =>
    have hne : p + q + r ≠ 0 := by positivity
    simp only [List.map_cons, gainsOf, maRun, ma_next hne, ma_gain]
    rw [ih _ _ (maCov_nonneg hq hr hp)]
    congr 1
    ext i j
    simp [maGain, maCov]
    field_simp

theorem maRun_length (q r : ℝ) (zs : List ℝ) (x p : ℝ) : (maRun q r x p zs).length = zs.length := by
  induction zs generalizing x p with
  | nil => rfl
  | cons z zs ih => simp [maRun, ih]

section
variable [Platform]

theorem one1_is (d : DType) (x : ℝ) (M : Matrix (Fin 1) (Fin 1) ℝ) (h : M 0 0 = x) : MatIs M (one1 d x) := by
  refine ⟨d, ?_⟩
  rw [one1]
  congr 2
  ext i j
  have hi : i = 0 := Subsingleton.elim _ _
  have hj : j = 0 := Subsingleton.elim _ _
  subst hi hj
  exact h.symm

/-- The documented call is represented by the scalar model. -/
theorem ma_represents (dx dp dz : DType) (x0 p q r : ℝ) (zs : List ℝ) :
    ∃ kf, maFilter dx dp x0 p q r zs.length = .ok kf ∧ kf.kalmanGains = [] ∧
      Represents kf (dataZ dz zs) none (maBelief x0 p) (zs.map (maStep q r)) := by
  refine ⟨_, rfl, rfl, ?_⟩
  refine ⟨⟨trivial, trivial, trivial, trivial, trivial, trivial, trivial⟩, ?_, rfl, rfl, ?_,
    ⟨dp, rfl⟩, ?_, .inr (.inl rfl)⟩
  · simp [KalmanFilter.steps, onesT, constT, dataZ, checkNoneAndBroadcast, NDArray.fullLikeNan, NDArray.rows]
  · refine .inr ⟨rfl, ⟨dx, ?_⟩⟩
    rfl
  · intro k s Ak Hk Bk uk zk Qk Rk hs hA hH hB hu hz hQ hR
    simp only [onesT, constT, dataZ, checkNoneAndBroadcast, NDArray.fullLikeNan, NDArray.rows,
      List.getElem?_map, List.map_replicate] at hs hA hH hB hu hz hQ hR
    rw [Option.map_eq_some_iff] at hs hz
    obtain ⟨z, hz1, rfl⟩ := hs
    obtain ⟨z', hz2, rfl⟩ := hz
    rw [hz1] at hz2
    obtain rfl : z = z' := by simpa using hz2
    obtain rfl := List.eq_of_mem_replicate (List.mem_of_getElem? hA)
    obtain rfl := List.eq_of_mem_replicate (List.mem_of_getElem? hH)
    obtain rfl := List.eq_of_mem_replicate (List.mem_of_getElem? hB)
    obtain rfl := List.eq_of_mem_replicate (List.mem_of_getElem? hQ)
    obtain rfl := List.eq_of_mem_replicate (List.mem_of_getElem? hR)
    refine ⟨one1_is _ _ _ rfl, one1_is _ _ _ rfl, .inl ⟨.inl ?_, rfl⟩, .inr ⟨_, z, rfl, rfl⟩,
      .inr ⟨_, q, rfl, rfl⟩, .inr ⟨_, r, rfl, rfl⟩⟩
    simp [one1, Arr.fullLikeNan, Arr.Blank, Arr.nanFill, Backend.nan, Backend.isnan]

/-- The documented call returns the scalar run. -/
theorem ma_returns (dx dp dz : DType) {x0 p q r : ℝ} (hp : 0 ≤ p) (hq : 0 ≤ q) (hr : 0 < r) (zs : List ℝ) :
    ∃ kf kf' states errors, maFilter dx dp x0 p q r zs.length = .ok kf ∧
      (KalmanFilter.filter (dataZ dz zs) none).run kf = (.ok (states, errors), kf') ∧
      states.length = zs.length ∧ errors.length = zs.length ∧ kf'.kalmanGains.length = zs.length ∧
      ∀ (k : ℕ) (a : ℝ × ℝ), (maRun q r x0 p zs)[k]? = some a →
        IsNumber states[k]? a.1 ∧ IsNumber1 errors[k]? a.2 ∧ IsNumber1 kf'.kalmanGains[k]? (a.2 / r) := by
  obtain ⟨kf, h1, hg, h⟩ := ma_represents dx dp dz x0 p q r zs
  obtain ⟨hs, hf⟩ := ma_run hq hr zs x0 p hp
  have hret := h.returns hs
  have hz : (dataZ dz zs).rows.length - (filtered (maBelief x0 p) (zs.map (maStep q r))).length = 0 := by
    rw [filtered_length]; simp [dataZ, NDArray.rows]
  rw [FilterReturns, hz, List.replicate_zero, List.replicate_zero, List.append_nil, List.append_nil, hg,
    List.nil_append, hf, ma_gains hq hr zs x0 p hp] at hret
  refine ⟨kf, _, _, _, h1, hret, by simp [maRun_length], by simp [maRun_length], by simp [maRun_length], ?_⟩
  intro k a ha
  simp only [IsNumber, IsNumber1, List.getElem?_map, ha, Option.map_some]
  exact ⟨rfl, rfl, rfl⟩

end

/-! ## C40 -/

theorem maRun_closed {r : ℝ} (hr : 0 < r) (zs : List ℝ) (x p : ℝ) (hp : 0 < p) (k : ℕ) (hk : k < zs.length) :
    (maRun 0 r x p zs)[k]? =
      some ((x / p + (zs.take (k + 1)).sum / r) / (1 / p + (k + 1) / r), 1 / (1 / p + (k + 1) / r)) := by
  induction zs generalizing x p k with
  | nil => simp at hk
  | cons z zs ih =>
    have hc : 0 < maCov 0 r p := by unfold maCov; positivity
    cases k with
    | zero =>
      simp only [maRun, List.getElem?_cons_zero, Option.some.injEq, Prod.mk.injEq, maGain, maCov]
      constructor
      · simp; field_simp; ring
      · simp; field_simp; ring
    | succ k =>
      simp only [maRun, List.getElem?_cons_succ]
      rw [ih _ _ hc k (by simpa using hk)]
      have e1 : 1 / maCov 0 r p = 1 / p + 1 / r := by unfold maCov; field_simp; ring
      have e2 : (x + maGain 0 r p * (z - x)) / maCov 0 r p = x / p + z / r := by
        unfold maCov maGain; field_simp; ring
      have e3 : 1 / maCov 0 r p + ((k : ℝ) + 1) / r = 1 / p + (((k + 1 : ℕ) : ℝ) + 1) / r := by
        rw [e1]; push_cast; ring
      have e4 : (x + maGain 0 r p * (z - x)) / maCov 0 r p + (zs.take (k + 1)).sum / r =
          x / p + ((z :: zs).take (k + 1 + 1)).sum / r := by
        rw [e2, List.take_succ_cons, List.sum_cons]; ring
      rw [e3, e4]

theorem maRun_between {q r : ℝ} (hq : 0 ≤ q) (hr : 0 < r) {lo hi : ℝ} (zs : List ℝ) (x p : ℝ) (hp : 0 ≤ p)
    (hx : lo ≤ x ∧ x ≤ hi) (hz : ∀ z ∈ zs, lo ≤ z ∧ z ≤ hi) : ∀ a ∈ maRun q r x p zs, lo ≤ a.1 ∧ a.1 ≤ hi := by
  induction zs generalizing x p with
  | nil => simp [maRun]
  | cons z zs ih =>
    obtain ⟨g0, g1⟩ := maGain_mem hq hr hp
    have hzz := hz z (by simp)
    have hx' : lo ≤ x + maGain q r p * (z - x) ∧ x + maGain q r p * (z - x) ≤ hi := by
      constructor <;> nlinarith
    intro a ha
    simp only [maRun, List.mem_cons] at ha
    rcases ha with rfl | ha
    · exact hx'
    · exact ih _ _ (maCov_nonneg hq hr hp) hx' (fun z hz' => hz z (by simp [hz'])) a ha

theorem maRun_step {q r : ℝ} (zs : List ℝ) (x p : ℝ) (k : ℕ) (a b : ℝ × ℝ) (z : ℝ)
    (ha : (maRun q r x p zs)[k]? = some a) (hb : (maRun q r x p zs)[k + 1]? = some b)
    (hz : zs[k + 1]? = some z) :
    b.1 = a.1 + maGain q r a.2 * (z - a.1) ∧ b.2 = maCov q r a.2 := by
  induction zs generalizing x p k with
  | nil => simp at hz
  | cons z0 zs ih =>
    cases k with
    | zero =>
      cases zs with
      | nil => simp at hz
      | cons z1 zs =>
        simp only [maRun, List.getElem?_cons_zero, List.getElem?_cons_succ, Option.some.injEq] at ha hb hz
        subst ha hb hz
        exact ⟨rfl, rfl⟩
    | succ k =>
      simp only [maRun, List.getElem?_cons_succ] at ha hb hz
      exact ih _ _ k ha hb hz

theorem maRun_get {q r : ℝ} (zs : List ℝ) (x p : ℝ) (k : ℕ) (hk : k < zs.length) :
    ∃ a, (maRun q r x p zs)[k]? = some a := by
  rw [← maRun_length q r zs x p] at hk
  exact ⟨_, List.getElem?_eq_getElem hk⟩

theorem maRun_nonneg {q r : ℝ} (hq : 0 ≤ q) (hr : 0 < r) (zs : List ℝ) (x p : ℝ) (hp : 0 ≤ p) :
    ∀ a ∈ maRun q r x p zs, 0 ≤ a.2 := by
  induction zs generalizing x p with
  | nil => simp [maRun]
  | cons z zs ih =>
    have hc := maCov_nonneg hq hr hp
    intro a ha
    simp only [maRun, List.mem_cons] at ha
    rcases ha with rfl | ha
    · exact hc
    · exact ih _ _ hc a ha

variable [Platform]

/-- C40: in the documented moving-average set-up with no process noise (`q = 0`), the constructor and `filter`
succeed and, for every data array, state `k` is the precision-weighted mean of the initial guess and the first
`k + 1` observations, with the matching variance. -/
theorem C40_precision_weighted_mean (dx dp dz : DType) {x0 p r : ℝ} (hp : 0 < p) (hr : 0 < r) (zs : List ℝ) :
    ∃ kf kf' states errors, maFilter dx dp x0 p 0 r zs.length = .ok kf ∧
      (KalmanFilter.filter (dataZ dz zs) none).run kf = (.ok (states, errors), kf') ∧
      states.length = zs.length ∧ errors.length = zs.length ∧
      ∀ k < zs.length,
        IsNumber states[k]? ((x0 / p + (zs.take (k + 1)).sum / r) / (1 / p + (k + 1) / r)) ∧
        IsNumber1 errors[k]? (1 / (1 / p + (k + 1) / r)) := by
  obtain ⟨kf, kf', st, er, h1, h2, h3, h4, -, h5⟩ := ma_returns dx dp dz (x0 := x0) hp.le le_rfl hr zs
  refine ⟨kf, kf', st, er, h1, h2, h3, h4, fun k hk => ?_⟩
  obtain ⟨h6, h7, -⟩ := h5 k _ (maRun_closed hr zs x0 p hp k hk)
  exact ⟨h6, h7⟩

/-- C40, any process noise: the states stay between any bounds of the initial guess and the data, every gain
lies in `[0, 1)`, and consecutive states satisfy `x_{k+1} = (1 - K_{k+1}) x_k + K_{k+1} z_{k+1}` with the recorded
gain (an exponentially weighted moving average whose weight is the gain, as the documentation says). -/
theorem C40_weighted_average (dx dp dz : DType) {x0 p q r : ℝ} (hp : 0 ≤ p) (hq : 0 ≤ q) (hr : 0 < r)
    (zs : List ℝ) {lo hi : ℝ} (hx : lo ≤ x0 ∧ x0 ≤ hi) (hz : ∀ z ∈ zs, lo ≤ z ∧ z ≤ hi) :
    ∃ kf kf' states errors, maFilter dx dp x0 p q r zs.length = .ok kf ∧
      (KalmanFilter.filter (dataZ dz zs) none).run kf = (.ok (states, errors), kf') ∧
      states.length = zs.length ∧
      (∀ k < zs.length, ∃ x K, IsNumber states[k]? x ∧ IsNumber1 kf'.kalmanGains[k]? K ∧ lo ≤ x ∧ x ≤ hi ∧
        0 ≤ K ∧ K < 1) ∧
      ∀ (k : ℕ) (z : ℝ), zs[k + 1]? = some z → ∃ x x' K, IsNumber states[k]? x ∧ IsNumber states[k + 1]? x' ∧
        IsNumber1 kf'.kalmanGains[k + 1]? K ∧ x' = (1 - K) * x + K * z := by
  obtain ⟨kf, kf', st, er, h1, h2, h3, h4, -, h5⟩ := ma_returns dx dp dz (x0 := x0) hp hq hr zs
  refine ⟨kf, kf', st, er, h1, h2, h3, fun k hk => ?_, fun k z hz' => ?_⟩
  · obtain ⟨a, ha⟩ := maRun_get (q := q) (r := r) zs x0 p k hk
    obtain ⟨h6, -, h8⟩ := h5 k a ha
    have hm := List.mem_of_getElem? ha
    obtain ⟨h9, h10⟩ := maRun_between hq hr zs x0 p hp hx hz a hm
    refine ⟨a.1, a.2 / r, h6, h8, h9, h10, ?_⟩
    have key : ∀ (zs : List ℝ) (x p : ℝ), 0 ≤ p → ∀ a ∈ maRun q r x p zs, 0 ≤ a.2 ∧ a.2 < r := by
      intro zs
      induction zs with
      | nil => simp [maRun]
      | cons z zs ih =>
        intro x p hp a ha
        simp only [maRun, List.mem_cons] at ha
        rcases ha with rfl | ha
        · refine ⟨maCov_nonneg hq hr hp, ?_⟩
          show maCov q r p < r
          unfold maCov
          rw [div_lt_iff₀ (by positivity)]
          nlinarith
        · exact ih _ _ (maCov_nonneg hq hr hp) a ha
    obtain ⟨k1, k2⟩ := key zs x0 p hp a hm
    exact ⟨div_nonneg k1 hr.le, by rw [div_lt_one hr]; exact k2⟩
  · have hk : k + 1 < zs.length := (List.getElem?_eq_some_iff.1 hz').1
    obtain ⟨a, ha⟩ := maRun_get (q := q) (r := r) zs x0 p k (by omega)
    obtain ⟨b, hb⟩ := maRun_get (q := q) (r := r) zs x0 p (k + 1) hk
    obtain ⟨h6, -, -⟩ := h5 k a ha
    obtain ⟨h7, -, h8⟩ := h5 (k + 1) b hb
    obtain ⟨e1, e2⟩ := maRun_step zs x0 p k a b z ha hb hz'
    refine ⟨a.1, b.1, b.2 / r, h6, h7, h8, ?_⟩
    have hpos := maRun_nonneg hq hr zs x0 p hp a (List.mem_of_getElem? ha)
    rw [e1, e2]
    unfold maCov maGain
    field_simp
    ring

-- C40: a concrete run has data strictly between the bounds, and the theorem's conclusion is about a real call.
example : (0 : ℝ) ≤ 1 ∧ (1 : ℝ) ≤ 5 ∧ ∀ z ∈ [(2 : ℝ), 3, 4], 0 ≤ z ∧ z ≤ 5 := by
  refine ⟨by norm_num, by norm_num, ?_⟩
  intro z hz
  simp only [List.mem_cons, List.not_mem_nil, or_false] at hz
  rcases hz with rfl | rfl | rfl <;> norm_num

/-! ## C54 -/

/-- Positive root of `p² + q p - q r = 0`. -/
noncomputable def maSteady (q r : ℝ) : ℝ := (-q + Real.sqrt (q ^ 2 + 4 * q * r)) / 2

theorem maSteady_root {q r : ℝ} (hq : 0 < q) (hr : 0 < r) :
    maSteady q r ^ 2 + q * maSteady q r - q * r = 0 ∧ 0 < maSteady q r := by
  have h : 0 ≤ q ^ 2 + 4 * q * r := by positivity
  have hs := Real.sq_sqrt h
  refine ⟨by unfold maSteady; nlinarith, ?_⟩
  have : q < Real.sqrt (q ^ 2 + 4 * q * r) := by
    apply Real.lt_sqrt_of_sq_lt
    nlinarith [mul_pos hq hr]
  unfold maSteady; linarith

theorem maSteady_fixed {q r : ℝ} (hq : 0 < q) (hr : 0 < r) : maCov q r (maSteady q r) = maSteady q r := by
  obtain ⟨h1, h2⟩ := maSteady_root hq hr
  unfold maCov
  rw [div_eq_iff (by positivity)]
  nlinarith

theorem maCov_contract {q r : ℝ} (hq : 0 < q) (hr : 0 < r) {a b : ℝ} (ha : 0 ≤ a) (hb : 0 ≤ b) :
    |maCov q r a - maCov q r b| ≤ (r / (q + r)) ^ 2 * |a - b| := by
  have e : maCov q r a - maCov q r b = (r / (a + q + r)) * (r / (b + q + r)) * (a - b) := by
    unfold maCov; field_simp; ring
  rw [e, abs_mul, abs_of_nonneg (by positivity)]
  refine mul_le_mul_of_nonneg_right ?_ (abs_nonneg _)
  rw [pow_two]
  refine mul_le_mul ?_ ?_ (by positivity) (by positivity)
  · exact div_le_div_of_nonneg_left hr.le (by positivity) (by linarith)
  · exact div_le_div_of_nonneg_left hr.le (by positivity) (by linarith)

theorem maRun_steady {q r : ℝ} (hq : 0 < q) (hr : 0 < r) (zs : List ℝ) (x p : ℝ) (hp : 0 ≤ p) (k : ℕ)
    (a : ℝ × ℝ) (ha : (maRun q r x p zs)[k]? = some a) :
    |a.2 - maSteady q r| ≤ ((r / (q + r)) ^ 2) ^ (k + 1) * |p - maSteady q r| := by
  induction zs generalizing x p k with
  | nil => simp [maRun] at ha
  | cons z zs ih =>
    have hs := (maSteady_root hq hr).2
    have h1 := maCov_contract hq hr hp hs.le
    rw [maSteady_fixed hq hr] at h1
    cases k with
    | zero =>
      simp only [maRun, List.getElem?_cons_zero, Option.some.injEq] at ha
      subst ha
      simpa using h1
    | succ k =>
      simp only [maRun, List.getElem?_cons_succ] at ha
      refine (ih _ _ (maCov_nonneg hq.le hr hp) k ha).trans ?_
      rw [pow_succ _ (k + 1), mul_assoc]
      exact mul_le_mul_of_nonneg_left h1 (by positivity)

theorem maRun_forget {q r : ℝ} (hq : 0 < q) (hr : 0 < r) (zs : List ℝ) (x x' p : ℝ) (hp : 0 ≤ p) (k : ℕ)
    (a a' : ℝ × ℝ) (ha : (maRun q r x p zs)[k]? = some a) (ha' : (maRun q r x' p zs)[k]? = some a') :
    |a.1 - a'.1| ≤ (r / (q + r)) ^ (k + 1) * |x - x'| := by
  induction zs generalizing x x' p k with
  | nil => simp [maRun] at ha
  | cons z zs ih =>
    have e : x + maGain q r p * (z - x) - (x' + maGain q r p * (z - x')) = r / (p + q + r) * (x - x') := by
      unfold maGain; field_simp; ring
    have h1 : |x + maGain q r p * (z - x) - (x' + maGain q r p * (z - x'))| ≤ r / (q + r) * |x - x'| := by
      rw [e, abs_mul, abs_of_nonneg (by positivity)]
      exact mul_le_mul_of_nonneg_right (div_le_div_of_nonneg_left hr.le (by positivity) (by linarith))
        (abs_nonneg _)
    cases k with
    | zero =>
      simp only [maRun, List.getElem?_cons_zero, Option.some.injEq] at ha ha'
      subst ha ha'
      simpa using h1
    | succ k =>
      simp only [maRun, List.getElem?_cons_succ] at ha ha'
      refine (ih _ _ _ (maCov_nonneg hq.le hr hp) k ha ha').trans ?_
      rw [pow_succ _ (k + 1), mul_assoc]
      exact mul_le_mul_of_nonneg_left h1 (by positivity)

/-- C54: in the moving-average set-up with `q, r > 0` there are a positive root `P∞` of the Riccati equation
`P∞ = (P∞ + q) r / (P∞ + q + r)` and a rate `ρ < 1` such that, for every initial mean, every initial variance
`p >= 0` and every data array, the variance of step `k` is within `ρ^(2(k+1)) |p - P∞|` of `P∞`, the gain of step `k`
within the same distance (over `r`) of `P∞ / r`, and runs on the same data from two initial means differ at step
`k` by at most `ρ^(k+1)` times the initial difference. -/
theorem C54_steady_state {q r : ℝ} (hq : 0 < q) (hr : 0 < r) :
    ∃ Pinf ρ : ℝ, 0 < Pinf ∧ Pinf = (Pinf + q) * r / (Pinf + q + r) ∧ 0 ≤ ρ ∧ ρ < 1 ∧
      ∀ (dx dp dz : DType) (x0 x0' p : ℝ) (zs : List ℝ), 0 ≤ p →
        ∃ kf₁ kf₁' states errors kf₂ kf₂' states' errors',
          maFilter dx dp x0 p q r zs.length = .ok kf₁ ∧
          (KalmanFilter.filter (dataZ dz zs) none).run kf₁ = (.ok (states, errors), kf₁') ∧
          maFilter dx dp x0' p q r zs.length = .ok kf₂ ∧
          (KalmanFilter.filter (dataZ dz zs) none).run kf₂ = (.ok (states', errors'), kf₂') ∧
          ∀ k < zs.length, ∃ x x' P K, IsNumber states[k]? x ∧ IsNumber states'[k]? x' ∧
            IsNumber1 errors[k]? P ∧ IsNumber1 kf₁'.kalmanGains[k]? K ∧
            |P - Pinf| ≤ (ρ ^ 2) ^ (k + 1) * |p - Pinf| ∧
            |K - Pinf / r| ≤ (ρ ^ 2) ^ (k + 1) * |p - Pinf| / r ∧
            |x - x'| ≤ ρ ^ (k + 1) * |x0 - x0'| := by
  refine ⟨maSteady q r, r / (q + r), (maSteady_root hq hr).2, (maSteady_fixed hq hr).symm, by positivity, ?_, ?_⟩
  · rw [div_lt_one (by positivity)]; linarith
  intro dx dp dz x0 x0' p zs hp
  obtain ⟨kf, kf', st, er, h1, h2, -, -, -, h5⟩ := ma_returns dx dp dz (x0 := x0) hp hq.le hr zs
  obtain ⟨lf, lf', st', er', l1, l2, -, -, -, l5⟩ := ma_returns dx dp dz (x0 := x0') hp hq.le hr zs
  refine ⟨kf, kf', st, er, lf, lf', st', er', h1, h2, l1, l2, fun k hk => ?_⟩
  obtain ⟨a, ha⟩ := maRun_get (q := q) (r := r) zs x0 p k hk
  obtain ⟨b, hb⟩ := maRun_get (q := q) (r := r) zs x0' p k hk
  obtain ⟨i1, i2, i3⟩ := h5 k a ha
  have hs := maRun_steady hq hr zs x0 p hp k a ha
  refine ⟨a.1, b.1, a.2, a.2 / r, i1, (l5 k b hb).1, i2, i3, hs, ?_, maRun_forget hq hr zs x0 x0' p hp k a b ha hb⟩
  rw [← sub_div, abs_div, abs_of_pos hr]
  exact div_le_div_of_nonneg_right hs hr.le

-- C54: the values of the example in the repository.
example : (0 : ℝ) < 0.005 ∧ (0 : ℝ) < 0.01 ∧ (0 : ℝ) ≤ 1 := by norm_num

end KK
