import Verif.Props.ExpSmooth

/-!
# C175: the smoothed moving average is a weighted average: ordered data give ordered results, and nothing overshoots
-/

set_option linter.unusedSectionVars false

namespace KK

open Matrix

/-- The smoothed mean of the present time, from the filtered mean `x` and variance `p` and the later data. -/
noncomputable def smx (q r : ℝ) : ℝ → ℝ → List ℝ → ℝ
  | x, _, [] => x
  | x, p, z :: zs => x + p / (p + q) * (smx q r (x + maGain q r p * (z - x)) (maCov q r p) zs - x)

/-- The smoothed variance of the present time, `t` steps before the end. -/
noncomputable def smp (q r : ℝ) : ℝ → ℕ → ℝ
  | p, 0 => p
  | p, t + 1 => p + p / (p + q) * (smp q r (maCov q r p) t - (p + q)) * (p / (p + q))

/-- The smoothed means and variances of all times. -/
noncomputable def maSm (q r : ℝ) : ℝ → ℝ → List ℝ → List (ℝ × ℝ)
  | x, p, [] => [(x, p)]
  | x, p, z :: zs => (smx q r x p (z :: zs), smp q r p (zs.length + 1)) ::
      maSm q r (x + maGain q r p * (z - x)) (maCov q r p) zs

theorem ma_rtsStep {q r z x p s v : ℝ} (h : p + q ≠ 0) : rtsStep (maBelief x p) (maStep q r z) (maBelief s v) =
    maBelief (x + p / (p + q) * (s - x)) (p + p / (p + q) * (v - (p + q)) * (p / (p + q))) := by
  have hpr : ((maStep q r z).predict (maBelief x p)) = maBelief x (p + q) := by
    ext i j
    · simp [LinStep.predict, maStep, maBelief]
    · simp [LinStep.predict, maStep, maBelief, priorCov]
  have hG : (maBelief x p).P * (maStep q r z).Aᵀ * (m1 (p + q))⁻¹ = m1 (p / (p + q)) := by
    rw [m1_inv h, show (maStep q r z).Aᵀ = (1 : Matrix (Fin 1) (Fin 1) ℝ) from Matrix.transpose_one, Matrix.mul_one,
      show (maBelief x p).P = m1 p from rfl, m1_mul, div_eq_mul_inv]
  simp only [rtsStep, hpr]
  rw [show (maBelief x (p + q)).P = m1 (p + q) from rfl, hG, m1_transpose,
    show (maBelief s v).P - m1 (p + q) = m1 (v - (p + q)) from rfl, m1_mul, m1_mul,
    show (maBelief s v).x - (maBelief x (p + q)).x = fun _ => s - x from rfl, m1_mulVec]
  rfl

theorem ma_front {q r : ℝ} (hq : 0 < q) (hr : 0 < r) (zs : List ℝ) (x p : ℝ) (hp : 0 ≤ p) :
    front (maBelief x p) (zs.map (maStep q r)) = maBelief (smx q r x p zs) (smp q r p zs.length) := by
  induction zs generalizing x p with
  | nil => rfl
  | cons z zs ih =>
    have hne : p + q + r ≠ 0 := by positivity
    rw [List.map_cons, front, ma_next hne, ih _ _ (maCov_nonneg hq.le hr hp), ma_rtsStep (by positivity)]
    rfl

theorem ma_rts {q r : ℝ} (hq : 0 < q) (hr : 0 < r) (zs : List ℝ) (x p : ℝ) (hp : 0 ≤ p) :
    rts (maBelief x p) (zs.map (maStep q r)) = (maSm q r x p zs).map fun a => maBelief a.1 a.2 := by
  induction zs generalizing x p with
  | nil => rfl
  | cons z zs ih =>
    have hne : p + q + r ≠ 0 := by positivity
    obtain ⟨qs, h⟩ := rts_front (maBelief x p) ((z :: zs).map (maStep q r))
    have h2 := ih (x + maGain q r p * (z - x)) (maCov q r p) (maCov_nonneg hq.le hr hp)
    obtain ⟨qs', h3⟩ := rts_front ((maStep q r z).next (maBelief x p)) (zs.map (maStep q r))
    rw [← ma_next (z := z) (x := x) hne, h3] at h2
    have h4 : rts (maBelief x p) ((z :: zs).map (maStep q r)) =
        front (maBelief x p) ((z :: zs).map (maStep q r)) :: (front ((maStep q r z).next (maBelief x p)) (zs.map (maStep q r)) :: qs') := by
      rw [List.map_cons, rts, h3]; rfl
    rw [h4, h2, ma_front hq hr _ _ _ hp, maSm]
    rfl

theorem maSm_length (q r : ℝ) (zs : List ℝ) (x p : ℝ) : (maSm q r x p zs).length = zs.length + 1 := by
  induction zs generalizing x p with
  | nil => rfl
  | cons z zs ih => simp [maSm, ih]

theorem smx_mono {q r : ℝ} (hq : 0 < q) (hr : 0 < r) {zs ws : List ℝ} (h : List.Forall₂ (· ≤ ·) zs ws) {x y p : ℝ} (hp : 0 ≤ p)
    (hxy : x ≤ y) : smx q r x p zs ≤ smx q r y p ws := by
  induction h generalizing x y p with
  | nil => exact hxy
  | @cons z w zs ws h1 h2 ih =>
    obtain ⟨k0, k1⟩ := maGain_mem hq.le hr hp
    have e := ih (x := x + maGain q r p * (z - x)) (y := y + maGain q r p * (w - y)) (maCov_nonneg hq.le hr hp) (by
      nlinarith [mul_le_mul_of_nonneg_left h1 k0, mul_le_mul_of_nonneg_left hxy (sub_nonneg.2 k1.le)])
    have g0 : 0 ≤ p / (p + q) := by positivity
    have g1 : p / (p + q) ≤ 1 := (div_le_one (by positivity)).2 (by linarith)
    rw [smx, smx]
    nlinarith [mul_le_mul_of_nonneg_left e g0, mul_le_mul_of_nonneg_left hxy (sub_nonneg.2 g1)]

theorem maSm_mono {q r : ℝ} (hq : 0 < q) (hr : 0 < r) {zs ws : List ℝ} (h : List.Forall₂ (· ≤ ·) zs ws) {x y p : ℝ} (hp : 0 ≤ p)
    (hxy : x ≤ y) : List.Forall₂ (fun a b => a.1 ≤ b.1 ∧ a.2 = b.2) (maSm q r x p zs) (maSm q r y p ws) := by
  induction h generalizing x y p with
  | nil => exact .cons ⟨hxy, rfl⟩ .nil
  | @cons z w zs ws h1 h2 ih =>
    obtain ⟨k0, k1⟩ := maGain_mem hq.le hr hp
    refine .cons ⟨smx_mono hq hr (.cons h1 h2) hp hxy, by rw [h2.length_eq]⟩ (ih (maCov_nonneg hq.le hr hp) ?_)
    nlinarith [mul_le_mul_of_nonneg_left h1 k0, mul_le_mul_of_nonneg_left hxy (sub_nonneg.2 k1.le)]

theorem smx_const (q r c : ℝ) (p : ℝ) (t : ℕ) : smx q r c p (List.replicate t c) = c := by
  induction t generalizing p with
  | zero => rfl
  | succ t ih => rw [List.replicate_succ, smx, sub_self, mul_zero, add_zero, ih, sub_self, mul_zero, add_zero]

theorem maSm_const (q r c : ℝ) (p : ℝ) (t : ℕ) : ∀ a ∈ maSm q r c p (List.replicate t c), a.1 = c := by
  induction t generalizing p with
  | zero => intro a ha; rw [List.replicate_zero, maSm, List.mem_singleton] at ha; rw [ha]
  | succ t ih =>
    intro a ha
    rw [List.replicate_succ, maSm, List.mem_cons, ← List.replicate_succ, smx_const] at ha
    rcases ha with rfl | ha
    · rfl
    · rw [sub_self, mul_zero, add_zero] at ha; exact ih _ a ha

theorem maCov_le {q r p : ℝ} (hq : 0 < q) (hr : 0 < r) (hp : 0 ≤ p) : maCov q r p ≤ r ∧ maCov q r p ≤ p + q := by
  unfold maCov
  constructor
  · rw [div_le_iff₀ (by positivity)]; nlinarith
  · rw [div_le_iff₀ (by positivity)]; nlinarith [sq_nonneg (p + q)]

theorem smp_mem {q r : ℝ} (hq : 0 < q) (hr : 0 < r) (t : ℕ) {p : ℝ} (hp : 0 ≤ p) : 0 ≤ smp q r p t ∧ smp q r p t ≤ p := by
  induction t generalizing p with
  | zero => exact ⟨hp, le_refl _⟩
  | succ t ih =>
    obtain ⟨i0, i1⟩ := ih (maCov_nonneg hq.le hr hp)
    have i2 := (maCov_le hq hr hp).2
    have g0 : 0 ≤ p / (p + q) := by positivity
    have g1 : p / (p + q) * (p + q) = p := div_mul_cancel₀ _ (by positivity)
    have g2 : p / (p + q) ≤ 1 := (div_le_one (by positivity)).2 (by linarith)
    have e : smp q r p (t + 1) = p + p / (p + q) * (smp q r (maCov q r p) t - (p + q)) * (p / (p + q)) := rfl
    generalize p / (p + q) = g at e g0 g1 g2
    generalize smp q r (maCov q r p) t = v at *
    rw [e]
    constructor
    · nlinarith [mul_nonneg (mul_nonneg g0 g0) i0, mul_le_mul_of_nonneg_left g2 hp]
    · nlinarith [mul_nonneg (mul_nonneg g0 g0) (show 0 ≤ p + q - v by linarith)]

theorem maSm_var {q r : ℝ} (hq : 0 < q) (hr : 0 < r) (zs : List ℝ) (x p : ℝ) (hp : 0 ≤ p) (hpr : p ≤ r) :
    ∀ a ∈ maSm q r x p zs, 0 ≤ a.2 ∧ a.2 ≤ r := by
  induction zs generalizing x p with
  | nil => intro a ha; rw [maSm, List.mem_singleton] at ha; rw [ha]; exact ⟨hp, hpr⟩
  | cons z zs ih =>
    intro a ha
    rw [maSm, List.mem_cons] at ha
    rcases ha with rfl | ha
    · exact ⟨(smp_mem hq hr _ hp).1, (smp_mem hq hr _ hp).2.trans hpr⟩
    · exact ih _ _ (maCov_nonneg hq.le hr hp) (maCov_le hq hr hp).1 a ha

section
variable [Platform]

/-- What a call of `smooth` on the moving average returns. -/
theorem ma_smooth {p q r : ℝ} (hp : 0 ≤ p) (hq : 0 < q) (hr : 0 < r) (dx dp dz : DType) (x0 z : ℝ) (zs : List ℝ) :
    ∃ kf kf' states errors, maFilter dx dp x0 p q r (z :: zs).length = .ok kf ∧
      (KalmanFilter.smooth (dataZ dz (z :: zs)) none).run kf = (.ok (states, errors), kf') ∧
      states.length = (z :: zs).length ∧ errors.length = (z :: zs).length ∧
      ∀ (k : ℕ) (a : ℝ × ℝ), (maSm q r (x0 + maGain q r p * (z - x0)) (maCov q r p) zs)[k]? = some a →
        IsNumber states[k]? a.1 ∧ IsNumber1 errors[k]? a.2 := by
  obtain ⟨kf, hk1, -, hrep⟩ := ma_represents dx dp dz x0 p q r (z :: zs)
  have hl : ((z :: zs).map (maStep q r)).length = (dataZ dz (z :: zs)).rows.length := by simp [dataZ, NDArray.rows]
  have hs1 : Solvable (maBelief x0 p) ((z :: zs).map (maStep q r)) := (ma_run hq.le hr (z :: zs) x0 p hp).1
  have hsm : SmoothSolvable (maBelief x0 p) ((z :: zs).map (maStep q r)) := smoothSolvable_noise _ _ (m1_psd hp) fun s hs => by
    obtain ⟨z, -, rfl⟩ := List.mem_map.1 hs
    exact ⟨m1_posDef hq, m1_posDef hr⟩
  have hne : p + q + r ≠ 0 := by positivity
  have e : smoothed (maBelief x0 p) ((z :: zs).map (maStep q r)) =
      (maSm q r (x0 + maGain q r p * (z - x0)) (maCov q r p) zs).map fun a => maBelief a.1 a.2 := by
    rw [List.map_cons, smoothed, ma_next hne, ma_rts hq hr _ _ _ (maCov_nonneg hq.le hr hp)]
  refine ⟨kf, _, _, _, hk1, hrep.smoothReturns hl (by simp) hs1 hsm, by simp [smoothed_length], by simp [smoothed_length],
    fun k a ha => ?_⟩
  rw [e]
  simp only [IsNumber, IsNumber1, List.getElem?_map, ha, Option.map_some]
  exact ⟨rfl, rfl⟩

theorem order_step {q r p : ℝ} (hq : 0 < q) (hr : 0 < r) (hp : 0 ≤ p) {x y z w : ℝ} (hxy : x ≤ y) (hzw : z ≤ w) :
    x + maGain q r p * (z - x) ≤ y + maGain q r p * (w - y) := by
  obtain ⟨k0, k1⟩ := maGain_mem hq.le hr hp
  nlinarith [mul_le_mul_of_nonneg_left hzw k0, mul_le_mul_of_nonneg_left hxy (sub_nonneg.2 k1.le)]

/-- **C175**: the moving average of the documentation (`A = H = 1`, `Q = q > 0`, `R = r > 0`, any `Pk = p ≥ 0`), smoothed. Two
calls of `smooth`, the second with data and initial guess that are nowhere smaller, both return; no smoothed state of the second is
smaller than that of the first, and the variances are the same. -/
theorem C175_order {p q r : ℝ} (hp : 0 ≤ p) (hq : 0 < q) (hr : 0 < r) (dx dp dz dx' dp' dz' : DType) (x0 y0 : ℝ) (zs ws : List ℝ)
    (hne : zs ≠ []) (hxy : x0 ≤ y0) (hzw : List.Forall₂ (· ≤ ·) zs ws) :
    ∃ kf kf' states errors lf lf' states' errors', maFilter dx dp x0 p q r zs.length = .ok kf ∧
      maFilter dx' dp' y0 p q r ws.length = .ok lf ∧
      (KalmanFilter.smooth (dataZ dz zs) none).run kf = (.ok (states, errors), kf') ∧
      (KalmanFilter.smooth (dataZ dz' ws) none).run lf = (.ok (states', errors'), lf') ∧
      states.length = zs.length ∧ states'.length = zs.length ∧ errors.length = zs.length ∧ errors'.length = zs.length ∧
      ∀ k < zs.length, ∃ x y v, IsNumber states[k]? x ∧ IsNumber states'[k]? y ∧ x ≤ y ∧
        IsNumber1 errors[k]? v ∧ IsNumber1 errors'[k]? v := by
  obtain _ | ⟨hzw1, hzw2⟩ := hzw
  · exact absurd rfl hne
  rename_i z w zs ws
  obtain ⟨kf, kf', st, er, a1, a2, a3, a4, a5⟩ := ma_smooth hp hq hr dx dp dz x0 z zs
  obtain ⟨lf, lf', st', er', b1, b2, b3, b4, b5⟩ := ma_smooth hp hq hr dx' dp' dz' y0 w ws
  have hm := maSm_mono hq hr hzw2 (maCov_nonneg hq.le hr hp) (order_step hq hr hp hxy hzw1)
  have hlen := hzw2.length_eq
  refine ⟨kf, kf', st, er, lf, lf', st', er', a1, b1, a2, b2, a3, by rw [b3]; simp [hlen], a4, by rw [b4]; simp [hlen], fun k hk => ?_⟩
  have l1 : k < (maSm q r (x0 + maGain q r p * (z - x0)) (maCov q r p) zs).length := by rw [maSm_length]; exact hk
  have l2 : k < (maSm q r (y0 + maGain q r p * (w - y0)) (maCov q r p) ws).length := by rw [← hm.length_eq]; exact l1
  have h := hm.get l1 l2
  obtain ⟨c1, c2⟩ := a5 k _ (List.getElem?_eq_getElem l1)
  obtain ⟨d1, d2⟩ := b5 k _ (List.getElem?_eq_getElem l2)
  refine ⟨_, _, _, c1, d1, h.1, c2, ?_⟩
  have h2 : (maSm q r (x0 + maGain q r p * (z - x0)) (maCov q r p) zs)[k].2 =
    (maSm q r (y0 + maGain q r p * (w - y0)) (maCov q r p) ws)[k].2 := h.2
  rw [h2]; exact d2

/-- **C175**: the smoothed states stay between the smallest and the largest of the data and the initial guess, and the
smoothed variances between 0 and `r`. -/
theorem C175_no_overshoot {p q r : ℝ} (hp : 0 ≤ p) (hq : 0 < q) (hr : 0 < r) (dx dp dz : DType) (x0 lo hi : ℝ) (zs : List ℝ)
    (hne : zs ≠ []) (hx : lo ≤ x0 ∧ x0 ≤ hi) (hz : ∀ z ∈ zs, lo ≤ z ∧ z ≤ hi) :
    ∃ kf kf' states errors, maFilter dx dp x0 p q r zs.length = .ok kf ∧
      (KalmanFilter.smooth (dataZ dz zs) none).run kf = (.ok (states, errors), kf') ∧
      states.length = zs.length ∧ errors.length = zs.length ∧
      ∀ k < zs.length, ∃ x v, IsNumber states[k]? x ∧ lo ≤ x ∧ x ≤ hi ∧ IsNumber1 errors[k]? v ∧ 0 ≤ v ∧ v ≤ r := by
  obtain _ | ⟨z, zs⟩ := zs
  · exact absurd rfl hne
  obtain ⟨kf, kf', st, er, a1, a2, a3, a4, a5⟩ := ma_smooth hp hq hr dx dp dz x0 z zs
  have hz0 := hz z (by simp)
  have f1 : List.Forall₂ (· ≤ ·) (List.replicate zs.length lo) zs := by
    have : ∀ z ∈ zs, lo ≤ z := fun z h => (hz z (by simp [h])).1
    clear hz a1 a2 a3 a4 a5 hne
    induction zs with
    | nil => exact .nil
    | cons y ys ih => exact .cons (this y (by simp)) (ih fun z h => this z (by simp [h]))
  have f2 : List.Forall₂ (· ≤ ·) zs (List.replicate zs.length hi) := by
    have : ∀ z ∈ zs, z ≤ hi := fun z h => (hz z (by simp [h])).2
    clear hz a1 a2 a3 a4 a5 hne f1
    induction zs with
    | nil => exact .nil
    | cons y ys ih => exact .cons (this y (by simp)) (ih fun z h => this z (by simp [h]))
  have s1 := order_step hq hr hp hx.1 hz0.1
  have s2 := order_step hq hr hp hx.2 hz0.2
  rw [sub_self, mul_zero, add_zero] at s1 s2
  have hc := maCov_nonneg hq.le hr hp
  have m1 := maSm_mono hq hr f1 hc s1
  have m2 := maSm_mono hq hr f2 hc s2
  refine ⟨kf, kf', st, er, a1, a2, a3, a4, fun k hk => ?_⟩
  have l1 : k < (maSm q r (x0 + maGain q r p * (z - x0)) (maCov q r p) zs).length := by rw [maSm_length]; exact hk
  have l2 := m1.length_eq ▸ l1
  have l3 := m2.length_eq ▸ l1
  obtain ⟨c1, c2⟩ := a5 k ((maSm q r (x0 + maGain q r p * (z - x0)) (maCov q r p) zs)[k]) (List.getElem?_eq_getElem l1)
  obtain ⟨v1, v2⟩ := maSm_var hq hr zs _ _ hc (maCov_le hq hr hp).1 _ (List.getElem_mem l1)
  refine ⟨_, _, c1, ?_, ?_, c2, v1, v2⟩
  · have h := (m1.get l2 l1).1
    rwa [show (List.get _ ⟨k, l2⟩).1 = lo from maSm_const q r lo _ _ _ (List.getElem_mem l2)] at h
  · have h := (m2.get l1 l3).1
    rwa [show (List.get _ ⟨k, l3⟩).1 = hi from maSm_const q r hi _ _ _ (List.getElem_mem l3)] at h

end

-- C175: three data, `p = 0`, `q = r = 1`; the second data set is larger in two places.
example : (0 : ℝ) ≤ 0 ∧ (0 : ℝ) < 1 ∧ ([3, 1, 2] : List ℝ) ≠ [] ∧ (0 : ℝ) ≤ 1 ∧ List.Forall₂ (· ≤ ·) ([3, 1, 2] : List ℝ) [4, 1, 5] ∧
    (∀ z ∈ ([3, 1, 2] : List ℝ), (0 : ℝ) ≤ z ∧ z ≤ 3) := by
  refine ⟨le_refl _, by norm_num, by simp, by norm_num, ?_, fun z hz => ?_⟩
  · exact .cons (by norm_num) (.cons (by norm_num) (.cons (by norm_num) .nil))
  · simp only [List.mem_cons, List.not_mem_nil, or_false] at hz
    rcases hz with rfl | rfl | rfl <;> norm_num

end KK
