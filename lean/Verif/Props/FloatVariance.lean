import Verif.Proofs.One
import Verif.Proofs.Back
import Mathlib.Analysis.SpecialFunctions.Pow.Real

/-!
# C131: variances in floating point
-/

set_option linter.unusedSectionVars false

namespace KK

open Matrix

section
variable {fl : ℝ → Fl}

theorem MonotoneRounding.nonneg (h : MonotoneRounding fl) {x r : ℝ} (hx : 0 ≤ x) (hr : fl x = .fin r) : 0 ≤ r := h.mono 0 x 0 r hx h.zero hr
theorem MonotoneRounding.nonpos (h : MonotoneRounding fl) {x r : ℝ} (hx : x ≤ 0) (hr : fl x = .fin r) : r ≤ 0 := h.mono x 0 r 0 hx hr h.zero
theorem MonotoneRounding.le_one (h : MonotoneRounding fl) {x r : ℝ} (hx : x ≤ 1) (hr : fl x = .fin r) : r ≤ 1 := h.mono x 1 r 1 hx hr h.one

theorem fmul_fin {x y : Fl} {r : ℝ} (h : fmul fl x y = .fin r) : ∃ a b, x = .fin a ∧ y = .fin b ∧ fl (a * b) = .fin r := by
  cases x with
  | nan => cases h
  | fin a => cases y with
    | nan => cases h
    | fin b => exact ⟨a, b, rfl, rfl, h⟩
theorem fadd_fin {x y : Fl} {r : ℝ} (h : fadd fl x y = .fin r) : ∃ a b, x = .fin a ∧ y = .fin b ∧ fl (a + b) = .fin r := by
  cases x with
  | nan => cases h
  | fin a => cases y with
    | nan => cases h
    | fin b => exact ⟨a, b, rfl, rfl, h⟩
theorem fsub_fin {x y : Fl} {r : ℝ} (h : fsub fl x y = .fin r) : ∃ a b, x = .fin a ∧ y = .fin b ∧ fl (a - b) = .fin r := by
  cases x with
  | nan => cases h
  | fin a => cases y with
    | nan => cases h
    | fin b => exact ⟨a, b, rfl, rfl, h⟩
theorem fdiv_fin {x y : Fl} {r : ℝ} (h : fdiv fl x y = .fin r) : ∃ a b, x = .fin a ∧ y = .fin b ∧ fl (a / b) = .fin r := by
  cases x with
  | nan => cases h
  | fin a => cases y with
    | nan => cases h
    | fin b => exact ⟨a, b, rfl, rfl, h⟩

/-- A predicted variance is not negative, and is a number of the format. -/
theorem prior_one (h : MonotoneRounding fl) {α p q : Fl} (hp : p.InRange (Set.Ici 0)) (hq : q.InRange (Set.Ici 0)) {r : ℝ}
    (hr : fadd fl (fmul fl α (fmul fl p α)) q = .fin r) : 0 ≤ r ∧ fl r = .fin r := by
  obtain ⟨u, q', h1, rfl, h2⟩ := fadd_fin hr
  obtain ⟨a, w, rfl, h3, h4⟩ := fmul_fin h1
  obtain ⟨p', a', rfl, h5, h6⟩ := fmul_fin h3
  injection h5 with h5
  subst h5
  have hp' : 0 ≤ p' := hp p' rfl
  have hq' : 0 ≤ q' := hq q' rfl
  refine ⟨h.nonneg ?_ h2, h.idem _ _ h2⟩
  have hu : 0 ≤ u := by
    refine h.nonneg ?_ h4
    rcases le_total 0 a with ha | ha
    · exact mul_nonneg ha (h.nonneg (mul_nonneg hp' ha) h6)
    · exact mul_nonneg_of_nonpos_of_nonpos ha (h.nonpos (mul_nonpos_of_nonneg_of_nonpos hp' ha) h6)
  linarith

/-- The gain for `H = 1` is between 0 and 1, -/
theorem gain_range (h : MonotoneRounding fl) {p r : Fl} (hp : ∀ v, p = .fin v → 0 ≤ v ∧ fl v = .fin v) (hr : r.InRange (Set.Ici 0))
    (hs : fadd fl (fmul fl (.fin 1) (fmul fl p (.fin 1))) r ≠ .fin 0) :
    (fdiv fl (fmul fl (.fin 1) p) (fadd fl (fmul fl (.fin 1) (fmul fl p (.fin 1))) r)).InRange (Set.Icc 0 1) := by
  intro k hk
  obtain ⟨t, s, h1, h2, h3⟩ := fdiv_fin hk
  rw [h2] at hs
  obtain ⟨c, r', h4, rfl, h5⟩ := fadd_fin h2
  obtain ⟨o, d, h6, h7, h8⟩ := fmul_fin h4
  injection h6 with h6
  subst h6
  obtain ⟨v, o, rfl, h9, h10⟩ := fmul_fin h7
  injection h9 with h9
  subst h9
  obtain ⟨hv, hfl⟩ := hp v rfl
  rw [mul_one, hfl] at h10
  injection h10 with h10
  subst h10
  rw [one_mul, hfl] at h8
  injection h8 with h8
  subst h8
  have e : fl (1 * v) = .fin t := h1
  rw [one_mul, hfl] at e
  injection e with e
  subst e
  have hr' : 0 ≤ r' := hr r' rfl
  have hvs : v ≤ s := h.mono v (v + r') v s (by linarith) hfl h5
  have hs0 : 0 < s := lt_of_le_of_ne (hv.trans hvs) fun e => hs (by rw [← e])
  exact ⟨h.nonneg (div_nonneg hv hs0.le) h3, h.le_one ((div_le_one hs0).2 hvs) h3⟩

/-- and the updated variance between 0 and the predicted one. -/
theorem post_range (h : MonotoneRounding fl) {p k : Fl} (hp : ∀ v, p = .fin v → 0 ≤ v ∧ fl v = .fin v) (hk : k.InRange (Set.Icc 0 1))
    {w : ℝ} (hw : fmul fl (fsub fl (.fin 1) (fmul fl k (.fin 1))) p = .fin w) : 0 ≤ w ∧ ∃ v, p = .fin v ∧ w ≤ v := by
  obtain ⟨d, v, h1, rfl, h2⟩ := fmul_fin hw
  obtain ⟨o, c, h3, h4, h5⟩ := fsub_fin h1
  injection h3 with h3
  subst h3
  obtain ⟨k', o, rfl, h6, h7⟩ := fmul_fin h4
  injection h6 with h6
  subst h6
  obtain ⟨k0, k1⟩ := hk k' rfl
  obtain ⟨hv, hfl⟩ := hp v rfl
  rw [mul_one] at h7
  have c0 : 0 ≤ c := h.nonneg k0 h7
  have c1 : c ≤ 1 := h.le_one k1 h7
  have d0 : 0 ≤ d := h.nonneg (by linarith) h5
  have d1 : d ≤ 1 := h.le_one (by linarith) h5
  exact ⟨h.nonneg (mul_nonneg d0 hv) h2, v, rfl, h.mono (d * v) v w v (by nlinarith) h2 hfl⟩

end

section
variable {nanInt : ℝ} {a : FloatUnit}

/-- What is kept along the run: the covariance is 1 x 1 and not negative. -/
def OneNonneg (P : Arr Fl) : Prop := ∃ v : Fl, IsOne v P ∧ v.InRange (Set.Ici 0)

theorem trace_one (hv : a.Valid) (hm : MonotoneRounding a.fl) (rs : List (KalmanFilter.Row Fl))
    (hrs : ∀ r ∈ rs, (∃ α, IsOne α r.1) ∧ IsOne (.fin 1) r.2.1 ∧ (∃ q : Fl, IsOneOrScalar q r.2.2.2.2.2.1 ∧ q.InRange (Set.Ici 0)) ∧
      ∃ q : Fl, IsOneOrScalar q r.2.2.2.2.2.2 ∧ q.InRange (Set.Ici 0)) (x P : Arr Fl) (hP : OneNonneg P) :
    (∀ K ∈ (trace (@KalmanFilter.step Fl (floatB nanInt a) 1 (@Arr.identity Fl (floatB nanInt a) 1)) rs x P).gains,
      ∃ k : Fl, IsOne k K ∧ k.InRange (Set.Icc 0 1)) ∧
    ∀ o ∈ (trace (@KalmanFilter.step Fl (floatB nanInt a) 1 (@Arr.identity Fl (floatB nanInt a) 1)) rs x P).outs, OneNonneg o.2 := by
  induction rs generalizing x P with
  | nil => simp [trace]
  | cons r rs ih =>
    obtain ⟨⟨α, hA⟩, hH, ⟨q, hQ, hq⟩, ρ, hR, hρ⟩ := hrs r List.mem_cons_self
    obtain ⟨v, hPv, hv0⟩ := hP
    obtain ⟨Ak, Hk, Bk, uk, zk, Qk, Rk⟩ := r
    simp only [trace, KalmanFilter.step]
    rcases h1 : @KalmanFilter.predict Fl (floatB nanInt a) Ak x (some Bk) (some uk) P Qk with e | ⟨xp, Pp⟩
    · simp
    · simp only
      have hPp := predict_one hv hA hPv hQ h1
      have hpr := fun r => prior_one (r := r) hm (α := α) hv0 hq
      rcases h2 : @KalmanFilter.gain Fl (floatB nanInt a) Hk Pp Rk with e | K
      · simp
      · simp only
        obtain ⟨hs, hK⟩ := gain_one hv hH hPp hR h2
        have hKr := gain_range hm hpr hρ hs
        rcases h3 : @KalmanFilter.correct Fl (floatB nanInt a) (@Arr.identity Fl (floatB nanInt a) 1) K Hk xp Pp zk with e | ⟨x', P'⟩
        · simp only [Except.bind_error', Option.toList, List.mem_singleton, forall_eq, List.not_mem_nil, false_imp_iff, implies_true, and_true]
          exact ⟨_, hK, hKr⟩
        · have hP' := correct_one hv isOne_identity hK hH hPp h3
          have hPr := fun w hw => (post_range (w := w) hm hpr hKr hw).1
          simp only [Except.bind_ok']
          rcases h4 : @Arr.assignVec Fl 1 x' with e | srow
          · simp only [Except.bind_error', Option.toList, List.mem_singleton, forall_eq, List.not_mem_nil, false_imp_iff, implies_true, and_true]
            exact ⟨_, hK, hKr⟩
          · obtain ⟨C, e5, hC⟩ := hP'.assign
            simp only [Except.bind_ok', e5]
            have := ih (fun r hr => hrs r (List.mem_cons_of_mem _ hr)) x' P' ⟨_, hP', hPr⟩
            refine ⟨fun K' hK' => ?_, fun o ho => ?_⟩
            · simp only [Option.toList, List.singleton_append, List.mem_cons] at hK'
              rcases hK' with rfl | hK'
              · exact ⟨_, hK, hKr⟩
              · exact this.1 K' hK'
            · rcases List.mem_cons.1 ho with rfl | ho
              · exact ⟨_, hC, hPr⟩
              · exact this.2 o ho

/-- **C131** (`update`): a scalar state observed directly (`H = 1`), in any arithmetic that rounds every operation to some format: the
gain recorded is between 0 and 1 and the returned variance between 0 and the given one (or NaN).  The given variance `v` must be a number
of the format, as the variances that `predict` returns are. -/
theorem C131_update (hv : a.Valid) (hm : MonotoneRounding a.fl) {kf kf' : KalmanFilter Fl} (hI : kf.I = @Arr.identity Fl (floatB nanInt a) 1)
    {Hk xk Pk zk Rk x' P' : Arr Fl} {v : ℝ} {r : Fl} (hH : IsOne (.fin 1) Hk) (hP : IsOne (.fin v) Pk) (hv0 : 0 ≤ v) (hfl : a.fl v = .fin v)
    (hR : IsOneOrScalar r Rk) (hr : r.InRange (Set.Ici 0))
    (h : (@KalmanFilter.update Fl (floatB nanInt a) Hk xk Pk zk Rk).run kf = (.ok (x', P'), kf')) :
    (∃ K k, kf'.kalmanGains = kf.kalmanGains ++ [K] ∧ IsOne k K ∧ k.InRange (Set.Icc 0 1)) ∧
    ∃ w, IsOne w P' ∧ w.InRange (Set.Icc 0 v) := by
  simp only [KalmanFilter.update, Py.run_bind, Py.run_lift, Py.run_mutate, Py.run_self] at h
  have hp : ∀ w, Fl.fin v = .fin w → 0 ≤ w ∧ a.fl w = .fin w := fun w hw => by injection hw with hw; subst hw; exact ⟨hv0, hfl⟩
  rcases h2 : @KalmanFilter.gain Fl (floatB nanInt a) Hk Pk Rk with e | K
  · rw [h2] at h; injection h with h _; cases h
  · rw [h2] at h
    obtain ⟨hs, hK⟩ := gain_one hv hH hP hR h2
    have hKr := gain_range hm hp hr hs
    simp only [hI] at h
    injection h with h3 h4
    have hP' := correct_one hv isOne_identity hK hH hP h3
    refine ⟨⟨K, _, by rw [← h4], hK, hKr⟩, _, hP', fun w hw => ?_⟩
    obtain ⟨q1, u, q2, q3⟩ := post_range hm hp hKr hw
    injection q2 with q2
    subst q2
    exact ⟨q1, q3⟩

/-- **C131** (`filter`): the same for runs of any length, whatever the transition factors, controls and data: no returned variance is
negative, and all gains recorded (also if the call raises an exception) are between 0 and 1. -/
theorem C131_direct (hv : a.Valid) (hm : MonotoneRounding a.fl) (kf : KalmanFilter Fl) (Z : NDArray Fl) (U : Option (NDArray Fl))
    (hn : kf.stateSize = 1) (hI : kf.I = @Arr.identity Fl (floatB nanInt a) 1)
    (hA : ∀ b ∈ kf.A.rows, ∃ x, IsOne x b) (hH : ∀ b ∈ kf.H.rows, IsOne (.fin 1) b)
    (hQ : ∀ b ∈ kf.Q.rows, ∃ x : Fl, IsOneOrScalar x b ∧ x.InRange (Set.Ici 0))
    (hR : ∀ b ∈ kf.R.rows, ∃ x : Fl, IsOneOrScalar x b ∧ x.InRange (Set.Ici 0))
    (hP : ∃ x : Fl, IsOne x kf.Pk ∧ x.InRange (Set.Ici 0)) :
    (∃ Ks, ((@KalmanFilter.filter Fl (floatB nanInt a) Z U).run kf).2.kalmanGains = kf.kalmanGains ++ Ks ∧
      ∀ K ∈ Ks, ∃ k : Fl, IsOne k K ∧ k.InRange (Set.Icc 0 1)) ∧
    ∀ xs Ps, ((@KalmanFilter.filter Fl (floatB nanInt a) Z U).run kf).1 = .ok (xs, Ps) →
      ∀ P ∈ Ps, ∃ v : Fl, IsOne v P ∧ v.InRange (Set.Ici 0) := by
  have hrun := @KalmanFilter.filter_eq Fl (floatB nanInt a) Z U kf
  rcases hl : Z.len with e | L
  · rw [hl] at hrun
    rw [hrun]
    exact ⟨⟨[], by simp, by simp⟩, by simp⟩
  rw [hl] at hrun
  rcases hz : @KalmanFilter.zipRows Fl kf.A kf.H kf.B (@checkNoneAndBroadcast Fl (floatB nanInt a) U Z) Z kf.Q kf.R with e | rows
  · rw [hz] at hrun
    rw [hrun]
    exact ⟨⟨[], by simp, by simp⟩, by simp⟩
  rw [hz, hn, hI] at hrun
  have hmem : ∀ r ∈ rows, (∃ α, IsOne α r.1) ∧ IsOne (.fin 1) r.2.1 ∧
      (∃ q : Fl, IsOneOrScalar q r.2.2.2.2.2.1 ∧ q.InRange (Set.Ici 0)) ∧
      ∃ q : Fl, IsOneOrScalar q r.2.2.2.2.2.2 ∧ q.InRange (Set.Ici 0) := by
    obtain ⟨iA, iH, iB, iU, iZ, iQ, iR⟩ := @KalmanFilter.zipRows_ok Fl (floatB nanInt a) _ _ _ _ _ _ _ _ hz
    obtain ⟨l1, e1⟩ := iA.exists
    obtain ⟨l2, e2⟩ := iH.exists
    obtain ⟨l3, e3⟩ := iB.exists
    obtain ⟨l4, e4⟩ := iU.exists
    obtain ⟨l5, e5⟩ := iZ.exists
    obtain ⟨l6, e6⟩ := iQ.exists
    obtain ⟨l7, e7⟩ := iR.exists
    rw [e1] at hA; rw [e2] at hH; rw [e6] at hQ; rw [e7] at hR
    rw [e1, e2, e3, e4, e5, e6, e7, @KalmanFilter.zipRows_stack Fl (floatB nanInt a)] at hz
    injection hz with hz
    rintro ⟨r1, r2, r3, r4, r5, r6, r7⟩ hr
    rw [← hz] at hr
    obtain ⟨k, hk⟩ := List.mem_iff_getElem?.1 hr
    simp only [List.getElem?_zip_eq_some] at hk
    obtain ⟨k1, k2, k3, k4, k5, k6, k7⟩ := hk
    exact ⟨hA _ (List.mem_of_getElem? k1), hH _ (List.mem_of_getElem? k2), hQ _ (List.mem_of_getElem? k6), hR _ (List.mem_of_getElem? k7)⟩
  obtain ⟨g1, g2⟩ := trace_one (nanInt := nanInt) hv hm rows hmem kf.xk kf.Pk hP
  refine ⟨⟨_, by rw [hrun]; rfl, g1⟩, fun xs Ps h P hP => ?_⟩
  obtain ⟨N, rows', h1, h2, -, -, -, h3, -⟩ := @KalmanFilter.filter_ok Fl (floatB nanInt a) Z U kf _ xs Ps (Prod.ext h rfl)
  rw [hz] at h2
  injection h2 with h2
  subst h2
  rw [h3] at hP
  rcases List.mem_append.1 hP with hP | hP
  · obtain ⟨o, ho, rfl⟩ := List.mem_map.1 hP
    rw [hn, hI] at ho
    exact g2 o ho
  · rw [List.eq_of_mem_replicate hP, hn]
    exact ⟨.fin 0, ⟨.float64, rfl⟩, fun r hr => by injection hr with hr; rw [← hr]; exact Set.mem_Ici.2 le_rfl⟩

end

/-! ### negative variances -/

theorem exists_k {p : ℕ} (hp : 12 ≤ p) : ∃ (k : ℕ) (e : ℝ), e = 2 ^ (1 - (p : ℤ)) ∧ 0 < e ∧ e ≤ 1 / 2048 ∧ 9 / 20 ≤ k ^ 2 * e ∧
    k ^ 2 * e ≤ 49 / 100 ∧ k * e ≤ 1 / 50 ∧ 2 ≤ k := by
  obtain ⟨e, he⟩ : ∃ e : ℝ, e = 2 ^ (1 - (p : ℤ)) := ⟨_, rfl⟩
  have h0 : 0 < e := by rw [he]; positivity
  have h1 : e ≤ 1 / 2048 := by
    rw [he, show (1 / 2048 : ℝ) = 2 ^ (-11 : ℤ) by norm_num]
    exact zpow_le_zpow_right₀ (by norm_num) (by omega)
  obtain ⟨w, hw⟩ : ∃ w : ℝ, w = Real.sqrt (49 / 100 / e) := ⟨_, rfl⟩
  have hw2 : w ^ 2 * e = 49 / 100 := by
    rw [hw, Real.sq_sqrt (by positivity)]
    field_simp
  have hw0 : 0 ≤ w := hw ▸ Real.sqrt_nonneg _
  have hw31 : 31 ≤ w := by
    by_contra hc
    rw [not_le] at hc
    have : w ^ 2 < 31 ^ 2 := pow_lt_pow_left₀ hc hw0 (by norm_num)
    nlinarith
  have hwe : w * e ≤ 49 / 3100 := by nlinarith
  have k1 : (⌊w⌋₊ : ℝ) ≤ w := Nat.floor_le hw0
  have k2 : w < ⌊w⌋₊ + 1 := Nat.lt_floor_add_one w
  refine ⟨⌊w⌋₊, e, he, h0, h1, ?_, ?_, ?_, ?_⟩
  · have h3 : (w - 1) ^ 2 ≤ (⌊w⌋₊ : ℝ) ^ 2 := pow_le_pow_left₀ (by linarith) (by linarith) 2
    have h4 : (w - 1) ^ 2 * e ≤ (⌊w⌋₊ : ℝ) ^ 2 * e := mul_le_mul_of_nonneg_right h3 h0.le
    have h5 : (w - 1) ^ 2 * e = 49 / 100 - 2 * (w * e) + e := by rw [← hw2]; ring
    linarith
  · rw [← hw2]
    exact mul_le_mul_of_nonneg_right (pow_le_pow_left₀ (Nat.cast_nonneg _) k1 2) h0.le
  · have := mul_le_mul_of_nonneg_right k1 h0.le
    linarith
  · exact Nat.le_floor (by push_cast; linarith)

/-- The steps of `update` for `P = 1`, `H = 1 + k e`, `R = e / 4`. -/
theorem negative_numbers {p : ℕ} {emin : ℤ} {M : ℝ} {fl : ℝ → Fl} (hn : Nearest p emin M fl) (hp : 12 ≤ p) (hem : emin ≤ -2) (hM : 2 ≤ M) :
    ∃ H e : ℝ, e = 2 ^ (1 - (p : ℤ)) ∧ 0 < e ∧ 1 < H ∧ H ≤ 51 / 50 ∧ IsBinary p emin H ∧ IsBinary p emin (e / 4) ∧
      (∀ x, x = 1 / 2 ∨ x = 1 ∨ x = H ∨ x = -e → fl x = .fin x) ∧
      ∃ S K : ℝ, S ≠ 0 ∧ fl (H * H) = .fin S ∧ fl (S + e / 4) = .fin S ∧ fl (H / S) = .fin K ∧ fl (K * H) = .fin (1 + e) := by
  obtain ⟨k, e, he, h0, h1, t1, t2, ke, hk2⟩ := exists_k hp
  have hk2' : (2 : ℝ) ≤ k := by exact_mod_cast hk2
  have hke0 : 0 < k * e := by positivity
  obtain ⟨N, hN⟩ : ∃ N : ℤ, N = 2 ^ (p - 1) := ⟨_, rfl⟩
  have hNe : (N : ℝ) * e = 1 := by
    rw [hN, he]
    push_cast
    rw [← zpow_natCast, ← zpow_add₀ (by norm_num)]
    rw [show ((p - 1 : ℕ) : ℤ) + (1 - p) = 0 by omega, zpow_zero]
  have hN2 : (2 : ℝ) ^ p = 2 * N := by
    rw [hN]
    push_cast
    rw [← pow_succ']
    congr 1
    omega
  have hkN : (k : ℝ) * 50 ≤ N := by
    have : (k * 50 : ℝ) * e ≤ N * e := by rw [hNe]; linarith
    exact le_of_mul_le_mul_right this h0
  have hNp : (0 : ℝ) < N := by
    by_contra hc
    rw [not_lt] at hc
    nlinarith
  -- the grids
  have e0 : (2 : ℝ) ^ ((0 : ℤ) + 1 - p) = e := by rw [he]; congr 1
  have e1 : (2 : ℝ) ^ ((-1 : ℤ) + 1 - p) = e / 2 := by
    rw [he, show (1 - (p : ℤ)) = ((-1 : ℤ) + 1 - p) + 1 by ring, zpow_add₀ (by norm_num), zpow_one]
    ring
  have near0 : ∀ (x : ℝ) (j : ℤ), 1 ≤ x → x ≤ 2 → 1 ≤ j * e → j * e ≤ 2 → |(j : ℝ)| < 2 ^ p → |j * e - x| < e / 2 → fl x = .fin (j * e) := by
    intro x j a1 a2 a3 a4 a5 a6
    have := hn.eq 0 (x := x) (j := j) (by omega) (by simpa using a1) (by linarith) (by rw [e0]; simpa using a3) (by rw [e0]; linarith) a5
      (by rw [e0]; exact a6)
    rwa [e0] at this
  have near1 : ∀ (x : ℝ) (j : ℤ), 1 / 2 ≤ x → x ≤ 2 → 1 / 2 ≤ j * (e / 2) → j * (e / 2) ≤ 2 → |(j : ℝ)| < 2 ^ p → |j * (e / 2) - x| < e / 4 →
      fl x = .fin (j * (e / 2)) := by
    intro x j a1 a2 a3 a4 a5 a6
    have := hn.eq (-1) (x := x) (j := j) (by omega) (by norm_num at a1 ⊢; exact a1) (by linarith) (by rw [e1]; norm_num at a3 ⊢; exact a3)
      (by rw [e1]; linarith) a5 (by rw [e1]; linarith)
    rwa [e1] at this
  obtain ⟨t, ht⟩ : ∃ t : ℝ, t = k ^ 2 * e := ⟨_, rfl⟩
  rw [← ht] at t1 t2
  have hkk : (k * e) * (k * e) = t * e := by rw [ht]; ring
  obtain ⟨y, hy⟩ : ∃ y : ℝ, y = k * e := ⟨_, rfl⟩
  rw [← hy] at ke hke0 hkk
  have hey : e * 2 ≤ y := by rw [hy]; nlinarith
  have abs_lt' : ∀ j : ℤ, 0 ≤ (j : ℝ) → (j : ℝ) < 2 * N → |(j : ℝ)| < 2 ^ p := fun j a b => by rw [abs_of_nonneg a, hN2]; exact b
  -- H
  have hHj : ((N + k : ℤ) : ℝ) * e = 1 + y := by push_cast; rw [add_mul, hNe, hy]
  have hHb : IsBinary p emin (1 + y) := by
    have := isBinary_of (p := p) (emin := emin) (e := (0 : ℤ) + 1 - p) (N + k) (by omega) (abs_lt' _ (by push_cast; positivity) (by push_cast; linarith))
    rwa [e0, hHj] at this
  -- S
  have hSj : ((N + 2 * k : ℤ) : ℝ) * e = 1 + 2 * y := by push_cast; rw [add_mul, hNe, hy]; ring
  have hSp : |((N + 2 * k : ℤ) : ℝ)| < 2 ^ p := abs_lt' _ (by push_cast; positivity) (by push_cast; linarith)
  have hS1 : fl ((1 + y) * (1 + y)) = .fin (1 + 2 * y) := by
    rw [← hSj]
    refine near0 _ _ (by nlinarith) (by nlinarith) (by rw [hSj]; linarith) (by rw [hSj]; linarith) hSp ?_
    rw [hSj, show 1 + 2 * y - (1 + y) * (1 + y) = -(t * e) by rw [← hkk]; ring, abs_neg, abs_of_nonneg (by positivity)]
    nlinarith
  have hS2 : fl (1 + 2 * y + e / 4) = .fin (1 + 2 * y) := by
    rw [← hSj]
    refine near0 _ _ (by rw [hSj]; linarith) (by rw [hSj]; linarith) (by rw [hSj]; linarith) (by rw [hSj]; linarith) hSp ?_
    rw [show ((N + 2 * k : ℤ) : ℝ) * e - (((N + 2 * k : ℤ) : ℝ) * e + e / 4) = -(e / 4) by ring, abs_neg, abs_of_pos (by positivity)]
    linarith
  -- K
  have hKj : ((2 * N - 2 * k + 2 : ℤ) : ℝ) * (e / 2) = 1 - y + e := by
    push_cast
    rw [show (2 * (N : ℝ) - 2 * k + 2) * (e / 2) = N * e - k * e + e by ring, hNe, hy]
  have hSpos : 0 < 1 + 2 * y := by linarith
  have hK : fl ((1 + y) / (1 + 2 * y)) = .fin (1 - y + e) := by
    rw [← hKj]
    refine near1 _ _ (by rw [le_div_iff₀ hSpos]; linarith) (by rw [div_le_iff₀ hSpos]; linarith) (by rw [hKj]; linarith) (by rw [hKj]; linarith)
      (abs_lt' _ (by push_cast; linarith) (by push_cast; linarith)) ?_
    rw [hKj]
    have : 1 - y + e - (1 + y) / (1 + 2 * y) = (e * (1 - 2 * t + 2 * y)) / (1 + 2 * y) := by
      field_simp
      linear_combination (-2 : ℝ) * hkk
    rw [this, abs_of_nonneg (div_nonneg (mul_nonneg h0.le (by linarith)) hSpos.le), div_lt_iff₀ hSpos]
    nlinarith
  -- K H
  have hLj : ((N + 1 : ℤ) : ℝ) * e = 1 + e := by push_cast; rw [add_mul, hNe, one_mul]
  have hL : fl ((1 - y + e) * (1 + y)) = .fin (1 + e) := by
    have hx : (1 - y + e) * (1 + y) = 1 + e * (1 - t + y) := by linear_combination (-1 : ℝ) * hkk
    rw [hx, ← hLj]
    refine near0 _ _ ?_ ?_ (by rw [hLj]; linarith) (by rw [hLj]; linarith) (abs_lt' _ (by push_cast; linarith) (by push_cast; linarith)) ?_
    · nlinarith
    · nlinarith
    · rw [hLj, show 1 + e - (1 + e * (1 - t + y)) = e * (t - y) by ring, abs_of_nonneg (mul_nonneg h0.le (by linarith))]
      nlinarith
  refine ⟨1 + y, e, he, h0, by linarith, by linarith, hHb, ?_, ?_, 1 + 2 * y, 1 - y + e, hSpos.ne', hS1, hS2, hK, hL⟩
  · refine ⟨1, -1 - p, ?_, by omega, ?_⟩
    · rw [abs_one]; exact one_lt_pow₀ (by norm_num) (by omega)
    · rw [he, show (1 - (p : ℤ)) = (-1 - p) + 2 by ring, zpow_add₀ (by norm_num)]
      norm_num
  · rintro x (rfl | rfl | rfl | rfl)
    · refine hn.exact ⟨1, -1, by rw [abs_one]; exact one_lt_pow₀ (by norm_num) (by omega), by omega, by norm_num⟩ ?_
      rw [abs_of_pos (by norm_num)]; linarith
    · refine hn.exact ⟨1, 0, by rw [abs_one]; exact one_lt_pow₀ (by norm_num) (by omega), by omega, by norm_num⟩ ?_
      rw [abs_one]; linarith
    · refine hn.exact hHb ?_
      rw [abs_of_pos (by linarith)]; linarith
    · refine hn.exact ⟨-1, 1 - p, by rw [abs_neg, abs_one]; exact one_lt_pow₀ (by norm_num) (by omega), by omega, by rw [he]; push_cast; ring⟩ ?_
      rw [abs_neg, abs_of_pos h0]; linarith

theorem IsOne.mulVec {nanInt : ℝ} {a : FloatUnit} {x : Fl} {A : Arr Fl} (hA : IsOne x A) {e : DType} (v : Fin 1 → Fl) :
    ∃ d w, @Arr.matmul Fl (floatB nanInt a) A (.vec e v) = .ok (.vec d (fun _ : Fin 1 => w)) := by
  obtain ⟨d, rfl⟩ := hA
  refine ⟨d.promote e, @Backend.gemm Fl (floatB nanInt a) 1 1 1 (fun _ _ => x) (fun i _ => v i) 0 0, ?_⟩
  refine (@Arr.matmul_mv Fl (floatB nanInt a) _ _ _ _ _ _).trans ?_
  refine congrArg Except.ok (congrArg (Arr.vec _) (funext fun i => ?_))
  rw [Subsingleton.elim (α := Fin 1) i 0]

/-- `[[x]]` -/
def oneByOne (x : ℝ) : Arr Fl := .mat .float64 (fun (_ _ : Fin 1) => Fl.fin x)

/-- **C131** (negative variances): in every binary format with at least 12 digits, rounding to nearest, there is a filter for a scalar state,
with `Pk = 1/2`, `A = 1`, `Q = 1/2`, an `H` between 1 and 2 and an `R > 0`, all numbers of the format, such that `filter` returns without
an exception, for every observation, and the returned variance is negative. -/
theorem C131_negative {p : ℕ} {emin : ℤ} {M : ℝ} {a : FloatUnit} (nanInt : ℝ) (hv : a.Valid) (hn : Nearest p emin M a.fl) (hp : 12 ≤ p)
    (hem : emin ≤ -2) (hM : 2 ≤ M) :
    ∃ H R v : ℝ, 1 < H ∧ H < 2 ∧ 0 < R ∧ v < 0 ∧ IsBinary p emin H ∧ IsBinary p emin R ∧ ∀ z : Fl, ∃ kf kf' x,
      @KalmanFilter.new Fl (floatB nanInt a) (.stack [oneByOne 1]) (.vec .float64 (fun _ : Fin 1 => Fl.fin 0)) none (oneByOne (1 / 2))
        (.stack [oneByOne H]) (.stack [oneByOne (1 / 2)]) (.stack [oneByOne R]) none = .ok kf ∧
      (@KalmanFilter.filter Fl (floatB nanInt a) (.stack [.vec .float64 (fun _ : Fin 1 => z)]) none).run kf = (.ok ([x], [oneByOne v]), kf') := by
  obtain ⟨H, e, he, h0, h1, h2, hb, hb4, hex, S, K, hS0, n1, n2, n3, n4⟩ := negative_numbers hn hp hem hM
  refine ⟨H, e / 4, -e, h1, by linarith, by positivity, by linarith, hb, hb4, fun z => ?_⟩
  have xh := hex _ (.inl rfl)
  have x1 := hex _ (.inr (.inl rfl))
  have xH := hex _ (.inr (.inr (.inl rfl)))
  have xe := hex _ (.inr (.inr (.inr rfl)))
  have one : ∀ x, IsOne (.fin x) (oneByOne x) := fun x => ⟨_, rfl⟩
  -- predict
  obtain ⟨d, xp, Pp, hpred⟩ : ∃ (d : DType) (xp : Fl) (Pp : Arr Fl), @KalmanFilter.predict Fl (floatB nanInt a) (oneByOne 1) (.vec .float64 (fun _ : Fin 1 => Fl.fin 0))
      (some (.mat .float64 (fun (_ _ : Fin 1) => Fl.nan))) (some (.vec .float64 (fun _ : Fin 1 => Fl.nan))) (oneByOne (1 / 2)) (oneByOne (1 / 2)) =
      .ok (.vec d (fun _ : Fin 1 => xp), Pp) := by
    obtain ⟨c1, e1, o1⟩ := (one (1 / 2)).matmul (nanInt := nanInt) hv (one 1).T
    obtain ⟨c2, e2, o2⟩ := (one 1).matmul (nanInt := nanInt) hv o1
    obtain ⟨c3, e3, -⟩ := o2.add (nanInt := nanInt) (a := a) (.inl (one (1 / 2)))
    obtain ⟨d, xp, e0⟩ := (one 1).mulVec (nanInt := nanInt) (a := a) (e := .float64) (fun _ : Fin 1 => Fl.fin 0)
    refine ⟨d, xp, c3, ?_⟩
    rw [@KalmanFilter.predict_skip Fl (floatB nanInt a), e0]
    · rw [Except.bind_ok', e1, Except.bind_ok', e2, Except.bind_ok', e3, Except.bind_ok']
    · rw [Bool.or_eq_true]
      refine .inl ?_
      simp only [Arr.isnanAll, decide_eq_true_eq]
      exact fun i j => rfl
  have hP : IsOne (.fin 1) Pp := by
    have := predict_one (nanInt := nanInt) hv (one 1) (one (1 / 2)) (.inl (one (1 / 2))) hpred
    simp only [fmul, fadd, mul_one, one_mul, xh] at this
    rwa [show (1 / 2 + 1 / 2 : ℝ) = 1 by norm_num, x1] at this
  -- update
  obtain ⟨Kk, hg⟩ : ∃ Kk, @KalmanFilter.gain Fl (floatB nanInt a) (oneByOne H) Pp (oneByOne (e / 4)) = .ok Kk := by
    obtain ⟨c1, e1, o1⟩ := hP.matmul (nanInt := nanInt) hv (one H).T
    obtain ⟨c2, e2, o2⟩ := (one H).matmul (nanInt := nanInt) hv o1
    obtain ⟨c3, e3, o3⟩ := o2.add (nanInt := nanInt) (a := a) (.inl (one (e / 4)))
    obtain ⟨c4, e4, o4⟩ := (one H).matmul (nanInt := nanInt) hv hP.T
    unfold KalmanFilter.gain
    rw [e1, Except.bind_ok', e2, Except.bind_ok', e3, Except.bind_ok', e4, Except.bind_ok']
    rcases o3.T.solve (nanInt := nanInt) (a := a) o4 with ⟨n5, -⟩ | ⟨-, c5, e5, -⟩
    · simp only [fmul, fadd, one_mul, xH, n1, n2] at n5
      injection n5 with n5
      exact absurd n5 hS0
    · rw [e5]
      exact ⟨_, rfl⟩
  have hKk : IsOne (.fin K) Kk := by
    have := (gain_one (nanInt := nanInt) hv (one H) hP (.inl (one (e / 4))) hg).2
    simpa only [fmul, fadd, fdiv, mul_one, one_mul, xH, n1, n2, n3] using this
  obtain ⟨d', x', P', hc⟩ : ∃ (d' : DType) (x' : Fl) (P' : Arr Fl), @KalmanFilter.correct Fl (floatB nanInt a) (@Arr.identity Fl (floatB nanInt a) 1) Kk (oneByOne H)
      (.vec d (fun _ : Fin 1 => xp)) Pp (.vec .float64 (fun _ : Fin 1 => z)) = .ok (.vec d' (fun _ : Fin 1 => x'), P') := by
    obtain ⟨c1, e1, o1⟩ := hKk.matmul (nanInt := nanInt) hv (one H)
    obtain ⟨c2, e2, o2⟩ := isOne_identity.sub (nanInt := nanInt) (a := a) o1
    obtain ⟨c3, e3, -⟩ := o2.matmul (nanInt := nanInt) hv hP
    obtain ⟨d4, w4, e4⟩ := (one H).mulVec (nanInt := nanInt) (a := a) (e := d) (fun _ : Fin 1 => xp)
    obtain ⟨d5, w5, e5⟩ := hKk.mulVec (nanInt := nanInt) (a := a) (e := DType.float64.promote d4) (fun _ : Fin 1 => fsub a.fl z w4)
    refine ⟨d.promote d5, fadd a.fl xp w5, c3, ?_⟩
    unfold KalmanFilter.correct
    rw [e4, Except.bind_ok', @Arr.sub_vv Fl (floatB nanInt a), Except.bind_ok']
    refine (congrArg (fun t : Except PyErr (Arr Fl) => t >>= _) e5).trans ?_
    rw [Except.bind_ok', @Arr.add_vv Fl (floatB nanInt a), Except.bind_ok', e1, Except.bind_ok', e2,
      Except.bind_ok', e3, Except.bind_ok']
    rfl
  have hP' : IsOne (.fin (-e)) P' := by
    have := correct_one (nanInt := nanInt) hv isOne_identity hKk (one H) hP hc
    simp only [fmul, fsub, n4] at this
    rw [show (1 - (1 + e) : ℝ) = -e by ring, xe] at this
    simpa only [mul_one, xe] using this
  have hA1 : @Arr.assignVec Fl 1 (.vec d' (fun _ : Fin 1 => x')) = .ok (.vec .float64 (fun _ : Fin 1 => x')) := rfl
  have hA2 : @Arr.assignMat Fl 1 P' = .ok (oneByOne (-e)) := by obtain ⟨dP, rfl⟩ := hP'; rfl
  have hstep : @KalmanFilter.step Fl (floatB nanInt a) 1 (@Arr.identity Fl (floatB nanInt a) 1) (oneByOne 1, oneByOne H,
      .mat .float64 (fun (_ _ : Fin 1) => Fl.nan), .vec .float64 (fun _ : Fin 1 => Fl.nan), .vec .float64 (fun _ : Fin 1 => z),
      oneByOne (1 / 2), oneByOne (e / 4)) (.vec .float64 (fun _ : Fin 1 => Fl.fin 0)) (oneByOne (1 / 2)) =
      (some Kk, .ok ((.vec d' (fun _ : Fin 1 => x'), P'), (.vec .float64 (fun _ : Fin 1 => x'), oneByOne (-e)))) := by
    simp only [KalmanFilter.step, hpred, hg, hc, Except.bind_ok', hA1, hA2]
  refine ⟨_, Prod.snd _, .vec .float64 (fun _ : Fin 1 => x'), rfl, Prod.ext ?_ rfl⟩
  refine (congrArg Prod.fst (@KalmanFilter.filter_eq Fl (floatB nanInt a) _ _ _)).trans ?_
  have htr : trace (@KalmanFilter.step Fl (floatB nanInt a) 1 (@Arr.identity Fl (floatB nanInt a) 1)) [(oneByOne 1, oneByOne H,
      .mat .float64 (fun (_ _ : Fin 1) => Fl.nan), .vec .float64 (fun _ : Fin 1 => Fl.nan), .vec .float64 (fun _ : Fin 1 => z),
      oneByOne (1 / 2), oneByOne (e / 4))] (.vec .float64 (fun _ : Fin 1 => Fl.fin 0)) (oneByOne (1 / 2)) =
      ⟨[(.vec .float64 (fun _ : Fin 1 => x'), oneByOne (-e))], [Kk], none, (.vec d' (fun _ : Fin 1 => x'), P')⟩ := by
    simp only [trace, hstep]
    rfl
  exact congrArg (fun t : Trace Fl => t.result 0 _ _) htr

/-- The largest number of binary64. -/
theorem binary64_max : IsBinary 53 (-1022) ((2 ^ 53 - 1) * 2 ^ 971) := ⟨2 ^ 53 - 1, 971, by norm_num, by norm_num, by push_cast; norm_num⟩

theorem binary64_max_ge : (2 : ℝ) ≤ (2 ^ 53 - 1) * 2 ^ 971 := by
  have h1 : (1 : ℝ) ≤ 2 ^ 971 := one_le_pow₀ (by norm_num)
  have h2 : (2 : ℝ) ≤ 2 ^ 53 - 1 := by norm_num
  calc (2 : ℝ) = 2 * 1 := by norm_num
    _ ≤ _ := mul_le_mul h2 h1 zero_le_one (by norm_num)

theorem binary64_nearest (fused : Bool) :
    Nearest 53 (-1022) ((2 ^ 53 - 1) * 2 ^ 971) (binaryUnit 53 (-1022) ((2 ^ 53 - 1) * 2 ^ 971) fused).fl := binary_nearest (by norm_num) binary64_max

/-- binary64, with a naive dot product -/
example : ∃ H R v : ℝ, 1 < H ∧ H < 2 ∧ 0 < R ∧ v < 0 ∧ IsBinary 53 (-1022) H ∧ IsBinary 53 (-1022) R ∧ ∀ z : Fl, ∃ kf kf' x,
    @KalmanFilter.new Fl (floatB 0 (binaryUnit 53 (-1022) ((2 ^ 53 - 1) * 2 ^ 971) false)) (.stack [oneByOne 1]) (.vec .float64 (fun _ : Fin 1 => Fl.fin 0))
      none (oneByOne (1 / 2)) (.stack [oneByOne H]) (.stack [oneByOne (1 / 2)]) (.stack [oneByOne R]) none = .ok kf ∧
    (@KalmanFilter.filter Fl (floatB 0 (binaryUnit 53 (-1022) ((2 ^ 53 - 1) * 2 ^ 971) false)) (.stack [.vec .float64 (fun _ : Fin 1 => z)]) none).run kf =
      (.ok ([x], [oneByOne v]), kf') :=
  C131_negative 0 (binaryUnit_valid _ _ _ _) (binary64_nearest false) (by norm_num) (by norm_num) binary64_max_ge

/-- A random walk observed directly with a varying noise, in binary64 with fused multiply-add: runs of any length have no negative variance. -/
example (zs : List Fl) (R : ℕ → ℝ) (hR : ∀ k, 0 ≤ R k) (xs Ps : List (Arr Fl)) (kf : KalmanFilter Fl)
    (hnew : @KalmanFilter.new Fl (floatB 0 (binaryUnit 53 (-1022) ((2 ^ 53 - 1) * 2 ^ 971) true)) (.stack (zs.map fun _ => oneByOne 1))
      (.vec .float64 (fun _ : Fin 1 => Fl.fin 0)) none (oneByOne (1 / 3)) (.stack (zs.map fun _ => oneByOne 1))
      (.stack (zs.map fun _ => .scalar .float64 (.fin (1 / 7)))) (.stack ((List.range zs.length).map fun k => oneByOne (R k))) none = .ok kf)
    (h : ((@KalmanFilter.filter Fl (floatB 0 (binaryUnit 53 (-1022) ((2 ^ 53 - 1) * 2 ^ 971) true)) (.stack (zs.map fun z => .vec .float64 (fun _ : Fin 1 => z)))
      none).run kf).1 = .ok (xs, Ps)) : ∀ P ∈ Ps, ∃ v : Fl, IsOne v P ∧ v.InRange (Set.Ici 0) := by
  have e : ∀ {x r : ℝ}, Fl.fin x = .fin r → x = r := fun h => by injection h
  injection hnew with hnew
  subst hnew
  refine (C131_direct (binaryUnit_valid _ _ _ _) ((binary64_nearest true).monotone (by norm_num) (by norm_num) (one_le_two.trans binary64_max_ge)) _ _ _ rfl rfl ?_ ?_ ?_ ?_
    ⟨_, ⟨_, rfl⟩, fun r hr => by rw [← e hr]; simp⟩).2 xs Ps h
  · intro b hb
    obtain ⟨z, -, rfl⟩ := List.mem_map.1 hb
    exact ⟨_, _, rfl⟩
  · intro b hb
    obtain ⟨z, -, rfl⟩ := List.mem_map.1 hb
    exact ⟨_, rfl⟩
  · intro b hb
    obtain ⟨z, -, rfl⟩ := List.mem_map.1 hb
    exact ⟨_, .inr ⟨_, rfl⟩, fun r hr => by rw [← e hr]; simp⟩
  · intro b hb
    obtain ⟨k, -, rfl⟩ := List.mem_map.1 hb
    exact ⟨_, .inl ⟨_, rfl⟩, fun r hr => by rw [← e hr]; exact hR k⟩

/-- `update` in binary64 -/
example (nanInt : ℝ) {kf kf' : KalmanFilter Fl} {zk x' P' : Arr Fl}
    (hI : kf.I = @Arr.identity Fl (floatB nanInt (binaryUnit 53 (-1022) ((2 ^ 53 - 1) * 2 ^ 971) true)) 1)
    (h : (@KalmanFilter.update Fl (floatB nanInt (binaryUnit 53 (-1022) ((2 ^ 53 - 1) * 2 ^ 971) true)) (oneByOne 1)
      (.vec .float64 (fun _ : Fin 1 => Fl.fin 0)) (oneByOne (3 / 2)) zk (oneByOne (1 / 3))).run kf = (.ok (x', P'), kf')) :
    ∃ w, IsOne w P' ∧ w.InRange (Set.Icc 0 (3 / 2)) :=
  (C131_update (binaryUnit_valid _ _ _ _) ((binary64_nearest true).monotone (by norm_num) (by norm_num) (one_le_two.trans binary64_max_ge)) hI ⟨_, rfl⟩ ⟨_, rfl⟩ (by norm_num)
    ((binary64_nearest true).exact ⟨3, -1, by norm_num, by norm_num, by norm_num⟩
      ((by norm_num : |(3 / 2 : ℝ)| ≤ 2).trans binary64_max_ge)) (.inl ⟨_, rfl⟩)
    (fun r hr => by injection hr with hr; rw [← hr]; norm_num) h).2

/-! ### asymmetric covariances -/

/-- The further numbers needed for two states with the covariance `[[1, 3/4], [3/4, 1]]`. -/
theorem asym_numbers {p : ℕ} {emin : ℤ} {M : ℝ} {fl : ℝ → Fl} (hn : Nearest p emin M fl) (hp : 12 ≤ p) (hem : emin ≤ -2) (hM : 2 ≤ M)
    {e H S : ℝ} (he : e = 2 ^ (1 - (p : ℤ))) (hH : 1 < H) (hH2 : H ≤ 51 / 50) (hS : fl (H * H) = .fin S) :
    fl (3 / 4) = .fin (3 / 4) ∧ fl (-e * (3 / 4)) = .fin (-e * (3 / 4)) ∧
    ∃ g K m x : ℝ, fl (H * (3 / 4)) = .fin g ∧ fl (g / S) = .fin K ∧ fl (K * H) = .fin m ∧ fl (-m) = .fin (-m) ∧ fl (-m + 3 / 4) = .fin x ∧
      x ≠ -e * (3 / 4) := by
  have hm := hn.monotone (by omega) (by omega) (by linarith)
  have h0 : 0 < e := by rw [he]; positivity
  have e1 : (2 : ℝ) ^ ((-1 : ℤ) + 1 - p) = e / 2 := by
    rw [he, show (1 - (p : ℤ)) = ((-1 : ℤ) + 1 - p) + 1 by ring, zpow_add₀ (by norm_num), zpow_one]
    ring
  have hpow : (2 : ℤ) ^ 12 ≤ 2 ^ p := pow_le_pow_right₀ (by norm_num) hp
  have dy : ∀ j : ℤ, |j| ≤ 17 → fl (j / 16) = .fin (j / 16) := by
    intro j hj
    refine hn.exact ⟨j, -4, by omega, by omega, by norm_num; ring⟩ ?_
    have : |(j : ℝ)| ≤ 17 := by exact_mod_cast hj
    rw [abs_div, abs_of_pos (by norm_num : (0 : ℝ) < 16), div_le_iff₀ (by norm_num)]
    linarith
  have d12 : fl (3 / 4) = .fin (3 / 4) := by have := dy 12 (by norm_num); norm_num at this; exact this
  have d14 : fl (7 / 8) = .fin (7 / 8) := by have := dy 14 (by norm_num); norm_num at this; exact this
  have d10 : fl (5 / 8) = .fin (5 / 8) := by have := dy 10 (by norm_num); norm_num at this; exact this
  have d15 : fl (15 / 16) = .fin (15 / 16) := by have := dy 15 (by norm_num); norm_num at this; exact this
  have d17 : fl (17 / 16) = .fin (17 / 16) := by have := dy 17 (by norm_num); norm_num at this; exact this
  have S1 : 1 ≤ S := hm.mono 1 _ 1 S (by nlinarith) hm.one hS
  have S2 : S ≤ 17 / 16 := hm.mono _ (17 / 16) S _ (by nlinarith) hS d17
  obtain ⟨g, hg⟩ := (hn (H * (3 / 4))).1 (by rw [abs_of_pos (by positivity)]; linarith)
  have g1 : 3 / 4 ≤ g := hm.mono _ _ _ _ (by linarith) d12 hg
  have g2 : g ≤ 7 / 8 := hm.mono _ _ _ _ (by linarith) hg d14
  have hS0 : 0 < S := by linarith
  have q1 : 5 / 8 ≤ g / S := by rw [le_div_iff₀ hS0]; linarith
  have q2 : g / S ≤ 7 / 8 := by rw [div_le_iff₀ hS0]; linarith
  obtain ⟨K, hK⟩ := (hn (g / S)).1 (by rw [abs_of_pos (by linarith)]; linarith)
  have k1 : 5 / 8 ≤ K := hm.mono _ _ _ _ q1 d10 hK
  have k2 : K ≤ 7 / 8 := hm.mono _ _ _ _ q2 hK d14
  have r1 : 5 / 8 ≤ K * H := by nlinarith
  have r2 : K * H ≤ 15 / 16 := by nlinarith
  obtain ⟨m, hmm⟩ := (hn (K * H)).1 (by rw [abs_of_pos (by linarith)]; linarith)
  have m1 : 5 / 8 ≤ m := hm.mono _ _ _ _ r1 d10 hmm
  have m2 : m ≤ 15 / 16 := hm.mono _ _ _ _ r2 hmm d15
  obtain ⟨bm, -, -⟩ := (hn (K * H)).2 m hmm
  obtain ⟨j, hj⟩ := bm.multiple (-1) (by rw [abs_of_pos (by linarith)]; norm_num; linarith)
  rw [e1] at hj
  obtain ⟨N, hN⟩ : ∃ N : ℤ, N = 2 ^ (p - 1) := ⟨_, rfl⟩
  have hN2 : (2 : ℝ) ^ p = 2 * N := by
    rw [hN]
    push_cast
    rw [← pow_succ']
    congr 1
    omega
  obtain ⟨L, hL⟩ : ∃ L : ℤ, L = 2 ^ (p - 3) := ⟨_, rfl⟩
  have hLe : (L : ℝ) * e = 1 / 4 := by
    rw [hL, he]
    push_cast
    rw [← zpow_natCast, ← zpow_add₀ (by norm_num)]
    rw [show ((p - 3 : ℕ) : ℤ) + (1 - p) = -2 by omega]
    norm_num
  have hNe : (N : ℝ) * e = 1 := by
    rw [hN, he]
    push_cast
    rw [← zpow_natCast, ← zpow_add₀ (by norm_num)]
    rw [show ((p - 1 : ℕ) : ℤ) + (1 - p) = 0 by omega, zpow_zero]
  have hx : -m + 3 / 4 = ((6 * L - j : ℤ) : ℝ) * (e / 2) := by
    rw [hj]
    push_cast
    linear_combination (-3 : ℝ) * hLe
  have hxe : fl (-m + 3 / 4) = .fin (-m + 3 / 4) := by
    refine hn.exact ?_ (abs_le.2 ⟨by linarith, by linarith⟩)
    rw [hx, ← e1]
    refine isBinary_of _ (by omega) ?_
    rw [hN2]
    have b1 : |((6 * L - j : ℤ) : ℝ) * (e / 2)| < 2 * N * (e / 2) := by
      rw [← hx, show 2 * (N : ℝ) * (e / 2) = N * e by ring, hNe]
      exact abs_lt.2 ⟨by linarith, by linarith⟩
    rw [abs_mul, abs_of_pos (by positivity : (0 : ℝ) < e / 2)] at b1
    exact lt_of_mul_lt_mul_right b1 (by positivity)
  have hnm : fl (-m) = .fin (-m) := by
    obtain ⟨m', e', h1, h2, h3⟩ := bm
    exact hn.exact ⟨-m', e', by rwa [abs_neg], h2, by rw [h3]; push_cast; ring⟩ (by rw [abs_neg, abs_of_pos (by linarith)]; linarith)
  refine ⟨d12, ?_, g, K, m, _, hg, hK, hmm, hnm, hxe, ?_⟩
  · refine hn.exact ⟨-3, -1 - p, ?_, by omega, ?_⟩ ?_
    · have : |(-3 : ℤ)| = 3 := rfl
      omega
    · rw [he, show (1 - (p : ℤ)) = (-1 - p) + 2 by ring, zpow_add₀ (by norm_num)]
      push_cast
      ring
    · have : e ≤ 1 := by
        rw [he]
        exact zpow_le_one_of_nonpos₀ (by norm_num) (by omega)
      rw [abs_of_nonpos (by nlinarith)]
      linarith
  · rw [hx]
    intro h
    have : (((6 * L - j) * 2 + 3 : ℤ) : ℝ) = 0 := by
      push_cast at h ⊢
      have h' : ((6 * (L : ℝ) - j) * 2 + 3) * (e / 4) = 0 := by linear_combination h
      exact (mul_eq_zero.1 h').resolve_right (by positivity)
    have : (6 * L - j) * 2 + 3 = 0 := by exact_mod_cast this
    omega

/-- The ways to sum two products. -/
theorem order_two {a : FloatUnit} (hv : a.Valid) (m n : ℕ) (i : Fin m) (j : Fin n) :
    ∃ s t : Fin 2, (s = 0 ∧ t = 1 ∨ s = 1 ∧ t = 0) ∧ (a.order m 1 n i j = .add (.prod s) (.prod t) ∨ a.order m 1 n i j = .fma (.prod s) t) := by
  have h := hv.order m 1 n i j
  have hl := h.length_eq
  have hnd : (a.order m 1 n i j).indices.Nodup := h.nodup_iff.2 (List.nodup_finRange _)
  have pos : ∀ {k : ℕ} (t : SumTree k), 0 < t.indices.length := by
    intro k t
    induction t with
    | prod l => simp [SumTree.indices]
    | add s t h1 h2 => simp only [SumTree.indices, List.length_append]; omega
    | fma s l h1 => simp [SumTree.indices]
  have single : ∀ {k : ℕ} (t : SumTree k), t.indices.length = 1 → ∃ l, t = .prod l := by
    intro k t ht
    cases t with
    | prod l => exact ⟨l, rfl⟩
    | add s t =>
      simp only [SumTree.indices, List.length_append] at ht
      have := pos s
      have := pos t
      omega
    | fma s l =>
      simp only [SumTree.indices, List.length_cons] at ht
      have := pos s
      omega
  have ne : ∀ s t : Fin 2, s ≠ t → (s = 0 ∧ t = 1 ∨ s = 1 ∧ t = 0) := by decide
  simp only [List.length_finRange] at hl
  generalize a.order m 1 n i j = T at hl hnd
  cases T with
  | prod l => simp [SumTree.indices] at hl
  | add s t =>
    simp only [SumTree.indices, List.length_append] at hl
    have p1 := pos s
    have p2 := pos t
    obtain ⟨l1, rfl⟩ := single s (by omega)
    obtain ⟨l2, rfl⟩ := single t (by omega)
    refine ⟨l1, l2, ne _ _ ?_, .inl rfl⟩
    rintro rfl
    simp [SumTree.indices] at hnd
  | fma s l =>
    simp only [SumTree.indices, List.length_cons] at hl
    obtain ⟨l1, rfl⟩ := single s (by omega)
    refine ⟨l1, l, ne _ _ ?_, .inr rfl⟩
    rintro rfl
    simp [SumTree.indices] at hnd

section
variable {nanInt : ℝ} {a : FloatUnit} {m n : ℕ} {S : Matrix (Fin m) (Fin 2) Fl} {T : Matrix (Fin 2) (Fin n) Fl} {i : Fin m} {j : Fin n}
  {x₀ x₁ y₀ y₁ r : ℝ}

/-- Two products without rounding errors, -/
theorem gemm_exact (hv : a.Valid) (h1 : S i 0 = .fin x₀) (h2 : S i 1 = .fin x₁) (h3 : T 0 j = .fin y₀) (h4 : T 1 j = .fin y₁)
    (e0 : a.fl (x₀ * y₀) = .fin (x₀ * y₀)) (e1 : a.fl (x₁ * y₁) = .fin (x₁ * y₁)) (hr : a.fl (x₀ * y₀ + x₁ * y₁) = .fin r) :
    @Backend.gemm Fl (floatB nanInt a) m 2 n S T i j = .fin r := by
  show (a.order m 1 n i j).eval a.fl _ _ = _
  obtain ⟨s, t, hst, ho⟩ := order_two hv m n i j
  have hr' : a.fl (x₁ * y₁ + x₀ * y₀) = .fin r := by rw [add_comm]; exact hr
  rcases hst with ⟨rfl, rfl⟩ | ⟨rfl, rfl⟩ <;> rcases ho with ho | ho <;> rw [ho] <;>
    simp [SumTree.eval, h1, h2, h3, h4, fmul, fadd, ffma, e0, e1, hr, hr']

/-- and one product that is 0. -/
theorem gemm_zero_right (hv : a.Valid) (hm : MonotoneRounding a.fl) (h1 : S i 0 = .fin x₀) (h2 : S i 1 = .fin x₁) (h3 : T 0 j = .fin y₀)
    (h4 : T 1 j = .fin y₁) (hz : x₁ * y₁ = 0) (hr : a.fl (x₀ * y₀) = .fin r) :
    @Backend.gemm Fl (floatB nanInt a) m 2 n S T i j = .fin r := by
  show (a.order m 1 n i j).eval a.fl _ _ = _
  obtain ⟨s, t, hst, ho⟩ := order_two hv m n i j
  have hi := hm.idem _ _ hr
  rcases hst with ⟨rfl, rfl⟩ | ⟨rfl, rfl⟩ <;> rcases ho with ho | ho <;> rw [ho] <;>
    simp [SumTree.eval, h1, h2, h3, h4, fmul, fadd, ffma, hr, hz, hm.zero, hi]

end

section
variable {F : Type} [Backend F] {n m : ℕ}

theorem predict_shape (A P Q : Matrix (Fin n) (Fin n) F) (x : Fin n → F) {B u : Arr F} (h : (B.isnanAll || u.isnanAll) = true) :
    KalmanFilter.predict (.mat .float64 A) (.vec .float64 x) (some B) (some u) (.mat .float64 P) (.mat .float64 Q) =
      .ok (.vec .float64 (fun i => Backend.gemm (n := 1) A (fun i _ => x i) i 0), .mat .float64 (Arr.mAdd (Backend.gemm A (Backend.gemm P Aᵀ)) Q)) := by
  rw [KalmanFilter.predict_skip h]
  have hT : (Arr.mat .float64 A).T = .mat .float64 Aᵀ := rfl
  simp only [hT, Arr.matmul_mm, Arr.matmul_mv, Except.bind_ok', Arr.add_mm]
  rfl

theorem gain_shape (H : Matrix (Fin m) (Fin n) F) (P : Matrix (Fin n) (Fin n) F) (R : Matrix (Fin m) (Fin m) F) {X : Matrix (Fin m) (Fin n) F}
    (h : Backend.solve (Arr.mAdd (Backend.gemm H (Backend.gemm P Hᵀ)) R)ᵀ (Backend.gemm H Pᵀ) = some X) :
    KalmanFilter.gain (.mat .float64 H) (.mat .float64 P) (.mat .float64 R) = .ok (.mat .float64 Xᵀ) := by
  have hT : ∀ {p q : ℕ} (A : Matrix (Fin p) (Fin q) F) (d : DType), (Arr.mat d A).T = .mat d Aᵀ := fun _ _ => rfl
  simp only [KalmanFilter.gain, hT, Arr.matmul_mm, Except.bind_ok', Arr.add_mm, Arr.solve_mm, h]

theorem correct_shape (I P : Matrix (Fin n) (Fin n) F) (K : Matrix (Fin n) (Fin m) F) (H : Matrix (Fin m) (Fin n) F) (x : Fin n → F) (z : Fin m → F) :
    ∃ y : Fin n → F, KalmanFilter.correct (.mat .float64 I) (.mat .float64 K) (.mat .float64 H) (.vec .float64 x) (.mat .float64 P)
      (.vec .float64 z) = .ok (.vec .float64 y, .mat .float64 (Backend.gemm (Arr.mSub I (Backend.gemm K H)) P)) := by
  have hat : ∀ {q : ℕ} (v : Fin q → F) (d : DType), (Arr.vec d v).atleast1d = .vec d v := fun _ _ => rfl
  simp only [KalmanFilter.correct, hat, Arr.matmul_mv, Arr.matmul_mm, Except.bind_ok', Arr.add_vv, Arr.sub_vv, Arr.sub_mm]
  exact ⟨_, rfl⟩

end

/-- `[[p, q], [r, s]]` -/
def twoByTwo (p q r s : ℝ) : Matrix (Fin 2) (Fin 2) Fl := fun i j => if i = 0 then if j = 0 then .fin p else .fin q else if j = 0 then .fin r else .fin s

/-- `[[p, q]]` -/
def oneByTwo (p q : ℝ) : Matrix (Fin 1) (Fin 2) Fl := fun _ j => if j = 0 then .fin p else .fin q

/-- **C131** (asymmetric covariances): in every such format there is a filter for two states, of which the first is observed, with the
symmetric positive definite covariance `[[1, 3/4], [3/4, 1]]`, `A` the identity and `Q = 0`, such that `filter` returns without an exception,
for every observation, and the returned covariance is not symmetric. -/
theorem C131_asymmetric {p : ℕ} {emin : ℤ} {M : ℝ} {a : FloatUnit} (nanInt : ℝ) (hv : a.Valid) (hn : Nearest p emin M a.fl) (hp : 12 ≤ p)
    (hem : emin ≤ -2) (hM : 2 ≤ M) :
    ∃ H R v w : ℝ, 1 < H ∧ H < 2 ∧ 0 < R ∧ v ≠ w ∧ IsBinary p emin H ∧ IsBinary p emin R ∧ ∀ z : Fl, ∃ kf kf' x, ∃ C : Matrix (Fin 2) (Fin 2) Fl,
      @KalmanFilter.new Fl (floatB nanInt a) (.stack [.mat .float64 (twoByTwo 1 0 0 1)]) (.vec .float64 (fun _ : Fin 2 => Fl.fin 0)) none
        (.mat .float64 (twoByTwo 1 (3 / 4) (3 / 4) 1)) (.stack [.mat .float64 (oneByTwo H 0)]) (.stack [.mat .float64 (twoByTwo 0 0 0 0)])
        (.stack [oneByOne R]) none = .ok kf ∧
      (@KalmanFilter.filter Fl (floatB nanInt a) (.stack [.vec .float64 (fun _ : Fin 1 => z)]) none).run kf =
        (.ok ([x], [.mat .float64 C]), kf') ∧ C 0 1 = .fin v ∧ C 1 0 = .fin w := by
  obtain ⟨H, e, he, h0, h1, h2, hb, hb4, hex, S, K, hS0, n1, n2, n3, n4⟩ := negative_numbers hn hp hem hM
  obtain ⟨d12, de, g, L, u, y, m1, m2, m3, m4, m5, m6⟩ := asym_numbers hn hp hem hM he h1 h2 n1
  have hm := hn.monotone (by omega) (by omega) (by linarith)
  refine ⟨H, e / 4, -e * (3 / 4), y, h1, by linarith, by positivity, m6.symm, hb, hb4, fun z => ?_⟩
  have x1 := hex _ (.inr (.inl rfl))
  have x0 := hm.zero
  have xH := hex _ (.inr (.inr (.inl rfl)))
  have xe := hex _ (.inr (.inr (.inr rfl)))
  let Bk := floatB nanInt a
  obtain ⟨P, hP⟩ : ∃ P, P = twoByTwo 1 (3 / 4) (3 / 4) 1 := ⟨_, rfl⟩
  obtain ⟨I, hI⟩ : ∃ I, I = twoByTwo 1 0 0 1 := ⟨_, rfl⟩
  obtain ⟨h, hh⟩ : ∃ h, h = oneByTwo H 0 := ⟨_, rfl⟩
  have p00 : P 0 0 = .fin 1 := by rw [hP]; rfl
  have p01 : P 0 1 = .fin (3 / 4) := by rw [hP]; rfl
  have p10 : P 1 0 = .fin (3 / 4) := by rw [hP]; rfl
  have p11 : P 1 1 = .fin 1 := by rw [hP]; rfl
  have i00 : I 0 0 = .fin 1 := by rw [hI]; rfl
  have i01 : I 0 1 = .fin 0 := by rw [hI]; rfl
  have i10 : I 1 0 = .fin 0 := by rw [hI]; rfl
  have i11 : I 1 1 = .fin 1 := by rw [hI]; rfl
  have h00 : h 0 0 = .fin H := by rw [hh]; rfl
  have h01 : h 0 1 = .fin 0 := by rw [hh]; rfl
  have mext : ∀ {A B : Matrix (Fin 2) (Fin 2) Fl}, A 0 0 = B 0 0 → A 0 1 = B 0 1 → A 1 0 = B 1 0 → A 1 1 = B 1 1 → A = B := by
    intro A B a1 a2 a3 a4
    ext i j
    fin_cases i <;> fin_cases j <;> assumption
  have g1 : Backend.gemm P Iᵀ = P := by
    refine mext ?_ ?_ ?_ ?_
    · rw [p00]; exact gemm_exact hv p00 p01 i00 i01 (by simpa using x1) (by simpa using x0) (by simpa using x1)
    · rw [p01]; exact gemm_exact hv p00 p01 i10 i11 (by simpa using x0) (by simpa using d12) (by simpa using d12)
    · rw [p10]; exact gemm_exact hv p10 p11 i00 i01 (by simpa using d12) (by simpa using x0) (by simpa using d12)
    · rw [p11]; exact gemm_exact hv p10 p11 i10 i11 (by simpa using x0) (by simpa using x1) (by simpa using x1)
  have g2 : Backend.gemm I P = P := by
    refine mext ?_ ?_ ?_ ?_
    · rw [p00]; exact gemm_exact hv i00 i01 p00 p10 (by simpa using x1) (by simpa using x0) (by simpa using x1)
    · rw [p01]; exact gemm_exact hv i00 i01 p01 p11 (by simpa using d12) (by simpa using x0) (by simpa using d12)
    · rw [p10]; exact gemm_exact hv i10 i11 p00 p10 (by simpa using x0) (by simpa using d12) (by simpa using d12)
    · rw [p11]; exact gemm_exact hv i10 i11 p01 p11 (by simpa using x0) (by simpa using x1) (by simpa using x1)
  have g3 : Arr.mAdd P (twoByTwo 0 0 0 0) = P := by
    refine mext ?_ ?_ ?_ ?_
    · show fadd a.fl (P 0 0) (.fin 0) = _; rw [p00]; simpa [fadd] using x1
    · show fadd a.fl (P 0 1) (.fin 0) = _; rw [p01]; simpa [fadd] using d12
    · show fadd a.fl (P 1 0) (.fin 0) = _; rw [p10]; simpa [fadd] using d12
    · show fadd a.fl (P 1 1) (.fin 0) = _; rw [p11]; simpa [fadd] using x1
  have hnan : ((Arr.mat .float64 (fun (_ _ : Fin 2) => Fl.nan)).isnanAll || (Arr.vec .float64 (fun (_ : Fin 1) => Fl.nan)).isnanAll) = true := by
    rw [Bool.or_eq_true]
    refine .inl ?_
    simp only [Arr.isnanAll, decide_eq_true_eq]
    exact fun i j => rfl
  have hpred := predict_shape I P (twoByTwo 0 0 0 0) (fun _ : Fin 2 => Fl.fin 0) hnan
  rw [g1, g2, g3] at hpred
  -- the gain
  have q0 : Backend.gemm P hᵀ 0 0 = .fin H := gemm_zero_right hv hm p00 p01 h00 h01 (by simp) (by simpa using xH)
  have q1 : Backend.gemm P hᵀ 1 0 = .fin g := gemm_zero_right hv hm p10 p11 h00 h01 (by simp) (by rw [mul_comm]; exact m1)
  have q2 : Backend.gemm h (Backend.gemm P hᵀ) 0 0 = .fin S := gemm_zero_right hv hm h00 h01 q0 q1 (by simp) n1
  have q3 : Backend.gemm h Pᵀ 0 0 = .fin H := gemm_zero_right hv hm h00 h01 p00 p01 (by simp) (by simpa using xH)
  have q4 : Backend.gemm h Pᵀ 0 1 = .fin g := gemm_zero_right hv hm h00 h01 p10 p11 (by simp) m1
  have q5 : Arr.mAdd (Backend.gemm h (Backend.gemm P hᵀ)) (fun (_ _ : Fin 1) => Fl.fin (e / 4)) 0 0 = .fin S := by
    show fadd a.fl (Backend.gemm h (Backend.gemm P hᵀ) 0 0) (.fin (e / 4)) = _
    rw [q2]
    exact n2
  obtain ⟨X, hX⟩ : ∃ X : Matrix (Fin 1) (Fin 2) Fl, X = fun _ j => fdiv a.fl (Backend.gemm h Pᵀ 0 j)
    (Arr.mAdd (Backend.gemm h (Backend.gemm P hᵀ)) (fun (_ _ : Fin 1) => Fl.fin (e / 4)) 0 0) := ⟨_, rfl⟩
  have hsol : Backend.solve (Arr.mAdd (Backend.gemm h (Backend.gemm P hᵀ)) (fun (_ _ : Fin 1) => Fl.fin (e / 4)))ᵀ (Backend.gemm h Pᵀ) = some X := by
    refine (solve_one _ _).trans ?_
    rw [hX, if_neg]
    · rfl
    · intro hc
      have hc : Arr.mAdd (Backend.gemm h (Backend.gemm P hᵀ)) (fun (_ _ : Fin 1) => Fl.fin (e / 4)) 0 0 = .fin 0 := hc
      rw [q5] at hc
      injection hc with hc
      exact hS0 hc
  have hg := gain_shape h P (fun (_ _ : Fin 1) => Fl.fin (e / 4)) hsol
  have X0 : X 0 0 = .fin K := by
    rw [hX]
    show fdiv a.fl (Backend.gemm h Pᵀ 0 0) _ = _
    rw [q3, q5]
    exact n3
  have X1 : X 0 1 = .fin L := by
    rw [hX]
    show fdiv a.fl (Backend.gemm h Pᵀ 0 1) _ = _
    rw [q4, q5]
    exact m2
  -- the covariance
  have r : ∀ i j, Backend.gemm Xᵀ h i j = fmul a.fl (X 0 i) (h 0 j) := fun i j => congrFun (congrFun (gemm_one hv _ _) i) j
  have s00 : Arr.mSub I (Backend.gemm Xᵀ h) 0 0 = .fin (-e) := by
    show fsub a.fl (I 0 0) (Backend.gemm Xᵀ h 0 0) = _
    rw [r, i00, X0, h00]
    show fsub a.fl (.fin 1) (a.fl (K * H)) = _
    rw [n4]
    show a.fl (1 - (1 + e)) = _
    rw [show (1 - (1 + e) : ℝ) = -e by ring, xe]
  have s01 : Arr.mSub I (Backend.gemm Xᵀ h) 0 1 = .fin 0 := by
    show fsub a.fl (I 0 1) (Backend.gemm Xᵀ h 0 1) = _
    rw [r, i01, X0, h01]
    show fsub a.fl (.fin 0) (a.fl (K * 0)) = _
    rw [mul_zero, x0]
    show a.fl (0 - 0) = _
    rw [sub_zero, x0]
  have s10 : Arr.mSub I (Backend.gemm Xᵀ h) 1 0 = .fin (-u) := by
    show fsub a.fl (I 1 0) (Backend.gemm Xᵀ h 1 0) = _
    rw [r, i10, X1, h00]
    show fsub a.fl (.fin 0) (a.fl (L * H)) = _
    rw [m3]
    show a.fl (0 - u) = _
    rw [zero_sub, m4]
  have s11 : Arr.mSub I (Backend.gemm Xᵀ h) 1 1 = .fin 1 := by
    show fsub a.fl (I 1 1) (Backend.gemm Xᵀ h 1 1) = _
    rw [r, i11, X1, h01]
    show fsub a.fl (.fin 1) (a.fl (L * 0)) = _
    rw [mul_zero, x0]
    show a.fl (1 - 0) = _
    rw [sub_zero, x1]
  have c01 : Backend.gemm (Arr.mSub I (Backend.gemm Xᵀ h)) P 0 1 = .fin (-e * (3 / 4)) := gemm_zero_right hv hm s00 s01 p01 p11 (by simp) de
  have c10 : Backend.gemm (Arr.mSub I (Backend.gemm Xᵀ h)) P 1 0 = .fin y :=
    gemm_exact hv s10 s11 p00 p10 (by simpa using m4) (by simpa using d12) (by simpa using m5)
  obtain ⟨x', hc⟩ := correct_shape I P Xᵀ h (fun i => Backend.gemm (n := 1) I (fun i _ => Fl.fin 0) i 0) (fun _ : Fin 1 => z)
  have hid : Arr.identity 2 = Arr.mat .float64 I := by
    unfold Arr.identity
    congr 1
    refine mext ?_ ?_ ?_ ?_
    · rw [i00]; rfl
    · rw [i01]; rfl
    · rw [i10]; rfl
    · rw [i11]; rfl
  have hA1 : Arr.assignVec 2 (.vec .float64 x') = .ok (.vec .float64 x') := by simp [Arr.assignVec]
  have hA2 : Arr.assignMat 2 (.mat .float64 (Backend.gemm (Arr.mSub I (Backend.gemm Xᵀ h)) P)) =
    .ok (.mat .float64 (Backend.gemm (Arr.mSub I (Backend.gemm Xᵀ h)) P)) := by simp [Arr.assignMat]
  have hstep : KalmanFilter.step 2 (Arr.mat .float64 I) (.mat .float64 I, .mat .float64 h,
      .mat .float64 (fun (_ _ : Fin 2) => Fl.nan), .vec .float64 (fun _ : Fin 1 => Fl.nan), .vec .float64 (fun _ : Fin 1 => z),
      .mat .float64 (twoByTwo 0 0 0 0), oneByOne (e / 4)) (.vec .float64 (fun _ : Fin 2 => Fl.fin 0)) (.mat .float64 P) =
      (some (.mat .float64 Xᵀ), .ok ((.vec .float64 x', .mat .float64 (Backend.gemm (Arr.mSub I (Backend.gemm Xᵀ h)) P)),
        (.vec .float64 x', .mat .float64 (Backend.gemm (Arr.mSub I (Backend.gemm Xᵀ h)) P)))) := by
    simp only [KalmanFilter.step, hpred, oneByOne, hg, hc, Except.bind_ok', hA1, hA2]
  rw [← hI, ← hP, ← hh]
  have htr : trace (KalmanFilter.step 2 (Arr.identity 2)) [(.mat .float64 I, .mat .float64 h,
      .mat .float64 (fun (_ _ : Fin 2) => Fl.nan), .vec .float64 (fun _ : Fin 1 => Fl.nan), .vec .float64 (fun _ : Fin 1 => z),
      .mat .float64 (twoByTwo 0 0 0 0), oneByOne (e / 4))] (.vec .float64 (fun _ : Fin 2 => Fl.fin 0)) (.mat .float64 P) =
      ⟨[(.vec .float64 x', .mat .float64 (Backend.gemm (Arr.mSub I (Backend.gemm Xᵀ h)) P))], [.mat .float64 Xᵀ], none,
        (.vec .float64 x', .mat .float64 (Backend.gemm (Arr.mSub I (Backend.gemm Xᵀ h)) P))⟩ := by
    rw [hid]
    simp only [trace, hstep]
    rfl
  refine ⟨_, Prod.snd _, .vec .float64 x', _, rfl, Prod.ext ?_ rfl, c01, c10⟩
  refine (congrArg Prod.fst (KalmanFilter.filter_eq _ _ _)).trans ?_
  exact congrArg (fun t : Trace Fl => t.result 0 _ _) htr

/-- binary64 -/
example (fused : Bool) : (binaryUnit 53 (-1022) ((2 ^ 53 - 1) * 2 ^ 971) fused).Valid ∧
    Nearest 53 (-1022) ((2 ^ 53 - 1) * 2 ^ 971) (binaryUnit 53 (-1022) ((2 ^ 53 - 1) * 2 ^ 971) fused).fl ∧ 12 ≤ 53 ∧ (-1022 : ℤ) ≤ -2 ∧
    (2 : ℝ) ≤ (2 ^ 53 - 1) * 2 ^ 971 :=
  ⟨binaryUnit_valid _ _ _ _, binary64_nearest fused, by norm_num, by norm_num, binary64_max_ge⟩

end KK
