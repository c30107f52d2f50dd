import Verif.Proofs.Float
import Verif.Props.Approx
import Verif.Test.Binary

/-!
# C94: floating-point arithmetic with enough digits

`floatB nanInt a` is the arithmetic of numpy on a machine that rounds every operation, sums dot products in any order and
solves linear systems by Gaussian elimination with partial pivoting (Spec/Float).
-/

set_option linter.unusedSectionVars false

namespace KK

open Matrix

/-- The machine `a` rounds validly, with unit roundoff and underflow error at most `δ` and overflow not below `1 / δ`. -/
def FloatUnit.Precise (δ : ℝ) (a : FloatUnit) : Prop :=
  a.Valid ∧ ∃ u μ M : ℝ, Rounds u μ M a.fl ∧ u ≤ δ ∧ μ ≤ δ ∧ 1 / δ ≤ M

theorem Precise.accurate (nanInt : ℝ) {η : ℝ} (hη : 0 < η) :
    ∃ δ > 0, ∀ a : FloatUnit, a.Precise δ → Accurate nanInt η (floatB nanInt a) := by
  obtain ⟨δ, hδ, h⟩ := float_accurate nanInt hη
  exact ⟨δ, hδ, fun a ⟨hv, u, μ, M, h1, h2, h3, h4⟩ => h a u μ M hv h1 h2 h3 h4⟩

/-- C94 (`filter`): if the exact run returns, then for every `ε` there are a precision `δ` and an `η` such that on every machine
of that precision, on inputs within `η` of the given ones, `filter` returns, with every entry of the states, the covariances and
the recorded gains within `ε` of the exact one, and NaN exactly where the exact run has NaN. -/
theorem C94_filter (nanInt : ℝ) (kf : KalmanFilter Fl) (Z : NDArray Fl) (U : Option (NDArray Fl))
    {xs Ps : List (Arr Fl)} {kf' : KalmanFilter Fl}
    (h : (@KalmanFilter.filter Fl (exactB nanInt) Z U).run kf = (.ok (xs, Ps), kf')) {ε : ℝ} (hε : 0 < ε) :
    ∃ δ > 0, ∃ η > 0, ∀ (a : FloatUnit) kf₁ Z₁ U₁, a.Precise δ → kf.Close η kf₁ → Z.Close η Z₁ → CloseOpt η U U₁ →
      FilterWithin ε (floatB nanInt a) kf₁ Z₁ U₁ xs Ps kf'.kalmanGains := by
  obtain ⟨η, hη, h1⟩ := C86_filter_consistent nanInt kf Z U h hε
  obtain ⟨δ, hδ, h2⟩ := Precise.accurate nanInt hη
  exact ⟨δ, hδ, η, hη, fun a kf₁ Z₁ U₁ ha => h1 _ kf₁ Z₁ U₁ (h2 a ha)⟩

/-- C94 (`smooth`). -/
theorem C94_smooth (nanInt : ℝ) (kf : KalmanFilter Fl) (Z : NDArray Fl) (U : Option (NDArray Fl))
    {xs Ps : List (Arr Fl)} {kf' : KalmanFilter Fl}
    (h : (@KalmanFilter.smooth Fl (exactB nanInt) Z U).run kf = (.ok (xs, Ps), kf')) {ε : ℝ} (hε : 0 < ε) :
    ∃ δ > 0, ∃ η > 0, ∀ (a : FloatUnit) kf₁ Z₁ U₁, a.Precise δ → kf.Close η kf₁ → Z.Close η Z₁ → CloseOpt η U U₁ →
      SmoothWithin ε (floatB nanInt a) kf₁ Z₁ U₁ xs Ps kf'.kalmanGains := by
  obtain ⟨η, hη, h1⟩ := C86_smooth_consistent nanInt kf Z U h hε
  obtain ⟨δ, hδ, h2⟩ := Precise.accurate nanInt hη
  exact ⟨δ, hδ, η, hη, fun a kf₁ Z₁ U₁ ha => h1 _ kf₁ Z₁ U₁ (h2 a ha)⟩

/-- C94 (`ExtendedKalmanFilter.filter`, continuous callbacks; `kf₁` has callbacks that compute those of `kf` within `η`). -/
theorem C94_ext_filter (nanInt : ℝ) (kf : ExtendedKalmanFilter Fl) (hk : kf.ContinuousCallbacks)
    (Z : NDArray Fl) (U : Option (NDArray Fl)) {xs Ps : List (Arr Fl)} {kf' : ExtendedKalmanFilter Fl}
    (h : (@ExtendedKalmanFilter.filter Fl (exactB nanInt) Z U).run kf = (.ok (xs, Ps), kf')) {ε : ℝ} (hε : 0 < ε) :
    ∃ δ > 0, ∃ η > 0, ∀ (a : FloatUnit) kf₁ Z₁ U₁, a.Precise δ → kf.Close η kf₁ → Z.Close η Z₁ → CloseOpt η U U₁ →
      ExtFilterWithin ε (floatB nanInt a) kf₁ Z₁ U₁ xs Ps kf'.kalmanGains := by
  obtain ⟨η, hη, h1⟩ := C87_ext_filter_consistent nanInt kf hk Z U h hε
  obtain ⟨δ, hδ, h2⟩ := Precise.accurate nanInt hη
  exact ⟨δ, hδ, η, hη, fun a kf₁ Z₁ U₁ ha => h1 _ kf₁ Z₁ U₁ (h2 a ha)⟩

/-- C94 (`ExtendedKalmanFilter.smooth`). -/
theorem C94_ext_smooth (nanInt : ℝ) (kf : ExtendedKalmanFilter Fl) (hk : kf.ContinuousCallbacks)
    (Z : NDArray Fl) (U : Option (NDArray Fl)) {xs Ps : List (Arr Fl)} {kf' : ExtendedKalmanFilter Fl}
    (h : (@ExtendedKalmanFilter.smooth Fl (exactB nanInt) Z U).run kf = (.ok (xs, Ps), kf')) {ε : ℝ} (hε : 0 < ε) :
    ∃ δ > 0, ∃ η > 0, ∀ (a : FloatUnit) kf₁ Z₁ U₁, a.Precise δ → kf.Close η kf₁ → Z.Close η Z₁ → CloseOpt η U U₁ →
      ExtSmoothWithin ε (floatB nanInt a) kf₁ Z₁ U₁ xs Ps kf'.kalmanGains := by
  obtain ⟨η, hη, h1⟩ := C87_ext_smooth_consistent nanInt kf hk Z U h hε
  obtain ⟨δ, hδ, h2⟩ := Precise.accurate nanInt hη
  exact ⟨δ, hδ, η, hη, fun a kf₁ Z₁ U₁ ha => h1 _ kf₁ Z₁ U₁ (h2 a ha)⟩

/-- Binary arithmetics with enough digits are precise, whatever the order of the dot products and the choice of pivots. -/
theorem binary_precise {δ : ℝ} (hδ : 0 < δ) : ∃ p₀ : ℕ, ∀ (p : ℕ) (emin : ℤ) (M : ℝ) (a : FloatUnit), p₀ ≤ p → emin ≤ 0 →
    2 ^ p₀ ≤ M → a.fl = binary p emin M → a.Valid → a.Precise δ := by
  obtain ⟨p₀, hp₀⟩ := exists_pow_lt_of_lt_one hδ (by norm_num : (1 / 2 : ℝ) < 1)
  have h0 : (2 : ℝ) ^ (-(p₀ : ℤ)) < δ := by
    rw [_root_.zpow_neg, zpow_natCast, ← inv_pow]
    simpa [one_div] using hp₀
  refine ⟨p₀, fun p emin M a hp he hM ha hv => ⟨hv, _, _, M, ha ▸ binary_rounds p emin M, ?_, ?_, ?_⟩⟩
  · refine le_trans ?_ h0.le
    exact zpow_le_zpow_right₀ (by norm_num) (by omega)
  · refine le_trans ?_ h0.le
    exact zpow_le_zpow_right₀ (by norm_num) (by omega)
  · refine le_trans ?_ hM
    rw [one_div_le hδ (by positivity), one_div, ← zpow_natCast, ← _root_.zpow_neg]
    exact h0.le

/-- C94 for binary floating point, against the textbook: if the innovation covariances of the model are invertible (and for
`smooth` the predicted covariances), then with enough binary digits and exponent range the results of `filter` and `smooth` on
inputs within `η` of the model are within `ε` of the Kalman filter and the Rauch-Tung-Striebel smoother. -/
theorem C94_binary [P : Platform] {n m : ℕ} (kf : KalmanFilter Fl) (Z : NDArray Fl) (U : Option (NDArray Fl))
    (b : Belief n) (ss : List (LinStep n m)) (h : Represents kf Z U b ss) (hfull : ss.length = Z.rows.length) (hne : ss ≠ [])
    (hs : Solvable b ss) (hsm : SmoothSolvable b ss) {ε : ℝ} (hε : 0 < ε) :
    ∃ p₀ : ℕ, ∃ η > 0, ∀ (p : ℕ) (emin : ℤ) (M : ℝ) (a : FloatUnit) kf₁ Z₁ U₁, p₀ ≤ p → emin ≤ 0 → 2 ^ p₀ ≤ M →
      a.fl = binary p emin M → a.Valid → kf.Close η kf₁ → Z.Close η Z₁ → CloseOpt η U U₁ →
      FilterWithin ε (floatB P.nanInt a) kf₁ Z₁ U₁ ((filtered b ss).map stateRow) ((filtered b ss).map covRow)
        (kf.kalmanGains ++ (gainsOf b ss).map gainRow) ∧
      SmoothWithin ε (floatB P.nanInt a) kf₁ Z₁ U₁ ((smoothed b ss).map stateRow) ((smoothed b ss).map covRow)
        (kf.kalmanGains ++ (gainsOf b ss).map gainRow) := by
  obtain ⟨η₁, hη₁, f1⟩ := C86_filter_textbook kf Z U b ss h hs hε
  obtain ⟨η₂, hη₂, f2⟩ := C86_smooth_rts kf Z U b ss h hfull hne hs hsm hε
  rw [hfull, Nat.sub_self] at f1
  simp only [List.replicate_zero, List.append_nil] at f1
  obtain ⟨δ₁, hδ₁, g1⟩ := Precise.accurate P.nanInt hη₁
  obtain ⟨δ₂, hδ₂, g2⟩ := Precise.accurate P.nanInt hη₂
  obtain ⟨p₁, hp₁⟩ := binary_precise hδ₁
  obtain ⟨p₂, hp₂⟩ := binary_precise hδ₂
  have hpow : ∀ {q : ℕ} {M : ℝ}, q ≤ max p₁ p₂ → (2 : ℝ) ^ max p₁ p₂ ≤ M → (2 : ℝ) ^ q ≤ M := fun hq hM =>
    (pow_le_pow_right₀ (by norm_num) hq).trans hM
  refine ⟨max p₁ p₂, min η₁ η₂, lt_min hη₁ hη₂, fun p emin M a kf₁ Z₁ U₁ hp he hM ha hv k1 k2 k3 => ⟨?_, ?_⟩⟩
  · exact f1 _ kf₁ Z₁ U₁ (g1 a (hp₁ p emin M a (by omega) he (hpow (le_max_left _ _) hM) ha hv)) (k1.mono (min_le_left _ _))
      (k2.mono (min_le_left _ _)) (k3.mono (min_le_left _ _))
  · exact f2 _ kf₁ Z₁ U₁ (g2 a (hp₂ p emin M a (by omega) he (hpow (le_max_right _ _) hM) ha hv)) (k1.mono (min_le_right _ _))
      (k2.mono (min_le_right _ _)) (k3.mono (min_le_right _ _))

/-! ### the hypotheses are met -/

/-- Every precision is met by binary arithmetic, with or without fused multiply-add. -/
example {δ : ℝ} (hδ : 0 < δ) (fused : Bool) : ∃ p, ∃ a : FloatUnit, a.fl = binary p (-1022) (2 ^ p) ∧ a.fused = fused ∧
    a.Precise δ := by
  obtain ⟨p, hp⟩ := binary_precise hδ
  exact ⟨p, binaryUnit p (-1022) (2 ^ p) fused, rfl, rfl,
    hp p (-1022) (2 ^ p) _ le_rfl (by norm_num) le_rfl rfl (binaryUnit_valid _ _ _ _)⟩

/-- binary64 -/
example (fused : Bool) : (binaryUnit 53 (-1022) (2 ^ 1023) fused).Valid ∧
    Rounds (2 ^ (-53 : ℤ)) (2 ^ (-1075 : ℤ)) (2 ^ 1023) (binaryUnit 53 (-1022) (2 ^ 1023) fused).fl :=
  ⟨binaryUnit_valid _ _ _ _, by simpa [binaryUnit] using binary_rounds 53 (-1022) (2 ^ 1023)⟩

/-- The constant-velocity model filtered and smoothed in binary floating point: with enough digits the result is
within a thousandth of the textbook. -/
example (z₁ z₂ z₃ : ℝ) : ∃ p : ℕ, SmoothWithin 0.001 (floatB 0 (binaryUnit p (-1022) (2 ^ p) true))
    (@Ex.encode 2 1 (strict 0) Ex.cvBelief [Ex.cvStep 0 z₁, Ex.cvStep 1 z₂, Ex.cvStep 0 z₃])
    (Ex.encZ [Ex.cvStep 0 z₁, Ex.cvStep 1 z₂, Ex.cvStep 0 z₃])
    (some (Ex.encU [Ex.cvStep 0 z₁, Ex.cvStep 1 z₂, Ex.cvStep 0 z₃]))
    ((smoothed Ex.cvBelief [Ex.cvStep 0 z₁, Ex.cvStep 1 z₂, Ex.cvStep 0 z₃]).map stateRow)
    ((smoothed Ex.cvBelief [Ex.cvStep 0 z₁, Ex.cvStep 1 z₂, Ex.cvStep 0 z₃]).map covRow)
    ((gainsOf Ex.cvBelief [Ex.cvStep 0 z₁, Ex.cvStep 1 z₂, Ex.cvStep 0 z₃]).map gainRow) := by
  let _ : Platform := strict 0
  have hpd : ∀ s ∈ [Ex.cvStep 0 z₁, Ex.cvStep 1 z₂, Ex.cvStep 0 z₃], PdStep s := by
    intro s hs
    simp only [List.mem_cons, List.not_mem_nil, or_false] at hs
    rcases hs with rfl | rfl | rfl <;>
      exact ⟨(Ex.cvStep_Q _ _).posSemidef, Ex.cvStep_R _ _, .inr (Ex.cvStep_Q _ _)⟩
  obtain ⟨p, η, hη, h⟩ := C94_binary _ _ _ _ _
    (Ex.encode_represents Ex.cvBelief [Ex.cvStep 0 z₁, Ex.cvStep 1 z₂, Ex.cvStep 0 z₃])
    (by simp [Ex.encZ, NDArray.rows]) (by simp) (solvable_pd _ _ Ex.cv_posDef hpd) (smoothSolvable_pd _ _ Ex.cv_posDef hpd)
    (ε := 0.001) (by norm_num)
  refine ⟨p, ?_⟩
  have := (h p (-1022) (2 ^ p) (binaryUnit p (-1022) (2 ^ p) true) _ _ _ le_rfl (by norm_num) le_rfl rfl
    (binaryUnit_valid _ _ _ _) (KalmanFilter.close_refl hη.le _) (NDArray.close_refl hη.le _)
    ⟨_, rfl, NDArray.close_refl hη.le _⟩).2
  exact this

end KK
