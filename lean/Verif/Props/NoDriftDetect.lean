import Verif.Props.NoDriftSmooth
import Verif.Props.Detectability

/-!
# C169, C170: rounding errors do not accumulate in models that are only detectable and stabilizable
-/

set_option linter.unusedSectionVars false

namespace KK

open Matrix Filter Topology
open scoped Matrix.Norms.Elementwise

section
variable {n m : ℕ} {A Q : Matrix (Fin n) (Fin n) ℝ} {H : Matrix (Fin m) (Fin n) ℝ} {R : Matrix (Fin m) (Fin m) ℝ}

/-- The covariances of a detectable and stabilizable model converge to its steady state. -/
theorem iter_tendsto_detect (hQ : Q.PosSemidef) (hR : R.PosDef) (hd : Detectable A H) (hs : Stabilizable A Q)
    {P : Matrix (Fin n) (Fin n) ℝ} (hP : P.PosSemidef) : ∃ F : Matrix (Fin n) (Fin n) ℝ, F.PosSemidef ∧ ric A H Q R F = F ∧
      Stable (closedLoop A Q H R F) ∧ Tendsto (fun k => (ric A H Q R)^[k] P) atTop (𝓝 F) := by
  obtain ⟨F, hF, hfix, hT⟩ := exists_limit (A := A) (H := H) hQ hR hd
  have hst := closedLoop_stable (H := H) hQ hR hs hF hfix
  obtain ⟨C₀, ρ₀, hC₀, h0₀, h1₀, hb⟩ := cov_decay_detect hQ hR hF hfix hst hT
  refine ⟨F, hF, hfix, hst, tendsto_pi_nhds.2 fun i => tendsto_pi_nhds.2 fun j => ?_⟩
  have ht : Tendsto (fun k => C₀ * ρ₀ ^ k * (1 + ‖P‖)) atTop (𝓝 0) := by
    have := ((tendsto_pow_atTop_nhds_zero_of_lt_one h0₀.le h1₀).const_mul C₀).mul_const (1 + ‖P‖)
    rwa [mul_zero, zero_mul] at this
  refine tendsto_iff_norm_sub_tendsto_zero.2 (squeeze_zero (fun k => norm_nonneg _) (fun k => ?_) ht)
  exact hb P hP k i j

theorem Settles.of_detectable (hQ : Q.PosSemidef) (hR : R.PosDef) (hd : Detectable A H) (hs : Stabilizable A Q)
    {P : Matrix (Fin n) (Fin n) ℝ} (hP : P.PosSemidef) : Settles A Q H R P := by
  obtain ⟨F, hF, hfix, hst, hlim⟩ := iter_tendsto_detect (H := H) hQ hR hd hs hP
  refine ⟨?_, ?_, @run_bound_detect _ _ _ _ _ _ (strict 0) hQ hR hd hs P hP⟩
  · obtain ⟨C, ρ, hC, h0, h1, hprop⟩ := prop_decay hQ hR hF hst hlim
    have hn : (0 : ℝ) ≤ n := Nat.cast_nonneg n
    refine ⟨(n + 1) * C, ρ, by nlinarith, h0, h1, fun j k d => (mulVec_norm _ d).trans (mul_le_mul_of_nonneg_right ?_ (norm_nonneg d))⟩
    have h2 := mul_le_mul_of_nonneg_left (hprop j k) hn
    have h3 : 0 ≤ C * ρ ^ k := by positivity
    linarith
  · obtain ⟨Y, hY⟩ := hlim.norm.bddAbove_range
    exact ⟨1 + |Y|, by positivity, fun k => (hY ⟨k, rfl⟩ : ‖(ric A H Q R)^[k] P‖ ≤ Y).trans (by linarith [le_abs_self Y])⟩

/-! ### the backward recursion -/

/-- If the steady predicted covariance is nonsingular, so is the steady covariance. -/
theorem steady_lasting (hQ : Q.PosSemidef) (hR : R.PosDef) {F : Matrix (Fin n) (Fin n) ℝ} (hF : F.PosSemidef)
    (hfix : ric A H Q R F = F) (hp : (priorCov A F Q).det ≠ 0) : Lasting A Q H R F := by
  have hpd : (priorCov A F Q).PosDef := (priorCov_posSemidef (A := A) hF hQ).posDef_iff_isUnit.2
    ((Matrix.isUnit_iff_isUnit_det _).2 (isUnit_iff_ne_zero.2 hp))
  have : F.PosDef := by
    rw [← hfix]; exact postCov_posDef hpd hR
  intro i
  rwa [steady_iter hfix]

/-- The smoother gain of the steady state is stable. -/
theorem smGain_stable (hQ : Q.PosSemidef) (hR : R.PosDef) {F : Matrix (Fin n) (Fin n) ℝ} (hfix : ric A H Q R F = F)
    (hl : Lasting A Q H R F) (hs : Stable (closedLoop A Q H R F)) : Stable (smGain A Q F)ᵀ := by
  have hpow : ∀ k, (smGain A Q F)ᵀ ^ k = (F * (closedLoop A Q H R F ^ k)ᵀ * F⁻¹)ᵀ := fun k => by
    have e1 : ∀ t k, backProd A Q H R F t k = smGain A Q F ^ k := fun t k => by
      induction k generalizing t with
      | zero => rfl
      | succ k ih => rw [backProd, ih, steady_iter hfix, pow_succ']
    have e2 := backProd_backTo hQ hR F 0 k hl
    rw [e1, Function.iterate_zero, id, backTo, prop_steady hfix, steady_iter hfix] at e2
    rw [← e2, transpose_pow]
  have hc : Continuous fun X : Matrix (Fin n) (Fin n) ℝ => (F * Xᵀ * F⁻¹)ᵀ := by fun_prop
  have h0 : Tendsto (fun k => closedLoop A Q H R F ^ k) atTop (𝓝 0) := hs
  have h1 := (hc.tendsto 0).comp h0
  simp only [transpose_zero, Matrix.mul_zero, Matrix.zero_mul] at h1
  exact h1.congr fun k => (hpow k).symm

theorem SettlesBack.of_detectable (hQ : Q.PosSemidef) (hR : R.PosDef) (hd : Detectable A H) (hs : Stabilizable A Q)
    (hp : ∀ F : Matrix (Fin n) (Fin n) ℝ, F.PosSemidef → SteadyState A H Q R F → (A * F * Aᵀ + Q).det ≠ 0)
    {P : Matrix (Fin n) (Fin n) ℝ} (hP : P.PosSemidef) : SettlesBack A Q H R P := by
  obtain ⟨F, hF, hfix, hst, hlim⟩ := iter_tendsto_detect (H := H) hQ hR hd hs hP
  have hpF : (priorCov A F Q).det ≠ 0 := hp F hF (steadyState_iff.2 hfix)
  have hl := steady_lasting (H := H) hQ hR hF hfix hpF
  have hprior : Continuous fun X : Matrix (Fin n) (Fin n) ℝ => priorCov A X Q := by unfold priorCov; fun_prop
  have hpl := (hprior.tendsto F).comp hlim
  have hdl : Tendsto (fun k => |(priorCov A ((ric A H Q R)^[k] P) Q).det|) atTop (𝓝 |(priorCov A F Q).det|) := by
    have : Continuous fun X : Matrix (Fin n) (Fin n) ℝ => |X.det| := by fun_prop
    exact (this.tendsto _).comp hpl
  refine ⟨.of_detectable hQ hR hd hs hP, ?_, ?_⟩
  · have hg : Tendsto (fun k => smGain A Q ((ric A H Q R)^[k] P)) atTop (𝓝 (smGain A Q F)) := by
      have h1 := inv_mul_tendsto hpl (tendsto_const_nhds (x := (1 : Matrix (Fin n) (Fin n) ℝ))) hpF
      simp only [Matrix.mul_one] at h1
      have h2 : Tendsto (fun k => (ric A H Q R)^[k] P * Aᵀ) atTop (𝓝 (F * Aᵀ)) := by
        have : Continuous fun X : Matrix (Fin n) (Fin n) ℝ => X * Aᵀ := by fun_prop
        exact (this.tendsto F).comp hlim
      exact h2.mul h1
    obtain ⟨C, ρ, hC, h0, h1, hb⟩ := products_decay (smGain_stable hQ hR hfix hl hst)
      (fun j k => (backProd A Q H R P j k)ᵀ) (fun j k l => by rw [backProd_add, transpose_mul]) (fun r => by
        have key : ∀ r, Tendsto (fun j => backProd A Q H R P j r) atTop (𝓝 (smGain A Q F ^ r)) := fun r => by
          induction r with
          | zero => exact tendsto_const_nhds
          | succ r ih =>
            rw [pow_succ']
            exact hg.mul ((tendsto_add_atTop_iff_nat 1).2 ih)
        rw [← transpose_pow]
        exact ((continuous_id.matrix_transpose).tendsto _).comp (key r))
    exact ⟨C, ρ, hC, h0, h1, fun t k => by rw [← transpose_norm]; exact hb t k⟩
  · obtain ⟨N, hN⟩ := eventually_atTop.1 (hdl.eventually_const_lt (half_lt_self (abs_pos.2 hpF)))
    obtain ⟨c₁, hc₁, h⟩ := pos_min (fun k => (priorCov A ((ric A H Q R)^[k] P) Q).det) N
    refine ⟨min c₁ (|(priorCov A F Q).det| / 2), lt_min hc₁ (half_pos (abs_pos.2 hpF)), fun k hk => ?_⟩
    rcases Nat.lt_or_ge k N with hkN | hkN
    · exact (min_le_left _ _).trans (h k hkN hk)
    · exact (min_le_right _ _).trans (hN k hkN).le

end

section
variable {n m : ℕ} [P : Platform]

/-- **C169**.  A constant model with PSD `Q`, PD `R` and PSD initial covariance that is detectable and stabilizable (what is not
observed, and what the process noise does not reach, is stable), and a bound `D` on the entries (and dimensions) of the arrays given
to the filter.  For every `ε` there is one `η` such that *every* run on such data, however long, in every arithmetic that is accurate
to `η`, on inputs within `η` of the model, returns, and every state, covariance and recorded gain is within `ε` of the textbook
filter in exact arithmetic. -/
theorem C169_no_drift (A Q : Matrix (Fin n) (Fin n) ℝ) (H : Matrix (Fin m) (Fin n) ℝ) (R : Matrix (Fin m) (Fin m) ℝ)
    (hQ : Q.PosSemidef) (hR : R.PosDef) (hd : Detectable A H) (hs : Stabilizable A Q) (b : Belief n) (hP : b.P.PosSemidef)
    (D : ℝ) {ε : ℝ} (hε : 0 < ε) :
    ∃ η > 0, ∀ (ss : List (LinStep n m)) (kf : KalmanFilter Fl) (Z : NDArray Fl) (U : Option (NDArray Fl)),
      Represents kf Z U b ss → ConstantModel A H Q R ss → InputsWithin D kf Z U →
      ∀ (B : Backend Fl) kf₁ Z₁ U₁, Accurate P.nanInt η B → kf.Close η kf₁ → Z.Close η Z₁ → CloseOpt η U U₁ →
        FilterWithin ε B kf₁ Z₁ U₁
          ((filtered b ss).map stateRow ++ List.replicate (Z.rows.length - ss.length) (Arr.zerosVec n))
          ((filtered b ss).map covRow ++ List.replicate (Z.rows.length - ss.length) (Arr.zerosMat n))
          (kf.kalmanGains ++ (gainsOf b ss).map gainRow) :=
  no_drift A Q H R hQ hR b hP (.of_detectable hQ hR hd hs hP) D hε

/-- **C169** in binary floating point: a number of binary digits that suffices for runs of any length. -/
theorem C169_binary (A Q : Matrix (Fin n) (Fin n) ℝ) (H : Matrix (Fin m) (Fin n) ℝ) (R : Matrix (Fin m) (Fin m) ℝ)
    (hQ : Q.PosSemidef) (hR : R.PosDef) (hd : Detectable A H) (hs : Stabilizable A Q) (b : Belief n) (hP : b.P.PosSemidef)
    (D : ℝ) {ε : ℝ} (hε : 0 < ε) :
    ∃ p₀ : ℕ, ∃ η > 0, ∀ (ss : List (LinStep n m)) (kf : KalmanFilter Fl) (Z : NDArray Fl) (U : Option (NDArray Fl)),
      Represents kf Z U b ss → ConstantModel A H Q R ss → InputsWithin D kf Z U →
      ∀ (p : ℕ) (emin : ℤ) (M : ℝ) (a : FloatUnit) kf₁ Z₁ U₁, p₀ ≤ p → emin ≤ 0 → 2 ^ p₀ ≤ M → a.fl = binary p emin M → a.Valid →
        kf.Close η kf₁ → Z.Close η Z₁ → CloseOpt η U U₁ →
        FilterWithin ε (floatB P.nanInt a) kf₁ Z₁ U₁
          ((filtered b ss).map stateRow ++ List.replicate (Z.rows.length - ss.length) (Arr.zerosVec n))
          ((filtered b ss).map covRow ++ List.replicate (Z.rows.length - ss.length) (Arr.zerosMat n))
          (kf.kalmanGains ++ (gainsOf b ss).map gainRow) := by
  obtain ⟨η, hη, h⟩ := C169_no_drift A Q H R hQ hR hd hs b hP D hε
  obtain ⟨δ, hδ, g⟩ := Precise.accurate P.nanInt hη
  obtain ⟨p₀, hp⟩ := binary_precise hδ
  exact ⟨p₀, η, hη, fun ss kf Z U hr hcm hin p emin M a kf₁ Z₁ U₁ h1 h2 h3 h4 h5 =>
    h ss kf Z U hr hcm hin _ kf₁ Z₁ U₁ (g a (hp p emin M a h1 h2 h3 h4 h5))⟩

/-- **C170**.  The same for `smooth`, for a detectable and stabilizable model whose predicted covariance is nonsingular in the steady
state: one accuracy suffices for every call of `smooth`, however long, for which the textbook smoother exists. -/
theorem C170_no_drift_smooth (A Q : Matrix (Fin n) (Fin n) ℝ) (H : Matrix (Fin m) (Fin n) ℝ) (R : Matrix (Fin m) (Fin m) ℝ)
    (hQ : Q.PosSemidef) (hR : R.PosDef) (hd : Detectable A H) (hs : Stabilizable A Q)
    (hp : ∀ F : Matrix (Fin n) (Fin n) ℝ, F.PosSemidef → SteadyState A H Q R F → (A * F * Aᵀ + Q).det ≠ 0)
    (b : Belief n) (hP : b.P.PosSemidef) (D : ℝ) {ε : ℝ} (hε : 0 < ε) :
    ∃ η > 0, ∀ (ss : List (LinStep n m)) (kf : KalmanFilter Fl) (Z : NDArray Fl) (U : Option (NDArray Fl)),
      Represents kf Z U b ss → ss.length = Z.rows.length → ss ≠ [] → ConstantModel A H Q R ss → SmoothSolvable b ss →
      InputsWithin D kf Z U →
      ∀ (B : Backend Fl) kf₁ Z₁ U₁, Accurate P.nanInt η B → kf.Close η kf₁ → Z.Close η Z₁ → CloseOpt η U U₁ →
        SmoothWithin ε B kf₁ Z₁ U₁ ((smoothed b ss).map stateRow) ((smoothed b ss).map covRow)
          (kf.kalmanGains ++ (gainsOf b ss).map gainRow) :=
  no_drift_smooth A Q H R hQ hR b hP (.of_detectable hQ hR hd hs hp hP) D hε

/-- **C170** in binary floating point. -/
theorem C170_binary (A Q : Matrix (Fin n) (Fin n) ℝ) (H : Matrix (Fin m) (Fin n) ℝ) (R : Matrix (Fin m) (Fin m) ℝ)
    (hQ : Q.PosSemidef) (hR : R.PosDef) (hd : Detectable A H) (hs : Stabilizable A Q)
    (hp : ∀ F : Matrix (Fin n) (Fin n) ℝ, F.PosSemidef → SteadyState A H Q R F → (A * F * Aᵀ + Q).det ≠ 0)
    (b : Belief n) (hP : b.P.PosSemidef) (D : ℝ) {ε : ℝ} (hε : 0 < ε) :
    ∃ p₀ : ℕ, ∃ η > 0, ∀ (ss : List (LinStep n m)) (kf : KalmanFilter Fl) (Z : NDArray Fl) (U : Option (NDArray Fl)),
      Represents kf Z U b ss → ss.length = Z.rows.length → ss ≠ [] → ConstantModel A H Q R ss → SmoothSolvable b ss →
      InputsWithin D kf Z U →
      ∀ (p : ℕ) (emin : ℤ) (M : ℝ) (a : FloatUnit) kf₁ Z₁ U₁, p₀ ≤ p → emin ≤ 0 → 2 ^ p₀ ≤ M → a.fl = binary p emin M → a.Valid →
        kf.Close η kf₁ → Z.Close η Z₁ → CloseOpt η U U₁ →
        SmoothWithin ε (floatB P.nanInt a) kf₁ Z₁ U₁ ((smoothed b ss).map stateRow) ((smoothed b ss).map covRow)
          (kf.kalmanGains ++ (gainsOf b ss).map gainRow) := by
  obtain ⟨η, hη, h⟩ := C170_no_drift_smooth A Q H R hQ hR hd hs hp b hP D hε
  obtain ⟨δ, hδ, g⟩ := Precise.accurate P.nanInt hη
  obtain ⟨p₀, hp⟩ := binary_precise hδ
  exact ⟨p₀, η, hη, fun ss kf Z U hr hfull hne hcm hsol hin p emin M a kf₁ Z₁ U₁ h1 h2 h3 h4 h5 =>
    h ss kf Z U hr hfull hne hcm hsol hin _ kf₁ Z₁ U₁ (g a (hp p emin M a h1 h2 h3 h4 h5))⟩

/-- **C170**.  When the hypotheses hold: a positive definite `Q` makes every model stabilizable and every predicted covariance
nonsingular, and observable and controllable models (C114) satisfy them all. -/
theorem C170_conditions (A Q : Matrix (Fin n) (Fin n) ℝ) (H : Matrix (Fin m) (Fin n) ℝ) (R : Matrix (Fin m) (Fin m) ℝ) (hR : R.PosDef) :
    (Q.PosDef → Stabilizable A Q ∧ ∀ F : Matrix (Fin n) (Fin n) ℝ, F.PosSemidef → (A * F * Aᵀ + Q).det ≠ 0) ∧
    (Q.PosSemidef → Controllable A Q → Observable A H → Detectable A H ∧ Stabilizable A Q ∧
      ∀ F : Matrix (Fin n) (Fin n) ℝ, F.PosSemidef → SteadyState A H Q R F → (A * F * Aᵀ + Q).det ≠ 0) := by
  refine ⟨fun hQ => ⟨⟨Q⁻¹ * A, ?_⟩, fun F hF => ?_⟩, fun hQ hc ho => ⟨detectable_of_observable ho,
    stabilizable_of_controllable (IsHermitian.symm' hQ.1) hc, fun F hF hsF => ?_⟩⟩
  · rw [← Matrix.mul_assoc, Matrix.mul_nonsing_inv _ (isUnit_iff_ne_zero.2 (posDef_det_ne hQ)), Matrix.one_mul, sub_self]
    refine (tendsto_add_atTop_iff_nat 1).1 ?_
    simp only [pow_succ, Matrix.mul_zero]
    exact tendsto_const_nhds
  · have h := hF.mul_mul_conjTranspose_same A
    rw [conjTranspose_eq_transpose_of_trivial] at h
    exact posDef_det_ne (Matrix.PosDef.posSemidef_add h hQ)
  · obtain ⟨c, δ₀, u⟩ := exists_uniform (A := A) (H := H) hQ hR hc ho
    have hl := u.lasting hF (le_refl n)
    rw [steady_iter (steadyState_iff.1 hsF)] at hl
    exact posDef_det_ne (hl.prior hQ hR)

end

-- C169: a random walk that is measured, beside a decaying component that is neither measured nor driven by noise (C165): neither
-- observable nor controllable, so that C108 does not apply.  Some number of binary digits suffices for three decimal digits in runs of
-- any length on measurements up to 10.
example : let A : Matrix (Fin 2) (Fin 2) ℝ := !![1, 0; 0, 1/2]
    let H : Matrix (Fin 1) (Fin 2) ℝ := !![1, 0]
    let Q : Matrix (Fin 2) (Fin 2) ℝ := !![1, 0; 0, 0]
    let steps (zs : List (Fin 1 → ℝ)) : List (LinStep 2 1) := zs.map fun z => ⟨A, 0, H, Q, 1, z⟩
    ∃ p₀ : ℕ, ∀ (zs : List (Fin 1 → ℝ)) (p : ℕ) (emin : ℤ) (M : ℝ) (a : FloatUnit), (∀ z ∈ zs, |z 0| ≤ 10) →
    p₀ ≤ p → emin ≤ 0 → 2 ^ p₀ ≤ M → a.fl = binary p emin M → a.Valid →
    FilterWithin 0.001 (floatB 0 a) (@Ex.encode 2 1 (strict 0) ⟨0, 1⟩ (steps zs)) (Ex.encZ (steps zs))
      (some (Ex.encU (steps zs)))
      ((filtered ⟨0, 1⟩ (steps zs)).map stateRow) ((filtered ⟨0, 1⟩ (steps zs)).map covRow)
      ((gainsOf ⟨0, 1⟩ (steps zs)).map gainRow) := by
  letI : Platform := strict 0
  intro A H Q steps
  obtain ⟨hQ, hd, hs, -, -, hmod⟩ := Ex.detect_case
  obtain ⟨p₀, η, hη, h⟩ := C169_binary A Q H 1 hQ Matrix.PosDef.one hd hs ⟨0, 1⟩ Matrix.PosSemidef.one 20
    (ε := 0.001) (by norm_num)
  refine ⟨p₀, fun zs p emin M a hz h1 h2 h3 h4 h5 => ?_⟩
  have := h (steps zs) _ _ _ (Ex.encode_represents ⟨0, 1⟩ (steps zs)) (hmod ⟨0, 1⟩ zs).2 ?_ p emin M a _ _ _ h1 h2 h3 h4 h5
    (KalmanFilter.close_refl hη.le _) (NDArray.close_refl hη.le _) ⟨_, rfl, NDArray.close_refl hη.le _⟩
  · simp only [Ex.encZ_length, Nat.sub_self, List.replicate_zero, List.append_nil] at this
    exact this
  · intro x hx
    simp only [steps, Ex.encode, Ex.encZ, Ex.encU, effU, checkNoneAndBroadcast, NDArray.rows, List.map_map, List.mem_map,
      Function.comp] at hx
    rcases hx with ⟨q, hq, rfl⟩ | ⟨q, hq, rfl⟩ | ⟨q, hq, rfl⟩ | ⟨q, hq, rfl⟩ | ⟨q, hq, rfl⟩ | ⟨q, hq, rfl⟩ | ⟨q, hq, rfl⟩ <;>
      have g1 := hz q hq <;> refine ⟨?_, ?_⟩ <;>
      simp [Arr.Within, Arr.shape, finM, finV, colM, A, H, Q, Fl.toReal, Fin.forall_fin_two] <;> norm_num <;>
      first | linarith | (constructor <;> linarith)

-- C170: the same model with noise on both components (one is still never measured, so C114 does not apply).  Some number of binary digits
-- suffices for three decimal digits in the smoother, on any number of measurements up to 10.
example : let A : Matrix (Fin 2) (Fin 2) ℝ := !![1, 0; 0, 1/2]
    let H : Matrix (Fin 1) (Fin 2) ℝ := !![1, 0]
    let steps (zs : List (Fin 1 → ℝ)) : List (LinStep 2 1) := zs.map fun z => ⟨A, 0, H, 1, 1, z⟩
    ¬ Observable A H ∧
    ∃ p₀ : ℕ, ∀ (zs : List (Fin 1 → ℝ)) (p : ℕ) (emin : ℤ) (M : ℝ) (a : FloatUnit), zs ≠ [] → (∀ z ∈ zs, |z 0| ≤ 10) →
    p₀ ≤ p → emin ≤ 0 → 2 ^ p₀ ≤ M → a.fl = binary p emin M → a.Valid →
    SmoothWithin 0.001 (floatB 0 a) (@Ex.encode 2 1 (strict 0) ⟨0, 1⟩ (steps zs)) (Ex.encZ (steps zs))
      (some (Ex.encU (steps zs)))
      ((smoothed ⟨0, 1⟩ (steps zs)).map stateRow) ((smoothed ⟨0, 1⟩ (steps zs)).map covRow)
      ((gainsOf ⟨0, 1⟩ (steps zs)).map gainRow) := by
  letI : Platform := strict 0
  intro A H steps
  obtain ⟨-, hd, -, hno, -, -⟩ := Ex.detect_case
  obtain ⟨hs, hdet⟩ := (C170_conditions A 1 H 1 Matrix.PosDef.one).1 Matrix.PosDef.one
  obtain ⟨p₀, η, hη, h⟩ := C170_binary A 1 H 1 Matrix.PosSemidef.one Matrix.PosDef.one hd hs (fun F hF _ => hdet F hF) ⟨0, 1⟩
    Matrix.PosSemidef.one 20 (ε := 0.001) (by norm_num)
  refine ⟨hno, p₀, fun zs p emin M a hne hz h1 h2 h3 h4 h5 => ?_⟩
  have hmem : ∀ s ∈ steps zs, s.A = A ∧ s.H = H ∧ s.Q = 1 ∧ s.R = 1 := fun s hs => by
    obtain ⟨z, -, rfl⟩ := List.mem_map.1 hs
    exact ⟨rfl, rfl, rfl, rfl⟩
  have := h (steps zs) _ _ _ (Ex.encode_represents ⟨0, 1⟩ (steps zs)) (Ex.encZ_length _).symm (by simpa [steps] using hne) hmem
    (smoothSolvable_pd _ _ Matrix.PosDef.one fun s hs => ?_) ?_ p emin M a _ _ _ h1 h2 h3 h4 h5
    (KalmanFilter.close_refl hη.le _) (NDArray.close_refl hη.le _) ⟨_, rfl, NDArray.close_refl hη.le _⟩
  · exact this
  · obtain ⟨e1, e2, e3, e4⟩ := hmem s hs
    exact ⟨e3 ▸ Matrix.PosSemidef.one, e4 ▸ Matrix.PosDef.one, .inr (e3 ▸ Matrix.PosDef.one)⟩
  · intro x hx
    simp only [steps, Ex.encode, Ex.encZ, Ex.encU, effU, checkNoneAndBroadcast, NDArray.rows, List.map_map, List.mem_map,
      Function.comp] at hx
    rcases hx with ⟨q, hq, rfl⟩ | ⟨q, hq, rfl⟩ | ⟨q, hq, rfl⟩ | ⟨q, hq, rfl⟩ | ⟨q, hq, rfl⟩ | ⟨q, hq, rfl⟩ | ⟨q, hq, rfl⟩ <;>
      have g1 := hz q hq <;> refine ⟨?_, ?_⟩ <;>
      simp [Arr.Within, Arr.shape, finM, finV, colM, A, H, Fl.toReal, Fin.forall_fin_two] <;> norm_num <;>
      first | linarith | (constructor <;> linarith)

end KK
