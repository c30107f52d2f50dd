import Verif.Props.Monotone
import Mathlib.Topology.Instances.Matrix
import Mathlib.Topology.Order.MonotoneConvergence
import Mathlib.Topology.Algebra.Order.LiminfLimsup

/-!
# C59: constant models

If `A`, `H`, `Q`, `R` do not change from step to step, the returned covariances form a monotone sequence as soon as the
first step goes up or down, and converge to a steady state.
-/

set_option linter.unusedSectionVars false

namespace KK

open Matrix Filter Topology

variable {n m : ℕ}

/-- One step of the covariance. -/
noncomputable def ric (A : Matrix (Fin n) (Fin n) ℝ) (H : Matrix (Fin m) (Fin n) ℝ) (Q : Matrix (Fin n) (Fin n) ℝ)
    (R : Matrix (Fin m) (Fin m) ℝ) (P : Matrix (Fin n) (Fin n) ℝ) : Matrix (Fin n) (Fin n) ℝ :=
  postCov H (priorCov A P Q) R

/-- All steps have the matrices `A`, `H`, `Q`, `R`. -/
def ConstantModel (A : Matrix (Fin n) (Fin n) ℝ) (H : Matrix (Fin m) (Fin n) ℝ) (Q : Matrix (Fin n) (Fin n) ℝ)
    (R : Matrix (Fin m) (Fin m) ℝ) (ss : List (LinStep n m)) : Prop :=
  ∀ s ∈ ss, s.A = A ∧ s.H = H ∧ s.Q = Q ∧ s.R = R

/-- `F` is a steady state of the covariance recursion `P ↦ (I - K H) (A P A' + Q)`. -/
def SteadyState (A : Matrix (Fin n) (Fin n) ℝ) (H : Matrix (Fin m) (Fin n) ℝ) (Q : Matrix (Fin n) (Fin n) ℝ)
    (R : Matrix (Fin m) (Fin m) ℝ) (F : Matrix (Fin n) (Fin n) ℝ) : Prop :=
  F = (1 - (A * F * Aᵀ + Q) * Hᵀ * (H * (A * F * Aᵀ + Q) * Hᵀ + R)⁻¹ * H) * (A * F * Aᵀ + Q)

section
variable {A Q : Matrix (Fin n) (Fin n) ℝ} {H : Matrix (Fin m) (Fin n) ℝ} {R : Matrix (Fin m) (Fin m) ℝ}

theorem steadyState_iff {F : Matrix (Fin n) (Fin n) ℝ} : SteadyState A H Q R F ↔ ric A H Q R F = F := eq_comm

theorem ric_psd (hQ : Q.PosSemidef) (hR : R.PosDef) {P : Matrix (Fin n) (Fin n) ℝ} (hP : P.PosSemidef) :
    (ric A H Q R P).PosSemidef :=
  postCov_posSemidef (priorCov_posSemidef hP hQ) hR.posSemidef
    (posDef_det_ne (innovCov_posDef (priorCov_posSemidef hP hQ) hR))

theorem ric_mono (hQ : Q.PosSemidef) (hR : R.PosDef) {P P' : Matrix (Fin n) (Fin n) ℝ} (hP : P.PosSemidef)
    (hle : (P' - P).PosSemidef) : (ric A H Q R P' - ric A H Q R P).PosSemidef :=
  postCov_mono (priorCov_posSemidef hP hQ) hR (priorCov_mono hle (by simp [Matrix.PosSemidef.zero]))
    (by simp [Matrix.PosSemidef.zero])

theorem iter_psd (hQ : Q.PosSemidef) (hR : R.PosDef) {P : Matrix (Fin n) (Fin n) ℝ} (hP : P.PosSemidef) (k : ℕ) :
    ((ric A H Q R)^[k] P).PosSemidef := by
  induction k with
  | zero => exact hP
  | succ k ih => rw [Function.iterate_succ_apply']; exact ric_psd hQ hR ih

theorem iter_up (hQ : Q.PosSemidef) (hR : R.PosDef) {P : Matrix (Fin n) (Fin n) ℝ} (hP : P.PosSemidef)
    (h : (ric A H Q R P - P).PosSemidef) (k : ℕ) :
    ((ric A H Q R)^[k + 1] P - (ric A H Q R)^[k] P).PosSemidef := by
  induction k with
  | zero => exact h
  | succ k ih =>
    have e1 := Function.iterate_succ_apply' (ric A H Q R) (k + 1) P
    have e2 := Function.iterate_succ_apply' (ric A H Q R) k P
    have := ric_mono (A := A) (H := H) hQ hR (iter_psd hQ hR hP k) ih
    rwa [← e1, ← e2] at this

theorem iter_down (hQ : Q.PosSemidef) (hR : R.PosDef) {P : Matrix (Fin n) (Fin n) ℝ} (hP : P.PosSemidef)
    (h : (P - ric A H Q R P).PosSemidef) (k : ℕ) :
    ((ric A H Q R)^[k] P - (ric A H Q R)^[k + 1] P).PosSemidef := by
  induction k with
  | zero => exact h
  | succ k ih =>
    rw [Function.iterate_succ_apply', Function.iterate_succ_apply' (n := k + 1)]
    exact ric_mono (A := A) (H := H) hQ hR (iter_psd hQ hR hP (k + 1)) ih

theorem iter_below (hQ : Q.PosSemidef) (hR : R.PosDef) {P F : Matrix (Fin n) (Fin n) ℝ} (hP : P.PosSemidef)
    (hF : ric A H Q R F = F) (h : (F - P).PosSemidef) (k : ℕ) : (F - (ric A H Q R)^[k] P).PosSemidef := by
  induction k with
  | zero => exact h
  | succ k ih =>
    rw [Function.iterate_succ_apply']
    have := ric_mono (A := A) (H := H) hQ hR (iter_psd hQ hR hP k) ih
    rwa [hF] at this

theorem iter_bounded (hQ : Q.PosSemidef) (hR : R.PosDef) {P G : Matrix (Fin n) (Fin n) ℝ} (hP : P.PosSemidef)
    (L : Matrix (Fin n) (Fin m) ℝ)
    (hG : (G - ((1 - L * H) * (A * G * Aᵀ + Q) * (1 - L * H)ᵀ + L * R * Lᵀ)).PosSemidef) (h : (G - P).PosSemidef) (k : ℕ) :
    (G - (ric A H Q R)^[k] P).PosSemidef := by
  induction k with
  | zero => exact h
  | succ k ih =>
    rw [Function.iterate_succ_apply']
    have hk := iter_psd (A := A) (H := H) hQ hR hP k
    have h1 := ric_mono (A := A) (H := H) hQ hR hk ih
    have hG0 : G.PosSemidef := by have := h.add hP; rwa [sub_add_cancel] at this
    have hp : (priorCov A G Q).PosSemidef := priorCov_posSemidef hG0 hQ
    have hS := innovCov_posDef (H := H) hp hR
    have h2 := josephCov_eq L (IsHermitian.symm' hp.1) (IsHermitian.symm' hR.1) (posDef_det_ne hS)
    have h3 := posSemidef_conj hS.posSemidef (L - kGain H (priorCov A G Q) R)
    have h4 := (hG.add h3).add h1
    convert h4 using 1
    have h5 : (1 - L * H) * (A * G * Aᵀ + Q) * (1 - L * H)ᵀ + L * R * Lᵀ = josephCov L H (priorCov A G Q) R := rfl
    rw [h5, h2, ric, ric]
    abel

theorem iter_above (hQ : Q.PosSemidef) (hR : R.PosDef) {P F : Matrix (Fin n) (Fin n) ℝ} (hF0 : F.PosSemidef)
    (hF : ric A H Q R F = F) (h : (P - F).PosSemidef) (k : ℕ) : ((ric A H Q R)^[k] P - F).PosSemidef := by
  induction k with
  | zero => exact h
  | succ k ih =>
    rw [Function.iterate_succ_apply']
    have := ric_mono (A := A) (H := H) hQ hR hF0 ih
    rwa [hF] at this

theorem continuousAt_inv' {k : ℕ} {M : Matrix (Fin k) (Fin k) ℝ} (h : M.det ≠ 0) :
    ContinuousAt (fun N : Matrix (Fin k) (Fin k) ℝ => N⁻¹) M := by
  have h1 : (fun N : Matrix (Fin k) (Fin k) ℝ => N⁻¹) = fun N => (N.det)⁻¹ • N.adjugate := by
    funext N; rw [Matrix.inv_def, Ring.inverse_eq_inv']
  rw [h1]
  have hd : ContinuousAt (fun N : Matrix (Fin k) (Fin k) ℝ => N.det) M := (continuous_id.matrix_det).continuousAt
  have ha : ContinuousAt (fun N : Matrix (Fin k) (Fin k) ℝ => N.adjugate) M := (continuous_id.matrix_adjugate).continuousAt
  exact (hd.inv₀ h).smul ha

theorem ric_continuousAt (hQ : Q.PosSemidef) (hR : R.PosDef) {F : Matrix (Fin n) (Fin n) ℝ} (hF : F.PosSemidef) :
    ContinuousAt (ric A H Q R) F := by
  have hp : Continuous fun P : Matrix (Fin n) (Fin n) ℝ => priorCov A P Q :=
    ((continuous_const.matrix_mul continuous_id).matrix_mul continuous_const).add continuous_const
  have hS : Continuous fun P : Matrix (Fin n) (Fin n) ℝ => innovCov H (priorCov A P Q) R :=
    ((continuous_const.matrix_mul hp).matrix_mul continuous_const).add continuous_const
  have hdet : (innovCov H (priorCov A F Q) R).det ≠ 0 :=
    posDef_det_ne (innovCov_posDef (priorCov_posSemidef hF hQ) hR)
  have hi : ContinuousAt (fun P : Matrix (Fin n) (Fin n) ℝ => (innovCov H (priorCov A P Q) R)⁻¹) F :=
    ContinuousAt.comp' (g := fun N : Matrix (Fin m) (Fin m) ℝ => N⁻¹)
      (f := fun P : Matrix (Fin n) (Fin n) ℝ => innovCov H (priorCov A P Q) R) (continuousAt_inv' hdet) hS.continuousAt
  have hmul : ∀ {a b c : ℕ} {f : Matrix (Fin n) (Fin n) ℝ → Matrix (Fin a) (Fin b) ℝ}
      {g : Matrix (Fin n) (Fin n) ℝ → Matrix (Fin b) (Fin c) ℝ}, ContinuousAt f F → ContinuousAt g F →
      ContinuousAt (fun P => f P * g P) F := by
    intro a b c f g hf hg
    have : Continuous fun p : Matrix (Fin a) (Fin b) ℝ × Matrix (Fin b) (Fin c) ℝ => p.1 * p.2 :=
      continuous_fst.matrix_mul continuous_snd
    exact ContinuousAt.comp' (g := fun p : Matrix (Fin a) (Fin b) ℝ × Matrix (Fin b) (Fin c) ℝ => p.1 * p.2)
      this.continuousAt (hf.prodMk hg)
  exact hmul (continuousAt_const.sub (hmul (hmul (hmul hp.continuousAt continuousAt_const) hi) continuousAt_const))
    hp.continuousAt

theorem iter_symm {P : ℕ → Matrix (Fin n) (Fin n) ℝ} (h : ∀ k, (P k).PosSemidef) (k : ℕ) (i j : Fin n) :
    P k i j = ((Pi.single i 1 + Pi.single j 1) ⬝ᵥ (P k *ᵥ (Pi.single i 1 + Pi.single j 1)) -
      Pi.single i 1 ⬝ᵥ (P k *ᵥ Pi.single i 1) - Pi.single j 1 ⬝ᵥ (P k *ᵥ Pi.single j 1)) / 2 := by
  have hs : P k j i = P k i j := by
    have := congrFun (congrFun (IsHermitian.symm' (h k).1) i) j
    simpa [Matrix.transpose_apply] using this
  simp only [Matrix.mulVec_add, add_dotProduct, dotProduct_add, Matrix.mulVec_single_one, single_one_dotProduct,
    Matrix.col_apply]
  rw [hs]; ring

/-- A decreasing sequence of PSD matrices converges to a PSD matrix. -/
theorem psd_tendsto {P : ℕ → Matrix (Fin n) (Fin n) ℝ} (h : ∀ k, (P k).PosSemidef)
    (hd : ∀ k, (P k - P (k + 1)).PosSemidef) : ∃ F, F.PosSemidef ∧ Tendsto P atTop (𝓝 F) := by
  have hq : ∀ v : Fin n → ℝ, ∃ l, Tendsto (fun k => v ⬝ᵥ (P k *ᵥ v)) atTop (𝓝 l) := by
    intro v
    refine ⟨_, tendsto_atTop_ciInf (antitone_nat_of_succ_le fun k => ?_) ⟨0, ?_⟩⟩
    · have := (hd k).dotProduct_mulVec_nonneg v
      rw [star_trivial, Matrix.sub_mulVec, dotProduct_sub] at this
      linarith
    · rintro _ ⟨k, rfl⟩
      have := (h k).dotProduct_mulVec_nonneg v
      rwa [star_trivial] at this
  choose l hl using hq
  have hT : Tendsto P atTop (𝓝 (Matrix.of fun i j =>
      (l (Pi.single i 1 + Pi.single j 1) - l (Pi.single i 1) - l (Pi.single j 1)) / 2)) := by
    refine tendsto_pi_nhds.2 fun i => tendsto_pi_nhds.2 fun j => ?_
    have : (fun k => P k i j) = fun k => ((Pi.single i 1 + Pi.single j 1) ⬝ᵥ (P k *ᵥ (Pi.single i 1 + Pi.single j 1)) -
      Pi.single i 1 ⬝ᵥ (P k *ᵥ Pi.single i 1) - Pi.single j 1 ⬝ᵥ (P k *ᵥ Pi.single j 1)) / 2 :=
      funext fun k => iter_symm h k i j
    rw [this]
    exact (((hl _).sub (hl _)).sub (hl _)).div_const 2
  refine ⟨_, ?_, hT⟩
  refine Matrix.posSemidef_iff_dotProduct_mulVec.2 ⟨?_, fun v => ?_⟩
  · refine isHermitian_of_symm ?_
    ext i j
    rw [Matrix.transpose_apply, Matrix.of_apply, Matrix.of_apply, add_comm (Pi.single j 1 : Fin n → ℝ)]
    ring
  · rw [star_trivial]
    have hc : Continuous fun M : Matrix (Fin n) (Fin n) ℝ => v ⬝ᵥ (M *ᵥ v) :=
      continuous_const.dotProduct (continuous_id.matrix_mulVec continuous_const)
    refine ge_of_tendsto' ((hc.tendsto _).comp hT) fun k => ?_
    have := (h k).dotProduct_mulVec_nonneg v
    rwa [star_trivial] at this

theorem iter_limit (hQ : Q.PosSemidef) (hR : R.PosDef) {P F : Matrix (Fin n) (Fin n) ℝ} (hF : F.PosSemidef)
    (h : Tendsto (fun k => (ric A H Q R)^[k] P) atTop (𝓝 F)) : ric A H Q R F = F := by
  have h1 : Tendsto (fun k => ric A H Q R ((ric A H Q R)^[k] P)) atTop (𝓝 (ric A H Q R F)) :=
    (ric_continuousAt hQ hR hF).tendsto.comp h
  have h2 : Tendsto (fun k => (ric A H Q R)^[k + 1] P) atTop (𝓝 F) := (tendsto_add_atTop_iff_nat 1).2 h
  simp only [Function.iterate_succ_apply'] at h2
  exact tendsto_nhds_unique h1 h2

theorem filtered_const {ss : List (LinStep n m)} (hc : ConstantModel A H Q R ss) (b : Belief n) (k : ℕ) (q : Belief n)
    (hq : (filtered b ss)[k]? = some q) : q.P = (ric A H Q R)^[k + 1] b.P := by
  induction ss generalizing b k with
  | nil => simp [filtered] at hq
  | cons s ss ih =>
    obtain ⟨h1, h2, h3, h4⟩ := hc s (by simp)
    have e : (s.next b).P = ric A H Q R b.P := by rw [← h1, ← h2, ← h3, ← h4]; rfl
    rcases k with _ | k
    · simp only [filtered, List.getElem?_cons_zero, Option.some.injEq] at hq
      rw [← hq, e]; rfl
    · simp only [filtered, List.getElem?_cons_succ] at hq
      rw [ih (fun s hs => hc s (by simp [hs])) _ _ hq, e, ← Function.iterate_succ_apply]

end

variable [Platform]

/-- Row `k` of the returned covariances. -/
def CovRow (kf : KalmanFilter Fl) (Z : NDArray Fl) (U : Option (NDArray Fl)) (k : ℕ) (M : Matrix (Fin n) (Fin n) ℝ) :
    Prop :=
  ∃ xs Ps kf' a, (KalmanFilter.filter Z U).run kf = (.ok (xs, Ps), kf') ∧ Ps[k]? = some a ∧ MatIs M a

variable {A Q : Matrix (Fin n) (Fin n) ℝ} {H : Matrix (Fin m) (Fin n) ℝ} {R : Matrix (Fin m) (Fin m) ℝ}

theorem covRow_const {kf : KalmanFilter Fl} {Z : NDArray Fl} {U : Option (NDArray Fl)} {b : Belief n}
    {ss : List (LinStep n m)} (h : Represents kf Z U b ss) (hc : ConstantModel A H Q R ss) (hP : b.P.PosSemidef)
    (hQ : Q.PosSemidef) (hR : R.PosDef) {k : ℕ} (hk : k < ss.length) :
    CovRow kf Z U k ((ric A H Q R)^[k + 1] b.P) := by
  have hs : Solvable b ss := solvable_psd hP (fun s hs => (hc s hs).2.2.1 ▸ hQ) fun s hs => (hc s hs).2.2.2 ▸ hR
  have hl : k < (filtered b ss).length := by rwa [filtered_length]
  refine ⟨_, _, _, covRow (filtered b ss)[k], h.returns hs, ?_, ⟨.float64, ?_⟩⟩
  · rw [List.getElem?_append_left (by rw [List.length_map]; exact hl), List.getElem?_map, List.getElem?_eq_getElem hl]
    rfl
  · rw [← filtered_const hc b k _ (List.getElem?_eq_getElem hl)]; rfl

theorem CovRow.unique {kf : KalmanFilter Fl} {Z : NDArray Fl} {U : Option (NDArray Fl)} {k : ℕ}
    {M M' : Matrix (Fin n) (Fin n) ℝ} (h : CovRow kf Z U k M) (h' : CovRow kf Z U k M') : M' = M := by
  obtain ⟨xs, Ps, kf', a, h1, h2, d, rfl⟩ := h
  obtain ⟨xs', Ps', kf'', a', h1', h2', d', rfl⟩ := h'
  rw [h1] at h1'
  simp only [Prod.mk.injEq, Except.ok.injEq] at h1'
  obtain ⟨⟨rfl, rfl⟩, rfl⟩ := h1'
  rw [h2] at h2'
  simp only [Option.some.injEq, Arr.mat.injEq, true_and] at h2'
  have h3 := h2'.2
  simp only [heq_eq_eq] at h3
  ext i j
  have := congrFun (congrFun h3 i) j
  simp only [finM, Fl.fin.injEq] at this
  exact this.symm

/-- C59, monotonicity: constant model with PSD `Pk` and `Q` and PD `R`.  `filter` returns a covariance for every step.
If the covariance of the first step is above (below) the initial one in the Loewner order, the covariances never
decrease (never increase) from step to step; and if `F` is a PSD steady state above (below) the initial covariance, it
stays above (below) every returned one. -/
theorem C59_monotone (kf : KalmanFilter Fl) (Z : NDArray Fl) (U : Option (NDArray Fl)) (b : Belief n)
    (ss : List (LinStep n m)) (h : Represents kf Z U b ss) (hc : ConstantModel A H Q R ss) (hP : b.P.PosSemidef)
    (hQ : Q.PosSemidef) (hR : R.PosDef) :
    (∀ k < ss.length, ∃ M : Matrix (Fin n) (Fin n) ℝ, CovRow kf Z U k M) ∧
    (∀ M₀ : Matrix (Fin n) (Fin n) ℝ, CovRow kf Z U 0 M₀ → 0 < ss.length →
      ((M₀ - b.P).PosSemidef → ∀ (k : ℕ) (M M' : Matrix (Fin n) (Fin n) ℝ), k + 1 < ss.length → CovRow kf Z U k M →
        CovRow kf Z U (k + 1) M' → (M' - M).PosSemidef) ∧
      ((b.P - M₀).PosSemidef → ∀ (k : ℕ) (M M' : Matrix (Fin n) (Fin n) ℝ), k + 1 < ss.length → CovRow kf Z U k M →
        CovRow kf Z U (k + 1) M' → (M - M').PosSemidef)) ∧
    (∀ F : Matrix (Fin n) (Fin n) ℝ, F.PosSemidef → SteadyState A H Q R F →
      ∀ (k : ℕ) (M : Matrix (Fin n) (Fin n) ℝ), k < ss.length → CovRow kf Z U k M →
        ((F - b.P).PosSemidef → (F - M).PosSemidef) ∧ ((b.P - F).PosSemidef → (M - F).PosSemidef)) := by
  refine ⟨fun k hk => ⟨_, covRow_const h hc hP hQ hR hk⟩, fun M₀ h0 hpos => ⟨fun hup k M M' hk hM hM' => ?_,
    fun hdn k M M' hk hM hM' => ?_⟩, fun F hF0 hF k M hk hM => ⟨fun hle => ?_, fun hle => ?_⟩⟩
  · rw [(covRow_const h hc hP hQ hR hk).unique hM', (covRow_const h hc hP hQ hR (by omega)).unique hM]
    rw [(covRow_const h hc hP hQ hR hpos).unique h0] at hup
    exact iter_up hQ hR hP hup (k + 1)
  · rw [(covRow_const h hc hP hQ hR hk).unique hM', (covRow_const h hc hP hQ hR (by omega)).unique hM]
    rw [(covRow_const h hc hP hQ hR hpos).unique h0] at hdn
    exact iter_down hQ hR hP hdn (k + 1)
  · rw [(covRow_const h hc hP hQ hR hk).unique hM]
    exact iter_below hQ hR hP (steadyState_iff.1 hF) hle (k + 1)
  · rw [(covRow_const h hc hP hQ hR hk).unique hM]
    exact iter_above hQ hR hF0 (steadyState_iff.1 hF) hle (k + 1)

/-- C59, convergence: if the first step does not increase the covariance `P`, or if it does not decrease it and some
fixed gain `L` (not nec. the filter's) keeps the error covariance below some bound `G` above `P`, then there is a PSD steady state `F` such that the covariances returned by any run of
the constant model from `P`, whatever the data, controls and initial mean, come and stay arbitrarily close to `F`. -/
theorem C59_converges (A Q P : Matrix (Fin n) (Fin n) ℝ) (H : Matrix (Fin m) (Fin n) ℝ) (R : Matrix (Fin m) (Fin m) ℝ)
    (hP : P.PosSemidef) (hQ : Q.PosSemidef) (hR : R.PosDef)
    (hstart : (P - postCov H (priorCov A P Q) R).PosSemidef ∨
      (postCov H (priorCov A P Q) R - P).PosSemidef ∧ ∃ (G : Matrix (Fin n) (Fin n) ℝ) (L : Matrix (Fin n) (Fin m) ℝ),
        (G - P).PosSemidef ∧ (G - ((1 - L * H) * (A * G * Aᵀ + Q) * (1 - L * H)ᵀ + L * R * Lᵀ)).PosSemidef) :
    ∃ F : Matrix (Fin n) (Fin n) ℝ, F.PosSemidef ∧ SteadyState A H Q R F ∧ ∀ ε > 0, ∃ N : ℕ,
      ∀ (kf : KalmanFilter Fl) (Z : NDArray Fl) (U : Option (NDArray Fl)) (x : Fin n → ℝ) (ss : List (LinStep n m)),
        Represents kf Z U ⟨x, P⟩ ss → ConstantModel A H Q R ss → ∀ k, N ≤ k → k < ss.length →
          ∃ M : Matrix (Fin n) (Fin n) ℝ, CovRow kf Z U k M ∧ ∀ i j, |M i j - F i j| < ε := by
  have key : ∃ F, F.PosSemidef ∧ Tendsto (fun k => (ric A H Q R)^[k] P) atTop (𝓝 F) := by
    rcases hstart with hd | ⟨hu, G, L, hGP, hG⟩
    · exact psd_tendsto (iter_psd hQ hR hP) (iter_down hQ hR hP hd)
    · obtain ⟨F, hF, hT⟩ := psd_tendsto (P := fun k => G - (ric A H Q R)^[k] P)
        (fun k => iter_bounded hQ hR hP L hG hGP k)
        (fun k => by
          have := iter_up (A := A) (H := H) hQ hR hP hu k
          convert this using 1; abel)
      have hT' : Tendsto (fun k => (ric A H Q R)^[k] P) atTop (𝓝 (G - F)) := by
        have := hT.const_sub G
        simpa using this
      refine ⟨G - F, ?_, hT'⟩
      have hc : ∀ v : Fin n → ℝ, Continuous fun M : Matrix (Fin n) (Fin n) ℝ => v ⬝ᵥ (M *ᵥ v) := fun v =>
        continuous_const.dotProduct (continuous_id.matrix_mulVec continuous_const)
      refine Matrix.posSemidef_iff_dotProduct_mulVec.2 ⟨?_, fun v => ?_⟩
      · have h1 : Tendsto (fun k => ((ric A H Q R)^[k] P)ᵀ) atTop (𝓝 (G - F)ᵀ) :=
          (continuous_id.matrix_transpose.tendsto (G - F)).comp hT'
        have h2 : (fun k => ((ric A H Q R)^[k] P)ᵀ) = fun k => (ric A H Q R)^[k] P :=
          funext fun k => IsHermitian.symm' (iter_psd hQ hR hP k).1
        rw [h2] at h1
        exact isHermitian_of_symm (tendsto_nhds_unique h1 hT')
      · rw [star_trivial]
        refine ge_of_tendsto' (((hc v).tendsto _).comp hT') fun k => ?_
        have := (iter_psd (A := A) (H := H) hQ hR hP k).dotProduct_mulVec_nonneg v
        rwa [star_trivial] at this
  obtain ⟨F, hF, hT⟩ := key
  refine ⟨F, hF, steadyState_iff.2 (iter_limit hQ hR hF hT), fun ε hε => ?_⟩
  have hev : ∀ᶠ k in atTop, ∀ i j, |((ric A H Q R)^[k] P) i j - F i j| < ε := by
    rw [eventually_all]; intro i
    rw [eventually_all]; intro j
    have h1 := (tendsto_pi_nhds.1 (tendsto_pi_nhds.1 hT i)) j
    have h2 := (Metric.tendsto_nhds.1 h1) ε hε
    simpa [Real.dist_eq] using h2
  obtain ⟨N, hN⟩ := eventually_atTop.1 hev
  refine ⟨N, fun kf Z U x ss h hc k hk hkl => ⟨_, covRow_const h hc hP hQ hR hkl, hN (k + 1) (by omega)⟩⟩

-- C59: the constant-velocity model is constant and meets the hypotheses; from zero covariance the first step goes up.
example (uz : List (ℝ × ℝ)) : ConstantModel (Ex.cvStep 0 0).A (Ex.cvStep 0 0).H (Ex.cvStep 0 0).Q (Ex.cvStep 0 0).R
      (Ex.cvSteps uz) ∧ (Ex.cvStep 0 0).Q.PosSemidef ∧ (Ex.cvStep 0 0).R.PosDef ∧
    (postCov (Ex.cvStep 0 0).H (priorCov (Ex.cvStep 0 0).A 0 (Ex.cvStep 0 0).Q) (Ex.cvStep 0 0).R - 0).PosSemidef := by
  have hQ := (Ex.cvStep_Q 0 0).posSemidef
  have hR := Ex.cvStep_R 0 0
  refine ⟨?_, hQ, hR, ?_⟩
  · intro s hs
    simp only [Ex.cvSteps, List.mem_map] at hs
    obtain ⟨p, -, rfl⟩ := hs
    exact ⟨rfl, rfl, rfl, rfl⟩
  · rw [sub_zero]
    exact ric_psd hQ hR Matrix.PosSemidef.zero

-- C59: a static state observed with noise: every initial covariance may be used, the first step goes down.
example (P : Matrix (Fin n) (Fin n) ℝ) (hP : P.PosSemidef) (H : Matrix (Fin m) (Fin n) ℝ) :
    (P - postCov H (priorCov 1 P 0) (1 : Matrix (Fin m) (Fin m) ℝ)).PosSemidef := by
  have e : priorCov 1 P 0 = P := by simp [priorCov]
  rw [e]
  exact postCov_le hP Matrix.PosDef.one.posSemidef (posDef_det_ne (innovCov_posDef hP Matrix.PosDef.one))

-- C59: a state that is observed directly, from zero covariance: the first step goes up, and the gain `L = 1` keeps the
-- error covariance at `R`, whatever `A` is.
example (A Q R : Matrix (Fin n) (Fin n) ℝ) (hQ : Q.PosSemidef) (hR : R.PosDef) :
    (postCov 1 (priorCov A 0 Q) R - 0).PosSemidef ∧ (R - 0).PosSemidef ∧
    (R - ((1 - (1 : Matrix (Fin n) (Fin n) ℝ) * 1) * (A * R * Aᵀ + Q) * (1 - (1 : Matrix (Fin n) (Fin n) ℝ) * 1)ᵀ +
      1 * R * 1ᵀ)).PosSemidef := by
  refine ⟨?_, ?_, ?_⟩
  · rw [sub_zero]; exact ric_psd (A := A) (H := (1 : Matrix (Fin n) (Fin n) ℝ)) hQ hR Matrix.PosSemidef.zero
  · rw [sub_zero]; exact hR.posSemidef
  · simp [Matrix.PosSemidef.zero]

end KK
