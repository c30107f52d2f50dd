import Verif.Model.Examples
import Verif.Props.ExtExact
import Mathlib.Analysis.SpecialFunctions.Trigonometric.Deriv
import Mathlib.Analysis.Calculus.FDeriv.Pi
import Mathlib.Topology.Algebra.Module.FiniteDimension

/-!
# C55-C57: the example programs work on arbitrary data
-/

set_option linter.unusedSectionVars false

namespace KK

open Matrix

/-! ## small matrices -/

theorem posDef_two {M : Matrix (Fin 2) (Fin 2) ℝ} (hs : M 0 1 = M 1 0) (h0 : 0 < M 0 0)
    (hd : M 0 1 * M 1 0 < M 0 0 * M 1 1) : M.PosDef := by
  refine Matrix.PosDef.of_dotProduct_mulVec_pos ?_ ?_
  · ext i j; fin_cases i <;> fin_cases j <;> simp [hs]
  · intro x hx
    have hx' : x 0 ≠ 0 ∨ x 1 ≠ 0 := by
      by_contra hcon
      push Not at hcon
      exact hx (by funext i; fin_cases i <;> simp [hcon.1, hcon.2])
    simp only [star_trivial, dotProduct, Matrix.mulVec, Fin.sum_univ_two]
    have key : 0 < (M 0 0 * x 0 + M 0 1 * x 1) ^ 2 + (M 0 0 * M 1 1 - M 0 1 * M 1 0) * x 1 ^ 2 := by
      by_cases h1 : x 1 = 0
      · have h0' : x 0 ≠ 0 := by rcases hx' with h | h; exacts [h, absurd h1 h]
        have : 0 < (M 0 0 * x 0) ^ 2 := by positivity
        simpa [h1] using this
      · have : 0 < (M 0 0 * M 1 1 - M 0 1 * M 1 0) * x 1 ^ 2 :=
          mul_pos (by linarith) (by positivity)
        positivity
    have e : M 0 0 * (x 0 * (M 0 0 * x 0 + M 0 1 * x 1) + x 1 * (M 1 0 * x 0 + M 1 1 * x 1)) =
        (M 0 0 * x 0 + M 0 1 * x 1) ^ 2 + (M 0 0 * M 1 1 - M 0 1 * M 1 0) * x 1 ^ 2 := by
      rw [← hs]; ring
    rw [← e] at key
    exact pos_of_mul_pos_right key h0.le

theorem posDef_one {r : ℝ} (h : 0 < r) : (Matrix.of fun (_ _ : Fin 1) => r).PosDef := by
  refine Matrix.PosDef.of_dotProduct_mulVec_pos ?_ ?_
  · ext i j; simp
  · intro x hx
    have : x 0 ≠ 0 := fun h0 => hx (by funext i; rw [Subsingleton.elim i 0, h0]; rfl)
    simp only [star_trivial, dotProduct, Matrix.mulVec, Finset.univ_unique, Fin.default_eq_zero,
      Finset.sum_singleton, Matrix.of_apply]
    nlinarith [sq_pos_of_ne_zero this]

/-! ## C55: the pendulum -/

namespace Examples

/-- The pendulum model with one observation. -/
noncomputable def pendStep (dt g c rk z : ℝ) : ExtStep 2 1 where
  f x := ![x 0 + dt * x 1, x 1 - g * dt * Real.sin (x 0)]
  jA x := !![1, dt; -g * Real.cos (x 0) * dt, 1]
  h x := fun _ => Real.sin (x 0)
  jH x := !![Real.cos (x 0), 0]
  Q := !![c * (dt ^ 3 / 3), c * (dt ^ 2 / 2); c * (dt ^ 2 / 2), c * dt]
  R := Matrix.of fun _ _ => rk
  z := fun _ => z

variable [Platform]

theorem item1_vec {n : ℕ} {d : DType} {v : Fin n → ℝ} (i : Fin n) :
    item1 (.vec d (finV v)) i = .ok (.fin (v i)) := by
  simp [item1, finV]

theorem item1_vec0 {d : DType} {v : Fin 2 → ℝ} : item1 (.vec d (finV v)) 0 = .ok (.fin (v 0)) :=
  item1_vec (0 : Fin 2)

theorem item1_vec1 {d : DType} {v : Fin 2 → ℝ} : item1 (.vec d (finV v)) 1 = .ok (.fin (v 1)) :=
  item1_vec (1 : Fin 2)

theorem pendF_is (dt g c rk z : ℝ) (v : Fin 2 → ℝ) (x : Arr Fl) (u : Option (Arr Fl)) (h : VecIs v x) :
    ∃ y, pendF dt g x u = .ok y ∧ VecIs ((pendStep dt g c rk z).f v) y := by
  obtain ⟨d, rfl⟩ := h
  refine ⟨.vec .float64 (finV ((pendStep dt g c rk z).f v)), ?_, .float64, rfl⟩
  simp only [pendF, item1_vec0, item1_vec1, Except.bind_ok']
  congr 2
  funext i
  fin_cases i <;> simp [pendStep, finV, npSin]

theorem pendJA_is (dt g c rk z : ℝ) (v : Fin 2 → ℝ) (x : Arr Fl) (u : Option (Arr Fl)) (h : VecIs v x) :
    ∃ y, pendJA dt g x u = .ok y ∧ MatIs ((pendStep dt g c rk z).jA v) y := by
  obtain ⟨d, rfl⟩ := h
  refine ⟨.mat .float64 (finM ((pendStep dt g c rk z).jA v)), ?_, .float64, rfl⟩
  simp only [pendJA, item1_vec0, Except.bind_ok']
  congr 2
  funext i j
  fin_cases i <;> fin_cases j <;> simp [pendStep, finM, npCos]

theorem pendH_is (dt g c rk z : ℝ) (v : Fin 2 → ℝ) (x : Arr Fl) (h : VecIs v x) :
    ∃ y, pendH x = .ok y ∧ ObsIs ((pendStep dt g c rk z).h v) y := by
  obtain ⟨d, rfl⟩ := h
  exact ⟨_, by simp only [pendH, item1_vec0, Except.bind_ok']; rfl, .inr ⟨.float64, Real.sin (v 0), rfl, rfl⟩⟩

theorem pendJH_is (dt g c rk z : ℝ) (v : Fin 2 → ℝ) (x : Arr Fl) (h : VecIs v x) :
    ∃ y, pendJH x = .ok y ∧ MatIs ((pendStep dt g c rk z).jH v) y := by
  obtain ⟨d, rfl⟩ := h
  refine ⟨.mat .float64 (finM ((pendStep dt g c rk z).jH v)), ?_, .float64, rfl⟩
  simp only [pendJH, item1_vec0, Except.bind_ok']
  congr 2
  funext i j
  fin_cases i; fin_cases j <;> simp [pendStep, finM, npCos]

/-- The belief the pendulum examples start from. -/
noncomputable def pendBelief (p a0 a1 : ℝ) : Belief 2 := ⟨![a0, a1], !![p, 0; 0, p]⟩

theorem finM_two (a b c d : ℝ) : (!![.fin a, .fin b; .fin c, .fin d] : Matrix (Fin 2) (Fin 2) Fl) =
    finM !![a, b; c, d] := by
  funext i j; fin_cases i <;> fin_cases j <;> rfl

theorem finM_row (a b : ℝ) : (!![.fin a, .fin b] : Matrix (Fin 1) (Fin 2) Fl) = finM !![a, b] := by
  funext i j; fin_cases i; fin_cases j <;> rfl

theorem finV_two (a b : ℝ) : (![.fin a, .fin b] : Fin 2 → Fl) = finV ![a, b] := by
  funext i; fin_cases i <;> rfl

theorem nan_like_length (Z : NDArray Fl) : (checkNoneAndBroadcast none Z).rows.length = Z.rows.length := by
  cases Z <;> simp [checkNoneAndBroadcast, NDArray.fullLikeNan, NDArray.rows]

theorem pendulum_represents (dt g c p rk a0 a1 : ℝ) (d : DType) (zs : List ℝ) :
    ∃ kf, pendulum dt g c p rk a0 a1 zs.length = .ok kf ∧
      ExtRepresents kf (data d zs) none (pendBelief p a0 a1) (zs.map (pendStep dt g c rk)) := by
  refine ⟨_, rfl, ?_⟩
  refine ⟨⟨trivial, trivial, trivial, trivial⟩, ?_, rfl, rfl, ⟨.float64, ?_⟩, ⟨.float64, ?_⟩, ?_⟩
  · simp only [ExtendedKalmanFilter.steps, effU, nan_like_length]
    simp [data, NDArray.rows]
  · exact congrArg _ (finV_two a0 a1)
  · exact congrArg _ (finM_two p 0 0 p)
  · intro k s uk zk Qk Rk hs hu hz hQ hR
    rw [List.getElem?_map] at hs
    simp only [data, NDArray.rows, List.getElem?_map] at hz
    obtain ⟨z, hzk, rfl⟩ := Option.map_eq_some_iff.1 hs
    rw [hzk] at hz
    simp only [Option.map_some, Option.some.injEq] at hz
    have hQ' := List.eq_of_mem_replicate (List.mem_of_getElem? hQ)
    have hR' := List.eq_of_mem_replicate (List.mem_of_getElem? hR)
    subst hz hQ' hR'
    refine ⟨fun v x hv => pendF_is dt g c rk z v x (some uk) hv, fun v x hv => pendJA_is dt g c rk z v x (some uk) hv,
      fun v x hv => ?_, fun v x hv => pendJH_is dt g c rk z v x hv, .inr ⟨d, z, rfl, rfl⟩,
      .inl ⟨.float64, ?_⟩, .inr ⟨_, _, rfl, rfl⟩⟩
    · obtain ⟨y, h1, h2⟩ := pendH_is dt g c rk z v x hv
      exact ⟨y, h1, .inr ⟨rfl, h2⟩⟩
    · exact congrArg _ (finM_two _ _ _ _)

omit [Platform] in
theorem pendQ_posDef {dt c : ℝ} (hdt : 0 < dt) (hc : 0 < c) (g rk z : ℝ) : (pendStep dt g c rk z).Q.PosDef := by
  refine posDef_two rfl ?_ ?_
  · show 0 < c * (dt ^ 3 / 3)
    positivity
  · show c * (dt ^ 2 / 2) * (c * (dt ^ 2 / 2)) < c * (dt ^ 3 / 3) * (c * dt)
    have : 0 < c ^ 2 * dt ^ 4 := by positivity
    nlinarith

omit [Platform] in
theorem pendBelief_posDef {p : ℝ} (hp : 0 < p) (a0 a1 : ℝ) : (pendBelief p a0 a1).P.PosDef := by
  refine posDef_two rfl hp ?_
  show (0 : ℝ) * 0 < p * p
  nlinarith

end Examples

variable [Platform]

/-- C55 (runs): both pendulum examples, for every time step `DT > 0`, gravity, noise scale and variance, initial
state and *any* observations (any length, any dtype, at least one), construct their filter, and `filter` and
`smooth` return one state and one covariance per observation; every smoothed covariance is positive definite
and below the filtered one. -/
theorem C55_pendulum (dt g c p rk a0 a1 : ℝ) (d : DType) (zs : List ℝ) (hdt : 0 < dt) (hc : 0 < c) (hp : 0 < p)
    (hr : 0 < rk) (hne : zs ≠ []) :
    ∃ kf, Examples.pendulum dt g c p rk a0 a1 zs.length = .ok kf ∧
      ∃ xe Pe xs Ps kf', (ExtendedKalmanFilter.filter (Examples.data d zs) none).run kf = (.ok (xe, Pe), kf') ∧
        (ExtendedKalmanFilter.smooth (Examples.data d zs) none).run kf = (.ok (xs, Ps), kf') ∧
        ∀ k < zs.length, ∃ (a a' : Arr Fl) (F S : Matrix (Fin 2) (Fin 2) ℝ),
          Pe[k]? = some a ∧ Ps[k]? = some a' ∧ MatIs F a ∧ MatIs S a' ∧ S.PosDef ∧ (F - S).PosSemidef := by
  obtain ⟨kf, hk, hrep⟩ := Examples.pendulum_represents dt g c p rk a0 a1 d zs
  refine ⟨kf, hk, ?_⟩
  have hl : (Examples.data d zs).rows.length = zs.length := by simp [Examples.data, NDArray.rows]
  have := C50_smooth_le kf _ none _ _ hrep (by simp [hl]) (by simpa using hne)
    (Examples.pendBelief_posDef hp a0 a1)
    (by intro s hs; obtain ⟨z, -, rfl⟩ := List.mem_map.1 hs; exact Examples.pendQ_posDef hdt hc g rk z)
    (by intro s hs; obtain ⟨z, -, rfl⟩ := List.mem_map.1 hs; exact posDef_one hr)
  rwa [hl] at this

/-- C55 (Jacobians): on every state vector the four callbacks return arrays; `jacobian_A` and `jacobian_H` return
the derivatives of the functions computed by `f` and `h`. -/
theorem C55_pendulum_jacobians (dt g : ℝ) :
    ∃ (f : (Fin 2 → ℝ) → Fin 2 → ℝ) (h : (Fin 2 → ℝ) → ℝ), ∀ (v : Fin 2 → ℝ) (x : Arr Fl) (u : Option (Arr Fl)),
      VecIs v x → ∃ (y JA JH : Arr Fl) (d : DType) (A : Matrix (Fin 2) (Fin 2) ℝ) (H : Matrix (Fin 1) (Fin 2) ℝ),
        Examples.pendF dt g x u = .ok y ∧ VecIs (f v) y ∧
        Examples.pendJA dt g x u = .ok JA ∧ MatIs A JA ∧
        HasFDerivAt f (LinearMap.toContinuousLinearMap (Matrix.mulVecLin A)) v ∧
        Examples.pendH x = .ok (.scalar d (.fin (h v))) ∧
        Examples.pendJH x = .ok JH ∧ MatIs H JH ∧
        HasFDerivAt (fun v (_ : Fin 1) => h v) (LinearMap.toContinuousLinearMap (Matrix.mulVecLin H)) v := by
  refine ⟨(Examples.pendStep dt g 0 0 0).f, fun v => Real.sin (v 0), fun v x u hv => ?_⟩
  obtain ⟨y, h1, h2⟩ := Examples.pendF_is dt g 0 0 0 v x u hv
  obtain ⟨JA, h3, h4⟩ := Examples.pendJA_is dt g 0 0 0 v x u hv
  obtain ⟨JH, h5, h6⟩ := Examples.pendJH_is dt g 0 0 0 v x hv
  have p0 : HasFDerivAt (fun v : Fin 2 → ℝ => v 0) (ContinuousLinearMap.proj 0) v :=
    (ContinuousLinearMap.proj (R := ℝ) (φ := fun _ : Fin 2 => ℝ) 0).hasFDerivAt
  have p1 : HasFDerivAt (fun v : Fin 2 → ℝ => v 1) (ContinuousLinearMap.proj 1) v :=
    (ContinuousLinearMap.proj (R := ℝ) (φ := fun _ : Fin 2 => ℝ) 1).hasFDerivAt
  refine ⟨y, JA, JH, .float64, _, _, h1, h2, h3, h4, ?_, ?_, h5, h6, ?_⟩
  · rw [hasFDerivAt_pi']
    intro i
    fin_cases i
    · have := p0.add (p1.const_mul dt)
      refine (this.congr_fderiv ?_)
      ext w
      simp [Examples.pendStep, Matrix.mulVec, dotProduct]
    · have := p1.sub ((p0.sin).const_mul (g * dt))
      refine (this.congr_fderiv ?_)
      ext w
      simp [Examples.pendStep, Matrix.mulVec, dotProduct]
      ring
  · obtain ⟨d, rfl⟩ := hv
    simp only [Examples.pendH, Examples.item1_vec0, Except.bind_ok', Examples.npSin]
  · rw [hasFDerivAt_pi']
    intro i
    refine (p0.sin).congr_fderiv ?_
    ext w
    simp [Examples.pendStep, Matrix.mulVec, dotProduct]

-- C55: the constants of pendulum.py and pendulum_smoothing.py
example : (0 : ℝ) < 0.01 ∧ (0 : ℝ) < 0.1 ∧ (0 : ℝ) < 0.02 ∧ (0 : ℝ) < 0.2 ∧ (0 : ℝ) < 0.12 ^ 2 := by norm_num

-- C50, C51: the pendulum on arbitrary data meets the hypotheses (a nonlinear model with a scalar observation).
example (zs : List ℝ) : ∃ kf, Examples.pendulum 0.01 9.81 0.01 0.1 0.1 1.5 0 zs.length = .ok kf ∧
    ExtRepresents kf (Examples.data .float64 zs) none (Examples.pendBelief 0.1 1.5 0)
      (zs.map (Examples.pendStep 0.01 9.81 0.01 0.1)) ∧
    (Examples.pendBelief 0.1 1.5 0).P.PosDef ∧
    (∀ s ∈ zs.map (Examples.pendStep 0.01 9.81 0.01 0.1), s.Q.PosDef ∧ s.R.PosDef) ∧
    ExtSolvable (Examples.pendBelief 0.1 1.5 0) (zs.map (Examples.pendStep 0.01 9.81 0.01 0.1)) := by
  obtain ⟨kf, h1, h2⟩ := Examples.pendulum_represents 0.01 9.81 0.01 0.1 0.1 1.5 0 .float64 zs
  have hP := Examples.pendBelief_posDef (p := 0.1) (by norm_num) 1.5 0
  have hall : ∀ s ∈ zs.map (Examples.pendStep 0.01 9.81 0.01 0.1), s.Q.PosDef ∧ s.R.PosDef := by
    intro s hs
    obtain ⟨z, -, rfl⟩ := List.mem_map.1 hs
    exact ⟨Examples.pendQ_posDef (by norm_num) (by norm_num) _ _ _, posDef_one (by norm_num)⟩
  exact ⟨kf, h1, h2, hP, hall,
    extSolvable_psd hP.posSemidef (fun s hs => (hall s hs).1.posSemidef) fun s hs => (hall s hs).2⟩

/-! ## C56: constant velocity -/

namespace Examples

/-- First step: identity transition, no process noise. -/
noncomputable def cvFirst (obs z : ℝ) : LinStep 2 1 :=
  ⟨!![1, 0; 0, 1], 0, !![1, 0], !![0, 0; 0, 0], Matrix.of fun _ _ => obs ^ 2, fun _ => z⟩

noncomputable def cvRest (dt std obs z : ℝ) : LinStep 2 1 :=
  ⟨!![1, dt; 0, 1], 0, !![1, 0],
    !![std ^ 2 * (dt ^ 4 / 4), std ^ 2 * (dt ^ 3 / 2); std ^ 2 * (dt ^ 3 / 2), std ^ 2 * dt ^ 2],
    Matrix.of fun _ _ => obs ^ 2, fun _ => z⟩

theorem nan_like_isnan {Z : NDArray Fl} {k : ℕ} {a : Arr Fl}
    (h : (checkNoneAndBroadcast none Z).rows[k]? = some a) (hf : ∀ x ∈ Z.rows, x.dtype = .float64) : a.Blank := by
  cases Z with
  | d0 d x => simp [checkNoneAndBroadcast, NDArray.fullLikeNan, NDArray.rows] at h
  | stack l =>
    simp only [checkNoneAndBroadcast, NDArray.fullLikeNan, NDArray.rows, List.getElem?_map] at h
    obtain ⟨x, hx, rfl⟩ := Option.map_eq_some_iff.1 h
    have hd := hf x (List.mem_of_getElem? hx)
    cases x <;> simp only [Arr.dtype] at hd <;> subst hd <;>
      simp [Arr.fullLikeNan, Arr.Blank, Arr.nanFill, Backend.isnan, Backend.nan, Fl.isNan]

theorem constantVelocity_represents (dt std obs p : ℝ) (d : DType) (z : ℝ) (zs : List ℝ) :
    ∃ kf, constantVelocity dt std obs p zs.length = .ok kf ∧
      Represents kf (data d (z :: zs)) none (⟨![0, 0], !![p, 0; 0, p]⟩ : Belief 2)
        (cvFirst obs z :: zs.map (cvRest dt std obs)) := by
  refine ⟨_, rfl, ?_⟩
  refine ⟨⟨trivial, trivial, trivial, trivial, trivial, trivial, trivial⟩, ?_, rfl, rfl,
    .inl ⟨.float64, congrArg _ (finV_two 0 0)⟩, ⟨.float64, congrArg _ (finM_two p 0 0 p)⟩, ?_,
    .inl ⟨.float64, congrArg _ (finV_two 0 0)⟩⟩
  · simp only [KalmanFilter.steps, effU, nan_like_length]
    simp [data, NDArray.rows]
  · intro k s Ak Hk Bk uk zk Qk Rk hs hA hH hB hu hz hQ hR
    have hB0 := hB
    simp only at hB0
    have hB' := nan_like_isnan hB0 (by
      intro x hx
      simp only [NDArray.rows, List.mem_cons, List.mem_replicate] at hx
      rcases hx with rfl | ⟨-, rfl⟩ <;> rfl)
    have hH' := List.eq_of_mem_replicate (List.mem_of_getElem? hH)
    have hR' := List.eq_of_mem_replicate (List.mem_of_getElem? hR)
    rcases k with _ | k
    · simp only [NDArray.rows, List.getElem?_cons_zero, Option.some.injEq, data, List.map_cons] at hs hA hz hQ
      subst hs hA hz hQ hH' hR'
      exact ⟨⟨_, congrArg _ (finM_two _ _ _ _)⟩, ⟨_, congrArg _ (finM_row _ _)⟩, .inl ⟨.inl hB', rfl⟩,
        .inr ⟨_, _, rfl, rfl⟩, .inl ⟨_, congrArg _ (finM_two _ _ _ _)⟩, .inr ⟨_, _, rfl, rfl⟩⟩
    · simp only [NDArray.rows, List.getElem?_cons_succ, data, List.map_cons, List.getElem?_map] at hs hA hz hQ
      obtain ⟨y, hy, rfl⟩ := Option.map_eq_some_iff.1 hs
      rw [hy] at hz
      simp only [Option.map_some, Option.some.injEq] at hz
      have hA' := List.eq_of_mem_replicate (List.mem_of_getElem? hA)
      have hQ' := List.eq_of_mem_replicate (List.mem_of_getElem? hQ)
      subst hz hA' hQ' hH' hR'
      exact ⟨⟨_, congrArg _ (finM_two _ _ _ _)⟩, ⟨_, congrArg _ (finM_row _ _)⟩, .inl ⟨.inl hB', rfl⟩,
        .inr ⟨_, _, rfl, rfl⟩, .inl ⟨_, congrArg _ (finM_two _ _ _ _)⟩, .inr ⟨_, _, rfl, rfl⟩⟩

omit [Platform] in
theorem transitionCovariance_psd (dt std obs z : ℝ) : (cvRest dt std obs z).Q.PosSemidef := by
  have e : (cvRest dt std obs z).Q = Matrix.of (fun i (_ : Fin 1) => std * ![dt ^ 2 / 2, dt] i) *
      (Matrix.of (fun i (_ : Fin 1) => std * ![dt ^ 2 / 2, dt] i))ᵀ := by
    ext i j
    fin_cases i <;> fin_cases j <;> simp [cvRest, Matrix.mul_apply] <;> ring
  rw [e]
  have := Matrix.posSemidef_self_mul_conjTranspose (Matrix.of (fun i (_ : Fin 1) => std * ![dt ^ 2 / 2, dt] i))
  rwa [Matrix.conjTranspose_eq_transpose_of_trivial] at this

end Examples

/-- C56: the constant-velocity example, for every `DT`, acceleration deviation, observation deviation `≠ 0`,
initial variance `p > 0` and *any* observations (at least one, any dtype): the filter is constructed, `filter`
and `smooth` return, every filtered and smoothed covariance is positive definite, and the smoothed one is
below the filtered one - although the process noise `transition_covariance` is singular. -/
theorem C56_constant_velocity (dt std obs p : ℝ) (d : DType) (z : ℝ) (zs : List ℝ) (hobs : obs ≠ 0) (hp : 0 < p) :
    ∃ kf, Examples.constantVelocity dt std obs p zs.length = .ok kf ∧
      ∃ xe Pe xs Ps kf', (KalmanFilter.filter (Examples.data d (z :: zs)) none).run kf = (.ok (xe, Pe), kf') ∧
        (KalmanFilter.smooth (Examples.data d (z :: zs)) none).run kf = (.ok (xs, Ps), kf') ∧
        ∀ k < zs.length + 1, ∃ (a a' : Arr Fl) (F S : Matrix (Fin 2) (Fin 2) ℝ),
          Pe[k]? = some a ∧ Ps[k]? = some a' ∧ MatIs F a ∧ MatIs S a' ∧ S.PosDef ∧ (F - S).PosSemidef := by
  obtain ⟨kf, hk, hrep⟩ := Examples.constantVelocity_represents dt std obs p d z zs
  refine ⟨kf, hk, ?_⟩
  have hl : (Examples.data d (z :: zs)).rows.length = zs.length + 1 := by simp [Examples.data, NDArray.rows]
  have hP : (!![p, 0; 0, p] : Matrix (Fin 2) (Fin 2) ℝ).PosDef := by
    refine posDef_two rfl hp ?_
    show (0 : ℝ) * 0 < p * p
    nlinarith
  have hR : (Matrix.of fun (_ _ : Fin 1) => obs ^ 2).PosDef := posDef_one (by positivity)
  have hall : ∀ s ∈ Examples.cvFirst obs z :: zs.map (Examples.cvRest dt std obs),
      s.Q.PosSemidef ∧ s.R.PosDef ∧ s.A.det ≠ 0 := by
    intro s hs
    rw [List.mem_cons] at hs
    rcases hs with rfl | hs
    · refine ⟨?_, hR, ?_⟩
      · have : (Examples.cvFirst obs z).Q = 0 := by
          ext i j; fin_cases i <;> fin_cases j <;> rfl
        rw [this]; exact Matrix.PosSemidef.zero
      · simp [Examples.cvFirst, Matrix.det_fin_two]
    · obtain ⟨y, -, rfl⟩ := List.mem_map.1 hs
      exact ⟨Examples.transitionCovariance_psd _ _ _ _, hR, by simp [Examples.cvRest, Matrix.det_fin_two]⟩
  obtain ⟨xe, Pe, xs, Ps, kf', h1, h2, h3⟩ := C42_smoothed_le kf _ none _ _ hrep (by simp [hl]) (by simp) hP
    (fun s hs => (hall s hs).1) (fun s hs => (hall s hs).2.1) (fun s hs => .inl (hall s hs).2.2)
  refine ⟨xe, Pe, xs, Ps, kf', h1, h2, fun k hk => ?_⟩
  obtain ⟨a, a', F, S, g1, g2, g3, g4, g5, g6, -⟩ := h3 k (by rw [hl]; exact hk)
  exact ⟨a, a', F, S, g1, g2, g3, g4, g5, g6⟩

-- C56: the constants of the example
example : (2.0 : ℝ) ≠ 0 ∧ (0 : ℝ) < 10.0 := by norm_num

/-! ## C57: market beta -/

namespace Examples

noncomputable def mbStep (q r : ℝ) (x y : ℝ) : LinStep 2 1 :=
  ⟨!![1, 0; 0, 1], 0, !![x, 1], !![q, 0; 0, q], Matrix.of fun _ _ => r, fun _ => y⟩

theorem marketBeta_represents (q r : ℝ) (d : DType) (xs ys : List ℝ) (hl : xs.length = ys.length) :
    ∃ kf, marketBeta q r xs = .ok kf ∧
      Represents kf (data d ys) none (⟨![0, 0], !![1, 0; 0, 1]⟩ : Belief 2) (List.zipWith (mbStep q r) xs ys) := by
  refine ⟨_, rfl, ?_⟩
  refine ⟨⟨trivial, trivial, trivial, trivial, trivial, trivial, trivial⟩, ?_, rfl, rfl,
    .inl ⟨.int64, congrArg _ (finV_two 0 0)⟩, ⟨.float64, congrArg _ (finM_two 1 0 0 1)⟩, ?_,
    .inl ⟨.int64, congrArg _ (finV_two 0 0)⟩⟩
  · simp only [KalmanFilter.steps, effU, nan_like_length]
    simp [data, NDArray.rows, hl]
  · intro k s Ak Hk Bk uk zk Qk Rk hs hA hH hB hu hz hQ hR
    have hB0 := hB
    simp only at hB0
    have hB' := nan_like_isnan hB0 (by
      intro x hx
      simp only [NDArray.rows, List.mem_replicate] at hx
      rw [hx.2]; rfl)
    have hA' := List.eq_of_mem_replicate (List.mem_of_getElem? hA)
    have hQ' := List.eq_of_mem_replicate (List.mem_of_getElem? hQ)
    have hR' := List.eq_of_mem_replicate (List.mem_of_getElem? hR)
    obtain ⟨x, y, hx, hy, rfl⟩ := List.getElem?_zipWith_eq_some.1 hs
    simp only [NDArray.rows, data, List.getElem?_map, hx, hy, Option.map_some, Option.some.injEq] at hH hz
    subst hz hH hA' hQ' hR'
    exact ⟨⟨_, congrArg _ (finM_two _ _ _ _)⟩, ⟨_, congrArg _ (finM_row _ _)⟩, .inl ⟨.inl hB', rfl⟩,
      .inr ⟨_, _, rfl, rfl⟩, .inl ⟨_, congrArg _ (finM_two _ _ _ _)⟩, .inr ⟨_, _, rfl, rfl⟩⟩

end Examples

/-- C57: the market-beta example, for *any* two price series of equal length: the filter is constructed (from an
integer initial state), `filter` returns one estimate `(beta, alpha)` per day and every covariance is positive
definite. -/
theorem C57_market_beta (q r : ℝ) (d : DType) (xs ys : List ℝ) (hl : xs.length = ys.length) (hq : 0 ≤ q)
    (hr : 0 < r) :
    ∃ kf, Examples.marketBeta q r xs = .ok kf ∧
      ∃ es Ps kf', (KalmanFilter.filter (Examples.data d ys) none).run kf = (.ok (es, Ps), kf') ∧
        es.length = ys.length ∧ Ps.length = ys.length ∧
        ∀ k < ys.length, ∃ (a : Arr Fl) (M : Matrix (Fin 2) (Fin 2) ℝ), Ps[k]? = some a ∧ MatIs M a ∧
          M.PosDef := by
  obtain ⟨kf, hk, hrep⟩ := Examples.marketBeta_represents q r d xs ys hl
  refine ⟨kf, hk, ?_⟩
  have hmem : ∀ s ∈ List.zipWith (Examples.mbStep q r) xs ys, ∃ x y, s = Examples.mbStep q r x y := by
    intro s hs
    obtain ⟨k, hk⟩ := List.mem_iff_getElem?.1 hs
    obtain ⟨x, y, -, -, h⟩ := List.getElem?_zipWith_eq_some.1 hk
    exact ⟨x, y, h.symm⟩
  have hP : (!![1, 0; 0, 1] : Matrix (Fin 2) (Fin 2) ℝ).PosDef := posDef_two rfl one_pos (by simp)
  obtain ⟨es, Ps, kf', h1, h2⟩ := C27_pd kf _ none _ _ hrep hP
    (by
      intro s hs
      obtain ⟨x, y, rfl⟩ := hmem s hs
      have : (Examples.mbStep q r x y).Q = Matrix.diagonal fun _ => q := by
        ext i j; fin_cases i <;> fin_cases j <;> simp [Examples.mbStep]
      rw [this]
      exact Matrix.PosSemidef.diagonal fun _ => hq)
    (by intro s hs; obtain ⟨x, y, rfl⟩ := hmem s hs; exact posDef_one hr)
    (by intro s hs; obtain ⟨x, y, rfl⟩ := hmem s hs; left; simp [Examples.mbStep, Matrix.det_fin_two])
  have hlen := KalmanFilter.filter_rowsOk h1
  obtain ⟨n, hn, hx, hPl, -⟩ := hlen
  have hn' : n = ys.length := by
    simp only [Examples.data, NDArray.len, List.length_map, Except.ok.injEq] at hn
    exact hn.symm
  refine ⟨es, Ps, kf', h1, by rw [hx, hn'], by rw [hPl, hn'], fun k hk => h2 k ?_⟩
  simpa [hl] using hk

-- C57: the constants of the example
example : (0 : ℝ) ≤ 0.01 ∧ (0 : ℝ) < 0.01 := by norm_num

end KK
