import Verif.Spec.Regression
import Verif.Props.Batch
import Verif.Props.Covariance
import Verif.Test.Encode
import Verif.Test.GaussianSpace

/-!
# C155: constant parameters (recursive least squares)
-/

namespace KK

open Matrix MeasureTheory Filter Topology

set_option linter.unusedSectionVars false

variable [Platform] {n m : ℕ}

theorem IsStatic.predict {s : LinStep n m} (hs : s.IsStatic) (b : Belief n) : s.predict b = b := by
  obtain ⟨h1, h2, h3⟩ := hs
  ext i j
  · simp [LinStep.predict, h1, h2]
  · simp [LinStep.predict, priorCov, h1, h3]

theorem static_next {s : LinStep n m} (hs : s.IsStatic) {b : Belief n} (hP : b.P.PosDef) (hR : s.R.PosDef) :
    (s.next b).P.PosDef ∧ (s.next b).P⁻¹ = b.P⁻¹ + s.Hᵀ * s.R⁻¹ * s.H ∧
      (s.next b).P⁻¹ *ᵥ (s.next b).x = b.P⁻¹ *ᵥ b.x + (s.Hᵀ * s.R⁻¹) *ᵥ s.z := by
  have hS := posDef_det_ne (innovCov_posDef (H := s.H) hP.posSemidef hR)
  have hPd := posDef_det_ne hP
  have hRd := posDef_det_ne hR
  have hinv := postCov_inv (H := s.H) hPd hRd hS
  have hpd : (postCov s.H b.P s.R).PosDef := postCov_posDef hP hR
  have hK := kGain_eq_post (H := s.H) hPd hRd hS
  have h1 : (postCov s.H b.P s.R)⁻¹ * kGain s.H b.P s.R = s.Hᵀ * s.R⁻¹ := by
    rw [hK, ← Matrix.mul_assoc, ← Matrix.mul_assoc, Matrix.nonsing_inv_mul _ (posDef_isUnit_det hpd), Matrix.one_mul]
  rw [LinStep.next, IsStatic.predict hs]
  refine ⟨hpd, hinv, ?_⟩
  show (postCov s.H b.P s.R)⁻¹ *ᵥ (b.x + kGain s.H b.P s.R *ᵥ (s.z - s.H *ᵥ b.x)) = _
  rw [Matrix.mulVec_add, Matrix.mulVec_mulVec, h1, hinv, Matrix.add_mulVec, Matrix.mulVec_sub, Matrix.mulVec_mulVec]
  abel

theorem static_last {b : Belief n} {ss : List (LinStep n m)} (hs : ∀ s ∈ ss, s.IsStatic) (hP : b.P.PosDef) (hR : ∀ s ∈ ss, s.R.PosDef) :
    (lastOf b ss).P.PosDef ∧ (lastOf b ss).P⁻¹ = information b.P ss ∧ (lastOf b ss).P⁻¹ *ᵥ (lastOf b ss).x = normalRhs b ss := by
  induction ss generalizing b with
  | nil => exact ⟨hP, by simp [information, lastOf], by simp [normalRhs, lastOf]⟩
  | cons s ss ih =>
    obtain ⟨h1, h2, h3⟩ := static_next (hs s (by simp)) hP (hR s (by simp))
    obtain ⟨h4, h5, h6⟩ := ih (b := s.next b) (fun t ht => hs t (by simp [ht])) h1 (fun t ht => hR t (by simp [ht]))
    refine ⟨h4, ?_, ?_⟩
    · show (lastOf (s.next b) ss).P⁻¹ = _
      rw [h5, information, h2, information, List.map_cons, List.sum_cons, add_assoc]
    · show (lastOf (s.next b) ss).P⁻¹ *ᵥ (lastOf (s.next b) ss).x = _
      rw [h6, normalRhs, h3, normalRhs, List.map_cons, List.sum_cons, add_assoc]

theorem inv_of_inv_eq {P J : Matrix (Fin n) (Fin n) ℝ} (hP : P.PosDef) (h : P⁻¹ = J) : P = J⁻¹ ∧ J.PosDef := by
  subst h
  exact ⟨(Matrix.nonsing_inv_nonsing_inv _ (posDef_isUnit_det hP)).symm, hP.inv⟩

theorem static_solution {b : Belief n} {ss : List (LinStep n m)} (hs : ∀ s ∈ ss, s.IsStatic) (hP : b.P.PosDef) (hR : ∀ s ∈ ss, s.R.PosDef) :
    (information b.P ss).PosDef ∧ (lastOf b ss).P = (information b.P ss)⁻¹ ∧ (lastOf b ss).x = (information b.P ss)⁻¹ *ᵥ normalRhs b ss := by
  obtain ⟨h1, h2, h3⟩ := static_last hs hP hR
  obtain ⟨h4, h5⟩ := inv_of_inv_eq h1 h2
  refine ⟨h5, h4, ?_⟩
  rw [← h3, ← h4, Matrix.mulVec_mulVec, Matrix.mul_nonsing_inv _ (posDef_isUnit_det h1), Matrix.one_mulVec]

/-- Completing the square for one term. -/
theorem mahal_shift {k : ℕ} {M : Matrix (Fin k) (Fin k) ℝ} (hM : M.PosDef) (v w : Fin k → ℝ) :
    mahal M (v + w) = mahal M v + 2 * (w ⬝ᵥ (M⁻¹ *ᵥ v)) + mahal M w := by
  have hT : (M⁻¹)ᵀ = M⁻¹ := IsHermitian.symm' hM.inv.isHermitian
  have : v ⬝ᵥ (M⁻¹ *ᵥ w) = w ⬝ᵥ (M⁻¹ *ᵥ v) := by
    rw [dotProduct_mulVec, ← mulVec_transpose, hT, dotProduct_comm]
  simp only [mahal, mulVec_add, add_dotProduct, dotProduct_add, this]
  ring

/-- The cost around any point: value, slope, curvature. -/
theorem ridgeCost_shift {b : Belief n} {ss : List (LinStep n m)} (hP : b.P.PosDef) (hR : ∀ s ∈ ss, s.R.PosDef) (θ d : Fin n → ℝ) :
    ridgeCost b ss (θ + d) = ridgeCost b ss θ + 2 * (d ⬝ᵥ (information b.P ss *ᵥ θ - normalRhs b ss)) +
      d ⬝ᵥ (information b.P ss *ᵥ d) := by
  induction ss with
  | nil =>
    simp only [ridgeCost, information, normalRhs, List.map_nil, List.sum_nil, add_zero]
    rw [show θ + d - b.x = (θ - b.x) + d by abel, mahal_shift hP, mulVec_sub]
    rfl
  | cons s ss ih =>
    have ih := ih fun t ht => hR t (by simp [ht])
    have e1 : ridgeCost b (s :: ss) (θ + d) = ridgeCost b ss (θ + d) + mahal s.R (s.z - s.H *ᵥ (θ + d)) := by
      simp only [ridgeCost, List.map_cons, List.sum_cons]; ring
    have e2 : ridgeCost b (s :: ss) θ = ridgeCost b ss θ + mahal s.R (s.z - s.H *ᵥ θ) := by
      simp only [ridgeCost, List.map_cons, List.sum_cons]; ring
    have e3 : information b.P (s :: ss) = information b.P ss + s.Hᵀ * s.R⁻¹ * s.H := by
      simp only [information, List.map_cons, List.sum_cons]; abel
    have e4 : normalRhs b (s :: ss) = normalRhs b ss + (s.Hᵀ * s.R⁻¹) *ᵥ s.z := by
      simp only [normalRhs, List.map_cons, List.sum_cons]; abel
    rw [e1, e2, e3, e4, ih, mulVec_add, show s.z - (s.H *ᵥ θ + s.H *ᵥ d) = (s.z - s.H *ᵥ θ) + (- (s.H *ᵥ d)) by abel,
      mahal_shift (hR s (by simp))]
    have e5 : ∀ v : Fin m → ℝ, (s.H *ᵥ d) ⬝ᵥ (s.R⁻¹ *ᵥ v) = d ⬝ᵥ ((s.Hᵀ * s.R⁻¹) *ᵥ v) := fun v => by
      rw [← mulVec_mulVec, dotProduct_mulVec, dotProduct_mulVec, vecMul_transpose, ← dotProduct_mulVec]
    have e6 : mahal s.R (-(s.H *ᵥ d)) = d ⬝ᵥ ((s.Hᵀ * s.R⁻¹ * s.H) *ᵥ d) := by
      rw [mahal, mulVec_neg, neg_dotProduct, dotProduct_neg, neg_neg, e5, mulVec_mulVec]
    rw [e6, neg_dotProduct, e5, mulVec_sub, mulVec_mulVec, add_mulVec, add_mulVec]
    simp only [dotProduct_add, dotProduct_sub]
    ring

theorem static_pd {ss : List (LinStep n m)} (hs : ∀ s ∈ ss, s.IsStatic) (hR : ∀ s ∈ ss, s.R.PosDef) : ∀ s ∈ ss, PdStep s := by
  intro s h
  obtain ⟨h1, h2, h3⟩ := hs s h
  exact ⟨h3 ▸ Matrix.PosSemidef.zero, hR s h, .inl (by rw [h1]; simp)⟩

/-- C155: for a constant state (`A` the identity, no process noise, no control) with positive definite `Pk`, `R`, row `k` of
`filter` is the solution of the least-squares problem of all observations so far with the prior guess: the returned mean is
the unique minimiser of the weighted sum of squares, the covariance is the inverse of the accumulated information. -/
theorem C155_least_squares (kf : KalmanFilter Fl) (Z : NDArray Fl) (U : Option (NDArray Fl)) (b : Belief n)
    (ss : List (LinStep n m)) (h : Represents kf Z U b ss) (hs : ∀ s ∈ ss, s.IsStatic) (hP : b.P.PosDef) (hR : ∀ s ∈ ss, s.R.PosDef) :
    ∃ xs Ps kf', (KalmanFilter.filter Z U).run kf = (.ok (xs, Ps), kf') ∧
      ∀ k < kf.steps Z U, ∃ (x : Fin n → ℝ) (ax aP : Arr Fl), xs[k]? = some ax ∧ VecIs x ax ∧ Ps[k]? = some aP ∧
        MatIs (information b.P (ss.take (k + 1)))⁻¹ aP ∧
        x = (information b.P (ss.take (k + 1)))⁻¹ *ᵥ normalRhs b (ss.take (k + 1)) ∧
        ∀ θ, θ ≠ x → ridgeCost b (ss.take (k + 1)) x < ridgeCost b (ss.take (k + 1)) θ := by
  refine ⟨_, _, _, h.returns (solvable_pd b ss hP (static_pd hs hR)), fun k hk => ?_⟩
  rw [← h.len] at hk
  have hsub : ∀ s ∈ ss.take (k + 1), s ∈ ss := fun s hs => List.mem_of_mem_take hs
  obtain ⟨h1, h2, h3⟩ := static_solution (b := b) (fun s h => hs s (hsub s h)) hP (fun s h => hR s (hsub s h))
  refine ⟨(lastOf b (ss.take (k + 1))).x, stateRow (lastOf b (ss.take (k + 1))), covRow (lastOf b (ss.take (k + 1))), ?_, ⟨_, rfl⟩, ?_,
    h2 ▸ ⟨_, rfl⟩, h3, fun θ hθ => ?_⟩
  · rw [List.getElem?_append_left (by rw [List.length_map, filtered_length]; exact hk), List.getElem?_map, filtered_get b ss k hk]; rfl
  · rw [List.getElem?_append_left (by rw [List.length_map, filtered_length]; exact hk), List.getElem?_map, filtered_get b ss k hk]; rfl
  · set x := (lastOf b (ss.take (k + 1))).x
    have hd : θ - x ≠ 0 := sub_ne_zero.2 hθ
    have e := ridgeCost_shift hP (fun s h => hR s (hsub s h)) x (θ - x)
    have e0 : information b.P (ss.take (k + 1)) *ᵥ x = normalRhs b (ss.take (k + 1)) := by
      rw [h3, mulVec_mulVec, Matrix.mul_nonsing_inv _ (posDef_isUnit_det h1), one_mulVec]
    rw [add_sub_cancel, e0, sub_self, dotProduct_zero, mul_zero, add_zero] at e
    rw [e]
    have := h1.dotProduct_mulVec_pos hd
    rw [star_trivial] at this
    linarith

/-- C155 (order): two runs from the same guess whose steps with their observations are the same up to order end with the same mean and the same
covariance. -/
theorem C155_order (kf₁ kf₂ : KalmanFilter Fl) (Z₁ Z₂ : NDArray Fl) (U₁ U₂ : Option (NDArray Fl)) (b : Belief n)
    (ss₁ ss₂ : List (LinStep n m)) (h₁ : Represents kf₁ Z₁ U₁ b ss₁) (h₂ : Represents kf₂ Z₂ U₂ b ss₂) (hp : ss₁.Perm ss₂)
    (hne : ss₁ ≠ []) (hs : ∀ s ∈ ss₁, s.IsStatic) (hP : b.P.PosDef) (hR : ∀ s ∈ ss₁, s.R.PosDef) :
    ∃ xs₁ Ps₁ kf₁' xs₂ Ps₂ kf₂', (KalmanFilter.filter Z₁ U₁).run kf₁ = (.ok (xs₁, Ps₁), kf₁') ∧
      (KalmanFilter.filter Z₂ U₂).run kf₂ = (.ok (xs₂, Ps₂), kf₂') ∧
      ∃ x P, xs₁[ss₁.length - 1]? = some x ∧ xs₂[ss₁.length - 1]? = some x ∧
        Ps₁[ss₁.length - 1]? = some P ∧ Ps₂[ss₁.length - 1]? = some P := by
  have hs₂ : ∀ s ∈ ss₂, s.IsStatic := fun s h => hs s (hp.mem_iff.2 h)
  have hR₂ : ∀ s ∈ ss₂, s.R.PosDef := fun s h => hR s (hp.mem_iff.2 h)
  have e : lastOf b ss₁ = lastOf b ss₂ := by
    obtain ⟨h1, h2, h3⟩ := static_solution (b := b) hs hP hR
    obtain ⟨h4, h5, h6⟩ := static_solution (b := b) hs₂ hP hR₂
    have e1 : information b.P ss₁ = information b.P ss₂ := by rw [information, information, (hp.map _).sum_eq]
    have e2 : normalRhs b ss₁ = normalRhs b ss₂ := by rw [normalRhs, normalRhs, (hp.map _).sum_eq]
    exact Belief.ext (by rw [h3, h6, e1, e2]) (by rw [h2, h5, e1])
  have hpos : 0 < ss₁.length := List.length_pos_iff.2 hne
  have hlen := hp.length_eq
  refine ⟨_, _, _, _, _, _, h₁.returns (solvable_pd b ss₁ hP (static_pd hs hR)), h₂.returns (solvable_pd b ss₂ hP (static_pd hs₂ hR₂)),
    stateRow (lastOf b ss₁), covRow (lastOf b ss₁), ?_, ?_, ?_, ?_⟩
  · rw [List.getElem?_append_left (by rw [List.length_map, filtered_length]; omega), List.getElem?_map, filtered_get b ss₁ _ (by omega),
      Nat.sub_add_cancel hpos, List.take_length]; rfl
  · rw [List.getElem?_append_left (by rw [List.length_map, filtered_length]; omega), List.getElem?_map, filtered_get b ss₂ _ (by omega),
      Nat.sub_add_cancel hpos, hlen, List.take_length, e]; rfl
  · rw [List.getElem?_append_left (by rw [List.length_map, filtered_length]; omega), List.getElem?_map, filtered_get b ss₁ _ (by omega),
      Nat.sub_add_cancel hpos, List.take_length]; rfl
  · rw [List.getElem?_append_left (by rw [List.length_map, filtered_length]; omega), List.getElem?_map, filtered_get b ss₂ _ (by omega),
      Nat.sub_add_cancel hpos, hlen, List.take_length, e]; rfl

theorem static_rts {b : Belief n} {ss : List (LinStep n m)} (hs : ∀ s ∈ ss, s.IsStatic) (hP : b.P.PosDef) (hR : ∀ s ∈ ss, s.R.PosDef) :
    rts b ss = List.replicate (ss.length + 1) (lastOf b ss) := by
  induction ss generalizing b with
  | nil => rfl
  | cons s ss ih =>
    have hn := static_next (hs s (by simp)) hP (hR s (by simp))
    rw [rts, ih (b := s.next b) (fun t ht => hs t (by simp [ht])) hn.1 (fun t ht => hR t (by simp [ht])), List.replicate_succ]
    simp only [List.length_cons]
    rw [List.replicate_succ, List.replicate_succ]
    have hG : b.P * s.Aᵀ * (s.predict b).P⁻¹ = 1 := by
      rw [IsStatic.predict (hs s (by simp)), (hs s (by simp)).1, transpose_one, Matrix.mul_one,
        Matrix.mul_nonsing_inv _ (posDef_isUnit_det hP)]
    congr 1
    rw [rtsStep]
    simp only [hG]
    rw [IsStatic.predict (hs s (by simp))]
    refine Belief.ext ?_ ?_
    · simp [lastOf]
    · simp [lastOf]

/-- C155 (smoothing): for a constant state `smooth` returns the last filtered mean and covariance, the estimate from all data, on every row. -/
theorem C155_smooth (kf : KalmanFilter Fl) (Z : NDArray Fl) (U : Option (NDArray Fl)) (b : Belief n)
    (ss : List (LinStep n m)) (h : Represents kf Z U b ss) (hfull : ss.length = Z.rows.length) (hne : ss ≠ [])
    (hs : ∀ s ∈ ss, s.IsStatic) (hP : b.P.PosDef) (hR : ∀ s ∈ ss, s.R.PosDef) :
    ∃ xs Ps kf' x P, (KalmanFilter.smooth Z U).run kf = (.ok (xs, Ps), kf') ∧
      xs = List.replicate Z.rows.length x ∧ Ps = List.replicate Z.rows.length P ∧
      VecIs ((information b.P ss)⁻¹ *ᵥ normalRhs b ss) x ∧ MatIs (information b.P ss)⁻¹ P := by
  have hpd := static_pd hs hR
  have hr := h.smoothReturns hfull hne (solvable_pd b ss hP hpd) (smoothSolvable_pd b ss hP hpd)
  obtain ⟨-, h2, h3⟩ := static_solution (b := b) hs hP hR
  have e : smoothed b ss = List.replicate Z.rows.length (lastOf b ss) := by
    rcases ss with _ | ⟨s, ss⟩
    · exact absurd rfl hne
    · rw [smoothed, static_rts (fun t ht => hs t (by simp [ht])) (static_next (hs s (by simp)) hP (hR s (by simp))).1
        (fun t ht => hR t (by simp [ht])), ← hfull]
      rfl
  rw [SmoothReturns, e, List.map_replicate, List.map_replicate] at hr
  exact ⟨_, _, _, stateRow (lastOf b ss), covRow (lastOf b ss), hr, rfl, rfl, h3 ▸ ⟨_, rfl⟩, h2 ▸ ⟨_, rfl⟩⟩

/-! ### Errors -/

theorem information_apply (P : Matrix (Fin n) (Fin n) ℝ) (ss : List (LinStep n m)) (θ : Fin n → ℝ) :
    information P ss *ᵥ θ = P⁻¹ *ᵥ θ + (ss.map fun s => (s.Hᵀ * s.R⁻¹) *ᵥ (s.H *ᵥ θ)).sum := by
  induction ss with
  | nil => simp [information]
  | cons s ss ih =>
    have e3 : information P (s :: ss) = information P ss + s.Hᵀ * s.R⁻¹ * s.H := by
      simp only [information, List.map_cons, List.sum_cons]; abel
    rw [e3, add_mulVec, ih, List.map_cons, List.sum_cons, ← mulVec_mulVec]
    abel

theorem normalRhs_sub (b : Belief n) (ss : List (LinStep n m)) (θ : Fin n → ℝ) :
    normalRhs b ss - information b.P ss *ᵥ θ =
      b.P⁻¹ *ᵥ (b.x - θ) + (ss.map fun s => (s.Hᵀ * s.R⁻¹) *ᵥ (s.z - s.H *ᵥ θ)).sum := by
  rw [information_apply]
  induction ss with
  | nil => simp [normalRhs, mulVec_sub]
  | cons s ss ih =>
    have e4 : normalRhs b (s :: ss) = normalRhs b ss + (s.Hᵀ * s.R⁻¹) *ᵥ s.z := by
      simp only [normalRhs, List.map_cons, List.sum_cons]; abel
    rw [e4]
    simp only [List.map_cons, List.sum_cons]
    rw [mulVec_sub _ s.z]
    have h2 : normalRhs b ss + (s.Hᵀ * s.R⁻¹) *ᵥ s.z - (b.P⁻¹ *ᵥ θ + ((s.Hᵀ * s.R⁻¹) *ᵥ (s.H *ᵥ θ) +
        (ss.map fun s => (s.Hᵀ * s.R⁻¹) *ᵥ (s.H *ᵥ θ)).sum)) = (normalRhs b ss - (b.P⁻¹ *ᵥ θ +
        (ss.map fun s => (s.Hᵀ * s.R⁻¹) *ᵥ (s.H *ᵥ θ)).sum)) + ((s.Hᵀ * s.R⁻¹) *ᵥ s.z - (s.Hᵀ * s.R⁻¹) *ᵥ (s.H *ᵥ θ)) := by abel
    rw [h2, ih]
    abel

theorem solution_error {b : Belief n} {ss : List (LinStep n m)} (hJ : (information b.P ss).PosDef) (θ : Fin n → ℝ) :
    (information b.P ss)⁻¹ *ᵥ normalRhs b ss - θ =
      (information b.P ss)⁻¹ *ᵥ (b.P⁻¹ *ᵥ (b.x - θ) + (ss.map fun s => (s.Hᵀ * s.R⁻¹) *ᵥ (s.z - s.H *ᵥ θ)).sum) := by
  rw [← normalRhs_sub, mulVec_sub, mulVec_mulVec, Matrix.nonsing_inv_mul _ (posDef_isUnit_det hJ), one_mulVec]

/-- C155 (error): whatever the parameter and the data, the error of row `k` is the returned covariance times (the error of the
guess weighted by its information, plus the residuals at the true parameter weighted by theirs). -/
theorem C155_error (kf : KalmanFilter Fl) (Z : NDArray Fl) (U : Option (NDArray Fl)) (b : Belief n)
    (ss : List (LinStep n m)) (h : Represents kf Z U b ss) (hs : ∀ s ∈ ss, s.IsStatic) (hP : b.P.PosDef) (hR : ∀ s ∈ ss, s.R.PosDef)
    (θ : Fin n → ℝ) :
    ∃ xs Ps kf', (KalmanFilter.filter Z U).run kf = (.ok (xs, Ps), kf') ∧
      ∀ k < kf.steps Z U, ∃ (x : Fin n → ℝ) (P : Matrix (Fin n) (Fin n) ℝ) (ax aP : Arr Fl), xs[k]? = some ax ∧ VecIs x ax ∧
        Ps[k]? = some aP ∧ MatIs P aP ∧
        x - θ = P *ᵥ (b.P⁻¹ *ᵥ (b.x - θ) + ((ss.take (k + 1)).map fun s => (s.Hᵀ * s.R⁻¹) *ᵥ (s.z - s.H *ᵥ θ)).sum) := by
  obtain ⟨xs, Ps, kf', h1, h2⟩ := C155_least_squares kf Z U b ss h hs hP hR
  refine ⟨xs, Ps, kf', h1, fun k hk => ?_⟩
  obtain ⟨x, ax, aP, h3, h4, h5, h6, h7, -⟩ := h2 k hk
  refine ⟨x, _, ax, aP, h3, h4, h5, h6, ?_⟩
  have hsub : ∀ s ∈ ss.take (k + 1), s ∈ ss := fun s hs => List.mem_of_mem_take hs
  rw [h7, solution_error (static_solution (b := b) (fun s h => hs s (hsub s h)) hP (fun s h => hR s (hsub s h))).1 θ]

/-! ### Ever more observations -/

variable {H : ℕ → Matrix (Fin m) (Fin n) ℝ} {R : ℕ → Matrix (Fin m) (Fin m) ℝ}

theorem regression_static (z : ℕ → Fin m → ℝ) (T : ℕ) : ∀ s ∈ regression H R z T, s.IsStatic := by
  intro s hs
  simp only [regression, List.mem_map] at hs
  obtain ⟨k, -, rfl⟩ := hs
  exact ⟨rfl, rfl, rfl⟩

theorem regression_R (hR : ∀ k, (R k).PosDef) (z : ℕ → Fin m → ℝ) (T : ℕ) : ∀ s ∈ regression H R z T, s.R.PosDef := by
  intro s hs
  simp only [regression, List.mem_map] at hs
  obtain ⟨k, -, rfl⟩ := hs
  exact hR k

theorem regression_length (z : ℕ → Fin m → ℝ) (T : ℕ) : (regression H R z T).length = T := by simp [regression]

theorem regression_take (z : ℕ → Fin m → ℝ) (T k : ℕ) (hk : k < T) : (regression H R z T).take (k + 1) = regression H R z (k + 1) := by
  rw [regression, ← List.map_take, List.take_range, min_eq_left hk]; rfl

theorem regression_info (P : Matrix (Fin n) (Fin n) ℝ) (z : ℕ → Fin m → ℝ) (T : ℕ) :
    information P (regression H R z T) = P⁻¹ + ∑ k ∈ Finset.range T, (H k)ᵀ * (R k)⁻¹ * H k := by
  rw [information, regression, List.map_map, ← List.sum_toFinset _ List.nodup_range, List.toFinset_range]; rfl

theorem quad_sum (v : Fin n → ℝ) (T : ℕ) :
    v ⬝ᵥ ((∑ k ∈ Finset.range T, (H k)ᵀ * (R k)⁻¹ * H k) *ᵥ v) = ∑ k ∈ Finset.range T, mahal (R k) (H k *ᵥ v) := by
  induction T with
  | zero => simp
  | succ T ih =>
    rw [Finset.sum_range_succ, Finset.sum_range_succ, add_mulVec, dotProduct_add, ih, mahal, ← mulVec_mulVec, ← mulVec_mulVec,
      dotProduct_mulVec _ (H T)ᵀ, vecMul_transpose]

theorem dot_self_nonneg' (v : Fin n → ℝ) : 0 ≤ v ⬝ᵥ v := by
  simpa using dotProduct_star_self_nonneg v

theorem sq_le_dot (v : Fin n → ℝ) (i : Fin n) : v i ^ 2 ≤ v ⬝ᵥ v := by
  rw [dotProduct]
  refine le_trans (le_of_eq (sq _)) (Finset.single_le_sum (f := fun i => v i * v i) (fun j _ => mul_self_nonneg _) (Finset.mem_univ i))

/-- Large information, small covariance. -/
theorem inv_small {J : Matrix (Fin n) (Fin n) ℝ} (hJ : J.PosDef) {c : ℝ} (hc : 0 < c) (h : ∀ v, c * (v ⬝ᵥ v) ≤ v ⬝ᵥ (J *ᵥ v)) (i j : Fin n) :
    |J⁻¹ i j| ≤ 1 / c := by
  set w : Fin n → ℝ := J⁻¹ *ᵥ Pi.single j 1
  have hw : J *ᵥ w = Pi.single j 1 := by
    rw [mulVec_mulVec, Matrix.mul_nonsing_inv _ (posDef_isUnit_det hJ), one_mulVec]
  have h1 := h w
  rw [hw] at h1
  have e : ∀ k, w k = J⁻¹ k j := fun k => by simp [w]
  have h2 : w ⬝ᵥ Pi.single j 1 = w j := by simp
  rw [h2] at h1
  have h3 := sq_le_dot w j
  have h4 : w j ≤ 1 / c := by
    rw [le_div_iff₀ hc]
    by_contra hcon
    push_neg at hcon
    have hpos : 0 < w j := by nlinarith [dot_self_nonneg' w]
    nlinarith
  have h5 : w i ^ 2 ≤ (1 / c) ^ 2 := by
    have h6 := sq_le_dot w i
    have h7 : c * (w i ^ 2) ≤ 1 / c := le_trans (le_trans (mul_le_mul_of_nonneg_left h6 hc.le) h1) h4
    rw [div_pow, one_pow, le_div_iff₀ (by positivity)]
    rw [le_div_iff₀ hc] at h7
    nlinarith
  rw [← e]
  exact abs_le_of_sq_le_sq h5 (by positivity)

/-- Small covariance, large information. -/
theorem info_large {J : Matrix (Fin n) (Fin n) ℝ} (hJ : J.PosDef) {ε : ℝ} (hε : 0 < ε) (h : ∀ i j, |J⁻¹ i j| ≤ ε) (v : Fin n → ℝ) :
    1 / (ε * (n + 1)) * (v ⬝ᵥ v) ≤ v ⬝ᵥ (J *ᵥ v) := by
  have hq : v ⬝ᵥ (J⁻¹ *ᵥ v) ≤ ε * (n + 1) * (v ⬝ᵥ v) := by
    have h1 : v ⬝ᵥ (J⁻¹ *ᵥ v) ≤ ∑ i, ∑ j, ε * ((v i ^ 2 + v j ^ 2) / 2) := by
      rw [dotProduct]
      refine Finset.sum_le_sum fun i _ => ?_
      rw [mulVec, dotProduct, Finset.mul_sum]
      refine Finset.sum_le_sum fun j _ => ?_
      have h2 : v i * (J⁻¹ i j * v j) ≤ |J⁻¹ i j| * |v i * v j| := by
        rw [show v i * (J⁻¹ i j * v j) = J⁻¹ i j * (v i * v j) by ring, ← abs_mul]; exact le_abs_self _
      have h3 : |v i * v j| ≤ (v i ^ 2 + v j ^ 2) / 2 := by
        rw [abs_le]; constructor <;> nlinarith [sq_nonneg (v i + v j), sq_nonneg (v i - v j)]
      exact h2.trans (mul_le_mul (h i j) h3 (abs_nonneg _) hε.le)
    refine h1.trans (le_trans (le_of_eq ?_) (mul_le_mul_of_nonneg_right (mul_le_mul_of_nonneg_left (by linarith : (n : ℝ) ≤ n + 1) hε.le)
      (dot_self_nonneg' v)))
    have hd : v ⬝ᵥ v = ∑ i, v i ^ 2 := by rw [dotProduct]; exact Finset.sum_congr rfl fun i _ => (sq _).symm
    rw [hd]
    simp only [mul_add, add_div, Finset.sum_add_distrib, Finset.sum_const, Finset.card_univ, Fintype.card_fin, nsmul_eq_mul,
      ← Finset.mul_sum, ← Finset.sum_div]
    ring
  set s := 1 / (ε * (n + 1)) with hs
  have hs0 : 0 < s := by positivity
  set w : Fin n → ℝ := J⁻¹ *ᵥ v
  have hw : J *ᵥ w = v := by rw [mulVec_mulVec, Matrix.mul_nonsing_inv _ (posDef_isUnit_det hJ), one_mulVec]
  have hT : Jᵀ = J := IsHermitian.symm' hJ.isHermitian
  have hvw : w ⬝ᵥ (J *ᵥ v) = v ⬝ᵥ v := by rw [dotProduct_mulVec, ← mulVec_transpose, hT, hw]
  have h0 := hJ.posSemidef.dotProduct_mulVec_nonneg (v - s • w)
  rw [star_trivial, mulVec_sub, mulVec_smul, hw, sub_dotProduct, dotProduct_sub, dotProduct_sub, smul_dotProduct, smul_dotProduct,
    dotProduct_smul, dotProduct_smul, hvw, dotProduct_comm w v] at h0
  simp only [smul_eq_mul] at h0
  have h1 : s * (ε * (n + 1)) = 1 := by rw [hs]; field_simp
  have h2 : s * (s * (v ⬝ᵥ w)) ≤ s * (v ⬝ᵥ v) := by
    refine mul_le_mul_of_nonneg_left ?_ hs0.le
    calc s * (v ⬝ᵥ w) ≤ s * (ε * (n + 1) * (v ⬝ᵥ v)) := mul_le_mul_of_nonneg_left hq hs0.le
      _ = v ⬝ᵥ v := by rw [← mul_assoc, h1, one_mul]
  linarith

theorem quad_bound (M : Matrix (Fin n) (Fin n) ℝ) : ∃ p : ℝ, ∀ v : Fin n → ℝ, v ⬝ᵥ (M *ᵥ v) ≤ p * (v ⬝ᵥ v) := by
  refine ⟨∑ i, ∑ j, |M i j|, fun v => ?_⟩
  rw [Finset.sum_mul, dotProduct]
  refine Finset.sum_le_sum fun i _ => ?_
  rw [mulVec, dotProduct, Finset.mul_sum, Finset.sum_mul]
  refine Finset.sum_le_sum fun j _ => ?_
  have h3 : |v i * v j| ≤ v ⬝ᵥ v := by
    have := sq_le_dot v i
    have := sq_le_dot v j
    rw [abs_le]; constructor <;> nlinarith [sq_nonneg (v i + v j), sq_nonneg (v i - v j)]
  have h2 : v i * (M i j * v j) ≤ |M i j| * |v i * v j| := by
    rw [show v i * (M i j * v j) = M i j * (v i * v j) by ring, ← abs_mul]; exact le_abs_self _
  exact h2.trans (mul_le_mul_of_nonneg_left h3 (abs_nonneg _))

/-- Covariance after `T` observations. -/
noncomputable def ridgeCov (P : Matrix (Fin n) (Fin n) ℝ) (H : ℕ → Matrix (Fin m) (Fin n) ℝ) (R : ℕ → Matrix (Fin m) (Fin m) ℝ) (T : ℕ) :
    Matrix (Fin n) (Fin n) ℝ := (P⁻¹ + ∑ k ∈ Finset.range T, (H k)ᵀ * (R k)⁻¹ * H k)⁻¹

theorem ridgeInfo_posDef {P : Matrix (Fin n) (Fin n) ℝ} (hP : P.PosDef) (hR : ∀ k, (R k).PosDef) (T : ℕ) :
    (P⁻¹ + ∑ k ∈ Finset.range T, (H k)ᵀ * (R k)⁻¹ * H k).PosDef := by
  have := (static_solution (b := ⟨0, P⟩) (regression_static (H := H) (R := R) 0 T) hP (regression_R hR 0 T)).1
  rwa [regression_info] at this

theorem ridgeCov_tendsto {P : Matrix (Fin n) (Fin n) ℝ} (hP : P.PosDef) (hR : ∀ k, (R k).PosDef) :
    Tendsto (ridgeCov P H R) atTop (𝓝 0) ↔ Exciting H R := by
  have hpd := ridgeInfo_posDef (H := H) (R := R) hP hR
  have hquad : ∀ T (v : Fin n → ℝ), v ⬝ᵥ ((P⁻¹ + ∑ k ∈ Finset.range T, (H k)ᵀ * (R k)⁻¹ * H k) *ᵥ v) =
      v ⬝ᵥ (P⁻¹ *ᵥ v) + ∑ k ∈ Finset.range T, mahal (R k) (H k *ᵥ v) := fun T v => by
    rw [add_mulVec, dotProduct_add, quad_sum]
  have hnn : ∀ v : Fin n → ℝ, 0 ≤ v ⬝ᵥ (P⁻¹ *ᵥ v) := fun v => by simpa using hP.inv.posSemidef.dotProduct_mulVec_nonneg v
  constructor
  · intro ht c
    obtain ⟨p, hp⟩ := quad_bound P⁻¹
    set ε : ℝ := 1 / ((|c| + |p| + 1) * (n + 1)) with hε
    have hε0 : 0 < ε := by positivity
    have h1 : ∀ i j, ∀ᶠ T in atTop, |ridgeCov P H R T i j| ≤ ε := fun i j => by
      have h2 : Tendsto (fun T => ridgeCov P H R T i j) atTop (𝓝 0) := by
        have := tendsto_pi_nhds.1 (tendsto_pi_nhds.1 ht i) j
        simpa using this
      have h3 := h2.abs
      rw [abs_zero] at h3
      exact (h3.eventually (eventually_lt_nhds hε0)).mono fun T h => h.le
    obtain ⟨N, hN⟩ := eventually_atTop.1 (eventually_all.2 fun i => eventually_all.2 fun j => h1 i j)
    refine ⟨N, fun T hT v => ?_⟩
    have h4 := info_large (hpd T) hε0 (hN T hT) v
    rw [hquad] at h4
    have h5 : 1 / (ε * (n + 1)) = |c| + |p| + 1 := by
      rw [hε]; field_simp
    rw [h5] at h4
    have h6 := hp v
    have h7 := dot_self_nonneg' v
    nlinarith [le_abs_self c, le_abs_self p]
  · intro he
    refine tendsto_pi_nhds.2 fun i => tendsto_pi_nhds.2 fun j => ?_
    rw [Metric.tendsto_atTop]
    intro ε hε
    obtain ⟨N, hN⟩ := he (2 / ε)
    refine ⟨N, fun T hT => ?_⟩
    have h1 := inv_small (hpd T) (c := 2 / ε) (by positivity) (fun v => by
      rw [hquad]; linarith [hN T hT v, hnn v]) i j
    have h2 : dist (ridgeCov P H R T i j) 0 = |ridgeCov P H R T i j| := by rw [Real.dist_eq, sub_zero]
    refine lt_of_le_of_lt (h2.le.trans h1) ?_
    rw [one_div_div]; linarith

/-- C155 (consistency): row `k` of the covariances is the same in all runs, whatever the data; it tends to zero with growing `k`
if and only if the observations determine every direction of the parameter ever better. -/
theorem C155_consistency {P : Matrix (Fin n) (Fin n) ℝ} (hP : P.PosDef) (hR : ∀ k, (R k).PosDef) :
    ∃ M : ℕ → Matrix (Fin n) (Fin n) ℝ,
      (∀ (kf : KalmanFilter Fl) (Z : NDArray Fl) (U : Option (NDArray Fl)) (x : Fin n → ℝ) (z : ℕ → Fin m → ℝ) (T : ℕ),
        Represents kf Z U ⟨x, P⟩ (regression H R z T) →
        ∃ xs Ps kf', (KalmanFilter.filter Z U).run kf = (.ok (xs, Ps), kf') ∧ ∀ k < T, ∃ aP, Ps[k]? = some aP ∧ MatIs (M k) aP) ∧
      (Tendsto M atTop (𝓝 0) ↔ Exciting H R) := by
  refine ⟨fun k => ridgeCov P H R (k + 1), fun kf Z U x z T h => ?_, ?_⟩
  · obtain ⟨xs, Ps, kf', h1, h2⟩ := C155_least_squares kf Z U _ _ h (regression_static z T) hP (regression_R hR z T)
    refine ⟨xs, Ps, kf', h1, fun k hk => ?_⟩
    obtain ⟨-, -, aP, -, -, h3, h4, -, -⟩ := h2 k (by rw [← h.len, regression_length]; exact hk)
    rw [regression_take z T k hk, regression_info] at h4
    exact ⟨aP, h3, h4⟩
  · rw [← ridgeCov_tendsto hP hR]
    exact tendsto_add_atTop_iff_nat 1

/-! ### Random measurement errors -/

section
variable {Ω : Type} [MeasurableSpace Ω] {μ : Measure Ω} [IsProbabilityMeasure μ] {v : ℕ → Ω → Fin m → ℝ}

theorem noise_sum (hN : MeasurementNoise μ R v) (c : ℝ) (w : ℕ → Fin m → ℝ) (T : ℕ) :
    MemLp (fun ω => c + ∑ j ∈ Finset.range T, w j ⬝ᵥ v j ω) 2 μ ∧
    (∀ l ≥ T, ∀ i, ∫ ω, (c + ∑ j ∈ Finset.range T, w j ⬝ᵥ v j ω) * v l ω i ∂μ = 0) ∧
    ∫ ω, (c + ∑ j ∈ Finset.range T, w j ⬝ᵥ v j ω) ^ 2 ∂μ = c ^ 2 + ∑ j ∈ Finset.range T, w j ⬝ᵥ (R j *ᵥ w j) := by
  have hint : ∀ k i, Integrable (fun ω => v k ω i) μ := fun k i => (hN.sq k i).integrable (by norm_num)
  have hprod : ∀ k i l j, Integrable (fun ω => v k ω i * v l ω j) μ := fun k i l j => (hN.sq k i).integrable_mul (hN.sq l j)
  have hdot : ∀ (u : Fin m → ℝ) k, MemLp (fun ω => u ⬝ᵥ v k ω) 2 μ := fun u k =>
    memLp_finset_sum _ fun i _ => (hN.sq k i).const_mul (u i)
  have hmul : ∀ {f g : Ω → ℝ}, MemLp f 2 μ → MemLp g 2 μ → Integrable (fun ω => f ω * g ω) μ := fun hf hg => hf.integrable_mul hg
  have hdv : ∀ (u : Fin m → ℝ) k l i, ∫ ω, (u ⬝ᵥ v k ω) * v l ω i ∂μ = ∑ j, u j * ∫ ω, v k ω j * v l ω i ∂μ := by
    intro u k l i
    simp only [dotProduct, Finset.sum_mul]
    rw [integral_finset_sum _ fun j _ => by
      have := (hprod k j l i).const_mul (u j)
      simpa only [mul_assoc] using this]
    refine Finset.sum_congr rfl fun j _ => ?_
    rw [← integral_const_mul]
    simp only [mul_assoc]
  induction T with
  | zero =>
    refine ⟨by simpa using memLp_const c, fun l _ i => ?_, by simp⟩
    simp only [Finset.range_zero, Finset.sum_empty, add_zero]
    rw [integral_const_mul, hN.mean, mul_zero]
  | succ T ih =>
    obtain ⟨h1, h2, h3⟩ := ih
    have hsplit : ∀ ω, (c + ∑ j ∈ Finset.range (T + 1), w j ⬝ᵥ v j ω) = (c + ∑ j ∈ Finset.range T, w j ⬝ᵥ v j ω) + w T ⬝ᵥ v T ω := fun ω => by
      rw [Finset.sum_range_succ, add_assoc]
    simp only [hsplit]
    have hc : ∫ ω, (c + ∑ j ∈ Finset.range T, w j ⬝ᵥ v j ω) * (w T ⬝ᵥ v T ω) ∂μ = 0 := by
      simp only [dotProduct, Finset.mul_sum]
      rw [integral_finset_sum _ fun i _ => by
        have := (h1.integrable_mul (hN.sq T i)).const_mul (w T i)
        simp only [dotProduct] at this
        refine this.congr (ae_of_all _ fun ω => ?_)
        simp only [Pi.mul_apply]
        ring]
      refine Finset.sum_eq_zero fun i _ => ?_
      have := h2 T le_rfl i
      simp only [dotProduct] at this
      rw [← mul_zero (w T i), ← this, ← integral_const_mul]
      refine integral_congr_ae (ae_of_all _ fun ω => ?_)
      simp only
      ring
    have hs : ∫ ω, (w T ⬝ᵥ v T ω) ^ 2 ∂μ = w T ⬝ᵥ (R T *ᵥ w T) := by
      have : ∀ ω, (w T ⬝ᵥ v T ω) ^ 2 = ∑ i, w T i * ((w T ⬝ᵥ v T ω) * v T ω i) := fun ω => by
        rw [sq]
        conv_lhs => rw [show w T ⬝ᵥ v T ω * w T ⬝ᵥ v T ω = (w T ⬝ᵥ v T ω) * ∑ i, w T i * v T ω i from rfl, Finset.mul_sum]
        exact Finset.sum_congr rfl fun i _ => by ring
      simp only [this]
      rw [integral_finset_sum _ fun i _ => (hmul (hdot (w T) T) (hN.sq T i)).const_mul (w T i)]
      rw [dotProduct]
      refine Finset.sum_congr rfl fun i _ => ?_
      rw [integral_const_mul, hdv]
      congr 1
      rw [mulVec, dotProduct]
      refine Finset.sum_congr rfl fun j _ => ?_
      rw [hN.cov]
      rw [show R T j i = R T i j by rw [← hN.cov, ← hN.cov]; simp only [mul_comm]]
      ring
    refine ⟨h1.add (hdot _ _), fun l hl i => ?_, ?_⟩
    · have e : ∀ ω, (c + ∑ j ∈ Finset.range T, w j ⬝ᵥ v j ω + w T ⬝ᵥ v T ω) * v l ω i =
          (c + ∑ j ∈ Finset.range T, w j ⬝ᵥ v j ω) * v l ω i + (w T ⬝ᵥ v T ω) * v l ω i := fun ω => add_mul _ _ _
      simp only [e]
      rw [integral_add (hmul h1 (hN.sq l i)) (hmul (hdot (w T) T) (hN.sq l i)), h2 l (by omega), hdv, zero_add]
      exact Finset.sum_eq_zero fun j _ => by rw [hN.uncorrelated T l (by omega), mul_zero]
    · have e : ∀ ω, (c + ∑ j ∈ Finset.range T, w j ⬝ᵥ v j ω + w T ⬝ᵥ v T ω) ^ 2 =
          (c + ∑ j ∈ Finset.range T, w j ⬝ᵥ v j ω) ^ 2 + 2 * ((c + ∑ j ∈ Finset.range T, w j ⬝ᵥ v j ω) * (w T ⬝ᵥ v T ω)) + (w T ⬝ᵥ v T ω) ^ 2 :=
        fun ω => by ring
      simp only [e]
      have i1 := h1.integrable_sq
      have i2 := (hmul h1 (hdot (w T) T)).const_mul 2
      have i3 := (hdot (w T) T).integrable_sq
      have i12 : Integrable (fun ω => (c + ∑ j ∈ Finset.range T, w j ⬝ᵥ v j ω) ^ 2 +
        2 * ((c + ∑ j ∈ Finset.range T, w j ⬝ᵥ v j ω) * (w T ⬝ᵥ v T ω))) μ := i1.add i2
      rw [integral_add i12 i3, integral_add i1 i2, integral_const_mul, h3, hs, hc, Finset.sum_range_succ]
      ring

/-- C155 (random errors): if the observations are `z = H θ + v` with zero-mean errors `v` of the covariances `R` told to the filter,
uncorrelated at different times, then for every parameter `θ` and every guess the mean square error of row `k`, in every direction
`a`, is what bias and variance say: `(a' P_k P⁻¹ (x - θ))² + a' P_k a - a' P_k P⁻¹ P_k a`; it tends to zero if the observations determine
every direction ever better, however wrong the guess. -/
theorem C155_mean_square {P : Matrix (Fin n) (Fin n) ℝ} (hP : P.PosDef) (hR : ∀ k, (R k).PosDef) (hN : MeasurementNoise μ R v)
    (x θ a : Fin n → ℝ) :
    ∃ (M : ℕ → Matrix (Fin n) (Fin n) ℝ) (e : ℕ → ℝ),
      (∀ (kf : KalmanFilter Fl) (Zs : Ω → NDArray Fl) (U : Option (NDArray Fl)) (T : ℕ),
        (∀ ω, Represents kf (Zs ω) U ⟨x, P⟩ (regression H R (fun k => H k *ᵥ θ + v k ω) T)) →
        ∃ (xs Ps : Ω → List (Arr Fl)) (kf' : Ω → KalmanFilter Fl),
          (∀ ω, (KalmanFilter.filter (Zs ω) U).run kf = (.ok (xs ω, Ps ω), kf' ω)) ∧
          ∀ k < T, ∃ xh : Ω → Fin n → ℝ,
            (∀ ω, ∃ ax aP, (xs ω)[k]? = some ax ∧ VecIs (xh ω) ax ∧ (Ps ω)[k]? = some aP ∧ MatIs (M k) aP) ∧
            Integrable (fun ω => (a ⬝ᵥ (xh ω - θ)) ^ 2) μ ∧ ∫ ω, (a ⬝ᵥ (xh ω - θ)) ^ 2 ∂μ = e k) ∧
      (∀ k, e k = (a ⬝ᵥ (M k *ᵥ (P⁻¹ *ᵥ (x - θ)))) ^ 2 + a ⬝ᵥ (M k *ᵥ a) - a ⬝ᵥ (M k *ᵥ (P⁻¹ *ᵥ (M k *ᵥ a)))) ∧
      (Exciting H R → Tendsto e atTop (𝓝 0)) := by
  refine ⟨fun k => ridgeCov P H R (k + 1), fun k => (a ⬝ᵥ (ridgeCov P H R (k + 1) *ᵥ (P⁻¹ *ᵥ (x - θ)))) ^ 2 +
    a ⬝ᵥ (ridgeCov P H R (k + 1) *ᵥ a) - a ⬝ᵥ (ridgeCov P H R (k + 1) *ᵥ (P⁻¹ *ᵥ (ridgeCov P H R (k + 1) *ᵥ a))),
    fun kf Zs U T h => ?_, fun k => rfl, fun he => ?_⟩
  · have hrun := fun ω => C155_least_squares kf (Zs ω) U _ _ (h ω) (regression_static _ T) hP (regression_R hR _ T)
    choose xs Ps kf' h1 h2 using hrun
    refine ⟨xs, Ps, kf', h1, fun k hk => ?_⟩
    have h3 := fun ω => h2 ω k (by rw [← (h ω).len, regression_length]; exact hk)
    choose xh ax aP h4 h5 h6 h7 h8 _ using h3
    have hJ := ridgeInfo_posDef (H := H) (R := R) hP hR (k + 1)
    have hM : (ridgeCov P H R (k + 1)).PosDef := hJ.inv
    have hMT : (ridgeCov P H R (k + 1))ᵀ = ridgeCov P H R (k + 1) := IsHermitian.symm' hM.isHermitian
    have herr : ∀ ω, a ⬝ᵥ (xh ω - θ) = a ⬝ᵥ (ridgeCov P H R (k + 1) *ᵥ (P⁻¹ *ᵥ (x - θ))) +
        ∑ j ∈ Finset.range (k + 1), ((R j)⁻¹ *ᵥ (H j *ᵥ (ridgeCov P H R (k + 1) *ᵥ a))) ⬝ᵥ v j ω := by
      intro ω
      have e1 := h8 ω
      rw [regression_take _ T k hk] at e1
      have hJ' : (information P (regression H R (fun k => H k *ᵥ θ + v k ω) (k + 1))).PosDef := by rw [regression_info]; exact hJ
      rw [e1, solution_error (b := ⟨x, P⟩) hJ' θ, regression_info, ← ridgeCov, mulVec_add, dotProduct_add]
      congr 1
      rw [regression, List.map_map, ← List.sum_toFinset _ List.nodup_range, List.toFinset_range, mulVec_sum, dotProduct_sum]
      refine Finset.sum_congr rfl fun j _ => ?_
      have hRT : ((R j)⁻¹)ᵀ = (R j)⁻¹ := IsHermitian.symm' (hR j).inv.isHermitian
      simp only [Function.comp, add_sub_cancel_left]
      rw [dotProduct_mulVec, ← mulVec_transpose, hMT, dotProduct_mulVec, ← mulVec_transpose, transpose_mul, transpose_transpose, hRT,
        mulVec_mulVec, mulVec_mulVec, mulVec_mulVec, Matrix.mul_assoc]
    obtain ⟨i1, -, i3⟩ := noise_sum hN (a ⬝ᵥ (ridgeCov P H R (k + 1) *ᵥ (P⁻¹ *ᵥ (x - θ))))
      (fun j => (R j)⁻¹ *ᵥ (H j *ᵥ (ridgeCov P H R (k + 1) *ᵥ a))) (k + 1)
    refine ⟨xh, fun ω => ⟨ax ω, aP ω, h4 ω, h5 ω, h6 ω, ?_⟩, ?_, ?_⟩
    · have := h7 ω
      rwa [regression_take _ T k hk, regression_info] at this
    · simp only [herr]
      exact i1.integrable_sq
    · simp only [herr]
      rw [i3, add_sub_assoc]
      congr 1
      have e2 : ∀ j, ((R j)⁻¹ *ᵥ (H j *ᵥ (ridgeCov P H R (k + 1) *ᵥ a))) ⬝ᵥ (R j *ᵥ ((R j)⁻¹ *ᵥ (H j *ᵥ (ridgeCov P H R (k + 1) *ᵥ a)))) =
          mahal (R j) (H j *ᵥ (ridgeCov P H R (k + 1) *ᵥ a)) := fun j => by
        rw [mulVec_mulVec _ (R j), Matrix.mul_nonsing_inv _ (posDef_isUnit_det (hR j)), one_mulVec, mahal, dotProduct_comm]
      simp only [e2]
      rw [← quad_sum]
      have e3 : (P⁻¹ + ∑ j ∈ Finset.range (k + 1), (H j)ᵀ * (R j)⁻¹ * H j) *ᵥ (ridgeCov P H R (k + 1) *ᵥ a) = a := by
        rw [ridgeCov, mulVec_mulVec, Matrix.mul_nonsing_inv _ (posDef_isUnit_det hJ), one_mulVec]
      rw [add_mulVec] at e3
      rw [show (∑ j ∈ Finset.range (k + 1), (H j)ᵀ * (R j)⁻¹ * H j) *ᵥ (ridgeCov P H R (k + 1) *ᵥ a) =
        a - P⁻¹ *ᵥ (ridgeCov P H R (k + 1) *ᵥ a) from eq_sub_of_add_eq' e3, dotProduct_sub]
      rw [dotProduct_mulVec a _ (P⁻¹ *ᵥ _), ← mulVec_transpose, hMT, dotProduct_comm _ a]
  · have ht : Tendsto (fun k => ridgeCov P H R (k + 1)) atTop (𝓝 0) := (tendsto_add_atTop_iff_nat 1).2 ((ridgeCov_tendsto hP hR).2 he)
    have hcont : Continuous fun M : Matrix (Fin n) (Fin n) ℝ => (a ⬝ᵥ (M *ᵥ (P⁻¹ *ᵥ (x - θ)))) ^ 2 + a ⬝ᵥ (M *ᵥ a) - a ⬝ᵥ (M *ᵥ (P⁻¹ *ᵥ (M *ᵥ a))) := by
      have hc : ∀ {f : Matrix (Fin n) (Fin n) ℝ → Fin n → ℝ}, Continuous f → Continuous fun M : Matrix (Fin n) (Fin n) ℝ => a ⬝ᵥ (M *ᵥ f M) :=
        fun hf => Continuous.dotProduct continuous_const (Continuous.matrix_mulVec continuous_id hf)
      refine (((hc continuous_const).pow 2).add (hc continuous_const)).sub (hc ?_)
      exact Continuous.matrix_mulVec continuous_const (Continuous.matrix_mulVec continuous_id continuous_const)
    have := (hcont.tendsto 0).comp ht
    simpa [Function.comp_def] using this

end

/-! ### The hypotheses are met: a straight line `θ₀ + θ₁ t`, observed at the times 0, 1, 0, 1, … with variance 1 -/

/-- Regressors `(1, t)` at alternating times. -/
def Ex.lineH (k : ℕ) : Matrix (Fin 1) (Fin 2) ℝ := !![1, if k % 2 = 0 then 0 else 1]

theorem Ex.line_exciting : Exciting Ex.lineH fun _ => (1 : Matrix (Fin 1) (Fin 1) ℝ) := by
  have hm : ∀ k (v : Fin 2 → ℝ), mahal (1 : Matrix (Fin 1) (Fin 1) ℝ) (Ex.lineH k *ᵥ v) = (v 0 + (if k % 2 = 0 then 0 else 1) * v 1) ^ 2 := by
    intro k v
    simp [mahal, Ex.lineH, Matrix.mulVec, dotProduct, Fin.sum_univ_two, sq]
  have hpair : ∀ (N : ℕ) (v : Fin 2 → ℝ), (N : ℝ) / 4 * (v ⬝ᵥ v) ≤ ∑ k ∈ Finset.range (2 * N), mahal (1 : Matrix (Fin 1) (Fin 1) ℝ) (Ex.lineH k *ᵥ v) := by
    intro N v
    induction N with
    | zero => simp
    | succ N ih =>
      rw [show 2 * (N + 1) = 2 * N + 1 + 1 by ring, Finset.sum_range_succ, Finset.sum_range_succ, hm, hm]
      simp only [Nat.mul_mod_right, if_true, show (2 * N + 1) % 2 = 1 by omega, if_neg one_ne_zero]
      have : v ⬝ᵥ v = v 0 ^ 2 + v 1 ^ 2 := by simp [dotProduct, Fin.sum_univ_two, sq]
      push_cast
      rw [this] at ih ⊢
      nlinarith [sq_nonneg (v 0 + v 1), sq_nonneg (4 * v 0 + 3 * v 1), sq_nonneg (2 * v 0 + v 1), sq_nonneg (v 1), sq_nonneg (v 0), sq_nonneg (3 * v 0 + 2 * v 1)]
  intro c
  obtain ⟨N, hN⟩ := exists_nat_ge (4 * c)
  refine ⟨2 * N, fun T hT v => ?_⟩
  have h1 := hpair N v
  have h2 : ∑ k ∈ Finset.range (2 * N), mahal (1 : Matrix (Fin 1) (Fin 1) ℝ) (Ex.lineH k *ᵥ v) ≤
      ∑ k ∈ Finset.range T, mahal (1 : Matrix (Fin 1) (Fin 1) ℝ) (Ex.lineH k *ᵥ v) :=
    Finset.sum_le_sum_of_subset_of_nonneg (Finset.range_mono hT) fun k _ _ => by rw [hm]; positivity
  have h3 := dot_self_nonneg' v
  nlinarith

-- C155_least_squares, C155_smooth, C155_error, C155_consistency: any data, any number of observations.
example (z : ℕ → Fin 1 → ℝ) (T : ℕ) :
    let ss := regression Ex.lineH (fun _ => 1) z T
    Represents (Ex.encode Ex.cvBelief ss) (Ex.encZ ss) (some (Ex.encU ss)) Ex.cvBelief ss ∧ ss.length = (Ex.encZ ss).rows.length ∧
    (∀ s ∈ ss, s.IsStatic) ∧ Ex.cvBelief.P.PosDef ∧ (∀ s ∈ ss, s.R.PosDef) ∧ Exciting Ex.lineH (fun _ => (1 : Matrix (Fin 1) (Fin 1) ℝ)) :=
  ⟨Ex.encode_represents _ _, (Ex.encZ_length _).symm, regression_static z T, Ex.cv_posDef, regression_R (fun _ => Matrix.PosDef.one) z T,
    Ex.line_exciting⟩

-- C155_order: two different orders of two different observations.
example : let s : LinStep 2 1 := ⟨1, 0, Ex.lineH 0, 0, 1, fun _ => 3⟩
    let t : LinStep 2 1 := ⟨1, 0, Ex.lineH 1, 0, 1, fun _ => 5⟩
    [s, t].Perm [t, s] ∧ s ≠ t ∧ Represents (Ex.encode Ex.cvBelief [s, t]) (Ex.encZ [s, t]) (some (Ex.encU [s, t])) Ex.cvBelief [s, t] ∧
    Represents (Ex.encode Ex.cvBelief [t, s]) (Ex.encZ [t, s]) (some (Ex.encU [t, s])) Ex.cvBelief [t, s] := by
  refine ⟨List.Perm.swap _ _ _, fun h => ?_, Ex.encode_represents _ _, Ex.encode_represents _ _⟩
  have := congrFun (congrArg LinStep.z h) 0
  norm_num at this

-- `Exciting` is not automatic: observing the first component only never determines the second.
example : ¬ Exciting (fun _ => (!![1, 0] : Matrix (Fin 1) (Fin 2) ℝ)) fun _ => (1 : Matrix (Fin 1) (Fin 1) ℝ) := by
  intro h
  obtain ⟨N, hN⟩ := h 1
  have := hN N le_rfl ![0, 1]
  simp [mahal, Matrix.mulVec, dotProduct, Fin.sum_univ_two] at this
  norm_num at this

-- C155_mean_square: independent standard normal errors; the same filter object for all outcomes.
example (θ : Fin 2 → ℝ) (T : ℕ) :
    let v : ℕ → (Src 2 1 → ℝ) → Fin 1 → ℝ := fun k ω i => Ex.coord (.v k i) ω
    MeasurementNoise (Ex.normals 2 1) (fun _ => (1 : Matrix (Fin 1) (Fin 1) ℝ)) v ∧
    ∀ ω, Represents (Ex.encode Ex.cvBelief (regression Ex.lineH (fun _ => 1) (0 : ℕ → Fin 1 → ℝ) T))
      (Ex.encZ (regression Ex.lineH (fun _ => 1) (fun k => Ex.lineH k *ᵥ θ + v k ω) T))
      (some (Ex.encU (regression Ex.lineH (fun _ => 1) (0 : ℕ → Fin 1 → ℝ) T)))
      Ex.cvBelief (regression Ex.lineH (fun _ => 1) (fun k => Ex.lineH k *ᵥ θ + v k ω) T) := by
  intro v
  refine ⟨⟨fun k i => Ex.coord_sq _, fun k i => Ex.coord_mean _, fun k i j => ?_, fun k l h i j => Ex.coord_cov (by simpa using fun e => absurd e h)⟩, fun ω => ?_⟩
  · rw [Subsingleton.elim j i, Ex.coord_var, one_apply_eq]
  · have e1 : Ex.encode Ex.cvBelief (regression Ex.lineH (fun _ => 1) (0 : ℕ → Fin 1 → ℝ) T) =
        Ex.encode Ex.cvBelief (regression Ex.lineH (fun _ => 1) (fun k => Ex.lineH k *ᵥ θ + v k ω) T) := by
      simp [Ex.encode, regression, Function.comp_def]
    have e2 : Ex.encU (regression Ex.lineH (fun _ => 1) (0 : ℕ → Fin 1 → ℝ) T) =
        Ex.encU (regression Ex.lineH (fun _ => 1) (fun k => Ex.lineH k *ᵥ θ + v k ω) T) := by
      simp [Ex.encU, regression, Function.comp_def]
    rw [e1, e2]
    exact Ex.encode_represents _ _

end KK
