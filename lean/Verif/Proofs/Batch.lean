import Verif.Spec.Batch
import Verif.Proofs.Transfer

/-! # Completion of squares -/

set_option linter.unusedSectionVars false

namespace KK

open Matrix

variable {n m : ℕ}

theorem mahal_nonneg {k : ℕ} {M : Matrix (Fin k) (Fin k) ℝ} (h : M.PosDef) (v : Fin k → ℝ) : 0 ≤ mahal M v := by
  have := h.inv.posSemidef.dotProduct_mulVec_nonneg v
  rwa [star_trivial] at this

theorem mahal_eq_zero {k : ℕ} {M : Matrix (Fin k) (Fin k) ℝ} (h : M.PosDef) {v : Fin k → ℝ} :
    mahal M v = 0 ↔ v = 0 := by
  constructor
  · intro hv
    by_contra hne
    have := h.inv.dotProduct_mulVec_pos hne
    rw [star_trivial] at this
    exact absurd hv this.ne'
  · rintro rfl; simp [mahal]

/-- Bayes' rule for quadratic forms: prior term plus measurement term equals innovation term plus
posterior term. -/
theorem mahal_update {P : Matrix (Fin n) (Fin n) ℝ} {H : Matrix (Fin m) (Fin n) ℝ}
    {R : Matrix (Fin m) (Fin m) ℝ} (hP : P.PosDef) (hR : R.PosDef) (x xh : Fin n → ℝ) (z : Fin m → ℝ) :
    mahal P (x - xh) + mahal R (z - H *ᵥ x) =
      mahal (innovCov H P R) (z - H *ᵥ xh) +
        mahal (postCov H P R) (x - (xh + kGain H P R *ᵥ (z - H *ᵥ xh))) := by
  have hS := innovCov_posDef (H := H) hP.posSemidef hR
  have dP := posDef_det_ne hP
  have dR := posDef_det_ne hR
  have dS := posDef_det_ne hS
  have hPs := IsHermitian.symm' hP.1
  have hRs := IsHermitian.symm' hR.1
  have hSs := IsHermitian.symm' hS.1
  obtain ⟨e, he⟩ : ∃ e, e = x - xh := ⟨_, rfl⟩
  obtain ⟨r, hr⟩ : ∃ r, r = z - H *ᵥ xh := ⟨_, rfl⟩
  have h1 : z - H *ᵥ x = r - H *ᵥ e := by
    rw [he, hr, Matrix.mulVec_sub]; abel
  have h2 : x - (xh + kGain H P R *ᵥ (z - H *ᵥ xh)) = e - kGain H P R *ᵥ r := by
    rw [he, hr]; abel
  rw [h1, h2, ← he, ← hr]
  have hinv := postCov_inv dP dR dS
  have hK := kGain_eq_post dP dR dS
  have dpost := postCov_det_ne dP dR dS
  set W := (postCov H P R)⁻¹ with hW
  set K := kGain H P R with hKdef
  have hWs : Wᵀ = W := by
    rw [hW, Matrix.transpose_nonsing_inv, IsHermitian.symm' (postCov_posDef (H := H) hP hR).1]
  have hRi : (R⁻¹)ᵀ = R⁻¹ := by rw [Matrix.transpose_nonsing_inv, hRs]
  -- W K = H' R⁻¹
  have hWK : W * K = Hᵀ * R⁻¹ := by
    rw [hK, hW, ← Matrix.mul_assoc, ← Matrix.mul_assoc, Matrix.nonsing_inv_mul _ (isUnit_iff_ne_zero.2 dpost),
      Matrix.one_mul]
  have hKW : Kᵀ * W = R⁻¹ * H := by
    have := congrArg Matrix.transpose hWK
    simpa [Matrix.transpose_mul, hWs, hRi] using this
  -- R⁻¹ = S⁻¹ + K' H' R⁻¹
  have hRS : R⁻¹ = (innovCov H P R)⁻¹ + Kᵀ * (Hᵀ * R⁻¹) := by
    have e1 : Kᵀ = (innovCov H P R)⁻¹ * (H * P) := by
      rw [hKdef, kGain, Matrix.transpose_mul, Matrix.transpose_nonsing_inv, hSs, Matrix.transpose_mul,
        Matrix.transpose_transpose, hPs]
    have e2 : H * P * Hᵀ = innovCov H P R - R := by rw [innovCov]; abel
    rw [e1, ← Matrix.mul_assoc, Matrix.mul_assoc _ (H * P), e2, Matrix.mul_sub,
      Matrix.nonsing_inv_mul _ (isUnit_iff_ne_zero.2 dS), Matrix.sub_mul, Matrix.one_mul, Matrix.mul_assoc _ R,
      Matrix.mul_nonsing_inv _ (isUnit_iff_ne_zero.2 dR), Matrix.mul_one]
    abel
  have q1 : mahal (postCov H P R) (e - K *ᵥ r) =
      e ⬝ᵥ (P⁻¹ *ᵥ e) + e ⬝ᵥ ((Hᵀ * R⁻¹ * H) *ᵥ e) - e ⬝ᵥ ((Hᵀ * R⁻¹) *ᵥ r) - r ⬝ᵥ ((R⁻¹ * H) *ᵥ e) +
        r ⬝ᵥ ((Kᵀ * (Hᵀ * R⁻¹)) *ᵥ r) := by
    have a1 : (K *ᵥ r) ⬝ᵥ (W *ᵥ e) = r ⬝ᵥ ((R⁻¹ * H) *ᵥ e) := by
      rw [← hKW, ← Matrix.mulVec_mulVec, Matrix.dotProduct_mulVec r, Matrix.vecMul_transpose]
    have a2 : (K *ᵥ r) ⬝ᵥ ((W * K) *ᵥ r) = r ⬝ᵥ ((Kᵀ * (W * K)) *ᵥ r) := by
      rw [← Matrix.mulVec_mulVec (M := Kᵀ), Matrix.dotProduct_mulVec r, Matrix.vecMul_transpose]
    rw [mahal, ← hW, Matrix.mulVec_sub, Matrix.mulVec_mulVec, dotProduct_sub, sub_dotProduct, sub_dotProduct, a1, a2,
      hWK, hinv, Matrix.add_mulVec, dotProduct_add]
    ring
  have q2 : mahal R (r - H *ᵥ e) = r ⬝ᵥ (R⁻¹ *ᵥ r) - r ⬝ᵥ ((R⁻¹ * H) *ᵥ e) - e ⬝ᵥ ((Hᵀ * R⁻¹) *ᵥ r) +
      e ⬝ᵥ ((Hᵀ * R⁻¹ * H) *ᵥ e) := by
    have a1 : ∀ y : Fin m → ℝ, (H *ᵥ e) ⬝ᵥ (R⁻¹ *ᵥ y) = e ⬝ᵥ ((Hᵀ * R⁻¹) *ᵥ y) := by
      intro y
      rw [← Matrix.mulVec_mulVec, Matrix.dotProduct_mulVec e, Matrix.vecMul_transpose]
    rw [mahal, Matrix.mulVec_sub, dotProduct_sub, sub_dotProduct, sub_dotProduct, a1, a1, Matrix.mulVec_mulVec,
      Matrix.mulVec_mulVec]
    ring
  have q3 : r ⬝ᵥ (R⁻¹ *ᵥ r) = mahal (innovCov H P R) r + r ⬝ᵥ ((Kᵀ * (Hᵀ * R⁻¹)) *ᵥ r) := by
    conv_lhs => rw [hRS]
    rw [Matrix.add_mulVec, dotProduct_add, mahal]
  rw [q1, q2, q3, mahal]
  ring

/-- Deviation of a trajectory from the smoothed one. -/
noncomputable def dev : Belief n → List (LinStep n m) → List (Fin n → ℝ) → ℝ
  | b, s :: ss, x :: y :: ys => mahal (postCov s.A b.P s.Q) (x - (b.x + kGain s.A b.P s.Q *ᵥ (y - (s.predict b).x))) +
      dev (s.next b) ss (y :: ys)
  | b, _, t => mahal b.P (t.headD 0 - b.x)

theorem batchCost_eq {b : Belief n} {ss : List (LinStep n m)} (hb : b.P.PosDef) (hQ : ∀ s ∈ ss, s.Q.PosDef)
    (hR : ∀ s ∈ ss, s.R.PosDef) (t : List (Fin n → ℝ)) (ht : t.length = ss.length + 1) :
    batchCost b ss t = nis b ss + dev b ss t := by
  induction ss generalizing b t with
  | nil => simp [batchCost, nis, dev, pathCost]
  | cons s ss ih =>
    rcases t with _ | ⟨x, _ | ⟨y, ys⟩⟩
    · simp at ht
    · simp at ht
    · have hp : PdStep s := ⟨(hQ s (by simp)).posSemidef, hR s (by simp), .inr (hQ s (by simp))⟩
      have hP' := hp.prior hb
      have ih' := ih (hp.next hb) (fun s' h => hQ s' (by simp [h])) (fun s' h => hR s' (by simp [h])) (y :: ys)
        (by simpa using ht)
      have k1 := mahal_update (H := s.A) hb (hQ s (by simp)) x b.x (y - s.c)
      have k2 := mahal_update (H := s.H) hP' (hR s (by simp)) y (s.predict b).x s.z
      have e1 : y - s.c - s.A *ᵥ x = y - (s.A *ᵥ x + s.c) := by abel
      have e2 : y - s.c - s.A *ᵥ b.x = y - (s.predict b).x := by simp only [LinStep.predict]; abel
      rw [e1, e2] at k1
      simp only [batchCost, List.headD_cons] at ih'
      have k3 : innovCov s.A b.P s.Q = (s.predict b).P := rfl
      have k4 : (s.predict b).x + kGain s.H (s.predict b).P s.R *ᵥ (s.z - s.H *ᵥ (s.predict b).x) = (s.next b).x := rfl
      have k5 : postCov s.H (s.predict b).P s.R = (s.next b).P := rfl
      have k6 : innovCov s.H (s.predict b).P s.R = s.innov (s.predict b) := rfl
      rw [k3] at k1
      rw [k4, k5, k6] at k2
      simp only [batchCost, List.headD_cons, pathCost, stepCost, nis, dev]
      linarith

theorem dev_nonneg {b : Belief n} {ss : List (LinStep n m)} (hb : b.P.PosDef) (hQ : ∀ s ∈ ss, s.Q.PosDef)
    (hR : ∀ s ∈ ss, s.R.PosDef) (t : List (Fin n → ℝ)) (ht : t.length = ss.length + 1) :
    0 ≤ dev b ss t ∧ (dev b ss t = 0 ↔ t = (rts b ss).map (·.x)) := by
  induction ss generalizing b t with
  | nil =>
    obtain ⟨x, rfl⟩ := List.length_eq_one_iff.1 (by simpa using ht)
    simp only [dev, List.headD_cons, rts, List.map_cons, List.map_nil]
    refine ⟨mahal_nonneg hb _, ?_⟩
    rw [mahal_eq_zero hb, sub_eq_zero]; simp
  | cons s ss ih =>
    rcases t with _ | ⟨x, _ | ⟨y, ys⟩⟩
    · simp at ht
    · simp at ht
    · have hp : PdStep s := ⟨(hQ s (by simp)).posSemidef, hR s (by simp), .inr (hQ s (by simp))⟩
      obtain ⟨i1, i2⟩ := ih (hp.next hb) (fun s' h => hQ s' (by simp [h])) (fun s' h => hR s' (by simp [h])) (y :: ys)
        (by simpa using ht)
      have hpost := postCov_posDef (H := s.A) hb (hQ s (by simp))
      have n1 := mahal_nonneg hpost (x - (b.x + kGain s.A b.P s.Q *ᵥ (y - (s.predict b).x)))
      have hG : b.P * s.Aᵀ * (s.predict b).P⁻¹ = kGain s.A b.P s.Q := rfl
      rw [dev]
      refine ⟨by linarith, ?_⟩
      rw [rts]
      rcases hr : rts (s.next b) ss with _ | ⟨q, qs⟩
      · have := rts_length (s.next b) ss; rw [hr] at this; simp at this
      · rw [hr] at i2
        simp only [List.map_cons, List.cons.injEq] at i2 ⊢
        constructor
        · intro h
          have hy := i2.1 (by linarith)
          have hx := (mahal_eq_zero hpost).1 (by linarith)
          refine ⟨?_, hy⟩
          rw [sub_eq_zero] at hx
          rw [hx, rtsStep, hG, hy.1]
        · rintro ⟨hx, hy⟩
          rw [i2.2 hy, add_zero, mahal_eq_zero hpost, sub_eq_zero, hx, hy.1, rtsStep, hG]

theorem isBatchMin_rts {b : Belief n} {ss : List (LinStep n m)} (hb : b.P.PosDef) (hQ : ∀ s ∈ ss, s.Q.PosDef)
    (hR : ∀ s ∈ ss, s.R.PosDef) :
    IsBatchMin b ss ((rts b ss).map (·.x)) ∧ batchCost b ss ((rts b ss).map (·.x)) = nis b ss := by
  have hl : ((rts b ss).map (·.x)).length = ss.length + 1 := by rw [List.length_map, rts_length]
  have h0 := (dev_nonneg hb hQ hR _ hl).2.2 rfl
  have hc := batchCost_eq hb hQ hR _ hl
  refine ⟨⟨hl, fun t ht hne => ?_⟩, by rw [hc, h0, add_zero]⟩
  have h1 := dev_nonneg hb hQ hR t ht
  rw [hc, h0, batchCost_eq hb hQ hR t ht]
  have : dev b ss t ≠ 0 := fun h => hne (h1.2.1 h)
  have := lt_of_le_of_ne h1.1 (Ne.symm this)
  linarith

theorem rts_last (b : Belief n) (ss : List (LinStep n m)) : (rts b ss).getLast? = some (lastOf b ss) := by
  induction ss generalizing b with
  | nil => rfl
  | cons s ss ih =>
    have ih' := ih (s.next b)
    rw [rts]
    rcases hr : rts (s.next b) ss with _ | ⟨q, qs⟩
    · rw [hr] at ih'; simp at ih'
    · rw [hr] at ih'
      simp only [List.getLast?_cons_cons]
      exact ih'

theorem filtered_get (b : Belief n) (ss : List (LinStep n m)) (k : ℕ) (hk : k < ss.length) :
    (filtered b ss)[k]? = some (lastOf b (ss.take (k + 1))) := by
  induction ss generalizing b k with
  | nil => simp at hk
  | cons s ss ih =>
    rcases k with _ | k
    · simp [filtered, lastOf]
    · simp only [filtered, List.getElem?_cons_succ, List.take_succ_cons, lastOf]
      exact ih _ _ (by simpa using hk)

end KK
