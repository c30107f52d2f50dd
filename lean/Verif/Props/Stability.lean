import Verif.Proofs.Batch
import Verif.Props.Monotone

/-!
# C58, C59: what happens to wrong initial conditions; constant models
-/

set_option linter.unusedSectionVars false

namespace KK

open Matrix

variable {n m : ℕ}

/-! ## C58 -/

theorem mahal_neg {k : ℕ} (M : Matrix (Fin k) (Fin k) ℝ) (v : Fin k → ℝ) : mahal M (-v) = mahal M v := by
  simp [mahal, Matrix.mulVec_neg]

/-- The quadratic form `v' M⁻¹ v` dominates `2 y'v - y'My`. -/
theorem le_mahal {k : ℕ} {M : Matrix (Fin k) (Fin k) ℝ} (h : M.PosDef) (v y : Fin k → ℝ) :
    2 * (y ⬝ᵥ v) - y ⬝ᵥ (M *ᵥ y) ≤ mahal M v := by
  have hu := posDef_isUnit_det h
  have h0 := h.posSemidef.dotProduct_mulVec_nonneg (y - M⁻¹ *ᵥ v)
  have hs : M⁻¹ᵀ = M⁻¹ := by rw [Matrix.transpose_nonsing_inv, IsHermitian.symm' h.1]
  have e1 : (M⁻¹ *ᵥ v) ⬝ᵥ (M *ᵥ y) = y ⬝ᵥ v := by
    have : (M⁻¹ *ᵥ v) = v ᵥ* M⁻¹ := by rw [← Matrix.vecMul_transpose, hs]
    rw [this, ← Matrix.dotProduct_mulVec, Matrix.mulVec_mulVec, Matrix.nonsing_inv_mul _ hu, Matrix.one_mulVec,
      dotProduct_comm]
  have e2 : M *ᵥ (M⁻¹ *ᵥ v) = v := by
    rw [Matrix.mulVec_mulVec, Matrix.mul_nonsing_inv _ hu, Matrix.one_mulVec]
  rw [star_trivial, Matrix.mulVec_sub, e2, dotProduct_sub, sub_dotProduct, sub_dotProduct, e1] at h0
  have e3 : (M⁻¹ *ᵥ v) ⬝ᵥ v = mahal M v := by rw [mahal, dotProduct_comm]
  rw [e3] at h0
  linarith

theorem mahal_predict {A P Q : Matrix (Fin n) (Fin n) ℝ} (hP : P.PosDef) (hQ : Q.PosSemidef)
    (hS : (priorCov A P Q).PosDef) (d : Fin n → ℝ) : mahal (priorCov A P Q) (A *ᵥ d) ≤ mahal P d := by
  obtain ⟨y, hy⟩ : ∃ y, y = (priorCov A P Q)⁻¹ *ᵥ (A *ᵥ d) := ⟨_, rfl⟩
  have hSy : priorCov A P Q *ᵥ y = A *ᵥ d := by
    rw [hy, Matrix.mulVec_mulVec, Matrix.mul_nonsing_inv _ (posDef_isUnit_det hS), Matrix.one_mulVec]
  have h1 : mahal (priorCov A P Q) (A *ᵥ d) = 2 * (y ⬝ᵥ (A *ᵥ d)) - y ⬝ᵥ (priorCov A P Q *ᵥ y) := by
    rw [hSy, mahal, ← hy, dotProduct_comm]; ring
  have h2 := le_mahal hP d (Aᵀ *ᵥ y)
  have h3 : (Aᵀ *ᵥ y) ⬝ᵥ d = y ⬝ᵥ (A *ᵥ d) := by rw [Matrix.mulVec_transpose, ← Matrix.dotProduct_mulVec]
  have h4 : (Aᵀ *ᵥ y) ⬝ᵥ (P *ᵥ (Aᵀ *ᵥ y)) = y ⬝ᵥ ((A * P * Aᵀ) *ᵥ y) := by
    rw [Matrix.mulVec_transpose, ← Matrix.dotProduct_mulVec, ← Matrix.mulVec_transpose]
    simp only [Matrix.mulVec_mulVec, Matrix.mul_assoc]
  have h5 : y ⬝ᵥ (priorCov A P Q *ᵥ y) = y ⬝ᵥ ((A * P * Aᵀ) *ᵥ y) + y ⬝ᵥ (Q *ᵥ y) := by
    rw [priorCov, Matrix.add_mulVec, dotProduct_add]
  have h6 := hQ.dotProduct_mulVec_nonneg y
  rw [star_trivial] at h6
  rw [h3, h4] at h2
  rw [h1, h5]
  linarith

theorem mahal_correct {P : Matrix (Fin n) (Fin n) ℝ} {H : Matrix (Fin m) (Fin n) ℝ} {R : Matrix (Fin m) (Fin m) ℝ}
    (hP : P.PosDef) (hR : R.PosDef) (d : Fin n → ℝ) :
    mahal (postCov H P R) (d - kGain H P R *ᵥ (H *ᵥ d)) = mahal P d - mahal (innovCov H P R) (H *ᵥ d) := by
  have h := mahal_update (H := H) hP hR 0 d 0
  rw [Matrix.mulVec_zero, sub_self, zero_sub, zero_sub, zero_sub, Matrix.mulVec_neg, ← sub_eq_add_neg, mahal_neg, mahal_neg,
    mahal_neg] at h
  have : mahal R 0 = 0 := by simp [mahal]
  rw [this] at h
  linarith

/-- One step contracts the difference of two estimates. -/
theorem mahal_next {s : LinStep n m} (hs : PdStep s) {P : Matrix (Fin n) (Fin n) ℝ} (hP : P.PosDef) (x x' : Fin n → ℝ) :
    (s.next ⟨x', P⟩).P = (s.next ⟨x, P⟩).P ∧
    mahal (s.next ⟨x, P⟩).P ((s.next ⟨x, P⟩).x - (s.next ⟨x', P⟩).x) ≤ mahal P (x - x') := by
  refine ⟨rfl, ?_⟩
  have hp : (priorCov s.A P s.Q).PosDef := hs.prior (b := ⟨x, P⟩) hP
  have h1 := mahal_predict hP hs.1 hp (x - x')
  have h2 := mahal_correct (H := s.H) hp hs.2.1 (s.A *ᵥ (x - x'))
  have h3 := mahal_nonneg (innovCov_posDef (H := s.H) hp.posSemidef hs.2.1) (s.H *ᵥ (s.A *ᵥ (x - x')))
  have e : (s.next ⟨x, P⟩).x - (s.next ⟨x', P⟩).x = s.A *ᵥ (x - x') -
      kGain s.H (priorCov s.A P s.Q) s.R *ᵥ (s.H *ᵥ (s.A *ᵥ (x - x'))) := by
    simp only [LinStep.next, LinStep.update, LinStep.predict, LinStep.gain, Matrix.mulVec_sub, Matrix.mulVec_add]
    abel
  rw [e]
  show mahal (postCov s.H (priorCov s.A P s.Q) s.R) _ ≤ _
  linarith

theorem filtered_contract {ss : List (LinStep n m)} (hss : ∀ s ∈ ss, PdStep s) {P : Matrix (Fin n) (Fin n) ℝ}
    (hP : P.PosDef) (x x' : Fin n → ℝ) :
    (filtered ⟨x', P⟩ ss).map (fun q : Belief n => q.P) = (filtered ⟨x, P⟩ ss).map (fun q : Belief n => q.P) ∧
    gainsOf ⟨x', P⟩ ss = gainsOf ⟨x, P⟩ ss ∧
    List.IsChain (· ≥ ·) (mahal P (x - x') ::
      List.zipWith (fun q q' : Belief n => mahal q.P (q.x - q'.x)) (filtered ⟨x, P⟩ ss) (filtered ⟨x', P⟩ ss)) := by
  induction ss generalizing x x' P with
  | nil => exact ⟨rfl, rfl, by simp [filtered]⟩
  | cons s ss ih =>
    have hs := hss s (by simp)
    obtain ⟨h1, h2⟩ := mahal_next hs hP x x'
    have hP' : (s.next ⟨x, P⟩).P.PosDef := hs.next (b := ⟨x, P⟩) hP
    obtain ⟨i1, i2, i3⟩ := ih (fun s h => hss s (by simp [h])) hP' (s.next ⟨x, P⟩).x (s.next ⟨x', P⟩).x
    have e1 : (⟨(s.next ⟨x, P⟩).x, (s.next ⟨x, P⟩).P⟩ : Belief n) = s.next ⟨x, P⟩ := rfl
    have e2 : (⟨(s.next ⟨x', P⟩).x, (s.next ⟨x, P⟩).P⟩ : Belief n) = s.next ⟨x', P⟩ := rfl
    rw [e1, e2] at i1 i2 i3
    refine ⟨?_, ?_, ?_⟩
    · rw [filtered, filtered, List.map_cons, List.map_cons, i1, h1]
    · rw [gainsOf, gainsOf, i2]; rfl
    · rw [filtered, filtered, List.zipWith_cons_cons, List.isChain_cons_cons]
      exact ⟨h2, i3⟩

variable [Platform]

/-- C58: two runs on the same model and data that start from different initial means, with PD initial covariance and
measurement noise, PSD process noise, and at each step an invertible transition or PD process noise.  Both return, with
the same covariances and gains, and the squared distance of the two estimates, measured in the reported covariance
(`d' P⁻¹ d`), never increases: neither from the initial to the first, nor between any two later estimates. -/
theorem C58_contraction (kf kf' : KalmanFilter Fl) (Z Z' : NDArray Fl) (U U' : Option (NDArray Fl)) (x x' : Fin n → ℝ)
    (P : Matrix (Fin n) (Fin n) ℝ) (ss : List (LinStep n m)) (h : Represents kf Z U ⟨x, P⟩ ss)
    (h' : Represents kf' Z' U' ⟨x', P⟩ ss) (hP : P.PosDef) (hQ : ∀ s ∈ ss, s.Q.PosSemidef) (hR : ∀ s ∈ ss, s.R.PosDef)
    (hA : ∀ s ∈ ss, s.A.det ≠ 0 ∨ s.Q.PosDef) :
    ∃ (bs bs' : List (Belief n)) (Ks : List (Matrix (Fin n) (Fin m) ℝ)), FilterReturns kf Z U bs Ks ∧
      FilterReturns kf' Z' U' bs' Ks ∧ bs.length = ss.length ∧
      bs'.map (fun q : Belief n => q.P) = bs.map (fun q : Belief n => q.P) ∧
      List.Pairwise (· ≥ ·) (mahal P (x - x') :: List.zipWith (fun q q' : Belief n => mahal q.P (q.x - q'.x)) bs bs') := by
  have hss : ∀ s ∈ ss, PdStep s := fun s hs => ⟨hQ s hs, hR s hs, hA s hs⟩
  obtain ⟨h1, h2, h3⟩ := filtered_contract hss hP x x'
  have r' := h'.returns (solvable_pd _ ss hP hss)
  rw [h2] at r'
  exact ⟨_, _, _, h.returns (solvable_pd _ ss hP hss), r', filtered_length _ _, h1, List.isChain_iff_pairwise.1 h3⟩

-- C58: the constant-velocity model on arbitrary data, started from two different states.
example (uz : List (ℝ × ℝ)) (x x' : Fin 2 → ℝ) :
    (∃ kf Z U, Represents kf Z U ⟨x, Ex.cvBelief.P⟩ (Ex.cvSteps uz)) ∧
    (∃ kf Z U, Represents kf Z U ⟨x', Ex.cvBelief.P⟩ (Ex.cvSteps uz)) ∧
    Ex.cvBelief.P.PosDef ∧ ∀ s ∈ Ex.cvSteps uz, PdStep s :=
  ⟨⟨_, _, _, Ex.encode_represents _ _⟩, ⟨_, _, _, Ex.encode_represents _ _⟩, Ex.cv_posDef, Ex.cv_pdStep uz⟩

end KK
