import Verif.Proofs.ExactSmooth
import Verif.Props.Covariance

/-!
# C41, C42: in exact arithmetic `smooth` is the RTS smoother
-/

set_option linter.unusedSectionVars false

namespace KK

open Matrix

variable {n m : ℕ}

section
variable [Platform]

/-- C41: with every parameter sequence as long as the (non-empty) data, `smooth` returns exactly the RTS
recursion if all innovation covariances (forward pass) and all predicted covariances of steps `1 .. T-1`
(backward pass) are invertible, and raises LinAlgError otherwise. -/
theorem C41_smooth_rts (kf : KalmanFilter Fl) (Z : NDArray Fl) (U : Option (NDArray Fl)) (b : Belief n)
    (ss : List (LinStep n m)) (h : Represents kf Z U b ss) (hfull : ss.length = Z.rows.length)
    (hne : ss ≠ []) :
    (Solvable b ss → SmoothSolvable b ss → (KalmanFilter.smooth Z U).run kf =
      (.ok ((smoothed b ss).map stateRow, (smoothed b ss).map covRow),
       { kf with kalmanGains := kf.kalmanGains ++ (gainsOf b ss).map gainRow })) ∧
    (¬ (Solvable b ss ∧ SmoothSolvable b ss) →
      ∃ kf', (KalmanFilter.smooth Z U).run kf = (.error .linAlgError, kf')) := by
  refine ⟨fun hs hsm => (h.smooth hfull hne hs).1 hsm, fun hn => ?_⟩
  by_cases hs : Solvable b ss
  · exact ⟨_, (h.smooth hfull hne hs).2 fun hsm => hn ⟨hs, hsm⟩⟩
  · obtain ⟨-, h2, h3⟩ := C25_linalgerror kf Z U b ss h
    obtain ⟨k, -, h4, h5, -⟩ := h3 hs
    refine ⟨{ kf with kalmanGains := kf.kalmanGains ++ (gainsOf b (ss.take k)).map gainRow }, ?_⟩
    rw [KalmanFilter.smooth_eq, h2 k h4 h5]

end

/-! ## C42 -/

theorem rtsStep_cov (b : Belief n) (s : LinStep n m) (q : Belief n) (hP : b.Pᵀ = b.P) (hQ : s.Qᵀ = s.Q)
    (hd : (s.predict b).P.det ≠ 0) :
    (rtsStep b s q).P = postCov s.A b.P s.Q + kGain s.A b.P s.Q * q.P * (kGain s.A b.P s.Q)ᵀ := by
  have h := postCov_eq_sub (H := s.A) (P := b.P) (R := s.Q) hP hQ hd
  have hG : b.P * s.Aᵀ * (s.predict b).P⁻¹ = kGain s.A b.P s.Q := rfl
  have hi : innovCov s.A b.P s.Q = (s.predict b).P := rfl
  simp only [rtsStep, hG]
  rw [h, hi, Matrix.mul_sub, Matrix.sub_mul]
  abel

/-- Conditions on one step under which the backward pass is solvable. -/
def PdStep (s : LinStep n m) : Prop :=
  s.Q.PosSemidef ∧ s.R.PosDef ∧ (s.A.det ≠ 0 ∨ s.Q.PosDef)

theorem PdStep.prior {s : LinStep n m} (h : PdStep s) {b : Belief n} (hb : b.P.PosDef) :
    (s.predict b).P.PosDef := by
  rcases h.2.2 with h1 | h1
  · exact priorCov_posDef_A hb h.1 h1
  · exact priorCov_posDef_Q hb.posSemidef h1

theorem PdStep.next {s : LinStep n m} (h : PdStep s) {b : Belief n} (hb : b.P.PosDef) :
    (s.next b).P.PosDef := postCov_posDef (h.prior hb) h.2.1

theorem posSemidef_trans {A B C : Matrix (Fin n) (Fin n) ℝ} (h1 : (A - B).PosSemidef)
    (h2 : (B - C).PosSemidef) : (A - C).PosSemidef := by
  have := h1.add h2
  rwa [sub_add_sub_cancel] at this

theorem rts_le (b : Belief n) (ss : List (LinStep n m)) (hb : b.P.PosDef) (h : ∀ s ∈ ss, PdStep s) :
    List.Forall₂ (fun f q : Belief n => q.P.PosDef ∧ (f.P - q.P).PosSemidef) (b :: filtered b ss) (rts b ss) := by
  induction ss generalizing b with
  | nil => simp [filtered, rts, hb, Matrix.PosSemidef.zero]
  | cons s ss ih =>
    have hs := h s (by simp)
    have hn := hs.next hb
    have hp := hs.prior hb
    have ih' := ih (s.next b) hn (fun s' hs' => h s' (by simp [hs']))
    rw [rts, filtered]
    rcases hr : rts (s.next b) ss with _ | ⟨q, qs⟩
    · rw [hr] at ih'; cases ih'
    · rw [hr] at ih'
      have hq := (List.forall₂_cons.1 ih').1
      refine List.forall₂_cons.2 ⟨?_, ih'⟩
      have hbs := IsHermitian.symm' hb.1
      have hqs := IsHermitian.symm' hs.1.1
      have hd := posDef_det_ne hp
      have hcov := rtsStep_cov b s q hbs hqs hd
      have hle : ((s.predict b).P - q.P).PosSemidef := by
        refine posSemidef_trans (postCov_le hp.posSemidef hs.2.1.posSemidef ?_) hq.2
        exact posDef_det_ne (innovCov_posDef (H := s.H) hp.posSemidef hs.2.1)
      constructor
      · rw [hcov]
        rcases hs.2.2 with h1 | h1
        · -- invertible transition: the second term is positive definite
          refine Matrix.PosDef.posSemidef_add (postCov_posSemidef hb.posSemidef hs.1 hd) ?_
          refine posDef_conj hq.1 _ ?_
          have e : (kGain s.A b.P s.Q).det = b.P.det * s.A.det * ((s.predict b).P⁻¹).det := by
            show (b.P * s.Aᵀ * (s.predict b).P⁻¹).det = _
            rw [Matrix.det_mul, Matrix.det_mul, Matrix.det_transpose]
          rw [e]
          refine mul_ne_zero (mul_ne_zero (posDef_det_ne hb) h1) ?_
          exact posDef_det_ne hp.inv
        · exact (postCov_posDef hb h1).add_posSemidef (posSemidef_conj hq.1.posSemidef _)
      · have e : b.P - (rtsStep b s q).P =
            (b.P * s.Aᵀ * (s.predict b).P⁻¹) * ((s.predict b).P - q.P) *
              (b.P * s.Aᵀ * (s.predict b).P⁻¹)ᵀ := by
          simp only [rtsStep, Matrix.mul_sub, Matrix.sub_mul]
          abel
        rw [e]
        exact posSemidef_conj hle _

theorem rtsSolvable_pd (b : Belief n) (ss : List (LinStep n m)) (hb : b.P.PosDef) (h : ∀ s ∈ ss, PdStep s) :
    RtsSolvable b ss := by
  induction ss generalizing b with
  | nil => trivial
  | cons s ss ih =>
    have hs := h s (by simp)
    exact ⟨posDef_det_ne (hs.prior hb), ih _ (hs.next hb) fun s' hs' => h s' (by simp [hs'])⟩

theorem smoothSolvable_pd (b : Belief n) (ss : List (LinStep n m)) (hb : b.P.PosDef)
    (h : ∀ s ∈ ss, PdStep s) : SmoothSolvable b ss := by
  cases ss with
  | nil => trivial
  | cons s ss =>
    exact rtsSolvable_pd _ _ ((h s (by simp)).next hb) fun s' hs' => h s' (by simp [hs'])

theorem solvable_pd (b : Belief n) (ss : List (LinStep n m)) (hb : b.P.PosDef)
    (h : ∀ s ∈ ss, PdStep s) : Solvable b ss :=
  solvable_psd hb.posSemidef (fun s hs => (h s hs).1) fun s hs => (h s hs).2.1

variable [Platform]

/-- C42: PD initial covariance and measurement noise, PSD process noise, and at each step an invertible
transition or PD process noise: `filter` and `smooth` return, and at every time the smoothed covariance is
symmetric positive definite and below the filtered one in the Loewner order. -/
theorem C42_smoothed_le (kf : KalmanFilter Fl) (Z : NDArray Fl) (U : Option (NDArray Fl)) (b : Belief n)
    (ss : List (LinStep n m)) (h : Represents kf Z U b ss) (hfull : ss.length = Z.rows.length)
    (hne : ss ≠ []) (hP : b.P.PosDef) (hQ : ∀ s ∈ ss, s.Q.PosSemidef) (hR : ∀ s ∈ ss, s.R.PosDef)
    (hA : ∀ s ∈ ss, s.A.det ≠ 0 ∨ s.Q.PosDef) :
    ∃ xe Pe xs Ps kf', (KalmanFilter.filter Z U).run kf = (.ok (xe, Pe), kf') ∧
      (KalmanFilter.smooth Z U).run kf = (.ok (xs, Ps), kf') ∧
      ∀ k < Z.rows.length, ∃ (a a' : Arr Fl) (F S : Matrix (Fin n) (Fin n) ℝ),
        Pe[k]? = some a ∧ Ps[k]? = some a' ∧ MatIs F a ∧ MatIs S a' ∧
        S.PosDef ∧ (F - S).PosSemidef ∧ (∀ v : Fin n → ℝ, v ⬝ᵥ (S *ᵥ v) ≤ v ⬝ᵥ (F *ᵥ v)) ∧
        S.trace ≤ F.trace := by
  have hpd : ∀ s ∈ ss, PdStep s := fun s hs => ⟨hQ s hs, hR s hs, hA s hs⟩
  have hs := solvable_pd b ss hP hpd
  have hsm := smoothSolvable_pd b ss hP hpd
  have hf := C24_filter_textbook kf Z U b ss h hs
  rw [hfull, Nat.sub_self, List.replicate_zero, List.append_nil, List.replicate_zero, List.append_nil] at hf
  refine ⟨_, _, _, _, _, hf, (C41_smooth_rts kf Z U b ss h hfull hne).1 hs hsm, ?_⟩
  intro k hk
  cases ss with
  | nil => exact absurd rfl hne
  | cons s ts =>
    have hn := (hpd s (by simp)).next hP
    have hall := rts_le (s.next b) ts hn fun s' hs' => hpd s' (by simp [hs'])
    obtain ⟨hlen, hall⟩ := List.forall₂_iff_get.1 hall
    have hk1 : k < (s.next b :: filtered (s.next b) ts).length := by
      have := filtered_length b (s :: ts)
      rw [filtered] at this
      omega
    have hk2 : k < (rts (s.next b) ts).length := by omega
    obtain ⟨h1, h2⟩ := hall k hk1 hk2
    refine ⟨covRow ((s.next b :: filtered (s.next b) ts)[k]), covRow ((rts (s.next b) ts)[k]),
      _, _, ?_, ?_, ⟨_, rfl⟩, ⟨_, rfl⟩, h1, h2, ?_, ?_⟩
    · rw [List.getElem?_map, filtered, List.getElem?_eq_getElem hk1]; rfl
    · rw [List.getElem?_map, smoothed, List.getElem?_eq_getElem hk2]; rfl
    · intro v
      have := h2.dotProduct_mulVec_nonneg v
      rw [star_trivial, Matrix.sub_mulVec, dotProduct_sub] at this
      simp only [List.get_eq_getElem] at this
      linarith
    · have := h2.trace_nonneg
      rw [Matrix.trace_sub] at this
      simp only [List.get_eq_getElem] at this
      linarith

/-! ### Hypotheses are met -/

theorem Ex.cv_pdStep (uz : List (ℝ × ℝ)) : ∀ s ∈ Ex.cvSteps uz, PdStep s := by
  intro s hs
  simp only [Ex.cvSteps, List.mem_map] at hs
  obtain ⟨p, -, rfl⟩ := hs
  exact ⟨(Ex.cvStep_Q _ _).posSemidef, Ex.cvStep_R _ _, .inr (Ex.cvStep_Q _ _)⟩

-- C41 (positive part), C42: the constant-velocity model on arbitrary non-empty data.
example (uz : List (ℝ × ℝ)) (h : uz ≠ []) : Represents (Ex.encode Ex.cvBelief (Ex.cvSteps uz))
      (Ex.encZ (Ex.cvSteps uz)) (some (Ex.encU (Ex.cvSteps uz))) Ex.cvBelief (Ex.cvSteps uz) ∧
    (Ex.cvSteps uz).length = (Ex.encZ (Ex.cvSteps uz)).rows.length ∧ Ex.cvSteps uz ≠ [] ∧
    Solvable Ex.cvBelief (Ex.cvSteps uz) ∧ SmoothSolvable Ex.cvBelief (Ex.cvSteps uz) ∧
    ∀ s ∈ Ex.cvSteps uz, PdStep s :=
  ⟨Ex.encode_represents _ _, (Ex.encZ_length _).symm, by simpa [Ex.cvSteps] using h, Ex.cv_solvable uz,
    smoothSolvable_pd _ _ Ex.cv_posDef (Ex.cv_pdStep uz), Ex.cv_pdStep uz⟩

/-- A scalar model without noise on the state and a zero transition: its predicted covariance is singular. -/
noncomputable def Ex.dead : LinStep 1 1 := ⟨0, 0, 1, 0, 1, fun _ => 3⟩

-- C41 (negative part): the forward pass is solvable, the backward pass is not.
example : Solvable (⟨fun _ => 0, 1⟩ : Belief 1) [Ex.dead, Ex.dead] ∧
    ¬ SmoothSolvable (⟨fun _ => 0, 1⟩ : Belief 1) [Ex.dead, Ex.dead] := by
  simp [Solvable, SmoothSolvable, RtsSolvable, Ex.dead, LinStep.innov, LinStep.next, LinStep.predict,
    LinStep.update, priorCov, innovCov]

end KK
