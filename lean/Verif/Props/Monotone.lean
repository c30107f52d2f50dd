import Verif.Proofs.Transfer

/-! # C49: more noise never yields a smaller covariance -/

set_option linter.unusedSectionVars false

namespace KK

open Matrix

variable {n m : ℕ}

section
variable {ι κ : Type} [Fintype ι] [Fintype κ] [DecidableEq ι] [DecidableEq κ]

theorem priorCov_mono {A P P' Q Q' : Matrix ι ι ℝ} (hP : (P' - P).PosSemidef) (hQ : (Q' - Q).PosSemidef) :
    (priorCov A P' Q' - priorCov A P Q).PosSemidef := by
  have : priorCov A P' Q' - priorCov A P Q = A * (P' - P) * Aᵀ + (Q' - Q) := by
    simp only [priorCov, Matrix.mul_sub, Matrix.sub_mul]; abel
  rw [this]
  exact (posSemidef_conj hP A).add hQ

theorem josephCov_mono {L : Matrix ι κ ℝ} {H : Matrix κ ι ℝ} {P P' : Matrix ι ι ℝ} {R R' : Matrix κ κ ℝ}
    (hP : (P' - P).PosSemidef) (hR : (R' - R).PosSemidef) :
    (josephCov L H P' R' - josephCov L H P R).PosSemidef := by
  have : josephCov L H P' R' - josephCov L H P R =
      (1 - L * H) * (P' - P) * (1 - L * H)ᵀ + L * (R' - R) * Lᵀ := by
    rw [josephCov, josephCov, Matrix.mul_sub (1 - L * H), Matrix.sub_mul _ _ (1 - L * H)ᵀ, Matrix.mul_sub L,
      Matrix.sub_mul _ _ Lᵀ]
    abel
  rw [this]
  exact (posSemidef_conj hP _).add (posSemidef_conj hR L)

theorem postCov_mono {H : Matrix κ ι ℝ} {P P' : Matrix ι ι ℝ} {R R' : Matrix κ κ ℝ} (h0 : P.PosSemidef)
    (hR0 : R.PosDef) (hP : (P' - P).PosSemidef) (hR : (R' - R).PosSemidef) :
    (postCov H P' R' - postCov H P R).PosSemidef := by
  have h0' : P'.PosSemidef := by
    have := hP.add h0; rwa [sub_add_cancel] at this
  have hR0' : R'.PosDef := by
    have := Matrix.PosDef.posSemidef_add hR hR0; rwa [sub_add_cancel] at this
  have hS := innovCov_posDef (H := H) h0 hR0
  have hS' := innovCov_posDef (H := H) h0' hR0'
  rw [postCov_eq_joseph (IsHermitian.symm' h0'.1) (IsHermitian.symm' hR0'.1) (posDef_det_ne hS')]
  have h1 := josephCov_mono (L := kGain H P' R') (H := H) hP hR
  have h2 := josephCov_eq (H := H) (kGain H P' R') (IsHermitian.symm' h0.1) (IsHermitian.symm' hR0.1)
    (posDef_det_ne hS)
  rw [h2] at h1
  have h3 := h1.add (posSemidef_conj hS.posSemidef (kGain H P' R' - kGain H P R))
  convert h3 using 1
  abel

end

/-- Two steps with the same matrices `A`, `H`, the second with more noise (Loewner order). -/
structure Noisier (s s' : LinStep n m) : Prop where
  A : s'.A = s.A
  H : s'.H = s.H
  Q : (s'.Q - s.Q).PosSemidef
  R : (s'.R - s.R).PosSemidef

theorem next_mono {s s' : LinStep n m} {b b' : Belief n} (h : Noisier s s') (hb : b.P.PosSemidef)
    (hQ : s.Q.PosSemidef) (hR : s.R.PosDef) (hle : (b'.P - b.P).PosSemidef) :
    ((s'.next b').P - (s.next b).P).PosSemidef := by
  show (postCov s'.H (priorCov s'.A b'.P s'.Q) s'.R - postCov s.H (priorCov s.A b.P s.Q) s.R).PosSemidef
  rw [h.A, h.H]
  exact postCov_mono (priorCov_posSemidef hb hQ) hR (priorCov_mono hle h.Q) h.R

theorem filtered_mono {b b' : Belief n} {ss ss' : List (LinStep n m)} (h : List.Forall₂ Noisier ss ss')
    (hb : b.P.PosSemidef) (hQ : ∀ s ∈ ss, s.Q.PosSemidef) (hR : ∀ s ∈ ss, s.R.PosDef)
    (hle : (b'.P - b.P).PosSemidef) :
    List.Forall₂ (fun q q' : Belief n => (q'.P - q.P).PosSemidef) (filtered b ss) (filtered b' ss') := by
  induction h generalizing b b' with
  | nil => exact .nil
  | @cons s s' ss ss' h1 h2 ih =>
    have hn := next_mono h1 hb (hQ s (by simp)) (hR s (by simp)) hle
    exact .cons hn (ih (psd_next hb (hQ s (by simp)) (hR s (by simp))).1 (fun s hs => hQ s (by simp [hs]))
      (fun s hs => hR s (by simp [hs])) hn)

variable [Platform]

/-- C49: take two calls of `filter` on models with the same `A`, `H` (data and controls may differ) where the
second has larger initial covariance, process noise and measurement noise in the Loewner order (any of them may
be equal).  Both return, and at every step the second covariance is above the first in the Loewner order; in
particular every directional variance and the trace do not decrease. -/
theorem C49_monotone {kf kf' : KalmanFilter Fl} {Z Z' : NDArray Fl} {U U' : Option (NDArray Fl)}
    {b b' : Belief n} {ss ss' : List (LinStep n m)} (h : Represents kf Z U b ss)
    (h' : Represents kf' Z' U' b' ss') (hmore : List.Forall₂ Noisier ss ss')
    (hb : b.P.PosSemidef) (hQ : ∀ s ∈ ss, s.Q.PosSemidef) (hR : ∀ s ∈ ss, s.R.PosDef)
    (hle : (b'.P - b.P).PosSemidef) :
    ∃ bs bs' Ks Ks', FilterReturns (m := m) kf Z U bs Ks ∧ FilterReturns (m := m) kf' Z' U' bs' Ks' ∧
      bs.length = ss.length ∧
      List.Forall₂ (fun q q' : Belief n => (q'.P - q.P).PosSemidef ∧
        (∀ v : Fin n → ℝ, v ⬝ᵥ (q.P *ᵥ v) ≤ v ⬝ᵥ (q'.P *ᵥ v)) ∧ q.P.trace ≤ q'.P.trace) bs bs' := by
  have hb' : b'.P.PosSemidef := by
    have := hle.add hb; rwa [sub_add_cancel] at this
  have hall : ∀ s' ∈ ss', s'.Q.PosSemidef ∧ s'.R.PosDef := by
    intro s' hs'
    obtain ⟨s, hs, hss⟩ : ∃ s ∈ ss, Noisier s s' := by
      clear h h' hQ hR
      induction hmore with
      | nil => simp at hs'
      | cons h1 h2 ih =>
        rcases List.mem_cons.1 hs' with rfl | hs'
        · exact ⟨_, by simp, h1⟩
        · obtain ⟨s, hs, hh⟩ := ih hs'
          exact ⟨s, by simp [hs], hh⟩
    constructor
    · have := hss.Q.add (hQ s hs); rwa [sub_add_cancel] at this
    · have := Matrix.PosDef.posSemidef_add hss.R (hR s hs); rwa [sub_add_cancel] at this
  refine ⟨_, _, _, _, h.returns (solvable_psd hb hQ hR),
    h'.returns (solvable_psd hb' (fun s hs => (hall s hs).1) fun s hs => (hall s hs).2),
    filtered_length _ _, ?_⟩
  refine (filtered_mono hmore hb hQ hR hle).imp ?_
  intro q q' hq
  refine ⟨hq, fun v => ?_, ?_⟩
  · have := hq.dotProduct_mulVec_nonneg v
    rw [star_trivial, Matrix.sub_mulVec, dotProduct_sub] at this
    linarith
  · have := hq.trace_nonneg
    rw [Matrix.trace_sub] at this
    linarith

-- C49: the constant-velocity model, and the same with the measurement noise doubled and other data.
example (uz : List (ℝ × ℝ)) : let ss := Ex.cvSteps uz
    let ss' := ss.map fun s => { s with R := 2 • s.R, z := 3 • s.z }
    Represents (Ex.encode Ex.cvBelief ss) (Ex.encZ ss) (some (Ex.encU ss)) Ex.cvBelief ss ∧
    Represents (Ex.encode Ex.cvBelief ss') (Ex.encZ ss') (some (Ex.encU ss')) Ex.cvBelief ss' ∧
    List.Forall₂ Noisier ss ss' ∧ (∀ s ∈ ss, s.Q.PosSemidef) ∧ (∀ s ∈ ss, s.R.PosDef) := by
  intro ss ss'
  refine ⟨Ex.encode_represents _ _, Ex.encode_represents _ _, ?_, fun s hs => (Ex.cv_pdStep uz s hs).1,
    fun s hs => (Ex.cv_pdStep uz s hs).2.1⟩
  have hR := fun s hs => (Ex.cv_pdStep uz s hs).2.1
  show List.Forall₂ Noisier ss (ss.map _)
  rw [List.forall₂_map_right_iff]
  refine List.forall₂_same.2 fun s hs => ⟨rfl, rfl, ?_, ?_⟩
  · simp [Matrix.PosSemidef.zero]
  · simpa [two_smul] using (hR s hs).posSemidef

end KK
