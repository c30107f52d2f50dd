import Verif.Spec.Textbook

/-!
# Matrix identities of one predict / update
-/

namespace KK

open Matrix

section
variable {ι κ : Type} [Fintype ι] [Fintype κ] [DecidableEq ι] [DecidableEq κ]

theorem IsHermitian.symm' {M : Matrix ι ι ℝ} (h : M.IsHermitian) : Mᵀ = M := by
  rw [← conjTranspose_eq_transpose_of_trivial]; exact h

theorem isHermitian_of_symm {M : Matrix ι ι ℝ} (h : Mᵀ = M) : M.IsHermitian := by
  rw [Matrix.IsHermitian, conjTranspose_eq_transpose_of_trivial]; exact h

theorem posSemidef_conj {M : Matrix ι ι ℝ} (h : M.PosSemidef) (A : Matrix κ ι ℝ) :
    (A * M * Aᵀ).PosSemidef := by
  have := h.mul_mul_conjTranspose_same A
  rwa [conjTranspose_eq_transpose_of_trivial] at this

theorem posDef_conj {M : Matrix ι ι ℝ} (h : M.PosDef) (A : Matrix ι ι ℝ) (hA : A.det ≠ 0) :
    (A * M * Aᵀ).PosDef := by
  have hu : IsUnit A := (Matrix.isUnit_iff_isUnit_det A).2 (isUnit_iff_ne_zero.2 hA)
  have := h.mul_mul_conjTranspose_same (B := A) (Matrix.vecMul_injective_of_isUnit hu)
  rwa [conjTranspose_eq_transpose_of_trivial] at this

theorem posDef_det_ne {M : Matrix ι ι ℝ} (h : M.PosDef) : M.det ≠ 0 := h.det_pos.ne'

theorem posDef_isUnit_det {M : Matrix ι ι ℝ} (h : M.PosDef) : IsUnit M.det :=
  isUnit_iff_ne_zero.2 (posDef_det_ne h)

/-! ### predict -/

theorem priorCov_posSemidef {A P Q : Matrix ι ι ℝ} (hP : P.PosSemidef) (hQ : Q.PosSemidef) :
    (priorCov A P Q).PosSemidef := (posSemidef_conj hP A).add hQ

theorem priorCov_posDef_Q {A P Q : Matrix ι ι ℝ} (hP : P.PosSemidef) (hQ : Q.PosDef) :
    (priorCov A P Q).PosDef := Matrix.PosDef.posSemidef_add (posSemidef_conj hP A) hQ

theorem priorCov_posDef_A {A P Q : Matrix ι ι ℝ} (hP : P.PosDef) (hQ : Q.PosSemidef) (hA : A.det ≠ 0) :
    (priorCov A P Q).PosDef := Matrix.PosDef.add_posSemidef (posDef_conj hP A hA) hQ

theorem priorCov_symm {A P Q : Matrix ι ι ℝ} (hP : Pᵀ = P) (hQ : Qᵀ = Q) :
    (priorCov A P Q)ᵀ = priorCov A P Q := by
  simp [priorCov, Matrix.transpose_mul, hP, hQ, Matrix.mul_assoc]

/-! ### update -/

variable {H : Matrix κ ι ℝ} {P : Matrix ι ι ℝ} {R : Matrix κ κ ℝ}

theorem innovCov_posDef (hP : P.PosSemidef) (hR : R.PosDef) : (innovCov H P R).PosDef :=
  Matrix.PosDef.posSemidef_add (posSemidef_conj hP H) hR

theorem innovCov_symm (hP : Pᵀ = P) (hR : Rᵀ = R) : (innovCov H P R)ᵀ = innovCov H P R := by
  simp [innovCov, Matrix.transpose_mul, hP, hR, Matrix.mul_assoc]

theorem kGain_mul_innov (hS : (innovCov H P R).det ≠ 0) : kGain H P R * innovCov H P R = P * Hᵀ := by
  rw [kGain, Matrix.mul_assoc, Matrix.nonsing_inv_mul _ (isUnit_iff_ne_zero.2 hS), Matrix.mul_one]

theorem innov_mul_kGainT (hP : Pᵀ = P) (hR : Rᵀ = R) (hS : (innovCov H P R).det ≠ 0) :
    innovCov H P R * (kGain H P R)ᵀ = H * P := by
  have := congrArg transpose (kGain_mul_innov hS)
  rw [Matrix.transpose_mul, innovCov_symm hP hR] at this
  rw [this, Matrix.transpose_mul, Matrix.transpose_transpose, hP]

/-- The error covariance of the update with an arbitrary gain `L` (Joseph form). -/
noncomputable def josephCov (L : Matrix ι κ ℝ) (H : Matrix κ ι ℝ) (P : Matrix ι ι ℝ) (R : Matrix κ κ ℝ) :
    Matrix ι ι ℝ := (1 - L * H) * P * (1 - L * H)ᵀ + L * R * Lᵀ

theorem postCov_eq_sub (hP : Pᵀ = P) (hR : Rᵀ = R) (hS : (innovCov H P R).det ≠ 0) :
    postCov H P R = P - kGain H P R * innovCov H P R * (kGain H P R)ᵀ := by
  rw [Matrix.mul_assoc, innov_mul_kGainT hP hR hS, postCov, Matrix.sub_mul, Matrix.one_mul, Matrix.mul_assoc]

theorem josephCov_eq (L : Matrix ι κ ℝ) (hP : Pᵀ = P) (hR : Rᵀ = R) (hS : (innovCov H P R).det ≠ 0) :
    josephCov L H P R =
      postCov H P R + (L - kGain H P R) * innovCov H P R * (L - kGain H P R)ᵀ := by
  have h1 := kGain_mul_innov hS
  have h2 := innov_mul_kGainT hP hR hS
  have h3 : L * innovCov H P R * Lᵀ = L * H * P * Hᵀ * Lᵀ + L * R * Lᵀ := by
    simp only [innovCov, Matrix.mul_add, Matrix.add_mul, Matrix.mul_assoc]
  rw [postCov_eq_sub hP hR hS]
  simp only [josephCov, Matrix.transpose_sub, Matrix.transpose_one, Matrix.transpose_mul, Matrix.sub_mul,
    Matrix.mul_sub, Matrix.one_mul, Matrix.mul_one]
  rw [h3, h1, Matrix.mul_assoc L (innovCov H P R), h2]
  simp only [Matrix.mul_assoc]
  abel

theorem postCov_eq_joseph (hP : Pᵀ = P) (hR : Rᵀ = R) (hS : (innovCov H P R).det ≠ 0) :
    postCov H P R = josephCov (kGain H P R) H P R := by
  rw [josephCov_eq _ hP hR hS]; simp

theorem josephCov_posSemidef (L : Matrix ι κ ℝ) (hP : P.PosSemidef) (hR : R.PosSemidef) :
    (josephCov L H P R).PosSemidef := (posSemidef_conj hP _).add (posSemidef_conj hR L)

theorem postCov_symm (hP : Pᵀ = P) (hR : Rᵀ = R) (hS : (innovCov H P R).det ≠ 0) :
    (postCov H P R)ᵀ = postCov H P R := by
  rw [postCov_eq_sub hP hR hS]
  simp only [Matrix.transpose_sub, Matrix.transpose_mul, Matrix.transpose_transpose, hP,
    innovCov_symm hP hR, Matrix.mul_assoc]

theorem postCov_posSemidef (hP : P.PosSemidef) (hR : R.PosSemidef) (hS : (innovCov H P R).det ≠ 0) :
    (postCov H P R).PosSemidef := by
  rw [postCov_eq_joseph (IsHermitian.symm' hP.1) (IsHermitian.symm' hR.1) hS]
  exact josephCov_posSemidef _ hP hR

theorem postCov_le (hP : P.PosSemidef) (hR : R.PosSemidef) (hS : (innovCov H P R).det ≠ 0) :
    (P - postCov H P R).PosSemidef := by
  rw [postCov_eq_sub (IsHermitian.symm' hP.1) (IsHermitian.symm' hR.1) hS, sub_sub_cancel]
  exact posSemidef_conj ((posSemidef_conj hP H).add hR) _

/-! ### information form -/

theorem postCov_mul_info (hP : P.det ≠ 0) (hR : R.det ≠ 0) (hS : (innovCov H P R).det ≠ 0) :
    postCov H P R * (P⁻¹ + Hᵀ * R⁻¹ * H) = 1 := by
  have h1 := kGain_mul_innov hS
  have hPP := Matrix.mul_nonsing_inv P (isUnit_iff_ne_zero.2 hP)
  have hRR := Matrix.mul_nonsing_inv R (isUnit_iff_ne_zero.2 hR)
  have h2 : kGain H P R * H * P * Hᵀ * R⁻¹ * H = P * Hᵀ * R⁻¹ * H - kGain H P R * H := by
    have : kGain H P R * (innovCov H P R * (R⁻¹ * H)) = P * Hᵀ * (R⁻¹ * H) := by
      rw [← Matrix.mul_assoc, h1]
    rw [innovCov, Matrix.add_mul, Matrix.mul_add, ← Matrix.mul_assoc R, hRR, Matrix.one_mul] at this
    rw [eq_sub_iff_add_eq]
    simpa only [Matrix.mul_assoc] using this
  calc postCov H P R * (P⁻¹ + Hᵀ * R⁻¹ * H)
      = (1 - kGain H P R * H) * (P * P⁻¹ + P * Hᵀ * R⁻¹ * H) := by
        rw [postCov, Matrix.mul_assoc, Matrix.mul_add]
        simp only [Matrix.mul_assoc]
    _ = 1 + P * Hᵀ * R⁻¹ * H - kGain H P R * H - kGain H P R * H * P * Hᵀ * R⁻¹ * H := by
        rw [hPP, Matrix.sub_mul, Matrix.one_mul, Matrix.mul_add, Matrix.mul_one]
        simp only [Matrix.mul_assoc]
        abel
    _ = 1 := by rw [h2]; abel

theorem postCov_inv (hP : P.det ≠ 0) (hR : R.det ≠ 0) (hS : (innovCov H P R).det ≠ 0) :
    (postCov H P R)⁻¹ = P⁻¹ + Hᵀ * R⁻¹ * H :=
  Matrix.inv_eq_right_inv (postCov_mul_info hP hR hS)

theorem postCov_det_ne (hP : P.det ≠ 0) (hR : R.det ≠ 0) (hS : (innovCov H P R).det ≠ 0) :
    (postCov H P R).det ≠ 0 := by
  have := congrArg det (postCov_mul_info (H := H) hP hR hS)
  rw [Matrix.det_mul, Matrix.det_one] at this
  exact left_ne_zero_of_mul_eq_one this

theorem postCov_posDef (hP : P.PosDef) (hR : R.PosDef) : (postCov H P R).PosDef := by
  have hS := posDef_det_ne (innovCov_posDef (H := H) hP.posSemidef hR)
  have h1 := postCov_inv (posDef_det_ne hP) (posDef_det_ne hR) hS
  have h2 : (P⁻¹ + Hᵀ * R⁻¹ * H).PosDef := by
    refine Matrix.PosDef.add_posSemidef hP.inv ?_
    have := posSemidef_conj hR.inv.posSemidef Hᵀ
    rwa [Matrix.transpose_transpose] at this
  rw [← h1] at h2
  exact Matrix.posDef_inv_iff.1 h2

/-- `K = P⁺ H' R⁻¹` -/
theorem kGain_eq_post (hP : P.det ≠ 0) (hR : R.det ≠ 0) (hS : (innovCov H P R).det ≠ 0) :
    kGain H P R = postCov H P R * Hᵀ * R⁻¹ := by
  have h1 := kGain_mul_innov hS
  have hRR := Matrix.mul_nonsing_inv R (isUnit_iff_ne_zero.2 hR)
  have : postCov H P R * Hᵀ = kGain H P R * R := by
    rw [postCov, Matrix.sub_mul, Matrix.one_mul, Matrix.sub_mul, ← h1, innovCov]
    simp only [Matrix.mul_add, Matrix.mul_assoc]
    abel
  rw [this, Matrix.mul_assoc, hRR, Matrix.mul_one]

end

/-! ### invariants of whole runs -/

section
variable {n m : ℕ}

theorem filtered_forall (p : Belief n → Prop) (b : Belief n) (ss : List (LinStep n m)) (hb : p b)
    (h : ∀ s ∈ ss, ∀ b, p b → p (s.next b)) : ∀ q ∈ filtered b ss, p q := by
  induction ss generalizing b with
  | nil => simp [filtered]
  | cons s ss ih =>
    intro q hq
    simp only [filtered, List.mem_cons] at hq
    have h1 := h s (by simp) b hb
    rcases hq with rfl | hq
    · exact h1
    · exact ih _ h1 (fun s hs => h s (by simp [hs])) q hq

theorem solvable_of (p : Belief n → Prop) (b : Belief n) (ss : List (LinStep n m)) (hb : p b)
    (h : ∀ s ∈ ss, ∀ b, p b → p (s.next b) ∧ (s.innov (s.predict b)).det ≠ 0) : Solvable b ss := by
  induction ss generalizing b with
  | nil => trivial
  | cons s ss ih =>
    obtain ⟨h1, h2⟩ := h s (by simp) b hb
    exact ⟨h2, ih _ h1 (fun s hs => h s (by simp [hs]))⟩

theorem psd_next {s : LinStep n m} {b : Belief n} (hb : b.P.PosSemidef) (hQ : s.Q.PosSemidef)
    (hR : s.R.PosDef) : (s.next b).P.PosSemidef ∧ (s.innov (s.predict b)).det ≠ 0 := by
  have h1 := priorCov_posSemidef (A := s.A) hb hQ
  have h2 := innovCov_posDef (H := s.H) h1 hR
  exact ⟨postCov_posSemidef h1 hR.posSemidef (posDef_det_ne h2), posDef_det_ne h2⟩

theorem solvable_psd {b : Belief n} {ss : List (LinStep n m)} (hb : b.P.PosSemidef)
    (hQ : ∀ s ∈ ss, s.Q.PosSemidef) (hR : ∀ s ∈ ss, s.R.PosDef) : Solvable b ss :=
  solvable_of (fun b => b.P.PosSemidef) b ss hb fun s hs b hb => psd_next hb (hQ s hs) (hR s hs)

end

end KK
