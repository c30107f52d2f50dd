import Verif.Spec.Subsystems
import Verif.Proofs.Transfer
import Verif.Props.Covariance

/-!
# C89: independent systems may be filtered together or separately
-/

set_option linter.unusedSectionVars false

namespace KK

open Matrix

section blocks

variable {a b c d e f : ℕ}

theorem blk_mul (A : Matrix (Fin a) (Fin b) ℝ) (B : Matrix (Fin c) (Fin d) ℝ) (C : Matrix (Fin b) (Fin e) ℝ)
    (D : Matrix (Fin d) (Fin f) ℝ) : blk A B * blk C D = blk (A * C) (B * D) := by
  rw [blk, blk, blk, submatrix_mul_equiv, fromBlocks_multiply]
  simp

theorem blk_add (A C : Matrix (Fin a) (Fin b) ℝ) (B D : Matrix (Fin c) (Fin d) ℝ) :
    blk A B + blk C D = blk (A + C) (B + D) := by
  have h := fromBlocks_add A 0 0 B C 0 0 D
  rw [zero_add, zero_add] at h
  rw [blk, blk, blk, ← h]
  rfl

theorem blk_sub (A C : Matrix (Fin a) (Fin b) ℝ) (B D : Matrix (Fin c) (Fin d) ℝ) :
    blk A B - blk C D = blk (A - C) (B - D) := by
  rw [sub_eq_iff_eq_add, blk_add]
  simp

theorem blk_transpose (A : Matrix (Fin a) (Fin b) ℝ) (B : Matrix (Fin c) (Fin d) ℝ) : (blk A B)ᵀ = blk Aᵀ Bᵀ := by
  rw [blk, blk, transpose_submatrix, fromBlocks_transpose]
  simp

theorem blk_one : blk (1 : Matrix (Fin a) (Fin a) ℝ) (1 : Matrix (Fin c) (Fin c) ℝ) = 1 := by
  rw [blk, fromBlocks_one, submatrix_one_equiv]

theorem blk_det (A : Matrix (Fin a) (Fin a) ℝ) (B : Matrix (Fin c) (Fin c) ℝ) : (blk A B).det = A.det * B.det := by
  rw [blk, det_submatrix_equiv_self, det_fromBlocks_zero₂₁]

theorem blk_inv (A : Matrix (Fin a) (Fin a) ℝ) (B : Matrix (Fin c) (Fin c) ℝ) (hA : A.det ≠ 0) (hB : B.det ≠ 0) :
    (blk A B)⁻¹ = blk A⁻¹ B⁻¹ := by
  refine inv_eq_right_inv ?_
  rw [blk_mul, mul_nonsing_inv _ (isUnit_iff_ne_zero.2 hA), mul_nonsing_inv _ (isUnit_iff_ne_zero.2 hB), blk_one]

theorem blk_mulVec (A : Matrix (Fin a) (Fin b) ℝ) (B : Matrix (Fin c) (Fin d) ℝ) (v : Fin b → ℝ) (w : Fin d → ℝ) :
    blk A B *ᵥ Fin.append v w = Fin.append (A *ᵥ v) (B *ᵥ w) := by
  funext i
  refine Fin.addCases (fun i => ?_) (fun i => ?_) i <;>
    simp [blk, mulVec, dotProduct, Fin.sum_univ_add, Fin.append_left, Fin.append_right]

theorem append_add (v v' : Fin a → ℝ) (w w' : Fin b → ℝ) :
    Fin.append v w + Fin.append v' w' = Fin.append (v + v') (w + w') := by
  funext i
  refine Fin.addCases (fun i => ?_) (fun i => ?_) i <;> simp

theorem append_sub (v v' : Fin a → ℝ) (w w' : Fin b → ℝ) :
    Fin.append v w - Fin.append v' w' = Fin.append (v - v') (w - w') := by
  funext i
  refine Fin.addCases (fun i => ?_) (fun i => ?_) i <;> simp

end blocks

variable {n₁ n₂ m₁ m₂ : ℕ}

section steps

variable (s₁ : LinStep n₁ m₁) (s₂ : LinStep n₂ m₂) (b₁ q₁ : Belief n₁) (b₂ q₂ : Belief n₂)

theorem join_predict : (s₁.join s₂).predict (b₁.join b₂) = (s₁.predict b₁).join (s₂.predict b₂) := by
  simp only [LinStep.predict, LinStep.join, Belief.join, blk_mulVec, append_add, priorCov, blk_mul, blk_transpose, blk_add]

theorem join_innov : (s₁.join s₂).innov (b₁.join b₂) = blk (s₁.innov b₁) (s₂.innov b₂) := by
  simp only [LinStep.innov, LinStep.join, Belief.join, innovCov, blk_mul, blk_transpose, blk_add]

variable {s₁ s₂ b₁ b₂ q₁ q₂}

theorem join_gain (h₁ : (s₁.innov b₁).det ≠ 0) (h₂ : (s₂.innov b₂).det ≠ 0) :
    (s₁.join s₂).gain (b₁.join b₂) = blk (s₁.gain b₁) (s₂.gain b₂) := by
  have h := join_innov s₁ s₂ b₁ b₂
  rw [LinStep.innov] at h
  rw [LinStep.gain, kGain, h, blk_inv _ _ h₁ h₂]
  simp only [LinStep.join, Belief.join, blk_mul, blk_transpose]
  rfl

theorem join_update (h₁ : (s₁.innov b₁).det ≠ 0) (h₂ : (s₂.innov b₂).det ≠ 0) :
    (s₁.join s₂).update (b₁.join b₂) = (s₁.update b₁).join (s₂.update b₂) := by
  have hg := join_gain h₁ h₂
  rw [LinStep.update, hg, postCov]
  rw [LinStep.gain] at hg
  rw [hg]
  simp only [LinStep.join, Belief.join, blk_mul, blk_mulVec, append_sub, append_add, ← blk_one, blk_sub]
  rfl

theorem join_next (h₁ : (s₁.innov (s₁.predict b₁)).det ≠ 0) (h₂ : (s₂.innov (s₂.predict b₂)).det ≠ 0) :
    (s₁.join s₂).next (b₁.join b₂) = (s₁.next b₁).join (s₂.next b₂) := by
  rw [LinStep.next, join_predict, join_update h₁ h₂]
  rfl

theorem join_rtsStep (h₁ : (s₁.predict b₁).P.det ≠ 0) (h₂ : (s₂.predict b₂).P.det ≠ 0) :
    rtsStep (b₁.join b₂) (s₁.join s₂) (q₁.join q₂) = (rtsStep b₁ s₁ q₁).join (rtsStep b₂ s₂ q₂) := by
  simp only [rtsStep, join_predict]
  simp only [LinStep.join, Belief.join, blk_transpose, blk_mul, blk_inv _ _ h₁ h₂, append_sub, blk_mulVec, append_add,
    blk_sub, blk_add]

end steps

/-! ### runs -/

theorem join_solvable (b₁ : Belief n₁) (b₂ : Belief n₂) (ss₁ : List (LinStep n₁ m₁)) (ss₂ : List (LinStep n₂ m₂))
    (hl : ss₁.length = ss₂.length) :
    Solvable (b₁.join b₂) (List.zipWith LinStep.join ss₁ ss₂) ↔ Solvable b₁ ss₁ ∧ Solvable b₂ ss₂ := by
  induction ss₁ generalizing ss₂ b₁ b₂ with
  | nil => cases ss₂ <;> simp_all [Solvable]
  | cons s₁ ss₁ ih =>
    cases ss₂ with
    | nil => simp at hl
    | cons s₂ ss₂ =>
      rw [List.zipWith_cons_cons, Solvable, Solvable, Solvable, join_predict, join_innov, blk_det, mul_ne_zero_iff]
      constructor
      · rintro ⟨⟨h1, h2⟩, h3⟩
        rw [join_next h1 h2, ih _ _ _ (by simpa using hl)] at h3
        exact ⟨⟨h1, h3.1⟩, h2, h3.2⟩
      · rintro ⟨⟨h1, h3⟩, h2, h4⟩
        refine ⟨⟨h1, h2⟩, ?_⟩
        rw [join_next h1 h2, ih _ _ _ (by simpa using hl)]
        exact ⟨h3, h4⟩

theorem join_filtered (b₁ : Belief n₁) (b₂ : Belief n₂) (ss₁ : List (LinStep n₁ m₁)) (ss₂ : List (LinStep n₂ m₂))
    (hl : ss₁.length = ss₂.length) (h₁ : Solvable b₁ ss₁) (h₂ : Solvable b₂ ss₂) :
    filtered (b₁.join b₂) (List.zipWith LinStep.join ss₁ ss₂) =
      List.zipWith Belief.join (filtered b₁ ss₁) (filtered b₂ ss₂) ∧
    gainsOf (b₁.join b₂) (List.zipWith LinStep.join ss₁ ss₂) = List.zipWith blk (gainsOf b₁ ss₁) (gainsOf b₂ ss₂) := by
  induction ss₁ generalizing ss₂ b₁ b₂ with
  | nil => cases ss₂ <;> simp_all [filtered, gainsOf]
  | cons s₁ ss₁ ih =>
    cases ss₂ with
    | nil => simp at hl
    | cons s₂ ss₂ =>
      obtain ⟨d₁, h₁⟩ := h₁
      obtain ⟨d₂, h₂⟩ := h₂
      obtain ⟨i1, i2⟩ := ih _ _ _ (by simpa using hl) h₁ h₂
      simp only [List.zipWith_cons_cons, filtered, gainsOf, join_next d₁ d₂, join_predict, join_gain d₁ d₂, i1, i2, and_self]

theorem join_rtsSolvable (b₁ : Belief n₁) (b₂ : Belief n₂) (ss₁ : List (LinStep n₁ m₁)) (ss₂ : List (LinStep n₂ m₂))
    (hl : ss₁.length = ss₂.length) (h₁ : Solvable b₁ ss₁) (h₂ : Solvable b₂ ss₂) :
    RtsSolvable (b₁.join b₂) (List.zipWith LinStep.join ss₁ ss₂) ↔ RtsSolvable b₁ ss₁ ∧ RtsSolvable b₂ ss₂ := by
  induction ss₁ generalizing ss₂ b₁ b₂ with
  | nil => cases ss₂ <;> simp_all [RtsSolvable]
  | cons s₁ ss₁ ih =>
    cases ss₂ with
    | nil => simp at hl
    | cons s₂ ss₂ =>
      obtain ⟨d₁, h₁⟩ := h₁
      obtain ⟨d₂, h₂⟩ := h₂
      rw [List.zipWith_cons_cons, RtsSolvable, RtsSolvable, RtsSolvable, join_next d₁ d₂, ih _ _ _ (by simpa using hl) h₁ h₂,
        join_predict]
      simp only [Belief.join, blk_det, mul_ne_zero_iff]
      tauto

theorem join_rts (b₁ : Belief n₁) (b₂ : Belief n₂) (ss₁ : List (LinStep n₁ m₁)) (ss₂ : List (LinStep n₂ m₂))
    (hl : ss₁.length = ss₂.length) (h₁ : Solvable b₁ ss₁) (h₂ : Solvable b₂ ss₂) (r₁ : RtsSolvable b₁ ss₁)
    (r₂ : RtsSolvable b₂ ss₂) :
    rts (b₁.join b₂) (List.zipWith LinStep.join ss₁ ss₂) = List.zipWith Belief.join (rts b₁ ss₁) (rts b₂ ss₂) := by
  induction ss₁ generalizing ss₂ b₁ b₂ with
  | nil => cases ss₂ <;> simp_all [rts]
  | cons s₁ ss₁ ih =>
    cases ss₂ with
    | nil => simp at hl
    | cons s₂ ss₂ =>
      obtain ⟨d₁, h₁⟩ := h₁
      obtain ⟨d₂, h₂⟩ := h₂
      obtain ⟨e₁, r₁⟩ := r₁
      obtain ⟨e₂, r₂⟩ := r₂
      have l1 := rts_length (s₁.next b₁) ss₁
      have l2 := rts_length (s₂.next b₂) ss₂
      rw [List.zipWith_cons_cons, rts, join_next d₁ d₂, ih _ _ _ (by simpa using hl) h₁ h₂ r₁ r₂, rts, rts]
      rcases hq₁ : rts (s₁.next b₁) ss₁ with _ | ⟨q₁, qs₁⟩
      · simp [hq₁] at l1
      rcases hq₂ : rts (s₂.next b₂) ss₂ with _ | ⟨q₂, qs₂⟩
      · simp [hq₂] at l2
      simp only [List.zipWith_cons_cons, join_rtsStep e₁ e₂]

variable [Platform]

/-- C89: two calls that represent systems 1 and 2 over the same number of steps, and a call that represents the joint system.
The joint `filter` raises LinAlgError exactly if one of the separate ones does.  Otherwise its means are the concatenated means,
its covariances and gains are block diagonal with the separate ones as blocks. -/
theorem C89_filter_subsystems (kf : KalmanFilter Fl) (Z : NDArray Fl) (U : Option (NDArray Fl))
    (kf₁ : KalmanFilter Fl) (Z₁ : NDArray Fl) (U₁ : Option (NDArray Fl))
    (kf₂ : KalmanFilter Fl) (Z₂ : NDArray Fl) (U₂ : Option (NDArray Fl))
    (b₁ : Belief n₁) (b₂ : Belief n₂) (ss₁ : List (LinStep n₁ m₁)) (ss₂ : List (LinStep n₂ m₂))
    (hl : ss₁.length = ss₂.length) (h₁ : Represents kf₁ Z₁ U₁ b₁ ss₁) (h₂ : Represents kf₂ Z₂ U₂ b₂ ss₂)
    (h : Represents kf Z U (b₁.join b₂) (List.zipWith LinStep.join ss₁ ss₂)) :
    ((FilterSingular kf₁ Z₁ U₁ ∨ FilterSingular kf₂ Z₂ U₂) ∧ FilterSingular kf Z U) ∨
    ∃ (bs₁ : List (Belief n₁)) (bs₂ : List (Belief n₂)) (Ks₁ : List (Matrix (Fin n₁) (Fin m₁) ℝ))
      (Ks₂ : List (Matrix (Fin n₂) (Fin m₂) ℝ)), bs₁.length = ss₁.length ∧ bs₂.length = ss₁.length ∧
      FilterReturns kf₁ Z₁ U₁ bs₁ Ks₁ ∧ FilterReturns kf₂ Z₂ U₂ bs₂ Ks₂ ∧
      FilterReturns kf Z U (List.zipWith Belief.join bs₁ bs₂) (List.zipWith blk Ks₁ Ks₂) := by
  have key := join_solvable b₁ b₂ ss₁ ss₂ hl
  by_cases d₁ : Solvable b₁ ss₁
  · by_cases d₂ : Solvable b₂ ss₂
    · refine .inr ⟨_, _, _, _, filtered_length _ _, by rw [filtered_length, hl], h₁.returns d₁, h₂.returns d₂, ?_⟩
      obtain ⟨e1, e2⟩ := join_filtered b₁ b₂ ss₁ ss₂ hl d₁ d₂
      rw [← e1, ← e2]
      exact h.returns (key.2 ⟨d₁, d₂⟩)
    · exact .inl ⟨.inr (h₂.singular d₂), h.singular fun hs => d₂ (key.1 hs).2⟩
  · exact .inl ⟨.inl (h₁.singular d₁), h.singular fun hs => d₁ (key.1 hs).1⟩

/-- C89 for `smooth`. -/
theorem C89_smooth_subsystems (kf : KalmanFilter Fl) (Z : NDArray Fl) (U : Option (NDArray Fl))
    (kf₁ : KalmanFilter Fl) (Z₁ : NDArray Fl) (U₁ : Option (NDArray Fl))
    (kf₂ : KalmanFilter Fl) (Z₂ : NDArray Fl) (U₂ : Option (NDArray Fl))
    (b₁ : Belief n₁) (b₂ : Belief n₂) (ss₁ : List (LinStep n₁ m₁)) (ss₂ : List (LinStep n₂ m₂))
    (hl : ss₁.length = ss₂.length) (h₁ : Represents kf₁ Z₁ U₁ b₁ ss₁) (h₂ : Represents kf₂ Z₂ U₂ b₂ ss₂)
    (h : Represents kf Z U (b₁.join b₂) (List.zipWith LinStep.join ss₁ ss₂)) (hne : ss₁ ≠ [])
    (f₁ : ss₁.length = Z₁.rows.length) (f₂ : ss₁.length = Z₂.rows.length) (f : ss₁.length = Z.rows.length) :
    ((SmoothSingular kf₁ Z₁ U₁ ∨ SmoothSingular kf₂ Z₂ U₂) ∧ SmoothSingular kf Z U) ∨
    ∃ (bs₁ : List (Belief n₁)) (bs₂ : List (Belief n₂)) (Ks₁ : List (Matrix (Fin n₁) (Fin m₁) ℝ))
      (Ks₂ : List (Matrix (Fin n₂) (Fin m₂) ℝ)), bs₁.length = ss₁.length ∧ bs₂.length = ss₁.length ∧
      SmoothReturns kf₁ Z₁ U₁ bs₁ Ks₁ ∧ SmoothReturns kf₂ Z₂ U₂ bs₂ Ks₂ ∧
      SmoothReturns kf Z U (List.zipWith Belief.join bs₁ bs₂) (List.zipWith blk Ks₁ Ks₂) := by
  have key := join_solvable b₁ b₂ ss₁ ss₂ hl
  have hne₂ : ss₂ ≠ [] := by
    rintro rfl
    exact hne (List.eq_nil_of_length_eq_zero hl)
  have hz : List.zipWith LinStep.join ss₁ ss₂ ≠ [] := by
    rw [Ne, List.zipWith_eq_nil_iff]
    tauto
  have hzl : (List.zipWith LinStep.join ss₁ ss₂).length = Z.rows.length := by
    rw [List.length_zipWith, ← hl, Nat.min_self, f]
  by_cases d₁ : Solvable b₁ ss₁ ∧ SmoothSolvable b₁ ss₁
  · by_cases d₂ : Solvable b₂ ss₂ ∧ SmoothSolvable b₂ ss₂
    · refine .inr ⟨_, _, _, _, smoothed_length _ _, by rw [smoothed_length, hl], h₁.smoothReturns f₁ hne d₁.1 d₁.2,
        h₂.smoothReturns (hl.symm.trans f₂) hne₂ d₂.1 d₂.2, ?_⟩
      obtain ⟨-, e2⟩ := join_filtered b₁ b₂ ss₁ ss₂ hl d₁.1 d₂.1
      have hs := key.2 ⟨d₁.1, d₂.1⟩
      cases ss₁ with
      | nil => exact absurd rfl hne
      | cons s₁ ts₁ =>
        cases ss₂ with
        | nil => exact absurd rfl hne₂
        | cons s₂ ts₂ =>
          have hl' : ts₁.length = ts₂.length := by simpa using hl
          have en := join_next d₁.1.1 d₂.1.1
          have es : smoothed (b₁.join b₂) (List.zipWith LinStep.join (s₁ :: ts₁) (s₂ :: ts₂)) =
              List.zipWith Belief.join (smoothed b₁ (s₁ :: ts₁)) (smoothed b₂ (s₂ :: ts₂)) := by
            rw [List.zipWith_cons_cons, smoothed, en]
            exact join_rts _ _ _ _ hl' d₁.1.2 d₂.1.2 d₁.2 d₂.2
          rw [← e2, ← es]
          refine h.smoothReturns hzl hz hs ?_
          rw [List.zipWith_cons_cons, SmoothSolvable, en]
          exact (join_rtsSolvable _ _ _ _ hl' d₁.1.2 d₂.1.2).2 ⟨d₁.2, d₂.2⟩
    · refine .inl ⟨.inr (h₂.smoothSingular (hl.symm.trans f₂) hne₂ d₂), h.smoothSingular hzl hz ?_⟩
      rintro ⟨a1, a2⟩
      refine d₂ ⟨(key.1 a1).2, ?_⟩
      cases ss₁ with
      | nil => exact absurd rfl hne
      | cons s₁ ts₁ =>
        cases ss₂ with
        | nil => exact absurd rfl hne₂
        | cons s₂ ts₂ =>
          obtain ⟨k1, k2⟩ := key.1 a1
          rw [List.zipWith_cons_cons, SmoothSolvable, join_next k1.1 k2.1] at a2
          exact ((join_rtsSolvable _ _ _ _ (by simpa using hl) k1.2 k2.2).1 a2).2
  · refine .inl ⟨.inl (h₁.smoothSingular f₁ hne d₁), h.smoothSingular hzl hz ?_⟩
    rintro ⟨a1, a2⟩
    refine d₁ ⟨(key.1 a1).1, ?_⟩
    cases ss₁ with
    | nil => exact absurd rfl hne
    | cons s₁ ts₁ =>
      cases ss₂ with
      | nil => exact absurd rfl hne₂
      | cons s₂ ts₂ =>
        obtain ⟨k1, k2⟩ := key.1 a1
        rw [List.zipWith_cons_cons, SmoothSolvable, join_next k1.1 k2.1] at a2
        exact ((join_rtsSolvable _ _ _ _ (by simpa using hl) k1.2 k2.2).1 a2).1

-- C89: any two systems; every one of the three calls exists.
example (b₁ : Belief n₁) (b₂ : Belief n₂) (ss₁ : List (LinStep n₁ m₁)) (ss₂ : List (LinStep n₂ m₂)) :
    (∃ kf Z U, Represents kf Z U b₁ ss₁) ∧ (∃ kf Z U, Represents kf Z U b₂ ss₂) ∧
    ∃ kf Z U, Represents kf Z U (b₁.join b₂) (List.zipWith LinStep.join ss₁ ss₂) :=
  ⟨⟨_, _, _, Ex.encode_represents _ _⟩, ⟨_, _, _, Ex.encode_represents _ _⟩, ⟨_, _, _, Ex.encode_represents _ _⟩⟩

-- Tracking in the plane: the horizontal and the vertical coordinate may be filtered separately; both runs return.
example (us vs : List (ℝ × ℝ)) : Solvable Ex.cvBelief (Ex.cvSteps us) ∧ Solvable Ex.cvBelief (Ex.cvSteps vs) :=
  ⟨Ex.cv_solvable us, Ex.cv_solvable vs⟩

end KK
