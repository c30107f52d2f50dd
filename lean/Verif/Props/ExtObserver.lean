import Verif.Proofs.ExtObserver
import Verif.Proofs.ExtTransfer
import Verif.Test.ExtEncode
import Verif.Props.Examples
import Mathlib.Analysis.SpecialFunctions.Trigonometric.Bounds

/-!
# C117: the extended filter as an observer of a nonlinear system
-/

set_option linter.unusedSectionVars false

namespace KK

open Matrix

variable {n m : ℕ}

theorem le_conj {k l : ℕ} {X : Matrix (Fin l) (Fin l) ℝ} {c : ℝ} (hc : 0 ≤ c) (hX : (c • (1 : Matrix (Fin l) (Fin l) ℝ) - X).PosSemidef)
    {Ψ : Matrix (Fin k) (Fin l) ℝ} {ψ : ℝ} (hψ : 0 ≤ ψ) (h : ∀ i j, |Ψ i j| ≤ ψ) :
    ((c * (l * (ψ * k) ^ 2)) • (1 : Matrix (Fin k) (Fin k) ℝ) - Ψ * X * Ψᵀ).PosSemidef := by
  have h1 := posSemidef_conj hX Ψ
  rw [Matrix.mul_sub, Matrix.sub_mul] at h1
  refine psd_trans h1 ?_
  have e : c • (1 : Matrix (Fin l) (Fin l) ℝ) = c • 1 := rfl
  have h2 : (((l : ℝ) * (ψ * k) ^ 2) • (1 : Matrix (Fin k) (Fin k) ℝ) - Ψ * Ψᵀ).PosSemidef := by
    have hs : (-(Ψ * Ψᵀ))ᵀ = -(Ψ * Ψᵀ) := by simp
    have := lower_of_quad hs (q := -((l : ℝ) * (ψ * k) ^ 2)) fun y => by
      have := mulVec_dot_le (M := Ψᵀ) hψ (fun i j => h j i) y
      rw [neg_mulVec, dotProduct_neg, ← mulVec_mulVec, dotProduct_mulVec, ← mulVec_transpose]
      linarith
    convert this using 1
    module
  have h3 := psd_smul h2 hc
  convert h3 using 1
  rw [Matrix.mul_smul, Matrix.mul_one, Matrix.smul_mul, smul_sub, smul_smul]

/-- The filtered covariance is at most the one of any other gain. -/
theorem next_cov_le {s : ExtStep n m} {b : Belief n} (hP : b.P.PosSemidef) (hQ : s.Q.PosSemidef) (hR : s.R.PosDef)
    (L : Matrix (Fin n) (Fin m) ℝ) :
    (((1 - L * s.jH (s.f b.x)) * s.jA b.x) * b.P * ((1 - L * s.jH (s.f b.x)) * s.jA b.x)ᵀ +
      josephCov L (s.jH (s.f b.x)) s.Q s.R - (s.next b).P).PosSemidef := by
  have hp := priorCov_posSemidef (A := s.jA b.x) hP hQ
  have hSd := innovCov_posDef (H := s.jH (s.f b.x)) hp hR
  have e : (s.next b).P = postCov (s.jH (s.f b.x)) (priorCov (s.jA b.x) b.P s.Q) s.R := rfl
  have h1 := josephCov_eq (H := s.jH (s.f b.x)) L (IsHermitian.symm' hp.1) (IsHermitian.symm' hR.1) (posDef_det_ne hSd)
  have h2 : ((1 - L * s.jH (s.f b.x)) * s.jA b.x) * b.P * ((1 - L * s.jH (s.f b.x)) * s.jA b.x)ᵀ +
      josephCov L (s.jH (s.f b.x)) s.Q s.R = josephCov L (s.jH (s.f b.x)) (priorCov (s.jA b.x) b.P s.Q) s.R := by
    simp only [josephCov, priorCov, transpose_mul, Matrix.mul_add, Matrix.add_mul, Matrix.mul_assoc]
    abel
  rw [h2, e, h1, add_sub_cancel_left]
  exact posSemidef_conj hSd.posSemidef _

theorem upper_mono {k : ℕ} {X : Matrix (Fin k) (Fin k) ℝ} {c c' : ℝ} (h : c ≤ c') (hX : (c • (1 : Matrix (Fin k) (Fin k) ℝ) - X).PosSemidef) :
    (c' • (1 : Matrix (Fin k) (Fin k) ℝ) - X).PosSemidef := by
  have := hX.add (psd_smul (Matrix.PosDef.one (n := Fin k) (R := ℝ)).posSemidef (sub_nonneg.2 h))
  convert this using 1
  module

theorem upper_add {k : ℕ} {X Y : Matrix (Fin k) (Fin k) ℝ} {c c' : ℝ} (hX : (c • (1 : Matrix (Fin k) (Fin k) ℝ) - X).PosSemidef)
    (hY : (c' • (1 : Matrix (Fin k) (Fin k) ℝ) - Y).PosSemidef) : ((c + c') • (1 : Matrix (Fin k) (Fin k) ℝ) - (X + Y)).PosSemidef := by
  have := hX.add hY
  convert this using 1
  module

/-- The noise let in by a bounded gain is bounded. -/
theorem joseph_upper {L : Matrix (Fin n) (Fin m) ℝ} {H : Matrix (Fin m) (Fin n) ℝ} {Q : Matrix (Fin n) (Fin n) ℝ}
    {R : Matrix (Fin m) (Fin m) ℝ} {q r ψ l : ℝ} (hq : 0 ≤ q) (hr : 0 ≤ r) (hψ : 0 ≤ ψ) (hl : 0 ≤ l)
    (hQ : (q • (1 : Matrix (Fin n) (Fin n) ℝ) - Q).PosSemidef) (hR : (r • (1 : Matrix (Fin m) (Fin m) ℝ) - R).PosSemidef)
    (h1 : ∀ i j, |((1 : Matrix (Fin n) (Fin n) ℝ) - L * H) i j| ≤ ψ) (h2 : ∀ i j, |L i j| ≤ l) :
    ((q * (n * (ψ * n) ^ 2) + r * (m * (l * n) ^ 2)) • (1 : Matrix (Fin n) (Fin n) ℝ) - josephCov L H Q R).PosSemidef :=
  upper_add (le_conj hq hQ hψ h1) (le_conj hr hR hl h2)

/-- A positive definite matrix is at least a positive multiple of the identity. -/
theorem exists_lower {k : ℕ} {M : Matrix (Fin k) (Fin k) ℝ} (h : M.PosDef) :
    ∃ q : ℝ, 0 < q ∧ (M - q • (1 : Matrix (Fin k) (Fin k) ℝ)).PosSemidef := by
  obtain ⟨t, ht, h'⟩ := exists_dominating h (Matrix.PosDef.one (n := Fin k) (R := ℝ)).posSemidef
  refine ⟨t⁻¹, by positivity, ?_⟩
  have := psd_smul h' (t := t⁻¹) (by positivity)
  rwa [smul_sub, smul_smul, inv_mul_cancel₀ (by positivity), one_smul] at this

theorem exists_upper {k : ℕ} {M : Matrix (Fin k) (Fin k) ℝ} (h : M.PosSemidef) :
    ∃ q : ℝ, 0 < q ∧ (q • (1 : Matrix (Fin k) (Fin k) ℝ) - M).PosSemidef := by
  obtain ⟨t, ht, h'⟩ := exists_dominating (Matrix.PosDef.one (n := Fin k) (R := ℝ)) h
  exact ⟨t, by positivity, h'⟩

theorem lower_mono {k : ℕ} {X : Matrix (Fin k) (Fin k) ℝ} {c c' : ℝ} (h : c ≤ c') (hX : (X - c' • (1 : Matrix (Fin k) (Fin k) ℝ)).PosSemidef) :
    (X - c • (1 : Matrix (Fin k) (Fin k) ℝ)).PosSemidef := by
  have := hX.add (psd_smul (Matrix.PosDef.one (n := Fin k) (R := ℝ)).posSemidef (sub_nonneg.2 h))
  convert this using 1
  module

/-- Two steps after which a suitable observer has forgotten its initial error. -/
theorem two_step_upper {s₁ s₂ : ExtStep n m} {b : Belief n} (hP : b.P.PosSemidef) (hP₁ : (s₁.next b).P.PosSemidef)
    (hQ₁ : s₁.Q.PosSemidef) (hR₁ : s₁.R.PosDef) (hQ₂ : s₂.Q.PosSemidef) (hR₂ : s₂.R.PosDef)
    (L₁ L₂ : Matrix (Fin n) (Fin m) ℝ)
    (h0 : ((1 - L₂ * s₂.jH (s₂.f (s₁.next b).x)) * s₂.jA (s₁.next b).x) * (1 - L₁ * s₁.jH (s₁.f b.x)) = 0) :
    (((1 - L₂ * s₂.jH (s₂.f (s₁.next b).x)) * s₂.jA (s₁.next b).x) * josephCov L₁ (s₁.jH (s₁.f b.x)) s₁.Q s₁.R *
        ((1 - L₂ * s₂.jH (s₂.f (s₁.next b).x)) * s₂.jA (s₁.next b).x)ᵀ +
      josephCov L₂ (s₂.jH (s₂.f (s₁.next b).x)) s₂.Q s₂.R - (s₂.next (s₁.next b)).P).PosSemidef := by
  have h1 := next_cov_le hP hQ₁ hR₁ L₁
  have h2 := next_cov_le hP₁ hQ₂ hR₂ L₂
  obtain ⟨Ψ, hΨ⟩ : ∃ Ψ, Ψ = (1 - L₂ * s₂.jH (s₂.f (s₁.next b).x)) * s₂.jA (s₁.next b).x := ⟨_, rfl⟩
  rw [← hΨ] at h0 h2 ⊢
  have h3 := posSemidef_conj h1 Ψ
  have e : Ψ * ((1 - L₁ * s₁.jH (s₁.f b.x)) * s₁.jA b.x * b.P * ((1 - L₁ * s₁.jH (s₁.f b.x)) * s₁.jA b.x)ᵀ) = 0 := by
    rw [← Matrix.mul_assoc, ← Matrix.mul_assoc, ← Matrix.mul_assoc, h0]
    simp
  rw [Matrix.mul_sub, Matrix.sub_mul, Matrix.mul_add, e, zero_add] at h3
  have := h3.add h2
  convert this using 1
  abel

namespace Examples

theorem sin_sub_bound (t : ℝ) : |Real.sin t - t| ≤ 2 * t ^ 2 := by
  have key : ∀ t : ℝ, 0 < t → |Real.sin t - t| ≤ 2 * t ^ 2 := fun t ht => by
    rw [abs_of_nonpos (by linarith [Real.sin_le ht.le])]
    rcases le_or_gt t 1 with h | h
    · have := Real.sin_gt_sub_cube ht
      have h3 : t ^ 3 ≤ t ^ 2 := by nlinarith [sq_nonneg t]
      nlinarith [sq_nonneg t]
    · have := Real.neg_one_le_sin t
      nlinarith
  rcases lt_trichotomy t 0 with h | h | h
  · have := key (-t) (by linarith)
    rw [Real.sin_neg, ← abs_neg] at this
    rw [← neg_sq]
    convert this using 2
    ring
  · simp [h]
  · exact key t h

/-- `sin` is nearly linear. -/
theorem sin_near (x y : ℝ) : |Real.sin x - (Real.sin y + Real.cos y * (x - y))| ≤ 3 * (x - y) ^ 2 := by
  obtain ⟨t, rfl⟩ : ∃ t, x = y + t := ⟨x - y, by ring⟩
  have e : Real.sin (y + t) - (Real.sin y + Real.cos y * (y + t - y)) = Real.sin y * (Real.cos t - 1) + Real.cos y * (Real.sin t - t) := by
    rw [Real.sin_add]; ring
  rw [e, add_sub_cancel_left]
  have h1 : |Real.cos t - 1| ≤ t ^ 2 / 2 := by
    rw [abs_of_nonpos (by linarith [Real.cos_le_one t])]
    linarith [Real.one_sub_sq_div_two_le_cos (x := t)]
  have h2 := sin_sub_bound t
  have h3 : |Real.sin y * (Real.cos t - 1)| ≤ t ^ 2 / 2 := by
    rw [abs_mul]
    calc _ ≤ 1 * (t ^ 2 / 2) := mul_le_mul (Real.abs_sin_le_one y) h1 (abs_nonneg _) zero_le_one
      _ = _ := one_mul _
  have h4 : |Real.cos y * (Real.sin t - t)| ≤ 2 * t ^ 2 := by
    rw [abs_mul]
    calc _ ≤ 1 * (2 * t ^ 2) := mul_le_mul (Real.abs_cos_le_one y) h2 (abs_nonneg _) zero_le_one
      _ = _ := one_mul _
  have := abs_add_le (Real.sin y * (Real.cos t - 1)) (Real.cos y * (Real.sin t - t))
  nlinarith [sq_nonneg t]

theorem cos_near (x y : ℝ) : |Real.cos x| - |x - y| ≤ |Real.cos y| := by
  have h := Real.abs_cos_sub_cos_le x y
  have := abs_sub_abs_le_abs_sub (Real.cos x) (Real.cos y)
  linarith

/-- The pendulum model is nearly linear around every state. -/
theorem pend_nearLinear (dt g c rk z d : ℝ) (hdt : 0 < dt) (x x' : Fin 2 → ℝ) :
    NearLinear (1 + dt + |g| * dt) (3 * (1 + |g| * dt)) d (pendStep dt g c rk z) x x' := by
  have hg : 0 ≤ |g| * dt := by positivity
  have hsq : ∀ (x y : Fin 2 → ℝ), (x 0 - y 0) ^ 2 ≤ ‖x - y‖ ^ 2 := fun x y => by
    rw [← sq_abs]
    exact pow_le_pow_left₀ (abs_nonneg _) (norm_le_pi_norm (x - y) 0) 2
  refine ⟨fun y _ i j => ?_, fun y _ i j => ?_, fun y _ => ?_, fun y _ => ?_⟩
  · have h1 : |-g * Real.cos (y 0) * dt| ≤ |g| * dt := by
      rw [abs_mul, abs_mul, abs_neg, abs_of_pos hdt]
      have := mul_le_mul_of_nonneg_left (Real.abs_cos_le_one (y 0)) (abs_nonneg g)
      exact mul_le_mul_of_nonneg_right (by linarith) hdt.le
    fin_cases i <;> fin_cases j
    · show |(1 : ℝ)| ≤ _
      rw [abs_one]; linarith
    · show |dt| ≤ _
      rw [abs_of_pos hdt]; linarith
    · show |-g * Real.cos (y 0) * dt| ≤ _
      linarith
    · show |(1 : ℝ)| ≤ _
      rw [abs_one]; linarith
  · have h1 := Real.abs_cos_le_one (y 0)
    fin_cases i
    fin_cases j
    · show |Real.cos (y 0)| ≤ _
      linarith
    · show |(0 : ℝ)| ≤ _
      rw [abs_zero]; linarith
  · have h2 := hsq x y
    have h3 := sq_nonneg ‖x - y‖
    refine (pi_norm_le_iff_of_nonneg (by positivity)).2 fun i => ?_
    rw [Real.norm_eq_abs]
    fin_cases i
    · have e : (((pendStep dt g c rk z).f x - ((pendStep dt g c rk z).f y + (pendStep dt g c rk z).jA y *ᵥ (x - y))) 0 : ℝ) = 0 := by
        simp [pendStep, Matrix.mulVec, dotProduct]
        ring
      show |((pendStep dt g c rk z).f x - ((pendStep dt g c rk z).f y + (pendStep dt g c rk z).jA y *ᵥ (x - y))) 0| ≤ _
      rw [e, abs_zero]
      positivity
    · have e : (((pendStep dt g c rk z).f x - ((pendStep dt g c rk z).f y + (pendStep dt g c rk z).jA y *ᵥ (x - y))) 1 : ℝ) =
          -(g * dt) * (Real.sin (x 0) - (Real.sin (y 0) + Real.cos (y 0) * (x 0 - y 0))) := by
        simp [pendStep, Matrix.mulVec, dotProduct]
        ring
      show |((pendStep dt g c rk z).f x - ((pendStep dt g c rk z).f y + (pendStep dt g c rk z).jA y *ᵥ (x - y))) 1| ≤ _
      rw [e, abs_mul, abs_neg, abs_mul, abs_of_pos hdt]
      have h4 := mul_le_mul_of_nonneg_left ((sin_near (x 0) (y 0)).trans (mul_le_mul_of_nonneg_left h2 (by norm_num))) hg
      linarith
  · have h2 := hsq x' y
    refine (pi_norm_le_iff_of_nonneg (by positivity)).2 fun i => ?_
    rw [Real.norm_eq_abs]
    fin_cases i
    have e : (((pendStep dt g c rk z).h x' - ((pendStep dt g c rk z).h y + (pendStep dt g c rk z).jH y *ᵥ (x' - y))) 0 : ℝ) =
        Real.sin (x' 0) - (Real.sin (y 0) + Real.cos (y 0) * (x' 0 - y 0)) := by
      simp [pendStep, Matrix.mulVec, dotProduct]
    show |((pendStep dt g c rk z).h x' - ((pendStep dt g c rk z).h y + (pendStep dt g c rk z).jH y *ᵥ (x' - y))) 0| ≤ _
    rw [e]
    have h4 := sin_near (x' 0) (y 0)
    have h3 : 0 ≤ |g| * dt * ‖x' - y‖ ^ 2 := by positivity
    linarith

/-- The covariance of the pendulum example stays bounded where the pendulum is not (nearly) horizontal. -/
theorem pend_cov_upper (dt g c rk p c₀ : ℝ) (hdt : 0 < dt) (hc : 0 < c) (hr : 0 < rk) (hp : 0 < p) (hc₀ : 0 < c₀) :
    ∃ p' : ℝ, p ≤ p' ∧ ∀ (b : Belief 2) (zs : List ℝ) (x : ℕ → Fin 2 → ℝ), (p • (1 : Matrix (Fin 2) (Fin 2) ℝ) - b.P).PosSemidef →
      (∀ k < zs.length, c₀ ≤ |Real.cos (x (k + 1) 0)|) →
      ∀ j : ℕ, (∀ i, i ≤ j → NearAt (c₀ / 2) b (zs.map (pendStep dt g c rk)) x i) → ∀ (s : ExtStep 2 1) (b' : Belief 2),
        (zs.map (pendStep dt g c rk))[j]? = some s → (b :: extFiltered b (zs.map (pendStep dt g c rk)))[j]? = some b' →
        (p' • (1 : Matrix (Fin 2) (Fin 2) ℝ) - (s.next b').P).PosSemidef := by
  obtain ⟨q, hq, hQ⟩ := exists_upper (pendQ_posDef hdt hc g rk 0).posSemidef
  obtain ⟨r, hr', hR⟩ := exists_upper (posDef_one hr).posSemidef
  obtain ⟨a, ha⟩ : ∃ a, a = 1 + dt + |g| * dt := ⟨_, rfl⟩
  have hgd : 0 ≤ |g| * dt := by positivity
  have ha0 : 0 ≤ a := by rw [ha]; positivity
  obtain ⟨l, hl⟩ : ∃ l, l = (2 / c₀) * (1 + 1 / dt) := ⟨_, rfl⟩
  have hl0 : 0 ≤ l := by rw [hl]; positivity
  obtain ⟨ψ, hψ⟩ : ∃ ψ, ψ = 1 + 1 / dt + |g| * dt := ⟨_, rfl⟩
  have hψ0 : 0 ≤ ψ := by rw [hψ]; positivity
  have hidt : 0 < 1 / dt := by positivity
  obtain ⟨W, hW⟩ : ∃ W : ℝ, W = q * ((2 : ℕ) * (ψ * (2 : ℕ)) ^ 2) + r * ((1 : ℕ) * (l * (2 : ℕ)) ^ 2) := ⟨_, rfl⟩
  have hW0 : 0 ≤ W := by rw [hW]; positivity
  refine ⟨p + (p * ((2 : ℕ) * (a * (2 : ℕ)) ^ 2) + q) + (W * ((2 : ℕ) * (ψ * (2 : ℕ)) ^ 2) + W), ?_, ?_⟩
  · have h1 : 0 ≤ p * ((2 : ℕ) * (a * (2 : ℕ)) ^ 2) + q := by positivity
    have h2 : 0 ≤ W * ((2 : ℕ) * (ψ * (2 : ℕ)) ^ 2) + W := by positivity
    linarith
  intro b zs x hbp hcos j hnear s b' hs hb'
  rw [List.getElem?_map] at hs
  obtain ⟨z, hz, rfl⟩ := Option.map_eq_some_iff.1 hs
  cases j with
  | zero =>
    simp only [List.getElem?_cons_zero, Option.some.injEq] at hb'
    subst hb'
    obtain ⟨hP, -⟩ := hnear 0 le_rfl (pendStep dt g c rk z) b (by rw [List.getElem?_map, hz]; rfl) rfl
    have h1 := next_cov_le (s := pendStep dt g c rk z) (b := b) hP.posSemidef (pendQ_posDef hdt hc g rk z).posSemidef (posDef_one hr) 0
    have e : josephCov (0 : Matrix (Fin 2) (Fin 1) ℝ) ((pendStep dt g c rk z).jH ((pendStep dt g c rk z).f b.x))
        (pendStep dt g c rk z).Q (pendStep dt g c rk z).R = (pendStep dt g c rk z).Q := by simp [josephCov]
    rw [e, Matrix.zero_mul, sub_zero, Matrix.one_mul] at h1
    have h2 := upper_add (le_conj hp.le hbp ha0 (fun i j => by
      rw [ha]; exact (pend_nearLinear dt g c rk z 1 hdt b.x b.x).jA b.x (by simp) i j)) hQ
    refine psd_trans h1 (upper_mono ?_ h2)
    have h2 : 0 ≤ W * ((2 : ℕ) * (ψ * (2 : ℕ)) ^ 2) + W := by positivity
    linarith
  | succ j =>
    obtain ⟨z₁, hz₁⟩ : ∃ z₁, zs[j]? = some z₁ := by
      have := (List.getElem?_eq_some_iff.1 hz).1
      exact ⟨_, List.getElem?_eq_getElem (by omega)⟩
    have hs₁ : (zs.map (pendStep dt g c rk))[j]? = some (pendStep dt g c rk z₁) := by rw [List.getElem?_map, hz₁]; rfl
    obtain ⟨b₁, hb₁⟩ : ∃ b₁, (b :: extFiltered b (zs.map (pendStep dt g c rk)))[j]? = some b₁ := by
      have := (List.getElem?_eq_some_iff.1 hb').1
      exact ⟨_, List.getElem?_eq_getElem (by omega)⟩
    have e := extFiltered_succ b _ j _ b₁ hs₁ hb₁
    rw [List.getElem?_cons_succ, e, Option.some.injEq] at hb'
    subst hb'
    obtain ⟨hP₁, -, hn₁⟩ := hnear j (by omega) _ b₁ hs₁ hb₁
    obtain ⟨hP₂, -, hn₂⟩ := hnear (j + 1) le_rfl (pendStep dt g c rk z) _ (by rw [List.getElem?_map, hz]; rfl)
      (by rw [List.getElem?_cons_succ]; exact e)
    have hcos' : ∀ (i : ℕ) (y : Fin 2 → ℝ), i < zs.length → ‖x (i + 1) - y‖ ≤ c₀ / 2 → c₀ / 2 ≤ |Real.cos (y 0)| := fun i y hi hy => by
      have h1 := cos_near (x (i + 1) 0) (y 0)
      have h2 := hcos i hi
      have h3 := norm_le_pi_norm (x (i + 1) - y) 0
      rw [Real.norm_eq_abs, Pi.sub_apply] at h3
      linarith
    have c1 := hcos' j _ (List.getElem?_eq_some_iff.1 hz₁).1 hn₁
    have c2 := hcos' (j + 1) _ (List.getElem?_eq_some_iff.1 hz).1 hn₂
    obtain ⟨b₂, hb₂⟩ : ∃ b₂, b₂ = (pendStep dt g c rk z₁).next b₁ := ⟨_, rfl⟩
    obtain ⟨k₁, hk₁⟩ : ∃ k₁, k₁ = Real.cos (((pendStep dt g c rk z₁).f b₁.x) 0) := ⟨_, rfl⟩
    obtain ⟨k₂, hk₂⟩ : ∃ k₂, k₂ = Real.cos (((pendStep dt g c rk z).f b₂.x) 0) := ⟨_, rfl⟩
    rw [← hb₂, ← hk₂] at c2
    rw [← hk₁] at c1
    have k10 : k₁ ≠ 0 := fun h => by rw [h, abs_zero] at c1; linarith
    have k20 : k₂ ≠ 0 := fun h => by rw [h, abs_zero] at c2; linarith
    have i1 : |1 / k₁| ≤ 2 / c₀ := by
      rw [abs_div, abs_one, div_le_div_iff₀ (by positivity) hc₀]; linarith
    have i2 : |1 / k₂| ≤ 2 / c₀ := by
      rw [abs_div, abs_one, div_le_div_iff₀ (by positivity) hc₀]; linarith
    have hH₁ : (pendStep dt g c rk z₁).jH ((pendStep dt g c rk z₁).f b₁.x) = !![k₁, 0] := by rw [hk₁]; rfl
    have hH₂ : (pendStep dt g c rk z).jH ((pendStep dt g c rk z).f b₂.x) = !![k₂, 0] := by rw [hk₂]; rfl
    have d1 : (1 : Matrix (Fin 2) (Fin 2) ℝ) - !![1 / k₁; 0] * !![k₁, 0] = !![0, 0; 0, 1] := by
      ext i j; fin_cases i <;> fin_cases j <;> simp [k10]
    have d2 : (1 : Matrix (Fin 2) (Fin 2) ℝ) - !![1 / k₂; 1 / (k₂ * dt)] * !![k₂, 0] = !![0, 0; -(1 / dt), 1] := by
      ext i j; fin_cases i <;> fin_cases j <;> simp [k20]
    have hΨ : !![0, 0; -(1 / dt), 1] * (pendStep dt g c rk z).jA b₂.x = !![0, 0; -(1 / dt) + -g * Real.cos (b₂.x 0) * dt, 0] := by
      ext i j; fin_cases i <;> fin_cases j <;> simp [pendStep, Matrix.mul_apply, Fin.sum_univ_two, hdt.ne']
    have key := two_step_upper (s₁ := pendStep dt g c rk z₁) (s₂ := pendStep dt g c rk z) (b := b₁) hP₁.posSemidef hP₂.posSemidef
      (pendQ_posDef hdt hc g rk z₁).posSemidef (posDef_one hr) (pendQ_posDef hdt hc g rk z).posSemidef (posDef_one hr)
      !![1 / k₁; 0] !![1 / k₂; 1 / (k₂ * dt)] (by
        rw [← hb₂, hH₁, hH₂, d1, d2, hΨ]
        ext i j; fin_cases i <;> fin_cases j <;> simp [Matrix.mul_apply, Fin.sum_univ_two])
    rw [← hb₂] at key ⊢
    rw [hH₁, hH₂, d2, hΨ] at key
    have hgc : |-g * Real.cos (b₂.x 0) * dt| ≤ |g| * dt := by
      rw [abs_mul, abs_mul, abs_neg, abs_of_pos hdt]
      have := mul_le_mul_of_nonneg_left (Real.abs_cos_le_one (b₂.x 0)) (abs_nonneg g)
      exact mul_le_mul_of_nonneg_right (by linarith) hdt.le
    have b1 : ∀ i j, |(!![1 / k₁; 0] : Matrix (Fin 2) (Fin 1) ℝ) i j| ≤ l := by
      have h1 : 2 / c₀ ≤ l := by
        rw [hl]; exact le_mul_of_one_le_right (by positivity) (by linarith)
      intro i j; fin_cases j; fin_cases i
      · exact i1.trans h1
      · show |(0 : ℝ)| ≤ l
        rwa [abs_zero]
    have b2 : ∀ i j, |(!![1 / k₂; 1 / (k₂ * dt)] : Matrix (Fin 2) (Fin 1) ℝ) i j| ≤ l := by
      have h1 : 2 / c₀ ≤ l := by
        rw [hl]; exact le_mul_of_one_le_right (by positivity) (by linarith)
      intro i j; fin_cases j; fin_cases i
      · exact i2.trans h1
      · show |1 / (k₂ * dt)| ≤ l
        rw [hl, ← one_div_mul_one_div, abs_mul, abs_of_pos hidt]
        exact mul_le_mul i2 (by linarith) hidt.le (by positivity)
    have b3 : ∀ i j, |(!![0, 0; 0, 1] : Matrix (Fin 2) (Fin 2) ℝ) i j| ≤ ψ := by
      intro i j; fin_cases i <;> fin_cases j <;> simp <;> linarith
    have b4 : ∀ i j, |(!![0, 0; -(1 / dt), 1] : Matrix (Fin 2) (Fin 2) ℝ) i j| ≤ ψ := by
      intro i j; fin_cases i <;> fin_cases j
      · show |(0 : ℝ)| ≤ ψ
        rwa [abs_zero]
      · show |(0 : ℝ)| ≤ ψ
        rwa [abs_zero]
      · show |-(1 / dt)| ≤ ψ
        rw [abs_neg, abs_of_pos hidt]; linarith
      · show |(1 : ℝ)| ≤ ψ
        rw [abs_one]; linarith
    have b5 : ∀ i j, |(!![0, 0; -(1 / dt) + -g * Real.cos (b₂.x 0) * dt, 0] : Matrix (Fin 2) (Fin 2) ℝ) i j| ≤ ψ := by
      intro i j; fin_cases i <;> fin_cases j
      · show |(0 : ℝ)| ≤ ψ
        rwa [abs_zero]
      · show |(0 : ℝ)| ≤ ψ
        rwa [abs_zero]
      · show |-(1 / dt) + -g * Real.cos (b₂.x 0) * dt| ≤ ψ
        have := abs_add_le (-(1 / dt)) (-g * Real.cos (b₂.x 0) * dt)
        rw [abs_neg, abs_of_pos hidt] at this
        linarith
      · show |(0 : ℝ)| ≤ ψ
        rwa [abs_zero]
    have u1 := joseph_upper (L := !![1 / k₁; 0]) (H := !![k₁, 0]) hq.le hr'.le hψ0 hl0 hQ hR (by rw [d1]; exact b3) b1
    have u2 := joseph_upper (L := !![1 / k₂; 1 / (k₂ * dt)]) (H := !![k₂, 0]) hq.le hr'.le hψ0 hl0 hQ hR (by rw [d2]; exact b4) b2
    rw [← hW] at u1 u2
    have h2 := upper_add (le_conj hW0 u1 hψ0 b5) u2
    refine psd_trans key (upper_mono ?_ h2)
    have : 0 ≤ p * ((2 : ℕ) * (a * (2 : ℕ)) ^ 2) + q := by positivity
    linarith

end Examples

variable [Platform]

/-- C117: noise covariances `Q ≥ q`, `R ≥ r`, an initial covariance between `q` and `p`, and bounds `a`, `κ`, `d` on the model near
the true states.  There are `ε`, `C` and `ρ < 1`, depending only on these bounds, such that whatever the true states `x 0, x 1, ...`
of the system, with the disturbances `w` of the transitions and the errors `v` of the measurements - no statistics assumed -
are: if disturbances and errors are at most `D ≤ ε`, the initial estimate is off by at most `r₀ ≤ ε`, and the covariances
returned up to step `k` are at most `p`, then the estimate returned for step `k` is off by at most `C ρ^(k+1) r₀ + C D`. -/
theorem C117_observer (q r a p κ d : ℝ) (hq : 0 < q) (hr : 0 < r) (ha : 0 ≤ a) (hp : 0 < p) (hκ : 0 ≤ κ) (hd : 0 < d) :
    ∃ ε C ρ : ℝ, 0 < ε ∧ 0 < ρ ∧ ρ < 1 ∧
      ∀ (kf : ExtendedKalmanFilter Fl) (Z : NDArray Fl) (U : Option (NDArray Fl)) (b : Belief n) (ss : List (ExtStep n m)),
        ExtRepresents kf Z U b ss → Between q p b.P →
        (∀ s ∈ ss, (s.Q - q • (1 : Matrix (Fin n) (Fin n) ℝ)).PosSemidef ∧
          (s.R - r • (1 : Matrix (Fin m) (Fin m) ℝ)).PosSemidef) →
        ∃ (bs : List (Belief n)) (Ks : List (Matrix (Fin n) (Fin m) ℝ)), ExtFilterReturns kf Z U bs Ks ∧ bs.length = ss.length ∧
          ∀ (x w : ℕ → Fin n → ℝ) (v : ℕ → Fin m → ℝ) (r₀ D : ℝ), 0 ≤ D → D ≤ ε → 0 ≤ r₀ → r₀ ≤ ε →
            (∀ (k : ℕ) (s : ExtStep n m), ss[k]? = some s →
              x (k + 1) = s.f (x k) + w k ∧ s.z = s.h (x (k + 1)) + v k ∧ (∀ i, |w k i| ≤ D) ∧ (∀ i, |v k i| ≤ D) ∧
              NearLinear a κ d s (x k) (x (k + 1))) →
            (∀ i, |b.x i - x 0 i| ≤ r₀) →
            ∀ k : ℕ, (∀ (j : ℕ) (b' : Belief n), j ≤ k → bs[j]? = some b' →
                (p • (1 : Matrix (Fin n) (Fin n) ℝ) - b'.P).PosSemidef) →
              ∀ b', bs[k]? = some b' → ∀ i, |b'.x i - x (k + 1) i| ≤ C * ρ ^ (k + 1) * r₀ + C * D := by
  obtain ⟨ε, C, ρ, hε, hC, hρ, hρ1, key⟩ := norm_observer n m hq hr ha hp hκ hd
  refine ⟨ε, C, ρ, hε, hρ, hρ1, fun kf Z U b ss hrep hb hQR => ?_⟩
  have hs := extSolvable_psd (posDef_of_lower hq hb.1).posSemidef (fun s h => (posDef_of_lower hq (hQR s h).1).posSemidef)
    (fun s h => posDef_of_lower hr (hQR s h).2)
  refine ⟨_, _, hrep.returns hs, extFiltered_length b ss, fun x w v r₀ D hD hDε hr₀ hr₀ε hdat h0 k hcov b' hb' => ?_⟩
  have hfin := key ss b x w v r₀ D (fun j s hj => by
    obtain ⟨h1, h2, h3, h4, h5⟩ := hdat j s hj
    have hm := hQR s (List.mem_of_getElem? hj)
    exact ⟨h5, h1, h2, (abs_le_iff_norm hD).1 h3, (abs_le_iff_norm hD).1 h4, hm.1, hm.2⟩) hD hDε hb
    ((abs_le_iff_norm hr₀).1 fun i => by rw [Pi.sub_apply, abs_sub_comm]; exact h0 i) hr₀ε k
    (fun j hj _ s b'' h1 h2 => hcov j _ hj (extFiltered_succ b ss j s b'' h1 h2)) b' hb'
  have := (abs_le_iff_norm ((norm_nonneg _).trans hfin)).2 hfin
  intro i
  have h := this i
  rwa [Pi.sub_apply, abs_sub_comm] at h

/-- C117 (every state can be read off one measurement): if moreover, near the true states, the Jacobian of `h` has a left inverse with
entries at most `l`, and `R ≤ t`, nothing need be assumed about the covariances. -/
theorem C117_full_state (q r a p κ d l t : ℝ) (hq : 0 < q) (hr : 0 < r) (ha : 0 ≤ a) (hp : 0 < p) (hκ : 0 ≤ κ) (hd : 0 < d)
    (hl : 0 ≤ l) (ht : 0 ≤ t) :
    ∃ ε C ρ : ℝ, 0 < ε ∧ 0 < ρ ∧ ρ < 1 ∧
      ∀ (kf : ExtendedKalmanFilter Fl) (Z : NDArray Fl) (U : Option (NDArray Fl)) (b : Belief n) (ss : List (ExtStep n m)),
        ExtRepresents kf Z U b ss → Between q p b.P →
        (∀ s ∈ ss, (s.Q - q • (1 : Matrix (Fin n) (Fin n) ℝ)).PosSemidef ∧ Between r t s.R) →
        ∃ (bs : List (Belief n)) (Ks : List (Matrix (Fin n) (Fin m) ℝ)), ExtFilterReturns kf Z U bs Ks ∧ bs.length = ss.length ∧
          ∀ (x w : ℕ → Fin n → ℝ) (v : ℕ → Fin m → ℝ) (r₀ D : ℝ), 0 ≤ D → D ≤ ε → 0 ≤ r₀ → r₀ ≤ ε →
            (∀ (k : ℕ) (s : ExtStep n m), ss[k]? = some s →
              x (k + 1) = s.f (x k) + w k ∧ s.z = s.h (x (k + 1)) + v k ∧ (∀ i, |w k i| ≤ D) ∧ (∀ i, |v k i| ≤ D) ∧
              NearLinear a κ d s (x k) (x (k + 1)) ∧
              ∀ y, ‖x (k + 1) - y‖ ≤ d → ∃ L : Matrix (Fin n) (Fin m) ℝ, L * s.jH y = 1 ∧ ∀ i j, |L i j| ≤ l) →
            (∀ i, |b.x i - x 0 i| ≤ r₀) →
            ∀ (k : ℕ) (b' : Belief n), bs[k]? = some b' → ∀ i, |b'.x i - x (k + 1) i| ≤ C * ρ ^ (k + 1) * r₀ + C * D := by
  obtain ⟨p', hp'⟩ : ∃ p', p' = max p (t * (m * (l * n) ^ 2)) := ⟨_, rfl⟩
  have hpp : p ≤ p' := hp' ▸ le_max_left _ _
  have hpp' : t * (m * (l * n) ^ 2) ≤ p' := hp' ▸ le_max_right _ _
  have hp0 : 0 < p' := hp.trans_le hpp
  obtain ⟨ε, C, ρ, hε, hC, hρ, hρ1, key⟩ := norm_observer n m hq hr ha hp0 hκ hd
  refine ⟨ε, C, ρ, hε, hρ, hρ1, fun kf Z U b ss hrep hb hQR => ?_⟩
  have hs := extSolvable_psd (posDef_of_lower hq hb.1).posSemidef (fun s h => (posDef_of_lower hq (hQR s h).1).posSemidef)
    (fun s h => posDef_of_lower hr (hQR s h).2.1)
  refine ⟨_, _, hrep.returns hs, extFiltered_length b ss, fun x w v r₀ D hD hDε hr₀ hr₀ε hdat h0 k b' hb' => ?_⟩
  have hfin := key ss b x w v r₀ D (fun j s hj => by
    obtain ⟨h1, h2, h3, h4, h5, -⟩ := hdat j s hj
    have hm := hQR s (List.mem_of_getElem? hj)
    exact ⟨h5, h1, h2, (abs_le_iff_norm hD).1 h3, (abs_le_iff_norm hD).1 h4, hm.1, hm.2.1⟩) hD hDε
    ⟨hb.1, upper_mono hpp hb.2⟩
    ((abs_le_iff_norm hr₀).1 fun i => by rw [Pi.sub_apply, abs_sub_comm]; exact h0 i) hr₀ε k
    (fun j hj hn s b'' h1 h2 => by
      obtain ⟨hP, -, hnear⟩ := hn j le_rfl s b'' h1 h2
      obtain ⟨L, hL, hLl⟩ := (hdat j s h1).2.2.2.2.2 _ hnear
      obtain ⟨hQ, hR⟩ := hQR s (List.mem_of_getElem? h1)
      have hle := next_cov_le hP.posSemidef (posDef_of_lower hq hQ).posSemidef (posDef_of_lower hr hR.1) L
      rw [josephCov, hL, sub_self, Matrix.zero_mul, Matrix.zero_mul, Matrix.zero_mul, Matrix.zero_mul, Matrix.zero_mul,
        zero_add, zero_add] at hle
      exact psd_trans hle (upper_mono hpp' (le_conj ht hR.2 hl hLl))) b' hb'
  have := (abs_le_iff_norm ((norm_nonneg _).trans hfin)).2 hfin
  intro i
  have h := this i
  rwa [Pi.sub_apply, abs_sub_comm] at h

/-- C117 (the pendulum example of the repository): for every time step, gravity, noise scale, variance and initial covariance
there are `ε`, `C` and `ρ < 1` such that for any initial estimate and any number of measurements `filter` returns estimates that
follow the true angle and angular velocity of the pendulum - with disturbances and measurement errors at most `D ≤ ε`, an
initial error at most `r₀ ≤ ε`, and as long as the pendulum is not nearly horizontal, `|cos| ≥ c₀` - up to
`C ρ^(k+1) r₀ + C D`. -/
theorem C117_pendulum (dt g c p rk c₀ : ℝ) (hdt : 0 < dt) (hc : 0 < c) (hp : 0 < p) (hr : 0 < rk) (hc₀ : 0 < c₀) :
    ∃ ε C ρ : ℝ, 0 < ε ∧ 0 < ρ ∧ ρ < 1 ∧ ∀ (a0 a1 : ℝ) (dtype : DType) (zs : List ℝ),
      ∃ kf, Examples.pendulum dt g c p rk a0 a1 zs.length = .ok kf ∧
        ∃ (bs : List (Belief 2)) (Ks : List (Matrix (Fin 2) (Fin 1) ℝ)),
          ExtFilterReturns kf (Examples.data dtype zs) none bs Ks ∧ bs.length = zs.length ∧
          ∀ (θ ω w₁ w₂ v : ℕ → ℝ) (r₀ D : ℝ), 0 ≤ D → D ≤ ε → 0 ≤ r₀ → r₀ ≤ ε →
            (∀ (k : ℕ) (z : ℝ), zs[k]? = some z → θ (k + 1) = θ k + dt * ω k + w₁ k ∧
              ω (k + 1) = ω k - g * dt * Real.sin (θ k) + w₂ k ∧ z = Real.sin (θ (k + 1)) + v k ∧
              |w₁ k| ≤ D ∧ |w₂ k| ≤ D ∧ |v k| ≤ D ∧ c₀ ≤ |Real.cos (θ (k + 1))|) →
            |a0 - θ 0| ≤ r₀ → |a1 - ω 0| ≤ r₀ →
            ∀ (k : ℕ) (b' : Belief 2), bs[k]? = some b' →
              |b'.x 0 - θ (k + 1)| ≤ C * ρ ^ (k + 1) * r₀ + C * D ∧ |b'.x 1 - ω (k + 1)| ≤ C * ρ ^ (k + 1) * r₀ + C * D := by
  obtain ⟨q₁, hq₁, hQ⟩ := exists_lower (Examples.pendQ_posDef hdt hc g rk 0)
  obtain ⟨r, hr', hR⟩ := exists_lower (posDef_one hr)
  obtain ⟨q, hqe⟩ : ∃ q, q = min q₁ p := ⟨_, rfl⟩
  have hq : 0 < q := hqe ▸ lt_min hq₁ hp
  have hQq := lower_mono (hqe ▸ min_le_left q₁ p) hQ
  obtain ⟨p', hpp, hcov⟩ := Examples.pend_cov_upper dt g c rk p c₀ hdt hc hr hp hc₀
  have hgd : 0 ≤ |g| * dt := by positivity
  obtain ⟨ε, C, ρ, hε, hC, hρ, hρ1, key⟩ := norm_observer 2 1 (a := 1 + dt + |g| * dt) (κ := 3 * (1 + |g| * dt)) (d := c₀ / 2)
    hq hr' (by positivity) (hp.trans_le hpp) (by positivity) (by positivity)
  refine ⟨ε, C, ρ, hε, hρ, hρ1, fun a0 a1 dtype zs => ?_⟩
  obtain ⟨kf, hk, hrep⟩ := Examples.pendulum_represents dt g c p rk a0 a1 dtype zs
  have hbP : (Examples.pendBelief p a0 a1).P = p • (1 : Matrix (Fin 2) (Fin 2) ℝ) := by
    ext i j; fin_cases i <;> fin_cases j <;> simp [Examples.pendBelief]
  have hup : (p • (1 : Matrix (Fin 2) (Fin 2) ℝ) - (Examples.pendBelief p a0 a1).P).PosSemidef := by
    rw [hbP, sub_self]; exact Matrix.PosSemidef.zero
  have hs := extSolvable_psd (b := Examples.pendBelief p a0 a1) (ss := zs.map (Examples.pendStep dt g c rk))
    (Examples.pendBelief_posDef hp a0 a1).posSemidef
    (fun s h => by obtain ⟨z, -, rfl⟩ := List.mem_map.1 h; exact (Examples.pendQ_posDef hdt hc g rk z).posSemidef)
    (fun s h => by obtain ⟨z, -, rfl⟩ := List.mem_map.1 h; exact posDef_one hr)
  refine ⟨kf, hk, _, _, hrep.returns hs, by rw [extFiltered_length, List.length_map],
    fun θ ω w₁ w₂ v r₀ D hD hDε hr₀ hr₀ε hdat h0 h1 k b' hb' => ?_⟩
  have hfin := key _ (Examples.pendBelief p a0 a1) (fun k => ![θ k, ω k]) (fun k => ![w₁ k, w₂ k]) (fun k => fun _ => v k) r₀ D
    (fun j s hj => by
      rw [List.getElem?_map] at hj
      obtain ⟨z, hz, rfl⟩ := Option.map_eq_some_iff.1 hj
      obtain ⟨e1, e2, e3, e4, e5, e6, -⟩ := hdat j z hz
      refine ⟨Examples.pend_nearLinear dt g c rk z _ hdt _ _, ?_, ?_, (abs_le_iff_norm hD).1 ?_, (abs_le_iff_norm hD).1 fun _ => e6,
        hQq, hR⟩
      · funext i; fin_cases i
        · simpa [Examples.pendStep] using e1
        · simpa [Examples.pendStep] using e2
      · funext i; simpa [Examples.pendStep] using e3
      · intro i; fin_cases i
        · exact e4
        · exact e5) hD hDε
    ⟨by
      rw [hbP]
      have := psd_smul (Matrix.PosDef.one (n := Fin 2) (R := ℝ)).posSemidef (sub_nonneg.2 (hqe ▸ min_le_right q₁ p : q ≤ p))
      rwa [sub_smul] at this, upper_mono hpp hup⟩
    ((abs_le_iff_norm hr₀).1 fun i => by
      rw [Pi.sub_apply, abs_sub_comm]
      fin_cases i
      · exact h0
      · exact h1) hr₀ε k
    (fun j _ hn s b'' e1 e2 => hcov _ zs _ hup (fun i hi => by
      exact (hdat i _ (List.getElem?_eq_getElem hi)).2.2.2.2.2.2) j hn s b'' e1 e2) b' hb'
  have := (abs_le_iff_norm ((norm_nonneg _).trans hfin)).2 hfin
  have f0 := this 0
  have f1 := this 1
  rw [Pi.sub_apply, abs_sub_comm] at f0 f1
  exact ⟨f0, f1⟩

/-! ### The hypotheses are met -/

/-- A pendulum at rest (`θ = ω = 0`), measured exactly, starting off the truth: all hypotheses of `C117_pendulum` on the data hold for
any number of measurements, and the estimates converge. -/
example (N : ℕ) : ∃ ε C ρ : ℝ, 0 < ε ∧ 0 < ρ ∧ ρ < 1 ∧ ∃ kf, Examples.pendulum 0.01 9.81 0.01 1 0.1 ε (-ε) N = .ok kf ∧
    ∃ (bs : List (Belief 2)) (Ks : List (Matrix (Fin 2) (Fin 1) ℝ)),
      ExtFilterReturns kf (Examples.data .float64 (List.replicate N 0)) none bs Ks ∧ bs.length = N ∧
      ∀ k b', bs[k]? = some b' → |b'.x 0| ≤ C * ρ ^ (k + 1) * ε ∧ |b'.x 1| ≤ C * ρ ^ (k + 1) * ε := by
  obtain ⟨ε, C, ρ, hε, h0, h1, key⟩ := C117_pendulum 0.01 9.81 0.01 1 0.1 1 (by norm_num) (by norm_num) (by norm_num) (by norm_num)
    (by norm_num)
  obtain ⟨kf, hk, bs, Ks, hret, hlen, hb⟩ := key ε (-ε) .float64 (List.replicate N 0)
  rw [List.length_replicate] at hk hlen
  refine ⟨ε, C, ρ, hε, h0, h1, kf, hk, bs, Ks, hret, hlen, fun k b' hb' => ?_⟩
  have := hb 0 0 0 0 0 ε 0 le_rfl hε.le hε.le le_rfl (fun k z hz => by
    obtain rfl := List.eq_of_mem_replicate (List.mem_of_getElem? hz)
    simp) (by simp [abs_of_pos hε]) (by simp [abs_of_pos hε]) k b' hb'
  simpa using this

/-- A scalar system `x ↦ x + sin x / 10` measured through `2 x + sin x`. -/
noncomputable def Ex.wavy (z : ℝ) : ExtStep 1 1 where
  f x := fun _ => x 0 + Real.sin (x 0) / 10
  jA x := !![1 + Real.cos (x 0) / 10]
  h x := fun _ => 2 * x 0 + Real.sin (x 0)
  jH x := !![2 + Real.cos (x 0)]
  Q := 1
  R := 1
  z := fun _ => z

theorem Ex.wavy_near (z d : ℝ) (x x' : Fin 1 → ℝ) : NearLinear 3 3 d (Ex.wavy z) x x' := by
  have hsq : ∀ (x y : Fin 1 → ℝ), (x 0 - y 0) ^ 2 ≤ ‖x - y‖ ^ 2 := fun x y => by
    rw [← sq_abs]
    exact pow_le_pow_left₀ (abs_nonneg _) (norm_le_pi_norm (x - y) 0) 2
  refine ⟨fun y _ i j => ?_, fun y _ i j => ?_, fun y _ => ?_, fun y _ => ?_⟩
  · fin_cases i; fin_cases j
    show |1 + Real.cos (y 0) / 10| ≤ 3
    have := Real.cos_le_one (y 0); have := Real.neg_one_le_cos (y 0)
    rw [abs_le]; constructor <;> linarith
  · fin_cases i; fin_cases j
    show |2 + Real.cos (y 0)| ≤ 3
    have := Real.cos_le_one (y 0); have := Real.neg_one_le_cos (y 0)
    rw [abs_le]; constructor <;> linarith
  · refine (pi_norm_le_iff_of_nonneg (by positivity)).2 fun i => ?_
    rw [Real.norm_eq_abs]
    fin_cases i
    have e : (((Ex.wavy z).f x - ((Ex.wavy z).f y + (Ex.wavy z).jA y *ᵥ (x - y))) 0 : ℝ) =
        (Real.sin (x 0) - (Real.sin (y 0) + Real.cos (y 0) * (x 0 - y 0))) / 10 := by
      simp [Ex.wavy, Matrix.mulVec, dotProduct]; ring
    show |((Ex.wavy z).f x - ((Ex.wavy z).f y + (Ex.wavy z).jA y *ᵥ (x - y))) 0| ≤ _
    rw [e, abs_div, abs_of_pos (by norm_num : (0 : ℝ) < 10)]
    have := Examples.sin_near (x 0) (y 0)
    have := hsq x y
    have := abs_nonneg (Real.sin (x 0) - (Real.sin (y 0) + Real.cos (y 0) * (x 0 - y 0)))
    linarith
  · refine (pi_norm_le_iff_of_nonneg (by positivity)).2 fun i => ?_
    rw [Real.norm_eq_abs]
    fin_cases i
    have e : (((Ex.wavy z).h x' - ((Ex.wavy z).h y + (Ex.wavy z).jH y *ᵥ (x' - y))) 0 : ℝ) =
        (Real.sin (x' 0) - (Real.sin (y 0) + Real.cos (y 0) * (x' 0 - y 0))) := by
      simp [Ex.wavy, Matrix.mulVec, dotProduct]; ring
    show |((Ex.wavy z).h x' - ((Ex.wavy z).h y + (Ex.wavy z).jH y *ᵥ (x' - y))) 0| ≤ _
    rw [e]
    have := Examples.sin_near (x' 0) (y 0)
    have := hsq x' y
    linarith

/-- The state of `Ex.wavy` can be read off one measurement, so C117_full_state applies to runs of any length whatever the true
trajectory. -/
example (zs : List ℝ) : ∃ ε C ρ : ℝ, 0 < ε ∧ 0 < ρ ∧ ρ < 1 ∧ ∀ (b : Belief 1), b.P = 1 →
    ∃ (kf : ExtendedKalmanFilter Fl) (Z : NDArray Fl) (U : Option (NDArray Fl)) (bs : List (Belief 1)) (Ks : List (Matrix (Fin 1) (Fin 1) ℝ)),
      ExtRepresents kf Z U b (zs.map Ex.wavy) ∧ ExtFilterReturns kf Z U bs Ks ∧ bs.length = zs.length ∧
      ∀ (x v : ℕ → ℝ) (r₀ D : ℝ), 0 ≤ D → D ≤ ε → 0 ≤ r₀ → r₀ ≤ ε →
        (∀ (k : ℕ) (z : ℝ), zs[k]? = some z → x (k + 1) = x k + Real.sin (x k) / 10 ∧
          z = 2 * x (k + 1) + Real.sin (x (k + 1)) + v k ∧ |v k| ≤ D) →
        |b.x 0 - x 0| ≤ r₀ → ∀ (k : ℕ) (b' : Belief 1), bs[k]? = some b' →
          |b'.x 0 - x (k + 1)| ≤ C * ρ ^ (k + 1) * r₀ + C * D := by
  obtain ⟨ε, C, ρ, hε, h0, h1, key⟩ := C117_full_state (n := 1) (m := 1) 1 1 3 1 3 1 1 1 one_pos one_pos (by norm_num) one_pos
    (by norm_num) one_pos zero_le_one zero_le_one
  have z0 : ((1 : Matrix (Fin 1) (Fin 1) ℝ) - (1 : ℝ) • (1 : Matrix (Fin 1) (Fin 1) ℝ)).PosSemidef := by
    rw [one_smul, sub_self]; exact Matrix.PosSemidef.zero
  have z1 : ((1 : ℝ) • (1 : Matrix (Fin 1) (Fin 1) ℝ) - (1 : Matrix (Fin 1) (Fin 1) ℝ)).PosSemidef := by
    rw [one_smul, sub_self]; exact Matrix.PosSemidef.zero
  refine ⟨ε, C, ρ, hε, h0, h1, fun b hb => ?_⟩
  obtain ⟨kf, Z, U, hrep⟩ := Ex.ext_exists (Ex.wavy 0) b (zs.map Ex.wavy) fun s hs => by
    obtain ⟨z, -, rfl⟩ := List.mem_map.1 hs
    exact ⟨rfl, rfl, rfl, rfl⟩
  obtain ⟨bs, Ks, hret, hlen, hall⟩ := key kf Z U b _ hrep (by rw [Between, hb]; exact ⟨z0, z1⟩) fun s hs => by
    obtain ⟨z, -, rfl⟩ := List.mem_map.1 hs
    exact ⟨z0, z0, z1⟩
  refine ⟨kf, Z, U, bs, Ks, hrep, hret, by rw [hlen, List.length_map], fun x v r₀ D hD hDε hr hrε hdat hb0 k b' hb' => ?_⟩
  refine hall (fun k => fun _ => x k) (fun _ => 0) (fun k => fun _ => v k) r₀ D hD hDε hr hrε (fun k s hs => ?_) (fun i => ?_) k b' hb' 0
  · rw [List.getElem?_map] at hs
    obtain ⟨z, hz, rfl⟩ := Option.map_eq_some_iff.1 hs
    obtain ⟨e1, e2, e3⟩ := hdat k z hz
    refine ⟨?_, ?_, fun _ => by simpa using hD, fun _ => e3, Ex.wavy_near z _ _ _, fun y _ => ?_⟩
    · funext i; simpa [Ex.wavy] using e1
    · funext i; simpa [Ex.wavy] using e2
    · have hy := Real.neg_one_le_cos (y 0)
      have hpos : 0 < 2 + Real.cos (y 0) := by linarith
      refine ⟨!![1 / (2 + Real.cos (y 0))], ?_, fun i j => ?_⟩
      · ext i j; fin_cases i; fin_cases j
        simp [Ex.wavy, Matrix.mul_apply, hpos.ne']
      · fin_cases i; fin_cases j
        show |1 / (2 + Real.cos (y 0))| ≤ 1
        rw [abs_of_pos (by positivity), div_le_one hpos]
        linarith
  · fin_cases i; exact hb0

end KK
