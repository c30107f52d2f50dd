import Verif.Proofs.Decay
import Verif.Props.Forgetting
import Verif.Props.ExtExact
import Verif.Spec.ExtObserver

/-! # The error of the extended filter near the true state -/

set_option linter.unusedSectionVars false

namespace KK

open Matrix

variable {n m : ℕ}

theorem posDef_of_lower {k : ℕ} {M : Matrix (Fin k) (Fin k) ℝ} {q : ℝ} (hq : 0 < q)
    (h : (M - q • (1 : Matrix (Fin k) (Fin k) ℝ)).PosSemidef) : M.PosDef := by
  have h1 : (q • (1 : Matrix (Fin k) (Fin k) ℝ)).PosDef := Matrix.PosDef.one.smul hq
  have := Matrix.PosDef.posSemidef_add h h1
  rwa [sub_add_cancel] at this

theorem lower_quad {k : ℕ} {M : Matrix (Fin k) (Fin k) ℝ} {q : ℝ}
    (h : (M - q • (1 : Matrix (Fin k) (Fin k) ℝ)).PosSemidef) (y : Fin k → ℝ) : q * (y ⬝ᵥ y) ≤ y ⬝ᵥ (M *ᵥ y) := by
  have h1 := h.dotProduct_mulVec_nonneg y
  rw [star_trivial, sub_mulVec, smul_mulVec, one_mulVec, dotProduct_sub, dotProduct_smul, smul_eq_mul] at h1
  linarith

theorem lower_of_quad {k : ℕ} {M : Matrix (Fin k) (Fin k) ℝ} (hM : Mᵀ = M) {q : ℝ}
    (h : ∀ y : Fin k → ℝ, q * (y ⬝ᵥ y) ≤ y ⬝ᵥ (M *ᵥ y)) : (M - q • (1 : Matrix (Fin k) (Fin k) ℝ)).PosSemidef := by
  refine Matrix.PosSemidef.of_dotProduct_mulVec_nonneg ?_ fun y => ?_
  · rw [Matrix.IsHermitian, conjTranspose_eq_transpose_of_trivial, transpose_sub, transpose_smul, transpose_one, hM]
  · rw [star_trivial, sub_mulVec, smul_mulVec, one_mulVec, dotProduct_sub, dotProduct_smul, smul_eq_mul]
    linarith [h y]

theorem dot_self_nonneg {k : ℕ} (y : Fin k → ℝ) : 0 ≤ y ⬝ᵥ y := Finset.sum_nonneg fun _ _ => mul_self_nonneg _

theorem dot_add_le {k : ℕ} (u v : Fin k → ℝ) : (u + v) ⬝ᵥ (u + v) ≤ 2 * (u ⬝ᵥ u) + 2 * (v ⬝ᵥ v) := by
  have := dot_self_nonneg (u - v)
  simp only [dotProduct_add, add_dotProduct, dotProduct_sub, sub_dotProduct, dotProduct_comm v u] at *
  linarith

theorem mulVec_dot_le {k l : ℕ} {M : Matrix (Fin k) (Fin l) ℝ} {a : ℝ} (ha : 0 ≤ a) (h : ∀ i j, |M i j| ≤ a) (v : Fin l → ℝ) :
    (M *ᵥ v) ⬝ᵥ (M *ᵥ v) ≤ k * (a * l) ^ 2 * (v ⬝ᵥ v) := by
  have h1 := dot_le_norm_sq (M *ᵥ v)
  have h2 := pow_le_pow_left₀ (norm_nonneg _) (mulVec_norm_le ha h v) 2
  have h3 := norm_sq_le_dot v
  have h4 : (a * l * ‖v‖) ^ 2 ≤ (a * l) ^ 2 * (v ⬝ᵥ v) := by
    rw [mul_pow]; exact mul_le_mul_of_nonneg_left h3 (by positivity)
  have h5 : (k : ℝ) * ‖M *ᵥ v‖ ^ 2 ≤ k * ((a * l) ^ 2 * (v ⬝ᵥ v)) :=
    mul_le_mul_of_nonneg_left (h2.trans h4) (by positivity)
  linarith

/-- The noise of one step never lets the covariance drop below a constant. -/
noncomputable def noiseFloor (n m : ℕ) (q r a : ℝ) : ℝ := (2 / q + 2 * (n * (a * m) ^ 2) / r)⁻¹

theorem noiseFloor_pos {q r a : ℝ} (hq : 0 < q) (hr : 0 < r) : 0 < noiseFloor n m q r a := by
  unfold noiseFloor; positivity

theorem joseph_lower {q r a : ℝ} (hq : 0 < q) (hr : 0 < r) (ha : 0 ≤ a) {K : Matrix (Fin n) (Fin m) ℝ}
    {H : Matrix (Fin m) (Fin n) ℝ} {Q : Matrix (Fin n) (Fin n) ℝ} {R : Matrix (Fin m) (Fin m) ℝ}
    (hH : ∀ i j, |H i j| ≤ a) (hQ : (Q - q • (1 : Matrix (Fin n) (Fin n) ℝ)).PosSemidef)
    (hR : (R - r • (1 : Matrix (Fin m) (Fin m) ℝ)).PosSemidef) :
    (josephCov K H Q R - noiseFloor n m q r a • (1 : Matrix (Fin n) (Fin n) ℝ)).PosSemidef := by
  have hQd := posDef_of_lower hq hQ
  have hRd := posDef_of_lower hr hR
  have hJ := josephCov_posSemidef (H := H) K hQd.posSemidef hRd.posSemidef
  refine lower_of_quad (IsHermitian.symm' hJ.1) fun y => ?_
  have e : y ⬝ᵥ (josephCov K H Q R *ᵥ y) = ((1 - K * H)ᵀ *ᵥ y) ⬝ᵥ (Q *ᵥ ((1 - K * H)ᵀ *ᵥ y)) + (Kᵀ *ᵥ y) ⬝ᵥ (R *ᵥ (Kᵀ *ᵥ y)) := by
    rw [josephCov, add_mulVec, dotProduct_add, quad_conj, quad_conj]
  have e1 : y = (1 - K * H)ᵀ *ᵥ y + Hᵀ *ᵥ (Kᵀ *ᵥ y) := by
    rw [transpose_sub, transpose_one, transpose_mul, sub_mulVec, one_mulVec, mulVec_mulVec, sub_add_cancel]
  obtain ⟨u, hu⟩ : ∃ u, u = (1 - K * H)ᵀ *ᵥ y := ⟨_, rfl⟩
  obtain ⟨v, hv⟩ : ∃ v, v = Kᵀ *ᵥ y := ⟨_, rfl⟩
  rw [← hu, ← hv] at e e1
  have h1 := lower_quad hQ u
  have h2 := lower_quad hR v
  have h3 := mulVec_dot_le (M := Hᵀ) ha (fun i j => hH j i) v
  have h4 := dot_add_le u (Hᵀ *ᵥ v)
  rw [← e1] at h4
  have hu0 := dot_self_nonneg u
  have hv0 := dot_self_nonneg v
  set c : ℝ := n * (a * m) ^ 2 with hc
  have hc0 : 0 ≤ c := by positivity
  rw [e, noiseFloor, ← hc, inv_mul_le_iff₀ (by positivity)]
  have h5 : 2 * (u ⬝ᵥ u) = 2 / q * (q * (u ⬝ᵥ u)) := by field_simp
  have h6 : 2 * (c * (v ⬝ᵥ v)) = 2 * c / r * (r * (v ⬝ᵥ v)) := by field_simp
  have h7 : 2 / q * (q * (u ⬝ᵥ u)) ≤ 2 / q * (u ⬝ᵥ (Q *ᵥ u)) := mul_le_mul_of_nonneg_left h1 (by positivity)
  have h8 : 2 * c / r * (r * (v ⬝ᵥ v)) ≤ 2 * c / r * (v ⬝ᵥ (R *ᵥ v)) := mul_le_mul_of_nonneg_left h2 (by positivity)
  have h9 : 0 ≤ 2 / q * (v ⬝ᵥ (R *ᵥ v)) := by
    have : 0 ≤ r * (v ⬝ᵥ v) := by positivity
    exact mul_nonneg (by positivity) (by linarith)
  have h10 : 0 ≤ 2 * c / r * (u ⬝ᵥ (Q *ᵥ u)) := by
    have : 0 ≤ q * (u ⬝ᵥ u) := by positivity
    exact mul_nonneg (by positivity) (by linarith)
  linarith

/-- A gain whose noise contribution is bounded is bounded. -/
theorem gain_le {p r : ℝ} (hr : 0 < r) {K : Matrix (Fin n) (Fin m) ℝ} {R : Matrix (Fin m) (Fin m) ℝ}
    (hR : (R - r • (1 : Matrix (Fin m) (Fin m) ℝ)).PosSemidef)
    (h : (p • (1 : Matrix (Fin n) (Fin n) ℝ) - K * R * Kᵀ).PosSemidef) (i : Fin n) (j : Fin m) : |K i j| ≤ Real.sqrt (p / r) := by
  refine Real.abs_le_sqrt ?_
  have h1 := h.dotProduct_mulVec_nonneg (Pi.single i 1)
  rw [star_trivial, sub_mulVec, smul_mulVec, one_mulVec, dotProduct_sub, dotProduct_smul, smul_eq_mul, quad_conj] at h1
  have h2 := lower_quad hR (Kᵀ *ᵥ Pi.single i 1)
  have h3 : (Pi.single i 1 : Fin n → ℝ) ⬝ᵥ Pi.single i 1 = 1 := by simp
  have h4 : K i j ^ 2 ≤ (Kᵀ *ᵥ Pi.single i 1) ⬝ᵥ (Kᵀ *ᵥ Pi.single i 1) := by
    have e : Kᵀ *ᵥ Pi.single i 1 = K i := by ext l; simp [Matrix.mulVec_single]
    rw [e, sq]
    exact Finset.single_le_sum (f := fun l => K i l * K i l) (fun l _ => mul_self_nonneg _) (Finset.mem_univ j)
  rw [h3] at h1
  rw [le_div_iff₀ hr]
  nlinarith

theorem mahal_add_le {P : Matrix (Fin n) (Fin n) ℝ} (hP : P.PosDef) {t : ℝ} (ht : 0 < t) (u v : Fin n → ℝ) :
    mahal P (u + v) ≤ (1 + t) * mahal P u + (1 + t⁻¹) * mahal P v := by
  have h := hP.inv.posSemidef.dotProduct_mulVec_nonneg (t • u - v)
  have hc : v ⬝ᵥ (P⁻¹ *ᵥ u) = u ⬝ᵥ (P⁻¹ *ᵥ v) := by
    rw [dotProduct_mulVec, ← mulVec_transpose, IsHermitian.symm' hP.inv.1, dotProduct_comm]
  rw [star_trivial] at h
  simp only [mahal, mulVec_add, mulVec_sub, mulVec_smul, dotProduct_add, add_dotProduct, dotProduct_sub, sub_dotProduct,
    dotProduct_smul, smul_dotProduct, smul_eq_mul, hc] at h ⊢
  have h2 := mul_nonneg (inv_pos.2 ht).le h
  have e2 : t⁻¹ * (t * (t * (u ⬝ᵥ (P⁻¹ *ᵥ u)) - u ⬝ᵥ (P⁻¹ *ᵥ v)) - (t * (u ⬝ᵥ (P⁻¹ *ᵥ v)) - v ⬝ᵥ (P⁻¹ *ᵥ v))) =
      t * (u ⬝ᵥ (P⁻¹ *ᵥ u)) - 2 * (u ⬝ᵥ (P⁻¹ *ᵥ v)) + t⁻¹ * (v ⬝ᵥ (P⁻¹ *ᵥ v)) := by
    field_simp; ring
  rw [e2] at h2
  linarith

/-! ### One step -/

section

variable {a κ d : ℝ} {s : ExtStep n m} {x x' : Fin n → ℝ} {b : Belief n}

/-- The error of the prediction. -/
theorem predict_error (ha : 0 ≤ a) (hκ : 0 ≤ κ) (h : NearLinear a κ d s x x') {w : Fin n → ℝ} (hx : x' = s.f x + w) {E D : ℝ}
    (hE : ‖x - b.x‖ ≤ E) (hE1 : E ≤ 1) (hEd : E ≤ d) (hw : ‖w‖ ≤ D) : ‖x' - s.f b.x‖ ≤ (n * a + κ) * E + D := by
  have hE0 := (norm_nonneg _).trans hE
  have h1 := h.f b.x (hE.trans hEd)
  have h2 := mulVec_norm_le ha (h.jA b.x (hE.trans hEd)) (x - b.x)
  have e : x' - s.f b.x = (s.f x - (s.f b.x + s.jA b.x *ᵥ (x - b.x))) + s.jA b.x *ᵥ (x - b.x) + w := by rw [hx]; abel
  rw [e]
  have h3 : κ * ‖x - b.x‖ ^ 2 ≤ κ * E := by
    refine mul_le_mul_of_nonneg_left ?_ hκ
    have := pow_le_pow_left₀ (norm_nonneg _) hE 2
    nlinarith
  have h4 : a * n * ‖x - b.x‖ ≤ a * n * E := mul_le_mul_of_nonneg_left hE (by positivity)
  refine (norm_add₃_le).trans ?_
  linarith

/-- The error of the estimate: the linear part and a remainder. -/
theorem next_error (ha : 0 ≤ a) (hκ : 0 ≤ κ) (h : NearLinear a κ d s x x') {w : Fin n → ℝ} {v : Fin m → ℝ} (hx : x' = s.f x + w)
    (hz : s.z = s.h x' + v) {E D g : ℝ} (hE : ‖x - b.x‖ ≤ E) (hE1 : E ≤ 1) (hEd : E ≤ d) (hw : ‖w‖ ≤ D) (hv : ‖v‖ ≤ D)
    (hD1 : D ≤ 1) (hd : (n * a + κ) * E + D ≤ d) (hg : 0 ≤ g) (hK : ∀ i j, |s.gain (s.predict b) i j| ≤ g) :
    ∃ η : Fin n → ℝ, x' - (s.next b).x =
        ((1 - s.gain (s.predict b) * s.jH (s.f b.x)) * s.jA b.x) *ᵥ (x - b.x) + η ∧
      ‖η‖ ≤ ((1 + g * m * (a * n)) * (κ + 1) + g * m * (2 * κ * ((n * a + κ) ^ 2 + 1) + 1)) * (E ^ 2 + D) := by
  have hE0 := (norm_nonneg _).trans hE
  have hD0 := (norm_nonneg _).trans hw
  have hp := predict_error ha hκ h hx hE hE1 hEd hw
  have hpd := hp.trans hd
  obtain ⟨K, hKe⟩ : ∃ K, K = s.gain (s.predict b) := ⟨_, rfl⟩
  obtain ⟨φ, hφ⟩ : ∃ φ, φ = s.f x - (s.f b.x + s.jA b.x *ᵥ (x - b.x)) := ⟨_, rfl⟩
  obtain ⟨χ, hχ⟩ : ∃ χ, χ = s.h x' - (s.h (s.f b.x) + s.jH (s.f b.x) *ᵥ (x' - s.f b.x)) := ⟨_, rfl⟩
  have h1 := h.f b.x (hE.trans hEd)
  have h2 := h.h (s.f b.x) hpd
  have hH := h.jH (s.f b.x) hpd
  rw [← hφ] at h1
  rw [← hχ] at h2
  rw [← hKe] at hK ⊢
  have hφ' : ‖φ + w‖ ≤ κ * E ^ 2 + D := by
    have := mul_le_mul_of_nonneg_left (pow_le_pow_left₀ (norm_nonneg _) hE 2) hκ
    have := norm_add_le φ w
    linarith
  have hχ' : ‖χ + v‖ ≤ κ * (2 * (n * a + κ) ^ 2 * E ^ 2 + 2 * D) + D := by
    have h3 := pow_le_pow_left₀ (norm_nonneg _) hp 2
    have h4 : ((n * a + κ) * E + D) ^ 2 ≤ 2 * (n * a + κ) ^ 2 * E ^ 2 + 2 * D := by
      nlinarith [sq_nonneg ((n * a + κ) * E - D)]
    have := mul_le_mul_of_nonneg_left (h3.trans h4) hκ
    have := norm_add_le χ v
    linarith
  refine ⟨(1 - K * s.jH (s.f b.x)) *ᵥ (φ + w) - K *ᵥ (χ + v), ?_, ?_⟩
  · have ex : x' = s.f b.x + s.jA b.x *ᵥ (x - b.x) + φ + w := by rw [hx, hφ]; abel
    have ez : s.z - s.h (s.f b.x) = s.jH (s.f b.x) *ᵥ (s.jA b.x *ᵥ (x - b.x) + φ + w) + χ + v := by
      have : x' - s.f b.x = s.jA b.x *ᵥ (x - b.x) + φ + w := by rw [ex]; abel
      rw [hz, ← this, hχ]; abel
    have en : (s.next b).x = s.f b.x + K *ᵥ (s.z - s.h (s.f b.x)) := by rw [hKe]; rfl
    rw [en, ez, ex, ← mulVec_mulVec]
    simp only [sub_mulVec, one_mulVec, mulVec_add, ← mulVec_mulVec]
    abel
  · have f1 : ‖(1 - K * s.jH (s.f b.x)) *ᵥ (φ + w)‖ ≤ (1 + g * m * (a * n)) * (κ * E ^ 2 + D) := by
      rw [sub_mulVec, one_mulVec, ← mulVec_mulVec]
      have g1 := mulVec_norm_le ha hH (φ + w)
      have g2 := mulVec_norm_le hg hK (s.jH (s.f b.x) *ᵥ (φ + w))
      have g3 : g * m * ‖s.jH (s.f b.x) *ᵥ (φ + w)‖ ≤ g * m * (a * n * ‖φ + w‖) := mul_le_mul_of_nonneg_left g1 (by positivity)
      have g4 : (1 + g * m * (a * n)) * ‖φ + w‖ ≤ (1 + g * m * (a * n)) * (κ * E ^ 2 + D) :=
        mul_le_mul_of_nonneg_left hφ' (by positivity)
      have := norm_sub_le (φ + w) (K *ᵥ (s.jH (s.f b.x) *ᵥ (φ + w)))
      linarith
    have f2 : ‖K *ᵥ (χ + v)‖ ≤ g * m * (κ * (2 * (n * a + κ) ^ 2 * E ^ 2 + 2 * D) + D) :=
      (mulVec_norm_le hg hK _).trans (mul_le_mul_of_nonneg_left hχ' (by positivity))
    have f3 : (1 + g * m * (a * n)) * (κ * E ^ 2 + D) ≤ (1 + g * m * (a * n)) * ((κ + 1) * (E ^ 2 + D)) := by
      refine mul_le_mul_of_nonneg_left ?_ (by positivity)
      nlinarith [sq_nonneg E, mul_nonneg hκ hD0]
    have f4 : g * m * (κ * (2 * (n * a + κ) ^ 2 * E ^ 2 + 2 * D) + D) ≤
        g * m * ((2 * κ * ((n * a + κ) ^ 2 + 1) + 1) * (E ^ 2 + D)) := by
      refine mul_le_mul_of_nonneg_left ?_ (by positivity)
      have : 0 ≤ κ * ((n * a + κ) ^ 2) * D := by positivity
      have : 0 ≤ κ * E ^ 2 := by positivity
      nlinarith [sq_nonneg E]
    have := norm_sub_le ((1 - K * s.jH (s.f b.x)) *ᵥ (φ + w)) (K *ᵥ (χ + v))
    linarith

/-- The covariance recursion as a linear map plus noise. -/
theorem next_cov (hP : b.P.PosSemidef) (hQ : s.Q.PosSemidef) (hR : s.R.PosDef) :
    (s.next b).P = ((1 - s.gain (s.predict b) * s.jH (s.f b.x)) * s.jA b.x) * b.P *
        ((1 - s.gain (s.predict b) * s.jH (s.f b.x)) * s.jA b.x)ᵀ +
      josephCov (s.gain (s.predict b)) (s.jH (s.f b.x)) s.Q s.R := by
  have hp := priorCov_posSemidef (A := s.jA b.x) hP hQ
  have hS := posDef_det_ne (innovCov_posDef (H := s.jH (s.f b.x)) hp hR)
  have e : (s.next b).P = postCov (s.jH (s.f b.x)) (priorCov (s.jA b.x) b.P s.Q) s.R := rfl
  have e' : s.gain (s.predict b) = kGain (s.jH (s.f b.x)) (priorCov (s.jA b.x) b.P s.Q) s.R := rfl
  rw [e, postCov_eq_joseph (IsHermitian.symm' hp.1) (IsHermitian.symm' hR.1) hS, ← e']
  simp only [josephCov, priorCov, transpose_mul, Matrix.mul_add, Matrix.add_mul, Matrix.mul_assoc]
  abel

end

theorem sq_mix (p V D : ℝ) : (p * V + D) ^ 2 ≤ 2 * (p ^ 2 + 1) * (V ^ 2 + D ^ 2) := by
  have h1 := sq_nonneg (p * V - D)
  have h2 := sq_nonneg (p * D)
  have h3 := sq_nonneg V
  nlinarith

set_option maxHeartbeats 1000000 in
/-- One step near the true state: the squared error, measured by the covariance, contracts up to second order terms. -/
theorem step_observer (n m : ℕ) {q r a p κ d : ℝ} (hq : 0 < q) (hr : 0 < r) (ha : 0 ≤ a) (hp : 0 < p) (hκ : 0 ≤ κ) (hd : 0 < d) :
    ∃ c Vm Dm δ M : ℝ, 0 < c ∧ 0 < Vm ∧ 0 < Dm ∧ 0 < δ ∧ δ < 1 ∧ 0 < M ∧
      ∀ (s : ExtStep n m) (b : Belief n) (x x' w : Fin n → ℝ) (v : Fin m → ℝ) (D : ℝ), NearLinear a κ d s x x' →
        x' = s.f x + w → s.z = s.h x' + v → ‖w‖ ≤ D → ‖v‖ ≤ D → D ≤ Dm →
        (s.Q - q • (1 : Matrix (Fin n) (Fin n) ℝ)).PosSemidef → (s.R - r • (1 : Matrix (Fin m) (Fin m) ℝ)).PosSemidef →
        b.P.PosDef → (p • (1 : Matrix (Fin n) (Fin n) ℝ) - b.P).PosSemidef → mahal b.P (x - b.x) ≤ Vm →
        ‖x - b.x‖ ≤ d ∧ ‖x' - s.f b.x‖ ≤ d ∧ ((p • (1 : Matrix (Fin n) (Fin n) ℝ) - (s.next b).P).PosSemidef →
          ((s.next b).P - c • (1 : Matrix (Fin n) (Fin n) ℝ)).PosSemidef ∧
          mahal (s.next b).P (x' - (s.next b).x) ≤
            (1 - δ / 2) * mahal b.P (x - b.x) + M * (mahal b.P (x - b.x) ^ 2 + D ^ 2)) := by
  obtain ⟨c, hc⟩ : ∃ c, c = noiseFloor n m q r a := ⟨_, rfl⟩
  have hc0 : 0 < c := hc ▸ noiseFloor_pos hq hr
  obtain ⟨g, hg⟩ : ∃ g, g = Real.sqrt (p / r) := ⟨_, rfl⟩
  have hg0 : 0 ≤ g := hg ▸ Real.sqrt_nonneg _
  obtain ⟨E₀, hE₀⟩ : ∃ E₀, E₀ = min 1 (d / (2 * (n * a + κ + 1))) := ⟨_, rfl⟩
  have hna : 0 < n * a + κ + 1 := by positivity
  have hE0 : 0 < E₀ := hE₀ ▸ lt_min one_pos (by positivity)
  have hE1 : E₀ ≤ 1 := hE₀ ▸ min_le_left _ _
  have hE2 : E₀ ≤ d / (2 * (n * a + κ + 1)) := hE₀ ▸ min_le_right _ _
  rw [le_div_iff₀ (by positivity)] at hE2
  obtain ⟨L, hL⟩ : ∃ L, L = (1 + g * m * (a * n)) * (κ + 1) + g * m * (2 * κ * ((n * a + κ) ^ 2 + 1) + 1) := ⟨_, rfl⟩
  have hL0 : 0 < L := by rw [hL]; positivity
  obtain ⟨δ, hδ⟩ : ∃ δ, δ = c / (p + c) := ⟨_, rfl⟩
  have hδ0 : 0 < δ := by rw [hδ]; positivity
  have hδ1 : δ < 1 := by rw [hδ, div_lt_one (by positivity)]; linarith
  have hδp : δ * p ≤ c := by
    rw [hδ, div_mul_eq_mul_div, div_le_iff₀ (by positivity)]; nlinarith
  refine ⟨c, E₀ ^ 2 / p, min 1 (d / 2), δ, (1 + (δ / 2)⁻¹) * (c⁻¹ * ((n + 1) * L ^ 2 * 2 * (p ^ 2 + 1))), hc0, by positivity,
    lt_min one_pos (by positivity), hδ0, hδ1, by positivity, ?_⟩
  intro s b x x' w v D hnl hx hz hw hv hD hQ hR hP hPp hV
  have hD1 : D ≤ 1 := hD.trans (min_le_left _ _)
  have hD2 : D ≤ d / 2 := hD.trans (min_le_right _ _)
  have hD0 := (norm_nonneg _).trans hw
  obtain ⟨V, hVe⟩ : ∃ V, V = mahal b.P (x - b.x) := ⟨_, rfl⟩
  rw [← hVe] at hV ⊢
  have hV0 : 0 ≤ V := by
    have := hP.inv.posSemidef.dotProduct_mulVec_nonneg (x - b.x)
    rw [star_trivial] at this
    rw [hVe]; exact this
  have hEV : ‖x - b.x‖ ^ 2 ≤ p * V := by
    rw [hVe]; exact (norm_sq_le_dot _).trans (le_mahal_of_upper hP hp hPp _)
  obtain ⟨E, hE⟩ : ∃ E, E = Real.sqrt (p * V) := ⟨_, rfl⟩
  have hEs : E ^ 2 = p * V := by rw [hE, Real.sq_sqrt (by positivity)]
  have hEn : ‖x - b.x‖ ≤ E := by rw [hE]; exact Real.le_sqrt_of_sq_le hEV
  have hEE : E ≤ E₀ := by
    rw [hE]
    refine Real.sqrt_le_iff.2 ⟨hE0.le, ?_⟩
    rw [le_div_iff₀ hp] at hV
    linarith
  have hE00 : 0 ≤ E := hE ▸ Real.sqrt_nonneg _
  have hE1' : E ≤ 1 := hEE.trans hE1
  have hdd : (n * a + κ) * E + D ≤ d := by
    have : (n * a + κ) * E ≤ (n * a + κ) * E₀ := mul_le_mul_of_nonneg_left hEE (by positivity)
    nlinarith
  have hEd : E ≤ d := by
    have : 0 ≤ (n * a + κ) * E₀ := by positivity
    linarith
  have hRd := posDef_of_lower hr hR
  have hQd := posDef_of_lower hq hQ
  refine ⟨hEn.trans hEd, (predict_error ha hκ hnl hx hEn hE1' hEd hw).trans hdd, fun hPn => ?_⟩
  have hH := hnl.jH (s.f b.x) ((predict_error ha hκ hnl hx hEn hE1' hEd hw).trans hdd)
  have hcov := next_cov hP.posSemidef hQd.posSemidef hRd
  have hW := joseph_lower (K := s.gain (s.predict b)) hq hr ha hH hQ hR
  rw [← hc] at hW
  obtain ⟨Ψ, hΨ⟩ : ∃ Ψ, Ψ = (1 - s.gain (s.predict b) * s.jH (s.f b.x)) * s.jA b.x := ⟨_, rfl⟩
  rw [← hΨ] at hcov
  have hlow : ((s.next b).P - c • (1 : Matrix (Fin n) (Fin n) ℝ)).PosSemidef := by
    have := (posSemidef_conj hP.posSemidef Ψ).add hW
    rw [hcov]
    convert this using 1
    abel
  have hPn' := posDef_of_lower hc0 hlow
  refine ⟨hlow, ?_⟩
  have hKg : ∀ i j, |s.gain (s.predict b) i j| ≤ g := by
    rw [hg]
    refine gain_le hr hR (psd_trans ?_ hPn)
    have := (posSemidef_conj hP.posSemidef Ψ).add
      (posSemidef_conj hQd.posSemidef (1 - s.gain (s.predict b) * s.jH (s.f b.x)))
    convert this using 1
    rw [hcov, josephCov]
    abel
  obtain ⟨η, he, hη⟩ := next_error ha hκ hnl hx hz hEn hE1' hEd hw hv hD1 hdd hg0 hKg
  rw [← hL] at hη
  rw [← hΨ] at he
  have hcontr : mahal (s.next b).P (Ψ *ᵥ (x - b.x)) ≤ (1 - δ) * V := by
    rw [hVe]
    refine mahal_contract hP hPn' hδ1 hcov ?_ _
    refine psd_trans (Y := (δ * p) • (1 : Matrix (Fin n) (Fin n) ℝ)) ?_ ?_
    · have := psd_smul hPn hδ0.le
      rwa [smul_sub, smul_smul] at this
    · have h1 : ((c - δ * p) • (1 : Matrix (Fin n) (Fin n) ℝ)).PosSemidef :=
        psd_smul Matrix.PosDef.one.posSemidef (by linarith)
      have := hW.add h1
      convert this using 1
      module
  have hyoung := mahal_add_le hPn' (half_pos hδ0) (Ψ *ᵥ (x - b.x)) η
  rw [← he] at hyoung
  have hη2 : mahal (s.next b).P η ≤ c⁻¹ * ((n + 1) * L ^ 2 * 2 * (p ^ 2 + 1)) * (V ^ 2 + D ^ 2) := by
    have h1 := mahal_le_of_lower hPn' (inv_pos.2 hc0) (by rwa [inv_inv]) η
    have h2 := dot_le_norm_sq η
    have h3 := pow_le_pow_left₀ (norm_nonneg _) hη 2
    have h4 : (L * (E ^ 2 + D)) ^ 2 ≤ L ^ 2 * (2 * (p ^ 2 + 1) * (V ^ 2 + D ^ 2)) := by
      rw [mul_pow, hEs]
      refine mul_le_mul_of_nonneg_left ?_ (by positivity)
      exact sq_mix p V D
    have h5 : η ⬝ᵥ η ≤ (n + 1) * (L ^ 2 * (2 * (p ^ 2 + 1) * (V ^ 2 + D ^ 2))) := by
      have h6 : (n : ℝ) * ‖η‖ ^ 2 ≤ (n + 1) * ‖η‖ ^ 2 := mul_le_mul_of_nonneg_right (by linarith) (by positivity)
      exact (h2.trans h6).trans (mul_le_mul_of_nonneg_left (h3.trans h4) (by positivity))
    have h7 : c⁻¹ * (η ⬝ᵥ η) ≤ c⁻¹ * ((n + 1) * (L ^ 2 * (2 * (p ^ 2 + 1) * (V ^ 2 + D ^ 2)))) :=
      mul_le_mul_of_nonneg_left h5 (by positivity)
    linarith
  have h8 : (1 + δ / 2) * mahal (s.next b).P (Ψ *ᵥ (x - b.x)) ≤ (1 + δ / 2) * ((1 - δ) * V) :=
    mul_le_mul_of_nonneg_left hcontr (by positivity)
  have h9 : (1 + (δ / 2)⁻¹) * mahal (s.next b).P η ≤
      (1 + (δ / 2)⁻¹) * (c⁻¹ * ((n + 1) * L ^ 2 * 2 * (p ^ 2 + 1)) * (V ^ 2 + D ^ 2)) :=
    mul_le_mul_of_nonneg_left hη2 (by positivity)
  have h10 : (1 + δ / 2) * ((1 - δ) * V) ≤ (1 - δ / 2) * V := by nlinarith [mul_nonneg (mul_nonneg hδ0.le hδ0.le) hV0]
  linarith

/-- The belief before step `k` and the one after it. -/
theorem extFiltered_succ (b : Belief n) (ss : List (ExtStep n m)) (k : ℕ) (s : ExtStep n m) (b' : Belief n) (hs : ss[k]? = some s)
    (hb : (b :: extFiltered b ss)[k]? = some b') : (extFiltered b ss)[k]? = some (s.next b') := by
  induction k generalizing b ss with
  | zero =>
    cases ss with
    | nil => simp at hs
    | cons t ts =>
      simp only [List.getElem?_cons_zero, Option.some.injEq] at hs hb
      subst hs hb
      simp [extFiltered]
  | succ k ih =>
    cases ss with
    | nil => simp at hs
    | cons t ts =>
      simp only [List.getElem?_cons_succ] at hs hb
      rw [extFiltered] at hb ⊢
      rw [List.getElem?_cons_succ]
      exact ih _ _ hs hb

/-- The hypotheses on step `k` of a run near the true states `x`. -/
structure Tracks (q r a κ d D : ℝ) (x w : ℕ → Fin n → ℝ) (v : ℕ → Fin m → ℝ) (k : ℕ) (s : ExtStep n m) : Prop where
  near : NearLinear a κ d s (x k) (x (k + 1))
  state : x (k + 1) = s.f (x k) + w k
  obs : s.z = s.h (x (k + 1)) + v k
  dist : ‖w k‖ ≤ D
  err : ‖v k‖ ≤ D
  Q : (s.Q - q • (1 : Matrix (Fin n) (Fin n) ℝ)).PosSemidef
  R : (s.R - r • (1 : Matrix (Fin m) (Fin m) ℝ)).PosSemidef

/-- Before step `k` the belief is proper, and it and the prediction are near the true states. -/
def NearAt (d : ℝ) (b : Belief n) (ss : List (ExtStep n m)) (x : ℕ → Fin n → ℝ) (k : ℕ) : Prop :=
  ∀ (s : ExtStep n m) (b' : Belief n), ss[k]? = some s → (b :: extFiltered b ss)[k]? = some b' →
    b'.P.PosDef ∧ ‖x k - b'.x‖ ≤ d ∧ ‖x (k + 1) - s.f b'.x‖ ≤ d

theorem run_observer (n m : ℕ) {q r a p κ d : ℝ} (hq : 0 < q) (hr : 0 < r) (ha : 0 ≤ a) (hp : 0 < p) (hκ : 0 ≤ κ) (hd : 0 < d) :
    ∃ V₁ D₁ θ c : ℝ, 0 < V₁ ∧ 0 < D₁ ∧ 0 < θ ∧ θ < 1 ∧ 0 < c ∧
      ∀ (k : ℕ) (ss : List (ExtStep n m)) (b : Belief n) (x w : ℕ → Fin n → ℝ) (v : ℕ → Fin m → ℝ) (D : ℝ),
        (∀ (j : ℕ) (s : ExtStep n m), ss[j]? = some s → Tracks q r a κ d D x w v j s) → 0 ≤ D → D ≤ D₁ →
        b.P.PosDef → (p • (1 : Matrix (Fin n) (Fin n) ℝ) - b.P).PosSemidef → mahal b.P (x 0 - b.x) ≤ V₁ →
        (∀ j : ℕ, j ≤ k → (∀ i, i ≤ j → NearAt d b ss x i) → ∀ (s : ExtStep n m) (b' : Belief n), ss[j]? = some s →
          (b :: extFiltered b ss)[j]? = some b' → (p • (1 : Matrix (Fin n) (Fin n) ℝ) - (s.next b').P).PosSemidef) →
        ∀ q' : Belief n, (extFiltered b ss)[k]? = some q' → q'.P.PosDef ∧ (p • (1 : Matrix (Fin n) (Fin n) ℝ) - q'.P).PosSemidef ∧
          mahal q'.P (x (k + 1) - q'.x) - c * D ^ 2 ≤ θ ^ (k + 1) * (mahal b.P (x 0 - b.x) - c * D ^ 2) := by
  obtain ⟨c₀, Vm, Dm, δ, M, hc₀, hVm, hDm, hδ, hδ1, hM, step⟩ := step_observer n m hq hr ha hp hκ hd
  obtain ⟨V₁, hV₁⟩ : ∃ V₁, V₁ = min Vm (δ / (4 * M)) := ⟨_, rfl⟩
  have hV0 : 0 < V₁ := hV₁ ▸ lt_min hVm (by positivity)
  have hV1 : V₁ ≤ Vm := hV₁ ▸ min_le_left _ _
  have hV2 : V₁ ≤ δ / (4 * M) := hV₁ ▸ min_le_right _ _
  rw [le_div_iff₀ (by positivity)] at hV2
  refine ⟨V₁, min Dm (Real.sqrt (δ * V₁ / (4 * M))), 1 - δ / 4, 4 * M / δ, hV0,
    lt_min hDm (Real.sqrt_pos.2 (by positivity)), by linarith, by linarith, by positivity, ?_⟩
  intro k
  induction k with
  | zero =>
    intro ss b x w v D hs hD hD1 hP hPp hV hcov q' hq'
    cases ss with
    | nil => simp [extFiltered] at hq'
    | cons s ss =>
      simp only [extFiltered, List.getElem?_cons_zero, Option.some.injEq] at hq'
      subst hq'
      have t := hs 0 s rfl
      obtain ⟨h1', h1, h2⟩ := step s b (x 0) (x 1) (w 0) (v 0) D t.near t.state t.obs t.dist t.err (hD1.trans (min_le_left _ _))
        t.Q t.R hP hPp (hV.trans hV1)
      have hn : NearAt d b (s :: ss) x 0 := fun s' b' e1 e2 => by
        simp only [List.getElem?_cons_zero, Option.some.injEq] at e1 e2
        subst e1 e2
        exact ⟨hP, h1', h1⟩
      have hpn := hcov 0 le_rfl (fun i hi => by obtain rfl : i = 0 := by omega
                                                exact hn) s b rfl rfl
      obtain ⟨h3, h4⟩ := h2 hpn
      have hV00 : 0 ≤ mahal b.P (x 0 - b.x) := by
        have := hP.inv.posSemidef.dotProduct_mulVec_nonneg (x 0 - b.x)
        rwa [star_trivial] at this
      refine ⟨posDef_of_lower hc₀ h3, hpn, ?_⟩
      have h5 : M * mahal b.P (x 0 - b.x) ^ 2 ≤ δ / 4 * mahal b.P (x 0 - b.x) := by
        have g1 := mul_le_mul_of_nonneg_left hV hM.le
        have g2 : M * mahal b.P (x 0 - b.x) ≤ δ / 4 := by linarith
        have g3 := mul_le_mul_of_nonneg_right g2 hV00
        rw [sq, ← mul_assoc]
        exact g3
      have h6 : (1 - (1 - δ / 4)) * (4 * M / δ * D ^ 2) = M * D ^ 2 := by field_simp; ring
      have h7 : (1 - δ / 4) ^ (0 + 1) = 1 - δ / 4 := by ring
      rw [h7]
      show mahal (s.next b).P (x 1 - (s.next b).x) - _ ≤ _
      nlinarith
  | succ k ih =>
    intro ss b x w v D hs hD hD1 hP hPp hV hcov q' hq'
    cases ss with
    | nil => simp [extFiltered] at hq'
    | cons s ss =>
      rw [extFiltered, List.getElem?_cons_succ] at hq'
      have t := hs 0 s rfl
      obtain ⟨h1', h1, h2⟩ := step s b (x 0) (x 1) (w 0) (v 0) D t.near t.state t.obs t.dist t.err (hD1.trans (min_le_left _ _))
        t.Q t.R hP hPp (hV.trans hV1)
      have hn : NearAt d b (s :: ss) x 0 := fun s' b' e1 e2 => by
        simp only [List.getElem?_cons_zero, Option.some.injEq] at e1 e2
        subst e1 e2
        exact ⟨hP, h1', h1⟩
      have hpn := hcov 0 (by omega) (fun i hi => by obtain rfl : i = 0 := by omega
                                                    exact hn) s b rfl rfl
      obtain ⟨h3, h4⟩ := h2 hpn
      have hV00 : 0 ≤ mahal b.P (x 0 - b.x) := by
        have := hP.inv.posSemidef.dotProduct_mulVec_nonneg (x 0 - b.x)
        rwa [star_trivial] at this
      have h5 : M * mahal b.P (x 0 - b.x) ^ 2 ≤ δ / 4 * mahal b.P (x 0 - b.x) := by
        have g1 := mul_le_mul_of_nonneg_left hV hM.le
        have g2 : M * mahal b.P (x 0 - b.x) ≤ δ / 4 := by linarith
        have g3 := mul_le_mul_of_nonneg_right g2 hV00
        rw [sq, ← mul_assoc]
        exact g3
      have h6 : (1 - (1 - δ / 4)) * (4 * M / δ * D ^ 2) = M * D ^ 2 := by field_simp; ring
      have h7 : mahal (s.next b).P (x 1 - (s.next b).x) - 4 * M / δ * D ^ 2 ≤
          (1 - δ / 4) * (mahal b.P (x 0 - b.x) - 4 * M / δ * D ^ 2) := by nlinarith
      have h8 : M * D ^ 2 ≤ δ / 4 * V₁ := by
        have := pow_le_pow_left₀ hD (hD1.trans (min_le_right _ _)) 2
        rw [Real.sq_sqrt (by positivity), le_div_iff₀ (by positivity)] at this
        linarith
      have h9 : mahal (s.next b).P (x 1 - (s.next b).x) ≤ V₁ := by nlinarith
      obtain ⟨i1, i2, i3⟩ := ih ss (s.next b) (fun j => x (j + 1)) (fun j => w (j + 1)) (fun j => v (j + 1)) D
        (fun j s' hj => by
          have t' := hs (j + 1) s' hj
          exact ⟨t'.near, t'.state, t'.obs, t'.dist, t'.err, t'.Q, t'.R⟩) hD hD1 (posDef_of_lower hc₀ h3) hpn h9
        (fun j hj hnear s' b' hs' hb' => hcov (j + 1) (by omega) (fun i hi => by
            cases i with
            | zero => exact hn
            | succ i =>
              intro s'' b'' e1 e2
              rw [List.getElem?_cons_succ] at e1
              rw [extFiltered, List.getElem?_cons_succ] at e2
              exact hnear i (by omega) s'' b'' e1 e2) s' b' hs'
          (by rw [extFiltered, List.getElem?_cons_succ]; exact hb')) q' hq'
      refine ⟨i1, i2, i3.trans ?_⟩
      have h10 := mul_le_mul_of_nonneg_left h7 (pow_nonneg (by linarith : (0 : ℝ) ≤ 1 - δ / 4) (k + 1))
      refine h10.trans (le_of_eq ?_)
      ring

/-- The same for the largest error of an entry. -/
theorem norm_observer_cov (n m : ℕ) {q r a p κ d : ℝ} (hq : 0 < q) (hr : 0 < r) (ha : 0 ≤ a) (hp : 0 < p) (hκ : 0 ≤ κ) (hd : 0 < d) :
    ∃ ε C ρ : ℝ, 0 < ε ∧ 0 < C ∧ 0 < ρ ∧ ρ < 1 ∧
      ∀ (ss : List (ExtStep n m)) (b : Belief n) (x w : ℕ → Fin n → ℝ) (v : ℕ → Fin m → ℝ) (r₀ D : ℝ),
        (∀ (j : ℕ) (s : ExtStep n m), ss[j]? = some s → Tracks q r a κ d D x w v j s) → 0 ≤ D → D ≤ ε →
        Between q p b.P → ‖x 0 - b.x‖ ≤ r₀ → r₀ ≤ ε → ∀ k : ℕ,
        (∀ j : ℕ, j ≤ k → (∀ i, i ≤ j → NearAt d b ss x i) → ∀ (s : ExtStep n m) (b' : Belief n), ss[j]? = some s →
          (b :: extFiltered b ss)[j]? = some b' → (p • (1 : Matrix (Fin n) (Fin n) ℝ) - (s.next b').P).PosSemidef) →
        ∀ q' : Belief n, (extFiltered b ss)[k]? = some q' → (q'.P.PosDef ∧ (p • (1 : Matrix (Fin n) (Fin n) ℝ) - q'.P).PosSemidef) ∧
          ‖x (k + 1) - q'.x‖ ≤ C * ρ ^ (k + 1) * r₀ + C * D := by
  obtain ⟨V₁, D₁, θ, c, hV₁, hD₁, hθ, hθ1, hc, run⟩ := run_observer n m hq hr ha hp hκ hd
  refine ⟨min D₁ (Real.sqrt (V₁ * q / (n + 1))), Real.sqrt (p * (n + 1) / q) + Real.sqrt (p * c), Real.sqrt θ,
    lt_min hD₁ (Real.sqrt_pos.2 (by positivity)), by positivity, Real.sqrt_pos.2 hθ, ?_, ?_⟩
  · rw [Real.sqrt_lt' one_pos]; linarith
  intro ss b x w v r₀ D hs hD hDε hb h0 h0ε k hcov q' hq'
  have hr0 := (norm_nonneg _).trans h0
  have hbP := posDef_of_lower hq hb.1
  have hV : mahal b.P (x 0 - b.x) ≤ q⁻¹ * ((n + 1) * r₀ ^ 2) := by
    refine (mahal_le_of_lower hbP (inv_pos.2 hq) (by rw [inv_inv]; exact hb.1) _).trans ?_
    refine mul_le_mul_of_nonneg_left ?_ (by positivity)
    refine (dot_le_norm_sq _).trans (mul_le_mul (by linarith) (pow_le_pow_left₀ (norm_nonneg _) h0 2) (by positivity) (by positivity))
  have hV1 : mahal b.P (x 0 - b.x) ≤ V₁ := by
    refine hV.trans ?_
    have := pow_le_pow_left₀ hr0 (h0ε.trans (min_le_right _ _)) 2
    rw [Real.sq_sqrt (by positivity), le_div_iff₀ (by positivity)] at this
    rw [inv_mul_le_iff₀ hq]
    linarith
  obtain ⟨h1, h2, h3⟩ := run k ss b x w v D hs hD (hDε.trans (min_le_left _ _)) hbP hb.2 hV1 hcov q' hq'
  have h4 : ‖x (k + 1) - q'.x‖ ^ 2 ≤ p * (θ ^ (k + 1) * (q⁻¹ * ((n + 1) * r₀ ^ 2)) + c * D ^ 2) := by
    refine (norm_sq_le_dot _).trans ((le_mahal_of_upper h1 hp h2 _).trans (mul_le_mul_of_nonneg_left ?_ hp.le))
    have h5 := mul_le_mul_of_nonneg_left hV (pow_nonneg hθ.le (k + 1))
    have h6 : 0 ≤ θ ^ (k + 1) * (c * D ^ 2) := by positivity
    linarith
  have h7 : 0 ≤ Real.sqrt (p * (n + 1) / q) * Real.sqrt θ ^ (k + 1) * r₀ := by positivity
  have h8 : 0 ≤ Real.sqrt (p * c) * D := by positivity
  have h9 : ‖x (k + 1) - q'.x‖ ≤ Real.sqrt (p * (n + 1) / q) * Real.sqrt θ ^ (k + 1) * r₀ + Real.sqrt (p * c) * D := by
    refine abs_le_of_sq_le_sq' ?_ (by positivity) |>.2
    have e1 : (Real.sqrt (p * (n + 1) / q) * Real.sqrt θ ^ (k + 1) * r₀) ^ 2 = p * (θ ^ (k + 1) * (q⁻¹ * ((n + 1) * r₀ ^ 2))) := by
      rw [mul_pow, mul_pow, Real.sq_sqrt (by positivity), ← pow_mul, mul_comm (k + 1) 2, pow_mul, Real.sq_sqrt hθ.le]
      field_simp
    have e2 : (Real.sqrt (p * c) * D) ^ 2 = p * (c * D ^ 2) := by
      rw [mul_pow, Real.sq_sqrt (by positivity)]; ring
    nlinarith
  have h10 : 0 ≤ Real.sqrt (p * c) * Real.sqrt θ ^ (k + 1) * r₀ := by positivity
  have h11 : 0 ≤ Real.sqrt (p * (n + 1) / q) * D := by positivity
  exact ⟨⟨h1, h2⟩, by linarith⟩

theorem norm_observer (n m : ℕ) {q r a p κ d : ℝ} (hq : 0 < q) (hr : 0 < r) (ha : 0 ≤ a) (hp : 0 < p) (hκ : 0 ≤ κ) (hd : 0 < d) :
    ∃ ε C ρ : ℝ, 0 < ε ∧ 0 < C ∧ 0 < ρ ∧ ρ < 1 ∧
      ∀ (ss : List (ExtStep n m)) (b : Belief n) (x w : ℕ → Fin n → ℝ) (v : ℕ → Fin m → ℝ) (r₀ D : ℝ),
        (∀ (j : ℕ) (s : ExtStep n m), ss[j]? = some s → Tracks q r a κ d D x w v j s) → 0 ≤ D → D ≤ ε →
        Between q p b.P → ‖x 0 - b.x‖ ≤ r₀ → r₀ ≤ ε → ∀ k : ℕ,
        (∀ j : ℕ, j ≤ k → (∀ i, i ≤ j → NearAt d b ss x i) → ∀ (s : ExtStep n m) (b' : Belief n), ss[j]? = some s →
          (b :: extFiltered b ss)[j]? = some b' → (p • (1 : Matrix (Fin n) (Fin n) ℝ) - (s.next b').P).PosSemidef) →
        ∀ q' : Belief n, (extFiltered b ss)[k]? = some q' → ‖x (k + 1) - q'.x‖ ≤ C * ρ ^ (k + 1) * r₀ + C * D := by
  obtain ⟨ε, C, ρ, hε, hC, h0, h1, key⟩ := norm_observer_cov n m hq hr ha hp hκ hd
  exact ⟨ε, C, ρ, hε, hC, h0, h1, fun ss b x w v r₀ D g1 g2 g3 g4 g5 g6 k g7 q' hq' => (key ss b x w v r₀ D g1 g2 g3 g4 g5 g6 k g7 q' hq').2⟩

end KK
