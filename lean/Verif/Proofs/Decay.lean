import Verif.Proofs.Forget
import Mathlib.Analysis.SpecificLimits.Basic

/-! # Geometric decay for observable and controllable constant models -/

set_option linter.unusedSectionVars false

namespace KK

open Matrix Filter Topology

variable {n m : ℕ} {A Q : Matrix (Fin n) (Fin n) ℝ} {H : Matrix (Fin m) (Fin n) ℝ} {R : Matrix (Fin m) (Fin m) ℝ}

/-- An increasing bounded sequence of PSD matrices converges to a PSD matrix. -/
theorem psd_tendsto_up {P : ℕ → Matrix (Fin n) (Fin n) ℝ} {C : Matrix (Fin n) (Fin n) ℝ} (h : ∀ k, (P k).PosSemidef)
    (hu : ∀ k, (P (k + 1) - P k).PosSemidef) (hC : ∀ k, (C - P k).PosSemidef) :
    ∃ F, F.PosSemidef ∧ Tendsto P atTop (𝓝 F) := by
  obtain ⟨F, hF, hT⟩ := psd_tendsto (P := fun k => C - P k) hC (fun k => by convert hu k using 1; abel)
  have hT' : Tendsto P atTop (𝓝 (C - F)) := by
    have := hT.const_sub C
    simpa using this
  refine ⟨C - F, ?_, hT'⟩
  have hc : ∀ v : Fin n → ℝ, Continuous fun M : Matrix (Fin n) (Fin n) ℝ => v ⬝ᵥ (M *ᵥ v) := fun v =>
    continuous_const.dotProduct (continuous_id.matrix_mulVec continuous_const)
  refine Matrix.posSemidef_iff_dotProduct_mulVec.2 ⟨?_, fun v => ?_⟩
  · have h1 : Tendsto (fun k => (P k)ᵀ) atTop (𝓝 (C - F)ᵀ) :=
      (continuous_id.matrix_transpose.tendsto (C - F)).comp hT'
    have h2 : (fun k => (P k)ᵀ) = P := funext fun k => IsHermitian.symm' (h k).1
    rw [h2] at h1
    exact isHermitian_of_symm (tendsto_nhds_unique h1 hT')
  · rw [star_trivial]
    refine ge_of_tendsto' (((hc v).tendsto _).comp hT') fun k => ?_
    have := (h k).dotProduct_mulVec_nonneg v
    rwa [star_trivial] at this

/-- Uniform constants: after `n` steps all covariances lie between `c⁻¹ I` and `c I`, whatever the initial one, and
each is at most `t` times each other, with `t` decreasing geometrically to one. -/
structure Uniform (A Q : Matrix (Fin n) (Fin n) ℝ) (H : Matrix (Fin m) (Fin n) ℝ) (R : Matrix (Fin m) (Fin m) ℝ)
    (c δ : ℝ) : Prop where
  c_pos : 0 < c
  δ_pos : 0 < δ
  δ_lt : δ < 1
  lower : ∀ P : Matrix (Fin n) (Fin n) ℝ, P.PosSemidef → ∀ k, n ≤ k →
    ((ric A H Q R)^[k] P - c⁻¹ • (1 : Matrix (Fin n) (Fin n) ℝ)).PosSemidef
  upper : ∀ P : Matrix (Fin n) (Fin n) ℝ, P.PosSemidef → ∀ k, n ≤ k →
    (c • (1 : Matrix (Fin n) (Fin n) ℝ) - (ric A H Q R)^[k] P).PosSemidef
  fresh : ∀ P : Matrix (Fin n) (Fin n) ℝ, P.PosSemidef → ∀ k, n ≤ k →
    ((ric A H Q R)^[n] 0 - δ • (ric A H Q R)^[k] P).PosSemidef
  ratio : ∀ P X : Matrix (Fin n) (Fin n) ℝ, P.PosSemidef → X.PosSemidef → ∀ k, n ≤ k →
    (δ⁻¹ • (ric A H Q R)^[k] P - (ric A H Q R)^[k] X).PosSemidef

theorem exists_uniform (hQ : Q.PosSemidef) (hR : R.PosDef) (hc : Controllable A Q) (ho : Observable A H) :
    ∃ c δ : ℝ, Uniform A Q H R c δ := by
  obtain ⟨N, C, t, hN, hC, ht, hd, hb⟩ := exists_contraction (A := A) (H := H) hQ hR hc ho
  obtain ⟨a, ha, hda⟩ := exists_dominating hN (Matrix.PosSemidef.one (n := Fin n) (R := ℝ))
  obtain ⟨b, hb1, hdb⟩ := exists_dominating (Matrix.PosDef.one (n := Fin n) (R := ℝ)) hC
  have one : (1 : Matrix (Fin n) (Fin n) ℝ).PosSemidef := Matrix.PosSemidef.one
  have hm : 0 < max a b := by have := le_max_left a b; linarith
  have ht0 : 0 < t := by linarith
  refine ⟨max a b, t⁻¹, hm, by positivity, ?_, fun P hP k hk => ?_, fun P hP k hk => ?_, fun P hP k hk => ?_,
    fun P X hP hX k hk => ?_⟩
  · rw [inv_lt_one₀ ht0]; linarith
  · refine psd_trans ?_ (hb P hP k hk).1
    have h1 : ((max a b) • N - 1).PosSemidef := by
      have := hda.add (psd_smul hN.posSemidef (t := max a b - a) (by linarith [le_max_left a b]))
      convert this using 1; module
    have := psd_smul h1 (t := (max a b)⁻¹) (by positivity)
    convert this using 1
    rw [smul_sub, smul_smul, inv_mul_cancel₀ hm.ne', one_smul]
  · refine psd_trans (hb P hP k hk).2 ?_
    have := hdb.add (psd_smul one (t := max a b - b) (by linarith [le_max_right a b]))
    convert this using 1; module
  · have h1 := psd_smul hd (t := t⁻¹) (by positivity)
    rw [smul_sub, smul_smul, inv_mul_cancel₀ ht0.ne', one_smul] at h1
    have h2 := psd_smul (hb P hP k hk).2 (t := t⁻¹) (by positivity)
    rw [smul_sub] at h2
    exact psd_trans h2 (psd_trans h1 (hb 0 Matrix.PosSemidef.zero n le_rfl).1)
  · rw [inv_inv]
    have h1 := psd_smul (hb P hP k hk).1 (t := t) ht0.le
    rw [smul_sub] at h1
    exact psd_trans (psd_trans (hb X hX k hk).2 hd) h1

section
variable {c δ : ℝ}

theorem Uniform.pd (u : Uniform A Q H R c δ) {P : Matrix (Fin n) (Fin n) ℝ} (hP : P.PosSemidef) {k : ℕ} (hk : n ≤ k) :
    ((ric A H Q R)^[k] P).PosDef := by
  have h := Matrix.PosDef.posSemidef_add (u.lower P hP k hk)
    (Matrix.PosDef.one.smul (inv_pos.2 u.c_pos) : (c⁻¹ • (1 : Matrix (Fin n) (Fin n) ℝ)).PosDef)
  rwa [sub_add_cancel] at h

theorem Uniform.ratio_iter (u : Uniform A Q H R c δ) (hQ : Q.PosSemidef) (hR : R.PosDef)
    {P X : Matrix (Fin n) (Fin n) ℝ} (hP : P.PosSemidef) (hX : X.PosSemidef) {k : ℕ} (hk : n ≤ k) (j : ℕ) :
    ((1 + (δ⁻¹ - 1) * (1 - δ) ^ j) • (ric A H Q R)^[n * j + k] P - (ric A H Q R)^[n * j + k] X).PosSemidef := by
  induction j with
  | zero => simpa using u.ratio P X hP hX k hk
  | succ j ih =>
    have h1 : 1 ≤ δ⁻¹ := (one_le_inv₀ u.δ_pos).2 u.δ_lt.le
    have h2 : 0 ≤ (δ⁻¹ - 1) * (1 - δ) ^ j := mul_nonneg (by linarith) (pow_nonneg (by linarith [u.δ_lt]) _)
    have e : ∀ Y, (ric A H Q R)^[n * (j + 1) + k] Y = (ric A H Q R)^[n] ((ric A H Q R)^[n * j + k] Y) := by
      intro Y
      rw [← Function.iterate_add_apply]; congr 1; ring
    have hf := u.fresh _ (iter_psd (A := A) (H := H) hQ hR hP (n * j + k)) n le_rfl
    have := iter_contract (A := A) (H := H) hQ hR (iter_psd hQ hR hP (n * j + k)) (iter_psd hQ hR hX (n * j + k))
      (by linarith) n ih hf
    rw [e, e]
    convert this using 2
    rw [pow_succ, add_sub_cancel_left, mul_assoc]

/-- Two covariance sequences approach each other geometrically, uniformly in their starts. -/
theorem Uniform.close (u : Uniform A Q H R c δ) (hQ : Q.PosSemidef) (hR : R.PosDef)
    {P X : Matrix (Fin n) (Fin n) ℝ} (hP : P.PosSemidef) (hX : X.PosSemidef) {k : ℕ} (hk : n ≤ k) (j : ℕ) (a b : Fin n) :
    |((ric A H Q R)^[n * j + k] P) a b - ((ric A H Q R)^[n * j + k] X) a b| ≤ (δ⁻¹ - 1) * c * (1 - δ) ^ j := by
  have key : ∀ {P X : Matrix (Fin n) (Fin n) ℝ}, P.PosSemidef → X.PosSemidef →
      (((δ⁻¹ - 1) * c * (1 - δ) ^ j) • (1 : Matrix (Fin n) (Fin n) ℝ) -
        ((ric A H Q R)^[n * j + k] X - (ric A H Q R)^[n * j + k] P)).PosSemidef := by
    intro P X hP hX
    have h1 : 1 ≤ δ⁻¹ := (one_le_inv₀ u.δ_pos).2 u.δ_lt.le
    have h2 : 0 ≤ (δ⁻¹ - 1) * (1 - δ) ^ j := mul_nonneg (by linarith) (pow_nonneg (by linarith [u.δ_lt]) _)
    have h3 := u.ratio_iter hQ hR hP hX hk j
    have h4 := psd_smul (u.upper P hP (n * j + k) (by omega)) h2
    convert h3.add h4 using 1
    module
  have hs : ∀ {P : Matrix (Fin n) (Fin n) ℝ}, P.PosSemidef → ((ric A H Q R)^[n * j + k] P)ᵀ = (ric A H Q R)^[n * j + k] P :=
    fun hP => IsHermitian.symm' (iter_psd hQ hR hP _).1
  rw [← Matrix.sub_apply]
  refine entry_le (by rw [transpose_sub, hs hP, hs hX]) (key hX hP) ?_ a b
  have := key hP hX
  convert this using 1; abel

theorem mahal_le_of_lower {P : Matrix (Fin n) (Fin n) ℝ} (hP : P.PosDef) {c : ℝ} (hc : 0 < c)
    (h : (P - c⁻¹ • (1 : Matrix (Fin n) (Fin n) ℝ)).PosSemidef) (d : Fin n → ℝ) : mahal P d ≤ c * (d ⬝ᵥ d) := by
  obtain ⟨y, hy⟩ : ∃ y, y = P⁻¹ *ᵥ d := ⟨_, rfl⟩
  have hPy : P *ᵥ y = d := by
    rw [hy, Matrix.mulVec_mulVec, Matrix.mul_nonsing_inv _ (posDef_isUnit_det hP), Matrix.one_mulVec]
  have hm : mahal P d = 2 * (y ⬝ᵥ d) - y ⬝ᵥ (P *ᵥ y) := by rw [mahal, ← hy, hPy, dotProduct_comm]; ring
  have h1 := h.dotProduct_mulVec_nonneg y
  rw [star_trivial, sub_mulVec, smul_mulVec, one_mulVec, dotProduct_sub, dotProduct_smul, smul_eq_mul] at h1
  have h2 : 0 ≤ (y - c • d) ⬝ᵥ (y - c • d) := Finset.sum_nonneg fun i _ => mul_self_nonneg _
  simp only [sub_dotProduct, dotProduct_sub, smul_dotProduct, dotProduct_smul, smul_eq_mul, dotProduct_comm d y] at h2
  have h3 : 0 ≤ c⁻¹ * (y ⬝ᵥ y - c * (y ⬝ᵥ d) - (c * (y ⬝ᵥ d) - c * (c * (d ⬝ᵥ d)))) := mul_nonneg (by positivity) (by linarith)
  have e : c⁻¹ * (y ⬝ᵥ y - c * (y ⬝ᵥ d) - (c * (y ⬝ᵥ d) - c * (c * (d ⬝ᵥ d)))) =
      c⁻¹ * (y ⬝ᵥ y) - 2 * (y ⬝ᵥ d) + c * (d ⬝ᵥ d) := by field_simp; ring
  rw [hm]; linarith

theorem le_mahal_of_upper {P : Matrix (Fin n) (Fin n) ℝ} (hP : P.PosDef) {c : ℝ} (hc : 0 < c)
    (h : (c • (1 : Matrix (Fin n) (Fin n) ℝ) - P).PosSemidef) (d : Fin n → ℝ) : d ⬝ᵥ d ≤ c * mahal P d := by
  have h0 := le_mahal hP d (c⁻¹ • d)
  have h1 := h.dotProduct_mulVec_nonneg d
  rw [star_trivial, sub_mulVec, smul_mulVec, one_mulVec, dotProduct_sub, dotProduct_smul, smul_eq_mul] at h1
  rw [smul_dotProduct, mulVec_smul, smul_dotProduct, dotProduct_smul] at h0
  simp only [smul_eq_mul] at h0
  have h2 : c⁻¹ * (c⁻¹ * (d ⬝ᵥ (P *ᵥ d))) ≤ c⁻¹ * (d ⬝ᵥ d) := by
    refine mul_le_mul_of_nonneg_left ?_ (by positivity)
    rw [inv_mul_le_iff₀ hc]; linarith
  have h3 : c⁻¹ * (d ⬝ᵥ d) ≤ mahal P d := by linarith
  rwa [inv_mul_le_iff₀ hc] at h3

theorem propagator_add (K : ℕ → Matrix (Fin n) (Fin m) ℝ) (a b : ℕ) :
    propagator A H K (a + b) = propagator A H (fun i => K (a + i)) b * propagator A H K a := by
  induction b with
  | zero => simp [propagator]
  | succ b ih => rw [← Nat.add_assoc, propagator, ih, propagator, Matrix.mul_assoc, Matrix.mul_assoc, Matrix.mul_assoc]

theorem ownGains_shift (P : Matrix (Fin n) (Fin n) ℝ) (a : ℕ) :
    (fun i => ownGains A Q H R P (a + i)) = ownGains A Q H R ((ric A H Q R)^[a] P) := by
  funext i
  rw [ownGains, ownGains, ← Function.iterate_add_apply, Nat.add_comm]

/-- The propagator from step `j` to step `j + k` of the filter started from `P`. -/
noncomputable def prop (A Q : Matrix (Fin n) (Fin n) ℝ) (H : Matrix (Fin m) (Fin n) ℝ) (R : Matrix (Fin m) (Fin m) ℝ)
    (P : Matrix (Fin n) (Fin n) ℝ) (k : ℕ) : Matrix (Fin n) (Fin n) ℝ :=
  propagator A H (ownGains A Q H R P) k

theorem prop_add (P : Matrix (Fin n) (Fin n) ℝ) (a b : ℕ) :
    prop A Q H R P (a + b) = prop A Q H R ((ric A H Q R)^[a] P) b * prop A Q H R P a := by
  rw [prop, propagator_add, ownGains_shift]; rfl

theorem Uniform.mahal_step (u : Uniform A Q H R c δ) (hQ : Q.PosSemidef) (hR : R.PosDef)
    {P : Matrix (Fin n) (Fin n) ℝ} (hP : P.PosSemidef) {j : ℕ} (hj : n ≤ j) (d : Fin n → ℝ) (k : ℕ) :
    mahal ((ric A H Q R)^[j + k] P) (prop A Q H R ((ric A H Q R)^[j] P) k *ᵥ d) ≤ mahal ((ric A H Q R)^[j] P) d ∧
    (k = n → mahal ((ric A H Q R)^[j + k] P) (prop A Q H R ((ric A H Q R)^[j] P) k *ᵥ d) ≤
      (1 - δ) * mahal ((ric A H Q R)^[j] P) d) := by
  have hj' := iter_psd (A := A) (H := H) hQ hR hP j
  have e := withGains_own (A := A) (H := H) hQ hR hj' k
  rw [withGains_affine, ← Function.iterate_add_apply, Nat.add_comm k j] at e
  have hW := withGains_psd (A := A) (H := H) hQ hR.posSemidef (ownGains A Q H R ((ric A H Q R)^[j] P)) Matrix.PosSemidef.zero k
  constructor
  · have := mahal_contract (u.pd hP hj) (u.pd hP (by omega : n ≤ j + k)) (δ := 0) zero_lt_one e.symm
      (by rwa [zero_smul, sub_zero]) d
    rwa [sub_zero, one_mul] at this
  · rintro rfl
    refine mahal_contract (u.pd hP hj) (u.pd hP (by omega : k ≤ j + k)) u.δ_lt e.symm ?_ d
    exact psd_trans (u.fresh P hP (j + k) (by omega))
      (iter_le_withGains hQ hR Matrix.PosSemidef.zero _ k)

theorem Uniform.mahal_decay (u : Uniform A Q H R c δ) (hQ : Q.PosSemidef) (hR : R.PosDef)
    {P : Matrix (Fin n) (Fin n) ℝ} (hP : P.PosSemidef) {j : ℕ} (hj : n ≤ j) (d : Fin n → ℝ) (b r : ℕ) :
    mahal ((ric A H Q R)^[j + (n * b + r)] P) (prop A Q H R ((ric A H Q R)^[j] P) (n * b + r) *ᵥ d) ≤
      (1 - δ) ^ b * mahal ((ric A H Q R)^[j] P) d := by
  have h0 : ∀ b, mahal ((ric A H Q R)^[j + n * b] P) (prop A Q H R ((ric A H Q R)^[j] P) (n * b) *ᵥ d) ≤
      (1 - δ) ^ b * mahal ((ric A H Q R)^[j] P) d := by
    intro b
    induction b with
    | zero => simp [prop, propagator]
    | succ b ih =>
      have := (u.mahal_step hQ hR hP (j := j + n * b) (by omega) (prop A Q H R ((ric A H Q R)^[j] P) (n * b) *ᵥ d) n).2 rfl
      rw [mulVec_mulVec, Nat.add_comm j (n * b), Function.iterate_add_apply _ (n * b) j, ← prop_add,
        ← Function.iterate_add_apply _ (n * b) j, Nat.add_comm (n * b) j, Nat.add_assoc] at this
      rw [Nat.mul_succ]
      refine this.trans ?_
      rw [pow_succ, mul_comm ((1 - δ) ^ b), mul_assoc]
      exact mul_le_mul_of_nonneg_left ih (by linarith [u.δ_lt])
  have := (u.mahal_step hQ hR hP (j := j + n * b) (by omega) (prop A Q H R ((ric A H Q R)^[j] P) (n * b) *ᵥ d) r).1
  rw [mulVec_mulVec, Nat.add_comm j (n * b), Function.iterate_add_apply _ (n * b) j, ← prop_add,
    ← Function.iterate_add_apply _ (n * b) j, Nat.add_comm (n * b) j, Nat.add_assoc] at this
  exact this.trans (h0 b)

theorem norm_sq_le_dot (v : Fin n → ℝ) : ‖v‖ ^ 2 ≤ v ⬝ᵥ v := by
  have h0 : 0 ≤ v ⬝ᵥ v := Finset.sum_nonneg fun i _ => mul_self_nonneg _
  have : ‖v‖ ≤ Real.sqrt (v ⬝ᵥ v) := by
    refine (pi_norm_le_iff_of_nonneg (Real.sqrt_nonneg _)).2 fun i => ?_
    rw [Real.norm_eq_abs]
    refine Real.abs_le_sqrt ?_
    rw [sq]
    exact Finset.single_le_sum (f := fun i => v i * v i) (fun i _ => mul_self_nonneg _) (Finset.mem_univ i)
  calc ‖v‖ ^ 2 ≤ Real.sqrt (v ⬝ᵥ v) ^ 2 := pow_le_pow_left₀ (norm_nonneg _) this 2
    _ = v ⬝ᵥ v := Real.sq_sqrt h0

theorem dot_le_norm_sq (v : Fin n → ℝ) : v ⬝ᵥ v ≤ n * ‖v‖ ^ 2 := by
  have : ∀ i, v i * v i ≤ ‖v‖ ^ 2 := fun i => by
    rw [← sq, ← sq_abs, ← Real.norm_eq_abs]
    exact pow_le_pow_left₀ (norm_nonneg _) (norm_le_pi_norm v i) 2
  have h := Finset.sum_le_sum fun i (_ : i ∈ Finset.univ) => this i
  rw [Finset.sum_const, Finset.card_univ, Fintype.card_fin, nsmul_eq_mul] at h
  exact h

/-- Errors decay geometrically, uniformly in the initial covariance. -/
theorem Uniform.decay (u : Uniform A Q H R c δ) (hQ : Q.PosSemidef) (hR : R.PosDef) :
    ∃ C ρ : ℝ, 0 < C ∧ 0 < ρ ∧ ρ < 1 ∧ ∀ P : Matrix (Fin n) (Fin n) ℝ, P.PosSemidef → ∀ j, n ≤ j → ∀ (d : Fin n → ℝ) (k : ℕ),
      ‖prop A Q H R ((ric A H Q R)^[j] P) k *ᵥ d‖ ≤ C * ρ ^ k * ‖d‖ := by
  rcases Nat.eq_zero_or_pos n with rfl | hn
  · refine ⟨1, 1 / 2, by norm_num, by norm_num, by norm_num, fun P _ j _ d k => ?_⟩
    rw [Subsingleton.elim (_ *ᵥ d) 0, norm_zero]; positivity
  have hq0 : 0 < 1 - δ := by linarith [u.δ_lt]
  obtain ⟨ρ, h0, h1, -, h2⟩ := geometric_blocks (n := n) hq0 (by linarith [u.δ_pos]) hn
  have hs : Real.sqrt ρ ^ 2 = ρ := Real.sq_sqrt h0.le
  have hc := u.c_pos
  refine ⟨Real.sqrt (c * ((1 - δ)⁻¹ * (c * n))) , Real.sqrt ρ, Real.sqrt_pos.2 (by positivity), Real.sqrt_pos.2 h0, ?_,
    fun P hP j hj d k => ?_⟩
  · rw [Real.sqrt_lt' one_pos]; simpa using h1
  refine le_of_sq_le_sq ?_ (by positivity)
  rw [mul_pow, mul_pow, Real.sq_sqrt (by positivity), ← pow_mul, mul_comm k 2, pow_mul, hs]
  refine (norm_sq_le_dot _).trans ?_
  have e := Nat.div_add_mod k n
  have hd := u.mahal_decay hQ hR hP hj d (k / n) (k % n)
  rw [e] at hd
  have hm : 0 ≤ mahal ((ric A H Q R)^[j] P) d := mahal_nonneg (u.pd hP hj) _
  calc _ ≤ c * mahal ((ric A H Q R)^[j + k] P) (prop A Q H R ((ric A H Q R)^[j] P) k *ᵥ d) :=
        le_mahal_of_upper (u.pd hP (by omega)) hc (u.upper P hP _ (by omega)) _
    _ ≤ c * ((1 - δ) ^ (k / n) * mahal ((ric A H Q R)^[j] P) d) := mul_le_mul_of_nonneg_left hd hc.le
    _ ≤ c * (((1 - δ)⁻¹ * ρ ^ k) * (c * (n * ‖d‖ ^ 2))) := by
        refine mul_le_mul_of_nonneg_left (mul_le_mul (h2 k) ?_ hm (by positivity)) hc.le
        exact (mahal_le_of_lower (u.pd hP hj) hc (u.lower P hP j hj) d).trans
          (mul_le_mul_of_nonneg_left (dot_le_norm_sq d) hc.le)
    _ = _ := by ring

/-- Covariances approach each other geometrically, uniformly in the initial covariances. -/
theorem Uniform.cov_decay (u : Uniform A Q H R c δ) (hQ : Q.PosSemidef) (hR : R.PosDef) :
    ∃ C ρ : ℝ, 0 < C ∧ 0 < ρ ∧ ρ < 1 ∧ ∀ P X : Matrix (Fin n) (Fin n) ℝ, P.PosSemidef → X.PosSemidef → ∀ k, n ≤ k →
      ∀ a b, |((ric A H Q R)^[k] P) a b - ((ric A H Q R)^[k] X) a b| ≤ C * ρ ^ k := by
  rcases Nat.eq_zero_or_pos n with rfl | hn
  · exact ⟨1, 1 / 2, by norm_num, by norm_num, by norm_num, fun P X _ _ k _ a => a.elim0⟩
  have hq0 : 0 < 1 - δ := by linarith [u.δ_lt]
  obtain ⟨ρ, h0, h1, hρ, h2⟩ := geometric_blocks (n := n) hq0 (by linarith [u.δ_pos]) hn
  have hc := u.c_pos
  have hd : 0 < δ⁻¹ - 1 := by
    have := (one_lt_inv₀ u.δ_pos).2 u.δ_lt; linarith
  refine ⟨(δ⁻¹ - 1) * c * ((1 - δ)⁻¹ * (1 - δ)⁻¹), ρ, by positivity, h0, h1, fun P X hP hX k hk a b => ?_⟩
  obtain ⟨i, rfl⟩ := Nat.exists_eq_add_of_le hk
  have e : n + i = n * (i / n) + (n + i % n) := by
    have := Nat.div_add_mod i n; omega
  have h3 := u.close hQ hR hP hX (k := n + i % n) (by omega) (i / n) a b
  rw [← e] at h3
  refine h3.trans ?_
  rw [pow_add, hρ, mul_assoc ((δ⁻¹ - 1) * c)]
  refine mul_le_mul_of_nonneg_left ?_ (by positivity)
  have : (1 - δ)⁻¹ * (1 - δ)⁻¹ * ((1 - δ) * ρ ^ i) = (1 - δ)⁻¹ * ρ ^ i := by field_simp
  rw [this]; exact h2 i

end

end KK
