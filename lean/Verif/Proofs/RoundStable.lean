import Mathlib.Analysis.Matrix.Normed
import Verif.Proofs.RoundStep
import Verif.Props.Observer

/-!
# A recursion with errors in every step stays near the filter recursion
-/

set_option linter.unusedSectionVars false

namespace KK

open Matrix Filter Topology

section
variable {n m : ℕ} {A Q : Matrix (Fin n) (Fin n) ℝ} {H : Matrix (Fin m) (Fin n) ℝ} {R : Matrix (Fin m) (Fin m) ℝ}

/-! ### the gain is uniformly continuous -/

theorem innovCov_tendsto {ι : Type} {l : Filter ι} {T : ι → Matrix (Fin n) (Fin n) ℝ} {X : Matrix (Fin n) (Fin n) ℝ}
    (hT : Tendsto T l (𝓝 X)) : Tendsto (fun i => innovCov H (T i) R) l (𝓝 (innovCov H X R)) := by
  have hS : Continuous fun X : Matrix (Fin n) (Fin n) ℝ => innovCov H X R := by unfold innovCov; fun_prop
  exact (hS.tendsto X).comp hT

theorem kGain_tendsto {ι : Type} {l : Filter ι} {T : ι → Matrix (Fin n) (Fin n) ℝ} {X : Matrix (Fin n) (Fin n) ℝ} (hT : Tendsto T l (𝓝 X))
    (hdet : (innovCov H X R).det ≠ 0) : Tendsto (fun i => kGain H (T i) R) l (𝓝 (kGain H X R)) := by
  have h1 : Tendsto (fun i => (innovCov H (T i) R)⁻¹ * (1 : Matrix (Fin m) (Fin m) ℝ)) l
      (𝓝 ((innovCov H X R)⁻¹ * (1 : Matrix (Fin m) (Fin m) ℝ))) :=
    inv_mul_tendsto (innovCov_tendsto hT) tendsto_const_nhds hdet
  simp only [Matrix.mul_one] at h1
  have h2 : Tendsto (fun i => T i * Hᵀ) l (𝓝 (X * Hᵀ)) := by
    have : Continuous fun X : Matrix (Fin n) (Fin n) ℝ => X * Hᵀ := by fun_prop
    exact (this.tendsto X).comp hT
  have h3 : Continuous fun t : Matrix (Fin n) (Fin m) ℝ × Matrix (Fin m) (Fin m) ℝ => t.1 * t.2 :=
    continuous_fst.matrix_mul continuous_snd
  have h4 := (h3.tendsto (X * Hᵀ, (innovCov H X R)⁻¹)).comp (h2.prodMk_nhds h1)
  unfold kGain
  exact h4

theorem unif_gain_entry (hQ : Q.PosSemidef) (hR : R.PosDef) (Y : ℝ) {θ : ℝ} (hθ : 0 < θ) : ∃ r > 0, ∀ X X' : Matrix (Fin n) (Fin n) ℝ,
    X.PosSemidef → (∀ i j, |X i j| ≤ Y) → (∀ i j, |X' i j - X i j| ≤ r) → r ≤ |(innovCov H (priorCov A X' Q) R).det| ∧
      ∀ i j, |kGain H (priorCov A X' Q) R i j - kGain H (priorCov A X Q) R i j| ≤ θ := by
  by_contra hcon
  have hn := fun k => eta_of_seq hcon k
  push Not at hn
  choose X X' hX hY hr hbad using hn
  set l : Filter ℕ := (hyperfilter ℕ : Filter ℕ) with hl
  have hη : Tendsto (fun k : ℕ => (1 : ℝ) / ((k : ℝ) + 1)) l (𝓝 0) := hyper_tendsto seq_tendsto
  obtain ⟨L, hL⟩ := ultra_mat (l := hyperfilter ℕ) (D := Y) (f := X) (.of_forall hY)
  have hd : Tendsto (fun i => X' i - X i) l (𝓝 0) :=
    tendsto_pi_nhds.2 fun a => tendsto_pi_nhds.2 fun b => squeeze_zero_norm (fun i => hr i a b) hη
  have hL' : Tendsto X' l (𝓝 L) := by simpa using hd.add hL
  have hLp : L.PosSemidef := by
    refine Matrix.posSemidef_iff_dotProduct_mulVec.2 ⟨isHermitian_of_symm ?_, fun y => ?_⟩
    · have h1 : Tendsto (fun i => (X i)ᵀ) l (𝓝 Lᵀ) := (continuous_id.matrix_transpose.tendsto L).comp hL
      refine tendsto_nhds_unique h1 (hL.congr fun i => (IsHermitian.symm' (hX i).1).symm)
    · have hc : Continuous fun M : Matrix (Fin n) (Fin n) ℝ => star y ⬝ᵥ (M *ᵥ y) := by fun_prop
      exact ge_of_tendsto ((hc.tendsto L).comp hL) (.of_forall fun i => (hX i).dotProduct_mulVec_nonneg y)
  have hp : Continuous fun M : Matrix (Fin n) (Fin n) ℝ => priorCov A M Q := by unfold priorCov; fun_prop
  have hS := innovCov_posDef (H := H) (priorCov_posSemidef (A := A) hLp hQ) hR
  have hdet := posDef_det_ne hS
  have t1 := kGain_tendsto (H := H) (R := R) ((hp.tendsto L).comp hL) hdet
  have t2 := kGain_tendsto (H := H) (R := R) ((hp.tendsto L).comp hL') hdet
  have hdc : Continuous fun M : Matrix (Fin n) (Fin n) ℝ => |(innovCov H (priorCov A M Q) R).det| := by
    unfold priorCov innovCov; fun_prop
  have t3 := (hdc.tendsto L).comp hL'
  have e3 : ∀ᶠ i : ℕ in l, (1 : ℝ) / ((i : ℝ) + 1) < |(innovCov H (priorCov A (X' i) Q) R).det| :=
    hη.eventually_lt t3 (abs_pos.2 hdet)
  have e4 : ∀ᶠ i : ℕ in l, ∀ a, ∀ b, |kGain H (priorCov A (X' i) Q) R a b - kGain H (priorCov A (X i) Q) R a b| ≤ θ :=
    eventually_all.2 fun a => tendsto_near (tendsto_pi_nhds.1 t2 a) (tendsto_pi_nhds.1 t1 a) hθ
  obtain ⟨i, i1, i2⟩ := (e3.and e4).exists
  obtain ⟨a, b, hab⟩ := hbad i i1.le
  exact absurd (i2 a b) (not_le.2 hab)

end

open scoped Matrix.Norms.Elementwise

/-! ### products of linear maps -/

section
variable {E : Type*} [NormedAddCommGroup E]

/-- `L (j+k-1) ∘ ... ∘ L j`. -/
def seg (L : ℕ → E →+ E) (j : ℕ) : ℕ → E →+ E
  | 0 => AddMonoidHom.id E
  | k + 1 => (L (j + k)).comp (seg L j k)

theorem seg_sum (L : ℕ → E →+ E) (e w : ℕ → E) (N : ℕ) (h : ∀ i < N, e (i + 1) = L i (e i) + w i) :
    e N = seg L 0 N (e 0) + ∑ i ∈ Finset.range N, seg L (i + 1) (N - 1 - i) (w i) := by
  induction N with
  | zero => simp [seg]
  | succ N ih =>
    rw [h N (by omega), ih fun i hi => h i (by omega), Finset.sum_range_succ, map_add, map_sum, seg, add_assoc, zero_add]
    congr 1
    congr 1
    · refine Finset.sum_congr rfl fun i hi => ?_
      have hi' := Finset.mem_range.1 hi
      rw [show N + 1 - 1 - i = (N - 1 - i) + 1 by omega, seg, show i + 1 + (N - 1 - i) = N by omega]
      rfl
    · simp [seg]

/-- If the products decay, and the errors are small as long as the size is at most `r`, then the size stays at most `r`. -/
theorem trap {L : ℕ → E →+ E} {C ρ : ℝ} (hC : 1 ≤ C) (h0 : 0 < ρ) (h1 : ρ < 1)
    {e w : ℕ → E} {N : ℕ} (hL : ∀ j k d, j + k ≤ N → ‖seg L j k d‖ ≤ C * ρ ^ k * ‖d‖)
    (h : ∀ i < N, e (i + 1) = L i (e i) + w i)
    {r β : ℝ} (hβ : 0 ≤ β) (hw : ∀ i < N, ‖e i‖ ≤ r → ‖w i‖ ≤ β) (hr : C * ‖e 0‖ + C * (1 - ρ)⁻¹ * β ≤ r) :
    ∀ i ≤ N, ‖e i‖ ≤ r := by
  intro i
  induction i using Nat.strong_induction_on with
  | _ i ih =>
    intro hi
    have hC0 : 0 ≤ C := by linarith
    have hρ : 0 < (1 - ρ)⁻¹ := inv_pos.2 (by linarith)
    rw [seg_sum L e w i fun k hk => h k (by omega)]
    refine (norm_add_le _ _).trans ((add_le_add ?_ ((norm_sum_le _ _).trans (Finset.sum_le_sum
      (g := fun k => C * β * ρ ^ (i - 1 - k)) fun k hk => ?_))).trans ?_ (b := C * ‖e 0‖ + _))
    · refine (hL 0 i (e 0) (by omega)).trans (mul_le_mul_of_nonneg_right ?_ (norm_nonneg _))
      exact mul_le_of_le_one_right hC0 (pow_le_one₀ h0.le h1.le)
    · have hk' := Finset.mem_range.1 hk
      refine (hL (k + 1) (i - 1 - k) (w k) (by omega)).trans ?_
      have := mul_le_mul_of_nonneg_left (hw k (by omega) (ih k hk' (by omega)))
        (mul_nonneg hC0 (pow_nonneg h0.le (i - 1 - k)))
      linarith
    · rw [← Finset.mul_sum]
      have := mul_le_mul_of_nonneg_left (@geom_le (strict 0) _ h0 h1 i) (mul_nonneg hC0 hβ)
      linarith

end

/-! ### decay of the propagator, from the very first step -/

section
variable {n m : ℕ} {A Q : Matrix (Fin n) (Fin n) ℝ} {H : Matrix (Fin m) (Fin n) ℝ} {R : Matrix (Fin m) (Fin m) ℝ}

theorem mat_norm_le {a b : ℕ} {M : Matrix (Fin a) (Fin b) ℝ} {r : ℝ} (hr : 0 ≤ r) : ‖M‖ ≤ r ↔ ∀ i j, |M i j| ≤ r :=
  Matrix.norm_le_iff hr

theorem entry_le_norm {a b : ℕ} (M : Matrix (Fin a) (Fin b) ℝ) (i : Fin a) (j : Fin b) : |M i j| ≤ ‖M‖ :=
  Matrix.norm_entry_le_entrywise_sup_norm M

theorem mul_norm_le {a b c : ℕ} (M : Matrix (Fin a) (Fin b) ℝ) (N : Matrix (Fin b) (Fin c) ℝ) : ‖M * N‖ ≤ b * (‖M‖ * ‖N‖) := by
  refine (mat_norm_le (by positivity)).2 fun i j => ?_
  rw [Matrix.mul_apply]
  refine (Finset.abs_sum_le_sum_abs _ _).trans ((Finset.sum_le_sum (g := fun _ => ‖M‖ * ‖N‖) fun k _ => ?_).trans ?_)
  · rw [abs_mul]
    exact mul_le_mul (entry_le_norm M i k) (entry_le_norm N k j) (abs_nonneg _) (norm_nonneg _)
  · rw [Finset.sum_const, Finset.card_univ, Fintype.card_fin, nsmul_eq_mul]

theorem transpose_norm {a b : ℕ} (M : Matrix (Fin a) (Fin b) ℝ) : ‖Mᵀ‖ = ‖M‖ := Matrix.norm_transpose M

theorem mulVec_norm {a b : ℕ} (M : Matrix (Fin a) (Fin b) ℝ) (v : Fin b → ℝ) : ‖M *ᵥ v‖ ≤ b * ‖M‖ * ‖v‖ := by
  have := mulVec_norm_le (norm_nonneg M) (entry_le_norm M) v
  linarith

/-- The propagator decays from the start: the constants depend on the model and the initial covariance. -/
theorem decay_start {c δ : ℝ} (u : Uniform A Q H R c δ) (hQ : Q.PosSemidef) (hR : R.PosDef) {P : Matrix (Fin n) (Fin n) ℝ}
    (hP : P.PosSemidef) : ∃ C ρ : ℝ, 1 ≤ C ∧ 0 < ρ ∧ ρ < 1 ∧ ∀ (j k : ℕ) (d : Fin n → ℝ),
      ‖prop A Q H R ((ric A H Q R)^[j] P) k *ᵥ d‖ ≤ C * ρ ^ k * ‖d‖ := by
  obtain ⟨C, ρ, hC, h0, h1, hd⟩ := u.decay hQ hR
  -- all propagators among the first steps
  obtain ⟨G, hG, hb⟩ : ∃ G : ℝ, 1 ≤ G ∧ ∀ j ≤ n, ∀ k ≤ n, ∀ d, ‖prop A Q H R ((ric A H Q R)^[j] P) k *ᵥ d‖ ≤ G * ‖d‖ := by
    refine ⟨1 + ∑ j ∈ Finset.range (n + 1), ∑ k ∈ Finset.range (n + 1), n * ‖prop A Q H R ((ric A H Q R)^[j] P) k‖, ?_, ?_⟩
    · have : 0 ≤ ∑ j ∈ Finset.range (n + 1), ∑ k ∈ Finset.range (n + 1), n * ‖prop A Q H R ((ric A H Q R)^[j] P) k‖ :=
        Finset.sum_nonneg fun j _ => Finset.sum_nonneg fun k _ => by positivity
      linarith
    · intro j hj k hk d
      refine (mulVec_norm _ d).trans (mul_le_mul_of_nonneg_right ?_ (norm_nonneg d))
      have e1 := Finset.single_le_sum (f := fun j => ∑ k ∈ Finset.range (n + 1), n * ‖prop A Q H R ((ric A H Q R)^[j] P) k‖)
        (fun j _ => Finset.sum_nonneg fun k _ => by positivity) (Finset.mem_range.2 (Nat.lt_succ_of_le hj))
      have e2 := Finset.single_le_sum (f := fun k => n * ‖prop A Q H R ((ric A H Q R)^[j] P) k‖)
        (fun k _ => by positivity) (Finset.mem_range.2 (Nat.lt_succ_of_le hk))
      linarith
  have hρ : 0 < ρ ^ n := by positivity
  have hinv : 1 ≤ (ρ ^ n)⁻¹ := (one_le_inv₀ hρ).2 (pow_le_one₀ h0.le h1.le)
  have hGi : 0 ≤ G * (ρ ^ n)⁻¹ := by positivity
  have hCGi : 0 ≤ C * G * (ρ ^ n)⁻¹ := by positivity
  refine ⟨C + G * (ρ ^ n)⁻¹ + C * G * (ρ ^ n)⁻¹, ρ, by nlinarith, h0, h1, fun j k d => ?_⟩
  have hd0 := norm_nonneg d
  have hk0 : 0 ≤ ρ ^ k := by positivity
  rcases Nat.lt_or_ge j n with hj | hj
  · rcases Nat.lt_or_ge k n with hk | hk
    · refine (hb j hj.le k hk.le d).trans (mul_le_mul_of_nonneg_right ?_ hd0)
      have e : ρ ^ n ≤ ρ ^ k := pow_le_pow_of_le_one h0.le h1.le hk.le
      have e' : 1 ≤ (ρ ^ n)⁻¹ * ρ ^ k := by
        rw [← inv_mul_cancel₀ hρ.ne']; exact mul_le_mul_of_nonneg_left e (by positivity)
      have : G ≤ G * ((ρ ^ n)⁻¹ * ρ ^ k) := le_mul_of_one_le_right (by linarith) e'
      have : 0 ≤ C * ρ ^ k := by positivity
      have : 0 ≤ C * G * (ρ ^ n)⁻¹ * ρ ^ k := by positivity
      linarith
    · obtain ⟨k', rfl⟩ : ∃ k', k = (n - j) + k' := ⟨k - (n - j), by omega⟩
      rw [prop_add, ← Function.iterate_add_apply, ← mulVec_mulVec, show n - j + j = n by omega]
      refine (hd P hP n le_rfl _ k').trans ?_
      have e1 := mul_le_mul_of_nonneg_left (hb j hj.le (n - j) (by omega) d) (show 0 ≤ C * ρ ^ k' by positivity)
      refine e1.trans ?_
      rw [← mul_assoc]
      refine mul_le_mul_of_nonneg_right ?_ hd0
      have e : ρ ^ n ≤ ρ ^ (n - j) := pow_le_pow_of_le_one h0.le h1.le (by omega)
      have e' : 1 ≤ (ρ ^ n)⁻¹ * ρ ^ (n - j) := by
        rw [← inv_mul_cancel₀ hρ.ne']; exact mul_le_mul_of_nonneg_left e (by positivity)
      have e2 : C * ρ ^ k' * G ≤ C * ρ ^ k' * G * ((ρ ^ n)⁻¹ * ρ ^ (n - j)) := le_mul_of_one_le_right (by positivity) e'
      have : 0 ≤ C * ρ ^ (n - j + k') := by positivity
      have : 0 ≤ G * (ρ ^ n)⁻¹ * ρ ^ (n - j + k') := by positivity
      have e3 : C * G * (ρ ^ n)⁻¹ * ρ ^ (n - j + k') = C * ρ ^ k' * G * ((ρ ^ n)⁻¹ * ρ ^ (n - j)) := by rw [pow_add]; ring
      linarith
  · refine (hd P hP j hj d k).trans (mul_le_mul_of_nonneg_right (mul_le_mul_of_nonneg_right ?_ hk0) hd0)
    linarith

theorem cov_bound {c δ : ℝ} (u : Uniform A Q H R c δ) (hQ : Q.PosSemidef) (hR : R.PosDef) {P : Matrix (Fin n) (Fin n) ℝ}
    (hP : P.PosSemidef) : ∃ Y : ℝ, 0 < Y ∧ ∀ k, ‖(ric A H Q R)^[k] P‖ ≤ Y := by
  have hs : 0 ≤ ∑ k ∈ Finset.range n, ‖(ric A H Q R)^[k] P‖ := Finset.sum_nonneg fun k _ => norm_nonneg _
  have hc := u.c_pos
  refine ⟨c + ∑ k ∈ Finset.range n, ‖(ric A H Q R)^[k] P‖, by linarith, fun k => ?_⟩
  rcases Nat.lt_or_ge k n with hk | hk
  · have := Finset.single_le_sum (f := fun k => ‖(ric A H Q R)^[k] P‖) (fun k _ => norm_nonneg _) (Finset.mem_range.2 hk)
    linarith
  · have hp := iter_psd (A := A) (H := H) hQ hR hP k
    have := (mat_norm_le hc.le).2 (entry_le (IsHermitian.symm' hp.1) (u.upper P hP k hk)
      ((psd_smul Matrix.PosSemidef.one hc.le).add hp))
    linarith

theorem unif_gain (hQ : Q.PosSemidef) (hR : R.PosDef) (Y : ℝ) {θ : ℝ} (hθ : 0 < θ) : ∃ r > 0, ∀ X X' : Matrix (Fin n) (Fin n) ℝ,
    X.PosSemidef → ‖X‖ ≤ Y → ‖X' - X‖ ≤ r → r ≤ |(innovCov H (priorCov A X' Q) R).det| ∧
      ‖kGain H (priorCov A X' Q) R - kGain H (priorCov A X Q) R‖ ≤ θ := by
  obtain ⟨r, hr, h⟩ := unif_gain_entry (A := A) (H := H) hQ hR Y hθ
  refine ⟨r, hr, fun X X' h1 h2 h3 => ?_⟩
  have := h X X' h1 (fun i j => (entry_le_norm X i j).trans h2) fun i j => (entry_le_norm (X' - X) i j).trans h3
  exact ⟨this.1, (mat_norm_le hθ.le).2 this.2⟩

/-! ### the recursion -/

/-- The difference of two updated covariances. -/
theorem post_diff {p p' : Matrix (Fin n) (Fin n) ℝ} (hp : pᵀ = p) (hRs : Rᵀ = R) (hd : (innovCov H p R).det ≠ 0)
    (hd' : (innovCov H p' R).det ≠ 0) :
    postCov H p' R - postCov H p R = (1 - kGain H p' R * H) * (p' - p) * (1 - kGain H p R * H)ᵀ := by
  have hS : (innovCov H p R)ᵀ = innovCov H p R := by
    rw [innovCov, transpose_add, transpose_mul, transpose_mul, transpose_transpose, hp, hRs, Matrix.mul_assoc]
  have e1 : kGain H p R * innovCov H p R = p * Hᵀ := by
    rw [kGain, Matrix.mul_assoc, Matrix.nonsing_inv_mul _ (isUnit_iff_ne_zero.2 hd), Matrix.mul_one]
  have e2 : kGain H p' R * innovCov H p' R = p' * Hᵀ := by
    rw [kGain, Matrix.mul_assoc, Matrix.nonsing_inv_mul _ (isUnit_iff_ne_zero.2 hd'), Matrix.mul_one]
  have e3 : innovCov H p R * (kGain H p R)ᵀ = H * p := by
    have := congrArg transpose e1
    rwa [transpose_mul, hS, transpose_mul, transpose_transpose, hp] at this
  rw [postCov, postCov]
  generalize kGain H p R = K at *
  generalize kGain H p' R = K' at *
  have e4 : (1 - K' * H) * (p' - p) * Hᵀ = -((K - K') * innovCov H p R) := by
    rw [innovCov, Matrix.mul_add] at e2
    rw [Matrix.sub_mul K K', e1]
    rw [innovCov, Matrix.mul_add]
    simp only [Matrix.mul_sub, Matrix.sub_mul, Matrix.one_mul, Matrix.mul_assoc] at e2 ⊢
    have e5 : p' * Hᵀ - K' * (H * (p' * Hᵀ)) = K' * R := by rw [← e2]; abel_nf; rw [e2]; abel
    rw [e5]
    abel
  rw [transpose_sub, transpose_one, transpose_mul, Matrix.mul_sub, Matrix.mul_one, ← Matrix.mul_assoc _ Hᵀ, e4, Matrix.neg_mul,
    Matrix.mul_assoc _ _ Kᵀ, e3]
  simp only [Matrix.mul_sub, Matrix.sub_mul, Matrix.one_mul, Matrix.mul_assoc]
  abel

theorem ric_diff (hQ : Q.PosSemidef) (hR : R.PosDef) {X X' : Matrix (Fin n) (Fin n) ℝ} (hX : X.PosSemidef)
    (hd' : (innovCov H (priorCov A X' Q) R).det ≠ 0) :
    ric A H Q R X' - ric A H Q R X = (1 - kGain H (priorCov A X' Q) R * H) * A * (X' - X) *
      ((1 - kGain H (priorCov A X Q) R * H) * A)ᵀ := by
  have hp := priorCov_posSemidef (A := A) hX hQ
  rw [ric, ric, post_diff (IsHermitian.symm' hp.1) (IsHermitian.symm' hR.1) (posDef_det_ne (innovCov_posDef hp hR)) hd']
  have : priorCov A X' Q - priorCov A X Q = A * (X' - X) * Aᵀ := by
    rw [priorCov, priorCov, Matrix.mul_sub, Matrix.sub_mul]; abel
  rw [this, transpose_mul]
  simp only [Matrix.mul_assoc]

theorem norm_of_mulVec {a b : ℕ} {T : Matrix (Fin a) (Fin b) ℝ} {r : ℝ} (hr : 0 ≤ r) (h : ∀ d, ‖T *ᵥ d‖ ≤ r * ‖d‖) : ‖T‖ ≤ r := by
  refine (mat_norm_le hr).2 fun i j => ?_
  have h1 := h (Pi.single j 1)
  have h2 := norm_le_pi_norm (T *ᵥ Pi.single j 1) i
  rw [Pi.norm_single, norm_one, mul_one] at h1
  have h3 := h2.trans h1
  rwa [mulVec_single_one, Real.norm_eq_abs] at h3

theorem conj_norm_le {a : ℕ} (T X : Matrix (Fin a) (Fin a) ℝ) : ‖T * X * Tᵀ‖ ≤ (a * ‖T‖) ^ 2 * ‖X‖ := by
  refine (mul_norm_le _ _).trans ?_
  rw [transpose_norm]
  have := mul_norm_le T X
  have h2 := mul_le_mul_of_nonneg_left (mul_le_mul_of_nonneg_right this (norm_nonneg T)) (Nat.cast_nonneg (α := ℝ) a)
  refine h2.trans (le_of_eq (by ring))

/-- `X ↦ M X M'` -/
def conjHom {a : ℕ} (M : Matrix (Fin a) (Fin a) ℝ) : Matrix (Fin a) (Fin a) ℝ →+ Matrix (Fin a) (Fin a) ℝ where
  toFun X := M * X * Mᵀ
  map_zero' := by simp
  map_add' X Y := by rw [Matrix.mul_add, Matrix.add_mul]

/-- `v ↦ M v` -/
def mulHom {a : ℕ} (M : Matrix (Fin a) (Fin a) ℝ) : (Fin a → ℝ) →+ (Fin a → ℝ) where
  toFun v := M *ᵥ v
  map_zero' := by simp
  map_add' X Y := mulVec_add _ _ _

theorem seg_conj (P : Matrix (Fin n) (Fin n) ℝ) (j k : ℕ) (X : Matrix (Fin n) (Fin n) ℝ) :
    seg (fun i => conjHom ((1 - ownGains A Q H R P i * H) * A)) j k X =
      prop A Q H R ((ric A H Q R)^[j] P) k * X * (prop A Q H R ((ric A H Q R)^[j] P) k)ᵀ := by
  induction k with
  | zero => simp [seg, prop, propagator]
  | succ k ih =>
    have e : prop A Q H R ((ric A H Q R)^[j] P) (k + 1) =
        (1 - ownGains A Q H R P (j + k) * H) * A * prop A Q H R ((ric A H Q R)^[j] P) k := by
      rw [prop, propagator, ← ownGains_shift, prop, ← ownGains_shift]
    rw [seg, AddMonoidHom.comp_apply, ih, e]
    simp only [conjHom, AddMonoidHom.coe_mk, ZeroHom.coe_mk, transpose_mul, Matrix.mul_assoc]

theorem seg_mul (P : Matrix (Fin n) (Fin n) ℝ) (j k : ℕ) (v : Fin n → ℝ) :
    seg (fun i => mulHom ((1 - ownGains A Q H R P i * H) * A)) j k v = prop A Q H R ((ric A H Q R)^[j] P) k *ᵥ v := by
  induction k with
  | zero => simp [seg, prop, propagator]
  | succ k ih =>
    have e : prop A Q H R ((ric A H Q R)^[j] P) (k + 1) =
        (1 - ownGains A Q H R P (j + k) * H) * A * prop A Q H R ((ric A H Q R)^[j] P) k := by
      rw [prop, propagator, ← ownGains_shift, prop, ← ownGains_shift]
    rw [seg, AddMonoidHom.comp_apply, ih, e, ← mulVec_mulVec]
    rfl

/-- What the recursion needs of the model and the initial covariance: errors decay, covariances stay bounded, and bounded data give
bounded states. -/
structure Settles (A Q : Matrix (Fin n) (Fin n) ℝ) (H : Matrix (Fin m) (Fin n) ℝ) (R : Matrix (Fin m) (Fin m) ℝ)
    (P : Matrix (Fin n) (Fin n) ℝ) : Prop where
  decay : ∃ C ρ : ℝ, 1 ≤ C ∧ 0 < ρ ∧ ρ < 1 ∧ ∀ (j k : ℕ) (d : Fin n → ℝ),
    ‖prop A Q H R ((ric A H Q R)^[j] P) k *ᵥ d‖ ≤ C * ρ ^ k * ‖d‖
  bound : ∃ Y : ℝ, 0 < Y ∧ ∀ k, ‖(ric A H Q R)^[k] P‖ ≤ Y
  run : ∃ C ρ : ℝ, 0 < C ∧ 0 < ρ ∧ ρ < 1 ∧ ∀ (b : Belief n) (ss : List (LinStep n m)), b.P = P →
    ConstantModel A H Q R ss → ∀ D, 0 ≤ D → (∀ (l : ℕ) (s : LinStep n m), ss[l]? = some s → ‖s.z‖ ≤ D ∧ ‖s.c‖ ≤ D) →
    ∀ k, k ≤ ss.length → ‖(lastOf b (ss.take k)).x‖ ≤ C * ρ ^ k * ‖b.x‖ + C * D

theorem Settles.of_observable (hQ : Q.PosSemidef) (hR : R.PosDef) (hc : Controllable A Q) (ho : Observable A H)
    {P : Matrix (Fin n) (Fin n) ℝ} (hP : P.PosSemidef) : Settles A Q H R P := by
  obtain ⟨c, δ₀, u⟩ := exists_uniform (A := A) (H := H) hQ hR hc ho
  exact ⟨decay_start u hQ hR hP, cov_bound u hQ hR hP, @run_bound_start _ _ _ _ _ _ (strict 0) _ _ u hQ hR P hP⟩

/-- A recursion that errs by at most `δ` in each step stays within `ε` of the filter recursion, for as long as it runs. -/
theorem stay_near (hQ : Q.PosSemidef) (hR : R.PosDef) (b : Belief n)
    (hP : b.P.PosSemidef) (hS : Settles A Q H R b.P) {D ε : ℝ} (hD : 0 ≤ D) (hε : 0 < ε) : ∃ δ > 0, ∃ X : ℝ, ∀ (ss : List (LinStep n m)), ConstantModel A H Q R ss →
      (∀ (l : ℕ) (s : LinStep n m), ss[l]? = some s → ‖s.z‖ ≤ D ∧ ‖s.c‖ ≤ D) → ∀ (b' : ℕ → Belief n) (N : ℕ), N ≤ ss.length →
      ‖(b' 0).x - b.x‖ ≤ δ → ‖(b' 0).P - b.P‖ ≤ δ →
      (∀ (i : ℕ) (s : LinStep n m), i < N → ss[i]? = some s → ‖(b' (i + 1)).x - (s.next (b' i)).x‖ ≤ δ ∧
        ‖(b' (i + 1)).P - (s.next (b' i)).P‖ ≤ δ) →
      ∀ i ≤ N, ‖(b' i).x - (lastOf b (ss.take i)).x‖ ≤ ε ∧ ‖(b' i).P - (lastOf b (ss.take i)).P‖ ≤ ε ∧
        ‖(b' i).x‖ ≤ X ∧ ‖(b' i).P‖ ≤ X ∧ δ ≤ |(innovCov H (priorCov A (b' i).P Q) R).det| ∧
        ‖kGain H (priorCov A (b' i).P Q) R - ownGains A Q H R b.P i‖ ≤ ε := by
  obtain ⟨C, ρ, hC, h0, h1, hd⟩ := hS.decay
  obtain ⟨Y, hY0, hY⟩ := hS.bound
  obtain ⟨C', ρ', hC', h0', h1', hrun⟩ := hS.run
  have hC0 : 0 < C := by linarith
  have hρ : 0 < (1 - ρ)⁻¹ := inv_pos.2 (by linarith)
  -- constants
  obtain ⟨M, hM⟩ : ∃ M : ℕ → Matrix (Fin n) (Fin n) ℝ, M = fun i => (1 - ownGains A Q H R b.P i * H) * A := ⟨_, rfl⟩
  have hprop : ∀ j k, ‖prop A Q H R ((ric A H Q R)^[j] b.P) k‖ ≤ C * ρ ^ k := fun j k =>
    norm_of_mulVec (by positivity) (hd j k)
  have hMb : ∀ i, ‖M i‖ ≤ C := fun i => by
    have e : prop A Q H R ((ric A H Q R)^[i] b.P) 1 = M i := by
      rw [prop, propagator, propagator, Matrix.mul_one, ← ownGains_shift, hM]; rfl
    rw [← e]
    refine (hprop i 1).trans ?_
    rw [pow_one]; exact mul_le_of_le_one_right hC0.le h1.le
  obtain ⟨C₁, hC₁⟩ : ∃ C₁ : ℝ, C₁ = C + (n * C) ^ 2 := ⟨_, rfl⟩
  have hC₁C : C ≤ C₁ := by rw [hC₁]; have : 0 ≤ ((n : ℝ) * C) ^ 2 := by positivity
                           linarith
  have hC₁1 : 1 ≤ C₁ := by linarith
  obtain ⟨Γ, hΓ⟩ : ∃ Γ : ℝ, Γ = C₁ * (1 - ρ)⁻¹ := ⟨_, rfl⟩
  have hΓ0 : 0 < Γ := by rw [hΓ]; positivity
  obtain ⟨c₁, hc₁⟩ : ∃ c₁ : ℝ, c₁ = n * (m * ‖H * A‖ * (n * C)) := ⟨_, rfl⟩
  have hc₁0 : 0 ≤ c₁ := by rw [hc₁]; positivity
  obtain ⟨X₀, hX₀⟩ : ∃ X₀ : ℝ, X₀ = C' * ‖b.x‖ + C' * D := ⟨_, rfl⟩
  have hX₀0 : 0 ≤ X₀ := by rw [hX₀]; positivity
  obtain ⟨c₂, hc₂⟩ : ∃ c₂ : ℝ, c₂ = m * (D + n * ‖H‖ * (n * ‖A‖ * (X₀ + 1) + D)) := ⟨_, rfl⟩
  have hc₂0 : 0 ≤ c₂ := by rw [hc₂]; positivity
  obtain ⟨ε', hε', hε'ε, hε'1⟩ : ∃ ε' : ℝ, 0 < ε' ∧ ε' ≤ ε ∧ ε' ≤ 1 :=
    ⟨min ε 1, lt_min hε one_pos, min_le_left _ _, min_le_right _ _⟩
  obtain ⟨θ, hθ, hθε, hθ1, hθ2⟩ : ∃ θ : ℝ, 0 < θ ∧ θ ≤ ε ∧ Γ * θ * c₁ ≤ 1 / 2 ∧ Γ * θ * c₂ ≤ ε' / 2 := by
    have k1 : 0 < 2 * (Γ * c₁ + 1) := by positivity
    have k2 : 0 < 2 * (Γ * c₂ + 1) := by positivity
    refine ⟨min ε (min (1 / (2 * (Γ * c₁ + 1))) (ε' / (2 * (Γ * c₂ + 1)))), by positivity, min_le_left _ _, ?_, ?_⟩
    · have e1 : min ε (min (1 / (2 * (Γ * c₁ + 1))) (ε' / (2 * (Γ * c₂ + 1)))) ≤ 1 / (2 * (Γ * c₁ + 1)) :=
        (min_le_right _ _).trans (min_le_left _ _)
      have e2 := mul_le_mul_of_nonneg_left e1 (show 0 ≤ Γ * c₁ by positivity)
      have e3 : Γ * c₁ * (1 / (2 * (Γ * c₁ + 1))) ≤ 1 / 2 := by
        rw [mul_one_div, div_le_div_iff₀ k1 two_pos]; linarith
      linarith
    · have e1 : min ε (min (1 / (2 * (Γ * c₁ + 1))) (ε' / (2 * (Γ * c₂ + 1)))) ≤ ε' / (2 * (Γ * c₂ + 1)) :=
        (min_le_right _ _).trans (min_le_right _ _)
      have e2 := mul_le_mul_of_nonneg_left e1 (show 0 ≤ Γ * c₂ by positivity)
      have e3 : Γ * c₂ * (ε' / (2 * (Γ * c₂ + 1))) ≤ ε' / 2 := by
        rw [← mul_div_assoc, div_le_div_iff₀ k2 two_pos]; nlinarith
      linarith
  obtain ⟨r₀, hr₀, hgain⟩ := unif_gain (A := A) (H := H) hQ hR Y hθ
  obtain ⟨r, hr, hrr₀, hrε'⟩ : ∃ r : ℝ, 0 < r ∧ r ≤ r₀ ∧ r ≤ ε' :=
    ⟨min r₀ ε', lt_min hr₀ hε', min_le_left _ _, min_le_right _ _⟩
  obtain ⟨δ, hδ, hδr⟩ : ∃ δ : ℝ, 0 < δ ∧ (C₁ + Γ) * δ = r / 2 :=
    ⟨r / 2 / (C₁ + Γ), by positivity, by field_simp⟩
  have hδr' : δ ≤ r := by nlinarith
  refine ⟨δ, hδ, X₀ + 1 + Y, fun ss hcm hdat b' N hN hx0 hP0 hstep => ?_⟩
  have hexP : ∀ i ≤ N, (lastOf b (ss.take i)).P = (ric A H Q R)^[i] b.P := fun i hi => lastOf_const hcm b i (by omega)
  have hexx : ∀ i ≤ N, ‖(lastOf b (ss.take i)).x‖ ≤ X₀ := fun i hi => by
    refine (hrun b ss rfl hcm D hD hdat i (by omega)).trans ?_
    rw [hX₀]
    have : C' * ρ' ^ i * ‖b.x‖ ≤ C' * ‖b.x‖ :=
      mul_le_mul_of_nonneg_right (mul_le_of_le_one_right hC'.le (pow_le_one₀ h0'.le h1'.le)) (norm_nonneg _)
    linarith
  have hss : ∀ i < N, ss[i]? = some (ss[i]?.getD ⟨A, 0, H, Q, R, 0⟩) := fun i hi => by
    rw [List.getElem?_eq_getElem (by omega)]; rfl
  -- the covariances
  have hcov : ∀ i ≤ N, ‖(b' i).P - (ric A H Q R)^[i] b.P‖ ≤ r := by
    refine trap (L := fun i => conjHom (M i)) (C := C₁) (ρ := ρ) (β := δ + θ * c₁ * r) hC₁1 h0 h1 (fun j k d _ => ?_)
      (e := fun i => (b' i).P - (ric A H Q R)^[i] b.P)
      (w := fun i => (b' (i + 1)).P - (ric A H Q R)^[i + 1] b.P - conjHom (M i) ((b' i).P - (ric A H Q R)^[i] b.P))
      (fun i hi => by abel) (by positivity) (fun i hi he => ?_) ?_
    · rw [hM, seg_conj]
      refine (conj_norm_le _ _).trans (mul_le_mul_of_nonneg_right ?_ (norm_nonneg d))
      have e1 : (n * ‖prop A Q H R ((ric A H Q R)^[j] b.P) k‖) ^ 2 ≤ (n * (C * ρ ^ k)) ^ 2 :=
        pow_le_pow_left₀ (by positivity) (mul_le_mul_of_nonneg_left (hprop j k) (Nat.cast_nonneg _)) 2
      refine e1.trans ?_
      have e2 : (n * (C * ρ ^ k)) ^ 2 = (n * C) ^ 2 * ρ ^ k * ρ ^ k := by ring
      rw [e2, hC₁]
      have e3 : (n * C) ^ 2 * ρ ^ k * ρ ^ k ≤ (n * C) ^ 2 * ρ ^ k :=
        mul_le_of_le_one_right (by positivity) (pow_le_one₀ h0.le h1.le)
      have e4 : 0 ≤ C * ρ ^ k := by positivity
      linarith
    · have hp := iter_psd (A := A) (H := H) hQ hR hP i
      obtain ⟨g1, g2⟩ := hgain _ (b' i).P hp (hY i) (he.trans hrr₀)
      have hdet : (innovCov H (priorCov A (b' i).P Q) R).det ≠ 0 := fun h => by
        rw [h, abs_zero] at g1; linarith
      obtain ⟨s, hs⟩ : ∃ s, ss[i]? = some s := ⟨_, hss i hi⟩
      obtain ⟨m1, m2, m3, m4⟩ := hcm s (List.mem_of_getElem? hs)
      have hn : (s.next (b' i)).P = ric A H Q R (b' i).P := by rw [← m1, ← m2, ← m3, ← m4]; rfl
      have hst := (hstep i s hi hs).2
      rw [hn] at hst
      have hdiff := ric_diff (A := A) (H := H) hQ hR hp hdet
      rw [← Function.iterate_succ_apply' (ric A H Q R)] at hdiff
      have key : (b' (i + 1)).P - (ric A H Q R)^[i + 1] b.P - conjHom (M i) ((b' i).P - (ric A H Q R)^[i] b.P) =
          ((b' (i + 1)).P - ric A H Q R (b' i).P) - (kGain H (priorCov A (b' i).P Q) R - ownGains A Q H R b.P i) * (H * A) *
            (((b' i).P - (ric A H Q R)^[i] b.P) * (M i)ᵀ) := by
        have : conjHom (M i) ((b' i).P - (ric A H Q R)^[i] b.P) = M i * ((b' i).P - (ric A H Q R)^[i] b.P) * (M i)ᵀ := rfl
        rw [this]
        have e1 : (b' (i + 1)).P - (ric A H Q R)^[i + 1] b.P = ((b' (i + 1)).P - ric A H Q R (b' i).P) +
          (ric A H Q R (b' i).P - (ric A H Q R)^[i + 1] b.P) := by abel
        rw [e1, hdiff]
        have e2 : (1 - kGain H (priorCov A ((ric A H Q R)^[i] b.P) Q) R * H) * A = M i := by rw [hM]; rfl
        rw [e2]
        generalize (b' i).P - (ric A H Q R)^[i] b.P = E
        rw [hM]
        simp only [Matrix.sub_mul, Matrix.mul_assoc, Matrix.one_mul]
        abel
      rw [key]
      refine (norm_sub_le _ _).trans (add_le_add hst ?_)
      refine (mul_norm_le _ _).trans ?_
      have a1 := mul_norm_le (kGain H (priorCov A (b' i).P Q) R - ownGains A Q H R b.P i) (H * A)
      have a2 := mul_norm_le ((b' i).P - (ric A H Q R)^[i] b.P) (M i)ᵀ
      rw [transpose_norm] at a2
      have a3 : ‖(kGain H (priorCov A (b' i).P Q) R - ownGains A Q H R b.P i) * (H * A)‖ ≤ m * (θ * ‖H * A‖) :=
        a1.trans (mul_le_mul_of_nonneg_left (mul_le_mul_of_nonneg_right g2 (norm_nonneg _)) (Nat.cast_nonneg _))
      have a4 : ‖((b' i).P - (ric A H Q R)^[i] b.P) * (M i)ᵀ‖ ≤ n * (r * C) :=
        a2.trans (mul_le_mul_of_nonneg_left (mul_le_mul he (hMb i) (norm_nonneg _) hr.le) (Nat.cast_nonneg _))
      have a5 := mul_le_mul a3 a4 (norm_nonneg _) (by positivity)
      refine (mul_le_mul_of_nonneg_left a5 (Nat.cast_nonneg _)).trans (le_of_eq ?_)
      rw [hc₁]; ring
    · dsimp only [Function.iterate_zero, id]
      have e1 : C₁ * ‖(b' 0).P - b.P‖ ≤ C₁ * δ := mul_le_mul_of_nonneg_left hP0 (by linarith)
      rw [← hΓ]
      have e2 : Γ * θ * c₁ * r ≤ 1 / 2 * r := mul_le_mul_of_nonneg_right hθ1 hr.le
      linarith
  have hg : ∀ i ≤ N, r₀ ≤ |(innovCov H (priorCov A (b' i).P Q) R).det| ∧
      ‖kGain H (priorCov A (b' i).P Q) R - ownGains A Q H R b.P i‖ ≤ θ := fun i hi =>
    hgain _ _ (iter_psd hQ hR hP i) (hY i) ((hcov i hi).trans hrr₀)
  -- the means
  have hmean : ∀ i ≤ N, ‖(b' i).x - (lastOf b (ss.take i)).x‖ ≤ ε' := by
    refine trap (L := fun i => mulHom (M i)) (C := C) (ρ := ρ) (β := δ + θ * c₂) hC h0 h1 (fun j k d _ => ?_)
      (e := fun i => (b' i).x - (lastOf b (ss.take i)).x)
      (w := fun i => (b' (i + 1)).x - (lastOf b (ss.take (i + 1))).x - mulHom (M i) ((b' i).x - (lastOf b (ss.take i)).x))
      (fun i hi => by abel) (by positivity) (fun i hi he => ?_) ?_
    · rw [hM, seg_mul]; exact hd j k d
    · obtain ⟨s, hs⟩ : ∃ s, ss[i]? = some s := ⟨_, hss i hi⟩
      have hm := hcm s (List.mem_of_getElem? hs)
      have hst := (hstep i s hi hs).1
      obtain ⟨d1, d2⟩ := hdat i s hs
      have n1 : (s.next (b' i)).x = A *ᵥ (b' i).x + s.c + kGain H (priorCov A (b' i).P Q) R *ᵥ (s.z - H *ᵥ (A *ᵥ (b' i).x + s.c)) :=
        next_mean hm (P := (b' i).P) (k := 0) (b' i) rfl
      have n2 := next_mean hm (P := b.P) (lastOf b (ss.take i)) (hexP i hi.le)
      have key : (b' (i + 1)).x - (lastOf b (ss.take (i + 1))).x - mulHom (M i) ((b' i).x - (lastOf b (ss.take i)).x) =
          ((b' (i + 1)).x - (s.next (b' i)).x) + (kGain H (priorCov A (b' i).P Q) R - ownGains A Q H R b.P i) *ᵥ
            (s.z - H *ᵥ (A *ᵥ (b' i).x + s.c)) := by
        have : mulHom (M i) ((b' i).x - (lastOf b (ss.take i)).x) = M i *ᵥ ((b' i).x - (lastOf b (ss.take i)).x) := rfl
        rw [this, lastOf_take_succ b ss i s hs, n1, n2, hM]
        simp only [sub_mulVec, mulVec_sub, mulVec_add, Matrix.sub_mul, Matrix.one_mul, ← mulVec_mulVec]
        abel
      rw [key]
      refine (norm_add_le _ _).trans (add_le_add hst ?_)
      have hx' : ‖(b' i).x‖ ≤ X₀ + 1 := by
        have e1 : (b' i).x = ((b' i).x - (lastOf b (ss.take i)).x) + (lastOf b (ss.take i)).x := by abel
        rw [e1]
        refine (norm_add_le _ _).trans ?_
        have := hexx i hi.le
        linarith
      have a1 : ‖A *ᵥ (b' i).x + s.c‖ ≤ n * ‖A‖ * (X₀ + 1) + D :=
        (norm_add_le _ _).trans (add_le_add ((mulVec_norm _ _).trans (mul_le_mul_of_nonneg_left hx' (by positivity))) d2)
      have a2 : ‖s.z - H *ᵥ (A *ᵥ (b' i).x + s.c)‖ ≤ D + n * ‖H‖ * (n * ‖A‖ * (X₀ + 1) + D) :=
        (norm_sub_le _ _).trans (add_le_add d1 ((mulVec_norm _ _).trans (mul_le_mul_of_nonneg_left a1 (by positivity))))
      refine (mulVec_norm _ _).trans ?_
      have a3 := mul_le_mul (mul_le_mul_of_nonneg_left (hg i hi.le).2 (Nat.cast_nonneg (α := ℝ) m)) a2 (norm_nonneg _) (by positivity)
      refine a3.trans (le_of_eq ?_)
      rw [hc₂]; ring
    · dsimp only [List.take_zero]
      have e0 : lastOf b ([] : List (LinStep n m)) = b := rfl
      rw [e0]
      have e1 : C * ‖(b' 0).x - b.x‖ ≤ C₁ * δ := mul_le_mul hC₁C hx0 (norm_nonneg _) (by linarith)
      have e3 : C * (1 - ρ)⁻¹ ≤ Γ := by rw [hΓ]; exact mul_le_mul_of_nonneg_right hC₁C hρ.le
      have e4 : C * (1 - ρ)⁻¹ * (δ + θ * c₂) ≤ Γ * (δ + θ * c₂) := mul_le_mul_of_nonneg_right e3 (by positivity)
      linarith
  intro i hi
  have p1 := hcov i hi
  have p2 := hmean i hi
  have p3 := hexx i hi
  have p4 := hY i
  refine ⟨p2.trans hε'ε, ?_, ?_, ?_, ?_, (hg i hi).2.trans hθε⟩
  · rw [hexP i hi]; linarith
  · have e1 : (b' i).x = ((b' i).x - (lastOf b (ss.take i)).x) + (lastOf b (ss.take i)).x := by abel
    rw [e1]
    refine (norm_add_le _ _).trans ?_
    linarith
  · have e1 : (b' i).P = ((b' i).P - (ric A H Q R)^[i] b.P) + (ric A H Q R)^[i] b.P := by abel
    rw [e1]
    refine (norm_add_le _ _).trans ?_
    linarith
  · have := (hg i hi).1
    linarith

end

end KK
