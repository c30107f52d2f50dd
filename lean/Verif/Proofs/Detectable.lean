import Verif.Spec.Detectable
import Verif.Proofs.RoundStable
import Mathlib.Analysis.Matrix.Order

/-!
# Stable matrices, sequences of matrices that become stable, and the steady state of a detectable and stabilizable model
-/

set_option linter.unusedSectionVars false

namespace KK

open Matrix Filter Topology

section
open scoped MatrixOrder

/-- A PSD matrix is `B' B`. -/
theorem psd_factor {k : ℕ} {M : Matrix (Fin k) (Fin k) ℝ} (hM : M.PosSemidef) : ∃ B : Matrix (Fin k) (Fin k) ℝ, M = Bᵀ * B := by
  have h : (CFC.sqrt M).PosSemidef := Matrix.nonneg_iff_posSemidef.1 (CFC.sqrt_nonneg M)
  have h1 := h.isHermitian
  rw [IsHermitian, conjTranspose_eq_transpose_of_trivial] at h1
  exact ⟨CFC.sqrt M, by rw [h1]; exact (CFC.sqrt_mul_sqrt_self M (Matrix.nonneg_iff_posSemidef.2 hM)).symm⟩

end

open scoped Matrix.Norms.Elementwise

variable {n m : ℕ}

/-! ### submultiplicative families -/

/-- A number `ρ < 1` whose `N`-th power is at least `1 / 2`. -/
theorem exists_root (N : ℕ) (hN : 0 < N) : ∃ ρ : ℝ, 0 < ρ ∧ ρ < 1 ∧ 1 / 2 ≤ ρ ^ N := by
  have hN1 : (1 : ℝ) ≤ N := by exact_mod_cast hN
  have h1 : (N : ℝ) * (1 / (2 * N)) = 1 / 2 := by field_simp
  have h2 : (1 : ℝ) / (2 * N) ≤ 1 / 2 := by
    rw [div_le_div_iff₀ (by positivity) (by norm_num)]; linarith
  have h3 : (0 : ℝ) < 1 / (2 * N) := by positivity
  refine ⟨1 - 1 / (2 * N), by linarith, by linarith, ?_⟩
  have := one_add_mul_le_pow (a := -(1 / (2 * N) : ℝ)) (by linarith) N
  have e : 1 + -(1 / (2 * (N : ℝ))) = 1 - 1 / (2 * N) := by ring
  rw [e] at this
  linarith

theorem submult_decay {a : ℕ → ℕ → ℝ} (h0 : ∀ j k, 0 ≤ a j k) (hs : ∀ j k l, a j (k + l) ≤ a (j + k) l * a j k) {B : ℝ}
    {N J : ℕ} (hN : 0 < N) (hB : ∀ j, ∀ r ≤ N, a j r ≤ B) (hJ : ∀ j, J ≤ j → a j N ≤ 1 / 2) :
    ∃ C ρ : ℝ, 1 ≤ C ∧ 0 < ρ ∧ ρ < 1 ∧ ∀ j k, a j k ≤ C * ρ ^ k := by
  obtain ⟨ρ, hρ0, hρ1, hρ⟩ := exists_root N hN
  obtain ⟨D, hD1, hDB⟩ : ∃ D : ℝ, 1 ≤ D ∧ B ≤ D := ⟨max 1 B, le_max_left _ _, le_max_right _ _⟩
  have hblock : ∀ q j, a j (q * N) ≤ D * (2 * D) ^ (J - j) * (1 / 2) ^ q := by
    intro q
    induction q with
    | zero =>
      intro j
      have h1 := (hB j 0 (Nat.zero_le _)).trans hDB
      have h2 : 1 ≤ (2 * D) ^ (J - j) := one_le_pow₀ (by linarith)
      rw [Nat.zero_mul, pow_zero, mul_one]
      exact h1.trans (le_mul_of_one_le_right (by linarith) h2)
    | succ q ih =>
      intro j
      have h1 := hs j N (q * N)
      rw [show N + q * N = (q + 1) * N by ring] at h1
      refine h1.trans ?_
      have h2 := ih (j + N)
      have h3 := h0 j N
      rcases Nat.lt_or_ge j J with hj | hj
      · have h4 := (hB j N le_rfl).trans hDB
        have h5 : (2 * D) ^ (J - (j + N)) * (2 * D) ≤ (2 * D) ^ (J - j) := by
          rw [← pow_succ]
          exact pow_le_pow_right₀ (by linarith) (by omega)
        have h6 : 0 ≤ D * (2 * D) ^ (J - (j + N)) * (1 / 2) ^ q := by positivity
        calc _ ≤ D * (2 * D) ^ (J - (j + N)) * (1 / 2) ^ q * D := mul_le_mul h2 h4 h3 h6
          _ = D * ((2 * D) ^ (J - (j + N)) * (2 * D)) * (1 / 2) ^ (q + 1) := by rw [pow_succ]; ring
          _ ≤ _ := by
            refine mul_le_mul_of_nonneg_right (mul_le_mul_of_nonneg_left h5 (by linarith)) (by positivity)
      · have h4 := hJ j hj
        have e1 : J - (j + N) = 0 := by omega
        have e2 : J - j = 0 := by omega
        rw [e1] at h2
        rw [e2, pow_succ, ← mul_assoc]
        exact mul_le_mul h2 h4 h3 (by positivity)
  refine ⟨2 * D * (D * (2 * D) ^ J), ρ, ?_, hρ0, hρ1, fun j k => ?_⟩
  · have h2 : 1 ≤ (2 * D) ^ J := one_le_pow₀ (by linarith)
    have h3 : 1 ≤ D * (2 * D) ^ J := hD1.trans (le_mul_of_one_le_right (by linarith) h2)
    nlinarith
  · have hk := Nat.div_add_mod k N
    have hr := Nat.mod_lt k hN
    have h1 := hs j (k / N * N) (k % N)
    rw [Nat.mul_comm (k / N) N, hk, Nat.mul_comm N (k / N)] at h1
    refine h1.trans ?_
    have h2 := (hB (j + k / N * N) (k % N) hr.le).trans hDB
    have h3 := hblock (k / N) j
    have h4 : (2 * D) ^ (J - j) ≤ (2 * D) ^ J := pow_le_pow_right₀ (by linarith) (by omega)
    have h5 : (1 / 2 : ℝ) ^ (k / N) ≤ 2 * ρ ^ k := by
      have e1 : (1 / 2 : ℝ) ^ (k / N) ≤ (ρ ^ N) ^ (k / N) := pow_le_pow_left₀ (by norm_num) hρ _
      rw [← pow_mul] at e1
      have e2 : ρ ^ N ≤ ρ ^ (k % N) := pow_le_pow_of_le_one hρ0.le hρ1.le hr.le
      have e3 : ρ ^ k = ρ ^ (N * (k / N)) * ρ ^ (k % N) := by rw [← pow_add, hk]
      have e4 : 0 ≤ ρ ^ (N * (k / N)) := by positivity
      rw [e3]
      nlinarith
    calc _ ≤ D * (D * (2 * D) ^ (J - j) * (1 / 2) ^ (k / N)) := mul_le_mul h2 h3 (h0 _ _) (by linarith)
      _ ≤ D * (D * (2 * D) ^ J * (2 * ρ ^ k)) := by
        refine mul_le_mul_of_nonneg_left (mul_le_mul (mul_le_mul_of_nonneg_left h4 (by linarith)) h5 (by positivity) (by positivity))
          (by linarith)
      _ = _ := by ring

/-! ### products of matrices that converge to a stable one -/

/-- Products of consecutive factors that converge to a stable matrix decay geometrically. -/
theorem products_decay {F : Matrix (Fin n) (Fin n) ℝ} (hF : Stable F) (D : ℕ → ℕ → Matrix (Fin n) (Fin n) ℝ)
    (hs : ∀ j k l, D j (k + l) = D (j + k) l * D j k) (hT : ∀ r, Tendsto (fun j => D j r) atTop (𝓝 (F ^ r))) :
    ∃ C ρ : ℝ, 1 ≤ C ∧ 0 < ρ ∧ ρ < 1 ∧ ∀ j k, ‖D j k‖ ≤ C * ρ ^ k := by
  rcases Nat.eq_zero_or_pos n with rfl | hn
  · refine ⟨1, 1 / 2, le_rfl, by norm_num, by norm_num, fun j k => ?_⟩
    rw [Subsingleton.elim (D j k) 0, norm_zero]; positivity
  have hn1 : (1 : ℝ) ≤ n := by exact_mod_cast hn
  have hz : Tendsto (fun k => n * ‖F ^ k‖) atTop (𝓝 0) := by
    have : Tendsto (fun k => F ^ k) atTop (𝓝 0) := hF
    simpa using this.norm.const_mul (n : ℝ)
  obtain ⟨N, hN, hNF⟩ : ∃ N, 0 < N ∧ n * ‖F ^ N‖ < 1 / 2 := by
    have := (hz.eventually_lt_const (show (0 : ℝ) < 1 / 2 by norm_num)).and (eventually_gt_atTop 0)
    obtain ⟨N, h1, h2⟩ := this.exists
    exact ⟨N, h2, h1⟩
  have hT' : ∀ r, Tendsto (fun j => n * ‖D j r‖) atTop (𝓝 (n * ‖F ^ r‖)) := fun r => (hT r).norm.const_mul _
  obtain ⟨J, hJ⟩ := eventually_atTop.1 ((hT' N).eventually_lt_const hNF)
  choose B hB using fun r => (hT' r).bddAbove_range
  have hB' : ∀ j, ∀ r ≤ N, n * ‖D j r‖ ≤ ∑ i ∈ Finset.range (N + 1), |B i| := by
    intro j r hr
    refine ((hB r ⟨j, rfl⟩).trans (le_abs_self _)).trans ?_
    exact Finset.single_le_sum (f := fun i => |B i|) (fun i _ => abs_nonneg _) (Finset.mem_range.2 (Nat.lt_succ_of_le hr))
  obtain ⟨C, ρ, hC, h0, h1, h⟩ := submult_decay (a := fun j k => n * ‖D j k‖) (fun j k => by positivity)
    (fun j k l => by
      rw [hs]
      have := mul_norm_le (D (j + k) l) (D j k)
      have := mul_le_mul_of_nonneg_left this (show (0 : ℝ) ≤ n by linarith)
      linarith) hN hB' (fun j hj => (hJ j hj).le)
  refine ⟨C, ρ, hC, h0, h1, fun j k => le_trans ?_ (h j k)⟩
  exact le_mul_of_one_le_left (norm_nonneg _) hn1

theorem Stable.decay {F : Matrix (Fin n) (Fin n) ℝ} (hF : Stable F) :
    ∃ C ρ : ℝ, 1 ≤ C ∧ 0 < ρ ∧ ρ < 1 ∧ ∀ k, ‖F ^ k‖ ≤ C * ρ ^ k := by
  obtain ⟨C, ρ, hC, h0, h1, h⟩ := products_decay hF (fun _ k => F ^ k) (fun j k l => by rw [add_comm, pow_add])
    (fun r => tendsto_const_nhds)
  exact ⟨C, ρ, hC, h0, h1, fun k => h 0 k⟩

theorem stable_of_decay {F : Matrix (Fin n) (Fin n) ℝ} {C ρ : ℝ} (h0 : 0 < ρ) (h1 : ρ < 1) (h : ∀ k, ‖F ^ k‖ ≤ C * ρ ^ k) :
    Stable F := by
  refine squeeze_zero_norm h ?_
  have := (tendsto_pow_atTop_nhds_zero_of_lt_one h0.le h1).const_mul C
  rwa [mul_zero] at this

theorem Stable.transpose {F : Matrix (Fin n) (Fin n) ℝ} (hF : Stable F) : Stable Fᵀ := by
  have h : Tendsto (fun k => (F ^ k)ᵀ) atTop (𝓝 (0 : Matrix (Fin n) (Fin n) ℝ)ᵀ) :=
    (continuous_id.matrix_transpose.tendsto _).comp hF
  simpa only [Stable, Matrix.transpose_pow, Matrix.transpose_zero] using h

/-- `X Y` is stable if `Y X` is. -/
theorem Stable.swap {X Y : Matrix (Fin n) (Fin n) ℝ} (h : Stable (Y * X)) : Stable (X * Y) := by
  have e : ∀ k, (X * Y) ^ (k + 1) = X * (Y * X) ^ k * Y := by
    intro k
    induction k with
    | zero => simp
    | succ k ih => rw [pow_succ, ih, pow_succ]; simp only [Matrix.mul_assoc]
  have h1 : Tendsto (fun k => X * (Y * X) ^ k * Y) atTop (𝓝 (X * 0 * Y)) := by
    have : Continuous fun M : Matrix (Fin n) (Fin n) ℝ => X * M * Y := by fun_prop
    exact (this.tendsto 0).comp h
  rw [Matrix.mul_zero, Matrix.zero_mul] at h1
  refine (tendsto_add_atTop_iff_nat 1).1 ?_
  simpa only [e] using h1

/-! ### a stable system with inputs that die out -/

theorem real_contract {a e : ℕ → ℝ} {N : ℕ} (hN : 0 < N) (h0 : ∀ k, 0 ≤ a k) (he : Tendsto e atTop (𝓝 0))
    (h : ∀ k, a (k + N) ≤ 1 / 2 * a k + e k) : Tendsto a atTop (𝓝 0) := by
  rw [Metric.tendsto_atTop]
  intro ε hε
  obtain ⟨K, hK⟩ := eventually_atTop.1 (he.eventually_le_const (show (0 : ℝ) < ε / 8 by linarith))
  -- all residues below one bound
  obtain ⟨G, hG0, hG⟩ : ∃ G : ℝ, 0 ≤ G ∧ ∀ r < N, a (K + r) ≤ G :=
    ⟨∑ r ∈ Finset.range N, a (K + r), Finset.sum_nonneg fun r _ => h0 _, fun r hr =>
      Finset.single_le_sum (f := fun r => a (K + r)) (fun r _ => h0 _) (Finset.mem_range.2 hr)⟩
  have hq : ∀ q, ∀ r < N, a (K + r + q * N) ≤ (1 / 2) ^ q * G + ε / 4 := by
    intro q
    induction q with
    | zero => intro r hr; have := hG r hr; simp only [Nat.zero_mul, Nat.add_zero, pow_zero, one_mul]; linarith
    | succ q ih =>
      intro r hr
      have h1 := h (K + r + q * N)
      have h2 := ih r hr
      have h3 := hK (K + r + q * N) (by omega)
      rw [show K + r + q * N + N = K + r + (q + 1) * N by ring] at h1
      rw [pow_succ]
      linarith
  have ht : Tendsto (fun q : ℕ => (1 / 2 : ℝ) ^ q * G) atTop (𝓝 0) := by
    have := (tendsto_pow_atTop_nhds_zero_of_lt_one (show (0 : ℝ) ≤ 1 / 2 by norm_num) (by norm_num)).mul_const G
    rwa [zero_mul] at this
  obtain ⟨q0, hq0⟩ := eventually_atTop.1 (ht.eventually_le_const (show (0 : ℝ) < ε / 4 by linarith))
  refine ⟨K + q0 * N, fun k hk => ?_⟩
  rw [Real.dist_eq, sub_zero, abs_of_nonneg (h0 k)]
  have hd := Nat.div_add_mod (k - K) N
  have hr := Nat.mod_lt (k - K) hN
  have hle : q0 ≤ (k - K) / N := (Nat.le_div_iff_mul_le hN).2 (by omega)
  have h1 := hq ((k - K) / N) _ hr
  have h2 := hq0 _ hle
  have e : K + (k - K) % N + (k - K) / N * N = k := by
    rw [Nat.mul_comm, Nat.add_assoc, Nat.add_comm ((k - K) % N), hd]; omega
  rw [e] at h1
  linarith

theorem input_dies {T : Matrix (Fin n) (Fin n) ℝ} (hT : Stable T) {u d : ℕ → Fin n → ℝ} (h : ∀ k, u (k + 1) = T *ᵥ u k + d k)
    (hd : Tendsto d atTop (𝓝 0)) : Tendsto u atTop (𝓝 0) := by
  have hw : ∀ N, Tendsto (fun k => u (k + N) - T ^ N *ᵥ u k) atTop (𝓝 0) := by
    intro N
    induction N with
    | zero => simp
    | succ N ih =>
      have e : (fun k => u (k + (N + 1)) - T ^ (N + 1) *ᵥ u k) =
          fun k => T *ᵥ (u (k + N) - T ^ N *ᵥ u k) + d (k + N) := by
        funext k
        rw [← Nat.add_assoc, h, pow_succ', mulVec_sub, mulVec_mulVec]; abel
      rw [e]
      have h1 : Continuous fun v : Fin n → ℝ => T *ᵥ v := by fun_prop
      have h2 := ((h1.tendsto 0).comp ih).add ((tendsto_add_atTop_iff_nat N).2 hd)
      simpa using h2
  have hz : Tendsto (fun k => n * ‖T ^ k‖) atTop (𝓝 0) := by
    have : Tendsto (fun k => T ^ k) atTop (𝓝 0) := hT
    simpa using this.norm.const_mul (n : ℝ)
  obtain ⟨N, hN, hNF⟩ : ∃ N, 0 < N ∧ n * ‖T ^ N‖ < 1 / 2 := by
    have := (hz.eventually_lt_const (show (0 : ℝ) < 1 / 2 by norm_num)).and (eventually_gt_atTop 0)
    obtain ⟨N, h1, h2⟩ := this.exists
    exact ⟨N, h2, h1⟩
  refine tendsto_zero_iff_norm_tendsto_zero.2 ?_
  refine real_contract (e := fun k => ‖u (k + N) - T ^ N *ᵥ u k‖) hN (fun k => norm_nonneg _) ?_ fun k => ?_
  · simpa using (hw N).norm
  · have h1 : ‖u (k + N)‖ ≤ ‖T ^ N *ᵥ u k‖ + ‖u (k + N) - T ^ N *ᵥ u k‖ := by
      have := norm_add_le (T ^ N *ᵥ u k) (u (k + N) - T ^ N *ᵥ u k)
      rwa [add_sub_cancel] at this
    have h2 := mulVec_norm (T ^ N) (u k)
    have h3 := mul_le_mul_of_nonneg_right hNF.le (norm_nonneg (u k))
    linarith

/-- A PSD form that dies out takes the image with it. -/
theorem psd_form_dies {k : ℕ} {M : Matrix (Fin k) (Fin k) ℝ} (hM : M.PosSemidef) {v : ℕ → Fin k → ℝ}
    (h : Tendsto (fun i => v i ⬝ᵥ (M *ᵥ v i)) atTop (𝓝 0)) : Tendsto (fun i => M *ᵥ v i) atTop (𝓝 0) := by
  obtain ⟨B, hB⟩ := psd_factor hM
  have e1 : ∀ w : Fin k → ℝ, w ⬝ᵥ (M *ᵥ w) = (B *ᵥ w) ⬝ᵥ (B *ᵥ w) := by
    intro w
    rw [hB, ← mulVec_mulVec, mulVec_transpose, dotProduct_comm, ← dotProduct_mulVec]
  have h1 : Tendsto (fun i => ‖B *ᵥ v i‖ ^ 2) atTop (𝓝 0) := by
    refine squeeze_zero (fun i => by positivity) (fun i => ?_) h
    rw [e1]
    exact norm_sq_le_dot _
  have h2 : Tendsto (fun i => B *ᵥ v i) atTop (𝓝 0) := by
    refine tendsto_zero_iff_norm_tendsto_zero.2 ?_
    have := h1.sqrt
    rw [Real.sqrt_zero] at this
    refine this.congr fun i => ?_
    exact Real.sqrt_sq (norm_nonneg _)
  have h3 : Continuous fun w : Fin k → ℝ => Bᵀ *ᵥ w := by fun_prop
  have h4 := (h3.tendsto 0).comp h2
  rw [mulVec_zero] at h4
  refine h4.congr fun i => ?_
  rw [hB, ← mulVec_mulVec]; rfl

end KK
