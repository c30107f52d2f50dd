import Verif.Proofs.SteadyDetect
import Verif.Props.Observer

/-!
# C165: convergence to the steady state of models that are only detectable and stabilizable
-/

set_option linter.unusedSectionVars false

namespace KK

open Matrix Filter Topology
open scoped Matrix.Norms.Elementwise

variable {n m : ℕ} {A Q : Matrix (Fin n) (Fin n) ℝ} {H : Matrix (Fin m) (Fin n) ℝ} {R : Matrix (Fin m) (Fin m) ℝ}

theorem prop_succ (P : Matrix (Fin n) (Fin n) ℝ) (k : ℕ) :
    prop A Q H R P (k + 1) = closedLoop A Q H R ((ric A H Q R)^[k] P) * prop A Q H R P k := rfl

theorem closedLoop_tendsto (hQ : Q.PosSemidef) (hR : R.PosDef) {F : Matrix (Fin n) (Fin n) ℝ} (hF : F.PosSemidef)
    {P : ℕ → Matrix (Fin n) (Fin n) ℝ} (h : Tendsto P atTop (𝓝 F)) :
    Tendsto (fun k => closedLoop A Q H R (P k)) atTop (𝓝 (closedLoop A Q H R F)) := by
  have hp := priorCov_posSemidef (A := A) hF hQ
  have h1 : Continuous fun X : Matrix (Fin n) (Fin n) ℝ => priorCov A X Q := by unfold priorCov; fun_prop
  have h2 := kGain_tendsto (H := H) (R := R) ((h1.tendsto F).comp h) (posDef_det_ne (innovCov_posDef hp hR))
  have h3 : Continuous fun K : Matrix (Fin n) (Fin m) ℝ => (1 - K * H) * A := by fun_prop
  exact (h3.tendsto _).comp h2

/-- The products of the closed-loop matrices of a run that converges to a stable steady state decay geometrically. -/
theorem prop_decay (hQ : Q.PosSemidef) (hR : R.PosDef) {F : Matrix (Fin n) (Fin n) ℝ} (hF : F.PosSemidef)
    (hs : Stable (closedLoop A Q H R F)) {P : Matrix (Fin n) (Fin n) ℝ}
    (h : Tendsto (fun k => (ric A H Q R)^[k] P) atTop (𝓝 F)) :
    ∃ C ρ : ℝ, 1 ≤ C ∧ 0 < ρ ∧ ρ < 1 ∧ ∀ j k, ‖prop A Q H R ((ric A H Q R)^[j] P) k‖ ≤ C * ρ ^ k := by
  refine products_decay hs (fun j k => prop A Q H R ((ric A H Q R)^[j] P) k) (fun j k l => ?_) fun r => ?_
  · rw [prop_add, ← Function.iterate_add_apply, add_comm j k]
  · induction r with
    | zero => exact tendsto_const_nhds
    | succ r ih =>
      have h1 : Tendsto (fun j => closedLoop A Q H R ((ric A H Q R)^[r] ((ric A H Q R)^[j] P))) atTop
          (𝓝 (closedLoop A Q H R F)) := by
        refine closedLoop_tendsto hQ hR hF ?_
        have := (tendsto_add_atTop_iff_nat r).2 h
        refine this.congr fun j => ?_
        rw [add_comm, Function.iterate_add_apply]
      have h2 := h1.mul ih
      rw [pow_succ']
      exact h2

theorem prop_steady {F : Matrix (Fin n) (Fin n) ℝ} (hF : ric A H Q R F = F) (k : ℕ) :
    prop A Q H R F k = closedLoop A Q H R F ^ k := by
  induction k with
  | zero => rfl
  | succ k ih => rw [prop_succ, ih, steady_iter hF, pow_succ']

theorem iter_diff (hQ : Q.PosSemidef) (hR : R.PosDef) {X X' : Matrix (Fin n) (Fin n) ℝ} (hX : X.PosSemidef) (hX' : X'.PosSemidef)
    (k : ℕ) : (ric A H Q R)^[k] X' - (ric A H Q R)^[k] X = prop A Q H R X' k * (X' - X) * (prop A Q H R X k)ᵀ := by
  induction k with
  | zero => simp [prop, propagator]
  | succ k ih =>
    have h1 := iter_psd (A := A) (H := H) hQ hR hX k
    have h2 := iter_psd (A := A) (H := H) hQ hR hX' k
    rw [Function.iterate_succ_apply', Function.iterate_succ_apply',
      ric_diff hQ hR h1 (posDef_det_ne (innovCov_posDef (priorCov_posSemidef h2 hQ) hR)), ih, prop_succ, prop_succ]
    simp only [closedLoop, Matrix.mul_assoc, transpose_mul]

/-- Every covariance sequence converges to the stable steady state, geometrically. -/
theorem cov_decay_detect (hQ : Q.PosSemidef) (hR : R.PosDef) {F : Matrix (Fin n) (Fin n) ℝ} (hF : F.PosSemidef)
    (hfix : ric A H Q R F = F) (hs : Stable (closedLoop A Q H R F))
    (hT : Tendsto (fun k => (ric A H Q R)^[k] 0) atTop (𝓝 F)) :
    ∃ C ρ : ℝ, 0 < C ∧ 0 < ρ ∧ ρ < 1 ∧ ∀ P : Matrix (Fin n) (Fin n) ℝ, P.PosSemidef → ∀ k i j,
      |((ric A H Q R)^[k] P) i j - F i j| ≤ C * ρ ^ k * (1 + ‖P‖) := by
  obtain ⟨C₁, ρ₁, hC₁, h0₁, h1₁, hb₁⟩ := prop_decay hQ hR hF hs hT
  obtain ⟨C₂, ρ₂, hC₂, h0₂, h1₂, hb₂⟩ := hs.decay
  have hz : (0 : Matrix (Fin n) (Fin n) ℝ).PosSemidef := Matrix.PosSemidef.zero
  have hρ : 0 < max ρ₁ ρ₂ := lt_max_of_lt_left h0₁
  set ρ := max ρ₁ ρ₂
  have hρ1 : ρ < 1 := max_lt h1₁ h1₂
  refine ⟨1 + n * (n ^ 2 * C₂ ^ 2 * (1 + ‖F‖) + n ^ 2 * C₁ * C₂ * ‖F‖), ρ, by positivity, hρ, hρ1, fun P hP k i j => ?_⟩
  set D := (ric A H Q R)^[k] P - F
  set G := F - (ric A H Q R)^[k] 0 with hG
  set V := closedLoop A Q H R F ^ k * (P - F) * (closedLoop A Q H R F ^ k)ᵀ with hV
  have hFs := IsHermitian.symm' hF.1
  have hPs := IsHermitian.symm' hP.1
  have hk := iter_psd (A := A) (H := H) hQ hR hP k
  have hk0 := iter_psd (A := A) (H := H) hQ hR hz k
  have hGs : Gᵀ = G := by rw [hG, transpose_sub, hFs, IsHermitian.symm' hk0.1]
  have hVs : Vᵀ = V := by
    rw [hV, transpose_mul, transpose_mul, transpose_transpose, transpose_sub, hFs, hPs, Matrix.mul_assoc]
  -- not far above
  have hup : (V - D).PosSemidef := by
    have e1 := iter_le_withGains (A := A) (H := H) hQ hR hP (ownGains A Q H R F) k
    have e2 := withGains_own (A := A) (H := H) hQ hR hF k
    rw [withGains_affine] at e1 e2
    have e3 : propagator A H (ownGains A Q H R F) k = closedLoop A Q H R F ^ k := prop_steady hfix k
    rw [steady_iter hfix, e3] at e2
    rw [e3] at e1
    convert e1 using 1
    have e4 : withGains A Q H R (ownGains A Q H R F) 0 k =
        F - closedLoop A Q H R F ^ k * F * (closedLoop A Q H R F ^ k)ᵀ := eq_sub_of_add_eq' e2
    rw [e4, hV, Matrix.mul_sub, Matrix.sub_mul]
    show _ - ((ric A H Q R)^[k] P - F) = _
    abel
  -- not far below
  have hdown : (G + D).PosSemidef := by
    have := iter_mono (A := A) (H := H) (P := 0) (P' := P) hQ hR hz (by rwa [sub_zero]) k
    convert this using 1
    show F - (ric A H Q R)^[k] 0 + ((ric A H Q R)^[k] P - F) = _
    abel
  have hρk : 0 ≤ ρ ^ k := by positivity
  have hk2 : ρ₂ ^ k ≤ ρ ^ k := pow_le_pow_left₀ h0₂.le (le_max_right _ _) k
  have hk1 : ρ₁ ^ k ≤ ρ ^ k := pow_le_pow_left₀ h0₁.le (le_max_left _ _) k
  have hone2 : ρ₂ ^ k ≤ 1 := pow_le_one₀ h0₂.le h1₂.le
  have hp1 : 0 ≤ ρ₁ ^ k := by positivity
  have hp2 : 0 ≤ ρ₂ ^ k := by positivity
  have hn : (0 : ℝ) ≤ n := Nat.cast_nonneg n
  have nF := norm_nonneg F
  have nP := norm_nonneg P
  have hVn : ‖V‖ ≤ n ^ 2 * C₂ ^ 2 * ρ ^ k * (‖P‖ + ‖F‖) := by
    refine (conj_norm_le _ _).trans ?_
    have e1 : (n * ‖closedLoop A Q H R F ^ k‖) ^ 2 ≤ n ^ 2 * C₂ ^ 2 * ρ ^ k := by
      have e2 : ‖closedLoop A Q H R F ^ k‖ ^ 2 ≤ (C₂ * ρ₂ ^ k) ^ 2 := pow_le_pow_left₀ (norm_nonneg _) (hb₂ k) 2
      have e3 : (C₂ * ρ₂ ^ k) ^ 2 ≤ C₂ ^ 2 * ρ ^ k := by
        have e4 : ρ₂ ^ k * ρ₂ ^ k ≤ ρ ^ k := (mul_le_of_le_one_right hp2 hone2).trans hk2
        have := mul_le_mul_of_nonneg_left e4 (sq_nonneg C₂)
        nlinarith
      have := mul_le_mul_of_nonneg_left (e2.trans e3) (show (0 : ℝ) ≤ (n : ℝ) ^ 2 by positivity)
      rw [mul_pow]; linarith
    exact mul_le_mul e1 (norm_sub_le P F) (norm_nonneg _) (by positivity)
  have hGn : ‖G‖ ≤ n ^ 2 * C₁ * C₂ * ρ ^ k * ‖F‖ := by
    have e1 := iter_diff (A := A) (H := H) hQ hR hz hF k
    rw [steady_iter hfix, sub_zero, prop_steady hfix] at e1
    rw [hG, e1]
    refine (mul_norm_le _ _).trans ?_
    have e2 := mul_norm_le (closedLoop A Q H R F ^ k) F
    have e3 := hb₁ 0 k
    rw [Function.iterate_zero_apply, ← transpose_norm] at e3
    have e4 : ‖closedLoop A Q H R F ^ k‖ ≤ C₂ := (hb₂ k).trans (mul_le_of_le_one_right (by linarith) hone2)
    have e5 : ‖closedLoop A Q H R F ^ k * F‖ ≤ n * (C₂ * ‖F‖) :=
      e2.trans (mul_le_mul_of_nonneg_left (mul_le_mul_of_nonneg_right e4 nF) hn)
    have e6 := mul_le_mul e5 (e3.trans (mul_le_mul_of_nonneg_left hk1 (by linarith))) (norm_nonneg _) (by positivity)
    have := mul_le_mul_of_nonneg_left e6 hn
    calc _ ≤ _ := this
      _ = _ := by ring
  -- together
  have hsum : n * ‖V‖ + n * ‖G‖ ≤ (1 + n * (n ^ 2 * C₂ ^ 2 * (1 + ‖F‖) + n ^ 2 * C₁ * C₂ * ‖F‖)) * ρ ^ k * (1 + ‖P‖) := by
    have e1 := mul_le_mul_of_nonneg_left hVn hn
    have e2 := mul_le_mul_of_nonneg_left hGn hn
    have e3 : ‖P‖ + ‖F‖ ≤ (1 + ‖F‖) * (1 + ‖P‖) := by nlinarith
    have e4 : n * (n ^ 2 * C₂ ^ 2 * ρ ^ k * (‖P‖ + ‖F‖)) ≤ n * (n ^ 2 * C₂ ^ 2 * ρ ^ k * ((1 + ‖F‖) * (1 + ‖P‖))) :=
      mul_le_mul_of_nonneg_left (mul_le_mul_of_nonneg_left e3 (by positivity)) hn
    have e5 : (n : ℝ) * (n ^ 2 * C₁ * C₂ * ρ ^ k * ‖F‖) ≤ n * (n ^ 2 * C₁ * C₂ * ρ ^ k * ‖F‖) * (1 + ‖P‖) :=
      le_mul_of_one_le_right (by positivity) (by linarith)
    have e6 : 0 ≤ ρ ^ k * (1 + ‖P‖) := by positivity
    calc _ ≤ n * (n ^ 2 * C₂ ^ 2 * ρ ^ k * ((1 + ‖F‖) * (1 + ‖P‖))) + n * (n ^ 2 * C₁ * C₂ * ρ ^ k * ‖F‖) * (1 + ‖P‖) := by linarith
      _ ≤ ρ ^ k * (1 + ‖P‖) + (n * (n ^ 2 * C₂ ^ 2 * ρ ^ k * ((1 + ‖F‖) * (1 + ‖P‖))) +
            n * (n ^ 2 * C₁ * C₂ * ρ ^ k * ‖F‖) * (1 + ‖P‖)) := by linarith
      _ = _ := by ring
  have hnV : 0 ≤ n * ‖V‖ := by positivity
  have hnG : 0 ≤ n * ‖G‖ := by positivity
  refine (entry_le (M := D) ?_ (ε := n * ‖V‖ + n * ‖G‖) ?_ ?_ i j).trans hsum
  · show ((ric A H Q R)^[k] P - F)ᵀ = _
    rw [transpose_sub, hFs, IsHermitian.symm' hk.1]
  · have := (norm_sub_psd hVs (le_add_of_nonneg_right (a := n * ‖V‖) hnG)).add hup
    rwa [sub_add_sub_cancel] at this
  · have := (norm_sub_psd hGs (le_add_of_nonneg_left (a := n * ‖G‖) hnV)).add hdown
    convert this using 1
    abel

/-! ### comparison with observability and controllability -/

/-- In the steady state of an observable model with full process noise the closed loop is stable. -/
theorem detectable_of_observable (ho : Observable A H) : Detectable A H := by
  rcases Nat.eq_zero_or_pos n with rfl | hn
  · exact ⟨0, tendsto_const_nhds.congr fun k => Subsingleton.elim _ _⟩
  have hQ : (1 : Matrix (Fin n) (Fin n) ℝ).PosSemidef := Matrix.PosSemidef.one
  have hR : (1 : Matrix (Fin m) (Fin m) ℝ).PosDef := Matrix.PosDef.one
  have hc : Controllable A 1 := fun y hy => by
    have := hy 0 hn
    simpa using this
  obtain ⟨c, δ, u⟩ := exists_uniform (A := A) (H := H) hQ hR hc ho
  obtain ⟨C, ρ, hC, h0, h1, hd⟩ := u.decay hQ hR
  obtain ⟨F, hF, hS⟩ := exists_steady (A := A) (H := H) hQ hR ho
  have hs : Stable (closedLoop A 1 H 1 F) := by
    refine stable_of_decay (C := C) h0 h1 fun k => ?_
    have h2 : ∀ d, ‖closedLoop A 1 H 1 F ^ k *ᵥ d‖ ≤ C * ρ ^ k * ‖d‖ := fun d => by
      have := hd F hF n le_rfl d k
      rwa [steady_iter hS, prop_steady hS] at this
    exact norm_of_mulVec (by positivity) h2
  refine ⟨A * kGain H (priorCov A F 1) 1, ?_⟩
  have := hs.swap
  simpa only [Matrix.mul_sub, Matrix.mul_one, Matrix.mul_assoc] using this

theorem stabilizable_of_controllable (hQ : Qᵀ = Q) (hc : Controllable A Q) : Stabilizable A Q := by
  have ho : Observable Aᵀ Q := by
    intro x hx
    refine hc x fun i hi => ?_
    have := hx i hi
    rwa [← hQ, ← transpose_pow, mulVec_mulVec, ← transpose_mul, mulVec_transpose, ] at this
  obtain ⟨L, hL⟩ := detectable_of_observable ho
  refine ⟨Lᵀ, ?_⟩
  have := hL.transpose
  simpa only [transpose_sub, transpose_mul, transpose_transpose, hQ] using this

/-! ### estimation errors and bounded data -/

variable [Platform]

theorem run_bound_detect (hQ : Q.PosSemidef) (hR : R.PosDef) (hd : Detectable A H) (hs : Stabilizable A Q)
    (P : Matrix (Fin n) (Fin n) ℝ) (hP : P.PosSemidef) :
    ∃ C ρ : ℝ, 0 < C ∧ 0 < ρ ∧ ρ < 1 ∧ ∀ (b : Belief n) (ss : List (LinStep n m)), b.P = P →
      ConstantModel A H Q R ss → ∀ D, 0 ≤ D → (∀ (l : ℕ) (s : LinStep n m), ss[l]? = some s → ‖s.z‖ ≤ D ∧ ‖s.c‖ ≤ D) →
      ∀ k, k ≤ ss.length → ‖(lastOf b (ss.take k)).x‖ ≤ C * ρ ^ k * ‖b.x‖ + C * D := by
  obtain ⟨F, hF, hfix, hT⟩ := exists_limit (A := A) (H := H) hQ hR hd
  have hst := closedLoop_stable (H := H) hQ hR hs hF hfix
  obtain ⟨C₀, ρ₀, hC₀, h0₀, h1₀, hb⟩ := cov_decay_detect hQ hR hF hfix hst hT
  have hlim : Tendsto (fun k => (ric A H Q R)^[k] P) atTop (𝓝 F) := by
    refine tendsto_pi_nhds.2 fun i => tendsto_pi_nhds.2 fun j => ?_
    have ht : Tendsto (fun k => C₀ * ρ₀ ^ k * (1 + ‖P‖)) atTop (𝓝 0) := by
      have := ((tendsto_pow_atTop_nhds_zero_of_lt_one h0₀.le h1₀).const_mul C₀).mul_const (1 + ‖P‖)
      rwa [mul_zero, zero_mul] at this
    refine tendsto_iff_norm_sub_tendsto_zero.2 (squeeze_zero (fun k => norm_nonneg _) (fun k => ?_) ht)
    exact hb P hP k i j
  obtain ⟨C, ρ, hC, h0, h1, hprop⟩ := prop_decay hQ hR hF hst hlim
  have hd' : ∀ (j : ℕ) (d : Fin n → ℝ) (k : ℕ), ‖prop A Q H R ((ric A H Q R)^[j] P) k *ᵥ d‖ ≤ n * C * ρ ^ k * ‖d‖ := by
    intro j d k
    refine (mulVec_norm _ d).trans (mul_le_mul_of_nonneg_right ?_ (norm_nonneg d))
    rw [mul_assoc]
    exact mul_le_mul_of_nonneg_left (hprop j k) (Nat.cast_nonneg n)
  obtain ⟨κ, hκ, hg⟩ : ∃ κ : ℝ, 0 ≤ κ ∧ ∀ k (v : Fin m → ℝ), ‖ownGains A Q H R P k *ᵥ v‖ ≤ κ * ‖v‖ := by
    have hp := priorCov_posSemidef (A := A) hF hQ
    have c1 : Continuous fun X : Matrix (Fin n) (Fin n) ℝ => priorCov A X Q := by unfold priorCov; fun_prop
    have c2 := kGain_tendsto (H := H) (R := R) ((c1.tendsto F).comp hlim) (posDef_det_ne (innovCov_posDef hp hR))
    obtain ⟨κ, hκ⟩ := c2.norm.bddAbove_range
    have h2 : ∀ k, ‖ownGains A Q H R P k‖ ≤ κ := fun k => hκ ⟨k, rfl⟩
    have hκ0 : 0 ≤ κ := (norm_nonneg _).trans (h2 0)
    refine ⟨m * κ, by positivity, fun k v => (mulVec_norm _ v).trans (mul_le_mul_of_nonneg_right ?_ (norm_nonneg v))⟩
    exact mul_le_mul_of_nonneg_left (h2 k) (Nat.cast_nonneg m)
  obtain ⟨η, hη, hH⟩ := exists_mulVec_bound H
  have hρ : 0 < (1 - ρ)⁻¹ := inv_pos.2 (by linarith)
  have hm : 0 ≤ (1 - ρ)⁻¹ * (1 + κ * η + κ) := by positivity
  have hn : (0 : ℝ) ≤ n := Nat.cast_nonneg n
  refine ⟨(1 + n * C) * (1 + (1 - ρ)⁻¹ * (1 + κ * η + κ)), ρ, by positivity, h0, h1, fun b ss hbP hcm D hD hdat k hk => ?_⟩
  have hex : ∀ i, ∃ w : Fin n → ℝ, i < k → ‖w‖ ≤ (1 + κ * η + κ) * D ∧
      (lastOf b (ss.take (i + 1))).x =
        ((1 - ownGains A Q H R P i * H) * A) *ᵥ (lastOf b (ss.take i)).x + w := by
    intro i
    by_cases hi : i < k
    · have hl : i < ss.length := by omega
      have hss : ss[i]? = some ss[i] := List.getElem?_eq_getElem hl
      have hmm := hcm ss[i] (List.getElem_mem _)
      obtain ⟨hz, hu⟩ := hdat i _ hss
      refine ⟨ss[i].c - ownGains A Q H R P i *ᵥ (H *ᵥ ss[i].c) + ownGains A Q H R P i *ᵥ ss[i].z, fun _ => ⟨?_, ?_⟩⟩
      rotate_left
      · rw [lastOf_take_succ _ ss _ _ hss,
          next_mean hmm (P := P) (k := i) _ (by rw [lastOf_const hcm _ _ (by omega), hbP]), step_affine]
      · have e1 := hg i (H *ᵥ ss[i].c)
        have e2 := hg i ss[i].z
        have e3 : κ * ‖H *ᵥ ss[i].c‖ ≤ κ * (η * D) :=
          mul_le_mul_of_nonneg_left ((hH _).trans (mul_le_mul_of_nonneg_left hu hη)) hκ
        have e4 : κ * ‖ss[i].z‖ ≤ κ * D := mul_le_mul_of_nonneg_left hz hκ
        refine (norm_add_le _ _).trans ?_
        have := norm_sub_le ss[i].c (ownGains A Q H R P i *ᵥ (H *ᵥ ss[i].c))
        linarith
    · exact ⟨0, fun h => absurd h hi⟩
  choose w hw using hex
  have key := variation (ownGains A Q H R P) (fun i => (lastOf b (ss.take i)).x) w k (fun i hi => (hw i hi).2)
  have hseg : ∀ i, propagator A H (fun l => ownGains A Q H R P (i + 1 + l)) (k - 1 - i) =
      prop A Q H R ((ric A H Q R)^[i + 1] P) (k - 1 - i) := by
    intro i
    rw [prop, ← ownGains_shift]
  have hfirst : ‖propagator A H (ownGains A Q H R P) k *ᵥ b.x‖ ≤ n * C * ρ ^ k * ‖b.x‖ := hd' 0 b.x k
  have hsum : ‖∑ i ∈ Finset.range k, propagator A H (fun l => ownGains A Q H R P (i + 1 + l)) (k - 1 - i) *ᵥ w i‖ ≤
      n * C * ((1 - ρ)⁻¹ * ((1 + κ * η + κ) * D)) := by
    have hi : ∀ i ∈ Finset.range k, ‖propagator A H (fun l => ownGains A Q H R P (i + 1 + l)) (k - 1 - i) *ᵥ w i‖ ≤
        n * C * ((1 + κ * η + κ) * D) * ρ ^ (k - 1 - i) := fun i hi => by
      rw [hseg]
      refine (hd' (i + 1) (w i) (k - 1 - i)).trans ?_
      rw [mul_right_comm (_ * C) (_ * D)]
      exact mul_le_mul_of_nonneg_left (hw i (Finset.mem_range.1 hi)).1 (by positivity)
    refine (norm_sum_le _ _).trans ((Finset.sum_le_sum hi).trans ?_)
    rw [← Finset.mul_sum]
    refine (mul_le_mul_of_nonneg_left (geom_le h0 h1 _) (by positivity)).trans (le_of_eq ?_)
    ring
  have e0 : (lastOf b (ss.take 0)).x = b.x := by simp [lastOf]
  simp only [e0] at key
  rw [key]
  refine (norm_add_le _ _).trans (add_le_add (hfirst.trans ?_) (hsum.trans ?_))
  · refine mul_le_mul_of_nonneg_right (mul_le_mul_of_nonneg_right ?_ (by positivity)) (norm_nonneg _)
    have := le_mul_of_one_le_right (show 0 ≤ 1 + n * C by positivity) (show 1 ≤ 1 + (1 - ρ)⁻¹ * (1 + κ * η + κ) by linarith)
    linarith
  · have h2 : 0 ≤ (1 - ρ)⁻¹ * (1 + κ * η + κ) * D := by positivity
    have h3 : 0 ≤ n * C := by positivity
    nlinarith

/-- C165: a constant model with PSD `Q` and PD `R` that is detectable through `H` and stabilizable by `Q`: whatever the
measurements do not see, and whatever the process noise does not reach, is stable. There is exactly one PSD steady state `F`
of the covariance recursion, and in it estimation errors die out: the powers of `(I - K H) A`, `K` the steady-state gain,
tend to zero. For every initial state (any PSD covariance, with entries up to `p`), any data and any controls, `filter` returns,
and for every step `k` the returned covariance and the recorded gain are within `C ρ^k (1 + p)` of `F` and `K`, where `C` and
`ρ < 1` depend on the model only. -/
theorem C165_convergence (A Q : Matrix (Fin n) (Fin n) ℝ) (H : Matrix (Fin m) (Fin n) ℝ) (R : Matrix (Fin m) (Fin m) ℝ)
    (hQ : Q.PosSemidef) (hR : R.PosDef) (hd : Detectable A H) (hs : Stabilizable A Q) :
    ∃ (F : Matrix (Fin n) (Fin n) ℝ) (K : Matrix (Fin n) (Fin m) ℝ) (C ρ : ℝ),
      K = (A * F * Aᵀ + Q) * Hᵀ * (H * (A * F * Aᵀ + Q) * Hᵀ + R)⁻¹ ∧
      F.PosSemidef ∧ SteadyState A H Q R F ∧
      (∀ G : Matrix (Fin n) (Fin n) ℝ, G.PosSemidef → SteadyState A H Q R G → G = F) ∧
      Tendsto (fun k => ((1 - K * H) * A) ^ k) atTop (𝓝 0) ∧ 0 < ρ ∧ ρ < 1 ∧
      ∀ (kf : KalmanFilter Fl) (Z : NDArray Fl) (U : Option (NDArray Fl)) (b : Belief n) (ss : List (LinStep n m)) (p : ℝ),
        Represents kf Z U b ss → b.P.PosSemidef → ConstantModel A H Q R ss → 0 ≤ p → (∀ i j, |b.P i j| ≤ p) →
        ∃ (bs : List (Belief n)) (Ks : List (Matrix (Fin n) (Fin m) ℝ)), FilterReturns kf Z U bs Ks ∧
          bs.length = ss.length ∧ Ks.length = ss.length ∧ ∀ k,
            (∀ q, bs[k]? = some q → ∀ i j, |q.P i j - F i j| ≤ C * ρ ^ k * (1 + p)) ∧
            (∀ K', Ks[k]? = some K' → ∀ i j, |K' i j - K i j| ≤ C * ρ ^ k * (1 + p)) := by
  obtain ⟨F, hF, hfix, hT⟩ := exists_limit (A := A) (H := H) hQ hR hd
  have hst := closedLoop_stable (H := H) hQ hR hs hF hfix
  obtain ⟨C, ρ, hC, h0, h1, hb⟩ := cov_decay_detect hQ hR hF hfix hst hT
  have hT0 : 0 ≤ ∑ k, ∑ l, |(Hᵀ * R⁻¹) k l| := Finset.sum_nonneg fun k _ => Finset.sum_nonneg fun l _ => abs_nonneg _
  refine ⟨F, kGain H (priorCov A F Q) R, C * ρ * (1 + ∑ k, ∑ l, |(Hᵀ * R⁻¹) k l|), ρ, rfl, hF, steadyState_iff.2 hfix,
    fun G hG hSG => ?_, hst, h0, h1, fun kf Z U b ss p h hP hcm hp hPp => ?_⟩
  · rw [steadyState_iff] at hSG
    ext i j
    have hbG : ∀ k, |G i j - F i j| ≤ C * ρ ^ k * (1 + ‖G‖) := fun k => by
      have := hb G hG k i j
      rwa [steady_iter hSG] at this
    have ht : Tendsto (fun k => C * ρ ^ k * (1 + ‖G‖)) atTop (𝓝 0) := by
      have := ((tendsto_pow_atTop_nhds_zero_of_lt_one h0.le h1).const_mul C).mul_const (1 + ‖G‖)
      rwa [mul_zero, zero_mul] at this
    have := ge_of_tendsto' ht hbG
    exact sub_eq_zero.1 (abs_eq_zero.1 (le_antisymm this (abs_nonneg _)))
  · have hsol : Solvable b ss := solvable_psd hP (fun s hs => (hcm s hs).2.2.1 ▸ hQ) fun s hs => (hcm s hs).2.2.2 ▸ hR
    have hPn : ‖b.P‖ ≤ p := (mat_norm_le hp).2 hPp
    have hent : ∀ k i j, |((ric A H Q R)^[k + 1] b.P - F) i j| ≤ C * ρ ^ (k + 1) * (1 + p) := fun k i j =>
      (hb b.P hP (k + 1) i j).trans (mul_le_mul_of_nonneg_left (by linarith) (by positivity))
    refine ⟨_, _, h.returns hsol, filtered_length _ _, gainsOf_length _ _, fun k => ⟨fun q hq i j => ?_, fun K hK i j => ?_⟩⟩
    · rw [filtered_const hcm b k q hq]
      refine (hent k i j).trans ?_
      have h2 : C * ρ * ρ ^ k ≤ C * ρ * (1 + ∑ k, ∑ l, |(Hᵀ * R⁻¹) k l|) * ρ ^ k :=
        mul_le_mul_of_nonneg_right (le_mul_of_one_le_right (by positivity) (by linarith)) (by positivity)
      have h3 := mul_le_mul_of_nonneg_right h2 (show 0 ≤ 1 + p by linarith)
      calc _ = C * ρ * ρ ^ k * (1 + p) := by rw [pow_succ]; ring
        _ ≤ _ := h3
    · have e1 := gainsOf_const hcm b k K hK
      have e2 : kGain H (priorCov A F Q) R = F * (Hᵀ * R⁻¹) := by
        have := ownGains_post (A := A) (H := H) hQ hR hF 0
        rwa [steady_iter hfix] at this
      rw [e1, e2, ownGains_post hQ hR hP, ← Matrix.sub_apply, ← Matrix.sub_mul]
      refine (mul_entry_le (hent k) _ i j).trans ?_
      have h2 : C * ρ * ρ ^ k * (∑ k, ∑ l, |(Hᵀ * R⁻¹) k l|) ≤ C * ρ * ρ ^ k * (1 + ∑ k, ∑ l, |(Hᵀ * R⁻¹) k l|) :=
        mul_le_mul_of_nonneg_left (by linarith) (by positivity)
      have h3 := mul_le_mul_of_nonneg_right h2 (show 0 ≤ 1 + p by linarith)
      calc _ = C * ρ * ρ ^ k * (∑ k, ∑ l, |(Hᵀ * R⁻¹) k l|) * (1 + p) := by rw [pow_succ]; ring
        _ ≤ _ := h3
        _ = _ := by ring

/-- C165: for such a model, started with any PSD covariance `P`: whatever the true states `x 0, x 1, ...` are, let `w` be the
disturbances of the transitions and `v` the errors of the measurements. If they are at most `D` and the initial
estimate is off by at most `r`, the estimate after step `k` is off by at most `C ρ^(k+1) r + C D`, where `C` and `ρ < 1` depend only
on the model and `P`. Without disturbances the estimates converge to the true states, also those of components that are not
observed. -/
theorem C165_observer (A Q : Matrix (Fin n) (Fin n) ℝ) (H : Matrix (Fin m) (Fin n) ℝ) (R : Matrix (Fin m) (Fin m) ℝ)
    (P : Matrix (Fin n) (Fin n) ℝ) (hQ : Q.PosSemidef) (hR : R.PosDef) (hP : P.PosSemidef) (hd : Detectable A H)
    (hs : Stabilizable A Q) :
    ∃ C ρ : ℝ, 0 < ρ ∧ ρ < 1 ∧
      ∀ (kf : KalmanFilter Fl) (Z : NDArray Fl) (U : Option (NDArray Fl)) (x₀ : Fin n → ℝ) (ss : List (LinStep n m)),
        Represents kf Z U ⟨x₀, P⟩ ss → ConstantModel A H Q R ss →
        ∃ (bs : List (Belief n)) (Ks : List (Matrix (Fin n) (Fin m) ℝ)), FilterReturns kf Z U bs Ks ∧
          bs.length = ss.length ∧
          ∀ (x w : ℕ → Fin n → ℝ) (v : ℕ → Fin m → ℝ) (r D : ℝ), 0 ≤ D →
            (∀ (k : ℕ) (s : LinStep n m), ss[k]? = some s → x (k + 1) = A *ᵥ x k + s.c + w k ∧ s.z = H *ᵥ x (k + 1) + v k ∧
              (∀ i, |w k i| ≤ D) ∧ ∀ i, |v k i| ≤ D) →
            (∀ i, |x₀ i - x 0 i| ≤ r) →
            ∀ k q, bs[k]? = some q → ∀ i, |q.x i - x (k + 1) i| ≤ C * ρ ^ (k + 1) * r + C * D := by
  obtain ⟨C, ρ, hC, h0, h1, hb⟩ := run_bound_detect hQ hR hd hs P hP
  refine ⟨C, ρ, h0, h1, fun kf Z U x₀ ss h hcm => ?_⟩
  refine ⟨_, _, h.returns (solvable_psd hP (fun s hs => (hcm s hs).2.2.1 ▸ hQ) fun s hs => (hcm s hs).2.2.2 ▸ hR),
    filtered_length _ _, ?_⟩
  intro x w v r D hD hx hr k q hq i
  have hr0 : 0 ≤ r := (abs_nonneg _).trans (hr i)
  obtain ⟨hk, rfl⟩ := filtered_lastOf hq
  have herr := error_run ⟨x₀, P⟩ ss x w v (fun k s hs => by
    obtain ⟨e1, e2, -, -⟩ := hx k s hs
    obtain ⟨m1, m2, -, -⟩ := hcm s (List.mem_of_getElem? hs)
    rw [m1, m2]; exact ⟨e1, e2⟩) (k + 1) hk
  have key := hb ⟨x₀ - x 0, P⟩ (ss.mapIdx fun i s => { s with c := -w i, z := v i }) rfl (fun s hs => by
    obtain ⟨i, hi, rfl⟩ := List.mem_mapIdx.1 hs
    exact hcm ss[i] (List.getElem_mem _)) D hD (fun l s hs => by
    rw [List.getElem?_mapIdx] at hs
    obtain ⟨s', hs', rfl⟩ := Option.map_eq_some_iff.1 hs
    obtain ⟨-, -, e3, e4⟩ := hx l s' hs'
    exact ⟨(abs_le_iff_norm hD).1 e4, by rw [norm_neg]; exact (abs_le_iff_norm hD).1 e3⟩) (k + 1) (by simpa using hk)
  rw [herr] at key
  have hr' := (abs_le_iff_norm (v := x₀ - x 0) hr0).1 hr
  refine (abs_le_iff_norm (v := (lastOf ⟨x₀, P⟩ (ss.take (k + 1))).x - x (k + 1)) (by positivity)).2 (key.trans ?_) i
  exact add_le_add_left (mul_le_mul_of_nonneg_left hr' (by positivity)) _

/-- C165: for such a model bounded data give bounded estimates, whether or not the system itself is stable. -/
theorem C165_bounded (A Q : Matrix (Fin n) (Fin n) ℝ) (H : Matrix (Fin m) (Fin n) ℝ) (R : Matrix (Fin m) (Fin m) ℝ)
    (P : Matrix (Fin n) (Fin n) ℝ) (hQ : Q.PosSemidef) (hR : R.PosDef) (hP : P.PosSemidef) (hd : Detectable A H)
    (hs : Stabilizable A Q) :
    ∃ C ρ : ℝ, 0 < ρ ∧ ρ < 1 ∧
      ∀ (kf : KalmanFilter Fl) (Z : NDArray Fl) (U : Option (NDArray Fl)) (x₀ : Fin n → ℝ) (ss : List (LinStep n m)),
        Represents kf Z U ⟨x₀, P⟩ ss → ConstantModel A H Q R ss →
        ∃ (bs : List (Belief n)) (Ks : List (Matrix (Fin n) (Fin m) ℝ)), FilterReturns kf Z U bs Ks ∧
          bs.length = ss.length ∧
          ∀ r D : ℝ, 0 ≤ D → (∀ s ∈ ss, (∀ i, |s.z i| ≤ D) ∧ ∀ i, |s.c i| ≤ D) → (∀ i, |x₀ i| ≤ r) →
            ∀ k q, bs[k]? = some q → ∀ i, |q.x i| ≤ C * ρ ^ (k + 1) * r + C * D := by
  obtain ⟨C, ρ, hC, h0, h1, hb⟩ := run_bound_detect hQ hR hd hs P hP
  refine ⟨C, ρ, h0, h1, fun kf Z U x₀ ss h hcm => ?_⟩
  refine ⟨_, _, h.returns (solvable_psd hP (fun s hs => (hcm s hs).2.2.1 ▸ hQ) fun s hs => (hcm s hs).2.2.2 ▸ hR),
    filtered_length _ _, ?_⟩
  intro r D hD hdat hr k q hq i
  have hr0 : 0 ≤ r := (abs_nonneg _).trans (hr i)
  obtain ⟨hk, rfl⟩ := filtered_lastOf hq
  have key := hb ⟨x₀, P⟩ ss rfl hcm D hD (fun l s hs => by
    obtain ⟨e1, e2⟩ := hdat s (List.mem_of_getElem? hs)
    exact ⟨(abs_le_iff_norm hD).1 e1, (abs_le_iff_norm hD).1 e2⟩) (k + 1) hk
  refine (abs_le_iff_norm (by positivity)).2 (key.trans ?_) i
  exact add_le_add_left (mul_le_mul_of_nonneg_left ((abs_le_iff_norm hr0).1 hr) (by positivity)) _

/-- C165: observable and controllable models (C82) are detectable and stabilizable; conversely a model with any steady state in
which errors die out is detectable, so nothing weaker would do for `H`. -/
theorem C165_conditions (A Q : Matrix (Fin n) (Fin n) ℝ) (H : Matrix (Fin m) (Fin n) ℝ) (hQ : Q.PosSemidef) :
    (Observable A H → Detectable A H) ∧ (Controllable A Q → Stabilizable A Q) ∧
    ∀ K : Matrix (Fin n) (Fin m) ℝ, Tendsto (fun k => ((1 - K * H) * A) ^ k) atTop (𝓝 0) → Detectable A H := by
  refine ⟨detectable_of_observable, stabilizable_of_controllable (IsHermitian.symm' hQ.1), fun K hK => ⟨A * K, ?_⟩⟩
  have : Stable ((1 - K * H) * A) := hK
  simpa only [Matrix.mul_sub, Matrix.mul_one, Matrix.mul_assoc] using this.swap

-- C165: a random walk that is measured, beside a decaying component that is neither measured nor driven by noise. The model is
-- detectable and stabilizable, but neither observable nor controllable, so C82 does not apply.
theorem Ex.detect_case : let A : Matrix (Fin 2) (Fin 2) ℝ := !![1, 0; 0, 1/2]
    let H : Matrix (Fin 1) (Fin 2) ℝ := !![1, 0]
    let Q : Matrix (Fin 2) (Fin 2) ℝ := !![1, 0; 0, 0]
    Q.PosSemidef ∧ Detectable A H ∧ Stabilizable A Q ∧ ¬ Observable A H ∧ ¬ Controllable A Q ∧
    ∀ (b : Belief 2) (zs : List (Fin 1 → ℝ)),
      (∃ kf Z U, Represents kf Z U b (zs.map fun z => (⟨A, 0, H, Q, 1, z⟩ : LinStep 2 1))) ∧
      ConstantModel A H Q 1 (zs.map fun z => (⟨A, 0, H, Q, 1, z⟩ : LinStep 2 1)) := by
  intro A H Q
  have hpow : ∀ k, (!![0, 0; 0, (1/2 : ℝ)] : Matrix (Fin 2) (Fin 2) ℝ) ^ (k + 1) = !![0, 0; 0, (1/2) ^ (k + 1)] := by
    intro k
    induction k with
    | zero => simp
    | succ k ih =>
      rw [pow_succ, ih]
      ext i j
      fin_cases i <;> fin_cases j <;> simp [Matrix.mul_apply, Fin.sum_univ_two, pow_succ]
  have hst : Stable (!![0, 0; 0, (1/2 : ℝ)] : Matrix (Fin 2) (Fin 2) ℝ) := by
    refine (tendsto_add_atTop_iff_nat 1).1 ?_
    simp only [hpow]
    have h2 := (tendsto_add_atTop_iff_nat 1).2
      (tendsto_pow_atTop_nhds_zero_of_lt_one (show (0 : ℝ) ≤ 1 / 2 by norm_num) (by norm_num))
    refine tendsto_pi_nhds.2 fun i => tendsto_pi_nhds.2 fun j => ?_
    fin_cases i <;> fin_cases j <;> simp <;> simpa using h2
  have hA : ∀ i, (A ^ i) *ᵥ ![0, 1] = ![0, (1/2) ^ i] := by
    intro i
    induction i with
    | zero => simp
    | succ i ih =>
      rw [pow_succ', ← mulVec_mulVec, ih]
      ext j; fin_cases j <;> simp [A, mulVec, dotProduct, Fin.sum_univ_two, pow_succ', ]
  have hA' : ∀ i, ![0, 1] ᵥ* (A ^ i) = ![0, (1/2) ^ i] := by
    intro i
    induction i with
    | zero => simp
    | succ i ih =>
      rw [pow_succ, ← vecMul_vecMul, ih]
      ext j; fin_cases j <;> simp [A, vecMul, dotProduct, Fin.sum_univ_two, pow_succ]
  refine ⟨?_, ⟨!![1; 0], ?_⟩, ⟨!![1, 0; 0, 0], ?_⟩, fun ho => ?_, fun hc => ?_, fun b zs => ⟨⟨_, _, _, Ex.encode_represents _ _⟩, ?_⟩⟩
  · have := Matrix.posSemidef_conjTranspose_mul_self Q
    convert this using 1
    ext i j; fin_cases i <;> fin_cases j <;> simp [Q, Matrix.mul_apply, Fin.sum_univ_two]
  · convert hst using 1
    ext i j; fin_cases i <;> fin_cases j <;> simp [A, H, Matrix.mul_apply]
  · convert hst using 1
    ext i j; fin_cases i <;> fin_cases j <;> simp [A, Q, Matrix.mul_apply, Fin.sum_univ_two]
  · have := congrFun (ho ![0, 1] fun i _ => by
      rw [hA]; ext j; fin_cases j; simp [H, mulVec, dotProduct, Fin.sum_univ_two]) 1
    simp at this
  · have := congrFun (hc ![0, 1] fun i _ => by
      rw [← vecMul_vecMul, hA']; ext j; fin_cases j <;> simp [Q, vecMul, dotProduct, Fin.sum_univ_two]) 1
    simp at this
  · intro s hs
    obtain ⟨z, -, rfl⟩ := List.mem_map.1 hs
    exact ⟨rfl, rfl, rfl, rfl⟩

end KK
