import Verif.Proofs.Decay

/-!
# C82: convergence to the steady state from every initial covariance
-/

set_option linter.unusedSectionVars false

namespace KK

open Matrix Filter Topology

variable {n m : ℕ} {A Q : Matrix (Fin n) (Fin n) ℝ} {H : Matrix (Fin m) (Fin n) ℝ} {R : Matrix (Fin m) (Fin m) ℝ}

/-- `K R = P⁺ H'`. -/
theorem kGain_post (hR : R.PosDef) {P : Matrix (Fin n) (Fin n) ℝ} (hP : P.PosSemidef) :
    kGain H P R = postCov H P R * (Hᵀ * R⁻¹) := by
  have hS := posDef_det_ne (innovCov_posDef (H := H) hP hR)
  have h1 := kGain_mul_innov hS
  have e : kGain H P R * R = postCov H P R * Hᵀ := by
    rw [postCov, Matrix.sub_mul, Matrix.sub_mul, Matrix.one_mul, ← h1, innovCov]
    simp only [Matrix.mul_add, Matrix.mul_assoc]
    abel
  rw [← Matrix.mul_assoc, ← e, Matrix.mul_assoc, Matrix.mul_nonsing_inv _ (posDef_isUnit_det hR), Matrix.mul_one]

theorem ownGains_post (hQ : Q.PosSemidef) (hR : R.PosDef) {P : Matrix (Fin n) (Fin n) ℝ} (hP : P.PosSemidef) (k : ℕ) :
    ownGains A Q H R P k = (ric A H Q R)^[k + 1] P * (Hᵀ * R⁻¹) := by
  rw [ownGains, kGain_post hR (priorCov_posSemidef (iter_psd hQ hR hP k) hQ), Function.iterate_succ_apply']
  rfl

theorem mul_entry_le {a b c : ℕ} {M : Matrix (Fin a) (Fin b) ℝ} {ε : ℝ} (h : ∀ i j, |M i j| ≤ ε)
    (N : Matrix (Fin b) (Fin c) ℝ) (i : Fin a) (j : Fin c) : |(M * N) i j| ≤ ε * ∑ k, ∑ l, |N k l| := by
  rw [Matrix.mul_apply, Finset.mul_sum]
  refine (Finset.abs_sum_le_sum_abs _ _).trans (Finset.sum_le_sum fun k _ => ?_)
  rw [abs_mul]
  refine mul_le_mul (h i k) ?_ (abs_nonneg _) ((abs_nonneg _).trans (h i k))
  exact Finset.single_le_sum (f := fun l => |N k l|) (fun l _ => abs_nonneg _) (Finset.mem_univ j)

theorem gainsOf_const {ss : List (LinStep n m)} (hc : ConstantModel A H Q R ss) (b : Belief n) (k : ℕ)
    (K : Matrix (Fin n) (Fin m) ℝ) (hK : (gainsOf b ss)[k]? = some K) : K = ownGains A Q H R b.P k := by
  induction ss generalizing b k with
  | nil => simp [gainsOf] at hK
  | cons s ss ih =>
    obtain ⟨h1, h2, h3, h4⟩ := hc s (by simp)
    have e : (s.next b).P = ric A H Q R b.P := by rw [← h1, ← h2, ← h3, ← h4]; rfl
    rcases k with _ | k
    · simp only [gainsOf, List.getElem?_cons_zero, Option.some.injEq] at hK
      rw [← hK, ← h1, ← h2, ← h3, ← h4]; rfl
    · simp only [gainsOf, List.getElem?_cons_succ] at hK
      rw [ih (fun s hs => hc s (by simp [hs])) _ _ hK, e, ownGains, ← Function.iterate_succ_apply]; rfl

theorem exists_steady (hQ : Q.PosSemidef) (hR : R.PosDef) (ho : Observable A H) :
    ∃ F : Matrix (Fin n) (Fin n) ℝ, F.PosSemidef ∧ ric A H Q R F = F := by
  obtain ⟨C, hC, hb⟩ := iter_le_of_observable (A := A) (H := H) hQ hR ho
  have hz := fun k => iter_psd (A := A) (H := H) hQ hR (Matrix.PosSemidef.zero (n := Fin n)) k
  have hu := iter_up (A := A) (H := H) hQ hR Matrix.PosSemidef.zero
    (by rw [sub_zero]; exact ric_psd hQ hR Matrix.PosSemidef.zero)
  have hle : ∀ k, ((ric A H Q R)^[k + n] 0 - (ric A H Q R)^[k] 0).PosSemidef := by
    intro k
    rw [Function.iterate_add_apply]
    exact iter_mono hQ hR Matrix.PosSemidef.zero (by rw [sub_zero]; exact hz n) k
  obtain ⟨F, hF, hT⟩ := psd_tendsto_up hz hu fun k => psd_trans (hle k) (hb 0 Matrix.PosSemidef.zero (k + n) (by omega))
  exact ⟨F, hF, iter_limit hQ hR hF hT⟩

theorem steady_iter {F : Matrix (Fin n) (Fin n) ℝ} (hF : ric A H Q R F = F) (k : ℕ) : (ric A H Q R)^[k] F = F := by
  induction k with
  | zero => rfl
  | succ k ih => rw [Function.iterate_succ_apply', ih, hF]

variable [Platform]

/-- C82: a constant model with PSD `Q` and PD `R`, observable through `H` and controllable by `Q`.  There is exactly one
PSD steady state `F` of the covariance recursion, and it is PD.  For every initial state (any PSD covariance, singular
or huge), any data and any controls, `filter` returns, and from the `n`-th step on the returned covariances and the
recorded gains are within `C ρ^k` of `F` and of the steady-state gain `(A F A' + Q) H' (H (A F A' + Q) H' + R)⁻¹`, where
`C` and `ρ < 1` depend on the model only. -/
theorem C82_convergence (A Q : Matrix (Fin n) (Fin n) ℝ) (H : Matrix (Fin m) (Fin n) ℝ) (R : Matrix (Fin m) (Fin m) ℝ)
    (hQ : Q.PosSemidef) (hR : R.PosDef) (hc : Controllable A Q) (ho : Observable A H) :
    ∃ (F : Matrix (Fin n) (Fin n) ℝ) (C ρ : ℝ), F.PosDef ∧ SteadyState A H Q R F ∧
      (∀ G : Matrix (Fin n) (Fin n) ℝ, G.PosSemidef → SteadyState A H Q R G → G = F) ∧ 0 < ρ ∧ ρ < 1 ∧
      ∀ (kf : KalmanFilter Fl) (Z : NDArray Fl) (U : Option (NDArray Fl)) (b : Belief n) (ss : List (LinStep n m)),
        Represents kf Z U b ss → b.P.PosSemidef → ConstantModel A H Q R ss →
        ∃ (bs : List (Belief n)) (Ks : List (Matrix (Fin n) (Fin m) ℝ)), FilterReturns kf Z U bs Ks ∧
          bs.length = ss.length ∧ Ks.length = ss.length ∧ ∀ k, n ≤ k + 1 →
            (∀ q, bs[k]? = some q → ∀ i j, |q.P i j - F i j| ≤ C * ρ ^ k) ∧
            (∀ K, Ks[k]? = some K → ∀ i j,
              |K i j - ((A * F * Aᵀ + Q) * Hᵀ * (H * (A * F * Aᵀ + Q) * Hᵀ + R)⁻¹) i j| ≤ C * ρ ^ k) := by
  obtain ⟨c, δ, u⟩ := exists_uniform (A := A) (H := H) hQ hR hc ho
  obtain ⟨C, ρ, hC, h0, h1, hd⟩ := u.cov_decay hQ hR
  obtain ⟨F, hF, hS⟩ := exists_steady (A := A) (H := H) hQ hR ho
  have hpd : F.PosDef := by have := u.pd hF (le_refl n); rwa [steady_iter hS] at this
  have hT0 : 0 ≤ ∑ k, ∑ l, |(Hᵀ * R⁻¹) k l| := Finset.sum_nonneg fun k _ => Finset.sum_nonneg fun l _ => abs_nonneg _
  refine ⟨F, C * ρ * (1 + ∑ k, ∑ l, |(Hᵀ * R⁻¹) k l|), ρ, hpd, steadyState_iff.2 hS, fun G hG hSG => ?_, h0, h1,
    fun kf Z U b ss h hP hcm => ?_⟩
  · rw [steadyState_iff] at hSG
    ext i j
    have hb : ∀ k, |G i j - F i j| ≤ C * ρ ^ (n + k) := fun k => by
      have := hd G F hG hF (n + k) (by omega) i j
      rwa [steady_iter hSG, steady_iter hS] at this
    have ht : Tendsto (fun k => C * ρ ^ (n + k)) atTop (𝓝 0) := by
      have := (tendsto_pow_atTop_nhds_zero_of_lt_one h0.le h1).const_mul (C * ρ ^ n)
      rw [mul_zero] at this
      refine this.congr fun k => ?_
      rw [pow_add, mul_assoc]
    have := ge_of_tendsto' ht hb
    exact sub_eq_zero.1 (abs_eq_zero.1 (le_antisymm this (abs_nonneg _)))
  · have hs : Solvable b ss := solvable_psd hP (fun s hs => (hcm s hs).2.2.1 ▸ hQ) fun s hs => (hcm s hs).2.2.2 ▸ hR
    refine ⟨_, _, h.returns hs, filtered_length _ _, gainsOf_length _ _, fun k hk => ⟨fun q hq i j => ?_, fun K hK i j => ?_⟩⟩
    · rw [filtered_const hcm b k q hq]
      have := hd b.P F hP hF (k + 1) hk i j
      rw [steady_iter hS] at this
      refine this.trans ?_
      rw [pow_succ, mul_comm (ρ ^ k), ← mul_assoc]
      refine mul_le_mul_of_nonneg_right ?_ (by positivity)
      exact le_mul_of_one_le_right (by positivity) (by linarith)
    · have e1 := gainsOf_const hcm b k K hK
      have e2 : (A * F * Aᵀ + Q) * Hᵀ * (H * (A * F * Aᵀ + Q) * Hᵀ + R)⁻¹ = F * (Hᵀ * R⁻¹) := by
        have := ownGains_post (A := A) (H := H) hQ hR hF 0
        rwa [steady_iter hS] at this
      rw [e1, e2, ownGains_post hQ hR hP, ← Matrix.sub_apply, ← Matrix.sub_mul]
      have hent : ∀ i j, |((ric A H Q R)^[k + 1] b.P - F) i j| ≤ C * ρ ^ (k + 1) := fun i j => by
        have := hd b.P F hP hF (k + 1) hk i j
        rwa [steady_iter hS] at this
      refine (mul_entry_le hent _ i j).trans ?_
      rw [pow_succ, mul_comm (ρ ^ k), ← mul_assoc, mul_right_comm]
      refine mul_le_mul_of_nonneg_right ?_ (by positivity)
      exact mul_le_mul_of_nonneg_left (by linarith) (by positivity)

-- C82: the constant-velocity model, of which only the position is measured, is observable and controllable.
theorem Ex.cv_observable : Observable (Ex.cvStep 0 0).A (Ex.cvStep 0 0).H := by
  intro x h
  have h0 := congrFun (h 0 (by norm_num)) 0
  have h1 := congrFun (h 1 (by norm_num)) 0
  simp [Ex.cvStep, Matrix.mulVec, dotProduct, Fin.sum_univ_two] at h0 h1
  funext i
  fin_cases i <;> simp <;> linarith

theorem Ex.cv_controllable : Controllable (Ex.cvStep 0 0).A (Ex.cvStep 0 0).Q := by
  intro y h
  have h0 := h 0 (by norm_num)
  rw [pow_zero, Matrix.one_mul] at h0
  by_contra hy
  have := (Ex.cvStep_Q 0 0).dotProduct_mulVec_pos hy
  rw [star_trivial, dotProduct_mulVec, h0, zero_dotProduct] at this
  exact lt_irrefl _ this

example (uz : List (ℝ × ℝ)) (b : Belief 2) :
    (∃ kf Z U, Represents kf Z U b (Ex.cvSteps uz)) ∧
    ConstantModel (Ex.cvStep 0 0).A (Ex.cvStep 0 0).H (Ex.cvStep 0 0).Q (Ex.cvStep 0 0).R (Ex.cvSteps uz) ∧
    (Ex.cvStep 0 0).Q.PosSemidef ∧ (Ex.cvStep 0 0).R.PosDef ∧
    Controllable (Ex.cvStep 0 0).A (Ex.cvStep 0 0).Q ∧ Observable (Ex.cvStep 0 0).A (Ex.cvStep 0 0).H := by
  refine ⟨⟨_, _, _, Ex.encode_represents _ _⟩, ?_, (Ex.cvStep_Q 0 0).posSemidef, Ex.cvStep_R 0 0, Ex.cv_controllable,
    Ex.cv_observable⟩
  intro s hs
  simp only [Ex.cvSteps, List.mem_map] at hs
  obtain ⟨p, -, rfl⟩ := hs
  exact ⟨rfl, rfl, rfl, rfl⟩

end KK
