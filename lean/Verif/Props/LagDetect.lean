import Verif.Props.NoDriftDetect
import Verif.Props.FixedLag

/-!
# C171: fixed-lag smoothing of models that are only detectable and stabilizable
-/

set_option linter.unusedSectionVars false

namespace KK

open Matrix Filter Topology
open scoped Matrix.Norms.Elementwise

section
variable {n m : ℕ} {A Q : Matrix (Fin n) (Fin n) ℝ} {H : Matrix (Fin m) (Fin n) ℝ} {R : Matrix (Fin m) (Fin m) ℝ}

theorem backHom_comp (M N : Matrix (Fin n) (Fin n) ℝ) (d : (Fin n → ℝ) × Matrix (Fin n) (Fin n) ℝ) :
    backHom M (backHom N d) = backHom (M * N) d := by
  refine Prod.ext ?_ ?_
  · simp [backHom, mulVec_mulVec]
  · simp [backHom, Matrix.mul_assoc]

/-- Further data change the smoothed beliefs by products of smoother gains. -/
theorem smoothAt_diff (b : Belief n) (ss tt : List (LinStep n m)) (hc : ConstantModel A H Q R ss) (L k : ℕ) (hk : k + L = ss.length) :
    toE (smoothAt b (ss ++ tt) k) - toE (smoothAt b ss k) = backHom (backProd A Q H R b.P k L)
      (toE (smoothAt b (ss ++ tt) ss.length) - toE (smoothAt b ss ss.length)) := by
  induction L generalizing k with
  | zero => obtain rfl : k = ss.length := by omega
            simp [backProd, backHom]
  | succ L ih =>
    obtain ⟨s, hs⟩ : ∃ s, ss[k]? = some s := ⟨_, List.getElem?_eq_getElem (by omega)⟩
    have hs' : (ss ++ tt)[k]? = some s := by rw [List.getElem?_append_left (by omega), hs]
    have hm := hc s (List.mem_of_getElem? hs)
    rw [smoothAt_step b ss hs, smoothAt_step b (ss ++ tt) hs', List.take_append_of_le_length (by omega), rtsStep_affine hm,
      rtsStep_affine hm _ (smoothAt b ss (k + 1)), add_sub_add_right_eq_sub, ← map_sub, ih (k + 1) (by omega), backHom_comp,
      lastOf_const hc b k (by omega)]
    rfl

theorem seg_conjBack (P : Matrix (Fin n) (Fin n) ℝ) (N j k : ℕ) (d : Matrix (Fin n) (Fin n) ℝ) (h : j + k ≤ N) :
    seg (fun i => conjHom (smGain A Q ((ric A H Q R)^[N - 1 - i] P))) j k d = conjHom (backProd A Q H R P (N - j - k) k) d := by
  induction k with
  | zero => simp [seg, backProd, conjHom]
  | succ k ih =>
    rw [seg, AddMonoidHom.comp_apply, ih (by omega), backProd, show N - 1 - (j + k) = N - j - (k + 1) by omega,
      show N - j - (k + 1) + 1 = N - j - k by omega]
    simp [conjHom, Matrix.mul_assoc]

theorem seg_mulBack (P : Matrix (Fin n) (Fin n) ℝ) (N j k : ℕ) (d : Fin n → ℝ) (h : j + k ≤ N) :
    seg (fun i => mulHom (smGain A Q ((ric A H Q R)^[N - 1 - i] P))) j k d = mulHom (backProd A Q H R P (N - j - k) k) d := by
  induction k with
  | zero => simp [seg, backProd, mulHom]
  | succ k ih =>
    rw [seg, AddMonoidHom.comp_apply, ih (by omega), backProd, show N - 1 - (j + k) = N - j - (k + 1) by omega,
      show N - j - (k + 1) + 1 = N - j - k by omega]
    simp [mulHom, mulVec_mulVec]

/-- A backward recursion in decaying factors with bounded inhomogeneity is bounded. -/
theorem back_bound {E : Type*} [NormedAddCommGroup E] {L : ℕ → E →+ E} {C ρ : ℝ} (hC : 1 ≤ C) (h0 : 0 < ρ) (h1 : ρ < 1)
    {e : ℕ → E} {w : ℕ → E} {N : ℕ} (hL : ∀ j k d, j + k ≤ N → ‖seg L j k d‖ ≤ C * ρ ^ k * ‖d‖)
    (h : ∀ i < N, e (i + 1) = L i (e i) + w i) {β r : ℝ} (hβ : 0 ≤ β) (hw : ∀ i < N, ‖w i‖ ≤ β) (he : ‖e 0‖ ≤ r) :
    ∀ i ≤ N, ‖e i‖ ≤ C * r + C * (1 - ρ)⁻¹ * β :=
  trap hC h0 h1 hL h hβ (fun i hi _ => hw i hi)
    (add_le_add (mul_le_mul_of_nonneg_left he (by linarith)) le_rfl)

theorem rtsStep_zeroCov {s : LinStep n m} (h : s.A = A ∧ s.H = H ∧ s.Q = Q ∧ s.R = R) (f : Belief n) :
    toE (rtsStep f s ⟨0, 0⟩) = (f.x - smGain A Q f.P *ᵥ (A *ᵥ f.x + s.c),
      f.P - smGain A Q f.P * priorCov A f.P Q * (smGain A Q f.P)ᵀ) := by
  have hG : f.P * s.Aᵀ * (s.predict f).P⁻¹ = smGain A Q f.P := by
    simp only [LinStep.predict, h.1, h.2.2.1]; rfl
  have hp : (s.predict f).P = priorCov A f.P Q := by rw [← h.1, ← h.2.2.1]; rfl
  have hx : (s.predict f).x = A *ᵥ f.x + s.c := by simp only [LinStep.predict, h.1]
  refine Prod.ext ?_ ?_
  · show f.x + (f.P * s.Aᵀ * (s.predict f).P⁻¹) *ᵥ (0 - (s.predict f).x) = _
    rw [hG, hx, zero_sub, mulVec_neg, ← sub_eq_add_neg]
  · show f.P + (f.P * s.Aᵀ * (s.predict f).P⁻¹) * (0 - (s.predict f).P) * (f.P * s.Aᵀ * (s.predict f).P⁻¹)ᵀ = _
    rw [hG, hp, zero_sub, Matrix.mul_neg, Matrix.neg_mul, ← sub_eq_add_neg]

/-- The smoothed beliefs on bounded data are bounded, by the same bounds for all lengths. -/
theorem smoothAt_bound {P : Matrix (Fin n) (Fin n) ℝ} (hS : SettlesBack A Q H R P) : ∃ X : ℝ, 0 < X ∧
    ∀ (b : Belief n) (ss : List (LinStep n m)), b.P = P → ConstantModel A H Q R ss → ∀ t ≤ ss.length,
      ‖(smoothAt b ss t).P‖ ≤ X ∧
      ∀ r D : ℝ, 0 ≤ D → ‖b.x‖ ≤ r → (∀ (l : ℕ) (s : LinStep n m), ss[l]? = some s → ‖s.z‖ ≤ D ∧ ‖s.c‖ ≤ D) →
        ‖(smoothAt b ss t).x‖ ≤ X * (r + D) := by
  obtain ⟨C, ρ, hC, h0, h1, hd⟩ := hS.back
  obtain ⟨Y, hY0, hY⟩ := hS.fwd.bound
  obtain ⟨C', ρ', hC', h0', h1', hrun⟩ := hS.fwd.run
  have hC0 : 0 < C := by linarith
  have hρ : 0 < (1 - ρ)⁻¹ := inv_pos.2 (by linarith)
  obtain ⟨C₁, hC₁⟩ : ∃ C₁ : ℝ, C₁ = 1 + n * C + (n * C) ^ 2 := ⟨_, rfl⟩
  have hnC : 0 ≤ n * C := by positivity
  have hC₁1 : 1 ≤ C₁ := by rw [hC₁]; nlinarith
  have hsg : ∀ t, ‖smGain A Q ((ric A H Q R)^[t] P)‖ ≤ C := fun t => by
    have := hd t 1
    rw [backProd, backProd, Matrix.mul_one, pow_one] at this
    exact this.trans (mul_le_of_le_one_right hC0.le h1.le)
  obtain ⟨β, hβ⟩ : ∃ β : ℝ, β = Y + (n * C) ^ 2 * ((n * ‖A‖) ^ 2 * Y + ‖Q‖) := ⟨_, rfl⟩
  have hβ0 : 0 ≤ β := by rw [hβ]; positivity
  obtain ⟨γ, hγ⟩ : ∃ γ : ℝ, γ = C' + n * C * (n * ‖A‖ * C' + 1) := ⟨_, rfl⟩
  have hγ0 : 0 ≤ γ := by rw [hγ]; positivity
  have hX1 : 0 ≤ C₁ * Y + C₁ * (1 - ρ)⁻¹ * β := by positivity
  have hX2 : 0 ≤ C₁ * C' + C₁ * (1 - ρ)⁻¹ * γ := by positivity
  refine ⟨1 + (C₁ * Y + C₁ * (1 - ρ)⁻¹ * β) + (C₁ * C' + C₁ * (1 - ρ)⁻¹ * γ), by linarith, fun b ss hbP hcm t ht => ?_⟩
  have hexP : ∀ i ≤ ss.length, (lastOf b (ss.take i)).P = (ric A H Q R)^[i] P := fun i hi => hbP ▸ lastOf_const hcm b i hi
  have hss : ∀ i < ss.length, ∃ s, ss[ss.length - 1 - i]? = some s := fun i hi => ⟨_, List.getElem?_eq_getElem (by omega)⟩
  have hstep : ∀ i < ss.length, ∀ s, ss[ss.length - 1 - i]? = some s → toE (smoothAt b ss (ss.length - (i + 1))) =
      backHom (smGain A Q ((ric A H Q R)^[ss.length - 1 - i] P)) (toE (smoothAt b ss (ss.length - i))) +
        ((lastOf b (ss.take (ss.length - 1 - i))).x - smGain A Q ((ric A H Q R)^[ss.length - 1 - i] P) *ᵥ
          (A *ᵥ (lastOf b (ss.take (ss.length - 1 - i))).x + s.c),
        (ric A H Q R)^[ss.length - 1 - i] P - smGain A Q ((ric A H Q R)^[ss.length - 1 - i] P) *
          priorCov A ((ric A H Q R)^[ss.length - 1 - i] P) Q * (smGain A Q ((ric A H Q R)^[ss.length - 1 - i] P))ᵀ) :=
    fun i hi s hs => by
      have hm := hcm s (List.mem_of_getElem? hs)
      rw [show ss.length - (i + 1) = ss.length - 1 - i by omega, smoothAt_step b ss hs,
        show ss.length - 1 - i + 1 = ss.length - i by omega, rtsStep_affine hm, rtsStep_zeroCov hm, hexP _ (by omega)]
  have hpow : ∀ k j, n * ‖backProd A Q H R P j k‖ ≤ n * C * ρ ^ k := fun k j => by
    rw [mul_assoc]; exact mul_le_mul_of_nonneg_left (hd _ k) (Nat.cast_nonneg _)
  have hpw1 : ∀ k, ρ ^ k ≤ 1 := fun k => pow_le_one₀ h0.le h1.le
  have hNt : ss.length - (ss.length - t) = t := by omega
  constructor
  · have key := back_bound (L := fun i => conjHom (smGain A Q ((ric A H Q R)^[ss.length - 1 - i] P))) (C := C₁) (ρ := ρ) hC₁1 h0 h1
      (e := fun i => (smoothAt b ss (ss.length - i)).P) (N := ss.length)
      (w := fun i => (ric A H Q R)^[ss.length - 1 - i] P - smGain A Q ((ric A H Q R)^[ss.length - 1 - i] P) *
          priorCov A ((ric A H Q R)^[ss.length - 1 - i] P) Q * (smGain A Q ((ric A H Q R)^[ss.length - 1 - i] P))ᵀ)
      (fun j k d hjk => by
        rw [seg_conjBack P ss.length j k d hjk]
        refine (conj_norm_le _ d).trans (mul_le_mul_of_nonneg_right ?_ (norm_nonneg d))
        have e1 := pow_le_pow_left₀ (by positivity) (hpow k (ss.length - j - k)) 2
        have e3 : (n * C * ρ ^ k) ^ 2 ≤ (n * C) ^ 2 * ρ ^ k := by
          have : (n * C * ρ ^ k) ^ 2 = (n * C) ^ 2 * ρ ^ k * ρ ^ k := by ring
          rw [this]
          exact mul_le_of_le_one_right (by positivity) (hpw1 k)
        have e4 : 0 ≤ ρ ^ k := by positivity
        rw [hC₁]
        have : 0 ≤ n * C * ρ ^ k := by positivity
        linarith)
      (fun i hi => by
        obtain ⟨s, hs⟩ := hss i hi
        exact congrArg Prod.snd (hstep i hi s hs)) (β := β) (r := Y) hβ0 (fun i hi => by
        have b2 := hY (ss.length - 1 - i)
        have b3 := hsg (ss.length - 1 - i)
        have p2 : ‖priorCov A ((ric A H Q R)^[ss.length - 1 - i] P) Q‖ ≤ (n * ‖A‖) ^ 2 * Y + ‖Q‖ := by
          rw [priorCov]
          exact (norm_add_le _ _).trans (add_le_add ((conj_norm_le _ _).trans (mul_le_mul_of_nonneg_left b2 (by positivity))) le_rfl)
        refine (norm_sub_le _ _).trans ?_
        have k1 := conj_norm_le (smGain A Q ((ric A H Q R)^[ss.length - 1 - i] P)) (priorCov A ((ric A H Q R)^[ss.length - 1 - i] P) Q)
        have k3 : (n * ‖smGain A Q ((ric A H Q R)^[ss.length - 1 - i] P)‖) ^ 2 ≤ (n * C) ^ 2 :=
          pow_le_pow_left₀ (by positivity) (mul_le_mul_of_nonneg_left b3 (Nat.cast_nonneg _)) 2
        have k4 := k1.trans (mul_le_mul k3 p2 (norm_nonneg _) (by positivity))
        rw [hβ]; linarith)
      (by
        show ‖(smoothAt b ss (ss.length - 0)).P‖ ≤ Y
        rw [Nat.sub_zero, smoothAt_last, ← List.take_length (l := ss), hexP _ le_rfl]; exact hY _)
      (ss.length - t) (by omega)
    rw [hNt] at key
    linarith
  · intro r D hD hr hdat
    have hr0 : 0 ≤ r := (norm_nonneg _).trans hr
    have hexx : ∀ i ≤ ss.length, ‖(lastOf b (ss.take i)).x‖ ≤ C' * (r + D) := fun i hi => by
      refine (hrun b ss hbP hcm D hD hdat i hi).trans ?_
      have : C' * ρ' ^ i * ‖b.x‖ ≤ C' * r :=
        mul_le_mul (mul_le_of_le_one_right hC'.le (pow_le_one₀ h0'.le h1'.le)) hr (norm_nonneg _) hC'.le
      linarith
    have key := back_bound (L := fun i => mulHom (smGain A Q ((ric A H Q R)^[ss.length - 1 - i] P))) (C := C₁) (ρ := ρ) hC₁1 h0 h1
      (e := fun i => (smoothAt b ss (ss.length - i)).x) (N := ss.length)
      (w := fun i => (lastOf b (ss.take (ss.length - 1 - i))).x - smGain A Q ((ric A H Q R)^[ss.length - 1 - i] P) *ᵥ
          (A *ᵥ (lastOf b (ss.take (ss.length - 1 - i))).x + (ss[ss.length - 1 - i]?.getD ⟨A, 0, H, Q, R, 0⟩).c))
      (fun j k d hjk => by
        rw [seg_mulBack P ss.length j k d hjk]
        refine (mulVec_norm _ d).trans (mul_le_mul_of_nonneg_right ?_ (norm_nonneg d))
        refine (hpow k (ss.length - j - k)).trans (mul_le_mul_of_nonneg_right ?_ (by positivity))
        rw [hC₁]; nlinarith)
      (fun i hi => by
        obtain ⟨s, hs⟩ := hss i hi
        have := congrArg Prod.fst (hstep i hi s hs)
        rw [hs]
        exact this) (β := γ * (r + D)) (r := C' * (r + D)) (by positivity) (fun i hi => by
        obtain ⟨s, hs⟩ := hss i hi
        rw [hs]
        have b1 := hexx (ss.length - 1 - i) (by omega)
        have b3 := hsg (ss.length - 1 - i)
        have p1 : ‖A *ᵥ (lastOf b (ss.take (ss.length - 1 - i))).x + s.c‖ ≤ n * ‖A‖ * (C' * (r + D)) + D :=
          (norm_add_le _ _).trans (add_le_add ((mulVec_norm _ _).trans (mul_le_mul_of_nonneg_left b1 (by positivity))) (hdat _ s hs).2)
        refine (norm_sub_le _ _).trans ?_
        have k1 := mulVec_norm (smGain A Q ((ric A H Q R)^[ss.length - 1 - i] P))
          (A *ᵥ (lastOf b (ss.take (ss.length - 1 - i))).x + s.c)
        have k2 := k1.trans (mul_le_mul (mul_le_mul_of_nonneg_left b3 (Nat.cast_nonneg _)) p1 (norm_nonneg _) (by positivity))
        have k3 : n * C * D ≤ n * C * (r + D) := mul_le_mul_of_nonneg_left (by linarith) hnC
        have e : γ * (r + D) = C' * (r + D) + (n * C * (n * ‖A‖ * (C' * (r + D))) + n * C * (r + D)) := by rw [hγ]; ring
        rw [e]
        refine add_le_add b1 (k2.trans ?_)
        rw [mul_add]; linarith)
      (by
        show ‖(smoothAt b ss (ss.length - 0)).x‖ ≤ C' * (r + D)
        rw [Nat.sub_zero, smoothAt_last]
        have := hexx ss.length le_rfl
        rwa [List.take_length] at this)
      (ss.length - t) (by omega)
    rw [hNt] at key
    refine key.trans ?_
    have : 0 ≤ (1 + (C₁ * Y + C₁ * (1 - ρ)⁻¹ * β)) * (r + D) := by positivity
    linarith

end

section
variable {n m : ℕ} [Platform]

/-- C171: a constant model with PSD `Q` and PD `R`, detectable and stabilizable, whose predicted covariance is nonsingular in the
steady state; initial covariance `P`.  `smooth` is called on the data `ss`, and again when the further data `tt` have arrived.
(Either the second call raises LinAlgError, or:)  the smoothed belief of every step `k` hardly changes if it lies far from the end
`N` of the first run: the covariance changes by at most `C ρ^(N-k)`, and the mean by at most `C ρ^(N-k) r` where `r` bounds the change of
the estimate of the last step of the first run.  `C` and `ρ < 1` depend on the model and `P` only. -/
theorem C171_fixed_lag (A Q : Matrix (Fin n) (Fin n) ℝ) (H : Matrix (Fin m) (Fin n) ℝ) (R : Matrix (Fin m) (Fin m) ℝ)
    (P : Matrix (Fin n) (Fin n) ℝ) (hQ : Q.PosSemidef) (hR : R.PosDef) (hP : P.PosSemidef) (hd : Detectable A H)
    (hs : Stabilizable A Q)
    (hp : ∀ F : Matrix (Fin n) (Fin n) ℝ, F.PosSemidef → SteadyState A H Q R F → (A * F * Aᵀ + Q).det ≠ 0) :
    ∃ C ρ : ℝ, 0 < ρ ∧ ρ < 1 ∧
      ∀ (kf kf' : KalmanFilter Fl) (Z Z' : NDArray Fl) (U U' : Option (NDArray Fl)) (x₀ : Fin n → ℝ) (ss tt : List (LinStep n m)),
        Represents kf Z U ⟨x₀, P⟩ ss → Represents kf' Z' U' ⟨x₀, P⟩ (ss ++ tt) → ConstantModel A H Q R (ss ++ tt) →
        ss ≠ [] → ss.length = Z.rows.length → (ss ++ tt).length = Z'.rows.length →
        SmoothSingular kf' Z' U' ∨
        ∃ (qs qs' : List (Belief n)) (Ks Ks' : List (Matrix (Fin n) (Fin m) ℝ)), SmoothReturns kf Z U qs Ks ∧
          SmoothReturns kf' Z' U' qs' Ks' ∧ qs.length = ss.length ∧ qs'.length = (ss ++ tt).length ∧
          ∀ k q q' p p', qs[k]? = some q → qs'[k]? = some q' → qs[ss.length - 1]? = some p → qs'[ss.length - 1]? = some p' →
            (∀ i j, |q.P i j - q'.P i j| ≤ C * ρ ^ (ss.length - 1 - k)) ∧
            (∀ r : ℝ, (∀ i, |p.x i - p'.x i| ≤ r) → ∀ i, |q.x i - q'.x i| ≤ C * ρ ^ (ss.length - 1 - k) * r) ∧
            ∀ r D : ℝ, 0 ≤ D → (∀ i, |x₀ i| ≤ r) → (∀ s ∈ ss ++ tt, (∀ i, |s.z i| ≤ D) ∧ ∀ i, |s.c i| ≤ D) →
              ∀ i, |q.x i - q'.x i| ≤ C * ρ ^ (ss.length - 1 - k) * (r + D) := by
  have hS : SettlesBack A Q H R P := .of_detectable hQ hR hd hs hp hP
  obtain ⟨C, ρ, hC, h0, h1, hb⟩ := hS.back
  obtain ⟨X, hX, hbd⟩ := smoothAt_bound hS
  have hnC : 0 ≤ n * C := by positivity
  refine ⟨n * C * (1 + 2 * X) + (n * C) ^ 2 * (2 * X), ρ, h0, h1, fun kf kf' Z Z' U U' x₀ ss tt h h' hcm hne hl hl' => ?_⟩
  have hcs : ConstantModel A H Q R ss := fun s hs => hcm s (by simp [hs])
  have hs1 : Solvable ⟨x₀, P⟩ ss := solvable_psd hP (fun s hs => (hcs s hs).2.2.1 ▸ hQ) fun s hs => (hcs s hs).2.2.2 ▸ hR
  have hs2 : Solvable ⟨x₀, P⟩ (ss ++ tt) := solvable_psd hP (fun s hs => (hcm s hs).2.2.1 ▸ hQ) fun s hs => (hcm s hs).2.2.2 ▸ hR
  have hne' : ss ++ tt ≠ [] := by simp [hne]
  by_cases hsm' : SmoothSolvable ⟨x₀, P⟩ (ss ++ tt)
  swap
  · exact .inl (h'.smoothSingular hl' hne' fun hh => hsm' hh.2)
  have hsm : SmoothSolvable ⟨x₀, P⟩ ss := by
    cases ss with
    | nil => exact absurd rfl hne
    | cons s ss =>
      simp only [List.cons_append, SmoothSolvable] at hsm' ⊢
      exact ((rtsSolvable_append _ _ _).1 hsm').1
  right
  refine ⟨_, _, _, _, h.smoothReturns hl hne hs1 hsm, h'.smoothReturns hl' hne' hs2 hsm', smoothed_length _ _,
    smoothed_length _ _, fun k q q' p p' hq hq' hp hp' => ?_⟩
  obtain ⟨k1, rfl⟩ := smoothed_get hq
  obtain ⟨k2, rfl⟩ := smoothed_get hq'
  obtain ⟨k3, rfl⟩ := smoothed_get hp
  obtain ⟨k4, rfl⟩ := smoothed_get hp'
  have hN : 0 < ss.length := List.length_pos_iff.2 hne
  have eN : ss.length - 1 + 1 = ss.length := by omega
  have hlen : ss.length ≤ (ss ++ tt).length := by rw [List.length_append]; omega
  obtain ⟨b, hbe⟩ : ∃ b : Belief n, b = ⟨x₀, P⟩ := ⟨_, rfl⟩
  have hbP : b.P = P := by rw [hbe]
  have hbx : b.x = x₀ := by rw [hbe]
  have hdiff := smoothAt_diff b ss tt hcs (ss.length - 1 - k) (k + 1) (by omega)
  rw [eN, ← hbe]
  rw [hbP] at hdiff
  have hB := hb (k + 1) (ss.length - 1 - k)
  have hnB : n * ‖backProd A Q H R P (k + 1) (ss.length - 1 - k)‖ ≤ n * C * ρ ^ (ss.length - 1 - k) := by
    rw [mul_assoc]; exact mul_le_mul_of_nonneg_left hB (Nat.cast_nonneg _)
  have hx : (smoothAt b (ss ++ tt) (k + 1)).x - (smoothAt b ss (k + 1)).x = backProd A Q H R P (k + 1) (ss.length - 1 - k) *ᵥ
      ((smoothAt b (ss ++ tt) ss.length).x - (smoothAt b ss ss.length).x) := congrArg Prod.fst hdiff
  have hPd : (smoothAt b (ss ++ tt) (k + 1)).P - (smoothAt b ss (k + 1)).P = backProd A Q H R P (k + 1) (ss.length - 1 - k) *
      ((smoothAt b (ss ++ tt) ss.length).P - (smoothAt b ss ss.length).P) * (backProd A Q H R P (k + 1) (ss.length - 1 - k))ᵀ :=
    congrArg Prod.snd hdiff
  have hpow : 0 ≤ ρ ^ (ss.length - 1 - k) := by positivity
  have hpow1 : ρ ^ (ss.length - 1 - k) ≤ 1 := pow_le_one₀ h0.le h1.le
  -- means
  have mean : ∀ r : ℝ, ‖(smoothAt b (ss ++ tt) ss.length).x - (smoothAt b ss ss.length).x‖ ≤ r →
      ‖(smoothAt b (ss ++ tt) (k + 1)).x - (smoothAt b ss (k + 1)).x‖ ≤ n * C * ρ ^ (ss.length - 1 - k) * r := fun r hr => by
    rw [hx]
    exact (mulVec_norm _ _).trans (mul_le_mul hnB hr (norm_nonneg _) (by positivity))
  refine ⟨fun i j => ?_, fun r hr i => ?_, fun r D hD hr hdat i => ?_⟩
  · have e1 : ‖(smoothAt b (ss ++ tt) ss.length).P - (smoothAt b ss ss.length).P‖ ≤ 2 * X := by
      refine (norm_sub_le _ _).trans ?_
      have := (hbd b (ss ++ tt) hbP hcm ss.length hlen).1
      have := (hbd b ss hbP hcs ss.length le_rfl).1
      linarith
    have e2 : (n * ‖backProd A Q H R P (k + 1) (ss.length - 1 - k)‖) ^ 2 ≤ (n * C) ^ 2 * ρ ^ (ss.length - 1 - k) := by
      refine (pow_le_pow_left₀ (by positivity) hnB 2).trans ?_
      have : (n * C * ρ ^ (ss.length - 1 - k)) ^ 2 = (n * C) ^ 2 * ρ ^ (ss.length - 1 - k) * ρ ^ (ss.length - 1 - k) := by ring
      rw [this]
      exact mul_le_of_le_one_right (by positivity) hpow1
    have e3 : ‖(smoothAt b (ss ++ tt) (k + 1)).P - (smoothAt b ss (k + 1)).P‖ ≤ (n * C) ^ 2 * ρ ^ (ss.length - 1 - k) * (2 * X) := by
      rw [hPd]
      exact (conj_norm_le _ _).trans (mul_le_mul e2 e1 (norm_nonneg _) (by positivity))
    rw [abs_sub_comm]
    refine (entry_le_norm ((smoothAt b (ss ++ tt) (k + 1)).P - (smoothAt b ss (k + 1)).P) i j).trans (e3.trans ?_)
    have : 0 ≤ n * C * (1 + 2 * X) * ρ ^ (ss.length - 1 - k) := by positivity
    linarith
  · have hr0 : 0 ≤ r := (abs_nonneg _).trans (hr i)
    have h2 := mean r ((abs_le_iff_norm hr0).1 fun i => by rw [Pi.sub_apply, abs_sub_comm]; exact hr i)
    have h3 := (abs_le_iff_norm (by positivity)).2 h2 i
    rw [abs_sub_comm]
    refine h3.trans (mul_le_mul_of_nonneg_right (mul_le_mul_of_nonneg_right ?_ hpow) hr0)
    have : 0 ≤ n * C * (2 * X) := by positivity
    have : 0 ≤ (n * C) ^ 2 * (2 * X) := by positivity
    linarith
  · have hr0 : 0 ≤ r := (abs_nonneg _).trans (hr i)
    have hd' : ∀ (l : ℕ) (s : LinStep n m), (ss ++ tt)[l]? = some s → ‖s.z‖ ≤ D ∧ ‖s.c‖ ≤ D := fun l s hs => by
      obtain ⟨e1, e2⟩ := hdat s (List.mem_of_getElem? hs)
      exact ⟨(abs_le_iff_norm hD).1 e1, (abs_le_iff_norm hD).1 e2⟩
    have hd1 : ∀ (l : ℕ) (s : LinStep n m), ss[l]? = some s → ‖s.z‖ ≤ D ∧ ‖s.c‖ ≤ D := fun l s hs =>
      hd' l s (by rw [List.getElem?_append_left (List.getElem?_eq_some_iff.1 hs).1, hs])
    have hr' : ‖b.x‖ ≤ r := by rw [hbx]; exact (abs_le_iff_norm hr0).1 hr
    have e1 : ‖(smoothAt b (ss ++ tt) ss.length).x - (smoothAt b ss ss.length).x‖ ≤ 2 * X * (r + D) := by
      refine (norm_sub_le _ _).trans ?_
      have := (hbd b (ss ++ tt) hbP hcm ss.length hlen).2 r D hD hr' hd'
      have := (hbd b ss hbP hcs ss.length le_rfl).2 r D hD hr' hd1
      linarith
    have h3 := (abs_le_iff_norm (by positivity)).2 (mean _ e1) i
    rw [abs_sub_comm]
    refine h3.trans ?_
    rw [← mul_assoc]
    refine mul_le_mul_of_nonneg_right ?_ (by linarith)
    have : 0 ≤ n * C * ρ ^ (ss.length - 1 - k) := by positivity
    have : 0 ≤ (n * C) ^ 2 * (2 * X) * ρ ^ (ss.length - 1 - k) := by positivity
    linarith

/-- C171: for such a model bounded data give bounded smoothed estimates, whatever the length of the data and whether or not the system
itself is stable, and the smoothed covariances are bounded whatever the data are. -/
theorem C171_bounded (A Q : Matrix (Fin n) (Fin n) ℝ) (H : Matrix (Fin m) (Fin n) ℝ) (R : Matrix (Fin m) (Fin m) ℝ)
    (P : Matrix (Fin n) (Fin n) ℝ) (hQ : Q.PosSemidef) (hR : R.PosDef) (hP : P.PosSemidef) (hd : Detectable A H)
    (hs : Stabilizable A Q)
    (hp : ∀ F : Matrix (Fin n) (Fin n) ℝ, F.PosSemidef → SteadyState A H Q R F → (A * F * Aᵀ + Q).det ≠ 0) :
    ∃ C : ℝ, ∀ (kf : KalmanFilter Fl) (Z : NDArray Fl) (U : Option (NDArray Fl)) (x₀ : Fin n → ℝ) (ss : List (LinStep n m)),
        Represents kf Z U ⟨x₀, P⟩ ss → ConstantModel A H Q R ss → ss ≠ [] → ss.length = Z.rows.length →
        SmoothSingular kf Z U ∨
        ∃ (qs : List (Belief n)) (Ks : List (Matrix (Fin n) (Fin m) ℝ)), SmoothReturns kf Z U qs Ks ∧ qs.length = ss.length ∧
          ∀ (k : ℕ) (q : Belief n), qs[k]? = some q → (∀ i j, |q.P i j| ≤ C) ∧
            ∀ r D : ℝ, 0 ≤ D → (∀ i, |x₀ i| ≤ r) → (∀ s ∈ ss, (∀ i, |s.z i| ≤ D) ∧ ∀ i, |s.c i| ≤ D) →
              ∀ i, |q.x i| ≤ C * (r + D) := by
  obtain ⟨X, hX, hbd⟩ := smoothAt_bound (SettlesBack.of_detectable hQ hR hd hs hp hP)
  refine ⟨X, fun kf Z U x₀ ss h hcm hne hl => ?_⟩
  have hs1 : Solvable ⟨x₀, P⟩ ss := solvable_psd hP (fun s hs => (hcm s hs).2.2.1 ▸ hQ) fun s hs => (hcm s hs).2.2.2 ▸ hR
  by_cases hsm : SmoothSolvable ⟨x₀, P⟩ ss
  swap
  · exact .inl (h.smoothSingular hl hne fun hh => hsm hh.2)
  refine .inr ⟨_, _, h.smoothReturns hl hne hs1 hsm, smoothed_length _ _, fun k q hq => ?_⟩
  obtain ⟨k1, rfl⟩ := smoothed_get hq
  obtain ⟨e1, e2⟩ := hbd ⟨x₀, P⟩ ss rfl hcm (k + 1) k1
  refine ⟨fun i j => (entry_le_norm (smoothAt ⟨x₀, P⟩ ss (k + 1)).P i j).trans e1, fun r D hD hr hdat i => ?_⟩
  have hr0 : 0 ≤ r := (abs_nonneg _).trans (hr i)
  exact (abs_le_iff_norm (by positivity)).2 (e2 r D hD ((abs_le_iff_norm hr0).1 hr) fun l s hs => by
    obtain ⟨e1, e2⟩ := hdat s (List.mem_of_getElem? hs)
    exact ⟨(abs_le_iff_norm hD).1 e1, (abs_le_iff_norm hD).1 e2⟩) i

end

-- C171: a measured random walk beside a decaying component that is never measured (so C111 does not apply), both with noise.
example [Platform] : let A : Matrix (Fin 2) (Fin 2) ℝ := !![1, 0; 0, 1/2]
    let H : Matrix (Fin 1) (Fin 2) ℝ := !![1, 0]
    ¬ Observable A H ∧ (1 : Matrix (Fin 2) (Fin 2) ℝ).PosSemidef ∧ Detectable A H ∧ Stabilizable A 1 ∧
    (∀ F : Matrix (Fin 2) (Fin 2) ℝ, F.PosSemidef → SteadyState A H 1 1 F → (A * F * Aᵀ + 1).det ≠ 0) ∧
    ∀ (b : Belief 2) (zs : List (Fin 1 → ℝ)),
      (∃ kf Z U, Represents kf Z U b (zs.map fun z => (⟨A, 0, H, 1, 1, z⟩ : LinStep 2 1))) ∧
      ConstantModel A H 1 1 (zs.map fun z => (⟨A, 0, H, 1, 1, z⟩ : LinStep 2 1)) := by
  intro A H
  obtain ⟨-, hd, -, hno, -, -⟩ := Ex.detect_case
  obtain ⟨hs, hdet⟩ := (C170_conditions A 1 H 1 Matrix.PosDef.one).1 Matrix.PosDef.one
  refine ⟨hno, Matrix.PosSemidef.one, hd, hs, fun F hF _ => hdet F hF, fun b zs => ⟨⟨_, _, _, Ex.encode_represents _ _⟩, ?_⟩⟩
  intro s hs
  obtain ⟨z, -, rfl⟩ := List.mem_map.1 hs
  exact ⟨rfl, rfl, rfl, rfl⟩

end KK
