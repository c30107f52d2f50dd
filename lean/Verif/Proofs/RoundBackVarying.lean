import Verif.Proofs.RoundVarying
import Verif.Proofs.RoundBack

/-!
# Errors in every step of the backward pass, with a time-varying model
-/

set_option linter.unusedSectionVars false

namespace KK

open Matrix
open scoped Matrix.Norms.Elementwise

section
variable {n m : ℕ}

/-- The smoother gain at time `t`. -/
noncomputable def smAt (P : Matrix (Fin n) (Fin n) ℝ) (ss : List (LinStep n m)) (t : ℕ) : Matrix (Fin n) (Fin n) ℝ :=
  (ss[t]?.map fun s => smGain s.A s.Q (covRun P (ss.take t))).getD 0

theorem smAt_eq (P : Matrix (Fin n) (Fin n) ℝ) {ss : List (LinStep n m)} {t : ℕ} {s : LinStep n m} (hs : ss[t]? = some s) :
    smAt P ss t = smGain s.A s.Q (covRun P (ss.take t)) := by
  rw [smAt, hs]; rfl

/-- The product of the smoother gains at the times `t, ..., t+k-1`. -/
noncomputable def backProdV (P : Matrix (Fin n) (Fin n) ℝ) (ss : List (LinStep n m)) : ℕ → ℕ → Matrix (Fin n) (Fin n) ℝ
  | _, 0 => 1
  | t, k + 1 => smAt P ss t * backProdV P ss (t + 1) k

theorem seg_backV (P : Matrix (Fin n) (Fin n) ℝ) (ss : List (LinStep n m)) (N j k : ℕ) (d : (Fin n → ℝ) × Matrix (Fin n) (Fin n) ℝ)
    (h : j + k ≤ N) : seg (fun i => backHom (smAt P ss (N - 1 - i))) j k d = backHom (backProdV P ss (N - j - k) k) d := by
  induction k with
  | zero => simp [seg, backProdV, backHom]
  | succ k ih =>
    rw [seg, AddMonoidHom.comp_apply, ih (by omega), backProdV, show N - 1 - (j + k) = N - j - (k + 1) by omega,
      show N - j - (k + 1) + 1 = N - j - k by omega]
    refine Prod.ext ?_ ?_
    · simp [backHom, mulVec_mulVec]
    · simp [backHom, Matrix.mul_assoc]

/-- The predicted covariances of all steps but the first are at least `κ`. -/
def PriorAtLeast (κ : ℝ) (P : Matrix (Fin n) (Fin n) ℝ) (ss : List (LinStep n m)) : Prop :=
  ∀ (k : ℕ) (s : LinStep n m), 0 < k → ss[k]? = some s →
    (priorCov s.A (covRun P (ss.take k)) s.Q - κ • (1 : Matrix (Fin n) (Fin n) ℝ)).PosSemidef

theorem backProdV_mul {κ : ℝ} (hκ : 0 < κ) {P : Matrix (Fin n) (Fin n) ℝ} {ss : List (LinStep n m)} (hP : P.PosSemidef)
    (hs : ∀ s ∈ ss, Noisy s) (hp : PriorAtLeast κ P ss) (t k : ℕ) (ht : 0 < t) (hk : t + k ≤ ss.length) :
    backProdV P ss t k * covRun P (ss.take (t + k)) =
      covRun P (ss.take t) * (clo (covRun P (ss.take t)) ((ss.drop t).take k))ᵀ := by
  induction k generalizing t with
  | zero => simp [backProdV, clo]
  | succ k ih =>
    obtain ⟨s, hst⟩ : ∃ s, ss[t]? = some s := ⟨_, List.getElem?_eq_getElem (by omega)⟩
    have hdrop : ss.drop t = s :: ss.drop (t + 1) := by
      rw [List.drop_eq_getElem_cons (by omega)]
      congr 1
      exact (List.getElem?_eq_some_iff.1 hst).2
    have hn := hs s (List.mem_of_getElem? hst)
    have hpsd : (covRun P (ss.take t)).PosSemidef := covRun_psd (fun s h => hs s (List.mem_of_mem_take h)) hP
    have e1 := ih (t + 1) (by omega) (by omega)
    rw [show t + 1 + k = t + (k + 1) by omega] at e1
    rw [backProdV, Matrix.mul_assoc, e1, smAt_eq P hst, hdrop, List.take_succ_cons, clo, transpose_mul, covRun_take_succ P hst,
      ← Matrix.mul_assoc, ← Matrix.mul_assoc (covRun P (ss.take t)), smGain,
      gain_back hn hpsd (posDef_det_ne (posDef_of_lower hκ (hp t s ht hst)))]

theorem smAt_norm {a r C ρ g c κ : ℝ} (ha : 0 ≤ a) (hc : 0 < c) (hκ : 0 < κ) {P : Matrix (Fin n) (Fin n) ℝ} {ss : List (LinStep n m)}
    (hset : Settled a r C ρ g c P ss) (hp : PriorAtLeast κ P ss) (t : ℕ) (ht : 0 < t) :
    ‖smAt P ss t‖ ≤ n * (n * (c * a) * κ⁻¹) := by
  have hκ' := inv_pos.2 hκ
  rcases hs : ss[t]? with _ | s
  · rw [smAt, hs]
    show ‖(0 : Matrix (Fin n) (Fin n) ℝ)‖ ≤ _
    rw [norm_zero]; positivity
  · rw [smAt_eq P hs, smGain]
    have htm := hset.tame s (List.mem_of_getElem? hs)
    have hcv := hset.cov (ss.take t) (ss.drop t) (by simp)
    have e1 : ‖covRun P (ss.take t) * s.Aᵀ‖ ≤ n * (c * a) := by
      refine (mul_norm_le _ _).trans (mul_le_mul_of_nonneg_left ?_ (Nat.cast_nonneg _))
      rw [transpose_norm]
      exact mul_le_mul ((mat_norm_le hc.le).2 (psd_entry hc.le hcv.1 hcv.2)) ((mat_norm_le ha).2 htm.A) (norm_nonneg _) hc.le
    have e2 : ‖(priorCov s.A (covRun P (ss.take t)) s.Q)⁻¹‖ ≤ κ⁻¹ := (mat_norm_le hκ'.le).2 (inv_entry_le hκ (hp t s ht hs))
    exact (mul_norm_le _ _).trans (mul_le_mul_of_nonneg_left (mul_le_mul e1 e2 (norm_nonneg _) (by positivity)) (Nat.cast_nonneg _))

/-- Products of smoother gains decay; the constants depend only on the bounds. -/
theorem backProdV_decay {a r C ρ g c κ lo : ℝ} (N : ℕ) (ha : 0 ≤ a) (hr : 0 < r) (hC : 1 ≤ C) (h0 : 0 < ρ) (h1 : ρ < 1) (hc : 0 < c)
    (hκ : 0 < κ) (hlo : 0 < lo) : ∃ C' : ℝ, 1 ≤ C' ∧ ∀ (P : Matrix (Fin n) (Fin n) ℝ) (ss : List (LinStep n m)),
      Settled a r C ρ g c P ss → PriorAtLeast κ P ss →
      (∀ k, N ≤ k → k ≤ ss.length → (covRun P (ss.take k) - lo • (1 : Matrix (Fin n) (Fin n) ℝ)).PosSemidef) →
      ∀ t k, 0 < t → t + k ≤ ss.length → ‖backProdV P ss t k‖ ≤ C' * ρ ^ k := by
  have hκ' := inv_pos.2 hκ
  have hlo' := inv_pos.2 hlo
  obtain ⟨G, hG⟩ : ∃ G : ℝ, G = 1 + n * (n * (n * (c * a) * κ⁻¹)) := ⟨_, rfl⟩
  have hG1 : 1 ≤ G := by rw [hG]; have : 0 ≤ n * (n * (n * (c * a) * κ⁻¹)) := by positivity
                         linarith
  have hG0 : 0 ≤ G := by linarith
  have hρN : 0 < ρ ^ N := by positivity
  refine ⟨n * (n * (c * C) * lo⁻¹) + G ^ N * (ρ ^ N)⁻¹, ?_, fun P ss hset hp hl t k ht hk => ?_⟩
  · have e1 : 1 ≤ G ^ N * (ρ ^ N)⁻¹ := one_le_mul_of_one_le_of_one_le (one_le_pow₀ hG1)
      ((one_le_inv₀ hρN).2 (pow_le_one₀ h0.le h1.le))
    have : 0 ≤ n * (n * (c * C) * lo⁻¹) := by positivity
    linarith
  have hk0 : 0 < ρ ^ k := by positivity
  have x1 : 0 ≤ n * (n * (c * C) * lo⁻¹) * ρ ^ k := by positivity
  have x2 : 0 ≤ G ^ N * (ρ ^ N)⁻¹ * ρ ^ k := by positivity
  rw [add_mul]
  rcases Nat.lt_or_ge (t + k) N with h | h
  · have hb : ∀ k t, 0 < t → ‖backProdV P ss t k‖ ≤ G ^ k := by
      intro k
      induction k with
      | zero =>
        intro t _
        refine (mat_norm_le (by positivity)).2 fun i j => ?_
        rw [backProdV, Matrix.one_apply, pow_zero]; split <;> simp
      | succ k ih =>
        intro t ht
        rw [backProdV, pow_succ']
        refine (mul_norm_le _ _).trans ?_
        have e1 := mul_le_mul (smAt_norm ha hc hκ hset hp t ht) (ih (t + 1) (by omega)) (norm_nonneg _) (by positivity)
        have e2 := mul_le_mul_of_nonneg_left e1 (Nat.cast_nonneg (α := ℝ) n)
        refine e2.trans ?_
        rw [← mul_assoc]
        refine mul_le_mul_of_nonneg_right ?_ (by positivity)
        rw [hG]; linarith
    have e1 := (hb k t ht).trans (pow_le_pow_right₀ hG1 (show k ≤ N by omega))
    have e : ρ ^ N ≤ ρ ^ k := pow_le_pow_of_le_one h0.le h1.le (by omega)
    have e' : 1 ≤ (ρ ^ N)⁻¹ * ρ ^ k := by
      rw [← inv_mul_cancel₀ hρN.ne']; exact mul_le_mul_of_nonneg_left e (by positivity)
    have : G ^ N ≤ G ^ N * ((ρ ^ N)⁻¹ * ρ ^ k) := le_mul_of_one_le_right (by positivity) e'
    linarith
  · have hlow := hl (t + k) h hk
    have hpd := posDef_of_lower hlo hlow
    have e1 := backProdV_mul hκ hset.psd (hset.noisy hr) hp t k ht hk
    have e2 : backProdV P ss t k = covRun P (ss.take t) * (clo (covRun P (ss.take t)) ((ss.drop t).take k))ᵀ *
        (covRun P (ss.take (t + k)))⁻¹ := by
      rw [← e1, Matrix.mul_assoc, Matrix.mul_nonsing_inv _ (posDef_isUnit_det hpd), Matrix.mul_one]
    have hcv := hset.cov (ss.take t) (ss.drop t) (by simp)
    have hdk := hset.decay (ss.take t) ((ss.drop t).take k) ((ss.drop t).drop k) (by simp)
    rw [List.length_take, List.length_drop, Nat.min_eq_left (by omega)] at hdk
    have e3 : ‖covRun P (ss.take t) * (clo (covRun P (ss.take t)) ((ss.drop t).take k))ᵀ‖ ≤ n * (c * (C * ρ ^ k)) := by
      refine (mul_norm_le _ _).trans (mul_le_mul_of_nonneg_left ?_ (Nat.cast_nonneg _))
      rw [transpose_norm]
      exact mul_le_mul ((mat_norm_le hc.le).2 (psd_entry hc.le hcv.1 hcv.2)) (norm_of_mulVec (by positivity) hdk) (norm_nonneg _) hc.le
    have e4 : ‖(covRun P (ss.take (t + k)))⁻¹‖ ≤ lo⁻¹ := (mat_norm_le hlo'.le).2 (inv_entry_le hlo hlow)
    rw [e2]
    refine (mul_norm_le _ _).trans ((mul_le_mul_of_nonneg_left (mul_le_mul e3 e4 (norm_nonneg _) (by positivity))
      (Nat.cast_nonneg _)).trans ?_)
    have : n * (n * (c * (C * ρ ^ k)) * lo⁻¹) = n * (n * (c * C) * lo⁻¹) * ρ ^ k := by ring
    linarith

theorem det_lower {κ : ℝ} (hκ : 0 < κ) {M : Matrix (Fin n) (Fin n) ℝ} (h : (M - κ • (1 : Matrix (Fin n) (Fin n) ℝ)).PosSemidef) :
    ((Nat.factorial n : ℝ) * (κ⁻¹) ^ n)⁻¹ ≤ |M.det| := by
  have hd := Matrix.det_le (abv := AbsoluteValue.abs) (inv_entry_le hκ h)
  simp only [AbsoluteValue.abs_apply, Fintype.card_fin, nsmul_eq_mul, Matrix.det_nonsing_inv, Ring.inverse_eq_inv', abs_inv] at hd
  exact inv_le_of_inv_le₀ (abs_pos.2 (posDef_det_ne (posDef_of_lower hκ h))) hd

/-- A backward recursion that errs by at most `δ` in each step stays within `ε` of the exact one, for as long as it runs. -/
theorem back_near_var {a r C₀ ρ g Y κ lo Y₀ D ε : ℝ} (N : ℕ) (ha : 0 ≤ a) (hr : 0 < r) (hC₀ : 1 ≤ C₀) (h0 : 0 < ρ) (h1 : ρ < 1) (hg : 0 ≤ g)
    (hY0 : 0 < Y) (hκ : 0 < κ) (hlo : 0 < lo) (hY₀ : 0 ≤ Y₀) (hD : 0 ≤ D) (hε : 0 < ε) :
    ∃ δ > 0, ∃ X : ℝ, ∃ c > 0, ∀ (b : Belief n) (ss : List (LinStep n m)),
      Settled a r C₀ ρ g Y b.P ss → PriorAtLeast κ b.P ss →
      (∀ k, N ≤ k → k ≤ ss.length → (covRun b.P (ss.take k) - lo • (1 : Matrix (Fin n) (Fin n) ℝ)).PosSemidef) → ‖b.x‖ ≤ Y₀ →
      (∀ (l : ℕ) (s : LinStep n m), ss[l]? = some s → ‖s.z‖ ≤ D ∧ ‖s.c‖ ≤ D) →
      (∀ (t : ℕ) (s : LinStep n m), ss[t + 1]? = some s → ‖(lastOf b (ss.take (t + 1))).x‖ ≤ X ∧ ‖(lastOf b (ss.take (t + 1))).P‖ ≤ X ∧
        c ≤ |(s.predict (lastOf b (ss.take (t + 1)))).P.det|) ∧
      ∀ (q' : ℕ → Belief n) (M : ℕ), M < ss.length → ‖toE (q' 0) - toE (lastOf b ss)‖ ≤ δ →
      (∀ (i : ℕ) (s : LinStep n m), i < M → ss[ss.length - 1 - i]? = some s →
        ‖toE (q' (i + 1)) - toE (rtsStep (lastOf b (ss.take (ss.length - 1 - i))) s (q' i))‖ ≤ δ) →
      ∀ i ≤ M, ‖toE (q' i) - toE (smoothAt b ss (ss.length - i))‖ ≤ ε ∧ ‖toE (q' i)‖ ≤ X := by
  obtain ⟨C, hC, hd⟩ := backProdV_decay (n := n) (m := m) (g := g) N ha hr hC₀ h0 h1 hY0 hκ hlo
  have hC0 : 0 < C := by linarith
  have hρ : 0 < (1 - ρ)⁻¹ := inv_pos.2 (by linarith)
  obtain ⟨C₁, hC₁⟩ : ∃ C₁ : ℝ, C₁ = 1 + n * C + (n * C) ^ 2 := ⟨_, rfl⟩
  have hC₁1 : 1 ≤ C₁ := by rw [hC₁]; have : 0 ≤ n * C := by positivity
                           nlinarith
  obtain ⟨Γ, hΓ⟩ : ∃ Γ : ℝ, Γ = C₁ * (1 - ρ)⁻¹ := ⟨_, rfl⟩
  have hΓ0 : 0 < Γ := by rw [hΓ]; positivity
  obtain ⟨X₀, hX₀⟩ : ∃ X₀ : ℝ, X₀ = C₀ * Y₀ + C₀ * (1 + g * m * (a * n) + g * m) * (1 - ρ)⁻¹ * D := ⟨_, rfl⟩
  have hX₀0 : 0 ≤ X₀ := by rw [hX₀]; positivity
  -- the inhomogeneity
  obtain ⟨β, hβ⟩ : ∃ β : ℝ, β = X₀ + n * C * (n * a * X₀ + D) + (Y + (n * C) ^ 2 * ((n * a) ^ 2 * Y + a)) := ⟨_, rfl⟩
  have hβ0 : 0 ≤ β := by rw [hβ]; positivity
  obtain ⟨R, hR⟩ : ∃ R : ℝ, R = C₁ * (X₀ + Y) + Γ * β := ⟨_, rfl⟩
  have hR0 : 0 ≤ R := by rw [hR]; positivity
  obtain ⟨ε', hε', hε'ε, hε'1⟩ : ∃ ε' : ℝ, 0 < ε' ∧ ε' ≤ ε ∧ ε' ≤ 1 :=
    ⟨min ε 1, lt_min hε one_pos, min_le_left _ _, min_le_right _ _⟩
  obtain ⟨δ, hδ, hδr⟩ : ∃ δ : ℝ, 0 < δ ∧ (C₁ + Γ) * δ = ε' :=
    ⟨ε' / (C₁ + Γ), by positivity, by field_simp⟩
  have hκ' := inv_pos.2 hκ
  have hX₁ : 0 ≤ X₀ + Y + R := by linarith
  refine ⟨δ, hδ, X₀ + Y + R + 1, ((Nat.factorial n : ℝ) * (κ⁻¹) ^ n)⁻¹, by positivity, fun b ss hset hpr hlate hbx hdat => ?_⟩
  have hdat' : ∀ s ∈ ss, ‖s.z‖ ≤ D ∧ ‖s.c‖ ≤ D := fun s hs => by
    obtain ⟨i, hi⟩ := List.mem_iff_getElem?.1 hs
    exact hdat i s hi
  have hexP : ∀ i, (lastOf b (ss.take i)).P = covRun b.P (ss.take i) := fun i => lastOf_covRun _ _
  have hYc : ∀ i, ‖covRun b.P (ss.take i)‖ ≤ Y := fun i => by
    have := hset.cov (ss.take i) (ss.drop i) (by simp)
    exact (mat_norm_le hY0.le).2 (psd_entry hY0.le this.1 this.2)
  have hexx : ∀ i, ‖(lastOf b (ss.take i)).x‖ ≤ X₀ := fun i => by
    have hs : Settled a r C₀ ρ g Y b.P (ss.take i) := Settled.take (v := ss.drop i) (by simpa using hset)
    refine (hs.run ha hC₀ h0 h1 hg hD (fun s hs => hdat' s (List.mem_of_mem_take hs)) b.x).trans ?_
    rw [hX₀]
    have : C₀ * ρ ^ (ss.take i).length * ‖b.x‖ ≤ C₀ * Y₀ :=
      mul_le_mul (mul_le_of_le_one_right (by linarith) (pow_le_one₀ h0.le h1.le)) hbx (norm_nonneg _) (by linarith)
    linarith
  have htame : ∀ (i : ℕ) (s : LinStep n m), ss[i]? = some s → TameStep a r s := fun i s hs => hset.tame s (List.mem_of_getElem? hs)
  constructor
  · intro t s hs
    have e1 := hexx (t + 1)
    have e2 := hYc (t + 1)
    rw [← hexP (t + 1)] at e2
    refine ⟨by linarith, by linarith, ?_⟩
    have e3 : (s.predict (lastOf b (ss.take (t + 1)))).P = priorCov s.A (covRun b.P (ss.take (t + 1))) s.Q := by
      rw [← hexP (t + 1)]; rfl
    rw [e3]
    exact det_lower hκ (hpr (t + 1) s (by omega) hs)
  -- products of gains
  obtain ⟨L, hL⟩ : ∃ L : ℕ → (Fin n → ℝ) × Matrix (Fin n) (Fin n) ℝ →+ (Fin n → ℝ) × Matrix (Fin n) (Fin n) ℝ,
    L = fun i => backHom (smAt b.P ss (ss.length - 1 - i)) := ⟨_, rfl⟩
  have hseg : ∀ j k d, j + k < ss.length → ‖seg L j k d‖ ≤ C₁ * ρ ^ k * ‖d‖ := fun j k d hjk => by
    rw [hL, seg_backV b.P ss ss.length j k d hjk.le]
    refine (backHom_norm _ d).trans (mul_le_mul_of_nonneg_right ?_ (norm_nonneg d))
    have e0 : n * ‖backProdV b.P ss (ss.length - j - k) k‖ ≤ n * C * ρ ^ k := by
      rw [mul_assoc]; exact mul_le_mul_of_nonneg_left (hd b.P ss hset hpr hlate _ k (by omega) (by omega)) (Nat.cast_nonneg _)
    have e1 : (n * ‖backProdV b.P ss (ss.length - j - k) k‖) ^ 2 ≤ (n * C * ρ ^ k) ^ 2 :=
      pow_le_pow_left₀ (by positivity) e0 2
    have e3 : (n * C * ρ ^ k) ^ 2 ≤ (n * C) ^ 2 * ρ ^ k := by
      have : (n * C * ρ ^ k) ^ 2 = (n * C) ^ 2 * ρ ^ k * ρ ^ k := by ring
      rw [this]
      exact mul_le_of_le_one_right (by positivity) (pow_le_one₀ h0.le h1.le)
    have e4 : 0 ≤ ρ ^ k := by positivity
    rw [hC₁]
    linarith
  have hsg : ∀ t, 0 < t → t < ss.length → ‖smAt b.P ss t‖ ≤ C := fun t ht htl => by
    have := hd b.P ss hset hpr hlate t 1 ht (by omega)
    rw [backProdV, backProdV, Matrix.mul_one, pow_one] at this
    exact this.trans (mul_le_of_le_one_right hC0.le h1.le)
  have hlast : ss.take ss.length = ss := List.take_length
  -- one exact step
  have hex : ∀ (i : ℕ) (s : LinStep n m) (q : Belief n), i < ss.length → ss[ss.length - 1 - i]? = some s →
      toE (rtsStep (lastOf b (ss.take (ss.length - 1 - i))) s q) = L i (toE q) +
        toE (rtsStep (lastOf b (ss.take (ss.length - 1 - i))) s ⟨0, 0⟩) := fun i s q hi hs => by
    rw [rtsStep_affine (A := s.A) (H := s.H) (Q := s.Q) (R := s.R) ⟨rfl, rfl, rfl, rfl⟩, hexP, hL]
    dsimp only
    rw [smAt_eq b.P hs]
  have hw : ∀ (i : ℕ) (s : LinStep n m), i + 1 < ss.length → ss[ss.length - 1 - i]? = some s →
      ‖toE (rtsStep (lastOf b (ss.take (ss.length - 1 - i))) s ⟨0, 0⟩)‖ ≤ β := fun i s hi hs => by
    have hm := htame _ s hs
    have hG : (lastOf b (ss.take (ss.length - 1 - i))).P * s.Aᵀ * (s.predict (lastOf b (ss.take (ss.length - 1 - i)))).P⁻¹ =
        smAt b.P ss (ss.length - 1 - i) := by
      rw [smAt_eq b.P hs, smGain, ← hexP]; rfl
    have b1 := hexx (ss.length - 1 - i)
    have b2 := hYc (ss.length - 1 - i)
    have b3 := hsg (ss.length - 1 - i) (by omega) (by omega)
    have p1 : ‖(s.predict (lastOf b (ss.take (ss.length - 1 - i)))).x‖ ≤ n * a * X₀ + D := by
      show ‖s.A *ᵥ _ + s.c‖ ≤ _
      exact (norm_add_le _ _).trans (add_le_add ((mulVec_norm _ _).trans (mul_le_mul
        (mul_le_mul_of_nonneg_left ((mat_norm_le ha).2 hm.A) (Nat.cast_nonneg _)) b1 (norm_nonneg _) (by positivity))) (hdat _ s hs).2)
    have p2 : ‖(s.predict (lastOf b (ss.take (ss.length - 1 - i)))).P‖ ≤ (n * a) ^ 2 * Y + a := by
      show ‖priorCov s.A _ s.Q‖ ≤ _
      rw [hexP, priorCov]
      exact (norm_add_le _ _).trans (add_le_add ((conj_norm_le _ _).trans (mul_le_mul
        (pow_le_pow_left₀ (by positivity) (mul_le_mul_of_nonneg_left ((mat_norm_le ha).2 hm.A) (Nat.cast_nonneg _)) 2) b2
        (norm_nonneg _) (by positivity))) ((mat_norm_le ha).2 (psd_entry ha hm.Q0 hm.Q)))
    have n1 : 0 ≤ n * C * (n * a * X₀ + D) := by positivity
    have n2 : 0 ≤ (n * C) ^ 2 * ((n * a) ^ 2 * Y + a) := by positivity
    refine Prod.norm_def (toE _) ▸ max_le ?_ ?_
    · show ‖_ + _ *ᵥ (0 - _)‖ ≤ β
      rw [hG]
      refine (norm_add_le _ _).trans ?_
      have k1 := mulVec_norm (smAt b.P ss (ss.length - 1 - i))
        (0 - (s.predict (lastOf b (ss.take (ss.length - 1 - i)))).x)
      rw [zero_sub, norm_neg] at k1
      have k2 := k1.trans (mul_le_mul (mul_le_mul_of_nonneg_left b3 (Nat.cast_nonneg _)) p1 (norm_nonneg _) (by positivity))
      rw [zero_sub, hβ]
      linarith
    · show ‖_ + _ * (0 - _) * _ᵀ‖ ≤ β
      rw [hG]
      refine (norm_add_le _ _).trans ?_
      have k1 := conj_norm_le (smAt b.P ss (ss.length - 1 - i))
        (0 - (s.predict (lastOf b (ss.take (ss.length - 1 - i)))).P)
      rw [zero_sub, norm_neg] at k1
      have k3 : (n * ‖smAt b.P ss (ss.length - 1 - i)‖) ^ 2 ≤ (n * C) ^ 2 :=
        pow_le_pow_left₀ (by positivity) (mul_le_mul_of_nonneg_left b3 (Nat.cast_nonneg _)) 2
      have k2 := k1.trans (mul_le_mul k3 p2 (norm_nonneg _) (by positivity))
      rw [zero_sub, hβ, hexP]
      linarith
  have hss : ∀ i < ss.length, ∃ s, ss[ss.length - 1 - i]? = some s := fun i hi => ⟨_, List.getElem?_eq_getElem (by omega)⟩
  -- the exact smoothed beliefs are bounded
  have hbound : 0 < ss.length → ∀ i ≤ ss.length - 1, ‖toE (smoothAt b ss (ss.length - i))‖ ≤ R := by
    intro hpos
    refine trap (L := L) (C := C₁) (ρ := ρ) (β := β) hC₁1 h0 h1 (fun j k d hjk => hseg j k d (by omega))
      (e := fun i => toE (smoothAt b ss (ss.length - i)))
      (w := fun i => toE (smoothAt b ss (ss.length - (i + 1))) - L i (toE (smoothAt b ss (ss.length - i))))
      (fun i hi => by abel) hβ0 (fun i hi _ => ?_) ?_
    · obtain ⟨s, hs⟩ := hss i (by omega)
      have e : smoothAt b ss (ss.length - (i + 1)) = rtsStep (lastOf b (ss.take (ss.length - 1 - i))) s (smoothAt b ss (ss.length - i)) := by
        rw [show ss.length - (i + 1) = ss.length - 1 - i by omega, smoothAt_step b ss hs, show ss.length - 1 - i + 1 = ss.length - i by omega]
      rw [e, hex i s _ (by omega) hs, add_sub_cancel_left]
      exact hw i s (by omega) hs
    · rw [Nat.sub_zero, smoothAt_last, ← hΓ, hR]
      have : ‖toE (lastOf b ss)‖ ≤ X₀ + Y := by
        have e1 := hexx ss.length
        have e2 := hYc ss.length
        rw [← hexP] at e2
        rw [hlast] at e1 e2
        exact Prod.norm_def (toE _) ▸ max_le (show ‖(lastOf b ss).x‖ ≤ _ by linarith) (show ‖(lastOf b ss).P‖ ≤ _ by linarith)
      have := mul_le_mul_of_nonneg_left this (show 0 ≤ C₁ by linarith)
      linarith
  intro q' M hM hq0 hstep
  have hmain : ∀ i ≤ M, ‖toE (q' i) - toE (smoothAt b ss (ss.length - i))‖ ≤ ε' := by
    refine trap (L := L) (C := C₁) (ρ := ρ) (β := δ) hC₁1 h0 h1 (fun j k d hjk => hseg j k d (by omega))
      (e := fun i => toE (q' i) - toE (smoothAt b ss (ss.length - i)))
      (w := fun i => toE (q' (i + 1)) - toE (smoothAt b ss (ss.length - (i + 1))) -
        L i (toE (q' i) - toE (smoothAt b ss (ss.length - i))))
      (fun i hi => by abel) hδ.le (fun i hi _ => ?_) ?_
    · obtain ⟨s, hs⟩ := hss i (by omega)
      have e : smoothAt b ss (ss.length - (i + 1)) = rtsStep (lastOf b (ss.take (ss.length - 1 - i))) s (smoothAt b ss (ss.length - i)) := by
        rw [show ss.length - (i + 1) = ss.length - 1 - i by omega, smoothAt_step b ss hs, show ss.length - 1 - i + 1 = ss.length - i by omega]
      have e2 := hex i s (q' i) (by omega) hs
      have e3 := hstep i s hi hs
      rw [e2] at e3
      rw [e, hex i s _ (by omega) hs, map_sub]
      refine le_trans (le_of_eq (congrArg _ ?_)) e3
      abel
    · rw [Nat.sub_zero, smoothAt_last, ← hΓ]
      have := mul_le_mul_of_nonneg_left hq0 (show 0 ≤ C₁ by linarith)
      linarith
  intro i hi
  have k1 := hmain i hi
  refine ⟨k1.trans hε'ε, ?_⟩
  have k2 := hbound (by omega) i (by omega)
  have k3 : toE (q' i) = (toE (q' i) - toE (smoothAt b ss (ss.length - i))) + toE (smoothAt b ss (ss.length - i)) := by abel
  rw [k3]
  refine (norm_add_le _ _).trans ?_
  linarith

end

end KK
