import Verif.Props.SteadySmooth
import Verif.Props.DetectForget
import Verif.Spec.FixedSmooth

/-!
# C173: the smoother forgets the initial state and becomes a smoother with fixed gains, for detectable and stabilizable models
-/

set_option linter.unusedSectionVars false

namespace KK

open Matrix Filter Topology
open scoped Matrix.Norms.Elementwise

theorem ExpNear.mono {a b : ℕ} {ρ σ : ℝ} {X : ℕ → Matrix (Fin a) (Fin b) ℝ} {Y : Matrix (Fin a) (Fin b) ℝ} (h0 : 0 < ρ) (h : ρ ≤ σ)
    (hX : ExpNear ρ X Y) : ExpNear σ X Y := by
  obtain ⟨C, hC, hX⟩ := hX
  exact ⟨C, hC, fun k => (hX k).trans (mul_le_mul_of_nonneg_left (pow_le_pow_left₀ h0.le h k) hC)⟩

/-- A backward recursion in decaying factors with an inhomogeneity that fades fades at the same rate. -/
theorem back_fade {E : Type*} [NormedAddCommGroup E] {L : ℕ → E →+ E} {C ρ σ : ℝ} (hC : 0 < C) (h0 : 0 < ρ) (h1 : ρ < 1)
    (hσ0 : 0 < σ) (hσ1 : σ < 1) {e w : ℕ → E} {N : ℕ}
    (hL : ∀ j k d, j + k ≤ N → ‖seg (fun i => L (N - 1 - i)) j k d‖ ≤ C * ρ ^ k * ‖d‖)
    (h : ∀ t < N, e t = L t (e (t + 1)) + w t) {V W : ℝ} (hV : 0 ≤ V) (hW : 0 ≤ W) (hw : ∀ t < N, ‖w t‖ ≤ W * σ ^ t)
    (he : ‖e N‖ ≤ V * σ ^ N) : ∀ t ≤ N, ‖e t‖ ≤ (C * V + C * W * (1 - ρ)⁻¹) * σ ^ t := by
  intro t ht
  have hρi : 0 < (1 - ρ)⁻¹ := inv_pos.2 (by linarith)
  have hsum := seg_sum (fun i => L (N - 1 - i)) (fun i => e (N - i)) (fun i => w (N - 1 - i)) (N - t) fun i hi => by
    have := h (N - 1 - i) (by omega)
    rw [show N - 1 - i + 1 = N - i by omega] at this
    rw [show N - (i + 1) = N - 1 - i by omega, this]
  rw [show N - (N - t) = t by omega, Nat.sub_zero] at hsum
  have hnt : ∀ i ∈ Finset.range (N - t), ‖seg (fun i => L (N - 1 - i)) (i + 1) (N - t - 1 - i) (w (N - 1 - i))‖ ≤
      C * W * σ ^ t * ρ ^ (N - t - 1 - i) := fun i hi => by
    have hi' := Finset.mem_range.1 hi
    refine (hL _ _ _ (by omega)).trans ?_
    have e1 := hw (N - 1 - i) (by omega)
    have e2 : σ ^ (N - 1 - i) ≤ σ ^ t := pow_le_pow_of_le_one hσ0.le hσ1.le (by omega)
    have e3 := e1.trans (mul_le_mul_of_nonneg_left e2 hW)
    refine (mul_le_mul_of_nonneg_left e3 (by positivity)).trans (le_of_eq (by ring))
  rw [hsum]
  have k0 : ‖e N‖ ≤ V * σ ^ t := he.trans (mul_le_mul_of_nonneg_left (pow_le_pow_of_le_one hσ0.le hσ1.le ht) hV)
  have k1 := (hL 0 (N - t) (e N) (by omega)).trans (mul_le_mul_of_nonneg_left k0 (by positivity))
  have k1' : C * ρ ^ (N - t) * (V * σ ^ t) ≤ C * V * σ ^ t := by
    have : ρ ^ (N - t) * (C * V * σ ^ t) ≤ C * V * σ ^ t := mul_le_of_le_one_left (by positivity) (pow_le_one₀ h0.le h1.le)
    linarith
  have k2 := (norm_sum_le _ _).trans (Finset.sum_le_sum hnt)
  rw [← Finset.mul_sum] at k2
  have k3 := k2.trans (mul_le_mul_of_nonneg_left (@geom_le (strict 0) _ h0 h1 (N - t)) (by positivity))
  refine (norm_add_le _ _).trans ((add_le_add (k1.trans k1') k3).trans (le_of_eq (by ring)))

section
variable {n m : ℕ} {A Q : Matrix (Fin n) (Fin n) ℝ} {H : Matrix (Fin m) (Fin n) ℝ} {R : Matrix (Fin m) (Fin m) ℝ}

theorem seg_conj_norm {P : Matrix (Fin n) (Fin n) ℝ} {C ρ : ℝ} (h0 : 0 < ρ) (h1 : ρ < 1) (hC : 1 ≤ C)
    (hd : ∀ t k : ℕ, ‖backProd A Q H R P t k‖ ≤ C * ρ ^ k) (N j k : ℕ) (hjk : j + k ≤ N) :
    (∀ d, ‖seg (fun i => conjHom (smGain A Q ((ric A H Q R)^[N - 1 - i] P))) j k d‖ ≤ (1 + n * C + (n * C) ^ 2) * ρ ^ k * ‖d‖) ∧
    ∀ d, ‖seg (fun i => mulHom (smGain A Q ((ric A H Q R)^[N - 1 - i] P))) j k d‖ ≤ (1 + n * C + (n * C) ^ 2) * ρ ^ k * ‖d‖ := by
  have e0 := mul_le_mul_of_nonneg_left (hd (N - j - k) k) (Nat.cast_nonneg (α := ℝ) n)
  have e4 : 0 ≤ ρ ^ k := by positivity
  have hnC : 0 ≤ n * C := by positivity
  have e5 : 0 ≤ n * C * ρ ^ k := by positivity
  have e6 : 0 ≤ (n * C) ^ 2 * ρ ^ k := by positivity
  refine ⟨fun d => ?_, fun d => ?_⟩
  · rw [seg_conjBack P N j k d hjk]
    refine (conj_norm_le _ d).trans (mul_le_mul_of_nonneg_right ?_ (norm_nonneg d))
    have e1 := pow_le_pow_left₀ (by positivity) e0 2
    have e3 : (n * (C * ρ ^ k)) ^ 2 ≤ (n * C) ^ 2 * ρ ^ k := by
      have : (n * (C * ρ ^ k)) ^ 2 = (n * C) ^ 2 * ρ ^ k * ρ ^ k := by ring
      rw [this]
      exact mul_le_of_le_one_right (by positivity) (pow_le_one₀ h0.le h1.le)
    linarith
  · rw [seg_mulBack P N j k d hjk]
    refine (mulVec_norm _ d).trans (mul_le_mul_of_nonneg_right ?_ (norm_nonneg d))
    linarith

theorem smoothAt_eq {b : Belief n} {ss : List (LinStep n m)} (hcm : ConstantModel A H Q R ss) {t : ℕ} {s : LinStep n m}
    (hs : ss[t]? = some s) :
    (smoothAt b ss t).x = (lastOf b (ss.take t)).x + smGain A Q ((ric A H Q R)^[t] b.P) *ᵥ
      ((smoothAt b ss (t + 1)).x - (A *ᵥ (lastOf b (ss.take t)).x + s.c)) ∧
    (smoothAt b ss t).P = (ric A H Q R)^[t] b.P + smGain A Q ((ric A H Q R)^[t] b.P) *
      ((smoothAt b ss (t + 1)).P - priorCov A ((ric A H Q R)^[t] b.P) Q) * (smGain A Q ((ric A H Q R)^[t] b.P))ᵀ := by
  have ht : t < ss.length := (List.getElem?_eq_some_iff.1 hs).1
  have hm := hcm s (List.mem_of_getElem? hs)
  have e2 := (congrArg toE (smoothAt_step b ss hs)).trans (rtsStep_affine hm _ _)
  rw [rtsStep_zeroCov hm, lastOf_const hcm b t (by omega)] at e2
  have e3 : (smoothAt b ss t).x = smGain A Q ((ric A H Q R)^[t] b.P) *ᵥ (smoothAt b ss (t + 1)).x + _ := congrArg Prod.fst e2
  have e4 : (smoothAt b ss t).P = smGain A Q ((ric A H Q R)^[t] b.P) * (smoothAt b ss (t + 1)).P *
    (smGain A Q ((ric A H Q R)^[t] b.P))ᵀ + _ := congrArg Prod.snd e2
  constructor
  · rw [e3, mulVec_sub]; dsimp only; abel
  · rw [e4]; simp only [Matrix.mul_sub, Matrix.sub_mul]; abel

theorem gap_cov {P F : Matrix (Fin n) (Fin n) ℝ} {C ρ σ B X W₁ W₂ W₃ U : ℝ} (h0 : 0 < ρ) (h1 : ρ < 1) (hC : 1 ≤ C)
    (hback : ∀ t k : ℕ, ‖backProd A Q H R P t k‖ ≤ C * ρ ^ k) (hBd : B = 1 + n * C + (n * C) ^ 2) (hσ0 : 0 < σ) (hσ1 : σ < 1)
    (hX : 0 < X) (hFk : ∀ k, (ric A H Q R)^[k] F = F) (hsg : ∀ t, ‖smGain A Q ((ric A H Q R)^[t] P)‖ ≤ C)
    (hW₂ : 0 ≤ W₂) (hw₂ : ∀ k, ‖smGain A Q ((ric A H Q R)^[k] P) - smGain A Q F‖ ≤ W₂ * σ ^ k)
    (hW₁ : 0 ≤ W₁) (hw₁ : ∀ k, ‖(ric A H Q R)^[k] P - F‖ ≤ W₁ * σ ^ k) (hW₃ : 0 ≤ W₃)
    (hw₃ : ∀ k, ‖smGain A Q ((ric A H Q R)^[k] P) * priorCov A ((ric A H Q R)^[k] P) Q * (smGain A Q ((ric A H Q R)^[k] P))ᵀ -
      smGain A Q F * priorCov A F Q * (smGain A Q F)ᵀ‖ ≤ W₃ * σ ^ k)
    (hU : U = W₁ + W₃ + n * (n * (W₂ * X)) * C + n * (n * (‖smGain A Q F‖ * X)) * W₂)
    (x y : Fin n → ℝ) {ss : List (LinStep n m)} (hcm : ConstantModel A H Q R ss)
    (hbX : ∀ t ≤ ss.length, ‖(smoothAt ⟨y, F⟩ ss t).P‖ ≤ X) (t : ℕ) (ht : t ≤ ss.length) :
    ‖(smoothAt ⟨x, P⟩ ss t).P - (smoothAt ⟨y, F⟩ ss t).P‖ ≤ (B * W₁ + B * U * (1 - ρ)⁻¹) * σ ^ t := by
  have hC0 : 0 < C := by linarith
  have hB0 : 0 < B := by rw [hBd]; positivity
  have hnn : (0 : ℝ) ≤ n := Nat.cast_nonneg n
  have hU0 : 0 ≤ U := by rw [hU]; positivity
  have key := back_fade (L := fun t => conjHom (smGain A Q ((ric A H Q R)^[t] P))) (C := B) (ρ := ρ) hB0 h0 h1 hσ0 hσ1
    (e := fun t => (smoothAt ⟨x, P⟩ ss t).P - (smoothAt ⟨y, F⟩ ss t).P) (N := ss.length)
    (w := fun t => ((ric A H Q R)^[t] P - F) -
      (smGain A Q ((ric A H Q R)^[t] P) * priorCov A ((ric A H Q R)^[t] P) Q * (smGain A Q ((ric A H Q R)^[t] P))ᵀ -
        smGain A Q F * priorCov A F Q * (smGain A Q F)ᵀ) +
      (smGain A Q ((ric A H Q R)^[t] P) - smGain A Q F) * (smoothAt ⟨y, F⟩ ss (t + 1)).P * (smGain A Q ((ric A H Q R)^[t] P))ᵀ +
      smGain A Q F * (smoothAt ⟨y, F⟩ ss (t + 1)).P * (smGain A Q ((ric A H Q R)^[t] P) - smGain A Q F)ᵀ)
    (V := W₁) (W := U) (fun j k d hjk => by rw [hBd]; exact (seg_conj_norm h0 h1 hC hback ss.length j k hjk).1 d)
    (fun t ht => by
      obtain ⟨s, hs⟩ : ∃ s, ss[t]? = some s := ⟨_, List.getElem?_eq_getElem ht⟩
      have e1 := (smoothAt_eq (b := ⟨x, P⟩) hcm hs).2
      have e2 := (smoothAt_eq (b := ⟨y, F⟩) hcm hs).2
      rw [hFk] at e2
      dsimp only at e1 e2 ⊢
      rw [e1, e2]
      simp only [conjHom, AddMonoidHom.coe_mk, ZeroHom.coe_mk, Matrix.mul_sub, Matrix.sub_mul, transpose_sub]
      abel)
    hW₁ hU0 (fun t ht => by
      have b1 := hw₁ t
      have b2 := hw₂ t
      have b3 := hw₃ t
      have b4 := hsg t
      have b5 := hbX (t + 1) ht
      have p : 0 ≤ σ ^ t := by positivity
      have c1 := (mul_norm_le (smGain A Q ((ric A H Q R)^[t] P) - smGain A Q F) (smoothAt ⟨y, F⟩ ss (t + 1)).P).trans
        (mul_le_mul_of_nonneg_left (mul_le_mul b2 b5 (norm_nonneg _) (by positivity)) hnn)
      have c2 := (mul_norm_le ((smGain A Q ((ric A H Q R)^[t] P) - smGain A Q F) * (smoothAt ⟨y, F⟩ ss (t + 1)).P)
        (smGain A Q ((ric A H Q R)^[t] P))ᵀ).trans
        (mul_le_mul_of_nonneg_left (mul_le_mul c1 ((transpose_norm _).le.trans b4) (norm_nonneg _) (by positivity)) hnn)
      have c3 := (mul_norm_le (smGain A Q F) (smoothAt ⟨y, F⟩ ss (t + 1)).P).trans
        (mul_le_mul_of_nonneg_left (mul_le_mul_of_nonneg_left b5 (norm_nonneg _)) hnn)
      have c4 := (mul_norm_le (smGain A Q F * (smoothAt ⟨y, F⟩ ss (t + 1)).P) (smGain A Q ((ric A H Q R)^[t] P) - smGain A Q F)ᵀ).trans
        (mul_le_mul_of_nonneg_left (mul_le_mul c3 ((transpose_norm _).le.trans b2) (norm_nonneg _) (by positivity)) hnn)
      refine (norm_add_le _ _).trans ((add_le_add ((norm_add_le _ _).trans (add_le_add ((norm_sub_le _ _).trans (add_le_add b1 b3)) c2))
        c4).trans (le_of_eq ?_))
      rw [hU]; ring)
    (by
      have e1 := lastOf_const hcm (⟨x, P⟩ : Belief n) ss.length le_rfl
      have e2 := lastOf_const hcm (⟨y, F⟩ : Belief n) ss.length le_rfl
      rw [List.take_length] at e1 e2
      rw [hFk] at e2
      rw [smoothAt_last, smoothAt_last, e1, e2]
      exact hw₁ _)
    t ht
  exact key

theorem gap_mean {P F : Matrix (Fin n) (Fin n) ℝ} {C ρ σ B X W₂ C₂ C' V r D : ℝ} (h0 : 0 < ρ) (h1 : ρ < 1) (hC : 1 ≤ C)
    (hback : ∀ t k : ℕ, ‖backProd A Q H R P t k‖ ≤ C * ρ ^ k) (hBd : B = 1 + n * C + (n * C) ^ 2) (hσ0 : 0 < σ) (hσ1 : σ < 1)
    (hX : 0 < X) (hFk : ∀ k, (ric A H Q R)^[k] F = F) (hsg : ∀ t, ‖smGain A Q ((ric A H Q R)^[t] P)‖ ≤ C)
    (hW₂ : 0 ≤ W₂) (hw₂ : ∀ k, ‖smGain A Q ((ric A H Q R)^[k] P) - smGain A Q F‖ ≤ W₂ * σ ^ k)
    (hC₂ : 0 < C₂) (hC' : 0 < C') (hV : V = C₂ + n * C * (n * ‖A‖ * C₂) + n * W₂ * (X + n * ‖A‖ * C' + 1))
    (x y : Fin n → ℝ) {ss : List (LinStep n m)} (hcm : ConstantModel A H Q R ss) (hr0 : 0 ≤ r) (hD : 0 ≤ D)
    (hdat : ∀ (l : ℕ) (s : LinStep n m), ss[l]? = some s → ‖s.z‖ ≤ D ∧ ‖s.c‖ ≤ D)
    (hgt : ∀ t ≤ ss.length, ‖(lastOf ⟨x, P⟩ (ss.take t)).x - (lastOf ⟨y, F⟩ (ss.take t)).x‖ ≤ C₂ * (r + D) * σ ^ t)
    (hb6 : ∀ t ≤ ss.length, ‖(lastOf ⟨y, F⟩ (ss.take t)).x‖ ≤ C' * (r + D))
    (hbX : ∀ t ≤ ss.length, ‖(smoothAt ⟨y, F⟩ ss t).x‖ ≤ X * (r + D)) (t : ℕ) (ht : t ≤ ss.length) :
    ‖(smoothAt ⟨x, P⟩ ss t).x - (smoothAt ⟨y, F⟩ ss t).x‖ ≤ (B * (C₂ * (r + D)) + B * (V * (r + D)) * (1 - ρ)⁻¹) * σ ^ t := by
  have hC0 : 0 < C := by linarith
  have hB0 : 0 < B := by rw [hBd]; positivity
  have hnn : (0 : ℝ) ≤ n := Nat.cast_nonneg n
  have hrD : 0 ≤ r + D := by linarith
  have hV0 : 0 ≤ V := by rw [hV]; positivity
  have key := back_fade (L := fun t => mulHom (smGain A Q ((ric A H Q R)^[t] P))) (C := B) (ρ := ρ) hB0 h0 h1 hσ0 hσ1
    (e := fun t => (smoothAt ⟨x, P⟩ ss t).x - (smoothAt ⟨y, F⟩ ss t).x) (N := ss.length)
    (w := fun t => ((lastOf ⟨x, P⟩ (ss.take t)).x - (lastOf ⟨y, F⟩ (ss.take t)).x) -
      smGain A Q ((ric A H Q R)^[t] P) *ᵥ (A *ᵥ ((lastOf ⟨x, P⟩ (ss.take t)).x - (lastOf ⟨y, F⟩ (ss.take t)).x)) +
      (smGain A Q ((ric A H Q R)^[t] P) - smGain A Q F) *ᵥ ((smoothAt ⟨y, F⟩ ss (t + 1)).x -
        (A *ᵥ (lastOf ⟨y, F⟩ (ss.take t)).x + (ss[t]?.getD ⟨A, 0, H, Q, R, 0⟩).c)))
    (V := C₂ * (r + D)) (W := V * (r + D)) (fun j k d hjk => by rw [hBd]; exact (seg_conj_norm h0 h1 hC hback ss.length j k hjk).2 d)
    (fun t ht => by
      obtain ⟨s, hs⟩ : ∃ s, ss[t]? = some s := ⟨_, List.getElem?_eq_getElem ht⟩
      have e1 := (smoothAt_eq (b := ⟨x, P⟩) hcm hs).1
      have e2 := (smoothAt_eq (b := ⟨y, F⟩) hcm hs).1
      rw [hFk] at e2
      dsimp only at e1 e2 ⊢
      rw [e1, e2, hs]
      simp only [Option.getD_some, mulHom, AddMonoidHom.coe_mk, ZeroHom.coe_mk, mulVec_sub, mulVec_add, Matrix.sub_mulVec]
      abel)
    (by positivity) (by positivity) (fun t ht => by
      obtain ⟨s, hs⟩ : ∃ s, ss[t]? = some s := ⟨_, List.getElem?_eq_getElem ht⟩
      rw [hs]
      have b1 := hgt t ht.le
      have b2 := hw₂ t
      have b4 := hsg t
      have b5 := hbX (t + 1) ht
      have b6 := hb6 t ht.le
      have p : 0 ≤ σ ^ t := by positivity
      have c1 := (mulVec_norm A ((lastOf ⟨x, P⟩ (ss.take t)).x - (lastOf ⟨y, F⟩ (ss.take t)).x)).trans
        (mul_le_mul_of_nonneg_left b1 (by positivity))
      have c2 := (mulVec_norm (smGain A Q ((ric A H Q R)^[t] P)) (A *ᵥ ((lastOf ⟨x, P⟩ (ss.take t)).x - (lastOf ⟨y, F⟩ (ss.take t)).x))).trans
        (mul_le_mul (mul_le_mul_of_nonneg_left b4 hnn) c1 (norm_nonneg _) (by positivity))
      have c3 : ‖A *ᵥ (lastOf ⟨y, F⟩ (ss.take t)).x + s.c‖ ≤ n * ‖A‖ * (C' * (r + D)) + (r + D) :=
        (norm_add_le _ _).trans (add_le_add ((mulVec_norm _ _).trans (mul_le_mul_of_nonneg_left b6 (by positivity)))
          ((hdat t s hs).2.trans (by linarith)))
      have c4 := (norm_sub_le (smoothAt ⟨y, F⟩ ss (t + 1)).x (A *ᵥ (lastOf ⟨y, F⟩ (ss.take t)).x + s.c)).trans (add_le_add b5 c3)
      have c5 := (mulVec_norm (smGain A Q ((ric A H Q R)^[t] P) - smGain A Q F) ((smoothAt ⟨y, F⟩ ss (t + 1)).x -
        (A *ᵥ (lastOf ⟨y, F⟩ (ss.take t)).x + s.c))).trans
        (mul_le_mul (mul_le_mul_of_nonneg_left b2 hnn) c4 (norm_nonneg _) (by positivity))
      refine (norm_add_le _ _).trans ((add_le_add ((norm_sub_le _ _).trans (add_le_add b1 c2)) c5).trans (le_of_eq ?_))
      rw [hV]; ring)
    (by
      have e := hgt ss.length le_rfl
      rw [List.take_length] at e
      rw [smoothAt_last, smoothAt_last]; exact e)
    t ht
  exact key

/-- A smoothed run from `P` and a smoothed run from the steady state. -/
theorem smooth_gap (hQ : Q.PosSemidef) (hR : R.PosDef) (hd : Detectable A H) (hs : Stabilizable A Q)
    (hp : ∀ F : Matrix (Fin n) (Fin n) ℝ, F.PosSemidef → SteadyState A H Q R F → (A * F * Aᵀ + Q).det ≠ 0)
    {F : Matrix (Fin n) (Fin n) ℝ} (hF : F.PosSemidef) (hfix : ric A H Q R F = F)
    (hT : Tendsto (fun k => (ric A H Q R)^[k] 0) atTop (𝓝 F)) (P : Matrix (Fin n) (Fin n) ℝ) (hP : P.PosSemidef) :
    ∃ C ρ : ℝ, 0 < C ∧ 0 < ρ ∧ ρ < 1 ∧ ∀ (x y : Fin n → ℝ) (ss : List (LinStep n m)), ConstantModel A H Q R ss → ∀ t ≤ ss.length,
      ‖(smoothAt ⟨x, P⟩ ss t).P - (smoothAt ⟨y, F⟩ ss t).P‖ ≤ C * ρ ^ t ∧
      ∀ r D, 0 ≤ r → 0 ≤ D → (∀ (l : ℕ) (s : LinStep n m), ss[l]? = some s → ‖s.z‖ ≤ D ∧ ‖s.c‖ ≤ D) → ‖x‖ ≤ r → ‖y‖ ≤ r →
        ‖(smoothAt ⟨x, P⟩ ss t).x - (smoothAt ⟨y, F⟩ ss t).x‖ ≤ C * ρ ^ t * (r + D) := by
  have hst := closedLoop_stable (H := H) hQ hR hs hF hfix
  have hpF : (priorCov A F Q).det ≠ 0 := hp F hF (steadyState_iff.2 hfix)
  have hB : SettlesBack A Q H R P := .of_detectable hQ hR hd hs hp hP
  have hBF : SettlesBack A Q H R F := .of_detectable hQ hR hd hs hp hF
  obtain ⟨C, ρ, hC, h0, h1, hback⟩ := hB.back
  obtain ⟨X, hX, hbX⟩ := smoothAt_bound hBF
  obtain ⟨C₂, ρ₂, hC₂, h0₂, h1₂, hgap⟩ := @steady_gap _ _ _ _ _ _ (strict 0) hQ hR hd hs F hF hfix hT P hP
  obtain ⟨C', ρ', hC', h0', h1', hrun⟩ := hBF.fwd.run
  obtain ⟨C₀, ρ₀, hC₀, h0₀, h1₀, hb⟩ := cov_decay_detect hQ hR hF hfix hst hT
  obtain ⟨σ, hσ⟩ : ∃ σ : ℝ, σ = max ρ₀ ρ₂ := ⟨_, rfl⟩
  have hσa : ρ₀ ≤ σ := hσ ▸ le_max_left _ _
  have hσb : ρ₂ ≤ σ := hσ ▸ le_max_right _ _
  have hσ1 : σ < 1 := hσ ▸ max_lt h1₀ h1₂
  have hσ0 : 0 < σ := h0₀.trans_le hσa
  have hn : ExpNear σ (fun k => (ric A H Q R)^[k] P) F := by
    refine ExpNear.mono h0₀ hσa ⟨C₀ * (1 + ‖P‖), by positivity, fun k => (mat_norm_le (by positivity)).2 fun i j => ?_⟩
    have := hb P hP k i j
    rw [mul_right_comm] at this
    exact this
  obtain ⟨n1, n2⟩ := smGain_near (A := A) (Q := Q) hσ0 hσ1 hn hpF
  obtain ⟨W₁, hW₁, hw₁⟩ := hn
  obtain ⟨W₂, hW₂, hw₂⟩ := n2
  obtain ⟨W₃, hW₃, hw₃⟩ := (ExpNear.mul hσ0 hσ1 ⟨W₂, hW₂, hw₂⟩ n1).mul hσ0 hσ1 (ExpNear.transpose ⟨W₂, hW₂, hw₂⟩)
  have hFk : ∀ k, (ric A H Q R)^[k] F = F := fun k => steady_iter hfix k
  have hsg : ∀ t, ‖smGain A Q ((ric A H Q R)^[t] P)‖ ≤ C := fun t => by
    have := hback t 1
    rw [backProd, backProd, Matrix.mul_one, pow_one] at this
    exact this.trans (mul_le_of_le_one_right (by linarith) h1.le)
  have hC0 : 0 < C := by linarith
  obtain ⟨B, hBd⟩ : ∃ B : ℝ, B = 1 + n * C + (n * C) ^ 2 := ⟨_, rfl⟩
  have hB0 : 0 < B := by rw [hBd]; positivity
  have hρi : 0 < (1 - ρ)⁻¹ := inv_pos.2 (by linarith)
  have hnn : (0 : ℝ) ≤ n := Nat.cast_nonneg n
  obtain ⟨U, hU⟩ : ∃ U : ℝ, U = W₁ + W₃ + n * (n * (W₂ * X)) * C + n * (n * (‖smGain A Q F‖ * X)) * W₂ := ⟨_, rfl⟩
  obtain ⟨V, hV⟩ : ∃ V : ℝ, V = C₂ + n * C * (n * ‖A‖ * C₂) + n * W₂ * (X + n * ‖A‖ * C' + 1) := ⟨_, rfl⟩
  have hU0 : 0 ≤ U := by rw [hU]; positivity
  have hV0 : 0 ≤ V := by rw [hV]; positivity
  have z1 : 0 ≤ B * W₁ + B * U * (1 - ρ)⁻¹ := by positivity
  have z2 : 0 ≤ B * C₂ + B * V * (1 - ρ)⁻¹ := by positivity
  refine ⟨1 + (B * W₁ + B * U * (1 - ρ)⁻¹) + (B * C₂ + B * V * (1 - ρ)⁻¹), σ, by linarith, hσ0, hσ1, fun x y ss hcm t ht => ⟨?_, ?_⟩⟩
  · have key := gap_cov h0 h1 hC hback hBd hσ0 hσ1 hX hFk hsg hW₂ hw₂ hW₁ hw₁ hW₃ hw₃ hU x y hcm
      (fun t ht => (hbX ⟨y, F⟩ ss rfl hcm t ht).1) t ht
    have p : 0 ≤ σ ^ t := by positivity
    refine key.trans (mul_le_mul_of_nonneg_right ?_ p)
    linarith
  · intro r D hr0 hD hdat hx hy
    have hrD : 0 ≤ r + D := by linarith
    have hgt : ∀ t ≤ ss.length, ‖(lastOf ⟨x, P⟩ (ss.take t)).x - (lastOf ⟨y, F⟩ (ss.take t)).x‖ ≤ C₂ * (r + D) * σ ^ t := fun t ht => by
      have e1 := hgap x y ss hcm r D hr0 hD hdat hx hy t ht
      have e2 : ρ₂ ^ t ≤ σ ^ t := pow_le_pow_left₀ h0₂.le hσb t
      have e3 := mul_le_mul_of_nonneg_left e2 (mul_nonneg hC₂.le hrD)
      linarith
    have hb6 : ∀ t ≤ ss.length, ‖(lastOf ⟨y, F⟩ (ss.take t)).x‖ ≤ C' * (r + D) := fun t ht => by
      refine (hrun ⟨y, F⟩ ss rfl hcm D hD hdat t ht).trans ?_
      have : C' * ρ' ^ t * ‖y‖ ≤ C' * r :=
        mul_le_mul (mul_le_of_le_one_right hC'.le (pow_le_one₀ h0'.le h1'.le)) hy (norm_nonneg _) hC'.le
      linarith
    have key := gap_mean h0 h1 hC hback hBd hσ0 hσ1 hX hFk hsg hW₂ hw₂ hC₂ hC' hV x y hcm hr0 hD hdat hgt hb6
      (fun t ht => (hbX ⟨y, F⟩ ss rfl hcm t ht).2 r D hD hy hdat) t ht
    have p : 0 ≤ σ ^ t * (r + D) := by positivity
    have e : B * (C₂ * (r + D)) + B * (V * (r + D)) * (1 - ρ)⁻¹ = (B * C₂ + B * V * (1 - ρ)⁻¹) * (r + D) := by ring
    rw [e] at key
    have : (B * C₂ + B * V * (1 - ρ)⁻¹) * (σ ^ t * (r + D)) ≤
        (1 + (B * W₁ + B * U * (1 - ρ)⁻¹) + (B * C₂ + B * V * (1 - ρ)⁻¹)) * (σ ^ t * (r + D)) :=
      mul_le_mul_of_nonneg_right (by linarith) p
    linarith

/-- From the steady state the smoother is the one with fixed gains. -/
theorem front_fixed (hR : R.PosDef) (hQ : Q.PosSemidef) {F : Matrix (Fin n) (Fin n) ℝ} (hF : F.PosSemidef) (hfix : ric A H Q R F = F)
    (y : Fin n → ℝ) (ss : List (LinStep n m)) (hc : ConstantModel A H Q R ss) :
    (front ⟨y, F⟩ ss).x = fixedSmoothNow A H (steadyGain A Q F H R) (smGain A Q F) y ss ∧
    (fixedSmooth A H (steadyGain A Q F H R) (smGain A Q F) y ss).length = ss.length ∧
    ∀ k v, (fixedSmooth A H (steadyGain A Q F H R) (smGain A Q F) y ss)[k]? = some v → v = (smoothAt ⟨y, F⟩ ss (k + 1)).x := by
  have hdet : (H * (A * F * Aᵀ + Q) * Hᵀ + R).det ≠ 0 := posDef_det_ne (innovCov_posDef (priorCov_posSemidef hF hQ) hR)
  induction ss generalizing y with
  | nil => exact ⟨rfl, rfl, fun k v h => by simp [fixedSmooth] at h⟩
  | cons s ss ih =>
    have hm := hc s (by simp)
    have hc' : ConstantModel A H Q R ss := fun t ht => hc t (by simp [ht])
    have hnext : s.next ⟨y, F⟩ = ⟨(A *ᵥ y + s.c) + steadyGain A Q F H R *ᵥ (s.z - H *ᵥ (A *ᵥ y + s.c)), F⟩ := by
      have := (@steady_run _ _ _ _ _ _ _ (steadyState_iff.2 hfix) hdet [s] (fun t ht => by
        obtain rfl := List.mem_singleton.1 ht; exact hm) y).2.1
      exact (List.cons.inj this).1
    obtain ⟨i1, i2, i3⟩ := ih _ hc'
    refine ⟨?_, ?_, fun k v hk => ?_⟩
    · rw [front, fixedSmoothNow, hnext, ← i1]
      have hG : F * s.Aᵀ * (s.predict ⟨y, F⟩).P⁻¹ = smGain A Q F := by
        simp only [LinStep.predict, hm.1, hm.2.2.1]; rfl
      have hx : (s.predict ⟨y, F⟩).x = A *ᵥ y + s.c := by simp only [LinStep.predict, hm.1]
      simp only [rtsStep, hG, hx]
    · simp only [fixedSmooth, List.length_cons, i2]
    · have hsm : ∀ k, smoothAt ⟨y, F⟩ (s :: ss) (k + 1) = smoothAt (s.next ⟨y, F⟩) ss k := fun k => rfl
      rw [hsm, hnext]
      cases k with
      | zero =>
        simp only [fixedSmooth, List.getElem?_cons_zero, Option.some.injEq] at hk
        rw [← hk, ← i1]; rfl
      | succ k =>
        simp only [fixedSmooth, List.getElem?_cons_succ] at hk
        exact i3 k v hk

end

section
variable {n m : ℕ} [Platform]

/-- C173, fixed gains: a constant model with PSD `Q` and PD `R`, detectable and stabilizable, whose predicted covariance is nonsingular in
the steady state `F` of the filter.  From every PSD initial covariance `P`: the means of `smooth` differ from those of the smoother with
the fixed gains `K` (of the steady-state filter) and `G = F Aᵀ (A F Aᵀ + Q)⁻¹` (`fixedSmooth`, which computes no covariances), started
anywhere, by at most `C ρ^(k+1) (r + D)` after step `k` (counted from 0), `r` bounding the initial means, `D` data and controls.  `C` and
`ρ < 1` depend on the model and `P` only. -/
theorem C173_fixed_gains (A Q : Matrix (Fin n) (Fin n) ℝ) (H : Matrix (Fin m) (Fin n) ℝ) (R : Matrix (Fin m) (Fin m) ℝ)
    (P : Matrix (Fin n) (Fin n) ℝ) (hQ : Q.PosSemidef) (hR : R.PosDef) (hP : P.PosSemidef) (hd : Detectable A H)
    (hs : Stabilizable A Q)
    (hp : ∀ F : Matrix (Fin n) (Fin n) ℝ, F.PosSemidef → SteadyState A H Q R F → (A * F * Aᵀ + Q).det ≠ 0) :
    ∃ (F : Matrix (Fin n) (Fin n) ℝ) (C ρ : ℝ), F.PosSemidef ∧ SteadyState A H Q R F ∧ 0 < ρ ∧ ρ < 1 ∧
      ∀ (kf : KalmanFilter Fl) (Z : NDArray Fl) (U : Option (NDArray Fl)) (x₀ y₀ : Fin n → ℝ) (ss : List (LinStep n m)),
        Represents kf Z U ⟨x₀, P⟩ ss → ConstantModel A H Q R ss → ss ≠ [] → ss.length = Z.rows.length →
        SmoothSingular kf Z U ∨
        ∃ (qs : List (Belief n)) (Ks : List (Matrix (Fin n) (Fin m) ℝ)), SmoothReturns kf Z U qs Ks ∧ qs.length = ss.length ∧
          (fixedSmooth A H (steadyGain A Q F H R) (F * Aᵀ * (A * F * Aᵀ + Q)⁻¹) y₀ ss).length = ss.length ∧
          ∀ r D : ℝ, 0 ≤ r → 0 ≤ D → (∀ s ∈ ss, (∀ i, |s.z i| ≤ D) ∧ ∀ i, |s.c i| ≤ D) → (∀ i, |x₀ i| ≤ r) → (∀ i, |y₀ i| ≤ r) →
            ∀ k q y, qs[k]? = some q →
              (fixedSmooth A H (steadyGain A Q F H R) (F * Aᵀ * (A * F * Aᵀ + Q)⁻¹) y₀ ss)[k]? = some y →
              ∀ i, |q.x i - y i| ≤ C * ρ ^ (k + 1) * (r + D) := by
  obtain ⟨F, hF, hfix, hT⟩ := exists_limit (A := A) (H := H) hQ hR hd
  obtain ⟨C, ρ, hC, h0, h1, hb⟩ := smooth_gap hQ hR hd hs hp hF hfix hT P hP
  refine ⟨F, C, ρ, hF, steadyState_iff.2 hfix, h0, h1, fun kf Z U x₀ y₀ ss h hcm hne hl => ?_⟩
  have hs1 : Solvable ⟨x₀, P⟩ ss := solvable_psd hP (fun s hs => (hcm s hs).2.2.1 ▸ hQ) fun s hs => (hcm s hs).2.2.2 ▸ hR
  by_cases hsm : SmoothSolvable ⟨x₀, P⟩ ss
  swap
  · exact .inl (h.smoothSingular hl hne fun hh => hsm hh.2)
  obtain ⟨-, f1, f2⟩ := front_fixed hR hQ hF hfix y₀ ss hcm
  refine .inr ⟨_, _, h.smoothReturns hl hne hs1 hsm, smoothed_length _ _, f1, fun r D hr0 hD hdat hr hr' k q y hq hy i => ?_⟩
  obtain ⟨k1, rfl⟩ := smoothed_get hq
  have e := f2 k y hy
  have hg := (hb x₀ y₀ ss hcm (k + 1) k1).2 r D hr0 hD (fun l s hl => by
    obtain ⟨d1, d2⟩ := hdat s (List.mem_iff_getElem?.2 ⟨l, hl⟩)
    exact ⟨(abs_le_iff_norm hD).1 d1, (abs_le_iff_norm hD).1 d2⟩) ((abs_le_iff_norm hr0).1 hr) ((abs_le_iff_norm hr0).1 hr')
  rw [← e] at hg
  have hc0 : 0 ≤ C * ρ ^ (k + 1) * (r + D) := by positivity
  exact (abs_le_iff_norm hc0).2 hg i

/-- C173, the initial state is forgotten: two calls of `smooth` with the same such model and data, started with PSD covariances `P`, `P'` and
any means up to `r`, return (if neither raises LinAlgError) covariances that differ by at most `C ρ^(k+1)` and means that differ by at
most `C ρ^(k+1) (r + D)` after step `k`. -/
theorem C173_forget (A Q : Matrix (Fin n) (Fin n) ℝ) (H : Matrix (Fin m) (Fin n) ℝ) (R : Matrix (Fin m) (Fin m) ℝ)
    (P P' : Matrix (Fin n) (Fin n) ℝ) (hQ : Q.PosSemidef) (hR : R.PosDef) (hP : P.PosSemidef) (hP' : P'.PosSemidef)
    (hd : Detectable A H) (hs : Stabilizable A Q)
    (hp : ∀ F : Matrix (Fin n) (Fin n) ℝ, F.PosSemidef → SteadyState A H Q R F → (A * F * Aᵀ + Q).det ≠ 0) :
    ∃ C ρ : ℝ, 0 < ρ ∧ ρ < 1 ∧
      ∀ (kf kf' : KalmanFilter Fl) (Z Z' : NDArray Fl) (U U' : Option (NDArray Fl)) (x₀ x₀' : Fin n → ℝ) (ss : List (LinStep n m)),
        Represents kf Z U ⟨x₀, P⟩ ss → Represents kf' Z' U' ⟨x₀', P'⟩ ss → ConstantModel A H Q R ss → ss ≠ [] →
        ss.length = Z.rows.length → ss.length = Z'.rows.length →
        SmoothSingular kf Z U ∨ SmoothSingular kf' Z' U' ∨
        ∃ (qs qs' : List (Belief n)) (Ks Ks' : List (Matrix (Fin n) (Fin m) ℝ)), SmoothReturns kf Z U qs Ks ∧
          SmoothReturns kf' Z' U' qs' Ks' ∧ qs.length = ss.length ∧ qs'.length = ss.length ∧
          ∀ k q q', qs[k]? = some q → qs'[k]? = some q' → (∀ i j, |q.P i j - q'.P i j| ≤ C * ρ ^ (k + 1)) ∧
            ∀ r D : ℝ, 0 ≤ r → 0 ≤ D → (∀ s ∈ ss, (∀ i, |s.z i| ≤ D) ∧ ∀ i, |s.c i| ≤ D) → (∀ i, |x₀ i| ≤ r) →
              (∀ i, |x₀' i| ≤ r) → ∀ i, |q.x i - q'.x i| ≤ C * ρ ^ (k + 1) * (r + D) := by
  obtain ⟨F, hF, hfix, hT⟩ := exists_limit (A := A) (H := H) hQ hR hd
  obtain ⟨C, ρ, hC, h0, h1, hb⟩ := smooth_gap hQ hR hd hs hp hF hfix hT P hP
  obtain ⟨C', ρ', hC', h0', h1', hb'⟩ := smooth_gap hQ hR hd hs hp hF hfix hT P' hP'
  refine ⟨C + C', max ρ ρ', lt_max_of_lt_left h0, max_lt h1 h1', fun kf kf' Z Z' U U' x₀ x₀' ss h h' hcm hne hl hl' => ?_⟩
  have hsol : ∀ b : Belief n, b.P.PosSemidef → Solvable b ss := fun b hb =>
    solvable_psd hb (fun s hs => (hcm s hs).2.2.1 ▸ hQ) fun s hs => (hcm s hs).2.2.2 ▸ hR
  by_cases hsm : SmoothSolvable ⟨x₀, P⟩ ss
  swap
  · exact .inl (h.smoothSingular hl hne fun hh => hsm hh.2)
  by_cases hsm' : SmoothSolvable ⟨x₀', P'⟩ ss
  swap
  · exact .inr (.inl (h'.smoothSingular hl' hne fun hh => hsm' hh.2))
  refine .inr (.inr ⟨_, _, _, _, h.smoothReturns hl hne (hsol _ hP) hsm, h'.smoothReturns hl' hne (hsol _ hP') hsm', smoothed_length _ _,
    smoothed_length _ _, fun k q q' hq hq' => ?_⟩)
  obtain ⟨k1, rfl⟩ := smoothed_get hq
  obtain ⟨-, rfl⟩ := smoothed_get hq'
  have p1 : ρ ^ (k + 1) ≤ max ρ ρ' ^ (k + 1) := pow_le_pow_left₀ h0.le (le_max_left _ _) _
  have p2 : ρ' ^ (k + 1) ≤ max ρ ρ' ^ (k + 1) := pow_le_pow_left₀ h0'.le (le_max_right _ _) _
  have q1 := mul_le_mul_of_nonneg_left p1 hC.le
  have q2 := mul_le_mul_of_nonneg_left p2 hC'.le
  constructor
  · intro i j
    have g1 := (hb x₀ 0 ss hcm (k + 1) k1).1
    have g2 := (hb' x₀' 0 ss hcm (k + 1) k1).1
    have g3 := norm_sub_le_norm_sub_add_norm_sub (smoothAt ⟨x₀, P⟩ ss (k + 1)).P (smoothAt ⟨0, F⟩ ss (k + 1)).P
      (smoothAt ⟨x₀', P'⟩ ss (k + 1)).P
    rw [norm_sub_rev (smoothAt ⟨0, F⟩ ss (k + 1)).P] at g3
    refine (entry_le_norm ((smoothAt ⟨x₀, P⟩ ss (k + 1)).P - (smoothAt ⟨x₀', P'⟩ ss (k + 1)).P) i j).trans (g3.trans ?_)
    linarith
  · intro r D hr0 hD hdat hr hr' i
    have hdat' : ∀ (l : ℕ) (s : LinStep n m), ss[l]? = some s → ‖s.z‖ ≤ D ∧ ‖s.c‖ ≤ D := fun l s hl => by
      obtain ⟨d1, d2⟩ := hdat s (List.mem_iff_getElem?.2 ⟨l, hl⟩)
      exact ⟨(abs_le_iff_norm hD).1 d1, (abs_le_iff_norm hD).1 d2⟩
    have z0 : ‖(0 : Fin n → ℝ)‖ ≤ r := by simpa using hr0
    have g1 := (hb x₀ 0 ss hcm (k + 1) k1).2 r D hr0 hD hdat' ((abs_le_iff_norm hr0).1 hr) z0
    have g2 := (hb' x₀' 0 ss hcm (k + 1) k1).2 r D hr0 hD hdat' ((abs_le_iff_norm hr0).1 hr') z0
    have hrD : 0 ≤ r + D := add_nonneg hr0 hD
    have g3 := norm_sub_le_norm_sub_add_norm_sub (smoothAt ⟨x₀, P⟩ ss (k + 1)).x (smoothAt ⟨0, F⟩ ss (k + 1)).x
      (smoothAt ⟨x₀', P'⟩ ss (k + 1)).x
    rw [norm_sub_rev (smoothAt ⟨0, F⟩ ss (k + 1)).x] at g3
    have r1 := mul_le_mul_of_nonneg_right q1 hrD
    have r2 := mul_le_mul_of_nonneg_right q2 hrD
    have hc0 : 0 ≤ (C + C') * max ρ ρ' ^ (k + 1) * (r + D) := by positivity
    refine (abs_le_iff_norm (v := (smoothAt ⟨x₀, P⟩ ss (k + 1)).x - (smoothAt ⟨x₀', P'⟩ ss (k + 1)).x) hc0).2 ?_ i
    refine g3.trans ((add_le_add (g1.trans r1) (g2.trans r2)).trans (le_of_eq ?_))
    ring

end

-- C173: the model of C171, two different initial states (singular initial covariances included), data within bounds.
example [Platform] (b b' : Belief 2) (x y : ℝ) : let A : Matrix (Fin 2) (Fin 2) ℝ := !![1, 0; 0, 1/2]
    let H : Matrix (Fin 1) (Fin 2) ℝ := !![1, 0]
    let ss : List (LinStep 2 1) := [![x], ![y]].map fun z => ⟨A, 0, H, 1, 1, z⟩
    ¬ Observable A H ∧ (1 : Matrix (Fin 2) (Fin 2) ℝ).PosSemidef ∧ Detectable A H ∧ Stabilizable A 1 ∧
    (∀ F : Matrix (Fin 2) (Fin 2) ℝ, F.PosSemidef → SteadyState A H 1 1 F → (A * F * Aᵀ + 1).det ≠ 0) ∧ ConstantModel A H 1 1 ss ∧
    ss ≠ [] ∧ (∃ kf Z U, Represents kf Z U b ss) ∧ (∃ kf Z U, Represents kf Z U b' ss) ∧
    ∀ s ∈ ss, (∀ i, |s.z i| ≤ |x| + |y|) ∧ ∀ i, |s.c i| ≤ |x| + |y| := by
  intro A H ss
  obtain ⟨-, hd, -, hno, -, -⟩ := Ex.detect_case
  obtain ⟨hs, hdet⟩ := (C170_conditions A 1 H 1 Matrix.PosDef.one).1 Matrix.PosDef.one
  refine ⟨hno, Matrix.PosSemidef.one, hd, hs, fun F hF _ => hdet F hF, fun s hs => ?_, by simp [ss], ⟨_, _, _, Ex.encode_represents _ _⟩,
    ⟨_, _, _, Ex.encode_represents _ _⟩, fun s hs => ?_⟩
  · obtain ⟨z, -, rfl⟩ := List.mem_map.1 hs
    exact ⟨rfl, rfl, rfl, rfl⟩
  · have e1 := abs_nonneg x
    have e2 := abs_nonneg y
    simp only [ss, List.map_cons, List.map_nil, List.mem_cons, List.not_mem_nil, or_false] at hs
    rcases hs with rfl | rfl <;> refine ⟨fun i => ?_, fun i => by simp; linarith⟩ <;> simp

end KK
