import Verif.Proofs.Decay
import Verif.Props.Forgetting
import Verif.Props.FixedLag
import Verif.Props.ExtObserver
import Verif.Spec.TimeVarying

/-! # Covariances of a time-varying model over a window of steps -/

set_option linter.unusedSectionVars false

namespace KK

open Matrix

variable {n m : ℕ}

/-! ### The covariance recursion -/

/-- The filtered covariance after a step, from the one before it. -/
noncomputable def LinStep.covNext (s : LinStep n m) (P : Matrix (Fin n) (Fin n) ℝ) : Matrix (Fin n) (Fin n) ℝ :=
  postCov s.H (priorCov s.A P s.Q) s.R

/-- The gain of a step, from the covariance before it. -/
noncomputable def LinStep.gainAt (s : LinStep n m) (P : Matrix (Fin n) (Fin n) ℝ) : Matrix (Fin n) (Fin m) ℝ :=
  kGain s.H (priorCov s.A P s.Q) s.R

/-- The linear map by which a step acts on estimation errors. -/
noncomputable def LinStep.closed (s : LinStep n m) (P : Matrix (Fin n) (Fin n) ℝ) : Matrix (Fin n) (Fin n) ℝ :=
  (1 - s.gainAt P * s.H) * s.A

/-- The covariance after a list of steps. -/
noncomputable def covRun : Matrix (Fin n) (Fin n) ℝ → List (LinStep n m) → Matrix (Fin n) (Fin n) ℝ
  | P, [] => P
  | P, s :: ss => covRun (s.covNext P) ss

/-- The linear map by which a list of steps acts on estimation errors. -/
noncomputable def clo : Matrix (Fin n) (Fin n) ℝ → List (LinStep n m) → Matrix (Fin n) (Fin n) ℝ
  | _, [] => 1
  | P, s :: ss => clo (s.covNext P) ss * s.closed P

/-- The covariance added by the noise of a list of steps. -/
noncomputable def noiseIn : Matrix (Fin n) (Fin n) ℝ → List (LinStep n m) → Matrix (Fin n) (Fin n) ℝ
  | _, [] => 0
  | P, s :: ss => clo (s.covNext P) ss * josephCov (s.gainAt P) s.H s.Q s.R * (clo (s.covNext P) ss)ᵀ + noiseIn (s.covNext P) ss

theorem lastOf_covRun (b : Belief n) (ss : List (LinStep n m)) : (lastOf b ss).P = covRun b.P ss := by
  induction ss generalizing b with
  | nil => rfl
  | cons s ss ih => rw [lastOf, ih]; rfl

theorem covRun_append (P : Matrix (Fin n) (Fin n) ℝ) (ss ts : List (LinStep n m)) :
    covRun P (ss ++ ts) = covRun (covRun P ss) ts := by
  induction ss generalizing P with
  | nil => rfl
  | cons s ss ih => exact ih _

theorem clo_append (P : Matrix (Fin n) (Fin n) ℝ) (ss ts : List (LinStep n m)) :
    clo P (ss ++ ts) = clo (covRun P ss) ts * clo P ss := by
  induction ss generalizing P with
  | nil => simp [clo, covRun]
  | cons s ss ih => rw [List.cons_append, clo, ih, clo, covRun, Matrix.mul_assoc]

/-- The noise covariances of a step are proper. -/
def Noisy (s : LinStep n m) : Prop := s.Q.PosSemidef ∧ s.R.PosDef

theorem covNext_psd {s : LinStep n m} (hs : Noisy s) {P : Matrix (Fin n) (Fin n) ℝ} (hP : P.PosSemidef) : (s.covNext P).PosSemidef :=
  (psd_next (b := ⟨0, P⟩) hP hs.1 hs.2).1

theorem covRun_psd {ss : List (LinStep n m)} (hs : ∀ s ∈ ss, Noisy s) {P : Matrix (Fin n) (Fin n) ℝ} (hP : P.PosSemidef) :
    (covRun P ss).PosSemidef := by
  induction ss generalizing P with
  | nil => exact hP
  | cons s ss ih => exact ih (fun t ht => hs t (by simp [ht])) (covNext_psd (hs s (by simp)) hP)

theorem covNext_eq {s : LinStep n m} (hs : Noisy s) {P : Matrix (Fin n) (Fin n) ℝ} (hP : P.PosSemidef) :
    s.covNext P = s.closed P * P * (s.closed P)ᵀ + josephCov (s.gainAt P) s.H s.Q s.R := by
  have hp := priorCov_posSemidef (A := s.A) hP hs.1
  have hS := posDef_det_ne (innovCov_posDef (H := s.H) hp hs.2)
  rw [LinStep.covNext, postCov_eq_joseph (IsHermitian.symm' hp.1) (IsHermitian.symm' hs.2.1) hS]
  simp only [josephCov, priorCov, LinStep.closed, LinStep.gainAt, transpose_mul, Matrix.mul_add, Matrix.add_mul, Matrix.mul_assoc]
  abel

theorem covRun_eq {ss : List (LinStep n m)} (hs : ∀ s ∈ ss, Noisy s) {P : Matrix (Fin n) (Fin n) ℝ} (hP : P.PosSemidef) :
    covRun P ss = clo P ss * P * (clo P ss)ᵀ + noiseIn P ss := by
  induction ss generalizing P with
  | nil => simp [covRun, clo, noiseIn]
  | cons s ss ih =>
    rw [covRun, ih (fun t ht => hs t (by simp [ht])) (covNext_psd (hs s (by simp)) hP)]
    rw [clo, noiseIn]
    have e := covNext_eq (hs s (by simp)) hP
    obtain ⟨X, hX⟩ : ∃ X, X = s.covNext P := ⟨_, rfl⟩
    rw [← hX] at e ⊢
    conv_lhs => rw [show clo X ss * X * (clo X ss)ᵀ = clo X ss * (s.closed P * P * (s.closed P)ᵀ + josephCov (s.gainAt P) s.H s.Q s.R) *
      (clo X ss)ᵀ from by rw [← e]]
    simp only [transpose_mul, Matrix.mul_add, Matrix.add_mul, Matrix.mul_assoc]
    abel

/-! ### The dual recursion -/

/-- The dual state carried back over a list of steps, with dual controls `u`. -/
noncomputable def dualBack : List (LinStep n m) → (ℕ → Fin m → ℝ) → (Fin n → ℝ) → Fin n → ℝ
  | [], _, y => y
  | s :: ss, u, y => s.Aᵀ *ᵥ (dualBack ss (fun i => u (i + 1)) y - s.Hᵀ *ᵥ u 0)

/-- Its cost. -/
noncomputable def dualCost : List (LinStep n m) → (ℕ → Fin m → ℝ) → (Fin n → ℝ) → ℝ
  | [], _, _ => 0
  | s :: ss, u, y => dualCost ss (fun i => u (i + 1)) y +
      (dualBack ss (fun i => u (i + 1)) y - s.Hᵀ *ᵥ u 0) ⬝ᵥ (s.Q *ᵥ (dualBack ss (fun i => u (i + 1)) y - s.Hᵀ *ᵥ u 0)) +
      u 0 ⬝ᵥ (s.R *ᵥ u 0)

theorem quad_nonneg {k : ℕ} {M : Matrix (Fin k) (Fin k) ℝ} (h : M.PosSemidef) (y : Fin k → ℝ) : 0 ≤ y ⬝ᵥ (M *ᵥ y) := by
  have := h.dotProduct_mulVec_nonneg y
  rwa [star_trivial] at this

theorem cost_nonneg {ss : List (LinStep n m)} (hs : ∀ s ∈ ss, Noisy s) (u : ℕ → Fin m → ℝ) (y : Fin n → ℝ) : 0 ≤ dualCost ss u y := by
  induction ss generalizing u with
  | nil => exact le_rfl
  | cons s ss ih =>
    have h1 := ih (fun t ht => hs t (by simp [ht])) (fun i => u (i + 1))
    have h2 := quad_nonneg (hs s (by simp)).1 (dualBack ss (fun i => u (i + 1)) y - s.Hᵀ *ᵥ u 0)
    have h3 := quad_nonneg (hs s (by simp)).2.posSemidef (u 0)
    rw [dualCost]; linarith

theorem covNext_le {s : LinStep n m} (hs : Noisy s) {P : Matrix (Fin n) (Fin n) ℝ} (hP : P.PosSemidef) (L : Matrix (Fin n) (Fin m) ℝ) :
    (josephCov L s.H (priorCov s.A P s.Q) s.R - s.covNext P).PosSemidef := by
  have hp := priorCov_posSemidef (A := s.A) hP hs.1
  have hSd := innovCov_posDef (H := s.H) hp hs.2
  rw [josephCov_eq (H := s.H) L (IsHermitian.symm' hp.1) (IsHermitian.symm' hs.2.1) (posDef_det_ne hSd), LinStep.covNext,
    add_sub_cancel_left]
  exact posSemidef_conj hSd.posSemidef _

/-- One dual step bounds the covariance. -/
theorem dual_step {s : LinStep n m} (hs : Noisy s) {P : Matrix (Fin n) (Fin n) ℝ} (hP : P.PosSemidef) (y : Fin n → ℝ) (u : Fin m → ℝ) :
    y ⬝ᵥ (s.covNext P *ᵥ y) ≤ (s.Aᵀ *ᵥ (y - s.Hᵀ *ᵥ u)) ⬝ᵥ (P *ᵥ (s.Aᵀ *ᵥ (y - s.Hᵀ *ᵥ u))) +
      (y - s.Hᵀ *ᵥ u) ⬝ᵥ (s.Q *ᵥ (y - s.Hᵀ *ᵥ u)) + u ⬝ᵥ (s.R *ᵥ u) := by
  rcases eq_or_ne y 0 with rfl | hy
  · have h1 := quad_nonneg hP (s.Aᵀ *ᵥ (0 - s.Hᵀ *ᵥ u))
    have h2 := quad_nonneg hs.1 (0 - s.Hᵀ *ᵥ u)
    have h3 := quad_nonneg hs.2.posSemidef u
    rw [zero_dotProduct]
    linarith
  have hyy : 0 < y ⬝ᵥ y := by
    rcases (dot_self_nonneg y).lt_or_eq with h | h
    · exact h
    · exact absurd (dotProduct_self_eq_zero.1 h.symm) hy
  have h := covNext_le hs hP (vecMulVec ((y ⬝ᵥ y)⁻¹ • y) u)
  have hq := quad_nonneg h y
  have hL : (vecMulVec ((y ⬝ᵥ y)⁻¹ • y) u)ᵀ *ᵥ y = u := by
    rw [transpose_vecMulVec, vecMulVec_mulVec, smul_dotProduct, smul_eq_mul, inv_mul_cancel₀ hyy.ne']
    simp
  have e1 : (1 - vecMulVec ((y ⬝ᵥ y)⁻¹ • y) u * s.H)ᵀ *ᵥ y = y - s.Hᵀ *ᵥ u := by
    rw [transpose_sub, transpose_one, transpose_mul, sub_mulVec, one_mulVec, ← mulVec_mulVec, hL]
  rw [sub_mulVec, dotProduct_sub, josephCov, add_mulVec, dotProduct_add, quad_conj, quad_conj, hL, e1, priorCov, add_mulVec,
    dotProduct_add, quad_conj] at hq
  linarith

theorem dual_run {ss : List (LinStep n m)} (hs : ∀ s ∈ ss, Noisy s) {P : Matrix (Fin n) (Fin n) ℝ} (hP : P.PosSemidef)
    (u : ℕ → Fin m → ℝ) (y : Fin n → ℝ) :
    y ⬝ᵥ (covRun P ss *ᵥ y) ≤ dualBack ss u y ⬝ᵥ (P *ᵥ dualBack ss u y) + dualCost ss u y := by
  induction ss generalizing P u with
  | nil => simp [covRun, dualBack, dualCost]
  | cons s ss ih =>
    have h1 := ih (fun t ht => hs t (by simp [ht])) (covNext_psd (hs s (by simp)) hP) (fun i => u (i + 1))
    have h2 := dual_step (hs s (by simp)) hP (dualBack ss (fun i => u (i + 1)) y) (u 0)
    rw [covRun, dualBack, dualCost]
    linarith

/-- The filter's own gains give the dual controls that attain the covariance. -/
theorem dual_own {ss : List (LinStep n m)} (P : Matrix (Fin n) (Fin n) ℝ) (y : Fin n → ℝ) :
    ∃ u : ℕ → Fin m → ℝ, dualBack ss u y = (clo P ss)ᵀ *ᵥ y ∧ dualCost ss u y = y ⬝ᵥ (noiseIn P ss *ᵥ y) := by
  induction ss generalizing P with
  | nil => exact ⟨0, by simp [dualBack, clo], by simp [dualCost, noiseIn]⟩
  | cons s ss ih =>
    obtain ⟨u, h1, h2⟩ := ih (s.covNext P)
    refine ⟨fun i => match i with | 0 => (s.gainAt P)ᵀ *ᵥ ((clo (s.covNext P) ss)ᵀ *ᵥ y) | i + 1 => u i, ?_, ?_⟩
    · show s.Aᵀ *ᵥ (dualBack ss u y - s.Hᵀ *ᵥ ((s.gainAt P)ᵀ *ᵥ ((clo (s.covNext P) ss)ᵀ *ᵥ y))) = _
      rw [h1, clo, LinStep.closed]
      simp only [transpose_mul, transpose_sub, transpose_one, ← mulVec_mulVec, sub_mulVec, one_mulVec]
    · show dualCost ss u y + (dualBack ss u y - s.Hᵀ *ᵥ ((s.gainAt P)ᵀ *ᵥ ((clo (s.covNext P) ss)ᵀ *ᵥ y))) ⬝ᵥ
        (s.Q *ᵥ (dualBack ss u y - s.Hᵀ *ᵥ ((s.gainAt P)ᵀ *ᵥ ((clo (s.covNext P) ss)ᵀ *ᵥ y)))) +
        ((s.gainAt P)ᵀ *ᵥ ((clo (s.covNext P) ss)ᵀ *ᵥ y)) ⬝ᵥ (s.R *ᵥ ((s.gainAt P)ᵀ *ᵥ ((clo (s.covNext P) ss)ᵀ *ᵥ y))) = _
      have e : (clo (s.covNext P) ss)ᵀ *ᵥ y - s.Hᵀ *ᵥ ((s.gainAt P)ᵀ *ᵥ ((clo (s.covNext P) ss)ᵀ *ᵥ y)) =
          (1 - s.gainAt P * s.H)ᵀ *ᵥ ((clo (s.covNext P) ss)ᵀ *ᵥ y) := by
        simp only [transpose_mul, transpose_sub, transpose_one, ← mulVec_mulVec, sub_mulVec, one_mulVec]
      rw [h1, h2, e, noiseIn, add_mulVec, dotProduct_add, quad_conj, josephCov, add_mulVec, dotProduct_add, quad_conj, quad_conj]
      ring

/-! ### Bounds over a window -/

/-- The bounds of `UniformModel` on one step. -/
structure TameStep (a r : ℝ) (s : LinStep n m) : Prop where
  A : ∀ i j, |s.A i j| ≤ a
  H : ∀ i j, |s.H i j| ≤ a
  Q0 : s.Q.PosSemidef
  Q : (a • (1 : Matrix (Fin n) (Fin n) ℝ) - s.Q).PosSemidef
  R0 : (s.R - r • (1 : Matrix (Fin m) (Fin m) ℝ)).PosSemidef
  R : (a • (1 : Matrix (Fin m) (Fin m) ℝ) - s.R).PosSemidef

theorem TameStep.noisy {a r : ℝ} (hr : 0 < r) {s : LinStep n m} (h : TameStep a r s) : Noisy s := ⟨h.Q0, posDef_of_lower hr h.R0⟩

theorem UniformModel.tame {N : ℕ} {a r γ : ℝ} {ss : List (LinStep n m)} (h : UniformModel N a r γ ss) : ∀ s ∈ ss, TameStep a r s :=
  fun s hs => ⟨h.A s hs, h.H s hs, by simpa using (h.Q s hs).1, (h.Q s hs).2, (h.R s hs).1, (h.R s hs).2⟩

theorem upper_quad {k : ℕ} {M : Matrix (Fin k) (Fin k) ℝ} {q : ℝ}
    (h : (q • (1 : Matrix (Fin k) (Fin k) ℝ) - M).PosSemidef) (y : Fin k → ℝ) : y ⬝ᵥ (M *ᵥ y) ≤ q * (y ⬝ᵥ y) := by
  have h1 := quad_nonneg h y
  rw [sub_mulVec, smul_mulVec, one_mulVec, dotProduct_sub, dotProduct_smul, smul_eq_mul] at h1
  linarith

theorem upper_of_quad {k : ℕ} {M : Matrix (Fin k) (Fin k) ℝ} (hM : Mᵀ = M) {q : ℝ}
    (h : ∀ y : Fin k → ℝ, y ⬝ᵥ (M *ᵥ y) ≤ q * (y ⬝ᵥ y)) : (q • (1 : Matrix (Fin k) (Fin k) ℝ) - M).PosSemidef := by
  have := lower_of_quad (M := -M) (by rw [transpose_neg, hM]) (q := -q) fun y => by
    rw [neg_mulVec, dotProduct_neg]; linarith [h y]
  convert this using 1
  module

/-- The measurements that follow the state `v` before the steps. -/
noncomputable def seen : List (LinStep n m) → (Fin n → ℝ) → ℕ → Fin m → ℝ
  | [], _, _ => 0
  | s :: _, v, 0 => s.H *ᵥ (s.A *ᵥ v)
  | s :: ss, v, i + 1 => seen ss (s.A *ᵥ v) i

/-- The transition over a list of steps. -/
noncomputable def trans : List (LinStep n m) → Matrix (Fin n) (Fin n) ℝ
  | [] => 1
  | s :: ss => trans ss * s.A

/-- The Gramian seen from before the steps. -/
noncomputable def gram : List (LinStep n m) → Matrix (Fin n) (Fin n) ℝ
  | [] => 0
  | s :: ss => s.Aᵀ * (s.Hᵀ * s.H + gram ss) * s.A

theorem obsGram_cons (s : LinStep n m) (ss : List (LinStep n m)) : obsGram (s :: ss) = s.Hᵀ * s.H + gram ss := by
  induction ss generalizing s with
  | nil => simp [obsGram, gram]
  | cons t ss ih => rw [obsGram, gram, ih t]

theorem back_seen (ss : List (LinStep n m)) (v y : Fin n → ℝ) : dualBack ss (seen ss v) y = (trans ss)ᵀ *ᵥ y - gram ss *ᵥ v := by
  induction ss generalizing v with
  | nil => simp [dualBack, trans, gram]
  | cons s ss ih =>
    show s.Aᵀ *ᵥ (dualBack ss (seen ss (s.A *ᵥ v)) y - s.Hᵀ *ᵥ (s.H *ᵥ (s.A *ᵥ v))) = _
    rw [ih, trans, gram]
    simp only [transpose_mul, ← mulVec_mulVec, mulVec_sub, mulVec_add, add_mulVec, Matrix.mul_add, Matrix.add_mul]
    abel

theorem dot_sub_le {k : ℕ} (u v : Fin k → ℝ) : (u - v) ⬝ᵥ (u - v) ≤ 2 * (u ⬝ᵥ u) + 2 * (v ⬝ᵥ v) := by
  have := dot_add_le u (-v)
  rw [← sub_eq_add_neg, neg_dotProduct_neg] at this
  exact this

theorem seen_bound (n m N : ℕ) {a r : ℝ} (ha : 0 ≤ a) : ∃ c : ℝ, 0 ≤ c ∧ ∀ ss : List (LinStep n m), ss.length = N →
    (∀ s ∈ ss, TameStep a r s) → ∀ v y : Fin n → ℝ,
      dualBack ss (seen ss v) y ⬝ᵥ dualBack ss (seen ss v) y ≤ c * (y ⬝ᵥ y + v ⬝ᵥ v) ∧ dualCost ss (seen ss v) y ≤ c * (y ⬝ᵥ y + v ⬝ᵥ v) := by
  induction N with
  | zero =>
    refine ⟨1, zero_le_one, fun ss hl _ v y => ?_⟩
    obtain rfl := List.eq_nil_of_length_eq_zero hl
    have := dot_self_nonneg v
    have := dot_self_nonneg y
    simp only [dualBack, dualCost]
    constructor <;> linarith
  | succ N ih =>
    obtain ⟨c, hc, h⟩ := ih
    obtain ⟨α, hα⟩ : ∃ α : ℝ, α = n * (a * n) ^ 2 := ⟨_, rfl⟩
    obtain ⟨β, hβ⟩ : ∃ β : ℝ, β = m * (a * n) ^ 2 * α := ⟨_, rfl⟩
    obtain ⟨η, hη⟩ : ∃ η : ℝ, η = n * (a * m) ^ 2 * β := ⟨_, rfl⟩
    have hα0 : 0 ≤ α := by rw [hα]; positivity
    have hβ0 : 0 ≤ β := by rw [hβ]; positivity
    have hη0 : 0 ≤ η := by rw [hη]; positivity
    refine ⟨α * (2 * (c * (1 + α)) + 2 * η) + (c * (1 + α) + a * (2 * (c * (1 + α)) + 2 * η) + a * β), by positivity,
      fun ss hl hs v y => ?_⟩
    rcases ss with _ | ⟨s, ss⟩
    · simp at hl
    obtain ⟨h1, h2⟩ := h ss (by simpa using hl) (fun t ht => hs t (by simp [ht])) (s.A *ᵥ v) y
    have hsm := hs s (by simp)
    have hv0 := dot_self_nonneg v
    have hy0 := dot_self_nonneg y
    have hAv : (s.A *ᵥ v) ⬝ᵥ (s.A *ᵥ v) ≤ α * (v ⬝ᵥ v) := by rw [hα]; exact mulVec_dot_le ha hsm.A v
    have hHv : (s.H *ᵥ (s.A *ᵥ v)) ⬝ᵥ (s.H *ᵥ (s.A *ᵥ v)) ≤ β * (v ⬝ᵥ v) := by
      have h3 := mulVec_dot_le ha hsm.H (s.A *ᵥ v)
      have h4 := mul_le_mul_of_nonneg_left hAv (by positivity : (0 : ℝ) ≤ m * (a * n) ^ 2)
      rw [hβ]; linarith
    obtain ⟨u, hu⟩ : ∃ u, u = s.H *ᵥ (s.A *ᵥ v) := ⟨_, rfl⟩
    rw [← hu] at hHv
    have hHu : (s.Hᵀ *ᵥ u) ⬝ᵥ (s.Hᵀ *ᵥ u) ≤ η * (v ⬝ᵥ v) := by
      have h3 := mulVec_dot_le ha (M := s.Hᵀ) (fun i j => hsm.H j i) u
      have h4 := mul_le_mul_of_nonneg_left hHv (by positivity : (0 : ℝ) ≤ n * (a * m) ^ 2)
      rw [hη]; linarith
    have hfac : c * (y ⬝ᵥ y + (s.A *ᵥ v) ⬝ᵥ (s.A *ᵥ v)) ≤ c * (1 + α) * (y ⬝ᵥ y + v ⬝ᵥ v) := by
      rw [mul_assoc]
      refine mul_le_mul_of_nonneg_left ?_ hc
      have : 0 ≤ α * (y ⬝ᵥ y) := by positivity
      linarith
    obtain ⟨w, hw⟩ : ∃ w, w = dualBack ss (seen ss (s.A *ᵥ v)) y := ⟨_, rfl⟩
    rw [← hw] at h1
    have hpre := dot_sub_le w (s.Hᵀ *ᵥ u)
    have hsv : v ⬝ᵥ v ≤ y ⬝ᵥ y + v ⬝ᵥ v := by linarith
    obtain ⟨t, ht⟩ : ∃ t, t = y ⬝ᵥ y + v ⬝ᵥ v := ⟨_, rfl⟩
    rw [← ht] at hfac hsv ⊢
    have ht0 : 0 ≤ t := by linarith
    have hpre' : (w - s.Hᵀ *ᵥ u) ⬝ᵥ (w - s.Hᵀ *ᵥ u) ≤ (2 * (c * (1 + α)) + 2 * η) * t := by
      have := mul_le_mul_of_nonneg_left hsv hη0
      linarith
    have hAt := mulVec_dot_le ha (M := s.Aᵀ) (fun i j => hsm.A j i) (w - s.Hᵀ *ᵥ u)
    have hQ := upper_quad hsm.Q (w - s.Hᵀ *ᵥ u)
    have hR := upper_quad hsm.R u
    have e1 : dualBack (s :: ss) (seen (s :: ss) v) y = s.Aᵀ *ᵥ (w - s.Hᵀ *ᵥ u) := by rw [hw, hu]; rfl
    have e2 : dualCost (s :: ss) (seen (s :: ss) v) y = dualCost ss (seen ss (s.A *ᵥ v)) y + (w - s.Hᵀ *ᵥ u) ⬝ᵥ (s.Q *ᵥ (w - s.Hᵀ *ᵥ u)) +
        u ⬝ᵥ (s.R *ᵥ u) := by rw [hw, hu]; rfl
    rw [← hα] at hAt
    rw [e1, e2]
    have k1 := mul_le_mul_of_nonneg_left hpre' hα0
    have k2 := mul_le_mul_of_nonneg_left hpre' ha
    have k3 := mul_le_mul_of_nonneg_left (hHv.trans (mul_le_mul_of_nonneg_left hsv hβ0)) ha
    have p1 : 0 ≤ (c * (1 + α) + a * (2 * (c * (1 + α)) + 2 * η) + a * β) * t := by positivity
    have p2 : 0 ≤ α * (2 * (c * (1 + α)) + 2 * η) * t := by positivity
    constructor <;> linarith

/-- After an observable window the covariance is bounded, whatever it was before. -/
theorem window_upper (n m N : ℕ) {a r γ : ℝ} (ha : 0 ≤ a) (hr : 0 < r) (hγ : 0 < γ) :
    ∃ c : ℝ, 0 < c ∧ ∀ ss : List (LinStep n m), ss.length = N + 1 → (∀ s ∈ ss, TameStep a r s) →
      (obsGram ss - γ • (1 : Matrix (Fin n) (Fin n) ℝ)).PosSemidef → ∀ P : Matrix (Fin n) (Fin n) ℝ, P.PosSemidef →
        (c • (1 : Matrix (Fin n) (Fin n) ℝ) - covRun P ss).PosSemidef := by
  obtain ⟨c, hc, h⟩ := seen_bound n m N (r := r) ha
  obtain ⟨τ, hτ⟩ : ∃ τ : ℝ, τ = c * (1 + γ⁻¹ ^ 2 * c) + a * (m * (a * n) ^ 2 * (γ⁻¹ ^ 2 * c)) + 1 := ⟨_, rfl⟩
  refine ⟨τ, by rw [hτ]; positivity, fun ss hl hs hO P hP => ?_⟩
  rcases ss with _ | ⟨s, ss⟩
  · simp at hl
  have hN : ∀ t ∈ s :: ss, Noisy t := fun t ht => (hs t ht).noisy hr
  refine upper_of_quad (IsHermitian.symm' (covRun_psd hN hP).1) fun y => ?_
  have hOd := posDef_of_lower hγ hO
  rw [obsGram_cons] at hO hOd
  obtain ⟨O, hOe⟩ : ∃ O, O = s.Hᵀ * s.H + gram ss := ⟨_, rfl⟩
  rw [← hOe] at hO hOd
  obtain ⟨g, hg⟩ : ∃ g, g = (trans ss)ᵀ *ᵥ y := ⟨_, rfl⟩
  obtain ⟨v, hv⟩ : ∃ v, v = O⁻¹ *ᵥ g := ⟨_, rfl⟩
  have hOv : O *ᵥ v = g := by rw [hv, mulVec_mulVec, Matrix.mul_nonsing_inv _ (posDef_isUnit_det hOd), one_mulVec]
  have hlen : ss.length = N := by simpa using hl
  have hss : ∀ t ∈ ss, TameStep a r t := fun t ht => hs t (by simp [ht])
  have hgg : g ⬝ᵥ g ≤ c * (y ⬝ᵥ y) := by
    have := (h ss hlen hss 0 y).1
    rwa [back_seen, mulVec_zero, sub_zero, ← hg, zero_dotProduct, add_zero] at this
  have hvv : v ⬝ᵥ v ≤ γ⁻¹ ^ 2 * c * (y ⬝ᵥ y) := by
    have h1 := lower_quad hO v
    rw [hOv] at h1
    have h2 := dot_self_nonneg (γ • v - g)
    simp only [dotProduct_sub, sub_dotProduct, dotProduct_smul, smul_dotProduct, smul_eq_mul, dotProduct_comm g v] at h2
    have h3 : γ ^ 2 * (v ⬝ᵥ v) ≤ g ⬝ᵥ g := by nlinarith
    have h4 : v ⬝ᵥ v = γ⁻¹ ^ 2 * (γ ^ 2 * (v ⬝ᵥ v)) := by field_simp
    rw [h4, mul_assoc]
    exact mul_le_mul_of_nonneg_left (h3.trans hgg) (by positivity)
  have hback := back_seen ss v y
  rw [← hg] at hback
  have hu := mulVec_dot_le ha (hs s (by simp)).H v
  have key := dual_run hN hP (fun i => match i with | 0 => s.H *ᵥ v | i + 1 => seen ss v i) y
  have e0 : dualBack ss (seen ss v) y - s.Hᵀ *ᵥ (s.H *ᵥ v) = 0 := by
    rw [hback, ← hOv, hOe, add_mulVec, ← mulVec_mulVec]; abel
  have e1 : dualBack (s :: ss) (fun i => match i with | 0 => s.H *ᵥ v | i + 1 => seen ss v i) y = 0 := by
    show s.Aᵀ *ᵥ (dualBack ss (seen ss v) y - s.Hᵀ *ᵥ (s.H *ᵥ v)) = 0
    rw [e0, mulVec_zero]
  have e2 : dualCost (s :: ss) (fun i => match i with | 0 => s.H *ᵥ v | i + 1 => seen ss v i) y =
      dualCost ss (seen ss v) y + (s.H *ᵥ v) ⬝ᵥ (s.R *ᵥ (s.H *ᵥ v)) := by
    show dualCost ss (seen ss v) y + (dualBack ss (seen ss v) y - s.Hᵀ *ᵥ (s.H *ᵥ v)) ⬝ᵥ
      (s.Q *ᵥ (dualBack ss (seen ss v) y - s.Hᵀ *ᵥ (s.H *ᵥ v))) + (s.H *ᵥ v) ⬝ᵥ (s.R *ᵥ (s.H *ᵥ v)) = _
    rw [e0, zero_dotProduct, add_zero]
  rw [e1, e2, zero_dotProduct, zero_add] at key
  have h5 := (h ss hlen hss v y).2
  have h6 := upper_quad (hs s (by simp)).R (s.H *ᵥ v)
  have h7 := mul_le_mul_of_nonneg_left (hu.trans (mul_le_mul_of_nonneg_left hvv (by positivity))) ha
  have h8 := mul_le_mul_of_nonneg_left hvv hc
  have hy0 := dot_self_nonneg y
  rw [hτ]
  linarith

theorem conGram_foldl (ss : List (LinStep n m)) (W : Matrix (Fin n) (Fin n) ℝ) :
    ss.foldl (fun W s => s.A * W * s.Aᵀ + s.Q) W = trans ss * W * (trans ss)ᵀ + conGram ss := by
  induction ss generalizing W with
  | nil => simp [trans, conGram]
  | cons s ss ih =>
    rw [conGram, List.foldl_cons, List.foldl_cons, ih, ih (s.A * 0 * s.Aᵀ + s.Q), trans]
    simp only [transpose_mul, Matrix.mul_add, Matrix.add_mul, Matrix.mul_assoc, Matrix.mul_zero, Matrix.zero_mul]
    abel

theorem conGram_cons (s : LinStep n m) (ss : List (LinStep n m)) : conGram (s :: ss) = trans ss * s.Q * (trans ss)ᵀ + conGram ss := by
  rw [conGram, List.foldl_cons, conGram_foldl]; simp

theorem conGram_psd {ss : List (LinStep n m)} (hs : ∀ s ∈ ss, Noisy s) : (conGram ss).PosSemidef := by
  induction ss with
  | nil => exact Matrix.PosSemidef.zero
  | cons s ss ih =>
    rw [conGram_cons]
    exact (posSemidef_conj (hs s (by simp)).1 _).add (ih fun t ht => hs t (by simp [ht]))

theorem quad_mix {k : ℕ} {M : Matrix (Fin k) (Fin k) ℝ} (h : M.PosSemidef) (u v : Fin k → ℝ) :
    (u + v) ⬝ᵥ (M *ᵥ (u + v)) ≤ 2 * (u ⬝ᵥ (M *ᵥ u)) + 2 * (v ⬝ᵥ (M *ᵥ v)) := by
  have := quad_nonneg h (u - v)
  simp only [mulVec_add, mulVec_sub, dotProduct_add, add_dotProduct, dotProduct_sub, sub_dotProduct] at *
  linarith

/-- Whatever the dual controls, the cost is at least a multiple of the controllability Gramian. -/
theorem cost_lower (n m N : ℕ) {a r : ℝ} (ha : 0 ≤ a) (hr : 0 < r) : ∃ D E : ℝ, 0 ≤ D ∧ 0 ≤ E ∧ ∀ ss : List (LinStep n m),
    ss.length = N → (∀ s ∈ ss, TameStep a r s) → ∀ (u : ℕ → Fin m → ℝ) (y : Fin n → ℝ),
      ((trans ss)ᵀ *ᵥ y - dualBack ss u y) ⬝ᵥ ((trans ss)ᵀ *ᵥ y - dualBack ss u y) ≤ D * dualCost ss u y ∧
      y ⬝ᵥ (conGram ss *ᵥ y) ≤ E * dualCost ss u y := by
  induction N with
  | zero =>
    refine ⟨0, 0, le_rfl, le_rfl, fun ss hl _ u y => ?_⟩
    obtain rfl := List.eq_nil_of_length_eq_zero hl
    simp [dualBack, trans, conGram, dualCost]
  | succ N ih =>
    obtain ⟨D, E, hD, hE, h⟩ := ih
    obtain ⟨β, hβ⟩ : ∃ β : ℝ, β = n * (a * m) ^ 2 / r := ⟨_, rfl⟩
    obtain ⟨α, hα⟩ : ∃ α : ℝ, α = n * (a * n) ^ 2 := ⟨_, rfl⟩
    have hβ0 : 0 ≤ β := by rw [hβ]; positivity
    have hα0 : 0 ≤ α := by rw [hα]; positivity
    refine ⟨α * (2 * D + 2 * β), E + (2 + 2 * a * (2 * D + 2 * β)), by positivity, by positivity, fun ss hl hs u y => ?_⟩
    rcases ss with _ | ⟨s, ss⟩
    · simp at hl
    have hss : ∀ t ∈ ss, TameStep a r t := fun t ht => hs t (by simp [ht])
    have hsm := hs s (by simp)
    obtain ⟨h1, h2⟩ := h ss (by simpa using hl) hss (fun i => u (i + 1)) y
    have hc0 := cost_nonneg (fun t ht => (hss t ht).noisy hr) (fun i => u (i + 1)) y
    obtain ⟨w, hw⟩ : ∃ w, w = dualBack ss (fun i => u (i + 1)) y := ⟨_, rfl⟩
    obtain ⟨g, hg⟩ : ∃ g, g = (trans ss)ᵀ *ᵥ y := ⟨_, rfl⟩
    obtain ⟨c, hc⟩ : ∃ c, c = dualCost ss (fun i => u (i + 1)) y := ⟨_, rfl⟩
    rw [← hw, ← hg, ← hc] at h1
    rw [← hc] at h2 hc0
    obtain ⟨x, hx⟩ : ∃ x, x = w - s.Hᵀ *ᵥ u 0 := ⟨_, rfl⟩
    have hQ0 := quad_nonneg hsm.Q0 x
    have hR0 := lower_quad hsm.R0 (u 0)
    have hu0 := dot_self_nonneg (u 0)
    have hRR : 0 ≤ u 0 ⬝ᵥ (s.R *ᵥ u 0) := by
      have : 0 ≤ r * (u 0 ⬝ᵥ u 0) := by positivity
      linarith
    have hHu : (s.Hᵀ *ᵥ u 0) ⬝ᵥ (s.Hᵀ *ᵥ u 0) ≤ β * (u 0 ⬝ᵥ (s.R *ᵥ u 0)) := by
      have h3 := mulVec_dot_le ha (M := s.Hᵀ) (fun i j => hsm.H j i) (u 0)
      have e : n * (a * m) ^ 2 * (u 0 ⬝ᵥ u 0) = β * (r * (u 0 ⬝ᵥ u 0)) := by rw [hβ]; field_simp
      rw [e] at h3
      exact h3.trans (mul_le_mul_of_nonneg_left hR0 hβ0)
    have e1 : dualCost (s :: ss) u y = c + x ⬝ᵥ (s.Q *ᵥ x) + u 0 ⬝ᵥ (s.R *ᵥ u 0) := by rw [hc, hx, hw]; rfl
    have e2 : dualBack (s :: ss) u y = s.Aᵀ *ᵥ x := by rw [hx, hw]; rfl
    obtain ⟨t, ht⟩ : ∃ t, t = c + x ⬝ᵥ (s.Q *ᵥ x) + u 0 ⬝ᵥ (s.R *ᵥ u 0) := ⟨_, rfl⟩
    have ht1 : c ≤ t := by linarith
    have ht2 : u 0 ⬝ᵥ (s.R *ᵥ u 0) ≤ t := by linarith
    have ht3 : x ⬝ᵥ (s.Q *ᵥ x) ≤ t := by linarith
    have ht0 : 0 ≤ t := by linarith
    have hgx : (g - x) ⬝ᵥ (g - x) ≤ (2 * D + 2 * β) * t := by
      have h3 := dot_add_le (g - w) (s.Hᵀ *ᵥ u 0)
      have e3 : g - w + s.Hᵀ *ᵥ u 0 = g - x := by rw [hx]; abel
      rw [e3] at h3
      have h4 := mul_le_mul_of_nonneg_left ht1 hD
      have h5 := mul_le_mul_of_nonneg_left ht2 hβ0
      linarith
    rw [e1, e2, ← ht]
    constructor
    · rw [trans, transpose_mul, ← mulVec_mulVec, ← hg, ← mulVec_sub]
      have h3 := mulVec_dot_le ha (M := s.Aᵀ) (fun i j => hsm.A j i) (g - x)
      rw [← hα] at h3
      have := mul_le_mul_of_nonneg_left hgx hα0
      linarith
    · rw [conGram_cons, add_mulVec, dotProduct_add, quad_conj, ← hg]
      have h3 := quad_mix hsm.Q0 x (g - x)
      rw [add_sub_cancel] at h3
      have h4 := upper_quad hsm.Q (g - x)
      have h5 := mul_le_mul_of_nonneg_left hgx ha
      have h6 := mul_le_mul_of_nonneg_left ht1 hE
      linarith

theorem josephCov_symm {L : Matrix (Fin n) (Fin m) ℝ} {s : LinStep n m} (hs : Noisy s) : (josephCov L s.H s.Q s.R)ᵀ = josephCov L s.H s.Q s.R :=
  IsHermitian.symm' (josephCov_posSemidef L hs.1 hs.2.posSemidef).1

theorem noiseIn_psd {ss : List (LinStep n m)} (hs : ∀ s ∈ ss, Noisy s) (P : Matrix (Fin n) (Fin n) ℝ) : (noiseIn P ss).PosSemidef := by
  induction ss generalizing P with
  | nil => exact Matrix.PosSemidef.zero
  | cons s ss ih =>
    rw [noiseIn]
    exact (posSemidef_conj (josephCov_posSemidef _ (hs s (by simp)).1 (hs s (by simp)).2.posSemidef) _).add
      (ih (fun t ht => hs t (by simp [ht])) _)

/-- Over a controllable window the noise adds a covariance bounded below, whatever the covariance was before. -/
theorem window_lower (n m N : ℕ) {a r γ : ℝ} (ha : 0 ≤ a) (hr : 0 < r) (hγ : 0 < γ) :
    ∃ c : ℝ, 0 < c ∧ ∀ ss : List (LinStep n m), ss.length = N → (∀ s ∈ ss, TameStep a r s) →
      (conGram ss - γ • (1 : Matrix (Fin n) (Fin n) ℝ)).PosSemidef → ∀ P : Matrix (Fin n) (Fin n) ℝ,
        (noiseIn P ss - c • (1 : Matrix (Fin n) (Fin n) ℝ)).PosSemidef := by
  obtain ⟨D, E, hD, hE, h⟩ := cost_lower n m N (a := a) (r := r) ha hr
  refine ⟨γ / (E + 1), by positivity, fun ss hl hs hC P => ?_⟩
  have hN : ∀ t ∈ ss, Noisy t := fun t ht => (hs t ht).noisy hr
  refine lower_of_quad (IsHermitian.symm' (noiseIn_psd hN P).1) fun y => ?_
  obtain ⟨u, -, hu⟩ := dual_own (ss := ss) P y
  have h1 := (h ss hl hs u y).2
  have h0 := cost_nonneg hN u y
  rw [hu] at h1 h0
  have h2 := lower_quad hC y
  rw [div_mul_eq_mul_div, div_le_iff₀ (by positivity)]
  linarith

end KK
