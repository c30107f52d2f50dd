import Verif.Proofs.TimeVarying
import Verif.Props.Convergence
import Verif.Props.Observer

/-! # Estimates of a time-varying model -/

set_option linter.unusedSectionVars false

namespace KK

open Matrix

variable {n m : ℕ}

/-! ### Means -/

/-- What a step adds to an estimate of zero. -/
noncomputable def LinStep.force (s : LinStep n m) (P : Matrix (Fin n) (Fin n) ℝ) : Fin n → ℝ :=
  s.c - s.gainAt P *ᵥ (s.H *ᵥ s.c) + s.gainAt P *ᵥ s.z

theorem next_affine (s : LinStep n m) (b : Belief n) : s.next b = ⟨s.closed b.P *ᵥ b.x + s.force b.P, s.covNext b.P⟩ := by
  ext1
  · show s.A *ᵥ b.x + s.c + s.gainAt b.P *ᵥ (s.z - s.H *ᵥ (s.A *ᵥ b.x + s.c)) = _
    simp only [LinStep.closed, LinStep.force, Matrix.sub_mul, Matrix.one_mul, sub_mulVec, mulVec_sub, mulVec_add, ← mulVec_mulVec]
    abel
  · rfl

theorem lastOf_shift (l : List (LinStep n m)) (P : Matrix (Fin n) (Fin n) ℝ) (x d : Fin n → ℝ) :
    (lastOf ⟨x + d, P⟩ l).x = (lastOf ⟨x, P⟩ l).x + clo P l *ᵥ d := by
  induction l generalizing P x d with
  | nil => simp [lastOf, clo]
  | cons s l ih =>
    rw [lastOf, lastOf, next_affine, next_affine, clo, ← mulVec_mulVec, ← ih, mulVec_add]
    congr 2
    abel_nf

/-- Bounded forcing of a decaying run. -/
theorem iss_list {C ρ B : ℝ} (hC : 0 ≤ C) (hρ : 0 ≤ ρ) (l : List (LinStep n m)) (P : Matrix (Fin n) (Fin n) ℝ)
    (hd : ∀ u v, l = u ++ v → ∀ d, ‖clo (covRun P u) v *ᵥ d‖ ≤ C * ρ ^ v.length * ‖d‖)
    (hf : ∀ u s v, l = u ++ s :: v → ‖s.force (covRun P u)‖ ≤ B) :
    ‖(lastOf ⟨0, P⟩ l).x‖ ≤ C * B * ∑ i ∈ Finset.range l.length, ρ ^ i := by
  induction l generalizing P with
  | nil => simp [lastOf]
  | cons s l ih =>
    have h1 := ih (s.covNext P) (fun u v e d => hd (s :: u) v (by rw [e]; rfl) d) (fun u t v e => hf (s :: u) t v (by rw [e]; rfl))
    have h2 := hd [s] l rfl (s.force P)
    have h3 := hf [] s l rfl
    have e : lastOf ⟨0, P⟩ (s :: l) = lastOf ⟨0 + s.force P, s.covNext P⟩ l := by
      rw [lastOf, next_affine]; simp
    rw [e, lastOf_shift, List.length_cons, Finset.sum_range_succ, mul_add]
    have h4 : C * ρ ^ l.length * ‖s.force P‖ ≤ C * B * ρ ^ l.length := by
      rw [mul_right_comm C B]
      exact mul_le_mul_of_nonneg_left h3 (by positivity)
    exact (norm_add_le _ _).trans (add_le_add h1 (h2.trans h4))

theorem clo_bound {G : ℝ} (hG : 0 ≤ G) (l : List (LinStep n m)) (P : Matrix (Fin n) (Fin n) ℝ)
    (h : ∀ u s v, l = u ++ s :: v → ∀ d, ‖s.closed (covRun P u) *ᵥ d‖ ≤ G * ‖d‖) (d : Fin n → ℝ) :
    ‖clo P l *ᵥ d‖ ≤ G ^ l.length * ‖d‖ := by
  induction l generalizing P d with
  | nil => simp [clo]
  | cons s l ih =>
    have h1 := ih (s.covNext P) (fun u t v e => h (s :: u) t v (by rw [e]; rfl)) (s.closed P *ᵥ d)
    have h2 := h [] s l rfl d
    rw [clo, ← mulVec_mulVec, List.length_cons, pow_succ, mul_assoc]
    exact h1.trans (mul_le_mul_of_nonneg_left h2 (by positivity))

section

variable {a r : ℝ}

theorem gainAt_le (hr : 0 < r) {s : LinStep n m} (hs : TameStep a r s) {P : Matrix (Fin n) (Fin n) ℝ} (hP : P.PosSemidef) {p : ℝ}
    (h : (p • (1 : Matrix (Fin n) (Fin n) ℝ) - s.covNext P).PosSemidef) (i : Fin n) (j : Fin m) : |s.gainAt P i j| ≤ Real.sqrt (p / r) := by
  refine gain_le hr hs.R0 (psd_trans ?_ h) i j
  rw [covNext_eq (hs.noisy hr) hP, josephCov]
  have := (posSemidef_conj hP (s.closed P)).add (posSemidef_conj hs.Q0 (1 - s.gainAt P * s.H))
  convert this using 1
  abel

theorem closed_bound (ha : 0 ≤ a) {s : LinStep n m} (hs : TameStep a r s) {P : Matrix (Fin n) (Fin n) ℝ} {g : ℝ} (hg : 0 ≤ g)
    (hK : ∀ i j, |s.gainAt P i j| ≤ g) (d : Fin n → ℝ) : ‖s.closed P *ᵥ d‖ ≤ (1 + g * m * (a * n)) * (a * n) * ‖d‖ := by
  rw [LinStep.closed, ← mulVec_mulVec, sub_mulVec, one_mulVec, ← mulVec_mulVec]
  have h1 := mulVec_norm_le ha hs.A d
  have h2 := mulVec_norm_le ha hs.H (s.A *ᵥ d)
  have h3 := mulVec_norm_le hg hK (s.H *ᵥ (s.A *ᵥ d))
  have h4 := norm_sub_le (s.A *ᵥ d) (s.gainAt P *ᵥ (s.H *ᵥ (s.A *ᵥ d)))
  have h5 := mul_le_mul_of_nonneg_left h2 (by positivity : 0 ≤ g * m)
  have h6 := mul_le_mul_of_nonneg_left h1 (by positivity : 0 ≤ g * m * (a * n))
  linarith

theorem force_bound (ha : 0 ≤ a) {s : LinStep n m} (hs : TameStep a r s) {P : Matrix (Fin n) (Fin n) ℝ} {g D : ℝ} (hg : 0 ≤ g)
    (hK : ∀ i j, |s.gainAt P i j| ≤ g) (hz : ‖s.z‖ ≤ D) (hc : ‖s.c‖ ≤ D) :
    ‖s.force P‖ ≤ (1 + g * m * (a * n) + g * m) * D := by
  have h2 := mulVec_norm_le ha hs.H s.c
  have h3 := mulVec_norm_le hg hK (s.H *ᵥ s.c)
  have h4 := mulVec_norm_le hg hK s.z
  have h5 := norm_sub_le s.c (s.gainAt P *ᵥ (s.H *ᵥ s.c))
  have h6 := norm_add_le (s.c - s.gainAt P *ᵥ (s.H *ᵥ s.c)) (s.gainAt P *ᵥ s.z)
  have h7 := mul_le_mul_of_nonneg_left h2 (by positivity : 0 ≤ g * m)
  have h8 := mul_le_mul_of_nonneg_left hc (by positivity : 0 ≤ g * m * (a * n))
  have h9 := mul_le_mul_of_nonneg_left hz (by positivity : 0 ≤ g * m)
  rw [LinStep.force]
  linarith

theorem cov_growth (ha : 0 ≤ a) (hr : 0 < r) (N : ℕ) (p : ℝ) (hp : 0 ≤ p) : ∃ p' : ℝ, p ≤ p' ∧ ∀ l : List (LinStep n m), l.length ≤ N →
    (∀ s ∈ l, TameStep a r s) → ∀ P : Matrix (Fin n) (Fin n) ℝ, P.PosSemidef → (p • (1 : Matrix (Fin n) (Fin n) ℝ) - P).PosSemidef →
      (p' • (1 : Matrix (Fin n) (Fin n) ℝ) - covRun P l).PosSemidef := by
  induction N generalizing p with
  | zero =>
    refine ⟨p, le_rfl, fun l hl _ P _ h => ?_⟩
    obtain rfl := List.eq_nil_of_length_eq_zero (Nat.le_zero.1 hl)
    exact h
  | succ N ih =>
    obtain ⟨p', h1, h2⟩ := ih (p + (p * (n * (a * n) ^ 2) + a)) (by positivity)
    have h0 : 0 ≤ p * (n * (a * n) ^ 2) + a := by positivity
    refine ⟨p', by linarith, fun l hl hs P hP h => ?_⟩
    rcases l with _ | ⟨s, l⟩
    · exact upper_mono (by linarith) h
    have hsm := hs s (by simp)
    have h3 := covNext_le (hsm.noisy hr) hP 0
    have e : josephCov (0 : Matrix (Fin n) (Fin m) ℝ) s.H (priorCov s.A P s.Q) s.R = priorCov s.A P s.Q := by simp [josephCov]
    rw [e] at h3
    have h4 := upper_add (le_conj hp h ha hsm.A) hsm.Q
    refine h2 l (by simpa using hl) (fun t ht => hs t (by simp [ht])) _ (covNext_psd (hsm.noisy hr) hP) ?_
    exact upper_mono (by linarith) (psd_trans h3 h4)

end

/-! ### Two covariances -/

theorem covNext_sub {s : LinStep n m} (hs : Noisy s) {P X : Matrix (Fin n) (Fin n) ℝ} (hP : P.PosSemidef) (hX : X.PosSemidef) :
    s.covNext P - s.covNext X = s.closed P * (P - X) * (s.closed X)ᵀ := by
  have hp := priorCov_posSemidef (A := s.A) hP hs.1
  have hx := priorCov_posSemidef (A := s.A) hX hs.1
  have hSp := posDef_det_ne (innovCov_posDef (H := s.H) hp hs.2)
  have hSx := posDef_det_ne (innovCov_posDef (H := s.H) hx hs.2)
  have hRu := posDef_isUnit_det hs.2
  have hR := IsHermitian.symm' hs.2.1
  have kp : s.gainAt P * s.R = s.covNext P * s.Hᵀ := by
    rw [LinStep.gainAt, kGain_post hs.2 hp, Matrix.mul_assoc, Matrix.mul_assoc, Matrix.nonsing_inv_mul _ hRu, Matrix.mul_one]; rfl
  have kx : s.gainAt X * s.R = s.covNext X * s.Hᵀ := by
    rw [LinStep.gainAt, kGain_post hs.2 hx, Matrix.mul_assoc, Matrix.mul_assoc, Matrix.nonsing_inv_mul _ hRu, Matrix.mul_one]; rfl
  have ep : (1 - s.gainAt P * s.H) * priorCov s.A P s.Q = s.covNext P := rfl
  have hxs : (s.covNext X)ᵀ = s.covNext X := IsHermitian.symm' (covNext_psd hs hX).1
  have ex : priorCov s.A X s.Q * (1 - s.gainAt X * s.H)ᵀ = s.covNext X := by
    rw [← hxs, show s.covNext X = (1 - s.gainAt X * s.H) * priorCov s.A X s.Q from rfl, transpose_mul, IsHermitian.symm' hx.1]
  have kx' : s.R * (s.gainAt X)ᵀ = s.H * s.covNext X := by
    have := congrArg transpose kx
    rwa [transpose_mul, transpose_mul, transpose_transpose, hxs, hR] at this
  have e1 : s.closed P * (P - X) * (s.closed X)ᵀ =
      (1 - s.gainAt P * s.H) * (priorCov s.A P s.Q - priorCov s.A X s.Q) * (1 - s.gainAt X * s.H)ᵀ := by
    have : priorCov s.A P s.Q - priorCov s.A X s.Q = s.A * (P - X) * s.Aᵀ := by
      rw [priorCov, priorCov, Matrix.mul_sub, Matrix.sub_mul]; abel
    rw [this, LinStep.closed, LinStep.closed, transpose_mul]
    simp only [Matrix.mul_assoc]
  rw [e1, Matrix.mul_sub, Matrix.sub_mul, ep, Matrix.mul_assoc _ (priorCov s.A X s.Q), ex, transpose_sub, transpose_one, transpose_mul,
    Matrix.mul_sub, Matrix.mul_one, Matrix.sub_mul, Matrix.one_mul, ← Matrix.mul_assoc, ← kp, Matrix.mul_assoc, kx', ← Matrix.mul_assoc]
  abel

theorem covRun_sub {l : List (LinStep n m)} (hs : ∀ s ∈ l, Noisy s) {P X : Matrix (Fin n) (Fin n) ℝ} (hP : P.PosSemidef)
    (hX : X.PosSemidef) : covRun P l - covRun X l = clo P l * (P - X) * (clo X l)ᵀ := by
  induction l generalizing P X with
  | nil => simp [covRun, clo]
  | cons s l ih =>
    have hn := hs s (by simp)
    rw [covRun, covRun, ih (fun t ht => hs t (by simp [ht])) (covNext_psd hn hP) (covNext_psd hn hX), covNext_sub hn hP hX, clo, clo,
      transpose_mul]
    simp only [Matrix.mul_assoc]

theorem entry_of_mulVec {k l : ℕ} {M : Matrix (Fin k) (Fin l) ℝ} {c : ℝ} (h : ∀ d, ‖M *ᵥ d‖ ≤ c * ‖d‖) (i : Fin k) (j : Fin l) :
    |M i j| ≤ c := by
  have h1 := h (Pi.single j 1)
  rw [Pi.norm_single, norm_one, mul_one] at h1
  have h2 := (norm_le_pi_norm (M *ᵥ Pi.single j 1) i).trans h1
  rwa [Real.norm_eq_abs, mulVec_single_one] at h2

theorem mul_entry_abs {k l q : ℕ} {M : Matrix (Fin k) (Fin l) ℝ} {W : Matrix (Fin l) (Fin q) ℝ} {α β : ℝ} (hα : 0 ≤ α)
    (h1 : ∀ i j, |M i j| ≤ α) (h2 : ∀ i j, |W i j| ≤ β) (i : Fin k) (j : Fin q) : |(M * W) i j| ≤ l * (α * β) := by
  rw [Matrix.mul_apply]
  refine (Finset.abs_sum_le_sum_abs _ _).trans ((Finset.sum_le_sum (g := fun _ => α * β) fun x _ => ?_).trans (by simp))
  rw [abs_mul]
  exact mul_le_mul (h1 i x) (h2 x j) (abs_nonneg _) hα

theorem conj_entry {C D e : ℝ} (hC : 0 ≤ C) (he : 0 ≤ e) {M X W : Matrix (Fin n) (Fin n) ℝ}
    (h1 : ∀ i j, |M i j| ≤ C) (h2 : ∀ i j, |X i j| ≤ e) (h3 : ∀ i j, |W i j| ≤ D) (i j : Fin n) :
    |(M * X * Wᵀ) i j| ≤ n * (n * (C * e) * D) :=
  mul_entry_abs (by positivity) (mul_entry_abs hC h1 h2) (fun i j => h3 j i) i j

section

variable {a r : ℝ}

theorem inv_entry_le (hr : 0 < r) {R : Matrix (Fin m) (Fin m) ℝ} (h : (R - r • (1 : Matrix (Fin m) (Fin m) ℝ)).PosSemidef) (i j : Fin m) :
    |R⁻¹ i j| ≤ r⁻¹ := by
  have hd := posDef_of_lower hr h
  have hs := IsHermitian.symm' hd.inv.1
  have hu : (r⁻¹ • (1 : Matrix (Fin m) (Fin m) ℝ) - R⁻¹).PosSemidef := by
    refine upper_of_quad hs fun y => ?_
    exact mahal_le_of_lower hd (inv_pos.2 hr) (by rwa [inv_inv]) y
  refine entry_le hs hu ?_ i j
  exact (psd_smul Matrix.PosSemidef.one (inv_pos.2 hr).le).add hd.inv.posSemidef

theorem gainAt_sub (ha : 0 ≤ a) (hr : 0 < r) {s : LinStep n m} (hs : TameStep a r s) {P X : Matrix (Fin n) (Fin n) ℝ} (hP : P.PosSemidef)
    (hX : X.PosSemidef) {e : ℝ} (he : 0 ≤ e) (h : ∀ i j, |(s.covNext P - s.covNext X) i j| ≤ e) (i : Fin n) (j : Fin m) :
    |(s.gainAt P - s.gainAt X) i j| ≤ n * (e * (m * (a * r⁻¹))) := by
  have hn := hs.noisy hr
  have e1 : s.gainAt P - s.gainAt X = (s.covNext P - s.covNext X) * (s.Hᵀ * s.R⁻¹) := by
    rw [Matrix.sub_mul, LinStep.gainAt, LinStep.gainAt, kGain_post hn.2 (priorCov_posSemidef hP hn.1),
      kGain_post hn.2 (priorCov_posSemidef hX hn.1)]
    rfl
  rw [e1]
  exact mul_entry_abs he h (mul_entry_abs ha (fun i j => hs.H j i) (inv_entry_le hr hs.R0)) i j

end

/-- The estimates of two runs that differ in the covariance only. -/
theorem cross_list {C ρ : ℝ} (hC : 0 ≤ C) (hρ : 0 ≤ ρ) (l : List (LinStep n m)) (b : Belief n) (P : Matrix (Fin n) (Fin n) ℝ) (e : ℕ → ℝ)
    (hd : ∀ u v, l = u ++ v → ∀ d, ‖clo (covRun P u) v *ᵥ d‖ ≤ C * ρ ^ v.length * ‖d‖)
    (hf : ∀ u s v, l = u ++ s :: v →
      ‖(s.gainAt (covRun P u) - s.gainAt (lastOf b u).P) *ᵥ (s.z - s.H *ᵥ (s.A *ᵥ (lastOf b u).x + s.c))‖ ≤ e u.length) :
    ‖(lastOf ⟨b.x, P⟩ l).x - (lastOf b l).x‖ ≤ ∑ j ∈ Finset.range l.length, C * ρ ^ (l.length - 1 - j) * e j := by
  induction l generalizing P b e with
  | nil => simp [lastOf]
  | cons s l ih =>
    have h1 := ih (s.next b) (s.covNext P) (fun j => e (j + 1)) (fun u v h d => hd (s :: u) v (by rw [h]; rfl) d)
      (fun u t v h => hf (s :: u) t v (by rw [h]; rfl))
    obtain ⟨f, hfe⟩ : ∃ f, f = (s.gainAt P - s.gainAt b.P) *ᵥ (s.z - s.H *ᵥ (s.A *ᵥ b.x + s.c)) := ⟨_, rfl⟩
    have h2 := hd [s] l rfl f
    have h3 := hf [] s l rfl
    rw [show covRun P [] = P from rfl, show lastOf b ([] : List (LinStep n m)) = b from rfl, ← hfe, List.length_nil] at h3
    have e1 : s.next ⟨b.x, P⟩ = ⟨(s.next b).x + f, s.covNext P⟩ := by
      ext1
      · rw [hfe, sub_mulVec]
        show s.A *ᵥ b.x + s.c + s.gainAt P *ᵥ (s.z - s.H *ᵥ (s.A *ᵥ b.x + s.c)) =
          s.A *ᵥ b.x + s.c + s.gainAt b.P *ᵥ (s.z - s.H *ᵥ (s.A *ᵥ b.x + s.c)) + _
        abel
      · rfl
    rw [lastOf, lastOf, e1, lastOf_shift, List.length_cons, Finset.sum_range_succ']
    have e2 : (lastOf ⟨(s.next b).x, s.covNext P⟩ l).x + clo (s.covNext P) l *ᵥ f - (lastOf (s.next b) l).x =
        ((lastOf ⟨(s.next b).x, s.covNext P⟩ l).x - (lastOf (s.next b) l).x) + clo (s.covNext P) l *ᵥ f := by abel
    rw [e2]
    have e3 : ∀ j ∈ Finset.range l.length, C * ρ ^ (l.length + 1 - 1 - (j + 1)) * e (j + 1) = C * ρ ^ (l.length - 1 - j) * e (j + 1) := by
      intro j _
      rw [show l.length + 1 - 1 - (j + 1) = l.length - 1 - j by omega]
    rw [Finset.sum_congr rfl e3, show l.length + 1 - 1 - 0 = l.length by omega]
    refine (norm_add_le _ _).trans (add_le_add h1 (h2.trans ?_))
    exact mul_le_mul_of_nonneg_left h3 (by positivity)

theorem range_geom_le {ρ : ℝ} (h0 : 0 < ρ) (h1 : ρ < 1) (L : ℕ) : ∑ i ∈ Finset.range L, ρ ^ i ≤ (1 - ρ)⁻¹ := by
  have h := geom_sum_eq h1.ne L
  have h2 : (1 - ρ)⁻¹ = (1 - ρ ^ L) / (1 - ρ) + ρ ^ L / (1 - ρ) := by
    rw [← add_div, sub_add_cancel, one_div]
  have h3 : (ρ ^ L - 1) / (ρ - 1) = (1 - ρ ^ L) / (1 - ρ) := by rw [← neg_sub, ← neg_sub 1 ρ, neg_div_neg_eq]
  have h4 : 0 ≤ ρ ^ L / (1 - ρ) := div_nonneg (by positivity) (by linarith)
  rw [h, h3, h2]
  linarith

section

variable {N : ℕ} {a r γ lo hi : ℝ}

theorem append_infix_left {x l u v : List (LinStep n m)} (h : l = u ++ v) : x ++ u <:+: x ++ l :=
  ⟨[], v, by rw [h]; simp⟩

/-- A bound on the estimates, valid wherever the error decays and the gains are bounded. -/
theorem run_bound_of (ha : 0 ≤ a) {C ρ g : ℝ} (hC : 1 ≤ C) (h0 : 0 < ρ) (h1 : ρ < 1) (hg : 0 ≤ g) (l : List (LinStep n m))
    (P : Matrix (Fin n) (Fin n) ℝ) (hs : ∀ s ∈ l, TameStep a r s)
    (hd : ∀ u v, l = u ++ v → ∀ d, ‖clo (covRun P u) v *ᵥ d‖ ≤ C * ρ ^ v.length * ‖d‖)
    (hK : ∀ u s v, l = u ++ s :: v → ∀ i j, |s.gainAt (covRun P u) i j| ≤ g) (D : ℝ) (hD : 0 ≤ D)
    (hz : ∀ s ∈ l, ‖s.z‖ ≤ D ∧ ‖s.c‖ ≤ D) (y : Fin n → ℝ) :
    ‖(lastOf ⟨y, P⟩ l).x‖ ≤ C * ρ ^ l.length * ‖y‖ + C * (1 + g * m * (a * n) + g * m) * (1 - ρ)⁻¹ * D := by
  have h2 := iss_list (B := (1 + g * m * (a * n) + g * m) * D) (by linarith) h0.le l P hd (fun u s v e => by
    have hm : s ∈ l := by rw [e]; simp
    exact force_bound ha (hs s hm) hg (hK u s v e) (hz s hm).1 (hz s hm).2)
  have h3 := hd [] l rfl y
  have e := lastOf_shift l P 0 y
  rw [zero_add] at e
  rw [e]
  refine (norm_add_le _ _).trans ?_
  have h4 := mul_le_mul_of_nonneg_left (range_geom_le h0 h1 l.length)
    (by positivity : 0 ≤ C * ((1 + g * m * (a * n) + g * m) * D))
  have h5 : ‖clo P l *ᵥ y‖ ≤ C * ρ ^ l.length * ‖y‖ := h3
  linarith

theorem Margins.gain (M : Margins n m N a r γ lo hi) {x u v : List (LinStep n m)} {s : LinStep n m}
    (h : UniformModel N a r γ (x ++ (u ++ s :: v))) (hx : N ≤ x.length) {P : Matrix (Fin n) (Fin n) ℝ} (hP : P.PosSemidef) (i : Fin n)
    (j : Fin m) : |s.gainAt (covRun P (x ++ u)) i j| ≤ Real.sqrt (hi / r) := by
  have h1 : UniformModel N a r γ ((x ++ u) ++ [s]) := h.mono ⟨[], v, by simp⟩
  have h2 := (M.between h1 (by simp; omega) hP).2
  rw [covRun_append] at h2
  exact gainAt_le M.pr (h.tame s (by simp)) (covRun_psd (fun t ht => h.noisy M t (by simp at ht ⊢; tauto)) hP) h2 i j

/-- From the `N`-th step on bounded data give bounded estimates. -/
theorem Margins.run_bound (M : Margins n m N a r γ lo hi) : ∃ C ρ : ℝ, 1 ≤ C ∧ 0 < ρ ∧ ρ < 1 ∧
    ∀ (x l : List (LinStep n m)), UniformModel N a r γ (x ++ l) → N ≤ x.length → ∀ P : Matrix (Fin n) (Fin n) ℝ, P.PosSemidef →
      ∀ D, 0 ≤ D → (∀ s ∈ l, ‖s.z‖ ≤ D ∧ ‖s.c‖ ≤ D) → ∀ y : Fin n → ℝ,
        ‖(lastOf ⟨y, covRun P x⟩ l).x‖ ≤ C * ρ ^ l.length * ‖y‖ + C * D := by
  obtain ⟨C, ρ, hC, h0, h1, hd⟩ := M.decay
  have hg := Real.sqrt_nonneg (hi / r)
  obtain ⟨g, hge⟩ : ∃ g, g = Real.sqrt (hi / r) := ⟨_, rfl⟩
  rw [← hge] at hg
  have ha := M.pa
  have h1' : 0 < (1 - ρ)⁻¹ := inv_pos.2 (by linarith)
  have hk : 1 ≤ 1 + (1 + g * m * (a * n) + g * m) * (1 - ρ)⁻¹ := by
    have : 0 ≤ (1 + g * m * (a * n) + g * m) * (1 - ρ)⁻¹ := by positivity
    linarith
  refine ⟨C * (1 + (1 + g * m * (a * n) + g * m) * (1 - ρ)⁻¹), ρ, one_le_mul_of_one_le_of_one_le hC hk, h0, h1,
    fun x l h hx P hP D hD hz y => ?_⟩
  have key := run_bound_of ha hC h0 h1 hg l (covRun P x) (fun s hs => h.tame s (by simp [hs]))
    (fun u v e d => by
      rw [← covRun_append]
      exact hd (x ++ u) v (by rw [List.append_assoc, ← e]; exact h) (by simp; omega) P hP d)
    (fun u s v e i j => by
      rw [← covRun_append, hge]
      exact M.gain (by rw [← e]; exact h) hx hP i j) D hD hz y
  have h3 : C * ρ ^ l.length * ‖y‖ ≤ C * (1 + (1 + g * m * (a * n) + g * m) * (1 - ρ)⁻¹) * ρ ^ l.length * ‖y‖ := by
    refine mul_le_mul_of_nonneg_right (mul_le_mul_of_nonneg_right ?_ (by positivity)) (norm_nonneg _)
    exact le_mul_of_one_le_right (by linarith) hk
  have h4 : 0 ≤ C * D := by positivity
  linarith

/-- From the very beginning, with an initial covariance at most `p`: bounds on gains and covariances, and the decay of errors. -/
theorem Margins.decay_start (M : Margins n m N a r γ lo hi) {p : ℝ} (hp : 0 ≤ p) : ∃ C ρ g c : ℝ, 1 ≤ C ∧ 0 < ρ ∧ ρ < 1 ∧ 0 ≤ g ∧ 0 < c ∧
    ∀ (l : List (LinStep n m)), UniformModel N a r γ l → ∀ P : Matrix (Fin n) (Fin n) ℝ, P.PosSemidef →
      (p • (1 : Matrix (Fin n) (Fin n) ℝ) - P).PosSemidef →
      (∀ u v, l = u ++ v → ∀ d, ‖clo (covRun P u) v *ᵥ d‖ ≤ C * ρ ^ v.length * ‖d‖) ∧
      (∀ u s v, l = u ++ s :: v → ∀ i j, |s.gainAt (covRun P u) i j| ≤ g) ∧
      ∀ u v, l = u ++ v → (covRun P u).PosSemidef ∧ (c • (1 : Matrix (Fin n) (Fin n) ℝ) - covRun P u).PosSemidef := by
  obtain ⟨C, ρ, hC, h0, h1, hd⟩ := M.decay
  obtain ⟨p', hpp, hgrow⟩ := cov_growth (n := n) (m := m) M.pa M.pr N p hp
  obtain ⟨g, hge⟩ : ∃ g, g = Real.sqrt (max hi p' / r) := ⟨_, rfl⟩
  have hg : 0 ≤ g := by rw [hge]; exact Real.sqrt_nonneg _
  have ha := M.pa
  obtain ⟨G, hG⟩ : ∃ G : ℝ, G = 1 + (1 + g * m * (a * n)) * (a * n) := ⟨_, rfl⟩
  have hG1 : 1 ≤ G := by
    have : 0 ≤ (1 + g * m * (a * n)) * (a * n) := by positivity
    linarith
  have hρN : 1 ≤ (ρ ^ N)⁻¹ := (one_le_inv₀ (by positivity)).2 (pow_le_one₀ h0.le h1.le)
  have hGN : 1 ≤ G ^ N := one_le_pow₀ hG1
  obtain ⟨C', hC'⟩ : ∃ C' : ℝ, C' = C * (G ^ N * (ρ ^ N)⁻¹) := ⟨_, rfl⟩
  have hC'1 : 1 ≤ C' := by
    rw [hC']; exact one_le_mul_of_one_le_of_one_le hC (one_le_mul_of_one_le_of_one_le hGN hρN)
  refine ⟨C', ρ, g, max hi p', hC'1, h0, h1, hg, lt_max_of_lt_left M.hi_pos, fun l h P hP hPp => ?_⟩
  have hup : ∀ u v, l = u ++ v → (max hi p' • (1 : Matrix (Fin n) (Fin n) ℝ) - covRun P u).PosSemidef := fun u v e => by
    have hu : UniformModel N a r γ u := h.mono ⟨[], v, by rw [e]; simp⟩
    rcases Nat.lt_or_ge u.length N with hl | hl
    · exact upper_mono (le_max_right _ _) (hgrow u hl.le hu.tame P hP hPp)
    · exact upper_mono (le_max_left _ _) (M.between hu hl hP).2
  have hpsd : ∀ u v, l = u ++ v → (covRun P u).PosSemidef := fun u v e =>
    covRun_psd (fun t ht => h.noisy M t (by rw [e]; simp [ht])) hP
  have hK : ∀ u s v, l = u ++ s :: v → ∀ i j, |s.gainAt (covRun P u) i j| ≤ g := fun u s v e i j => by
    have h2 := hup (u ++ [s]) v (by rw [e]; simp)
    rw [covRun_append] at h2
    rw [hge]
    exact gainAt_le M.pr (h.tame s (by rw [e]; simp)) (hpsd u _ e) h2 i j
  have hdall : ∀ u v, l = u ++ v → ∀ d, ‖clo (covRun P u) v *ᵥ d‖ ≤ C' * ρ ^ v.length * ‖d‖ := fun u v e d => by
    obtain ⟨w, t, hv, hw, ht⟩ : ∃ w t, v = w ++ t ∧ w.length ≤ N ∧ (t = [] ∨ N ≤ u.length + w.length) := by
      rcases Nat.lt_or_ge N v.length with hl | hl
      · exact ⟨v.take N, v.drop N, (List.take_append_drop _ _).symm, by simp, Or.inr (by simp; omega)⟩
      · exact ⟨v, [], by simp, hl, Or.inl rfl⟩
    have hw1 : ‖clo (covRun P u) w *ᵥ d‖ ≤ G ^ N * ‖d‖ := by
      have := clo_bound (G := G) (by linarith) w (covRun P u) (fun u' s v' e' d' => by
        rw [← covRun_append]
        have h5 := closed_bound ha (h.tame s (by rw [e, hv, e']; simp)) hg (hK (u ++ u') s (v' ++ t) (by rw [e, hv, e']; simp)) d'
        have h6 : 0 ≤ ‖d'‖ := norm_nonneg _
        rw [hG]; linarith) d
      refine this.trans (mul_le_mul_of_nonneg_right ?_ (norm_nonneg _))
      exact pow_le_pow_right₀ hG1 hw
    have hlen : v.length = w.length + t.length := by rw [hv, List.length_append]
    have hρw : ρ ^ t.length ≤ (ρ ^ N)⁻¹ * ρ ^ v.length := by
      rw [hlen, pow_add, ← mul_assoc]
      refine le_mul_of_one_le_left (by positivity) ?_
      rw [inv_mul_eq_div, one_le_div (by positivity)]
      exact pow_le_pow_of_le_one h0.le h1.le hw
    have ht1 : ∀ d', ‖clo (covRun P (u ++ w)) t *ᵥ d'‖ ≤ C * ρ ^ t.length * ‖d'‖ := fun d' => by
      rcases ht with rfl | ht
      · simp only [clo, one_mulVec, List.length_nil, pow_zero, mul_one]
        exact le_mul_of_one_le_left (norm_nonneg _) hC
      · exact hd (u ++ w) t (by rw [List.append_assoc, ← hv, ← e]; exact h) (by simpa using ht) P hP d'
    rw [hv, clo_append, ← covRun_append, ← mulVec_mulVec, ← hv]
    calc _ ≤ C * ρ ^ t.length * ‖clo (covRun P u) w *ᵥ d‖ := ht1 _
      _ ≤ C * ((ρ ^ N)⁻¹ * ρ ^ v.length) * (G ^ N * ‖d‖) := by
          refine mul_le_mul (mul_le_mul_of_nonneg_left hρw (by linarith)) hw1 (norm_nonneg _) (by positivity)
      _ = _ := by rw [hC']; ring
  exact ⟨hdall, hK, fun u v e => ⟨hpsd u v e, hup u v e⟩⟩

/-- From the very beginning, with an initial covariance at most `p`. -/
theorem Margins.run_bound_start (M : Margins n m N a r γ lo hi) {p : ℝ} (hp : 0 ≤ p) : ∃ C ρ : ℝ, 1 ≤ C ∧ 0 < ρ ∧ ρ < 1 ∧
    ∀ (l : List (LinStep n m)), UniformModel N a r γ l → ∀ P : Matrix (Fin n) (Fin n) ℝ, P.PosSemidef →
      (p • (1 : Matrix (Fin n) (Fin n) ℝ) - P).PosSemidef → ∀ D, 0 ≤ D → (∀ s ∈ l, ‖s.z‖ ≤ D ∧ ‖s.c‖ ≤ D) → ∀ y : Fin n → ℝ,
        ‖(lastOf ⟨y, P⟩ l).x‖ ≤ C * ρ ^ l.length * ‖y‖ + C * D := by
  obtain ⟨C', ρ, g, c, hC'1, h0, h1, hg, -, hall⟩ := M.decay_start hp
  have ha := M.pa
  have h1' : 0 < (1 - ρ)⁻¹ := inv_pos.2 (by linarith)
  have hk : 1 ≤ 1 + (1 + g * m * (a * n) + g * m) * (1 - ρ)⁻¹ := by
    have : 0 ≤ (1 + g * m * (a * n) + g * m) * (1 - ρ)⁻¹ := by positivity
    linarith
  refine ⟨C' * (1 + (1 + g * m * (a * n) + g * m) * (1 - ρ)⁻¹), ρ, one_le_mul_of_one_le_of_one_le hC'1 hk, h0, h1,
    fun l h P hP hPp D hD hz y => ?_⟩
  obtain ⟨hdall, hK, -⟩ := hall l h P hP hPp
  have key := run_bound_of ha hC'1 h0 h1 hg l P h.tame hdall hK D hD hz y
  have h3 : C' * ρ ^ l.length * ‖y‖ ≤ C' * (1 + (1 + g * m * (a * n) + g * m) * (1 - ρ)⁻¹) * ρ ^ l.length * ‖y‖ := by
    refine mul_le_mul_of_nonneg_right (mul_le_mul_of_nonneg_right ?_ (by positivity)) (norm_nonneg _)
    exact le_mul_of_one_le_right (by linarith) hk
  have h4 : 0 ≤ C' * D := by positivity
  linarith

/-- From the `N`-th step on, the covariances of two runs approach each other. -/
theorem Margins.cov_close (M : Margins n m N a r γ lo hi) : ∃ C ρ : ℝ, 1 ≤ C ∧ 0 < ρ ∧ ρ < 1 ∧
    ∀ (x l : List (LinStep n m)), UniformModel N a r γ (x ++ l) → N ≤ x.length → ∀ P X : Matrix (Fin n) (Fin n) ℝ, P.PosSemidef →
      X.PosSemidef → ∀ i j, |(covRun P (x ++ l) - covRun X (x ++ l)) i j| ≤ C * ρ ^ (2 * l.length) := by
  obtain ⟨C, ρ, hC, h0, h1, hd⟩ := M.decay
  have hhi := M.hi_pos
  refine ⟨1 + n * (n * (C * (hi + hi)) * C), ρ, ?_, h0, h1, fun x l h hx P X hP hX i j => ?_⟩
  · have : 0 ≤ n * (n * (C * (hi + hi)) * C) := by positivity
    linarith
  have hxu : UniformModel N a r γ x := h.mono ⟨[], l, by simp⟩
  have hent : ∀ Y : Matrix (Fin n) (Fin n) ℝ, Y.PosSemidef → ∀ i j, |covRun Y x i j| ≤ hi := fun Y hY => by
    have hp := covRun_psd (hxu.noisy M) hY
    exact entry_le (IsHermitian.symm' hp.1) (M.between hxu hx hY).2 ((psd_smul Matrix.PosSemidef.one hhi.le).add hp)
  have hdiff : ∀ i j, |(covRun P x - covRun X x) i j| ≤ hi + hi := fun i j => by
    rw [Matrix.sub_apply]
    exact (abs_sub _ _).trans (add_le_add (hent P hP i j) (hent X hX i j))
  have hl : ∀ s ∈ l, Noisy s := fun s hs => h.noisy M s (by simp [hs])
  rw [covRun_append, covRun_append, covRun_sub hl (covRun_psd (hxu.noisy M) hP) (covRun_psd (hxu.noisy M) hX)]
  refine (conj_entry (by positivity) (by linarith) (entry_of_mulVec (hd x l h hx P hP)) hdiff (entry_of_mulVec (hd x l h hx X hX)) i j).trans ?_
  have e : (n : ℝ) * (n * (C * ρ ^ l.length * (hi + hi)) * (C * ρ ^ l.length)) = n * (n * (C * (hi + hi)) * C) * ρ ^ (2 * l.length) := by
    rw [two_mul, pow_add]; ring
  rw [e]
  have : 0 ≤ ρ ^ (2 * l.length) := by positivity
  linarith

/-- From the `N`-th step on, the whole belief reached is forgotten. -/
theorem Margins.belief_close (M : Margins n m N a r γ lo hi) : ∃ C ρ : ℝ, 1 ≤ C ∧ 0 < ρ ∧ ρ < 1 ∧
    ∀ (x l : List (LinStep n m)), UniformModel N a r γ (x ++ l) → N ≤ x.length → ∀ b b' : Belief n, b.P.PosSemidef →
      b'.P.PosSemidef → ∀ t D, 0 ≤ D → (∀ s ∈ l, ‖s.z‖ ≤ D ∧ ‖s.c‖ ≤ D) → ‖(lastOf b x).x‖ ≤ t → ‖(lastOf b' x).x‖ ≤ t →
        ‖(lastOf b (x ++ l)).x - (lastOf b' (x ++ l)).x‖ ≤ C * ρ ^ l.length * (t + D) := by
  obtain ⟨C₀, ρ₀, hC₀, h00, h01, hd₀⟩ := M.decay
  obtain ⟨C₁, ρ₁, hC₁, h10, h11, hc₁⟩ := M.cov_close
  obtain ⟨C₂, ρ₂, hC₂, h20, h21, hb₂⟩ := M.run_bound
  obtain ⟨ρ, hρ⟩ : ∃ ρ, ρ = max ρ₀ ρ₁ := ⟨_, rfl⟩
  have h0 : 0 < ρ := hρ ▸ lt_max_of_lt_left h00
  have h1 : ρ < 1 := hρ ▸ max_lt h01 h11
  have hle0 : ρ₀ ≤ ρ := hρ ▸ le_max_left _ _
  have hle1 : ρ₁ ≤ ρ := hρ ▸ le_max_right _ _
  have ha := M.pa
  have hr := M.pr
  have h1' : 0 < (1 - ρ)⁻¹ := inv_pos.2 (by linarith)
  -- bound on the innovations, in terms of `t + D`
  obtain ⟨K, hK⟩ : ∃ K : ℝ, K = 1 + a * n * (a * n * C₂ + 1) := ⟨_, rfl⟩
  have hK0 : 0 ≤ K := by rw [hK]; positivity
  obtain ⟨E, hE⟩ : ∃ E : ℝ, E = n * (C₁ * (m * (a * r⁻¹))) * m * K := ⟨_, rfl⟩
  have hE0 : 0 ≤ E := by rw [hE]; positivity
  refine ⟨2 * C₀ + C₀ * E * (1 - ρ)⁻¹ * ρ⁻¹, ρ, ?_, h0, h1, fun x l h hx b b' hP hP' t D hD hz ht ht' => ?_⟩
  · have : 0 ≤ C₀ * E * (1 - ρ)⁻¹ * ρ⁻¹ := by positivity
    linarith
  have ht0 : 0 ≤ t := (norm_nonneg _).trans ht
  have hdec : ∀ u v, l = u ++ v → ∀ d, ‖clo (covRun b.P (x ++ u)) v *ᵥ d‖ ≤ C₀ * ρ ^ v.length * ‖d‖ := fun u v e d => by
    refine (hd₀ (x ++ u) v (by rw [List.append_assoc, ← e]; exact h) (by simp; omega) b.P hP d).trans ?_
    exact mul_le_mul_of_nonneg_right (mul_le_mul_of_nonneg_left (pow_le_pow_left₀ h00.le hle0 _) (by linarith)) (norm_nonneg _)
  rw [lastOf_append, lastOf_append]
  obtain ⟨c, hc⟩ : ∃ c, c = lastOf b x := ⟨_, rfl⟩
  obtain ⟨c', hc'⟩ : ∃ c', c' = lastOf b' x := ⟨_, rfl⟩
  have hcP : c.P = covRun b.P x := by rw [hc, lastOf_covRun]
  have hcP' : c'.P = covRun b'.P x := by rw [hc', lastOf_covRun]
  rw [← hc, ← hc']
  rw [← hc] at ht
  rw [← hc'] at ht'
  have hshift : (lastOf c l).x = (lastOf ⟨c'.x, c.P⟩ l).x + clo c.P l *ᵥ (c.x - c'.x) := by
    rw [← lastOf_shift, add_sub_cancel]
  have hA : ‖clo c.P l *ᵥ (c.x - c'.x)‖ ≤ C₀ * ρ ^ l.length * (2 * (t + D)) := by
    have := hdec [] l rfl (c.x - c'.x)
    rw [List.append_nil, ← hcP] at this
    refine this.trans (mul_le_mul_of_nonneg_left ?_ (by positivity))
    have := norm_sub_le c.x c'.x
    linarith
  have hB := cross_list (C := C₀) (ρ := ρ) (by linarith) h0.le l c' c.P (fun j => E * (t + D) * ρ ^ (2 * j))
    (fun u v e d => by rw [hcP, ← covRun_append]; exact hdec u v e d) (fun u s v e => by
      have hsm : s ∈ l := by rw [e]; simp
      have hst := h.tame s (by simp [hsm])
      have hxu : UniformModel N a r γ (x ++ u) := h.mono (append_infix_left e)
      have hxus : UniformModel N a r γ (x ++ (u ++ [s])) := h.mono (append_infix_left (v := v) (by rw [e]; simp))
      have hpsd : ∀ Y : Matrix (Fin n) (Fin n) ℝ, Y.PosSemidef → (covRun Y (x ++ u)).PosSemidef := fun Y hY => covRun_psd (hxu.noisy M) hY
      have hcov := hc₁ x (u ++ [s]) hxus hx b.P b'.P hP hP'
      rw [← List.append_assoc, covRun_append b.P, covRun_append b'.P] at hcov
      have hcov' : ∀ i j, |(s.covNext (covRun b.P (x ++ u)) - s.covNext (covRun b'.P (x ++ u))) i j| ≤ C₁ * ρ ^ (2 * u.length) :=
        fun i j => by
          refine (hcov i j).trans (mul_le_mul_of_nonneg_left ?_ (by linarith))
          refine (pow_le_pow_left₀ h10.le hle1 _).trans (pow_le_pow_of_le_one h0.le h1.le ?_)
          simp
      have hgain := gainAt_sub ha hr hst (hpsd _ hP) (hpsd _ hP') (by positivity) hcov'
      have eP : (lastOf c' u).P = covRun b'.P (x ++ u) := by rw [lastOf_covRun, hcP', covRun_append]
      rw [hcP, ← covRun_append, eP]
      have hmean : ‖(lastOf c' u).x‖ ≤ C₂ * (t + D) := by
        have h5 := hb₂ x u hxu hx b'.P hP' D hD (fun s' hs' => hz s' (by rw [e]; simp [hs'])) c'.x
        have e5 : (⟨c'.x, covRun b'.P x⟩ : Belief n) = c' := by ext1 <;> simp [hcP']
        rw [e5] at h5
        have h6 : C₂ * ρ₂ ^ u.length * ‖c'.x‖ ≤ C₂ * t := by
          rw [mul_assoc]
          refine mul_le_mul_of_nonneg_left ?_ (by linarith)
          calc _ ≤ 1 * t := mul_le_mul (pow_le_one₀ h20.le h21.le) ht' (norm_nonneg _) zero_le_one
            _ = t := one_mul t
        linarith
      have hinn : ‖s.z - s.H *ᵥ (s.A *ᵥ (lastOf c' u).x + s.c)‖ ≤ K * (t + D) := by
        obtain ⟨z1, z2⟩ := hz s hsm
        have g1 := mulVec_norm_le ha hst.A (lastOf c' u).x
        have g2 := mulVec_norm_le ha hst.H (s.A *ᵥ (lastOf c' u).x + s.c)
        have g3 := norm_add_le (s.A *ᵥ (lastOf c' u).x) s.c
        have g4 := norm_sub_le s.z (s.H *ᵥ (s.A *ᵥ (lastOf c' u).x + s.c))
        have g5 := mul_le_mul_of_nonneg_left hmean (by positivity : 0 ≤ a * n)
        have g6 : ‖s.A *ᵥ (lastOf c' u).x + s.c‖ ≤ (a * n * C₂ + 1) * (t + D) := by linarith
        have g7 := mul_le_mul_of_nonneg_left g6 (by positivity : 0 ≤ a * n)
        rw [hK]
        linarith
      refine (mulVec_norm_le (by positivity) hgain _).trans ?_
      have h7 := mul_le_mul_of_nonneg_left hinn
        (by positivity : 0 ≤ (n : ℝ) * (C₁ * ρ ^ (2 * u.length) * (m * (a * r⁻¹))) * m)
      refine h7.trans (le_of_eq ?_)
      rw [hE]; ring)
  have hsum : ∑ j ∈ Finset.range l.length, C₀ * ρ ^ (l.length - 1 - j) * (E * (t + D) * ρ ^ (2 * j)) ≤
      C₀ * E * (1 - ρ)⁻¹ * ρ⁻¹ * ρ ^ l.length * (t + D) := by
    have hterm : ∀ j ∈ Finset.range l.length, C₀ * ρ ^ (l.length - 1 - j) * (E * (t + D) * ρ ^ (2 * j)) =
        C₀ * E * (t + D) * (ρ⁻¹ * ρ ^ l.length) * ρ ^ j := fun j hj => by
      have hj := Finset.mem_range.1 hj
      have e1 : ρ ^ l.length = ρ ^ (l.length - 1 - j) * ρ ^ j * ρ := by
        rw [← pow_add, ← pow_succ]; congr 1; omega
      rw [e1, two_mul, pow_add]
      field_simp
    rw [Finset.sum_congr rfl hterm, ← Finset.mul_sum]
    have := mul_le_mul_of_nonneg_left (range_geom_le h0 h1 l.length)
      (by positivity : 0 ≤ C₀ * E * (t + D) * (ρ⁻¹ * ρ ^ l.length))
    linarith
  rw [hshift]
  have e3 : (lastOf ⟨c'.x, c.P⟩ l).x + clo c.P l *ᵥ (c.x - c'.x) - (lastOf c' l).x =
      ((lastOf ⟨c'.x, c.P⟩ l).x - (lastOf c' l).x) + clo c.P l *ᵥ (c.x - c'.x) := by abel
  rw [e3]
  refine (norm_add_le _ _).trans ?_
  have := hB.trans hsum
  linarith

end

end KK
