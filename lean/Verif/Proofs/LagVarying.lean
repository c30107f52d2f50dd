import Verif.Proofs.TimeVaryingRun
import Verif.Proofs.FixedLag

/-! # Smoothing with a time-varying model -/

set_option linter.unusedSectionVars false

namespace KK

open Matrix

variable {n m : ℕ}

theorem LinStep.next_P (s : LinStep n m) (b : Belief n) : (s.next b).P = s.covNext b.P := rfl

/-- The smoother gain in terms of the filter. -/
theorem gain_back {s : LinStep n m} (hs : Noisy s) {P : Matrix (Fin n) (Fin n) ℝ} (hP : P.PosSemidef)
    (hd : (priorCov s.A P s.Q).det ≠ 0) : P * s.Aᵀ * (priorCov s.A P s.Q)⁻¹ * s.covNext P = P * (s.closed P)ᵀ := by
  have hp := priorCov_posSemidef (A := s.A) hP hs.1
  have hq : (s.covNext P)ᵀ = s.covNext P := IsHermitian.symm' (covNext_psd hs hP).1
  have e : s.covNext P = priorCov s.A P s.Q * (1 - kGain s.H (priorCov s.A P s.Q) s.R * s.H)ᵀ := by
    rw [← hq]
    show (postCov _ _ _)ᵀ = _
    rw [postCov, transpose_mul, IsHermitian.symm' hp.1]
  rw [e, Matrix.mul_assoc, ← Matrix.mul_assoc (priorCov s.A P s.Q)⁻¹, nonsing_inv_mul _ (isUnit_iff_ne_zero.2 hd),
    Matrix.one_mul]
  simp only [LinStep.closed, LinStep.gainAt, transpose_mul, Matrix.mul_assoc]

/-- How a change of the smoothed belief after the steps `l` acts on the present one. -/
noncomputable def backV (P : Matrix (Fin n) (Fin n) ℝ) (l : List (LinStep n m)) : Matrix (Fin n) (Fin n) ℝ :=
  P * (clo P l)ᵀ * (covRun P l)⁻¹

theorem backV_cons {s : LinStep n m} (hs : Noisy s) {P : Matrix (Fin n) (Fin n) ℝ} (hP : P.PosSemidef)
    (hd : (priorCov s.A P s.Q).det ≠ 0) (l : List (LinStep n m)) :
    backV P (s :: l) = P * s.Aᵀ * (priorCov s.A P s.Q)⁻¹ * backV (s.covNext P) l := by
  rw [backV, backV, clo, covRun, transpose_mul, ← Matrix.mul_assoc P, ← gain_back hs hP hd]
  simp only [Matrix.mul_assoc]

/-- The smoothed belief with more data and with fewer. -/
theorem frontV_append (b : Belief n) (ss tt : List (LinStep n m)) (hs : ∀ s ∈ ss, Noisy s) (hP : b.P.PosSemidef)
    (hr : RtsSolvable b ss) (hl : (covRun b.P ss).PosDef) :
    (front b (ss ++ tt)).x - (front b ss).x = backV b.P ss *ᵥ ((front (lastOf b ss) tt).x - (lastOf b ss).x) ∧
    (front b (ss ++ tt)).P - (front b ss).P =
      backV b.P ss * ((front (lastOf b ss) tt).P - (lastOf b ss).P) * (backV b.P ss)ᵀ := by
  induction ss generalizing b with
  | nil =>
    have e : backV b.P ([] : List (LinStep n m)) = 1 := by
      have hl' : b.P.PosDef := hl
      simp [backV, clo, covRun, mul_nonsing_inv _ (posDef_isUnit_det hl')]
    simp [front, lastOf, e]
  | cons s ss ih =>
    have hn := hs s (by simp)
    obtain ⟨h1, h2⟩ := ih (s.next b) (fun t ht => hs t (by simp [ht])) (covNext_psd hn hP) hr.2 hl
    have hd : (priorCov s.A b.P s.Q).det ≠ 0 := hr.1
    have hG : b.P * s.Aᵀ * (s.predict b).P⁻¹ = b.P * s.Aᵀ * (priorCov s.A b.P s.Q)⁻¹ := rfl
    rw [backV_cons hn hP hd, lastOf]
    rw [LinStep.next_P] at h1 h2
    constructor
    · simp only [List.cons_append, front, rtsStep, hG]
      rw [add_sub_add_left_eq_sub, ← mulVec_sub, sub_sub_sub_cancel_right, h1, mulVec_mulVec]
    · simp only [List.cons_append, front, rtsStep, hG]
      rw [add_sub_add_left_eq_sub, ← Matrix.sub_mul, ← Matrix.mul_sub, sub_sub_sub_cancel_right, h2]
      simp only [transpose_mul, Matrix.mul_assoc]

/-- The innovation of a step, weighted. -/
noncomputable def LinStep.surprise (s : LinStep n m) (x : Fin n → ℝ) : Fin n → ℝ :=
  (s.Hᵀ * s.R⁻¹) *ᵥ (s.z - s.H *ᵥ (s.A *ᵥ x + s.c))

/-- The weighted innovations of later steps. -/
noncomputable def adjV : Belief n → List (LinStep n m) → Fin n → ℝ
  | _, [] => 0
  | b, s :: ss => (s.closed b.P)ᵀ *ᵥ (adjV (s.next b) ss + s.surprise b.x)

theorem front_adjV (b : Belief n) (ss : List (LinStep n m)) (hs : ∀ s ∈ ss, Noisy s) (hP : b.P.PosSemidef)
    (hr : RtsSolvable b ss) : (front b ss).x - b.x = b.P *ᵥ adjV b ss := by
  induction ss generalizing b with
  | nil => simp [front, adjV]
  | cons s ss ih =>
    have hn := hs s (by simp)
    have h1 := ih (s.next b) (fun t ht => hs t (by simp [ht])) (covNext_psd hn hP) hr.2
    have hd : (priorCov s.A b.P s.Q).det ≠ 0 := hr.1
    have hG : b.P * s.Aᵀ * (s.predict b).P⁻¹ = b.P * s.Aᵀ * (priorCov s.A b.P s.Q)⁻¹ := rfl
    have hk : (s.next b).x = (s.predict b).x + s.covNext b.P *ᵥ s.surprise b.x := by
      show _ + s.gainAt b.P *ᵥ _ = _
      rw [LinStep.gainAt, kGain_post hn.2 (priorCov_posSemidef hP hn.1), LinStep.surprise, mulVec_mulVec]
      rfl
    simp only [front, rtsStep, hG]
    rw [add_sub_cancel_left, adjV, ← sub_add_sub_cancel _ (s.next b).x, h1, hk, add_sub_cancel_left, LinStep.next_P, ← mulVec_add,
      mulVec_mulVec, mulVec_mulVec, gain_back hn hP hd]

/-! ### Bounds -/

/-- A run in which all is bounded and errors decay. -/
structure Settled (a r C ρ g c : ℝ) (P : Matrix (Fin n) (Fin n) ℝ) (l : List (LinStep n m)) : Prop where
  tame : ∀ s ∈ l, TameStep a r s
  decay : ∀ u v w, l = u ++ (v ++ w) → ∀ d, ‖clo (covRun P u) v *ᵥ d‖ ≤ C * ρ ^ v.length * ‖d‖
  gain : ∀ u s v, l = u ++ s :: v → ∀ i j, |s.gainAt (covRun P u) i j| ≤ g
  cov : ∀ u v, l = u ++ v → (covRun P u).PosSemidef ∧ (c • (1 : Matrix (Fin n) (Fin n) ℝ) - covRun P u).PosSemidef

section

variable {a r C ρ g c : ℝ} {P : Matrix (Fin n) (Fin n) ℝ}

theorem Settled.drop {u v : List (LinStep n m)} (h : Settled a r C ρ g c P (u ++ v)) : Settled a r C ρ g c (covRun P u) v where
  tame s hs := h.tame s (by simp [hs])
  decay u' v' w' e d := by
    rw [← covRun_append]; exact h.decay (u ++ u') v' w' (by rw [e, List.append_assoc]) d
  gain u' s v' e i j := by
    rw [← covRun_append]; exact h.gain (u ++ u') s v' (by rw [e, List.append_assoc]) i j
  cov u' v' e := by
    rw [← covRun_append]; exact h.cov (u ++ u') v' (by rw [e, List.append_assoc])

theorem Settled.take {u v : List (LinStep n m)} (h : Settled a r C ρ g c P (u ++ v)) : Settled a r C ρ g c P u where
  tame s hs := h.tame s (by simp [hs])
  decay u' v' w' e := h.decay u' v' (w' ++ v) (by rw [e]; simp)
  gain u' s v' e i j := h.gain u' s (v' ++ v) (by rw [e]; simp) i j
  cov u' v' e := h.cov u' (v' ++ v) (by rw [e]; simp)

theorem Settled.noisy (hr : 0 < r) {l : List (LinStep n m)} (h : Settled a r C ρ g c P l) : ∀ s ∈ l, Noisy s :=
  fun s hs => (h.tame s hs).noisy hr

theorem Settled.psd {l : List (LinStep n m)} (h : Settled a r C ρ g c P l) : P.PosSemidef := (h.cov [] l rfl).1

theorem Settled.entry (hc : 0 ≤ c) {l : List (LinStep n m)} (h : Settled a r C ρ g c P l) (i j : Fin n) : |P i j| ≤ c :=
  psd_entry hc (h.cov [] l rfl).1 (h.cov [] l rfl).2 i j

theorem Settled.transpose {u v : List (LinStep n m)} (h : Settled a r C ρ g c P (u ++ v)) (i j : Fin n) :
    |(clo P u)ᵀ i j| ≤ C * ρ ^ u.length :=
  entry_of_mulVec (h.decay [] u v rfl) j i

/-- Bounded data give bounded estimates. -/
theorem Settled.run (ha : 0 ≤ a) (hC : 1 ≤ C) (h0 : 0 < ρ) (h1 : ρ < 1) (hg : 0 ≤ g) {l : List (LinStep n m)}
    (h : Settled a r C ρ g c P l) {D : ℝ} (hD : 0 ≤ D) (hz : ∀ s ∈ l, ‖s.z‖ ≤ D ∧ ‖s.c‖ ≤ D) (y : Fin n → ℝ) :
    ‖(lastOf ⟨y, P⟩ l).x‖ ≤ C * ρ ^ l.length * ‖y‖ + C * (1 + g * m * (a * n) + g * m) * (1 - ρ)⁻¹ * D :=
  run_bound_of ha hC h0 h1 hg l P h.tame (fun u v e => h.decay u v [] (by simp [e])) h.gain D hD hz y

theorem surprise_bound (ha : 0 ≤ a) (hr : 0 < r) {s : LinStep n m} (hs : TameStep a r s) {D : ℝ} (hz : ‖s.z‖ ≤ D)
    (hc : ‖s.c‖ ≤ D) (x : Fin n → ℝ) :
    ‖s.surprise x‖ ≤ m * a * r⁻¹ * m * (D + a * n * (a * n * ‖x‖ + D)) := by
  have hr' := inv_pos.2 hr
  have h1 := mul_entry_abs (M := s.Hᵀ) (W := s.R⁻¹) ha (fun i j => hs.H j i) (inv_entry_le hr hs.R0)
  have h2 := mulVec_norm_le (by positivity) h1 (s.z - s.H *ᵥ (s.A *ᵥ x + s.c))
  have h3 : ‖s.z - s.H *ᵥ (s.A *ᵥ x + s.c)‖ ≤ D + a * n * (a * n * ‖x‖ + D) := by
    refine (norm_sub_le _ _).trans (add_le_add hz ?_)
    refine (mulVec_norm_le ha hs.H _).trans (mul_le_mul_of_nonneg_left ?_ (by positivity))
    exact (norm_add_le _ _).trans (add_le_add (mulVec_norm_le ha hs.A _) hc)
  refine h2.trans (le_trans (mul_le_mul_of_nonneg_left h3 (by positivity)) (le_of_eq (by ring)))

/-- The later innovations, seen from further back. -/
theorem Settled.adj (hC : 1 ≤ C) (h0 : 0 < ρ) (h1 : ρ < 1) {W : ℝ} (hW : 0 ≤ W) (b : Belief n) (u v : List (LinStep n m))
    (h : Settled a r C ρ g c b.P (u ++ v))
    (hi : ∀ x s y, v = x ++ s :: y → ‖s.surprise (lastOf b (u ++ x)).x‖ ≤ W) :
    ‖(clo b.P u)ᵀ *ᵥ adjV (lastOf b u) v‖ ≤ C * n * W * (1 - ρ)⁻¹ * ρ ^ u.length := by
  have hρ : 0 < (1 - ρ)⁻¹ := inv_pos.2 (by linarith)
  induction v generalizing u with
  | nil => simp only [adjV, mulVec_zero, norm_zero]; positivity
  | cons s v ih =>
    have h2 := ih (u ++ [s]) (by simpa using h) fun x s' y e => by
      have := hi (s :: x) s' y (by rw [e]; rfl)
      simpa using this
    have h3 := hi [] s v rfl
    rw [List.append_nil] at h3
    have hent := Settled.transpose (u := u ++ [s]) (v := v) (by simpa using h)
    have h4 := mulVec_norm_le (by positivity) hent (s.surprise (lastOf b u).x)
    have elen : (u ++ [s]).length = u.length + 1 := by simp
    have ec : (clo b.P u)ᵀ * (s.closed (lastOf b u).P)ᵀ = (clo b.P (u ++ [s]))ᵀ := by
      rw [clo_append, transpose_mul, lastOf_covRun]; simp [clo]
    have el : lastOf b (u ++ [s]) = s.next (lastOf b u) := by rw [lastOf_append]; rfl
    rw [el, elen] at h2
    rw [elen] at h4
    rw [adjV, mulVec_mulVec, ec, mulVec_add]
    refine (norm_add_le _ _).trans ?_
    have e2 : C * n * W * (1 - ρ)⁻¹ * ρ ^ u.length = C * n * W * (1 - ρ)⁻¹ * ρ ^ (u.length + 1) + C * n * W * ρ ^ u.length := by
      have : (1 - ρ)⁻¹ * (1 - ρ) = 1 := inv_mul_cancel₀ (by linarith)
      rw [pow_succ]
      linear_combination (C * n * W * ρ ^ u.length) * this
    have h5 : C * ρ ^ (u.length + 1) * n * ‖s.surprise (lastOf b u).x‖ ≤ C * ρ ^ (u.length + 1) * n * W :=
      mul_le_mul_of_nonneg_left h3 (by positivity)
    have h6 : C * ρ ^ (u.length + 1) * n * W ≤ C * n * W * ρ ^ u.length := by
      have := pow_le_pow_of_le_one h0.le h1.le (Nat.le_succ u.length)
      have h7 : 0 ≤ C * n * W := by positivity
      calc _ = C * n * W * ρ ^ (u.length + 1) := by ring
        _ ≤ _ := mul_le_mul_of_nonneg_left this h7
    linarith

/-- All weighted innovations, with bounded data. -/
theorem exists_surprise (n m : ℕ) (ha : 0 ≤ a) (hr : 0 < r) (hC : 1 ≤ C) (h0 : 0 < ρ) (h1 : ρ < 1) (hg : 0 ≤ g) :
    ∃ W : ℝ, 0 ≤ W ∧ ∀ (b : Belief n) (l : List (LinStep n m)), Settled a r C ρ g c b.P l → ∀ D, 0 ≤ D →
      (∀ s ∈ l, ‖s.z‖ ≤ D ∧ ‖s.c‖ ≤ D) → ∀ x s y, l = x ++ s :: y → ‖s.surprise (lastOf b x).x‖ ≤ W * (‖b.x‖ + D) := by
  have hρ : 0 < (1 - ρ)⁻¹ := inv_pos.2 (by linarith)
  have hr' := inv_pos.2 hr
  obtain ⟨E, hE⟩ : ∃ E : ℝ, E = C + C * (1 + g * m * (a * n) + g * m) * (1 - ρ)⁻¹ := ⟨_, rfl⟩
  have hE0 : 0 ≤ E := by rw [hE]; positivity
  refine ⟨m * a * r⁻¹ * m * (1 + a * n * (a * n * E + 1)), by positivity, fun b l h D hD hz x s y e => ?_⟩
  have hs : s ∈ l := by rw [e]; simp
  have hx := Settled.run ha hC h0 h1 hg (l := x) (Settled.take (v := s :: y) (e ▸ h)) hD (fun t ht => hz t (by rw [e]; simp [ht])) b.x
  have hb := norm_nonneg b.x
  have hx' : ‖(lastOf b x).x‖ ≤ E * (‖b.x‖ + D) := by
    have k1 : ρ ^ x.length ≤ 1 := pow_le_one₀ h0.le h1.le
    have k2 : C * ρ ^ x.length * ‖b.x‖ ≤ C * 1 * ‖b.x‖ := by gcongr
    have k3 : 0 ≤ C * (1 + g * m * (a * n) + g * m) * (1 - ρ)⁻¹ * ‖b.x‖ := by positivity
    have k4 : 0 ≤ C * D := by positivity
    rw [hE, add_mul, mul_add, mul_add]
    have hx2 : ‖(lastOf b x).x‖ ≤ C * ρ ^ x.length * ‖b.x‖ + C * (1 + g * m * (a * n) + g * m) * (1 - ρ)⁻¹ * D := hx
    linarith
  refine (surprise_bound ha hr (h.tame s hs) (hz s hs).1 (hz s hs).2 _).trans ?_
  rw [mul_assoc (m * a * r⁻¹ * m : ℝ)]
  refine mul_le_mul_of_nonneg_left ?_ (by positivity)
  have k1 : a * n * ‖(lastOf b x).x‖ ≤ a * n * (E * (‖b.x‖ + D)) := mul_le_mul_of_nonneg_left hx' (by positivity)
  have k2 : a * n * (a * n * ‖(lastOf b x).x‖ + D) ≤ a * n * (a * n * (E * (‖b.x‖ + D)) + (‖b.x‖ + D)) :=
    mul_le_mul_of_nonneg_left (by linarith) (by positivity)
  have k3 : D + a * n * (a * n * (E * (‖b.x‖ + D)) + (‖b.x‖ + D)) ≤ (‖b.x‖ + D) + a * n * (a * n * (E * (‖b.x‖ + D)) + (‖b.x‖ + D)) := by
    linarith
  refine (add_le_add_right k2 D).trans (k3.trans (le_of_eq (by ring)))

/-- Bounded data give bounded smoothed estimates. -/
theorem exists_front (n m : ℕ) (ha : 0 ≤ a) (hr : 0 < r) (hC : 1 ≤ C) (h0 : 0 < ρ) (h1 : ρ < 1) (hg : 0 ≤ g) (hc : 0 ≤ c) :
    ∃ K : ℝ, 1 ≤ K ∧ ∀ (b : Belief n) (l : List (LinStep n m)), Settled a r C ρ g c b.P l → RtsSolvable b l → ∀ D, 0 ≤ D →
      (∀ s ∈ l, ‖s.z‖ ≤ D ∧ ‖s.c‖ ≤ D) → ‖(front b l).x - b.x‖ ≤ K * (‖b.x‖ + D) ∧ ‖(front b l).x‖ ≤ K * (‖b.x‖ + D) := by
  obtain ⟨W, hW, hall⟩ := exists_surprise (c := c) n m ha hr hC h0 h1 hg
  have hρ : 0 < (1 - ρ)⁻¹ := inv_pos.2 (by linarith)
  have hK : 0 ≤ c * n * (C * n * W * (1 - ρ)⁻¹) := by positivity
  refine ⟨1 + c * n * (C * n * W * (1 - ρ)⁻¹), by linarith, fun b l h hs D hD hz => ?_⟩
  have hb := norm_nonneg b.x
  have hadj := Settled.adj (W := W * (‖b.x‖ + D)) hC h0 h1 (by positivity) b [] l h (fun x s y e => hall b l h D hD hz x s y e)
  simp only [clo, transpose_one, one_mulVec, lastOf, List.length_nil, pow_zero, mul_one] at hadj
  have e := front_adjV b l (h.noisy hr) h.psd hs
  have h2 := mulVec_norm_le hc (h.entry hc) (adjV b l)
  rw [← e] at h2
  have h3 : ‖(front b l).x - b.x‖ ≤ c * n * (C * n * W * (1 - ρ)⁻¹) * (‖b.x‖ + D) := by
    refine h2.trans ((mul_le_mul_of_nonneg_left hadj (by positivity)).trans (le_of_eq (by ring)))
  have h4 : ‖(front b l).x‖ ≤ ‖b.x‖ + ‖(front b l).x - b.x‖ := by
    have := norm_add_le b.x ((front b l).x - b.x)
    rwa [add_sub_cancel] at this
  constructor <;> rw [add_mul, one_mul] <;> linarith

/-- What later data do. -/
theorem exists_lag (n m : ℕ) {lo : ℝ} (ha : 0 ≤ a) (hr : 0 < r) (hC : 1 ≤ C) (h0 : 0 < ρ) (h1 : ρ < 1) (hg : 0 ≤ g) (hc : 0 ≤ c) (hlo : 0 < lo) :
    ∃ K : ℝ, 1 ≤ K ∧ ∀ (b : Belief n) (ss tt : List (LinStep n m)), Settled a r C ρ g c b.P (ss ++ tt) →
      (covRun b.P ss - lo • (1 : Matrix (Fin n) (Fin n) ℝ)).PosSemidef → RtsSolvable b (ss ++ tt) →
      (∀ d : Fin n → ℝ, ‖backV b.P ss *ᵥ d‖ ≤ K * ρ ^ ss.length * ‖d‖) ∧
      ∀ D, 0 ≤ D → (∀ s ∈ tt, ‖s.z‖ ≤ D ∧ ‖s.c‖ ≤ D) →
        ‖(front b (ss ++ tt)).x - (front b ss).x‖ ≤ K * ρ ^ ss.length * (‖(lastOf b ss).x‖ + D) := by
  obtain ⟨K, hK, hall⟩ := exists_front (c := c) n m ha hr hC h0 h1 hg hc
  have hlo' := inv_pos.2 hlo
  obtain ⟨E, hE⟩ : ∃ E : ℝ, E = 1 + n * (n * (c * C) * lo⁻¹) * n := ⟨_, rfl⟩
  have hE1 : 1 ≤ E := by
    have : 0 ≤ n * (n * (c * C) * lo⁻¹) * n := by positivity
    rw [hE]; linarith
  refine ⟨E * K, one_le_mul_of_one_le_of_one_le hE1 hK, fun b ss tt h hl hs => ?_⟩
  have hpd := posDef_of_lower hlo hl
  have hent : ∀ i j, |backV b.P ss i j| ≤ n * (n * (c * (C * ρ ^ ss.length)) * lo⁻¹) := by
    refine mul_entry_abs (by positivity) (mul_entry_abs hc (h.entry hc) h.transpose) (inv_entry_le hlo hl)
  have hB : ∀ d : Fin n → ℝ, ‖backV b.P ss *ᵥ d‖ ≤ E * ρ ^ ss.length * ‖d‖ := fun d => by
    refine (mulVec_norm_le (by positivity) hent d).trans (mul_le_mul_of_nonneg_right ?_ (norm_nonneg _))
    have : 0 ≤ ρ ^ ss.length := by positivity
    rw [hE, add_mul, one_mul]
    refine le_trans (le_of_eq ?_) (le_add_of_nonneg_left this)
    ring
  constructor
  · intro d
    refine (hB d).trans (mul_le_mul_of_nonneg_right ?_ (norm_nonneg _))
    refine mul_le_mul_of_nonneg_right (le_mul_of_one_le_right (by linarith) hK) (by positivity)
  · intro D hD hz
    rw [rtsSolvable_append] at hs
    rw [(frontV_append b ss tt (fun s hs => h.noisy hr s (by simp [hs])) h.psd hs.1 hpd).1]
    have hd : Settled a r C ρ g c (lastOf b ss).P tt := by rw [lastOf_covRun]; exact h.drop
    refine (hB _).trans ?_
    refine (mul_le_mul_of_nonneg_left (hall (lastOf b ss) tt hd hs.2 D hD hz).1 (by positivity)).trans (le_of_eq (by ring))

end

/-- The smoothed belief combines the filtered one with the information in the later steps. -/
theorem frontV_combines (b : Belief n) (ss : List (LinStep n m)) (hb : b.P.PosDef) (hs : ∀ s ∈ ss, Noisy s) (hr : RtsSolvable b ss) :
    Combines b (front b ss) (futureInfo ss) := by
  induction ss generalizing b with
  | nil => exact ⟨hb, by simp [front, futureInfo], by simp [front, futureInfo]⟩
  | cons s ss ih =>
    obtain ⟨hQ, hR⟩ := hs s (by simp)
    have hp : (s.predict b).P.PosDef := (priorCov_posSemidef (A := s.A) hb.posSemidef hQ).posDef_iff_det_ne_zero.2 hr.1
    have h2 := ih (s.next b) (postCov_posDef hp hR) (fun t ht => hs t (by simp [ht])) hr.2
    have hW := futureInfo_psd ss (fun t ht => (hs t (by simp [ht])).1) fun t ht => (hs t (by simp [ht])).2
    refine rtsStep_combines b s _ _ hb hQ hp (Info.measure_psd hR hW) ?_
    have := (update_combines s (s.predict b) hp hR).trans h2
    simp only [Info.measure, zero_add] at this ⊢
    rw [add_comm (s.Hᵀ * s.R⁻¹ * s.H), add_comm ((s.Hᵀ * s.R⁻¹) *ᵥ s.z)] at this
    exact this

/-- Two smoothed estimates with the same later information. -/
theorem combines_mean {f q f' q' : Belief n} {i : Info n} (h : Combines f q i) (h' : Combines f' q' i)
    (hf : f.P.PosDef) (hf' : f'.P.PosDef) :
    q.x - q'.x = (q.P * f.P⁻¹) *ᵥ ((f.x - f'.x) + ((f'.P - f.P) * f'.P⁻¹) *ᵥ (f'.x - q'.x)) := by
  obtain ⟨a0, a1, a2⟩ := h
  obtain ⟨b0, b1, b2⟩ := h'
  have u1 := nonsing_inv_mul _ (posDef_isUnit_det hf)
  have u2 := mul_nonsing_inv _ (posDef_isUnit_det hf')
  have u3 := mul_nonsing_inv _ (posDef_isUnit_det a0)
  have e1 : f.P⁻¹ * ((f'.P - f.P) * f'.P⁻¹) = f.P⁻¹ - f'.P⁻¹ := by
    rw [Matrix.sub_mul, u2, Matrix.mul_sub, Matrix.mul_one, ← Matrix.mul_assoc, u1, Matrix.one_mul]
  have e2 : q.P⁻¹ = q'.P⁻¹ + (f.P⁻¹ - f'.P⁻¹) := by rw [a1, b1]; abel
  have e3 : q.P⁻¹ *ᵥ (q.x - q'.x) = f.P⁻¹ *ᵥ ((f.x - f'.x) + ((f'.P - f.P) * f'.P⁻¹) *ᵥ (f'.x - q'.x)) := by
    rw [mulVec_add, mulVec_mulVec, e1, mulVec_sub, a2]
    rw [e2, add_mulVec, b2]
    simp only [sub_mulVec, mulVec_sub]
    abel
  rw [← mulVec_mulVec, ← e3, mulVec_mulVec, u3, one_mulVec]

theorem smoothSolvable_tail {b : Belief n} {ss : List (LinStep n m)} (h : SmoothSolvable b ss) (k : ℕ) (hk : k < ss.length) :
    RtsSolvable (lastOf b (ss.take (k + 1))) (ss.drop (k + 1)) := by
  cases ss with
  | nil => simp at hk
  | cons s ss =>
    have h' : RtsSolvable (s.next b) (ss.take k ++ ss.drop k) := by rw [List.take_append_drop]; exact h
    exact ((rtsSolvable_append _ _ _).1 h').2

/-- The smoother on the errors. -/
theorem error_front (b : Belief n) (ss : List (LinStep n m)) (x w : ℕ → Fin n → ℝ) (v : ℕ → Fin m → ℝ)
    (h : ∀ (k : ℕ) (s : LinStep n m), ss[k]? = some s → x (k + 1) = s.A *ᵥ x k + s.c + w k ∧ s.z = s.H *ᵥ x (k + 1) + v k) :
    front ⟨b.x - x 0, b.P⟩ (ss.mapIdx fun i s => ({ s with c := -w i, z := v i } : LinStep n m)) =
      ⟨(front b ss).x - x 0, (front b ss).P⟩ := by
  induction ss generalizing b x w v with
  | nil => rfl
  | cons s ss ih =>
    obtain ⟨h1, h2⟩ := h 0 s rfl
    rw [zero_add] at h1 h2
    have hn : ({ s with c := -w 0, z := v 0 } : LinStep n m).next ⟨b.x - x 0, b.P⟩ = ⟨(s.next b).x - x 1, (s.next b).P⟩ := by
      have e : s.A *ᵥ (b.x - x 0) + -w 0 = s.A *ᵥ b.x + s.c - x 1 := by rw [h1, mulVec_sub]; abel
      refine congrArg₂ Belief.mk ?_ rfl
      show s.A *ᵥ (b.x - x 0) + -w 0 + s.gainAt b.P *ᵥ (v 0 - s.H *ᵥ (s.A *ᵥ (b.x - x 0) + -w 0)) =
        s.A *ᵥ b.x + s.c + s.gainAt b.P *ᵥ (s.z - s.H *ᵥ (s.A *ᵥ b.x + s.c)) - x 1
      rw [e, h2, mulVec_sub s.H]
      have : v 0 - (s.H *ᵥ (s.A *ᵥ b.x + s.c) - s.H *ᵥ x 1) = s.H *ᵥ x 1 + v 0 - s.H *ᵥ (s.A *ᵥ b.x + s.c) := by abel
      rw [this]; abel
    have := ih (s.next b) (fun k => x (k + 1)) (fun k => w (k + 1)) (fun k => v (k + 1)) fun k t ht => h (k + 1) t (by simpa using ht)
    rw [List.mapIdx_cons, front, hn]
    rw [zero_add] at this
    rw [this, front]
    refine congrArg₂ Belief.mk ?_ rfl
    show b.x - x 0 + (b.P * s.Aᵀ * (priorCov s.A b.P s.Q)⁻¹) *ᵥ ((front (s.next b) ss).x - x 1 - (s.A *ᵥ (b.x - x 0) + -w 0)) =
      b.x + (b.P * s.Aᵀ * (priorCov s.A b.P s.Q)⁻¹) *ᵥ ((front (s.next b) ss).x - (s.A *ᵥ b.x + s.c)) - x 0
    have e : (front (s.next b) ss).x - x 1 - (s.A *ᵥ (b.x - x 0) + -w 0) = (front (s.next b) ss).x - (s.A *ᵥ b.x + s.c) := by
      rw [h1, mulVec_sub]; abel
    rw [e]; abel

/-- What later data do to covariances and means. -/
theorem exists_lag_both (n m : ℕ) {a r C ρ g c lo : ℝ} (ha : 0 ≤ a) (hr : 0 < r) (hC : 1 ≤ C) (h0 : 0 < ρ) (h1 : ρ < 1) (hg : 0 ≤ g)
    (hc : 0 ≤ c) (hlo : 0 < lo) :
    ∃ K : ℝ, 1 ≤ K ∧ ∀ (b : Belief n) (ss tt : List (LinStep n m)), Settled a r C ρ g c b.P (ss ++ tt) →
      (covRun b.P ss - lo • (1 : Matrix (Fin n) (Fin n) ℝ)).PosSemidef → RtsSolvable b (ss ++ tt) →
      (∀ i j, |((front b (ss ++ tt)).P - (front b ss).P) i j| ≤ K * ρ ^ ss.length) ∧
      ‖(front b (ss ++ tt)).x - (front b ss).x‖ ≤ K * ρ ^ ss.length * ‖(front (lastOf b ss) tt).x - (lastOf b ss).x‖ ∧
      ∀ D, 0 ≤ D → (∀ s ∈ tt, ‖s.z‖ ≤ D ∧ ‖s.c‖ ≤ D) →
        ‖(front b (ss ++ tt)).x - (front b ss).x‖ ≤ K * ρ ^ ss.length * (‖(lastOf b ss).x‖ + D) := by
  obtain ⟨K, hK, hall⟩ := exists_lag (c := c) n m ha hr hC h0 h1 hg hc hlo
  refine ⟨K + n * (n * (K * c) * K), le_add_of_le_of_nonneg hK (by positivity), fun b ss tt h hl hs => ?_⟩
  obtain ⟨k1, k2⟩ := hall b ss tt h hl hs
  have hpd := posDef_of_lower hlo hl
  have hs' := (rtsSolvable_append _ _ _).1 hs
  obtain ⟨e1, e2⟩ := frontV_append b ss tt (fun s hs => h.noisy hr s (by simp [hs])) h.psd hs'.1 hpd
  have hmono : K * ρ ^ ss.length ≤ (K + n * (n * (K * c) * K)) * ρ ^ ss.length := by
    refine mul_le_mul_of_nonneg_right (le_add_of_nonneg_right (by positivity)) (by positivity)
  refine ⟨fun i j => ?_, ?_, fun D hD hz => ?_⟩
  · have hlP : (lastOf b ss).P.PosDef := by rw [lastOf_covRun]; exact hpd
    have hd : Settled a r C ρ g c (lastOf b ss).P tt := by rw [lastOf_covRun]; exact h.drop
    have hcb := frontV_combines (lastOf b ss) tt hlP (hd.noisy hr) hs'.2
    have hle := hcb.le hlP (futureInfo_psd tt (fun t ht => (hd.noisy hr t ht).1) fun t ht => (hd.noisy hr t ht).2)
    have hdiff : ∀ i j, |((front (lastOf b ss) tt).P - (lastOf b ss).P) i j| ≤ c := fun i j => by
      have := psd_entry (M := (lastOf b ss).P - (front (lastOf b ss) tt).P) hc hle (by
        have := (hd.cov [] tt rfl).2.add hcb.1.posSemidef
        convert this using 1
        rw [covRun]; abel) i j
      rw [← abs_neg, ← Matrix.neg_apply, neg_sub]; exact this
    rw [e2]
    have hρ1 : ρ ^ ss.length ≤ 1 := pow_le_one₀ h0.le h1.le
    refine (conj_entry (by positivity) (by positivity) (entry_of_mulVec k1) hdiff (entry_of_mulVec k1) i j).trans ?_
    have hle2 : (n : ℝ) * (n * (K * ρ ^ ss.length * c) * (K * ρ ^ ss.length)) ≤ n * (n * (K * ρ ^ ss.length * c) * (K * 1)) := by gcongr
    refine hle2.trans ?_
    rw [add_mul]
    have : 0 ≤ K * ρ ^ ss.length := by positivity
    refine le_trans (le_of_eq ?_) (le_add_of_nonneg_left this)
    ring
  · rw [e1]
    exact (k1 _).trans (mul_le_mul_of_nonneg_right hmono (norm_nonneg _))
  · exact (k2 D hD hz).trans (mul_le_mul_of_nonneg_right hmono (by positivity))

/-- Two runs with the same later steps. -/
theorem exists_front_close (n m : ℕ) {a r C ρ g c lo : ℝ} (ha : 0 ≤ a) (hr : 0 < r) (hC : 1 ≤ C) (h0 : 0 < ρ) (h1 : ρ < 1) (hg : 0 ≤ g)
    (hc : 0 ≤ c) (hlo : 0 < lo) :
    ∃ K : ℝ, 1 ≤ K ∧ ∀ (b b' : Belief n) (l : List (LinStep n m)), Settled a r C ρ g c b.P l → Settled a r C ρ g c b'.P l →
      (b.P - lo • (1 : Matrix (Fin n) (Fin n) ℝ)).PosSemidef → (b'.P - lo • (1 : Matrix (Fin n) (Fin n) ℝ)).PosSemidef →
      RtsSolvable b l → RtsSolvable b' l → ∀ e : ℝ, 0 ≤ e → (∀ i j, |(b.P - b'.P) i j| ≤ e) →
      (∀ i j, |((front b l).P - (front b' l).P) i j| ≤ K * e) ∧
      ∀ D, 0 ≤ D → (∀ s ∈ l, ‖s.z‖ ≤ D ∧ ‖s.c‖ ≤ D) →
        ‖(front b l).x - (front b' l).x‖ ≤ K * (‖b.x - b'.x‖ + e * (‖b'.x‖ + D)) := by
  obtain ⟨K, hK, hall⟩ := exists_front (c := c) n m ha hr hC h0 h1 hg hc
  have hlo' := inv_pos.2 hlo
  obtain ⟨F, hF⟩ : ∃ F : ℝ, F = n * (c * lo⁻¹) * n := ⟨_, rfl⟩
  obtain ⟨G, hG⟩ : ∃ G : ℝ, G = n * (1 * lo⁻¹) * n := ⟨_, rfl⟩
  have hF0 : 0 ≤ F := by rw [hF]; positivity
  have hG0 : 0 ≤ G := by rw [hG]; positivity
  refine ⟨1 + F + F * (G * K) + n * (n * (n * (c * lo⁻¹) * 1) * (n * (lo⁻¹ * c))), ?_, fun b b' l h h' hl hl' hs hs' e he hP => ?_⟩
  · have : 0 ≤ F + F * (G * K) + n * (n * (n * (c * lo⁻¹) * 1) * (n * (lo⁻¹ * c))) := by positivity
    linarith
  have hpd := posDef_of_lower hlo hl
  have hpd' := posDef_of_lower hlo hl'
  have hY := futureInfo_psd l (fun t ht => (h.noisy hr t ht).1) fun t ht => (h.noisy hr t ht).2
  have c1 := frontV_combines b l hpd (h.noisy hr) hs
  have c2 := frontV_combines b' l hpd' (h.noisy hr) hs'
  have q1 : ∀ i j, |(front b l).P i j| ≤ c := psd_entry hc c1.1.posSemidef (psd_trans (c1.le hpd hY) (h.cov [] l rfl).2)
  have q2 : ∀ i j, |(front b' l).P i j| ≤ c := psd_entry hc c2.1.posSemidef (psd_trans (c2.le hpd' hY) (h'.cov [] l rfl).2)
  have i1 := inv_entry_le hlo hl
  have i2 := inv_entry_le hlo hl'
  have g1 : ∀ i j, |((front b l).P * b.P⁻¹) i j| ≤ n * (c * lo⁻¹) := mul_entry_abs hc q1 i1
  constructor
  · intro i j
    rw [combines_close c1 c2 rfl hpd hpd']
    have k1 := mul_entry_abs (by positivity) g1 hP
    have k2 := mul_entry_abs (by positivity) k1 (mul_entry_abs hlo'.le i2 q2) i j
    refine k2.trans ?_
    have : 0 ≤ (1 + F + F * (G * K)) * e := by positivity
    rw [add_mul]
    refine le_trans (le_of_eq ?_) (le_add_of_nonneg_left this)
    ring
  · intro D hD hz
    rw [combines_mean c1 c2 hpd hpd']
    have k1 := mulVec_norm_le (by positivity) g1 ((b.x - b'.x) + ((b'.P - b.P) * b'.P⁻¹) *ᵥ (b'.x - (front b' l).x))
    rw [← hF] at k1
    have hP' : ∀ i j, |(b'.P - b.P) i j| ≤ e := fun i j => by
      rw [← neg_sub, Matrix.neg_apply, abs_neg]; exact hP i j
    have k2 := mulVec_norm_le (by positivity) (mul_entry_abs he hP' i2) (b'.x - (front b' l).x)
    have k3 := (hall b' l h' hs' D hD hz).1
    rw [norm_sub_rev] at k3
    have k4 : ‖((b'.P - b.P) * b'.P⁻¹) *ᵥ (b'.x - (front b' l).x)‖ ≤ G * K * (e * (‖b'.x‖ + D)) := by
      refine k2.trans ((mul_le_mul_of_nonneg_left k3 (by positivity)).trans (le_of_eq ?_))
      rw [hG]; ring
    refine k1.trans ((mul_le_mul_of_nonneg_left (norm_add_le _ _) hF0).trans ?_)
    have k5 : F * (‖b.x - b'.x‖ + ‖((b'.P - b.P) * b'.P⁻¹) *ᵥ (b'.x - (front b' l).x)‖) ≤ F * (‖b.x - b'.x‖ + G * K * (e * (‖b'.x‖ + D))) := by
      gcongr
    refine k5.trans ?_
    obtain ⟨X, hX⟩ : ∃ X : ℝ, X = ‖b.x - b'.x‖ := ⟨_, rfl⟩
    obtain ⟨Y, hYd⟩ : ∃ Y : ℝ, Y = e * (‖b'.x‖ + D) := ⟨_, rfl⟩
    have hX0 : 0 ≤ X := hX ▸ norm_nonneg _
    have hY0 : 0 ≤ Y := by rw [hYd]; positivity
    rw [← hX, ← hYd]
    have z1 : 0 ≤ (1 + F * (G * K) + n * (n * (n * (c * lo⁻¹) * 1) * (n * (lo⁻¹ * c)))) * X := by positivity
    have z2 : 0 ≤ (1 + F + n * (n * (n * (c * lo⁻¹) * 1) * (n * (lo⁻¹ * c)))) * Y := by positivity
    nlinarith

section

variable {N : ℕ} {a r γ lo hi : ℝ}

/-- From the `N`-th step on. -/
theorem Margins.settled (M : Margins n m N a r γ lo hi) : ∃ C ρ g : ℝ, 1 ≤ C ∧ 0 < ρ ∧ ρ < 1 ∧ 0 ≤ g ∧
    ∀ (x l : List (LinStep n m)), UniformModel N a r γ (x ++ l) → N ≤ x.length → ∀ P : Matrix (Fin n) (Fin n) ℝ, P.PosSemidef →
      Settled a r C ρ g hi (covRun P x) l := by
  obtain ⟨C, ρ, hC, h0, h1, hd⟩ := M.decay
  refine ⟨C, ρ, Real.sqrt (hi / r), hC, h0, h1, Real.sqrt_nonneg _, fun x l h hx P hP => ⟨fun s hs => h.tame s (by simp [hs]), ?_, ?_, ?_⟩⟩
  · intro u v w e d
    rw [← covRun_append]
    exact hd (x ++ u) v (h.mono ⟨[], w, by rw [e]; simp⟩) (by simp; omega) P hP d
  · intro u s v e i j
    rw [← covRun_append]
    exact M.gain (e ▸ h) hx hP i j
  · intro u v e
    rw [← covRun_append]
    have hu : UniformModel N a r γ (x ++ u) := h.mono ⟨[], v, by rw [e]; simp⟩
    exact ⟨(M.pd hu (by simp; omega) hP).posSemidef, (M.between hu (by simp; omega) hP).2⟩

/-- From the beginning. -/
theorem Margins.settled_start (M : Margins n m N a r γ lo hi) (p : ℝ) : ∃ C ρ g c : ℝ, 1 ≤ C ∧ 0 < ρ ∧ ρ < 1 ∧ 0 ≤ g ∧ 0 < c ∧
    ∀ (l : List (LinStep n m)), UniformModel N a r γ l → ∀ P : Matrix (Fin n) (Fin n) ℝ, Between 0 p P → Settled a r C ρ g c P l := by
  obtain ⟨C, ρ, g, c, hC, h0, h1, hg, hc, hall⟩ := M.decay_start (le_max_left 0 p)
  refine ⟨C, ρ, g, c, hC, h0, h1, hg, hc, fun l h P hP => ?_⟩
  have hpsd : P.PosSemidef := by simpa using hP.1
  have hup := upper_mono (le_max_right 0 p) hP.2
  obtain ⟨k1, k2, k3⟩ := hall l h P hpsd hup
  refine ⟨h.tame, fun u v w e => ?_, k2, k3⟩
  have hu : UniformModel N a r γ (u ++ v) := h.mono ⟨[], w, by rw [e]; simp⟩
  exact (hall (u ++ v) hu P hpsd hup).1 u v rfl

end

end KK
