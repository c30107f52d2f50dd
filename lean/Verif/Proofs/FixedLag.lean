import Verif.Props.Forgetting
import Verif.Proofs.TwoFilter
import Verif.Props.Gaps
import Verif.Props.TwoFilter

/-! # What later data do to a smoothed belief -/

set_option linter.unusedSectionVars false

namespace KK

open Matrix

variable {n m : ℕ} {A Q : Matrix (Fin n) (Fin n) ℝ} {H : Matrix (Fin m) (Fin n) ℝ} {R : Matrix (Fin m) (Fin m) ℝ}

/-- The smoothed belief at the time with filtered belief `b`, given the later steps. -/
noncomputable def front : Belief n → List (LinStep n m) → Belief n
  | b, [] => b
  | b, s :: ss => rtsStep b s (front (s.next b) ss)

theorem rts_front (b : Belief n) (ss : List (LinStep n m)) : ∃ qs, rts b ss = front b ss :: qs := by
  induction ss generalizing b with
  | nil => exact ⟨[], rfl⟩
  | cons s ss ih =>
    obtain ⟨qs, h⟩ := ih (s.next b)
    exact ⟨front (s.next b) ss :: qs, by rw [rts, h]; rfl⟩

theorem rts_get (b : Belief n) (ss : List (LinStep n m)) (k : ℕ) (hk : k ≤ ss.length) :
    (rts b ss)[k]? = some (front (lastOf b (ss.take k)) (ss.drop k)) := by
  induction ss generalizing b k with
  | nil => obtain rfl : k = 0 := by simpa using hk
           rfl
  | cons s ss ih =>
    rcases k with _ | k
    · obtain ⟨qs, h⟩ := rts_front b (s :: ss)
      rw [h]; rfl
    · obtain ⟨qs, h⟩ := rts_front (s.next b) ss
      have := ih (s.next b) k (by simpa using hk)
      rw [rts]
      rw [h] at this ⊢
      simp only [List.getElem?_cons_succ, List.take_succ_cons, List.drop_succ_cons, lastOf]
      exact this

theorem smoothed_get {b : Belief n} {ss : List (LinStep n m)} {k : ℕ} {q : Belief n} (hq : (smoothed b ss)[k]? = some q) :
    k < ss.length ∧ q = front (lastOf b (ss.take (k + 1))) (ss.drop (k + 1)) := by
  have hk : k < ss.length := by
    have := (List.getElem?_eq_some_iff.1 hq).1
    rwa [smoothed_length] at this
  refine ⟨hk, ?_⟩
  cases ss with
  | nil => simp at hk
  | cons s ss =>
    rw [smoothed, rts_get _ _ _ (by simp only [List.length_cons] at hk; omega)] at hq
    simpa [lastOf] using hq.symm

/-- All covariances met from `X` on are PD. -/
def Lasting (A Q : Matrix (Fin n) (Fin n) ℝ) (H : Matrix (Fin m) (Fin n) ℝ) (R : Matrix (Fin m) (Fin m) ℝ)
    (X : Matrix (Fin n) (Fin n) ℝ) : Prop := ∀ i, ((ric A H Q R)^[i] X).PosDef

theorem Lasting.next {X : Matrix (Fin n) (Fin n) ℝ} (h : Lasting A Q H R X) : Lasting A Q H R (ric A H Q R X) := fun i => by
  have := h (i + 1); rwa [Function.iterate_succ_apply] at this

theorem Lasting.pd {X : Matrix (Fin n) (Fin n) ℝ} (h : Lasting A Q H R X) : X.PosDef := h 0

theorem Lasting.prior {X : Matrix (Fin n) (Fin n) ℝ} (h : Lasting A Q H R X) (hQ : Q.PosSemidef) (hR : R.PosDef) :
    (priorCov A X Q).PosDef := by
  have hp := priorCov_posSemidef (A := A) h.pd.posSemidef hQ
  have h1 : (postCov H (priorCov A X Q) R).PosDef := h 1
  have := Matrix.PosDef.posSemidef_add (postCov_le hp hR.posSemidef (posDef_det_ne (innovCov_posDef (H := H) hp hR))) h1
  rwa [sub_add_cancel] at this

/-- The smoother gain in terms of the filter: `P A' (P⁻)⁻¹ P⁺ = P ((1 - K H) A)'`. -/
theorem smootherGain_mul {X : Matrix (Fin n) (Fin n) ℝ} (h : Lasting A Q H R X) (hQ : Q.PosSemidef) (hR : R.PosDef) :
    X * Aᵀ * (priorCov A X Q)⁻¹ * ric A H Q R X = X * (prop A Q H R X 1)ᵀ := by
  have hp := h.prior hQ hR
  have hs : (ric A H Q R X)ᵀ = ric A H Q R X := IsHermitian.symm' (h 1).1
  have e : ric A H Q R X = priorCov A X Q * (1 - kGain H (priorCov A X Q) R * H)ᵀ := by
    rw [← hs]
    show (postCov _ _ _)ᵀ = _
    rw [postCov, transpose_mul, IsHermitian.symm' hp.1]
  rw [e, Matrix.mul_assoc, ← Matrix.mul_assoc (priorCov A X Q)⁻¹, nonsing_inv_mul _ (isUnit_iff_ne_zero.2 (posDef_det_ne hp)),
    Matrix.one_mul]
  simp only [prop, propagator, ownGains, Function.iterate_zero, id_eq, Matrix.mul_one, transpose_mul, Matrix.mul_assoc]

/-- How a change of the smoothed belief after `L` steps acts on the present one. -/
noncomputable def backTo (A Q : Matrix (Fin n) (Fin n) ℝ) (H : Matrix (Fin m) (Fin n) ℝ) (R : Matrix (Fin m) (Fin m) ℝ)
    (X : Matrix (Fin n) (Fin n) ℝ) (L : ℕ) : Matrix (Fin n) (Fin n) ℝ :=
  X * (prop A Q H R X L)ᵀ * ((ric A H Q R)^[L] X)⁻¹

theorem backTo_zero {X : Matrix (Fin n) (Fin n) ℝ} (h : X.PosDef) : backTo A Q H R X 0 = 1 := by
  simp [backTo, prop, propagator, mul_nonsing_inv _ (isUnit_iff_ne_zero.2 (posDef_det_ne h))]

theorem backTo_succ {X : Matrix (Fin n) (Fin n) ℝ} (h : Lasting A Q H R X) (hQ : Q.PosSemidef) (hR : R.PosDef) (L : ℕ) :
    backTo A Q H R X (L + 1) = X * Aᵀ * (priorCov A X Q)⁻¹ * backTo A Q H R (ric A H Q R X) L := by
  rw [backTo, backTo, Nat.add_comm L 1, prop_add, transpose_mul, ← Matrix.mul_assoc X, ← smootherGain_mul h hQ hR,
    Nat.add_comm 1 L, Function.iterate_succ_apply]
  simp only [Matrix.mul_assoc, Function.iterate_succ_apply]
  rfl

theorem next_ric {s : LinStep n m} (h : s.A = A ∧ s.H = H ∧ s.Q = Q ∧ s.R = R) (b : Belief n) :
    (s.next b).P = ric A H Q R b.P := by
  obtain ⟨h1, h2, h3, h4⟩ := h
  show postCov _ (priorCov _ _ _) _ = _
  rw [h1, h2, h3, h4]; rfl

/-- The smoothed belief with more data and with fewer. -/
theorem front_append (hQ : Q.PosSemidef) (hR : R.PosDef) (b : Belief n) (h : Lasting A Q H R b.P) (ss tt : List (LinStep n m))
    (hc : ConstantModel A H Q R ss) :
    (front b (ss ++ tt)).x - (front b ss).x =
      backTo A Q H R b.P ss.length *ᵥ ((front (lastOf b ss) tt).x - (lastOf b ss).x) ∧
    (front b (ss ++ tt)).P - (front b ss).P =
      backTo A Q H R b.P ss.length * ((front (lastOf b ss) tt).P - (lastOf b ss).P) * (backTo A Q H R b.P ss.length)ᵀ := by
  induction ss generalizing b with
  | nil => simp [front, lastOf, backTo_zero h.pd]
  | cons s ss ih =>
    have hs := hc s (by simp)
    have e := next_ric hs b
    obtain ⟨h1, h2⟩ := ih (s.next b) (e ▸ h.next) fun t ht => hc t (by simp [ht])
    have hG : b.P * s.Aᵀ * (s.predict b).P⁻¹ = b.P * Aᵀ * (priorCov A b.P Q)⁻¹ := by
      simp only [LinStep.predict, hs.1, hs.2.2.1]
    rw [List.length_cons, backTo_succ h hQ hR, lastOf, ← e]
    constructor
    · simp only [List.cons_append, front, rtsStep, hG]
      rw [add_sub_add_left_eq_sub, ← mulVec_sub, sub_sub_sub_cancel_right, h1, mulVec_mulVec]
    · simp only [List.cons_append, front, rtsStep, hG]
      rw [add_sub_add_left_eq_sub, ← Matrix.sub_mul, ← Matrix.mul_sub, sub_sub_sub_cancel_right, h2]
      simp only [transpose_mul, Matrix.mul_assoc]

/-- The weighted innovations of later steps. -/
noncomputable def adjoint (A Q : Matrix (Fin n) (Fin n) ℝ) (H : Matrix (Fin m) (Fin n) ℝ) (R : Matrix (Fin m) (Fin m) ℝ) :
    Belief n → List (LinStep n m) → Fin n → ℝ
  | _, [] => 0
  | b, s :: ss => (prop A Q H R b.P 1)ᵀ *ᵥ (adjoint A Q H R (s.next b) ss +
      (Hᵀ * R⁻¹) *ᵥ (s.z - H *ᵥ (A *ᵥ b.x + s.c)))

theorem front_adjoint (hQ : Q.PosSemidef) (hR : R.PosDef) (b : Belief n) (h : Lasting A Q H R b.P) (ss : List (LinStep n m))
    (hc : ConstantModel A H Q R ss) : (front b ss).x - b.x = b.P *ᵥ adjoint A Q H R b ss := by
  induction ss generalizing b with
  | nil => simp [front, adjoint]
  | cons s ss ih =>
    have hs := hc s (by simp)
    have e := next_ric hs b
    have h1 := ih (s.next b) (e ▸ h.next) fun t ht => hc t (by simp [ht])
    have hG : b.P * s.Aᵀ * (s.predict b).P⁻¹ = b.P * Aᵀ * (priorCov A b.P Q)⁻¹ := by
      simp only [LinStep.predict, hs.1, hs.2.2.1]
    have hk : (s.next b).x = (s.predict b).x + ric A H Q R b.P *ᵥ ((Hᵀ * R⁻¹) *ᵥ (s.z - H *ᵥ (A *ᵥ b.x + s.c))) := by
      have := next_mean hs (P := b.P) (k := 0) b rfl
      rw [this, ownGains_post hQ hR h.pd.posSemidef, ← mulVec_mulVec]
      simp only [LinStep.predict, hs.1]; rfl
    simp only [front, rtsStep, hG]
    rw [add_sub_cancel_left, adjoint, ← sub_add_sub_cancel _ (s.next b).x, h1, hk, add_sub_cancel_left, e, ← mulVec_add,
      mulVec_mulVec, mulVec_mulVec, smootherGain_mul h hQ hR]

theorem transpose_decay {C ρ : ℝ} (hC : 0 < C) (h0 : 0 < ρ)
    (hd : ∀ P : Matrix (Fin n) (Fin n) ℝ, P.PosSemidef → ∀ j, n ≤ j → ∀ (d : Fin n → ℝ) (k : ℕ),
      ‖prop A Q H R ((ric A H Q R)^[j] P) k *ᵥ d‖ ≤ C * ρ ^ k * ‖d‖) {P : Matrix (Fin n) (Fin n) ℝ} (hP : P.PosSemidef)
    {j : ℕ} (hj : n ≤ j) (k : ℕ) (v : Fin n → ℝ) :
    ‖(prop A Q H R ((ric A H Q R)^[j] P) k)ᵀ *ᵥ v‖ ≤ C * n * ρ ^ k * ‖v‖ := by
  have hent : ∀ a b, |prop A Q H R ((ric A H Q R)^[j] P) k a b| ≤ C * ρ ^ k := fun a b => by
    have h1 := hd P hP j hj (Pi.single b 1) k
    have h2 := norm_le_pi_norm (prop A Q H R ((ric A H Q R)^[j] P) k *ᵥ Pi.single b 1) a
    have h3 : ‖(Pi.single b 1 : Fin n → ℝ)‖ ≤ 1 := by
      refine (pi_norm_le_iff_of_nonneg zero_le_one).2 fun i => ?_
      by_cases hi : i = b
      · subst hi; simp
      · simp [Pi.single_eq_of_ne hi]
    rw [mulVec_single_one] at h1 h2
    exact (h2.trans h1).trans ((mul_le_mul_of_nonneg_left h3 (by positivity)).trans (mul_one _).le)
  have := mulVec_norm_le (M := (prop A Q H R ((ric A H Q R)^[j] P) k)ᵀ) (ε := C * ρ ^ k) (by positivity) (fun a b => hent b a) v
  refine this.trans (le_of_eq (by ring))

/-- The later innovations, seen from `L` steps back. -/
theorem adjoint_bound {C ρ : ℝ} (hC : 0 < C) (h0 : 0 < ρ) (h1 : ρ < 1)
    (hd : ∀ P : Matrix (Fin n) (Fin n) ℝ, P.PosSemidef → ∀ j, n ≤ j → ∀ (d : Fin n → ℝ) (k : ℕ),
      ‖prop A Q H R ((ric A H Q R)^[j] P) k *ᵥ d‖ ≤ C * ρ ^ k * ‖d‖) {P : Matrix (Fin n) (Fin n) ℝ} (hP : P.PosSemidef)
    {j : ℕ} (hj : n ≤ j) {W : ℝ} (hW : 0 ≤ W) (tt : List (LinStep n m)) (hc : ConstantModel A H Q R tt) (b : Belief n) (L : ℕ)
    (hb : b.P = (ric A H Q R)^[L] ((ric A H Q R)^[j] P))
    (hi : ∀ t s, tt[t]? = some s → ‖(Hᵀ * R⁻¹) *ᵥ (s.z - H *ᵥ (A *ᵥ (lastOf b (tt.take t)).x + s.c))‖ ≤ W) :
    ‖(prop A Q H R ((ric A H Q R)^[j] P) L)ᵀ *ᵥ adjoint A Q H R b tt‖ ≤ C * n * W * (1 - ρ)⁻¹ * ρ ^ L := by
  have hρ : 0 < (1 - ρ)⁻¹ := inv_pos.2 (by linarith)
  induction tt generalizing b L with
  | nil => simp only [adjoint, mulVec_zero, norm_zero]; positivity
  | cons s tt ih =>
    have hs := hc s (by simp)
    have e := next_ric hs b
    have h2 := ih (fun t ht => hc t (by simp [ht])) (s.next b) (L + 1) (by rw [e, hb, Function.iterate_succ_apply'])
      fun t s' hs' => by
        have := hi (t + 1) s' (by simpa using hs')
        simpa [lastOf] using this
    have h3 := hi 0 s (by simp)
    simp only [List.take_zero, lastOf] at h3
    have h4 := transpose_decay hC h0 hd hP hj (L + 1) ((Hᵀ * R⁻¹) *ᵥ (s.z - H *ᵥ (A *ᵥ b.x + s.c)))
    have h5 : C * n * ρ ^ (L + 1) * ‖(Hᵀ * R⁻¹) *ᵥ (s.z - H *ᵥ (A *ᵥ b.x + s.c))‖ ≤ C * n * ρ ^ (L + 1) * W :=
      mul_le_mul_of_nonneg_left h3 (by positivity)
    have ep : (prop A Q H R ((ric A H Q R)^[j] P) L)ᵀ * (prop A Q H R b.P 1)ᵀ = (prop A Q H R ((ric A H Q R)^[j] P) (L + 1))ᵀ := by
      rw [prop_add, transpose_mul, hb]
    rw [adjoint, mulVec_mulVec, ep, mulVec_add]
    refine (norm_add_le _ _).trans ?_
    have e2 : C * n * W * (1 - ρ)⁻¹ * ρ ^ L = C * n * W * (1 - ρ)⁻¹ * ρ ^ (L + 1) + C * n * W * ρ ^ L := by
      have : (1 - ρ)⁻¹ * (1 - ρ) = 1 := inv_mul_cancel₀ (by linarith)
      rw [pow_succ]
      linear_combination (C * n * W * ρ ^ L) * this
    have h6 : C * n * ρ ^ (L + 1) * W ≤ C * n * W * ρ ^ L := by
      have := pow_le_pow_of_le_one h0.le h1.le (Nat.le_succ L)
      have h7 : 0 ≤ C * n * W := by positivity
      calc _ = C * n * W * ρ ^ (L + 1) := by ring
        _ ≤ _ := mul_le_mul_of_nonneg_left this h7
    linarith

theorem mul_entry_bound {M N : Matrix (Fin n) (Fin n) ℝ} {α β : ℝ} (hα : 0 ≤ α) (hM : ∀ i j, |M i j| ≤ α) (hN : ∀ i j, |N i j| ≤ β)
    (i j : Fin n) : |(M * N) i j| ≤ n * α * β := by
  rw [Matrix.mul_apply]
  refine (Finset.abs_sum_le_sum_abs _ _).trans ?_
  have : ∀ k ∈ Finset.univ, |M i k * N k j| ≤ α * β := fun k _ => by
    rw [abs_mul]; exact mul_le_mul (hM i k) (hN k j) (abs_nonneg _) hα
  refine (Finset.sum_le_sum this).trans ?_
  rw [Finset.sum_const, Finset.card_univ, Fintype.card_fin, nsmul_eq_mul]
  exact le_of_eq (by ring)

theorem psd_entry {M : Matrix (Fin n) (Fin n) ℝ} {c : ℝ} (hc : 0 ≤ c) (hM : M.PosSemidef)
    (h : (c • (1 : Matrix (Fin n) (Fin n) ℝ) - M).PosSemidef) (i j : Fin n) : |M i j| ≤ c :=
  entry_le (IsHermitian.symm' hM.1) h ((psd_smul Matrix.PosSemidef.one hc).add hM) i j

theorem inv_upper {M : Matrix (Fin n) (Fin n) ℝ} {c : ℝ} (hc : 0 < c) 
    (h : (M - c⁻¹ • (1 : Matrix (Fin n) (Fin n) ℝ)).PosSemidef) : (c • (1 : Matrix (Fin n) (Fin n) ℝ) - M⁻¹).PosSemidef := by
  have h1 : (c⁻¹ • (1 : Matrix (Fin n) (Fin n) ℝ)).PosDef := Matrix.PosDef.one.smul (inv_pos.2 hc)
  have := inv_anti h1 h
  have e : (c⁻¹ • (1 : Matrix (Fin n) (Fin n) ℝ))⁻¹ = c • (1 : Matrix (Fin n) (Fin n) ℝ) := by
    refine inv_eq_right_inv ?_
    rw [smul_mul_smul_comm, inv_mul_cancel₀ hc.ne', Matrix.one_mul, one_smul]
  rwa [e] at this

/-- The smoothed belief combines the filtered one with the information in the later steps. -/
theorem front_combines (hQ : Q.PosSemidef) (hR : R.PosDef) (b : Belief n) (h : Lasting A Q H R b.P) (ss : List (LinStep n m))
    (hc : ConstantModel A H Q R ss) : Combines b (front b ss) (futureInfo ss) := by
  induction ss generalizing b with
  | nil => exact ⟨h.pd, by simp [front, futureInfo], by simp [front, futureInfo]⟩
  | cons s ss ih =>
    have hs := hc s (by simp)
    have e := next_ric hs b
    have h2 := ih (s.next b) (e ▸ h.next) fun t ht => hc t (by simp [ht])
    have hp : (s.predict b).P.PosDef := by
      simp only [LinStep.predict, hs.1, hs.2.2.1]; exact h.prior hQ hR
    have hQ' : s.Q.PosSemidef := hs.2.2.1 ▸ hQ
    have hR' : s.R.PosDef := hs.2.2.2 ▸ hR
    have hW := futureInfo_psd ss (fun t ht => (hc t (by simp [ht])).2.2.1 ▸ hQ) fun t ht => (hc t (by simp [ht])).2.2.2 ▸ hR
    refine rtsStep_combines b s _ _ h.pd hQ' hp (Info.measure_psd hR' hW) ?_
    have := (update_combines s (s.predict b) hp hR').trans h2
    simp only [Info.measure, zero_add] at this ⊢
    rw [add_comm (s.Hᵀ * s.R⁻¹ * s.H), add_comm ((s.Hᵀ * s.R⁻¹) *ᵥ s.z)] at this
    exact this

/-- The information matrix of the later steps depends on their number only. -/
theorem futureInfo_const {ss tt : List (LinStep n m)} (hs : ConstantModel A H Q R ss) (ht : ConstantModel A H Q R tt)
    (hl : ss.length = tt.length) : (futureInfo ss).Y = (futureInfo tt).Y := by
  induction ss generalizing tt with
  | nil => rw [List.length_eq_zero_iff.1 hl.symm]
  | cons s ss ih =>
    cases tt with
    | nil => simp at hl
    | cons t tt =>
      obtain ⟨a1, a2, a3, a4⟩ := hs s (by simp)
      obtain ⟨b1, b2, b3, b4⟩ := ht t (by simp)
      have := ih (tt := tt) (fun s hs' => hs s (by simp [hs'])) (fun s hs' => ht s (by simp [hs'])) (by simpa using hl)
      simp only [futureInfo, Info.pull, Info.measure, this, a1, a2, a3, a4, b1, b2, b3, b4]

/-- The smoothed covariance is at most the filtered one. -/
theorem Combines.le {f q : Belief n} {i : Info n} (h : Combines f q i) (hf : f.P.PosDef) (hi : i.Y.PosSemidef) :
    (f.P - q.P).PosSemidef := by
  have h1 := inv_anti (R := f.P⁻¹) (R' := f.P⁻¹ + i.Y) hf.inv (by rwa [add_sub_cancel_left])
  rwa [← h.2.1, nonsing_inv_nonsing_inv _ (posDef_isUnit_det hf), nonsing_inv_nonsing_inv _ (posDef_isUnit_det h.1)] at h1

/-- Two smoothed covariances with the same later information. -/
theorem combines_close {f q f' q' : Belief n} {i i' : Info n} (h : Combines f q i) (h' : Combines f' q' i') (hi : i.Y = i'.Y)
    (hf : f.P.PosDef) (hf' : f'.P.PosDef) : q.P - q'.P = q.P * f.P⁻¹ * (f.P - f'.P) * (f'.P⁻¹ * q'.P) := by
  have u1 := nonsing_inv_mul _ (posDef_isUnit_det hf)
  have u2 := mul_nonsing_inv _ (posDef_isUnit_det hf')
  have u3 := mul_nonsing_inv _ (posDef_isUnit_det h.1)
  have u4 := nonsing_inv_mul _ (posDef_isUnit_det h'.1)
  have e : f.P⁻¹ * (f.P - f'.P) * f'.P⁻¹ = f'.P⁻¹ - f.P⁻¹ := by
    rw [Matrix.mul_sub, Matrix.sub_mul, u1, Matrix.one_mul, Matrix.mul_assoc, u2, Matrix.mul_one]
  have e2 : f'.P⁻¹ - f.P⁻¹ = q'.P⁻¹ - q.P⁻¹ := by rw [h.2.1, h'.2.1, hi]; abel
  calc q.P - q'.P = q.P * (q'.P⁻¹ - q.P⁻¹) * q'.P := by
        rw [Matrix.mul_sub, Matrix.sub_mul, u3, Matrix.one_mul, Matrix.mul_assoc, u4, Matrix.mul_one]
    _ = _ := by rw [← e2, ← e]; simp only [Matrix.mul_assoc]

theorem Uniform.lasting {c δ : ℝ} (u : Uniform A Q H R c δ) {P : Matrix (Fin n) (Fin n) ℝ} (hP : P.PosSemidef) {j : ℕ} (hj : n ≤ j) :
    Lasting A Q H R ((ric A H Q R)^[j] P) := fun i => by
  rw [← Function.iterate_add_apply]; exact u.pd hP (by omega)

theorem Uniform.entry {c δ : ℝ} (u : Uniform A Q H R c δ) {P : Matrix (Fin n) (Fin n) ℝ} (hP : P.PosSemidef) {j : ℕ} (hj : n ≤ j)
    (a b : Fin n) : |((ric A H Q R)^[j] P) a b| ≤ c :=
  psd_entry u.c_pos.le (u.pd hP hj).posSemidef (u.upper P hP j hj) a b

theorem Uniform.inv_entry {c δ : ℝ} (u : Uniform A Q H R c δ) {P : Matrix (Fin n) (Fin n) ℝ} (hP : P.PosSemidef) {j : ℕ} (hj : n ≤ j)
    (a b : Fin n) : |(((ric A H Q R)^[j] P)⁻¹) a b| ≤ c :=
  psd_entry u.c_pos.le (u.pd hP hj).inv.posSemidef (inv_upper u.c_pos (u.lower P hP j hj)) a b

/-- The influence of later changes decays. -/
theorem Uniform.backTo {c δ : ℝ} (u : Uniform A Q H R c δ) (hQ : Q.PosSemidef) (hR : R.PosDef) :
    ∃ C ρ : ℝ, 0 < C ∧ 0 < ρ ∧ ρ < 1 ∧ ∀ P : Matrix (Fin n) (Fin n) ℝ, P.PosSemidef → ∀ j, n ≤ j → ∀ (L : ℕ) (a b : Fin n),
      |backTo A Q H R ((ric A H Q R)^[j] P) L a b| ≤ C * ρ ^ L := by
  obtain ⟨C, ρ, hC, h0, h1, hd⟩ := u.decay hQ hR
  have hc := u.c_pos
  refine ⟨n * (n * c * (C * n)) * c + 1, ρ, by positivity, h0, h1, fun P hP j hj L a b => ?_⟩
  have hent : ∀ a b, |(prop A Q H R ((ric A H Q R)^[j] P) L)ᵀ a b| ≤ C * n * ρ ^ L := fun a b => by
    have h1 := transpose_decay hC h0 hd hP hj L (Pi.single b 1)
    have h2 := norm_le_pi_norm ((prop A Q H R ((ric A H Q R)^[j] P) L)ᵀ *ᵥ Pi.single b 1) a
    have h3 : ‖(Pi.single b 1 : Fin n → ℝ)‖ ≤ 1 := by
      refine (pi_norm_le_iff_of_nonneg zero_le_one).2 fun i => ?_
      by_cases hi : i = b
      · subst hi; simp
      · simp [Pi.single_eq_of_ne hi]
    rw [mulVec_single_one] at h1 h2
    exact (h2.trans h1).trans ((mul_le_mul_of_nonneg_left h3 (by positivity)).trans (mul_one _).le)
  have h2 := mul_entry_bound hc.le (u.entry hP hj) hent
  have h3 : ∀ a b, |(((ric A H Q R)^[L] ((ric A H Q R)^[j] P))⁻¹) a b| ≤ c := by
    rw [← Function.iterate_add_apply]; exact u.inv_entry hP (by omega)
  have h4 := mul_entry_bound (by positivity) h2 h3 a b
  refine h4.trans ?_
  have : 0 ≤ ρ ^ L := by positivity
  rw [add_mul]
  refine le_trans (le_of_eq (by ring)) (le_add_of_nonneg_right (by linarith))

/-- The smoothed covariance: the influence of later steps, and of the filtered covariance. -/
theorem Uniform.frontCov {c δ : ℝ} (u : Uniform A Q H R c δ) (hQ : Q.PosSemidef) (hR : R.PosDef) :
    ∃ C ρ : ℝ, 0 ≤ C ∧ 0 < ρ ∧ ρ < 1 ∧ (∀ (b : Belief n) (P : Matrix (Fin n) (Fin n) ℝ) (j : ℕ) (ss tt : List (LinStep n m)),
        P.PosSemidef → n ≤ j → b.P = (ric A H Q R)^[j] P → ConstantModel A H Q R (ss ++ tt) →
        ∀ a d, |(front b (ss ++ tt)).P a d - (front b ss).P a d| ≤ C * ρ ^ ss.length) ∧
      ∀ (b b' : Belief n) (P P' : Matrix (Fin n) (Fin n) ℝ) (j : ℕ) (ss tt : List (LinStep n m)),
        P.PosSemidef → P'.PosSemidef → n ≤ j → b.P = (ric A H Q R)^[j] P → b'.P = (ric A H Q R)^[j] P' →
        ConstantModel A H Q R ss → ConstantModel A H Q R tt → ss.length = tt.length →
        ∀ a d, |(front b ss).P a d - (front b' tt).P a d| ≤ C * ρ ^ j := by
  obtain ⟨C, ρ, hC, h0, h1, hb⟩ := u.backTo hQ hR
  obtain ⟨C', ρ', hC', h0', h1', hd⟩ := u.cov_decay hQ hR
  have hc := u.c_pos
  have hle : ∀ (b : Belief n) (P : Matrix (Fin n) (Fin n) ℝ) (j : ℕ) (ss : List (LinStep n m)), P.PosSemidef → n ≤ j →
      b.P = (ric A H Q R)^[j] P → ConstantModel A H Q R ss →
      (b.P - (front b ss).P).PosSemidef ∧ (front b ss).P.PosSemidef ∧ ∀ a d, |(front b ss).P a d| ≤ c := by
    intro b P j ss hP hj hbP hcm
    have hl := hbP ▸ u.lasting hP hj
    have hcb := front_combines hQ hR b hl ss hcm
    have hY := futureInfo_psd ss (fun s hs => (hcm s hs).2.2.1 ▸ hQ) fun s hs => (hcm s hs).2.2.2 ▸ hR
    have h1 := hcb.le hl.pd hY
    refine ⟨h1, hcb.1.posSemidef, psd_entry hc.le hcb.1.posSemidef ?_⟩
    have h2 := u.upper P hP j hj
    rw [← hbP] at h2
    exact psd_trans h1 h2
  refine ⟨n * (n * C * c) * C + n * (n * (n * c * c) * C') * (n * c * c), max (ρ ^ 1) ρ', by positivity, lt_max_of_lt_right h0',
    max_lt (by simpa using h1) h1', ?_, ?_⟩
  · intro b P j ss tt hP hj hbP hcm a d
    have hcs : ConstantModel A H Q R ss := fun s hs => hcm s (by simp [hs])
    have hct : ConstantModel A H Q R tt := fun s hs => hcm s (by simp [hs])
    have e := (front_append hQ hR b (hbP ▸ u.lasting hP hj) ss tt hcs).2
    rw [← Matrix.sub_apply, e]
    have hlP : (lastOf b ss).P = (ric A H Q R)^[ss.length + j] P := by
      have := lastOf_const hcs b ss.length le_rfl
      rwa [List.take_length, hbP, ← Function.iterate_add_apply] at this
    obtain ⟨g1, g2, g3⟩ := hle (lastOf b ss) P _ tt hP (by omega) hlP hct
    have hbt := hbP ▸ hb P hP j hj ss.length
    have hdiff : ∀ a d, |((front (lastOf b ss) tt).P - (lastOf b ss).P) a d| ≤ c := by
      have hu := u.upper P hP (ss.length + j) (by omega)
      rw [← hlP] at hu
      have := psd_entry (M := (lastOf b ss).P - (front (lastOf b ss) tt).P) hc.le g1 (by
        have := hu.add g2
        convert this using 1; abel)
      intro a d
      rw [← abs_neg, ← Matrix.neg_apply, neg_sub]; exact this a d
    have k1 := mul_entry_bound (by positivity) hbt hdiff
    have k2 := mul_entry_bound (by positivity) k1 (N := (_root_.KK.backTo A Q H R b.P ss.length)ᵀ) (β := C * 1) (fun a d => by
      refine (hbt d a).trans (mul_le_mul_of_nonneg_left (pow_le_one₀ h0.le h1.le) hC.le)) a d
    refine k2.trans ?_
    have h3 : ρ ^ ss.length ≤ max (ρ ^ 1) ρ' ^ ss.length := pow_le_pow_left₀ h0.le (by rw [pow_one]; exact le_max_left _ _) _
    have h4 : 0 ≤ n * (n * (n * c * c) * C') * (n * c * c) * max (ρ ^ 1) ρ' ^ ss.length := by positivity
    have h5 : n * (n * C * c) * C * ρ ^ ss.length ≤ n * (n * C * c) * C * max (ρ ^ 1) ρ' ^ ss.length :=
      mul_le_mul_of_nonneg_left h3 (by positivity)
    nlinarith
  · intro b b' P P' j ss tt hP hP' hj hbP hbP' hcs hct hl a d
    have l1 := hbP ▸ u.lasting hP hj
    have l2 := hbP' ▸ u.lasting hP' hj
    have c1 := front_combines hQ hR b l1 ss hcs
    have c2 := front_combines hQ hR b' l2 tt hct
    have e := combines_close c1 c2 (futureInfo_const hcs hct hl) l1.pd l2.pd
    rw [← Matrix.sub_apply, e]
    obtain ⟨-, -, g1⟩ := hle b P j ss hP hj hbP hcs
    obtain ⟨-, -, g2⟩ := hle b' P' j tt hP' hj hbP' hct
    have i1 := hbP ▸ u.inv_entry hP hj
    have i2 := hbP' ▸ u.inv_entry hP' hj
    have d1 : ∀ a d, |(b.P - b'.P) a d| ≤ C' * ρ' ^ j := fun a d => by
      rw [hbP, hbP', Matrix.sub_apply]; exact hd P P' hP hP' j hj a d
    have k1 := mul_entry_bound (by positivity) (mul_entry_bound hc.le g1 i1) d1
    have k2 := mul_entry_bound (by positivity) k1 (mul_entry_bound hc.le i2 g2) a d
    refine k2.trans ?_
    have h3 : ρ' ^ j ≤ max (ρ ^ 1) ρ' ^ j := pow_le_pow_left₀ h0'.le (le_max_right _ _) _
    have h4 : 0 ≤ n * (n * C * c) * C * max (ρ ^ 1) ρ' ^ j := by positivity
    have h5 : n * (n * (n * c * c) * C') * (n * c * c) * ρ' ^ j ≤ n * (n * (n * c * c) * C') * (n * c * c) * max (ρ ^ 1) ρ' ^ j :=
      mul_le_mul_of_nonneg_left h3 (by positivity)
    nlinarith

end KK
