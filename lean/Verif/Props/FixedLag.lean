import Verif.Proofs.FixedLag

/-!
# C111, C112: fixed-lag smoothing, and the smoothed covariances in the middle of a long run
-/

set_option linter.unusedSectionVars false

namespace KK

open Matrix Filter Topology

variable {n m : ℕ}

/-- If enough steps precede, later predicted covariances are invertible. -/
theorem Uniform.rtsSolvable {A Q : Matrix (Fin n) (Fin n) ℝ} {H : Matrix (Fin m) (Fin n) ℝ} {R : Matrix (Fin m) (Fin m) ℝ}
    {b : Belief n} (h : Lasting A Q H R b.P) (hQ : Q.PosSemidef) (hR : R.PosDef) {ss : List (LinStep n m)}
    (hc : ConstantModel A H Q R ss) : RtsSolvable b ss := by
  induction ss generalizing b with
  | nil => trivial
  | cons s ss ih =>
    have hs := hc s (by simp)
    refine ⟨?_, ih (next_ric hs b ▸ h.next) fun t ht => hc t (by simp [ht])⟩
    simp only [LinStep.predict, hs.1, hs.2.2.1]
    exact posDef_det_ne (h.prior hQ hR)

theorem psd_of_tendsto {P : ℕ → Matrix (Fin n) (Fin n) ℝ} {F : Matrix (Fin n) (Fin n) ℝ} (h : ∀ k, (P k).PosSemidef)
    (hT : Tendsto P atTop (𝓝 F)) : F.PosSemidef := by
  have hc : ∀ v : Fin n → ℝ, Continuous fun M : Matrix (Fin n) (Fin n) ℝ => v ⬝ᵥ (M *ᵥ v) := fun v =>
    continuous_const.dotProduct (continuous_id.matrix_mulVec continuous_const)
  refine Matrix.posSemidef_iff_dotProduct_mulVec.2 ⟨?_, fun v => ?_⟩
  · have h1 : Tendsto (fun k => (P k)ᵀ) atTop (𝓝 Fᵀ) := (continuous_id.matrix_transpose.tendsto F).comp hT
    have h2 : (fun k => (P k)ᵀ) = P := funext fun k => IsHermitian.symm' (h k).1
    rw [h2] at h1
    exact isHermitian_of_symm (tendsto_nhds_unique h1 hT)
  · rw [star_trivial]
    refine ge_of_tendsto' (((hc v).tendsto _).comp hT) fun k => ?_
    have := (h k).dotProduct_mulVec_nonneg v
    rwa [star_trivial] at this

theorem lastOf_append (b : Belief n) (ss tt : List (LinStep n m)) : lastOf b (ss ++ tt) = lastOf (lastOf b ss) tt := by
  induction ss generalizing b with
  | nil => rfl
  | cons s ss ih => simp only [List.cons_append, lastOf, ih]

variable [Platform]

/-- C111: a constant model with PSD `Q` and PD `R`, observable and controllable; `smooth` is called on the data `ss`, and again when
the further data `tt` have arrived.  (Either both calls raise LinAlgError, or:)  the smoothed belief of a time `k` (`k ≥ n`, counting
from one) hardly changes if it lies far from the end of the first run: the covariance changes by at most `C ρ^(N-k)`, and the mean by
at most `C ρ^(N-k) r` where `r` bounds the change of the estimate of time `N`, the end of the first run.  `C` and `ρ < 1` depend on the
model only. -/
theorem C111_fixed_lag (A Q : Matrix (Fin n) (Fin n) ℝ) (H : Matrix (Fin m) (Fin n) ℝ) (R : Matrix (Fin m) (Fin m) ℝ)
    (hQ : Q.PosSemidef) (hR : R.PosDef) (hc : Controllable A Q) (ho : Observable A H) :
    ∃ C ρ : ℝ, 0 < ρ ∧ ρ < 1 ∧
      ∀ (kf kf' : KalmanFilter Fl) (Z Z' : NDArray Fl) (U U' : Option (NDArray Fl)) (b : Belief n) (ss tt : List (LinStep n m)),
        Represents kf Z U b ss → Represents kf' Z' U' b (ss ++ tt) → b.P.PosSemidef → ConstantModel A H Q R (ss ++ tt) →
        ss ≠ [] → n ≤ ss.length → ss.length = Z.rows.length → (ss ++ tt).length = Z'.rows.length →
        (SmoothSingular kf Z U ∧ SmoothSingular kf' Z' U') ∨
        ∃ (qs qs' : List (Belief n)) (Ks Ks' : List (Matrix (Fin n) (Fin m) ℝ)), SmoothReturns kf Z U qs Ks ∧
          SmoothReturns kf' Z' U' qs' Ks' ∧ qs.length = ss.length ∧ qs'.length = (ss ++ tt).length ∧
          ∀ k q q' p p', n ≤ k + 1 → qs[k]? = some q → qs'[k]? = some q' → qs[ss.length - 1]? = some p →
            qs'[ss.length - 1]? = some p' →
            (∀ i j, |q.P i j - q'.P i j| ≤ C * ρ ^ (ss.length - 1 - k)) ∧
            ∀ r : ℝ, (∀ i, |p.x i - p'.x i| ≤ r) → ∀ i, |q.x i - q'.x i| ≤ C * ρ ^ (ss.length - 1 - k) * r := by
  obtain ⟨c, δ, u⟩ := exists_uniform (A := A) (H := H) hQ hR hc ho
  obtain ⟨C₁, ρ₁, hC₁, h10, h11, hb⟩ := u.backTo hQ hR
  obtain ⟨C₂, ρ₂, hC₂, h20, h21, hcov, -⟩ := u.frontCov hQ hR
  have hm0 : 0 < max ρ₁ ρ₂ := lt_max_of_lt_left h10
  refine ⟨C₁ * n + C₂, max ρ₁ ρ₂, hm0, max_lt h11 h21,
    fun kf kf' Z Z' U U' b ss tt h h' hP hcm hne hn hl hl' => ?_⟩
  have hcs : ConstantModel A H Q R ss := fun s hs => hcm s (by simp [hs])
  have hct : ConstantModel A H Q R tt := fun s hs => hcm s (by simp [hs])
  have hs1 : Solvable b ss := solvable_psd hP (fun s hs => (hcs s hs).2.2.1 ▸ hQ) fun s hs => (hcs s hs).2.2.2 ▸ hR
  have hs2 : Solvable b (ss ++ tt) := solvable_psd hP (fun s hs => (hcm s hs).2.2.1 ▸ hQ) fun s hs => (hcm s hs).2.2.2 ▸ hR
  have hne' : ss ++ tt ≠ [] := by simp [hne]
  have hlP : ∀ k ≤ ss.length, (lastOf b (ss.take k)).P = (ric A H Q R)^[k] b.P := fun k hk => lastOf_const hcs b k hk
  have hlast : Lasting A Q H R (lastOf b ss).P := by
    have := hlP ss.length le_rfl
    rw [List.take_length] at this
    rw [this]; exact u.lasting hP hn
  have hiff : SmoothSolvable b (ss ++ tt) ↔ SmoothSolvable b ss := by
    cases ss with
    | nil => exact absurd rfl hne
    | cons s ss =>
      simp only [List.cons_append, SmoothSolvable]
      rw [rtsSolvable_append]
      exact and_iff_left (Uniform.rtsSolvable hlast hQ hR hct)
  by_cases hsm : SmoothSolvable b ss
  · right
    refine ⟨_, _, _, _, h.smoothReturns hl hne hs1 hsm, h'.smoothReturns hl' hne' hs2 (hiff.2 hsm), smoothed_length _ _,
      smoothed_length _ _, fun k q q' p p' hk hq hq' hp hp' => ?_⟩
    obtain ⟨k1, rfl⟩ := smoothed_get hq
    obtain ⟨k2, rfl⟩ := smoothed_get hq'
    obtain ⟨k3, rfl⟩ := smoothed_get hp
    obtain ⟨k4, rfl⟩ := smoothed_get hp'
    obtain ⟨N, hN⟩ : ∃ N, ss.length = N + 1 := ⟨ss.length - 1, by omega⟩
    have eN : ss.length - 1 + 1 = ss.length := by omega
    have hkk : k + 1 ≤ ss.length := k1
    rw [eN, List.take_append_of_le_length hkk, List.drop_append_of_le_length hkk, List.take_length, List.drop_length,
      List.take_left, List.drop_left]
    have hPk := hlP (k + 1) hkk
    have hck : ConstantModel A H Q R (ss.drop (k + 1)) := fun s hs => hcs s (List.mem_of_mem_drop hs)
    have hckt : ConstantModel A H Q R (ss.drop (k + 1) ++ tt) := fun s hs => by
      rcases List.mem_append.1 hs with h | h
      exacts [hck s h, hct s h]
    have elen : (ss.drop (k + 1)).length = ss.length - 1 - k := by rw [List.length_drop]; omega
    have hlk : lastOf (lastOf b (ss.take (k + 1))) (ss.drop (k + 1)) = lastOf b ss := by
      rw [← lastOf_append, List.take_append_drop]
    constructor
    · intro i j
      have := hcov _ b.P (k + 1) (ss.drop (k + 1)) tt hP hk hPk hckt i j
      rw [abs_sub_comm, ← elen]
      refine this.trans ?_
      have h1 : ρ₂ ^ (ss.drop (k + 1)).length ≤ max ρ₁ ρ₂ ^ (ss.drop (k + 1)).length := pow_le_pow_left₀ h20.le (le_max_right _ _) _
      have h2 : 0 ≤ C₁ * n * max ρ₁ ρ₂ ^ (ss.drop (k + 1)).length := by positivity
      have h3 := mul_le_mul_of_nonneg_left h1 hC₂
      rw [add_mul]; linarith
    · intro r hr i
      have hr0 : 0 ≤ r := (abs_nonneg _).trans (hr i)
      have e := (front_append hQ hR _ (hPk ▸ u.lasting hP hk) (ss.drop (k + 1)) tt hck).1
      rw [hlk, elen, hPk] at e
      have hr' : ‖(front (lastOf b ss) tt).x - (lastOf b ss).x‖ ≤ r := by
        rw [← abs_le_iff_norm hr0]
        intro i
        have := hr i
        rwa [abs_sub_comm] at this
      have h1 := mulVec_norm_le (by positivity) (hb b.P hP (k + 1) hk (ss.length - 1 - k)) ((front (lastOf b ss) tt).x - (lastOf b ss).x)
      rw [← e] at h1
      have h2 : ‖(front (lastOf b (ss.take (k + 1))) (ss.drop (k + 1) ++ tt)).x - (front (lastOf b (ss.take (k + 1))) (ss.drop (k + 1))).x‖ ≤
          (C₁ * n + C₂) * max ρ₁ ρ₂ ^ (ss.length - 1 - k) * r := by
        refine h1.trans ((mul_le_mul_of_nonneg_left hr' (by positivity)).trans (mul_le_mul_of_nonneg_right ?_ hr0))
        have h3 : ρ₁ ^ (ss.length - 1 - k) ≤ max ρ₁ ρ₂ ^ (ss.length - 1 - k) := pow_le_pow_left₀ h10.le (le_max_left _ _) _
        have h4 := mul_le_mul_of_nonneg_left h3 (by positivity : 0 ≤ C₁ * n)
        have h5 : 0 ≤ C₂ * max ρ₁ ρ₂ ^ (ss.length - 1 - k) := by positivity
        linarith
      have h3 := (abs_le_iff_norm (by positivity)).2 h2 i
      rw [abs_sub_comm]; exact h3
  · exact .inl ⟨h.smoothSingular hl hne fun hh => hsm hh.2, h'.smoothSingular hl' hne' fun hh => hsm (hiff.1 hh.2)⟩

/-- C111 with bounded data: if moreover the filtered estimate of a time `j ≤ k` (`j ≥ n`, counting from one) is at most `r` in every
component and all later measurements and control contributions are at most `D`, then the smoothed estimate of time `k` changes by at
most `C ρ^(N-k) (r + D)` when the data after `N` arrive, however many they are. -/
theorem C111_bounded_data (A Q : Matrix (Fin n) (Fin n) ℝ) (H : Matrix (Fin m) (Fin n) ℝ) (R : Matrix (Fin m) (Fin m) ℝ)
    (hQ : Q.PosSemidef) (hR : R.PosDef) (hc : Controllable A Q) (ho : Observable A H) :
    ∃ C ρ : ℝ, 0 < ρ ∧ ρ < 1 ∧
      ∀ (kf kf' : KalmanFilter Fl) (Z Z' : NDArray Fl) (U U' : Option (NDArray Fl)) (b : Belief n) (ss tt : List (LinStep n m)),
        Represents kf Z U b ss → Represents kf' Z' U' b (ss ++ tt) → b.P.PosSemidef → ConstantModel A H Q R (ss ++ tt) →
        ss ≠ [] → n ≤ ss.length → ss.length = Z.rows.length → (ss ++ tt).length = Z'.rows.length →
        (SmoothSingular kf Z U ∧ SmoothSingular kf' Z' U') ∨
        ∃ (bs qs qs' : List (Belief n)) (Ks Ks' : List (Matrix (Fin n) (Fin m) ℝ)), FilterReturns kf Z U bs Ks ∧
          SmoothReturns kf Z U qs Ks ∧ SmoothReturns kf' Z' U' qs' Ks' ∧ bs.length = ss.length ∧ qs.length = ss.length ∧
          qs'.length = (ss ++ tt).length ∧
          ∀ j k f q q', n ≤ j + 1 → j ≤ k → bs[j]? = some f → qs[k]? = some q → qs'[k]? = some q' →
            ∀ r D : ℝ, 0 ≤ D → DataWithin (ss ++ tt) j (ss ++ tt).length D → (∀ i, |f.x i| ≤ r) →
              ∀ i, |q.x i - q'.x i| ≤ C * ρ ^ (ss.length - 1 - k) * (r + D) := by
  obtain ⟨c, δ, u⟩ := exists_uniform (A := A) (H := H) hQ hR hc ho
  obtain ⟨C, ρ, hC, h0, h1, hd⟩ := u.decay hQ hR
  obtain ⟨C₁, ρ₁, hC₁, h10, h11, hrun⟩ := run_bound u hQ hR
  obtain ⟨κ, hκ, hK⟩ := exists_mulVec_bound (Hᵀ * R⁻¹)
  obtain ⟨η, hη, hH⟩ := exists_mulVec_bound H
  obtain ⟨α, hα, hA⟩ := exists_mulVec_bound A
  have hc0 := u.c_pos
  refine ⟨c * n * (C * n * (κ * (1 + η * (α * C₁ + 1))) * (1 - ρ)⁻¹), ρ, h0, h1,
    fun kf kf' Z Z' U U' b ss tt h h' hP hcm hne hn hl hl' => ?_⟩
  have hcs : ConstantModel A H Q R ss := fun s hs => hcm s (by simp [hs])
  have hct : ConstantModel A H Q R tt := fun s hs => hcm s (by simp [hs])
  have hs1 : Solvable b ss := solvable_psd hP (fun s hs => (hcs s hs).2.2.1 ▸ hQ) fun s hs => (hcs s hs).2.2.2 ▸ hR
  have hs2 : Solvable b (ss ++ tt) := solvable_psd hP (fun s hs => (hcm s hs).2.2.1 ▸ hQ) fun s hs => (hcm s hs).2.2.2 ▸ hR
  have hne' : ss ++ tt ≠ [] := by simp [hne]
  have hlP : ∀ k ≤ ss.length, (lastOf b (ss.take k)).P = (ric A H Q R)^[k] b.P := fun k hk => lastOf_const hcs b k hk
  have hlast : Lasting A Q H R (lastOf b ss).P := by
    have := hlP ss.length le_rfl
    rw [List.take_length] at this
    rw [this]; exact u.lasting hP hn
  have hiff : SmoothSolvable b (ss ++ tt) ↔ SmoothSolvable b ss := by
    cases ss with
    | nil => exact absurd rfl hne
    | cons s ss =>
      simp only [List.cons_append, SmoothSolvable]
      rw [rtsSolvable_append]
      exact and_iff_left (Uniform.rtsSolvable hlast hQ hR hct)
  by_cases hsm : SmoothSolvable b ss
  · right
    refine ⟨_, _, _, _, _, h.returns hs1, h.smoothReturns hl hne hs1 hsm, h'.smoothReturns hl' hne' hs2 (hiff.2 hsm), filtered_length _ _,
      smoothed_length _ _, smoothed_length _ _, fun j k f q q' hj hjk hf hq hq' r D hD hdat hr i => ?_⟩
    obtain ⟨k1, rfl⟩ := smoothed_get hq
    obtain ⟨k2, rfl⟩ := smoothed_get hq'
    obtain ⟨k3, rfl⟩ := filtered_lastOf hf
    have hr0 : 0 ≤ r := (abs_nonneg _).trans (hr i)
    have hkk : k + 1 ≤ ss.length := k1
    rw [List.take_append_of_le_length hkk, List.drop_append_of_le_length hkk]
    have hk : n ≤ k + 1 := by omega
    have hPk := hlP (k + 1) hkk
    have hck : ConstantModel A H Q R (ss.drop (k + 1)) := fun s hs => hcs s (List.mem_of_mem_drop hs)
    have elen : (ss.drop (k + 1)).length = ss.length - 1 - k := by rw [List.length_drop]; omega
    have hlk : lastOf (lastOf b (ss.take (k + 1))) (ss.drop (k + 1)) = lastOf b ss := by
      rw [← lastOf_append, List.take_append_drop]
    have hPN : (lastOf b ss).P = (ric A H Q R)^[ss.length - 1 - k] ((ric A H Q R)^[k + 1] b.P) := by
      have := hlP ss.length le_rfl
      rw [List.take_length] at this
      rw [this, ← Function.iterate_add_apply]
      congr 1; omega
    have e := (front_append hQ hR _ (hPk ▸ u.lasting hP hk) (ss.drop (k + 1)) tt hck).1
    rw [hlk, elen, hPk, front_adjoint hQ hR _ hlast tt hct, backTo, ← hPN, mulVec_mulVec, Matrix.mul_assoc,
      nonsing_inv_mul _ (posDef_isUnit_det hlast.pd), Matrix.mul_one, ← mulVec_mulVec] at e
    -- the innovations after the first run
    have hinn : ∀ t s, tt[t]? = some s → ‖(Hᵀ * R⁻¹) *ᵥ (s.z - H *ᵥ (A *ᵥ (lastOf (lastOf b ss) (tt.take t)).x + s.c))‖ ≤
        κ * (1 + η * (α * C₁ + 1)) * (r + D) := by
      intro t s hts
      have htl : t < tt.length := (List.getElem?_eq_some_iff.1 hts).1
      have hx : ‖(lastOf (lastOf b ss) (tt.take t)).x‖ ≤ C₁ * (r + D) := by
        have hlen : ss.length - 1 + t < (ss ++ tt).length := by rw [List.length_append]; omega
        have := hrun b (ss ++ tt) hP hcm j (ss.length - 1 + t) hj (by omega) hlen D hD
          (fun l s h1 h2 h3 => hdat l s h1 (by omega) h3)
        have e1 : (ss ++ tt).take (ss.length - 1 + t + 1) = ss ++ tt.take t := by
          rw [show ss.length - 1 + t + 1 = ss.length + t by omega, List.take_length_add_append]
        rw [e1, lastOf_append, List.take_append_of_le_length (by omega)] at this
        refine this.trans ?_
        rw [abs_le_iff_norm hr0] at hr
        have h2 : ρ₁ ^ (ss.length - 1 + t - j) ≤ 1 := pow_le_one₀ h10.le h11.le
        have h3 : C₁ * ρ₁ ^ (ss.length - 1 + t - j) * ‖(lastOf b (ss.take (j + 1))).x‖ ≤ C₁ * 1 * r := by gcongr
        linarith
      obtain ⟨hz, hu⟩ := hdat (ss.length + t) s (by omega) (by rw [List.length_append]; omega) (by
        rw [List.getElem?_append_right (by omega), Nat.add_sub_cancel_left]; exact hts)
      rw [abs_le_iff_norm hD] at hz hu
      refine (hK _).trans ?_
      rw [mul_assoc κ]
      refine mul_le_mul_of_nonneg_left ?_ hκ
      refine (norm_sub_le _ _).trans ?_
      have h2 := (hH (A *ᵥ (lastOf (lastOf b ss) (tt.take t)).x + s.c))
      have h3 : ‖A *ᵥ (lastOf (lastOf b ss) (tt.take t)).x + s.c‖ ≤ α * (C₁ * (r + D)) + D :=
        (norm_add_le _ _).trans (add_le_add ((hA _).trans (mul_le_mul_of_nonneg_left hx hα)) hu)
      have h4 := h2.trans (mul_le_mul_of_nonneg_left h3 hη)
      have h5 : 0 ≤ η * r := by positivity
      nlinarith
    have hadj := adjoint_bound hC h0 h1 hd hP hk (by positivity) tt hct (lastOf b ss) (ss.length - 1 - k) hPN hinn
    have hfin := mulVec_norm_le hc0.le (u.entry hP hk) ((prop A Q H R ((ric A H Q R)^[k + 1] b.P) (ss.length - 1 - k))ᵀ *ᵥ adjoint A Q H R (lastOf b ss) tt)
    rw [← e] at hfin
    have h2 := hfin.trans (mul_le_mul_of_nonneg_left hadj (by positivity))
    have h3 : ‖(front (lastOf b (ss.take (k + 1))) (ss.drop (k + 1) ++ tt)).x - (front (lastOf b (ss.take (k + 1))) (ss.drop (k + 1))).x‖ ≤
        c * n * (C * n * (κ * (1 + η * (α * C₁ + 1))) * (1 - ρ)⁻¹) * ρ ^ (ss.length - 1 - k) * (r + D) :=
      h2.trans (le_of_eq (by ring))
    have hρ : 0 < (1 - ρ)⁻¹ := inv_pos.2 (by linarith)
    have h4 := (abs_le_iff_norm (by positivity)).2 h3 i
    rw [abs_sub_comm]; exact h4
  · exact .inl ⟨h.smoothSingular hl hne fun hh => hsm hh.2, h'.smoothSingular hl' hne' fun hh => hsm (hiff.1 hh.2)⟩

/-- C112: a constant model with PSD `Q` and PD `R`, observable and controllable.  There is one matrix `S` - the steady-state smoothed
covariance, at most the steady-state covariance of the filter - such that in every run of any length the smoothed covariance of
a time far from both ends is close to `S`: time `k` (`k ≥ n`, counting from one) of `N` is within `C (ρ^k + ρ^(N-k))`.  `C` and
`ρ < 1` depend on the model only. -/
theorem C112_steady_smoother (A Q : Matrix (Fin n) (Fin n) ℝ) (H : Matrix (Fin m) (Fin n) ℝ) (R : Matrix (Fin m) (Fin m) ℝ)
    (hQ : Q.PosSemidef) (hR : R.PosDef) (hc : Controllable A Q) (ho : Observable A H) :
    ∃ (F S : Matrix (Fin n) (Fin n) ℝ) (C ρ : ℝ), F.PosDef ∧ SteadyState A H Q R F ∧ S.PosSemidef ∧ (F - S).PosSemidef ∧ 0 < ρ ∧ ρ < 1 ∧
      ∀ (kf : KalmanFilter Fl) (Z : NDArray Fl) (U : Option (NDArray Fl)) (b : Belief n) (ss : List (LinStep n m)),
        Represents kf Z U b ss → b.P.PosSemidef → ConstantModel A H Q R ss → ss ≠ [] → ss.length = Z.rows.length →
        SmoothSingular kf Z U ∨
        ∃ (qs : List (Belief n)) (Ks : List (Matrix (Fin n) (Fin m) ℝ)), SmoothReturns kf Z U qs Ks ∧ qs.length = ss.length ∧
          ∀ k q, n ≤ k + 1 → qs[k]? = some q → ∀ i j, |q.P i j - S i j| ≤ C * (ρ ^ (k + 1) + ρ ^ (ss.length - 1 - k)) := by
  obtain ⟨c, δ, u⟩ := exists_uniform (A := A) (H := H) hQ hR hc ho
  obtain ⟨C, ρ, hC, h0, h1, hcov, hclose⟩ := u.frontCov hQ hR
  obtain ⟨F, hF, hS⟩ := exists_steady (A := A) (H := H) hQ hR ho
  have hFi : ∀ k, (ric A H Q R)^[k] F = F := fun k => steady_iter hS k
  have hlast : Lasting A Q H R F := by have := u.lasting hF (le_refl n); rwa [hFi] at this
  -- the steady state with `L` later steps
  obtain ⟨s₀, hs₀⟩ : ∃ s₀ : LinStep n m, s₀ = ⟨A, 0, H, Q, R, 0⟩ := ⟨_, rfl⟩
  have hrep : ∀ L, ConstantModel A H Q R (List.replicate L s₀) := fun L s hs => by
    obtain rfl := List.eq_of_mem_replicate hs
    rw [hs₀]; exact ⟨rfl, rfl, rfl, rfl⟩
  obtain ⟨a, ha⟩ : ∃ a : ℕ → Matrix (Fin n) (Fin n) ℝ, a = fun L => (front (⟨0, F⟩ : Belief n) (List.replicate L s₀)).P := ⟨_, rfl⟩
  have hstep : ∀ L T i j, |a (L + T) i j - a L i j| ≤ C * ρ ^ L := fun L T i j => by
    have := hcov ⟨0, F⟩ F n (List.replicate L s₀) (List.replicate T s₀) hF le_rfl (hFi n).symm (by
      rw [← List.replicate_add]; exact hrep _) i j
    rw [← List.replicate_add, List.length_replicate] at this
    rw [ha]; exact this
  have hlim : ∀ i j, ∃ l, Tendsto (fun L => a L i j) atTop (𝓝 l) := fun i j => by
    refine cauchySeq_tendsto_of_complete (cauchySeq_of_le_geometric ρ C h1 fun L => ?_)
    rw [Real.dist_eq, abs_sub_comm]; exact hstep L 1 i j
  choose l hl using hlim
  obtain ⟨S, hSdef⟩ : ∃ S : Matrix (Fin n) (Fin n) ℝ, S = Matrix.of fun i j => l i j := ⟨_, rfl⟩
  have hSl : Tendsto a atTop (𝓝 S) := tendsto_pi_nhds.2 fun i => tendsto_pi_nhds.2 fun j => by rw [hSdef]; exact hl i j
  have hSa : ∀ L i j, |a L i j - S i j| ≤ C * ρ ^ L := fun L i j => by
    have h2 : Tendsto (fun T => |a (L + T) i j - a L i j|) atTop (𝓝 |S i j - a L i j|) := by
      have h3 : Tendsto (fun T => a (L + T) i j) atTop (𝓝 (S i j)) := by
        rw [hSdef]
        have := (hl i j).comp (tendsto_add_atTop_nat L)
        refine this.congr fun T => ?_
        rw [Function.comp_apply, Nat.add_comm]
      exact (h3.sub_const _).abs
    rw [abs_sub_comm]
    exact le_of_tendsto' h2 fun T => hstep L T i j
  have hcb : ∀ L, (a L).PosDef ∧ (F - a L).PosSemidef := fun L => by
    have h2 := front_combines hQ hR ⟨0, F⟩ hlast _ (hrep L)
    have hY := futureInfo_psd (List.replicate L s₀) (fun s hs => (hrep L s hs).2.2.1 ▸ hQ) fun s hs => (hrep L s hs).2.2.2 ▸ hR
    have h3 := h2.le hlast.pd hY
    rw [ha]; exact ⟨h2.1, h3⟩
  refine ⟨F, S, C, ρ, hlast.pd, steadyState_iff.2 hS, ?_, ?_, h0, h1, fun kf Z U b ss h hP hcm hne hfull => ?_⟩
  · exact psd_of_tendsto (fun L => (hcb L).1.posSemidef) hSl
  · exact psd_of_tendsto (fun L => (hcb L).2) (hSl.const_sub F)
  have hs1 : Solvable b ss := solvable_psd hP (fun s hs => (hcm s hs).2.2.1 ▸ hQ) fun s hs => (hcm s hs).2.2.2 ▸ hR
  by_cases hsm : SmoothSolvable b ss
  · refine .inr ⟨_, _, h.smoothReturns hfull hne hs1 hsm, smoothed_length _ _, fun k q hk hq i j => ?_⟩
    obtain ⟨k1, rfl⟩ := smoothed_get hq
    have elen : (ss.drop (k + 1)).length = ss.length - 1 - k := by rw [List.length_drop]; omega
    have h2 := hclose (lastOf b (ss.take (k + 1))) ⟨0, F⟩ b.P F (k + 1) (ss.drop (k + 1)) (List.replicate (ss.length - 1 - k) s₀) hP hF hk
      (lastOf_const hcm b (k + 1) k1) (hFi _).symm (fun s hs => hcm s (List.mem_of_mem_drop hs)) (hrep _)
      (by rw [elen, List.length_replicate]) i j
    have h3 := hSa (ss.length - 1 - k) i j
    rw [ha] at h3
    have h4 := abs_sub_le ((front (lastOf b (ss.take (k + 1))) (ss.drop (k + 1))).P i j)
      ((front (⟨0, F⟩ : Belief n) (List.replicate (ss.length - 1 - k) s₀)).P i j) (S i j)
    linarith
  · exact .inl (h.smoothSingular hfull hne fun hh => hsm hh.2)

-- C111, C112: the constant-velocity model, smoothed on two pieces of data of any length, from its PD initial covariance: none of
-- the calls raises.
example (uz vw : List (ℝ × ℝ)) (h : 2 ≤ uz.length) :
    ∃ (kf kf' : KalmanFilter Fl) (Z Z' : NDArray Fl) (U U' : Option (NDArray Fl)),
      Represents kf Z U Ex.cvBelief (Ex.cvSteps uz) ∧ Represents kf' Z' U' Ex.cvBelief (Ex.cvSteps uz ++ Ex.cvSteps vw) ∧
      Ex.cvBelief.P.PosSemidef ∧
      ConstantModel (Ex.cvStep 0 0).A (Ex.cvStep 0 0).H (Ex.cvStep 0 0).Q (Ex.cvStep 0 0).R (Ex.cvSteps uz ++ Ex.cvSteps vw) ∧
      Ex.cvSteps uz ≠ [] ∧ 2 ≤ (Ex.cvSteps uz).length ∧ (Ex.cvSteps uz).length = Z.rows.length ∧
      (Ex.cvSteps uz ++ Ex.cvSteps vw).length = Z'.rows.length ∧
      (Ex.cvStep 0 0).Q.PosSemidef ∧ (Ex.cvStep 0 0).R.PosDef ∧
      Controllable (Ex.cvStep 0 0).A (Ex.cvStep 0 0).Q ∧ Observable (Ex.cvStep 0 0).A (Ex.cvStep 0 0).H ∧
      SmoothSolvable Ex.cvBelief (Ex.cvSteps uz ++ Ex.cvSteps vw) := by
  have e : Ex.cvSteps uz ++ Ex.cvSteps vw = Ex.cvSteps (uz ++ vw) := by simp [Ex.cvSteps]
  have hne : uz ≠ [] := by rintro rfl; simp at h
  refine ⟨_, _, _, _, _, _, Ex.encode_represents _ _, Ex.encode_represents _ _, Ex.cv_posDef.posSemidef, ?_, by simp [Ex.cvSteps, hne],
    by simpa [Ex.cvSteps] using h, (Ex.encZ_length _).symm, (Ex.encZ_length _).symm, (Ex.cvStep_Q 0 0).posSemidef, Ex.cvStep_R 0 0,
    Ex.cv_controllable, Ex.cv_observable, ?_⟩
  · rw [e]
    intro s hs
    simp only [Ex.cvSteps, List.mem_map] at hs
    obtain ⟨p, -, rfl⟩ := hs
    exact ⟨rfl, rfl, rfl, rfl⟩
  · rw [e]
    exact smoothSolvable_pd _ _ Ex.cv_posDef (Ex.cv_pdStep _)

end KK
