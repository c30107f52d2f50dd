import Verif.Props.LagDetect

/-!
# C172: the smoothed covariances in the middle of a long run, for models that are only detectable and stabilizable
-/

set_option linter.unusedSectionVars false

namespace KK

open Matrix Filter Topology
open scoped Matrix.Norms.Elementwise

/-- `X k` tends to `Y` at the rate `ρ`. -/
def ExpNear {a b : ℕ} (ρ : ℝ) (X : ℕ → Matrix (Fin a) (Fin b) ℝ) (Y : Matrix (Fin a) (Fin b) ℝ) : Prop :=
  ∃ C : ℝ, 0 ≤ C ∧ ∀ k, ‖X k - Y‖ ≤ C * ρ ^ k

section
variable {a b c : ℕ} {ρ : ℝ} {X : ℕ → Matrix (Fin a) (Fin b) ℝ} {Y : Matrix (Fin a) (Fin b) ℝ}

theorem ExpNear.const (Y : Matrix (Fin a) (Fin b) ℝ) : ExpNear ρ (fun _ => Y) Y := ⟨0, le_rfl, fun k => by simp⟩

theorem ExpNear.add {X' : ℕ → Matrix (Fin a) (Fin b) ℝ} {Y' : Matrix (Fin a) (Fin b) ℝ} (h : ExpNear ρ X Y) (h' : ExpNear ρ X' Y') :
    ExpNear ρ (fun k => X k + X' k) (Y + Y') := by
  obtain ⟨C, hC, h⟩ := h
  obtain ⟨C', hC', h'⟩ := h'
  refine ⟨C + C', by positivity, fun k => ?_⟩
  rw [add_sub_add_comm, add_mul]
  exact (norm_add_le _ _).trans (add_le_add (h k) (h' k))

theorem ExpNear.sub {X' : ℕ → Matrix (Fin a) (Fin b) ℝ} {Y' : Matrix (Fin a) (Fin b) ℝ} (h : ExpNear ρ X Y) (h' : ExpNear ρ X' Y') :
    ExpNear ρ (fun k => X k - X' k) (Y - Y') := by
  obtain ⟨C, hC, h⟩ := h
  obtain ⟨C', hC', h'⟩ := h'
  refine ⟨C + C', by positivity, fun k => ?_⟩
  rw [sub_sub_sub_comm, add_mul]
  exact (norm_sub_le _ _).trans (add_le_add (h k) (h' k))

theorem ExpNear.transpose (h : ExpNear ρ X Y) : ExpNear ρ (fun k => (X k)ᵀ) Yᵀ := by
  obtain ⟨C, hC, h⟩ := h
  exact ⟨C, hC, fun k => by rw [← transpose_sub, transpose_norm]; exact h k⟩

theorem ExpNear.mul {X' : ℕ → Matrix (Fin b) (Fin c) ℝ} {Y' : Matrix (Fin b) (Fin c) ℝ} (h0 : 0 < ρ) (h1 : ρ < 1)
    (h : ExpNear ρ X Y) (h' : ExpNear ρ X' Y') : ExpNear ρ (fun k => X k * X' k) (Y * Y') := by
  obtain ⟨C, hC, h⟩ := h
  obtain ⟨C', hC', h'⟩ := h'
  refine ⟨b * (C * (C' + ‖Y'‖)) + b * (‖Y‖ * C'), by positivity, fun k => ?_⟩
  have e : X k * X' k - Y * Y' = (X k - Y) * X' k + Y * (X' k - Y') := by
    rw [Matrix.sub_mul, Matrix.mul_sub]; abel
  have hx : ‖X' k‖ ≤ C' + ‖Y'‖ := by
    have := norm_add_le (X' k - Y') Y'
    rw [sub_add_cancel] at this
    have h2 := h' k
    have h3 : C' * ρ ^ k ≤ C' := mul_le_of_le_one_right hC' (pow_le_one₀ h0.le h1.le)
    linarith
  rw [e]
  have hb : (0 : ℝ) ≤ b := Nat.cast_nonneg b
  have hp : 0 ≤ ρ ^ k := by positivity
  have k1 := (mul_norm_le (X k - Y) (X' k)).trans
    (mul_le_mul_of_nonneg_left (mul_le_mul (h k) hx (norm_nonneg _) (by positivity)) hb)
  have k2 := (mul_norm_le Y (X' k - Y')).trans
    (mul_le_mul_of_nonneg_left (mul_le_mul_of_nonneg_left (h' k) (norm_nonneg Y)) hb)
  refine (norm_add_le _ _).trans ((add_le_add k1 k2).trans (le_of_eq (by ring)))

theorem ExpNear.tendsto (h0 : 0 < ρ) (h1 : ρ < 1) (h : ExpNear ρ X Y) : Tendsto X atTop (𝓝 Y) := by
  obtain ⟨C, hC, h⟩ := h
  have ht : Tendsto (fun k => C * ρ ^ k) atTop (𝓝 0) := by
    have := (tendsto_pow_atTop_nhds_zero_of_lt_one h0.le h1).const_mul C
    rwa [mul_zero] at this
  exact tendsto_iff_norm_sub_tendsto_zero.2 (squeeze_zero (fun k => norm_nonneg _) h ht)

theorem ExpNear.inv {X : ℕ → Matrix (Fin a) (Fin a) ℝ} {Y : Matrix (Fin a) (Fin a) ℝ} (h0 : 0 < ρ) (h1 : ρ < 1)
    (h : ExpNear ρ X Y) (hd : Y.det ≠ 0) : ExpNear ρ (fun k => (X k)⁻¹) Y⁻¹ := by
  have hT := h.tendsto h0 h1
  have hI : Tendsto (fun k => (X k)⁻¹) atTop (𝓝 Y⁻¹) := by
    have := inv_mul_tendsto hT (tendsto_const_nhds (x := (1 : Matrix (Fin a) (Fin a) ℝ))) hd
    simpa only [Matrix.mul_one] using this
  have hD : ∀ᶠ k in atTop, (X k).det ≠ 0 := by
    have hc : Continuous fun M : Matrix (Fin a) (Fin a) ℝ => M.det := by fun_prop
    exact ((hc.tendsto Y).comp hT).eventually_ne hd
  have hB : ∀ᶠ k in atTop, ‖(X k)⁻¹‖ < ‖Y⁻¹‖ + 1 := hI.norm.eventually (gt_mem_nhds (by linarith))
  obtain ⟨C, hC, h⟩ := h
  have ha : (0 : ℝ) ≤ a := Nat.cast_nonneg a
  have hO : (fun k => (X k)⁻¹ - Y⁻¹) =O[atTop] fun k => ρ ^ k := by
    refine Asymptotics.IsBigO.of_bound (a * (a * ((‖Y⁻¹‖ + 1) * C) * ‖Y⁻¹‖)) ?_
    filter_upwards [hD, hB] with k hk hb
    have e : (X k)⁻¹ - Y⁻¹ = (X k)⁻¹ * (Y - X k) * Y⁻¹ := by
      rw [Matrix.mul_sub, Matrix.sub_mul, Matrix.mul_assoc, Matrix.mul_nonsing_inv _ (isUnit_iff_ne_zero.2 hd),
        Matrix.nonsing_inv_mul _ (isUnit_iff_ne_zero.2 hk), Matrix.mul_one, Matrix.one_mul]
    rw [e, Real.norm_of_nonneg (by positivity : (0 : ℝ) ≤ ρ ^ k)]
    have hk' : ‖Y - X k‖ ≤ C * ρ ^ k := by rw [norm_sub_rev]; exact h k
    have k1 := (mul_norm_le (X k)⁻¹ (Y - X k)).trans
      (mul_le_mul_of_nonneg_left (mul_le_mul hb.le hk' (norm_nonneg _) (by positivity)) ha)
    have k2 := (mul_norm_le ((X k)⁻¹ * (Y - X k)) Y⁻¹).trans
      (mul_le_mul_of_nonneg_left (mul_le_mul_of_nonneg_right k1 (norm_nonneg Y⁻¹)) ha)
    refine k2.trans (le_of_eq (by ring))
  obtain ⟨C', hC', hb⟩ := Asymptotics.bound_of_isBigO_nat_atTop hO
  refine ⟨C', hC'.le, fun k => ?_⟩
  have := hb (pow_ne_zero k h0.ne')
  rwa [Real.norm_of_nonneg (by positivity : (0 : ℝ) ≤ ρ ^ k)] at this

end

section
variable {n m : ℕ} {A Q : Matrix (Fin n) (Fin n) ℝ} {H : Matrix (Fin m) (Fin n) ℝ} {R : Matrix (Fin m) (Fin m) ℝ}

theorem smGain_near {ρ : ℝ} (h0 : 0 < ρ) (h1 : ρ < 1) {X : ℕ → Matrix (Fin n) (Fin n) ℝ} {F : Matrix (Fin n) (Fin n) ℝ}
    (h : ExpNear ρ X F) (hp : (priorCov A F Q).det ≠ 0) :
    ExpNear ρ (fun k => priorCov A (X k) Q) (priorCov A F Q) ∧ ExpNear ρ (fun k => smGain A Q (X k)) (smGain A Q F) := by
  have e1 : ExpNear ρ (fun k => priorCov A (X k) Q) (priorCov A F Q) :=
    ((((ExpNear.const A).mul h0 h1 h).mul h0 h1 (.const Aᵀ)).add (.const Q))
  exact ⟨e1, (h.mul h0 h1 (.const Aᵀ)).mul h0 h1 (e1.inv h0 h1 hp)⟩

/-- The steady-state smoothed covariance: the only solution of its equation, PSD and at most the steady state of the filter. -/
theorem steady_smooth (hQ : Q.PosSemidef) (hR : R.PosDef) {F : Matrix (Fin n) (Fin n) ℝ} (hF : F.PosSemidef)
    (hfix : ric A H Q R F = F) (hs : Stable (closedLoop A Q H R F)) (hp : (priorCov A F Q).det ≠ 0) :
    ∃ S : Matrix (Fin n) (Fin n) ℝ, S.PosSemidef ∧ (F - S).PosSemidef ∧
      S = F + smGain A Q F * (S - priorCov A F Q) * (smGain A Q F)ᵀ ∧
      ∀ X, X = F + smGain A Q F * (X - priorCov A F Q) * (smGain A Q F)ᵀ → X = S := by
  have hl := steady_lasting (H := H) hQ hR hF hfix hp
  obtain ⟨C, ρ, hC, h0, h1, hd⟩ := (smGain_stable hQ hR hfix hl hs).decay
  obtain ⟨G, hG⟩ : ∃ G, G = smGain A Q F := ⟨_, rfl⟩
  obtain ⟨T, hT⟩ : ∃ T : Matrix (Fin n) (Fin n) ℝ → Matrix (Fin n) (Fin n) ℝ, T = fun X => F + G * (X - priorCov A F Q) * Gᵀ := ⟨_, rfl⟩
  rw [← hG] at hd ⊢
  have hGk : ∀ k, ‖G ^ k‖ ≤ C * ρ ^ k := fun k => by
    have := hd k
    rwa [← transpose_pow, transpose_norm] at this
  have hdiff : ∀ X Y, T X - T Y = G * (X - Y) * Gᵀ := fun X Y => by
    rw [hT]; simp only [Matrix.mul_sub, Matrix.sub_mul]; abel
  have hiter : ∀ k X Y, T^[k] X - T^[k] Y = G ^ k * (X - Y) * (G ^ k)ᵀ := fun k X Y => by
    induction k with
    | zero => simp
    | succ k ih =>
      rw [Function.iterate_succ_apply', Function.iterate_succ_apply', hdiff, ih, pow_succ']
      simp only [transpose_mul, Matrix.mul_assoc]
  have hcl : ∀ k X Y, ‖T^[k] X - T^[k] Y‖ ≤ (n * C) ^ 2 * ‖X - Y‖ * ρ ^ k := fun k X Y => by
    rw [hiter]
    refine (conj_norm_le _ _).trans ?_
    have e1 : (n * ‖G ^ k‖) ^ 2 ≤ (n * (C * ρ ^ k)) ^ 2 :=
      pow_le_pow_left₀ (by positivity) (mul_le_mul_of_nonneg_left (hGk k) (Nat.cast_nonneg _)) 2
    have e2 : (n * (C * ρ ^ k)) ^ 2 ≤ (n * C) ^ 2 * ρ ^ k := by
      have : (n * (C * ρ ^ k)) ^ 2 = (n * C) ^ 2 * ρ ^ k * ρ ^ k := by ring
      rw [this]
      exact mul_le_of_le_one_right (by positivity) (pow_le_one₀ h0.le h1.le)
    refine (mul_le_mul_of_nonneg_right (e1.trans e2) (norm_nonneg _)).trans (le_of_eq (by ring))
  have hpP := priorCov_posSemidef (A := A) hF hQ
  have hFs : Fᵀ = F := IsHermitian.symm' hF.1
  have hQs : Qᵀ = Q := IsHermitian.symm' hQ.1
  have hpc : postCov A F Q = F - G * priorCov A F Q * Gᵀ := by rw [hG]; exact postCov_eq_sub hFs hQs hp
  have hTe : ∀ X, T X = postCov A F Q + G * X * Gᵀ := fun X => by
    rw [hT, hpc]; simp only [Matrix.mul_sub, Matrix.sub_mul]; abel
  have hle : (priorCov A F Q - F).PosSemidef := by
    have := postCov_le hpP hR.posSemidef (innovCov_posDef (H := H) hpP hR).det_pos.ne'
    have e : postCov H (priorCov A F Q) R = F := hfix
    rwa [e] at this
  have hpsd : ∀ k, (T^[k] F).PosSemidef ∧ (F - T^[k] F).PosSemidef := fun k => by
    induction k with
    | zero => exact ⟨hF, by simpa using Matrix.PosSemidef.zero⟩
    | succ k ih =>
      rw [Function.iterate_succ_apply']
      constructor
      · rw [hTe]
        exact (postCov_posSemidef hF hQ hp).add (posSemidef_conj ih.1 G)
      · have e : F - T (T^[k] F) = G * (priorCov A F Q - F) * Gᵀ + G * (F - T^[k] F) * Gᵀ := by
          rw [hT]; simp only [Matrix.mul_sub, Matrix.sub_mul]; abel
        rw [e]
        exact (posSemidef_conj hle G).add (posSemidef_conj ih.2 G)
  -- the iterates converge
  have hstep : ∀ k, ‖T^[k] F - T^[k + 1] F‖ ≤ (n * C) ^ 2 * ‖F - T F‖ * ρ ^ k := fun k => by
    rw [Function.iterate_succ_apply]; exact hcl k F (T F)
  have hlim : ∀ i j, ∃ l, Tendsto (fun k => (T^[k] F) i j) atTop (𝓝 l) := fun i j => by
    refine cauchySeq_tendsto_of_complete (cauchySeq_of_le_geometric ρ ((n * C) ^ 2 * ‖F - T F‖) h1 fun k => ?_)
    rw [Real.dist_eq]
    exact (entry_le_norm (T^[k] F - T^[k + 1] F) i j).trans (hstep k)
  choose l hl' using hlim
  obtain ⟨S, hSd⟩ : ∃ S : Matrix (Fin n) (Fin n) ℝ, S = Matrix.of fun i j => l i j := ⟨_, rfl⟩
  have hS : Tendsto (fun k => T^[k] F) atTop (𝓝 S) := tendsto_pi_nhds.2 fun i => tendsto_pi_nhds.2 fun j => by rw [hSd]; exact hl' i j
  have hTS : T S = S := by
    have hc : Continuous T := by rw [hT]; fun_prop
    have t1 := (hc.tendsto S).comp hS
    have t2 := (tendsto_add_atTop_iff_nat 1).2 hS
    refine tendsto_nhds_unique (t1.congr fun k => ?_) t2
    rw [Function.comp_apply, Function.iterate_succ_apply']
  refine ⟨S, psd_of_tendsto (fun k => (hpsd k).1) hS, psd_of_tendsto (fun k => (hpsd k).2) (hS.const_sub F), ?_, fun X hX => ?_⟩
  · conv_lhs => rw [← hTS, hT]
  · have hX' : T X = X := by rw [hT]; exact hX.symm
    have hb : ∀ k, ‖X - S‖ ≤ (n * C) ^ 2 * ‖X - S‖ * ρ ^ k := fun k => by
      have := hcl k X S
      rwa [Function.iterate_fixed hX', Function.iterate_fixed hTS] at this
    have ht : Tendsto (fun k => (n * C) ^ 2 * ‖X - S‖ * ρ ^ k) atTop (𝓝 0) := by
      have := (tendsto_pow_atTop_nhds_zero_of_lt_one h0.le h1).const_mul ((n * C) ^ 2 * ‖X - S‖)
      rwa [mul_zero] at this
    have := ge_of_tendsto' ht hb
    exact sub_eq_zero.1 (norm_eq_zero.1 (le_antisymm this (norm_nonneg _)))

/-- The smoothed covariances of a run of any length are close to the steady one, away from both ends. -/
theorem smoothAt_steady {P F S : Matrix (Fin n) (Fin n) ℝ} (hB : SettlesBack A Q H R P) {σ : ℝ} (hσ0 : 0 < σ) (hσ1 : σ < 1)
    (hn : ExpNear σ (fun k => (ric A H Q R)^[k] P) F) (hp : (priorCov A F Q).det ≠ 0)
    (hS : S = F + smGain A Q F * (S - priorCov A F Q) * (smGain A Q F)ᵀ) : ∃ C ρ : ℝ, 0 < C ∧ 0 < ρ ∧ ρ < 1 ∧
    ∀ (b : Belief n) (ss : List (LinStep n m)), b.P = P → ConstantModel A H Q R ss → ∀ t ≤ ss.length,
      ‖(smoothAt b ss t).P - S‖ ≤ C * (ρ ^ t + ρ ^ (ss.length - t)) := by
  obtain ⟨C, ρ, hC, h0, h1, hd⟩ := hB.back
  obtain ⟨Y, hY0, hY⟩ := hB.fwd.bound
  obtain ⟨n1, n2⟩ := smGain_near (A := A) (Q := Q) hσ0 hσ1 hn hp
  -- the inhomogeneity
  obtain ⟨w, hw⟩ : ∃ w : ℕ → Matrix (Fin n) (Fin n) ℝ, w = fun k => (ric A H Q R)^[k] P + smGain A Q ((ric A H Q R)^[k] P) *
    (S - priorCov A ((ric A H Q R)^[k] P) Q) * (smGain A Q ((ric A H Q R)^[k] P))ᵀ - S := ⟨_, rfl⟩
  have hwn : ∃ W : ℝ, 0 ≤ W ∧ ∀ k, ‖w k‖ ≤ W * σ ^ k := by
    have h2 : ExpNear σ (fun k => (ric A H Q R)^[k] P + smGain A Q ((ric A H Q R)^[k] P) *
        (S - priorCov A ((ric A H Q R)^[k] P) Q) * (smGain A Q ((ric A H Q R)^[k] P))ᵀ)
        (F + smGain A Q F * (S - priorCov A F Q) * (smGain A Q F)ᵀ) :=
      hn.add ((n2.mul hσ0 hσ1 ((ExpNear.const S).sub n1)).mul hσ0 hσ1 n2.transpose)
    rw [← hS] at h2
    rw [hw]; exact h2
  obtain ⟨W, hW, hwb⟩ := hwn
  obtain ⟨C₁, hC₁⟩ : ∃ C₁ : ℝ, C₁ = 1 + (n * C) ^ 2 := ⟨_, rfl⟩
  have hC₁0 : 0 < C₁ := by rw [hC₁]; positivity
  obtain ⟨μ, hμ⟩ : ∃ μ : ℝ, μ = max ρ σ := ⟨_, rfl⟩
  have hρμ : ρ ≤ μ := hμ ▸ le_max_left _ _
  have hσμ : σ ≤ μ := hμ ▸ le_max_right _ _
  have hμ1 : μ < 1 := hμ ▸ max_lt h1 hσ1
  have hμ0 : 0 < μ := h0.trans_le hρμ
  have hρi : 0 < (1 - ρ)⁻¹ := inv_pos.2 (by linarith)
  refine ⟨C₁ * (Y + ‖S‖) + C₁ * W * (1 - ρ)⁻¹, μ, by positivity, hμ0, hμ1, fun b ss hbP hcm t ht => ?_⟩
  have hexP : ∀ i ≤ ss.length, (lastOf b (ss.take i)).P = (ric A H Q R)^[i] P := fun i hi => hbP ▸ lastOf_const hcm b i hi
  have hstep : ∀ i < ss.length, (smoothAt b ss (ss.length - (i + 1))).P - S =
      conjHom (smGain A Q ((ric A H Q R)^[ss.length - 1 - i] P)) ((smoothAt b ss (ss.length - i)).P - S) + w (ss.length - 1 - i) :=
    fun i hi => by
      obtain ⟨s, hs⟩ : ∃ s, ss[ss.length - 1 - i]? = some s := ⟨_, List.getElem?_eq_getElem (by omega)⟩
      have hm := hcm s (List.mem_of_getElem? hs)
      have e := smoothAt_step b ss hs
      rw [show ss.length - 1 - i + 1 = ss.length - i by omega] at e
      have e2 := congrArg Prod.snd ((congrArg toE e).trans (rtsStep_affine hm _ _))
      rw [rtsStep_zeroCov hm, hexP _ (by omega)] at e2
      have e3 : (smoothAt b ss (ss.length - 1 - i)).P = smGain A Q ((ric A H Q R)^[ss.length - 1 - i] P) *
          (smoothAt b ss (ss.length - i)).P * (smGain A Q ((ric A H Q R)^[ss.length - 1 - i] P))ᵀ + _ := e2
      rw [show ss.length - (i + 1) = ss.length - 1 - i by omega, e3, hw]
      simp only [conjHom, AddMonoidHom.coe_mk, ZeroHom.coe_mk, Matrix.mul_sub, Matrix.sub_mul]
      abel
  have hseg : ∀ j k d, j + k ≤ ss.length → ‖seg (fun i => conjHom (smGain A Q ((ric A H Q R)^[ss.length - 1 - i] P))) j k d‖ ≤
      C₁ * ρ ^ k * ‖d‖ := fun j k d hjk => by
    rw [seg_conjBack P ss.length j k d hjk]
    refine (conj_norm_le _ d).trans (mul_le_mul_of_nonneg_right ?_ (norm_nonneg d))
    have e1 := pow_le_pow_left₀ (by positivity) (mul_le_mul_of_nonneg_left (hd (ss.length - j - k) k) (Nat.cast_nonneg (α := ℝ) n)) 2
    have e3 : (n * (C * ρ ^ k)) ^ 2 ≤ (n * C) ^ 2 * ρ ^ k := by
      have : (n * (C * ρ ^ k)) ^ 2 = (n * C) ^ 2 * ρ ^ k * ρ ^ k := by ring
      rw [this]
      exact mul_le_of_le_one_right (by positivity) (pow_le_one₀ h0.le h1.le)
    have e4 : 0 ≤ ρ ^ k := by positivity
    rw [hC₁]; linarith
  have hsum := seg_sum (fun i => conjHom (smGain A Q ((ric A H Q R)^[ss.length - 1 - i] P)))
    (fun i => (smoothAt b ss (ss.length - i)).P - S) (fun i => w (ss.length - 1 - i)) (ss.length - t) fun i hi => hstep i (by omega)
  rw [show ss.length - (ss.length - t) = t by omega] at hsum
  have hnt : ∀ i ∈ Finset.range (ss.length - t), ‖seg (fun i => conjHom (smGain A Q ((ric A H Q R)^[ss.length - 1 - i] P))) (i + 1)
      (ss.length - t - 1 - i) (w (ss.length - 1 - i))‖ ≤ C₁ * W * σ ^ t * ρ ^ (ss.length - t - 1 - i) := fun i hi => by
    have hi' := Finset.mem_range.1 hi
    refine (hseg _ _ _ (by omega)).trans ?_
    have e1 := hwb (ss.length - 1 - i)
    have e2 : σ ^ (ss.length - 1 - i) ≤ σ ^ t := pow_le_pow_of_le_one hσ0.le hσ1.le (by omega)
    have e3 := e1.trans (mul_le_mul_of_nonneg_left e2 hW)
    refine (mul_le_mul_of_nonneg_left e3 (by positivity)).trans (le_of_eq (by ring))
  have hend : ‖(smoothAt b ss (ss.length - 0)).P - S‖ ≤ Y + ‖S‖ := by
    rw [Nat.sub_zero, smoothAt_last]
    have := hexP ss.length le_rfl
    rw [List.take_length] at this
    rw [this]
    exact (norm_sub_le _ _).trans (add_le_add (hY _) le_rfl)
  rw [hsum]
  have k1 := (hseg 0 (ss.length - t) ((smoothAt b ss (ss.length - 0)).P - S) (by omega)).trans
    (mul_le_mul_of_nonneg_left hend (by positivity))
  have k2 := (norm_sum_le _ _).trans (Finset.sum_le_sum hnt)
  rw [← Finset.mul_sum] at k2
  have k3 := k2.trans (mul_le_mul_of_nonneg_left (@geom_le (strict 0) _ h0 h1 (ss.length - t)) (by positivity))
  refine (norm_add_le _ _).trans ((add_le_add k1 k3).trans ?_)
  have p1 : ρ ^ (ss.length - t) ≤ μ ^ (ss.length - t) := pow_le_pow_left₀ h0.le hρμ _
  have p2 : σ ^ t ≤ μ ^ t := pow_le_pow_left₀ hσ0.le hσμ _
  have q1 : 0 ≤ C₁ * (Y + ‖S‖) := by positivity
  have q2 : 0 ≤ C₁ * W * (1 - ρ)⁻¹ := by positivity
  have r1 := mul_le_mul_of_nonneg_left p1 q1
  have r2 := mul_le_mul_of_nonneg_left p2 q2
  have r3 : 0 ≤ C₁ * (Y + ‖S‖) * μ ^ t := by positivity
  have r4 : 0 ≤ C₁ * W * (1 - ρ)⁻¹ * μ ^ (ss.length - t) := by positivity
  nlinarith

end

section
variable {n m : ℕ} [Platform]

/-- C172: a constant model with PSD `Q` and PD `R`, detectable and stabilizable, whose predicted covariance `A F Aᵀ + Q` is nonsingular
in the steady state `F` of the filter.  There is one matrix `S` - the steady-state smoothed covariance, the only solution of
`S = F + G (S - (A F Aᵀ + Q)) Gᵀ` with `G = F Aᵀ (A F Aᵀ + Q)⁻¹`, PSD and at most `F` - such that, from every PSD initial covariance `P`, in
every run of any length the smoothed covariance of step `k` of `N` is within `C (ρ^k + ρ^(N-k))` of `S` (or `smooth` raises
LinAlgError).  `C` and `ρ < 1` depend on the model and `P` only. -/
theorem C172_steady_smoother (A Q : Matrix (Fin n) (Fin n) ℝ) (H : Matrix (Fin m) (Fin n) ℝ) (R : Matrix (Fin m) (Fin m) ℝ)
    (hQ : Q.PosSemidef) (hR : R.PosDef) (hd : Detectable A H) (hs : Stabilizable A Q)
    (hp : ∀ F : Matrix (Fin n) (Fin n) ℝ, F.PosSemidef → SteadyState A H Q R F → (A * F * Aᵀ + Q).det ≠ 0) :
    ∃ F S : Matrix (Fin n) (Fin n) ℝ, F.PosSemidef ∧ SteadyState A H Q R F ∧ S.PosSemidef ∧ (F - S).PosSemidef ∧
      (∀ X, X = F + (F * Aᵀ * (A * F * Aᵀ + Q)⁻¹) * (X - (A * F * Aᵀ + Q)) * (F * Aᵀ * (A * F * Aᵀ + Q)⁻¹)ᵀ ↔ X = S) ∧
      ∀ P : Matrix (Fin n) (Fin n) ℝ, P.PosSemidef → ∃ C ρ : ℝ, 0 < ρ ∧ ρ < 1 ∧
        ∀ (kf : KalmanFilter Fl) (Z : NDArray Fl) (U : Option (NDArray Fl)) (x₀ : Fin n → ℝ) (ss : List (LinStep n m)),
          Represents kf Z U ⟨x₀, P⟩ ss → ConstantModel A H Q R ss → ss ≠ [] → ss.length = Z.rows.length →
          SmoothSingular kf Z U ∨
          ∃ (qs : List (Belief n)) (Ks : List (Matrix (Fin n) (Fin m) ℝ)), SmoothReturns kf Z U qs Ks ∧ qs.length = ss.length ∧
            ∀ (k : ℕ) (q : Belief n), qs[k]? = some q → ∀ i j, |q.P i j - S i j| ≤ C * (ρ ^ (k + 1) + ρ ^ (ss.length - 1 - k)) := by
  obtain ⟨F, hF, hfix, hT⟩ := exists_limit (A := A) (H := H) hQ hR hd
  have hst := closedLoop_stable (H := H) hQ hR hs hF hfix
  have hpF : (priorCov A F Q).det ≠ 0 := hp F hF (steadyState_iff.2 hfix)
  obtain ⟨S, hS, hFS, hSe, huniq⟩ := steady_smooth (H := H) hQ hR hF hfix hst hpF
  refine ⟨F, S, hF, steadyState_iff.2 hfix, hS, hFS, fun X => ⟨huniq X, fun h => h ▸ hSe⟩, fun P hP => ?_⟩
  obtain ⟨C₀, ρ₀, hC₀, h0₀, h1₀, hb⟩ := cov_decay_detect hQ hR hF hfix hst hT
  have hn : ExpNear ρ₀ (fun k => (ric A H Q R)^[k] P) F := by
    refine ⟨C₀ * (1 + ‖P‖), by positivity, fun k => (mat_norm_le (by positivity)).2 fun i j => ?_⟩
    have := hb P hP k i j
    rw [mul_right_comm] at this
    exact this
  obtain ⟨C, ρ, hC, h0, h1, hbd⟩ := smoothAt_steady (SettlesBack.of_detectable hQ hR hd hs hp hP) h0₀ h1₀ hn hpF hSe
  refine ⟨C, ρ, h0, h1, fun kf Z U x₀ ss h hcm hne hl => ?_⟩
  have hs1 : Solvable ⟨x₀, P⟩ ss := solvable_psd hP (fun s hs => (hcm s hs).2.2.1 ▸ hQ) fun s hs => (hcm s hs).2.2.2 ▸ hR
  by_cases hsm : SmoothSolvable ⟨x₀, P⟩ ss
  swap
  · exact .inl (h.smoothSingular hl hne fun hh => hsm hh.2)
  refine .inr ⟨_, _, h.smoothReturns hl hne hs1 hsm, smoothed_length _ _, fun k q hq i j => ?_⟩
  obtain ⟨k1, rfl⟩ := smoothed_get hq
  have := hbd ⟨x₀, P⟩ ss rfl hcm (k + 1) k1
  rw [show ss.length - (k + 1) = ss.length - 1 - k by omega] at this
  exact (entry_le_norm ((smoothAt ⟨x₀, P⟩ ss (k + 1)).P - S) i j).trans this

end

-- C172: the model of C171 (C112 does not apply); it has runs of any length (see there).
example [Platform] : let A : Matrix (Fin 2) (Fin 2) ℝ := !![1, 0; 0, 1/2]
    let H : Matrix (Fin 1) (Fin 2) ℝ := !![1, 0]
    ¬ Observable A H ∧ (1 : Matrix (Fin 2) (Fin 2) ℝ).PosSemidef ∧ Detectable A H ∧ Stabilizable A 1 ∧
    ∀ F : Matrix (Fin 2) (Fin 2) ℝ, F.PosSemidef → SteadyState A H 1 1 F → (A * F * Aᵀ + 1).det ≠ 0 := by
  intro A H
  obtain ⟨-, hd, -, hno, -, -⟩ := Ex.detect_case
  obtain ⟨hs, hdet⟩ := (C170_conditions A 1 H 1 Matrix.PosDef.one).1 Matrix.PosDef.one
  exact ⟨hno, Matrix.PosSemidef.one, hd, hs, fun F hF _ => hdet F hF⟩

end KK
