import Verif.Proofs.RoundRun
import Verif.Proofs.LagVarying

/-!
# Errors in every step of a time-varying recursion
-/

set_option linter.unusedSectionVars false

namespace KK

open Matrix Filter Topology

section
variable {n m : ℕ}

theorem psd_lim {ι : Type} {l : Filter ι} [l.NeBot] {X : ι → Matrix (Fin n) (Fin n) ℝ} {L : Matrix (Fin n) (Fin n) ℝ}
    (hL : Tendsto X l (𝓝 L)) (hX : ∀ i, (X i).PosSemidef) : L.PosSemidef := by
  refine Matrix.posSemidef_iff_dotProduct_mulVec.2 ⟨isHermitian_of_symm ?_, fun y => ?_⟩
  · have h1 : Tendsto (fun i => (X i)ᵀ) l (𝓝 Lᵀ) := (continuous_id.matrix_transpose.tendsto L).comp hL
    refine tendsto_nhds_unique h1 (hL.congr fun i => (IsHermitian.symm' (hX i).1).symm)
  · have hc : Continuous fun M : Matrix (Fin n) (Fin n) ℝ => star y ⬝ᵥ (M *ᵥ y) := by fun_prop
    exact ge_of_tendsto ((hc.tendsto L).comp hL) (.of_forall fun i => (hX i).dotProduct_mulVec_nonneg y)

theorem innov_continuous : Continuous fun t : Matrix (Fin n) (Fin n) ℝ × Matrix (Fin m) (Fin n) ℝ × Matrix (Fin n) (Fin n) ℝ ×
    Matrix (Fin m) (Fin m) ℝ × Matrix (Fin n) (Fin n) ℝ =>
    innovCov t.2.1 (priorCov t.1 t.2.2.2.2 t.2.2.1) t.2.2.2.1 := by
  unfold innovCov priorCov
  fun_prop

theorem cross_continuous : Continuous fun t : Matrix (Fin n) (Fin n) ℝ × Matrix (Fin m) (Fin n) ℝ × Matrix (Fin n) (Fin n) ℝ ×
    Matrix (Fin m) (Fin m) ℝ × Matrix (Fin n) (Fin n) ℝ =>
    priorCov t.1 t.2.2.2.2 t.2.2.1 * t.2.1ᵀ := by
  unfold priorCov
  fun_prop

/-- The gain of a step depends continuously on the step and the covariance. -/
theorem gainAt_tendsto {ι : Type} {l : Filter ι} {s : ι → LinStep n m} {X : ι → Matrix (Fin n) (Fin n) ℝ} {t : LinStep n m}
    {L : Matrix (Fin n) (Fin n) ℝ} (hA : Tendsto (fun i => (s i).A) l (𝓝 t.A)) (hH : Tendsto (fun i => (s i).H) l (𝓝 t.H))
    (hQ : Tendsto (fun i => (s i).Q) l (𝓝 t.Q)) (hR : Tendsto (fun i => (s i).R) l (𝓝 t.R)) (hX : Tendsto X l (𝓝 L))
    (hdet : (innovCov t.H (priorCov t.A L t.Q) t.R).det ≠ 0) :
    Tendsto (fun i => (s i).gainAt (X i)) l (𝓝 (t.gainAt L)) := by
  have hall := hA.prodMk_nhds (hH.prodMk_nhds (hQ.prodMk_nhds (hR.prodMk_nhds hX)))
  have t1 := (innov_continuous.tendsto (t.A, t.H, t.Q, t.R, L)).comp hall
  have t2 := (cross_continuous.tendsto (t.A, t.H, t.Q, t.R, L)).comp hall
  have h1 := inv_mul_tendsto t1 (tendsto_const_nhds (x := (1 : Matrix (Fin m) (Fin m) ℝ))) hdet
  simp only [Matrix.mul_one] at h1
  have h3 : Continuous fun t : Matrix (Fin n) (Fin m) ℝ × Matrix (Fin m) (Fin m) ℝ => t.1 * t.2 :=
    continuous_fst.matrix_mul continuous_snd
  have h4 := (h3.tendsto (priorCov t.A L t.Q * t.Hᵀ, (innovCov t.H (priorCov t.A L t.Q) t.R)⁻¹)).comp (t2.prodMk_nhds h1)
  simp only [LinStep.gainAt, kGain]
  exact h4

/-- The gain is uniformly continuous, also over the steps. -/
theorem unif_gainAt_entry {a r : ℝ} (ha : 0 ≤ a) (hr : 0 < r) (Y : ℝ) {θ : ℝ} (hθ : 0 < θ) : ∃ ρ > 0, ∀ (s : LinStep n m)
    (X X' : Matrix (Fin n) (Fin n) ℝ), TameStep a r s → X.PosSemidef → (∀ i j, |X i j| ≤ Y) → (∀ i j, |X' i j - X i j| ≤ ρ) →
      ρ ≤ |(innovCov s.H (priorCov s.A X' s.Q) s.R).det| ∧ ∀ i j, |s.gainAt X' i j - s.gainAt X i j| ≤ θ := by
  by_contra hcon
  have hn := fun k => eta_of_seq hcon k
  push Not at hn
  choose s X X' hs hX hY hd hbad using hn
  set l : Filter ℕ := (hyperfilter ℕ : Filter ℕ) with hl
  have hη : Tendsto (fun k : ℕ => (1 : ℝ) / ((k : ℝ) + 1)) l (𝓝 0) := hyper_tendsto seq_tendsto
  have hRp : ∀ i, (s i).R.PosSemidef := fun i => (posDef_of_lower hr (hs i).R0).posSemidef
  obtain ⟨L, hL⟩ := ultra_mat (l := hyperfilter ℕ) (D := Y) (f := X) (.of_forall hY)
  obtain ⟨A, hA⟩ := ultra_mat (l := hyperfilter ℕ) (D := a) (f := fun i => (s i).A) (.of_forall fun i => (hs i).A)
  obtain ⟨H, hH⟩ := ultra_mat (l := hyperfilter ℕ) (D := a) (f := fun i => (s i).H) (.of_forall fun i => (hs i).H)
  obtain ⟨Q, hQ⟩ := ultra_mat (l := hyperfilter ℕ) (D := a) (f := fun i => (s i).Q)
    (.of_forall fun i => psd_entry ha (hs i).Q0 (hs i).Q)
  obtain ⟨R, hR⟩ := ultra_mat (l := hyperfilter ℕ) (D := a) (f := fun i => (s i).R)
    (.of_forall fun i => psd_entry ha (hRp i) (hs i).R)
  have hd' : Tendsto (fun i => X' i - X i) l (𝓝 0) :=
    tendsto_pi_nhds.2 fun a => tendsto_pi_nhds.2 fun b => squeeze_zero_norm (fun i => hd i a b) hη
  have hL' : Tendsto X' l (𝓝 L) := by simpa using hd'.add hL
  have hLp : L.PosSemidef := psd_lim hL hX
  have hQp : Q.PosSemidef := psd_lim hQ fun i => (hs i).Q0
  have hRd : R.PosDef := by
    refine posDef_of_lower hr (psd_lim (X := fun i => (s i).R - r • (1 : Matrix (Fin m) (Fin m) ℝ)) (l := l) ?_ fun i => (hs i).R0)
    exact hR.sub tendsto_const_nhds
  have hdet := posDef_det_ne (innovCov_posDef (H := H) (priorCov_posSemidef (A := A) hLp hQp) hRd)
  have t1 := gainAt_tendsto (t := ⟨A, 0, H, Q, R, 0⟩) hA hH hQ hR hL hdet
  have t2 := gainAt_tendsto (t := ⟨A, 0, H, Q, R, 0⟩) hA hH hQ hR hL' hdet
  have t3 := (det_continuous.tendsto (A, H, Q, R, L)).comp
    (hA.prodMk_nhds (hH.prodMk_nhds (hQ.prodMk_nhds (hR.prodMk_nhds hL'))))
  have e3 : ∀ᶠ i : ℕ in l, (1 : ℝ) / ((i : ℝ) + 1) < |(innovCov (s i).H (priorCov (s i).A (X' i) (s i).Q) (s i).R).det| :=
    hη.eventually_lt t3.abs (abs_pos.2 hdet)
  have e4 : ∀ᶠ i : ℕ in l, ∀ a, ∀ b, |(s i).gainAt (X' i) a b - (s i).gainAt (X i) a b| ≤ θ :=
    eventually_all.2 fun a => tendsto_near (tendsto_pi_nhds.1 t2 a) (tendsto_pi_nhds.1 t1 a) hθ
  obtain ⟨i, i1, i2⟩ := (e3.and e4).exists
  obtain ⟨a, b, hab⟩ := hbad i i1.le
  exact absurd (i2 a b) (not_le.2 hab)

end

open scoped Matrix.Norms.Elementwise

section
variable {n m : ℕ}

theorem unif_gainAt {a r : ℝ} (ha : 0 ≤ a) (hr : 0 < r) (Y : ℝ) {θ : ℝ} (hθ : 0 < θ) : ∃ ρ > 0, ∀ (s : LinStep n m)
    (X X' : Matrix (Fin n) (Fin n) ℝ), TameStep a r s → X.PosSemidef → ‖X‖ ≤ Y → ‖X' - X‖ ≤ ρ →
      ρ ≤ |(innovCov s.H (priorCov s.A X' s.Q) s.R).det| ∧ ‖s.gainAt X' - s.gainAt X‖ ≤ θ := by
  obtain ⟨ρ, hρ, h⟩ := unif_gainAt_entry (n := n) (m := m) ha hr Y hθ
  refine ⟨ρ, hρ, fun s X X' h0 h1 h2 h3 => ?_⟩
  have := h s X X' h0 h1 (fun i j => (entry_le_norm X i j).trans h2) fun i j => (entry_le_norm (X' - X) i j).trans h3
  exact ⟨this.1, (mat_norm_le hθ.le).2 this.2⟩

theorem covNext_diff {s : LinStep n m} (hs : Noisy s) {X X' : Matrix (Fin n) (Fin n) ℝ} (hX : X.PosSemidef)
    (hd' : (innovCov s.H (priorCov s.A X' s.Q) s.R).det ≠ 0) :
    s.covNext X' - s.covNext X = s.closed X' * (X' - X) * (s.closed X)ᵀ :=
  ric_diff (A := s.A) (H := s.H) hs.1 hs.2 hX hd'

/-- The linear map by which step `i` acts on estimation errors. -/
noncomputable def cloAt (P : Matrix (Fin n) (Fin n) ℝ) (ss : List (LinStep n m)) (i : ℕ) : Matrix (Fin n) (Fin n) ℝ :=
  (ss[i]?.map fun s => s.closed (covRun P (ss.take i))).getD 0

theorem cloAt_eq (P : Matrix (Fin n) (Fin n) ℝ) {ss : List (LinStep n m)} {i : ℕ} {s : LinStep n m} (hs : ss[i]? = some s) :
    cloAt P ss i = s.closed (covRun P (ss.take i)) := by
  rw [cloAt, hs]; rfl

theorem covRun_take_succ (P : Matrix (Fin n) (Fin n) ℝ) {ss : List (LinStep n m)} {i : ℕ} {s : LinStep n m} (hs : ss[i]? = some s) :
    covRun P (ss.take (i + 1)) = s.covNext (covRun P (ss.take i)) := by
  rw [List.take_add_one, hs, Option.toList_some, covRun_append]; rfl

theorem clo_take_succ (P : Matrix (Fin n) (Fin n) ℝ) (ss : List (LinStep n m)) {j k : ℕ} (h : j + k < ss.length) :
    clo (covRun P (ss.take j)) ((ss.drop j).take (k + 1)) = cloAt P ss (j + k) * clo (covRun P (ss.take j)) ((ss.drop j).take k) := by
  obtain ⟨s, hs⟩ : ∃ s, ss[j + k]? = some s := ⟨_, List.getElem?_eq_getElem h⟩
  rw [List.take_add_one, List.getElem?_drop, hs, Option.toList_some, clo_append, ← covRun_append, cloAt_eq P hs]
  have : ss.take j ++ (ss.drop j).take k = ss.take (j + k) := by rw [List.take_add]
  rw [this, clo, clo, Matrix.one_mul]

theorem seg_conjV (P : Matrix (Fin n) (Fin n) ℝ) (ss : List (LinStep n m)) (j k : ℕ) (h : j + k ≤ ss.length) (X : Matrix (Fin n) (Fin n) ℝ) :
    seg (fun i => conjHom (cloAt P ss i)) j k X =
      clo (covRun P (ss.take j)) ((ss.drop j).take k) * X * (clo (covRun P (ss.take j)) ((ss.drop j).take k))ᵀ := by
  induction k with
  | zero => simp [seg, clo]
  | succ k ih =>
    rw [seg, AddMonoidHom.comp_apply, ih (by omega), clo_take_succ P ss (by omega)]
    simp only [conjHom, AddMonoidHom.coe_mk, ZeroHom.coe_mk, transpose_mul, Matrix.mul_assoc]

theorem seg_mulV (P : Matrix (Fin n) (Fin n) ℝ) (ss : List (LinStep n m)) (j k : ℕ) (h : j + k ≤ ss.length) (v : Fin n → ℝ) :
    seg (fun i => mulHom (cloAt P ss i)) j k v = clo (covRun P (ss.take j)) ((ss.drop j).take k) *ᵥ v := by
  induction k with
  | zero => simp [seg, clo]
  | succ k ih =>
    rw [seg, AddMonoidHom.comp_apply, ih (by omega), clo_take_succ P ss (by omega), ← mulVec_mulVec]
    rfl

/-- A recursion that errs by at most `δ` in each step stays within `ε` of the filter recursion, for as long as it runs: `δ` depends
only on the bounds. -/
theorem stay_near_var {a r C ρ g c Y₀ D ε : ℝ} (ha : 0 ≤ a) (hr : 0 < r) (hC : 1 ≤ C) (h0 : 0 < ρ) (h1 : ρ < 1) (hg : 0 ≤ g)
    (hc : 0 < c) (hY₀ : 0 ≤ Y₀) (hD : 0 ≤ D) (hε : 0 < ε) : ∃ δ > 0, ∃ X : ℝ, ∀ (b : Belief n) (ss : List (LinStep n m)),
      Settled a r C ρ g c b.P ss → ‖b.x‖ ≤ Y₀ →
      (∀ (l : ℕ) (s : LinStep n m), ss[l]? = some s → ‖s.z‖ ≤ D ∧ ‖s.c‖ ≤ D) → ∀ (b' : ℕ → Belief n) (N : ℕ), N ≤ ss.length →
      ‖(b' 0).x - b.x‖ ≤ δ → ‖(b' 0).P - b.P‖ ≤ δ →
      (∀ (i : ℕ) (s : LinStep n m), i < N → ss[i]? = some s → ‖(b' (i + 1)).x - (s.next (b' i)).x‖ ≤ δ ∧
        ‖(b' (i + 1)).P - (s.next (b' i)).P‖ ≤ δ) →
      ∀ i ≤ N, ‖(b' i).x - (lastOf b (ss.take i)).x‖ ≤ ε ∧ ‖(b' i).P - (lastOf b (ss.take i)).P‖ ≤ ε ∧
        ‖(b' i).x‖ ≤ X ∧ ‖(b' i).P‖ ≤ X ∧ ∀ s, ss[i]? = some s → δ ≤ |(s.innov (s.predict (b' i))).det| ∧
          ‖s.gainAt (b' i).P - s.gainAt (lastOf b (ss.take i)).P‖ ≤ ε := by
  have hC0 : 0 < C := by linarith
  have hρ : 0 < (1 - ρ)⁻¹ := inv_pos.2 (by linarith)
  obtain ⟨C₁, hC₁⟩ : ∃ C₁ : ℝ, C₁ = C + (n * C) ^ 2 := ⟨_, rfl⟩
  have hC₁C : C ≤ C₁ := by rw [hC₁]; have : 0 ≤ ((n : ℝ) * C) ^ 2 := by positivity
                           linarith
  have hC₁1 : 1 ≤ C₁ := by linarith
  obtain ⟨Γ, hΓ⟩ : ∃ Γ : ℝ, Γ = C₁ * (1 - ρ)⁻¹ := ⟨_, rfl⟩
  have hΓ0 : 0 < Γ := by rw [hΓ]; positivity
  obtain ⟨c₁, hc₁⟩ : ∃ c₁ : ℝ, c₁ = n * (m * (n * (a * a)) * (n * C)) := ⟨_, rfl⟩
  have hc₁0 : 0 ≤ c₁ := by rw [hc₁]; positivity
  obtain ⟨X₀, hX₀⟩ : ∃ X₀ : ℝ, X₀ = C * Y₀ + C * (1 + g * m * (a * n) + g * m) * (1 - ρ)⁻¹ * D := ⟨_, rfl⟩
  have hX₀0 : 0 ≤ X₀ := by rw [hX₀]; positivity
  obtain ⟨c₂, hc₂⟩ : ∃ c₂ : ℝ, c₂ = m * (D + n * a * (n * a * (X₀ + 1) + D)) := ⟨_, rfl⟩
  have hc₂0 : 0 ≤ c₂ := by rw [hc₂]; positivity
  obtain ⟨ε', hε', hε'ε, hε'1⟩ : ∃ ε' : ℝ, 0 < ε' ∧ ε' ≤ ε ∧ ε' ≤ 1 :=
    ⟨min ε 1, lt_min hε one_pos, min_le_left _ _, min_le_right _ _⟩
  obtain ⟨θ, hθ, hθε, hθ1, hθ2⟩ : ∃ θ : ℝ, 0 < θ ∧ θ ≤ ε ∧ Γ * θ * c₁ ≤ 1 / 2 ∧ Γ * θ * c₂ ≤ ε' / 2 := by
    have k1 : 0 < 2 * (Γ * c₁ + 1) := by positivity
    have k2 : 0 < 2 * (Γ * c₂ + 1) := by positivity
    refine ⟨min ε (min (1 / (2 * (Γ * c₁ + 1))) (ε' / (2 * (Γ * c₂ + 1)))), by positivity, min_le_left _ _, ?_, ?_⟩
    · have e1 : min ε (min (1 / (2 * (Γ * c₁ + 1))) (ε' / (2 * (Γ * c₂ + 1)))) ≤ 1 / (2 * (Γ * c₁ + 1)) :=
        (min_le_right _ _).trans (min_le_left _ _)
      have e2 := mul_le_mul_of_nonneg_left e1 (show 0 ≤ Γ * c₁ by positivity)
      have e3 : Γ * c₁ * (1 / (2 * (Γ * c₁ + 1))) ≤ 1 / 2 := by
        rw [mul_one_div, div_le_div_iff₀ k1 two_pos]; linarith
      linarith
    · have e1 : min ε (min (1 / (2 * (Γ * c₁ + 1))) (ε' / (2 * (Γ * c₂ + 1)))) ≤ ε' / (2 * (Γ * c₂ + 1)) :=
        (min_le_right _ _).trans (min_le_right _ _)
      have e2 := mul_le_mul_of_nonneg_left e1 (show 0 ≤ Γ * c₂ by positivity)
      have e3 : Γ * c₂ * (ε' / (2 * (Γ * c₂ + 1))) ≤ ε' / 2 := by
        rw [← mul_div_assoc, div_le_div_iff₀ k2 two_pos]; nlinarith
      linarith
  obtain ⟨r₀, hr₀, hgain⟩ := unif_gainAt (n := n) (m := m) ha hr c hθ
  obtain ⟨q, hq, hqr₀, hqε'⟩ : ∃ q : ℝ, 0 < q ∧ q ≤ r₀ ∧ q ≤ ε' :=
    ⟨min r₀ ε', lt_min hr₀ hε', min_le_left _ _, min_le_right _ _⟩
  obtain ⟨δ, hδ, hδr⟩ : ∃ δ : ℝ, 0 < δ ∧ (C₁ + Γ) * δ = q / 2 :=
    ⟨q / 2 / (C₁ + Γ), by positivity, by field_simp⟩
  have hδr' : δ ≤ q := by nlinarith
  refine ⟨δ, hδ, X₀ + 1 + c, fun b ss hset hbx hdat b' N hN hx0 hP0 hstep => ?_⟩
  have hdat' : ∀ s ∈ ss, ‖s.z‖ ≤ D ∧ ‖s.c‖ ≤ D := fun s hs => by
    obtain ⟨i, hi⟩ := List.mem_iff_getElem?.1 hs
    exact hdat i s hi
  have hpsd : ∀ i, (covRun b.P (ss.take i)).PosSemidef := fun i => (hset.cov (ss.take i) (ss.drop i) (by simp)).1
  have hYc : ∀ i, ‖covRun b.P (ss.take i)‖ ≤ c := fun i =>
    (mat_norm_le hc.le).2 (psd_entry hc.le (hpsd i) (hset.cov (ss.take i) (ss.drop i) (by simp)).2)
  have hexP : ∀ i, (lastOf b (ss.take i)).P = covRun b.P (ss.take i) := fun i => lastOf_covRun _ _
  have hexx : ∀ i, ‖(lastOf b (ss.take i)).x‖ ≤ X₀ := fun i => by
    have hs : Settled a r C ρ g c b.P (ss.take i) := Settled.take (v := ss.drop i) (by simpa using hset)
    refine (hs.run ha hC h0 h1 hg hD (fun s hs => hdat' s (List.mem_of_mem_take hs)) b.x).trans ?_
    rw [hX₀]
    have : C * ρ ^ (ss.take i).length * ‖b.x‖ ≤ C * Y₀ :=
      mul_le_mul (mul_le_of_le_one_right hC0.le (pow_le_one₀ h0.le h1.le)) hbx (norm_nonneg _) hC0.le
    linarith
  have hss : ∀ i < N, ∃ s, ss[i]? = some s := fun i hi => ⟨_, List.getElem?_eq_getElem (by omega)⟩
  have htame : ∀ (i : ℕ) (s : LinStep n m), ss[i]? = some s → TameStep a r s := fun i s hs => hset.tame s (List.mem_of_getElem? hs)
  have hdk : ∀ j k, j + k ≤ ss.length → ∀ d, ‖clo (covRun b.P (ss.take j)) ((ss.drop j).take k) *ᵥ d‖ ≤ C * ρ ^ k * ‖d‖ := fun j k hjk d => by
    have := hset.decay (ss.take j) ((ss.drop j).take k) ((ss.drop j).drop k) (by simp) d
    rwa [List.length_take, List.length_drop, Nat.min_eq_left (by omega)] at this
  obtain ⟨M, hM⟩ : ∃ M : ℕ → Matrix (Fin n) (Fin n) ℝ, M = fun i => cloAt b.P ss i := ⟨_, rfl⟩
  have hMs : ∀ (i : ℕ) (s : LinStep n m), ss[i]? = some s → M i = s.closed (covRun b.P (ss.take i)) := fun i s hs => by
    rw [hM]; exact cloAt_eq b.P hs
  have hMb : ∀ i < N, ‖M i‖ ≤ C := fun i hi => by
    refine norm_of_mulVec hC0.le fun d => ?_
    have := hdk i 1 (by omega) d
    rw [clo_take_succ b.P ss (by omega), List.take_zero, clo, Matrix.mul_one, pow_one, Nat.add_zero] at this
    rw [hM]
    refine this.trans (mul_le_mul_of_nonneg_right ?_ (norm_nonneg _))
    exact mul_le_of_le_one_right hC0.le h1.le
  -- the covariances
  have hcov : ∀ i ≤ N, ‖(b' i).P - covRun b.P (ss.take i)‖ ≤ q := by
    refine trap (L := fun i => conjHom (M i)) (C := C₁) (ρ := ρ) (β := δ + θ * c₁ * q) hC₁1 h0 h1 (fun j k d hjk => ?_)
      (e := fun i => (b' i).P - covRun b.P (ss.take i))
      (w := fun i => (b' (i + 1)).P - covRun b.P (ss.take (i + 1)) - conjHom (M i) ((b' i).P - covRun b.P (ss.take i)))
      (fun i hi => by abel) (by positivity) (fun i hi he => ?_) ?_
    · rw [hM, seg_conjV b.P ss j k (by omega)]
      refine (conj_norm_le _ _).trans (mul_le_mul_of_nonneg_right ?_ (norm_nonneg d))
      have e0 := norm_of_mulVec (by positivity) (hdk j k (by omega))
      have e1 := pow_le_pow_left₀ (by positivity) (mul_le_mul_of_nonneg_left e0 (Nat.cast_nonneg (α := ℝ) n)) 2
      refine e1.trans ?_
      have e2 : (n * (C * ρ ^ k)) ^ 2 = (n * C) ^ 2 * ρ ^ k * ρ ^ k := by ring
      rw [e2, hC₁]
      have e3 : (n * C) ^ 2 * ρ ^ k * ρ ^ k ≤ (n * C) ^ 2 * ρ ^ k :=
        mul_le_of_le_one_right (by positivity) (pow_le_one₀ h0.le h1.le)
      have e4 : 0 ≤ C * ρ ^ k := by positivity
      linarith
    · obtain ⟨s, hs⟩ := hss i hi
      have ht := htame i s hs
      obtain ⟨g1, g2⟩ := hgain s _ (b' i).P ht (hpsd i) (hYc i) (he.trans hqr₀)
      have hdet : (innovCov s.H (priorCov s.A (b' i).P s.Q) s.R).det ≠ 0 := fun h => by
        rw [h, abs_zero] at g1; linarith
      have hst := (hstep i s hi hs).2
      rw [LinStep.next_P] at hst
      have hdiff := covNext_diff (ht.noisy hr) (hpsd i) hdet
      have key : (b' (i + 1)).P - covRun b.P (ss.take (i + 1)) - conjHom (M i) ((b' i).P - covRun b.P (ss.take i)) =
          ((b' (i + 1)).P - s.covNext (b' i).P) - (s.gainAt (b' i).P - s.gainAt (covRun b.P (ss.take i))) * (s.H * s.A) *
            (((b' i).P - covRun b.P (ss.take i)) * (M i)ᵀ) := by
        have : conjHom (M i) ((b' i).P - covRun b.P (ss.take i)) = M i * ((b' i).P - covRun b.P (ss.take i)) * (M i)ᵀ := rfl
        rw [this, covRun_take_succ b.P hs]
        have e1 : (b' (i + 1)).P - s.covNext (covRun b.P (ss.take i)) = ((b' (i + 1)).P - s.covNext (b' i).P) +
          (s.covNext (b' i).P - s.covNext (covRun b.P (ss.take i))) := by abel
        rw [e1, hdiff, hMs i s hs]
        generalize (b' i).P - covRun b.P (ss.take i) = E
        simp only [LinStep.closed, Matrix.sub_mul, Matrix.mul_assoc, Matrix.one_mul]
        abel
      rw [key]
      refine (norm_sub_le _ _).trans (add_le_add hst ?_)
      refine (mul_norm_le _ _).trans ?_
      have hHA : ‖s.H * s.A‖ ≤ n * (a * a) := (mul_norm_le _ _).trans (mul_le_mul_of_nonneg_left
        (mul_le_mul ((mat_norm_le ha).2 ht.H) ((mat_norm_le ha).2 ht.A) (norm_nonneg _) ha) (Nat.cast_nonneg _))
      have a1 := mul_norm_le (s.gainAt (b' i).P - s.gainAt (covRun b.P (ss.take i))) (s.H * s.A)
      have a2 := mul_norm_le ((b' i).P - covRun b.P (ss.take i)) (M i)ᵀ
      rw [transpose_norm] at a2
      have a3 : ‖(s.gainAt (b' i).P - s.gainAt (covRun b.P (ss.take i))) * (s.H * s.A)‖ ≤ m * (θ * (n * (a * a))) :=
        a1.trans (mul_le_mul_of_nonneg_left (mul_le_mul g2 hHA (norm_nonneg _) hθ.le) (Nat.cast_nonneg _))
      have a4 : ‖((b' i).P - covRun b.P (ss.take i)) * (M i)ᵀ‖ ≤ n * (q * C) :=
        a2.trans (mul_le_mul_of_nonneg_left (mul_le_mul he (hMb i hi) (norm_nonneg _) hq.le) (Nat.cast_nonneg _))
      have a5 := mul_le_mul a3 a4 (norm_nonneg _) (by positivity)
      refine (mul_le_mul_of_nonneg_left a5 (Nat.cast_nonneg _)).trans (le_of_eq ?_)
      rw [hc₁]; ring
    · dsimp only [List.take_zero, covRun]
      have e1 : C₁ * ‖(b' 0).P - b.P‖ ≤ C₁ * δ := mul_le_mul_of_nonneg_left hP0 (by linarith)
      rw [← hΓ]
      have e2 : Γ * θ * c₁ * q ≤ 1 / 2 * q := mul_le_mul_of_nonneg_right hθ1 hq.le
      linarith
  have hgg : ∀ i ≤ N, ∀ s, ss[i]? = some s → r₀ ≤ |(innovCov s.H (priorCov s.A (b' i).P s.Q) s.R).det| ∧
      ‖s.gainAt (b' i).P - s.gainAt (covRun b.P (ss.take i))‖ ≤ θ := fun i hi s hs =>
    hgain s _ _ (htame i s hs) (hpsd i) (hYc i) ((hcov i hi).trans hqr₀)
  -- the means
  have hmean : ∀ i ≤ N, ‖(b' i).x - (lastOf b (ss.take i)).x‖ ≤ ε' := by
    refine trap (L := fun i => mulHom (M i)) (C := C) (ρ := ρ) (β := δ + θ * c₂) hC h0 h1 (fun j k d hjk => ?_)
      (e := fun i => (b' i).x - (lastOf b (ss.take i)).x)
      (w := fun i => (b' (i + 1)).x - (lastOf b (ss.take (i + 1))).x - mulHom (M i) ((b' i).x - (lastOf b (ss.take i)).x))
      (fun i hi => by abel) (by positivity) (fun i hi he => ?_) ?_
    · rw [hM, seg_mulV b.P ss j k (by omega)]; exact hdk j k (by omega) d
    · obtain ⟨s, hs⟩ := hss i hi
      have ht := htame i s hs
      have hst := (hstep i s hi hs).1
      obtain ⟨d1, d2⟩ := hdat i s hs
      have n1 : (s.next (b' i)).x = s.A *ᵥ (b' i).x + s.c + s.gainAt (b' i).P *ᵥ (s.z - s.H *ᵥ (s.A *ᵥ (b' i).x + s.c)) := rfl
      have n2 : (s.next (lastOf b (ss.take i))).x = s.A *ᵥ (lastOf b (ss.take i)).x + s.c +
          s.gainAt (covRun b.P (ss.take i)) *ᵥ (s.z - s.H *ᵥ (s.A *ᵥ (lastOf b (ss.take i)).x + s.c)) := by
        rw [← hexP i]; rfl
      have key : (b' (i + 1)).x - (lastOf b (ss.take (i + 1))).x - mulHom (M i) ((b' i).x - (lastOf b (ss.take i)).x) =
          ((b' (i + 1)).x - (s.next (b' i)).x) + (s.gainAt (b' i).P - s.gainAt (covRun b.P (ss.take i))) *ᵥ
            (s.z - s.H *ᵥ (s.A *ᵥ (b' i).x + s.c)) := by
        have : mulHom (M i) ((b' i).x - (lastOf b (ss.take i)).x) = M i *ᵥ ((b' i).x - (lastOf b (ss.take i)).x) := rfl
        rw [this, lastOf_take_succ b ss i s hs, n1, n2, hMs i s hs]
        simp only [LinStep.closed, sub_mulVec, mulVec_sub, mulVec_add, Matrix.sub_mul, Matrix.one_mul, ← mulVec_mulVec]
        abel
      rw [key]
      refine (norm_add_le _ _).trans (add_le_add hst ?_)
      have hx' : ‖(b' i).x‖ ≤ X₀ + 1 := by
        have e1 : (b' i).x = ((b' i).x - (lastOf b (ss.take i)).x) + (lastOf b (ss.take i)).x := by abel
        rw [e1]
        refine (norm_add_le _ _).trans ?_
        have := hexx i
        linarith
      have a1 : ‖s.A *ᵥ (b' i).x + s.c‖ ≤ n * a * (X₀ + 1) + D :=
        (norm_add_le _ _).trans (add_le_add ((mulVec_norm _ _).trans (mul_le_mul
          (mul_le_mul_of_nonneg_left ((mat_norm_le ha).2 ht.A) (Nat.cast_nonneg _)) hx' (norm_nonneg _) (by positivity))) d2)
      have a2 : ‖s.z - s.H *ᵥ (s.A *ᵥ (b' i).x + s.c)‖ ≤ D + n * a * (n * a * (X₀ + 1) + D) :=
        (norm_sub_le _ _).trans (add_le_add d1 ((mulVec_norm _ _).trans (mul_le_mul
          (mul_le_mul_of_nonneg_left ((mat_norm_le ha).2 ht.H) (Nat.cast_nonneg _)) a1 (norm_nonneg _) (by positivity))))
      refine (mulVec_norm _ _).trans ?_
      have a3 := mul_le_mul (mul_le_mul_of_nonneg_left (hgg i hi.le s hs).2 (Nat.cast_nonneg (α := ℝ) m)) a2 (norm_nonneg _) (by positivity)
      refine a3.trans (le_of_eq ?_)
      rw [hc₂]; ring
    · dsimp only [List.take_zero]
      have e0 : lastOf b ([] : List (LinStep n m)) = b := rfl
      rw [e0]
      have e1 : C * ‖(b' 0).x - b.x‖ ≤ C₁ * δ := mul_le_mul hC₁C hx0 (norm_nonneg _) (by linarith)
      have e3 : C * (1 - ρ)⁻¹ ≤ Γ := by rw [hΓ]; exact mul_le_mul_of_nonneg_right hC₁C hρ.le
      have e4 : C * (1 - ρ)⁻¹ * (δ + θ * c₂) ≤ Γ * (δ + θ * c₂) := mul_le_mul_of_nonneg_right e3 (by positivity)
      linarith
  intro i hi
  have p1 := hcov i hi
  have p2 := hmean i hi
  have p3 := hexx i
  have p4 := hYc i
  refine ⟨p2.trans hε'ε, ?_, ?_, ?_, fun s hs => ⟨?_, ?_⟩⟩
  · rw [hexP i]; linarith
  · have e1 : (b' i).x = ((b' i).x - (lastOf b (ss.take i)).x) + (lastOf b (ss.take i)).x := by abel
    rw [e1]
    refine (norm_add_le _ _).trans ?_
    linarith
  · have e1 : (b' i).P = ((b' i).P - covRun b.P (ss.take i)) + covRun b.P (ss.take i) := by abel
    rw [e1]
    refine (norm_add_le _ _).trans ?_
    linarith
  · exact (hδr'.trans hqr₀).trans (hgg i hi s hs).1
  · rw [hexP i]; exact (hgg i hi s hs).2.trans hθε

/-- Every recursion that errs by at most `δ` in each step stays within `ε` of the filter recursion on `ss`, and below `X`. -/
def StaysNear (δ ε X : ℝ) (b : Belief n) (ss : List (LinStep n m)) : Prop :=
  ∀ (b' : ℕ → Belief n) (N : ℕ), N ≤ ss.length → ‖(b' 0).x - b.x‖ ≤ δ → ‖(b' 0).P - b.P‖ ≤ δ →
    (∀ (i : ℕ) (s : LinStep n m), i < N → ss[i]? = some s → ‖(b' (i + 1)).x - (s.next (b' i)).x‖ ≤ δ ∧
      ‖(b' (i + 1)).P - (s.next (b' i)).P‖ ≤ δ) →
    ∀ i ≤ N, ‖(b' i).x - (lastOf b (ss.take i)).x‖ ≤ ε ∧ ‖(b' i).P - (lastOf b (ss.take i)).P‖ ≤ ε ∧
      ‖(b' i).x‖ ≤ X ∧ ‖(b' i).P‖ ≤ X ∧ ∀ s, ss[i]? = some s → δ ≤ |(s.innov (s.predict (b' i))).det| ∧
        ‖s.gainAt (b' i).P - s.gainAt (lastOf b (ss.take i)).P‖ ≤ ε

/-- The computed run. -/
theorem run_near_of (nanInt D X : ℝ) {δ ε : ℝ} (hδ : 0 < δ) (hε : 0 < ε) : ∃ η > 0, ∀ (B : Backend Fl) (b : Belief n)
      (ss : List (LinStep n m)) (rs rs₁ : List (KalmanFilter.Row Fl)) (b₀ : Belief n) (x P I₁ : Arr Fl) (colOk : Prop),
      StaysNear δ (ε / 2) X b ss → Accurate nanInt η B →
      List.Forall₂ (@RowIs (strict nanInt) n m) ss rs → (∀ r ∈ rs, RowSmall D r) →
      List.Forall₂ (RowClose η) rs rs₁ → (@Arr.identity Fl (exactB nanInt) n).Close η I₁ → Carried b₀ x P colOk → BeliefNear η b₀ b →
      (colOk → ∀ r ∈ rs, m = 1 ∨ r.2.2.2.2.1.shape = []) →
      ∃ (b' : ℕ → Belief n) (Ks : ℕ → Matrix (Fin n) (Fin m) ℝ), (trace (@KalmanFilter.step Fl B n I₁) rs₁ x P).err = none ∧
        (trace (@KalmanFilter.step Fl B n I₁) rs₁ x P).outs =
          (List.range ss.length).map (fun i => (stateRow (b' (i + 1)), covRow (b' (i + 1)))) ∧
        (trace (@KalmanFilter.step Fl B n I₁) rs₁ x P).gains = (List.range ss.length).map (fun i => gainRow (Ks i)) ∧
        (∀ (i : ℕ) (s : LinStep n m), ss[i]? = some s → BeliefNear ε (b' (i + 1)) (lastOf b (ss.take (i + 1))) ∧
          ∀ j k, |Ks i j k - s.gainAt (lastOf b (ss.take i)).P j k| ≤ ε) := by
  have hδ' : 0 < min δ (ε / 2) := lt_min hδ (half_pos hε)
  obtain ⟨η₁, hη₁, h1⟩ := one_step (n := n) (m := m) nanInt (max D X) hδ hδ'
  refine ⟨min η₁ δ, lt_min hη₁ hδ, fun B b ss rs rs₁ b₀ x P I₁ colOk hX hB hrow hsm hcl hI hcar hb₀ hco => ?_⟩
  have hle1 : min η₁ δ ≤ η₁ := min_le_left _ _
  have hle2 : min η₁ δ ≤ δ := min_le_right _ _
  have hlen : ss.length = rs.length := hrow.length_eq
  have hlen₁ : rs.length = rs₁.length := hcl.length_eq
  have hbx := (BeliefNear.norm (lt_min hη₁ hδ).le).1 hb₀
  have main : ∀ N ≤ ss.length, ∃ (b' : ℕ → Belief n) (Ks : ℕ → Matrix (Fin n) (Fin m) ℝ) (x' P' : Arr Fl),
      (b' 0 = b₀) ∧ (trace (@KalmanFilter.step Fl B n I₁) (rs₁.take N) x P) =
        ⟨(List.range N).map (fun i => (stateRow (b' (i + 1)), covRow (b' (i + 1)))),
          (List.range N).map (fun i => gainRow (Ks i)), none, (x', P')⟩ ∧ Carried (b' N) x' P' colOk ∧
      (∀ (i : ℕ) (s : LinStep n m), i < N → ss[i]? = some s → BeliefNear δ (b' (i + 1)) (s.next (b' i)) ∧
        ∀ j k, |Ks i j k - s.gain (s.predict (b' i)) j k| ≤ ε / 2) := by
    intro N
    induction N with
    | zero => exact fun _ => ⟨fun _ => b₀, fun _ => 0, x, P, rfl, by simp [trace], hcar, fun i s hi => absurd hi (by omega)⟩
    | succ N ih =>
      intro hN
      obtain ⟨b', Ks, x', P', e0, et, hc', hst⟩ := ih (by omega)
      obtain ⟨s, hs⟩ : ∃ s, ss[N]? = some s := ⟨_, List.getElem?_eq_getElem (by omega)⟩
      obtain ⟨r, hr⟩ : ∃ r, rs[N]? = some r := ⟨_, List.getElem?_eq_getElem (by omega)⟩
      obtain ⟨r₁, hr₁⟩ : ∃ r, rs₁[N]? = some r := ⟨_, List.getElem?_eq_getElem (by omega)⟩
      have hsr : @RowIs (strict nanInt) n m s r := by
        have h2 := (List.forall₂_iff_get.1 hrow).2 N (by omega) (by omega)
        have e1 := (List.getElem?_eq_some_iff.1 hs).2
        have e2 := (List.getElem?_eq_some_iff.1 hr).2
        simp only [List.get_eq_getElem] at h2
        rwa [e1, e2] at h2
      have hrr : RowClose (min η₁ δ) r r₁ := by
        have h2 := (List.forall₂_iff_get.1 hcl).2 N (by omega) (by omega)
        have e1 := (List.getElem?_eq_some_iff.1 hr).2
        have e2 := (List.getElem?_eq_some_iff.1 hr₁).2
        simp only [List.get_eq_getElem] at h2
        rwa [e1, e2] at h2
      have hrm : r ∈ rs := List.mem_of_getElem? hr
      obtain ⟨-, -, g1, g2, g3⟩ := hX b' N (by omega) (by rw [e0]; exact hbx.1.trans hle2) (by rw [e0]; exact hbx.2.trans hle2)
        (fun i s hi hs => (BeliefNear.norm hδ.le).1 (hst i s hi hs).1) N le_rfl
      have hdet : δ ≤ |(s.innov (s.predict (b' N))).det| := (g3 s hs).1
      have hsmall : RowSmall (max D X) r := by
        have := hsm r hrm
        have key : ∀ a : Arr Fl, a.Small D → a.Small (max D X) := fun a ha => by
          refine ⟨?_, fun k hk => (ha.2 k hk).trans (le_max_left _ _)⟩
          cases a with
          | scalar d x => exact ha.1.trans (le_max_left _ _)
          | vec d x => exact fun i => (ha.1 i).trans (le_max_left _ _)
          | mat d x => exact fun i j => (ha.1 i j).trans (le_max_left _ _)
        obtain ⟨k1, k2, k3, k4, k5, k6, k7⟩ := this
        exact ⟨key _ k1, key _ k2, key _ k3, key _ k4, key _ k5, key _ k6, key _ k7⟩
      have hwithin : BeliefWithin (max D X) (b' N) :=
        ⟨fun i => ((norm_le_pi_norm (b' N).x i).trans g1).trans (le_max_right _ _),
          fun i j => ((entry_le_norm (b' N).P i j).trans g2).trans (le_max_right _ _)⟩
      obtain ⟨K, b'', x'', P'', es, hc'', hn, hg⟩ := h1 B s (b' N) r r₁ x' P' I₁ colOk (hB.mono (lt_min hη₁ hδ) hle1) hsr hsmall
        (hrr.mono hle1) (hI.mono hle1) hc' (fun hk => hco hk r hrm) hwithin hdet
      refine ⟨fun i => if i = N + 1 then b'' else b' i, fun i => if i = N then K else Ks i, x'', P'', ?_, ?_, ?_, ?_⟩
      · simp [e0]
      · rw [List.take_add_one, hr₁, Option.toList_some, trace_append, et]
        simp only [trace, es, List.range_succ, List.map_append, List.map_cons, List.map_nil, Option.toList_some, if_true,
          List.append_nil]
        congr 1
        · congr 1
          refine List.map_congr_left fun i hi => ?_
          have := List.mem_range.1 hi
          rw [if_neg (by omega)]
        · congr 1
          refine List.map_congr_left fun i hi => ?_
          have := List.mem_range.1 hi
          rw [if_neg (by omega)]
      · simpa using hc''
      · intro i s' hi hs'
        rcases Nat.lt_or_ge i N with hlt | hge
        · have := hst i s' hlt hs'
          beta_reduce
          rw [if_neg (show ¬ i + 1 = N + 1 by omega), if_neg (show ¬ i = N + 1 by omega), if_neg (show ¬ i = N by omega)]
          exact this
        · obtain rfl : i = N := by omega
          obtain rfl : s' = s := by rw [hs] at hs'; exact (Option.some.inj hs').symm
          beta_reduce
          rw [if_pos rfl, if_neg (show ¬ i = i + 1 by omega), if_pos rfl]
          exact ⟨⟨fun i => (hn.1 i).trans (min_le_left _ _), fun i j => (hn.2 i j).trans (min_le_left _ _)⟩,
            fun j k => (hg j k).trans (min_le_right _ _)⟩
  obtain ⟨b', Ks, x', P', e0, et, -, hst⟩ := main ss.length le_rfl
  rw [List.take_of_length_le (by omega)] at et
  have hfin := hX b' ss.length le_rfl (by rw [e0]; exact hbx.1.trans hle2) (by rw [e0]; exact hbx.2.trans hle2)
    (fun i s hi hs => (BeliefNear.norm hδ.le).1 (hst i s hi hs).1)
  refine ⟨b', Ks, by rw [et], by rw [et], by rw [et], fun i s hs => ?_⟩
  have hi : i < ss.length := (List.getElem?_eq_some_iff.1 hs).1
  refine ⟨?_, fun j k => ?_⟩
  · obtain ⟨g1, g2, -⟩ := hfin (i + 1) hi
    rw [BeliefNear.norm hε.le]
    exact ⟨by linarith, by linarith⟩
  · obtain ⟨-, -, -, -, g⟩ := hfin i hi.le
    have q : |Ks i j k - s.gainAt (b' i).P j k| ≤ ε / 2 := (hst i s hi hs).2 j k
    have q' := (entry_le_norm _ j k).trans (g s hs).2
    rw [Matrix.sub_apply] at q'
    calc |Ks i j k - s.gainAt (lastOf b (ss.take i)).P j k| ≤ |Ks i j k - s.gainAt (b' i).P j k| +
          |s.gainAt (b' i).P j k - s.gainAt (lastOf b (ss.take i)).P j k| := abs_sub_le _ _ _
      _ ≤ ε := by linarith

end

end KK
