import Verif.Props.Detectability
import Verif.Props.Steady

/-!
# C168: detectable and stabilizable models forget the initial state; the filter becomes a fixed-gain observer
-/

set_option linter.unusedSectionVars false

namespace KK

open Matrix Filter Topology
open scoped Matrix.Norms.Elementwise

variable {n m : ℕ} {A Q : Matrix (Fin n) (Fin n) ℝ} {H : Matrix (Fin m) (Fin n) ℝ} {R : Matrix (Fin m) (Fin m) ℝ}

variable [Platform]

/-- `L ρ^L` decays like a power of the square root. -/
theorem lin_pow_le {ρ : ℝ} (h0 : 0 < ρ) (h1 : ρ < 1) (L : ℕ) : (L : ℝ) * ρ ^ L ≤ (1 - √ρ)⁻¹ * √ρ ^ L := by
  have hs0 : 0 < √ρ := Real.sqrt_pos.2 h0
  have hs1 : √ρ < 1 := by rw [Real.sqrt_lt' one_pos]; simpa using h1
  have e : ρ ^ L = √ρ ^ L * √ρ ^ L := by rw [← mul_pow, Real.mul_self_sqrt h0.le]
  rw [e, ← mul_assoc]
  exact mul_le_mul_of_nonneg_right (lin_geom_le hs0 hs1 L) (by positivity)

/-- A run from `P` and a run from the steady state. -/
theorem steady_gap (hQ : Q.PosSemidef) (hR : R.PosDef) (hd : Detectable A H) (hs : Stabilizable A Q) {F : Matrix (Fin n) (Fin n) ℝ}
    (hF : F.PosSemidef) (hfix : ric A H Q R F = F) (hT : Tendsto (fun k => (ric A H Q R)^[k] 0) atTop (𝓝 F))
    (P : Matrix (Fin n) (Fin n) ℝ) (hP : P.PosSemidef) :
    ∃ C ρ : ℝ, 0 < C ∧ 0 < ρ ∧ ρ < 1 ∧ ∀ (x y : Fin n → ℝ) (ss : List (LinStep n m)), ConstantModel A H Q R ss →
      ∀ r D, 0 ≤ r → 0 ≤ D → (∀ (l : ℕ) (s : LinStep n m), ss[l]? = some s → ‖s.z‖ ≤ D ∧ ‖s.c‖ ≤ D) → ‖x‖ ≤ r → ‖y‖ ≤ r →
      ∀ k, k ≤ ss.length → ‖(lastOf ⟨x, P⟩ (ss.take k)).x - (lastOf ⟨y, F⟩ (ss.take k)).x‖ ≤ C * ρ ^ k * (r + D) := by
  have hst := closedLoop_stable (H := H) hQ hR hs hF hfix
  obtain ⟨C₀, ρ₀, hC₀, h0₀, h1₀, hb⟩ := cov_decay_detect hQ hR hF hfix hst hT
  obtain ⟨C₁, ρ₁, hC₁, h0₁, h1₁, hr⟩ := run_bound_detect hQ hR hd hs P hP
  obtain ⟨C₂, ρ₂, hC₂, h0₂, h1₂, hM⟩ := hst.decay
  obtain ⟨η, hη, hH⟩ := exists_mulVec_bound H
  obtain ⟨α, hα, hA⟩ := exists_mulVec_bound A
  have hT0 : 0 ≤ ∑ k, ∑ l, |(Hᵀ * R⁻¹) k l| := Finset.sum_nonneg fun k _ => Finset.sum_nonneg fun l _ => abs_nonneg _
  set S := ∑ k, ∑ l, |(Hᵀ * R⁻¹) k l|
  have hm : (0 : ℝ) ≤ m := Nat.cast_nonneg m
  have hn : (0 : ℝ) ≤ n := Nat.cast_nonneg n
  -- the gains
  have hK : ∀ k (v : Fin m → ℝ), ‖(ownGains A Q H R P k - kGain H (priorCov A F Q) R) *ᵥ v‖ ≤
      m * (C₀ * (1 + ‖P‖) * S) * ρ₀ ^ k * ‖v‖ := by
    intro k v
    have e2 : kGain H (priorCov A F Q) R = F * (Hᵀ * R⁻¹) := by
      have := ownGains_post (A := A) (H := H) hQ hR hF 0
      rwa [steady_iter hfix] at this
    have h1 : ‖ownGains A Q H R P k - kGain H (priorCov A F Q) R‖ ≤ C₀ * (1 + ‖P‖) * S * ρ₀ ^ k := by
      refine (mat_norm_le (by positivity)).2 fun i j => ?_
      rw [e2, ownGains_post hQ hR hP, ← Matrix.sub_mul]
      refine (mul_entry_le (fun i j => hb P hP (k + 1) i j) _ i j).trans ?_
      have : ρ₀ ^ (k + 1) ≤ ρ₀ ^ k := pow_le_pow_of_le_one h0₀.le h1₀.le (by omega)
      have h3 : 0 ≤ C₀ * (1 + ‖P‖) * S := by positivity
      calc C₀ * ρ₀ ^ (k + 1) * (1 + ‖P‖) * S = C₀ * (1 + ‖P‖) * S * ρ₀ ^ (k + 1) := by ring
        _ ≤ _ := mul_le_mul_of_nonneg_left this h3
    refine (mulVec_norm _ v).trans (mul_le_mul_of_nonneg_right ?_ (norm_nonneg v))
    rw [mul_assoc]
    exact mul_le_mul_of_nonneg_left h1 hm
  set κ := m * (C₀ * (1 + ‖P‖) * S) with hκd
  have hκ : 0 ≤ κ := by positivity
  clear_value κ
  set ρ := max ρ₀ ρ₂ with hρd
  have hρ0 : 0 < ρ := lt_max_of_lt_left h0₀
  have hρ1 : ρ < 1 := max_lt h1₀ h1₂
  have hs0 : 0 < √ρ := Real.sqrt_pos.2 hρ0
  have hs1 : √ρ < 1 := by rw [Real.sqrt_lt' one_pos]; simpa using hρ1
  have hρs : ∀ k : ℕ, ρ ^ k ≤ √ρ ^ k := fun k => pow_le_pow_left₀ hρ0.le (by
    rw [Real.le_sqrt hρ0.le hρ0.le]; nlinarith) k
  set γ := κ * (1 + η * (α * C₁ + 1)) with hγd
  have hγ : 0 ≤ γ := by positivity
  clear_value γ
  have hinv : 0 < (1 - √ρ)⁻¹ := inv_pos.2 (by linarith)
  refine ⟨2 * (n * C₂) + n * C₂ * γ * ρ⁻¹ * (1 - √ρ)⁻¹ + 1, √ρ, by positivity, hs0, hs1,
    fun x y ss hcm r D hr0 hD hdat hx hy k hk => ?_⟩
  have hex : ∀ i, ∃ w : Fin n → ℝ, i < k → ‖w‖ ≤ γ * ρ ^ i * (r + D) ∧
      (lastOf ⟨x, P⟩ (ss.take (i + 1))).x - (lastOf ⟨y, F⟩ (ss.take (i + 1))).x =
        ((1 - kGain H (priorCov A F Q) R * H) * A) *ᵥ ((lastOf ⟨x, P⟩ (ss.take i)).x - (lastOf ⟨y, F⟩ (ss.take i)).x) + w := by
    intro i
    by_cases hi : i < k
    · have hl : i < ss.length := by omega
      have hss : ss[i]? = some ss[i] := List.getElem?_eq_getElem hl
      have hmm := hcm ss[i] (List.getElem_mem _)
      obtain ⟨hz, hu⟩ := hdat i _ hss
      set X := (lastOf ⟨x, P⟩ (ss.take i)).x with hX
      refine ⟨(ownGains A Q H R P i - kGain H (priorCov A F Q) R) *ᵥ (ss[i].z - H *ᵥ (A *ᵥ X + ss[i].c)), fun _ => ⟨?_, ?_⟩⟩
      · have hXb : ‖X‖ ≤ C₁ * (r + D) := by
          have := hr ⟨x, P⟩ ss rfl hcm D hD hdat i (by omega)
          have e1 : C₁ * ρ₁ ^ i * ‖x‖ ≤ C₁ * 1 * r :=
            mul_le_mul (mul_le_mul_of_nonneg_left (pow_le_one₀ h0₁.le h1₁.le) hC₁.le) hx (norm_nonneg _) (by positivity)
          rw [hX]
          linarith
        have e1 : ‖A *ᵥ X + ss[i].c‖ ≤ α * (C₁ * (r + D)) + D :=
          (norm_add_le _ _).trans (add_le_add ((hA X).trans (mul_le_mul_of_nonneg_left hXb hα)) hu)
        have e2 : ‖H *ᵥ (A *ᵥ X + ss[i].c)‖ ≤ η * (α * (C₁ * (r + D)) + D) := (hH _).trans (mul_le_mul_of_nonneg_left e1 hη)
        have e3 : ‖ss[i].z - H *ᵥ (A *ᵥ X + ss[i].c)‖ ≤ (1 + η * (α * C₁ + 1)) * (r + D) := by
          refine (norm_sub_le _ _).trans ?_
          have : η * (α * (C₁ * (r + D)) + D) ≤ η * (α * C₁ + 1) * (r + D) := by
            rw [mul_assoc]
            refine mul_le_mul_of_nonneg_left ?_ hη
            linarith
          linarith
        refine (hK i _).trans ?_
        have e4 : ρ₀ ^ i ≤ ρ ^ i := pow_le_pow_left₀ h0₀.le (le_max_left _ _) i
        calc κ * ρ₀ ^ i * ‖ss[i].z - H *ᵥ (A *ᵥ X + ss[i].c)‖ ≤ κ * ρ ^ i * ((1 + η * (α * C₁ + 1)) * (r + D)) :=
              mul_le_mul (mul_le_mul_of_nonneg_left e4 hκ) e3 (norm_nonneg _) (by positivity)
          _ = γ * ρ ^ i * (r + D) := by rw [hγd]; ring
      · rw [lastOf_take_succ _ ss _ _ hss, lastOf_take_succ _ ss _ _ hss,
          next_mean hmm (P := P) (k := i) _ (by rw [lastOf_const hcm _ _ (by omega)]),
          next_mean hmm (P := F) (k := i) _ (by rw [lastOf_const hcm _ _ (by omega)])]
        have eg : ownGains A Q H R F i = kGain H (priorCov A F Q) R := by rw [ownGains, steady_iter hfix]
        rw [eg, ← hX]
        generalize (lastOf ⟨y, F⟩ (ss.take i)).x = Y
        simp only [Matrix.sub_mul, Matrix.one_mul, sub_mulVec, mulVec_sub, mulVec_add, ← mulVec_mulVec]
        abel
    · exact ⟨0, fun h => absurd h hi⟩
  choose w hw using hex
  have key := variation (fun _ => kGain H (priorCov A F Q) R) (fun i => (lastOf ⟨x, P⟩ (ss.take i)).x - (lastOf ⟨y, F⟩ (ss.take i)).x)
    w k (fun i hi => (hw i hi).2)
  have hpr : ∀ j, propagator A H (fun _ => kGain H (priorCov A F Q) R) j = closedLoop A Q H R F ^ j := by
    intro j
    induction j with
    | zero => rfl
    | succ j ih => rw [propagator, ih, pow_succ']; rfl
  have hMv : ∀ j (v : Fin n → ℝ), ‖closedLoop A Q H R F ^ j *ᵥ v‖ ≤ n * C₂ * ρ ^ j * ‖v‖ := by
    intro j v
    refine (mulVec_norm _ v).trans (mul_le_mul_of_nonneg_right ?_ (norm_nonneg v))
    rw [mul_assoc]
    refine mul_le_mul_of_nonneg_left ((hM j).trans (mul_le_mul_of_nonneg_left ?_ (by linarith))) hn
    exact pow_le_pow_left₀ h0₂.le (le_max_right _ _) j
  have hsum : ‖∑ i ∈ Finset.range k, closedLoop A Q H R F ^ (k - 1 - i) *ᵥ w i‖ ≤
      n * C₂ * γ * ρ⁻¹ * (1 - √ρ)⁻¹ * √ρ ^ k * (r + D) := by
    have hi : ∀ i ∈ Finset.range k, ‖closedLoop A Q H R F ^ (k - 1 - i) *ᵥ w i‖ ≤ n * C₂ * γ * ρ⁻¹ * ρ ^ k * (r + D) := by
      intro i hi
      rw [Finset.mem_range] at hi
      refine (hMv _ _).trans ((mul_le_mul_of_nonneg_left (hw i hi).1 (by positivity)).trans (le_of_eq ?_))
      have e : ρ ^ k = ρ ^ (k - 1 - i) * ρ ^ i * ρ := by
        rw [← pow_add, ← pow_succ]
        congr 1
        omega
      rw [e]
      field_simp
    refine (norm_sum_le _ _).trans ((Finset.sum_le_sum hi).trans ?_)
    rw [Finset.sum_const, Finset.card_range, nsmul_eq_mul]
    have := lin_pow_le hρ0 hρ1 k
    have h2 : 0 ≤ n * C₂ * γ * ρ⁻¹ * (r + D) := by positivity
    calc (k : ℝ) * (n * C₂ * γ * ρ⁻¹ * ρ ^ k * (r + D)) = n * C₂ * γ * ρ⁻¹ * (r + D) * (k * ρ ^ k) := by ring
      _ ≤ n * C₂ * γ * ρ⁻¹ * (r + D) * ((1 - √ρ)⁻¹ * √ρ ^ k) := mul_le_mul_of_nonneg_left this h2
      _ = _ := by ring
  have hfirst : ‖closedLoop A Q H R F ^ k *ᵥ (x - y)‖ ≤ 2 * (n * C₂) * √ρ ^ k * (r + D) := by
    have e1 : ‖x - y‖ ≤ 2 * (r + D) := (norm_sub_le _ _).trans (by linarith)
    calc _ ≤ n * C₂ * ρ ^ k * ‖x - y‖ := hMv k _
      _ ≤ n * C₂ * √ρ ^ k * (2 * (r + D)) :=
          mul_le_mul (mul_le_mul_of_nonneg_left (hρs k) (by positivity)) e1 (norm_nonneg _) (by positivity)
      _ = _ := by ring
  simp only [hpr] at key
  have e0 : ∀ b : Belief n, (lastOf b (ss.take 0)).x = b.x := fun b => by simp [lastOf]
  simp only [e0] at key
  rw [key]
  refine (norm_add_le _ _).trans ((add_le_add hfirst hsum).trans ?_)
  have : 0 ≤ √ρ ^ k * (r + D) := by positivity
  nlinarith

/-- C168: a constant model with PSD `Q` and PD `R` that is detectable and stabilizable, started with any PSD covariance `P`: the
means `filter` returns approach those of the observer that uses the steady-state gain from the beginning and computes no covariances,
started anywhere: if both initial means are at most `r` and data and controls at most `D`, they differ by at most `C ρ^(k+1) (r + D)`
after step `k`, where `C` and `ρ < 1` depend on the model and `P` only. -/
theorem C168_fixed_gain (A Q : Matrix (Fin n) (Fin n) ℝ) (H : Matrix (Fin m) (Fin n) ℝ) (R : Matrix (Fin m) (Fin m) ℝ)
    (P : Matrix (Fin n) (Fin n) ℝ) (hQ : Q.PosSemidef) (hR : R.PosDef) (hP : P.PosSemidef) (hd : Detectable A H)
    (hs : Stabilizable A Q) :
    ∃ (F : Matrix (Fin n) (Fin n) ℝ) (C ρ : ℝ), F.PosSemidef ∧ SteadyState A H Q R F ∧ 0 < ρ ∧ ρ < 1 ∧
      ∀ (kf : KalmanFilter Fl) (Z : NDArray Fl) (U : Option (NDArray Fl)) (x₀ y₀ : Fin n → ℝ) (ss : List (LinStep n m)),
        Represents kf Z U ⟨x₀, P⟩ ss → ConstantModel A H Q R ss →
        ∃ (bs : List (Belief n)) (Ks : List (Matrix (Fin n) (Fin m) ℝ)), FilterReturns kf Z U bs Ks ∧ bs.length = ss.length ∧
          (fixedGain A H (steadyGain A Q F H R) y₀ ss).length = ss.length ∧
          ∀ r D : ℝ, 0 ≤ r → 0 ≤ D → (∀ s ∈ ss, (∀ i, |s.z i| ≤ D) ∧ ∀ i, |s.c i| ≤ D) → (∀ i, |x₀ i| ≤ r) → (∀ i, |y₀ i| ≤ r) →
            ∀ k q y, bs[k]? = some q → (fixedGain A H (steadyGain A Q F H R) y₀ ss)[k]? = some y →
              ∀ i, |q.x i - y i| ≤ C * ρ ^ (k + 1) * (r + D) := by
  obtain ⟨F, hF, hfix, hT⟩ := exists_limit (A := A) (H := H) hQ hR hd
  obtain ⟨C, ρ, hC, h0, h1, hb⟩ := steady_gap hQ hR hd hs hF hfix hT P hP
  refine ⟨F, C, ρ, hF, steadyState_iff.2 hfix, h0, h1, fun kf Z U x₀ y₀ ss h hcm => ?_⟩
  have hdet : (H * (A * F * Aᵀ + Q) * Hᵀ + R).det ≠ 0 := posDef_det_ne (innovCov_posDef (priorCov_posSemidef hF hQ) hR)
  obtain ⟨-, s2, -⟩ := steady_run (steadyState_iff.2 hfix) hdet hcm y₀
  refine ⟨_, _, h.returns (solvable_psd hP (fun s hs => (hcm s hs).2.2.1 ▸ hQ) fun s hs => (hcm s hs).2.2.2 ▸ hR), filtered_length _ _,
    ?_, fun r D hr0 hD hdat hr hr' k q y hq hy i => ?_⟩
  · have := congrArg List.length s2
    rwa [filtered_length, List.length_map, eq_comm] at this
  · obtain ⟨hk, rfl⟩ := filtered_lastOf hq
    have hy' : (filtered ⟨y₀, F⟩ ss)[k]? = some ⟨y, F⟩ := by rw [s2, List.getElem?_map, hy]; rfl
    obtain ⟨-, hy2⟩ := filtered_lastOf hy'
    have hg := hb x₀ y₀ ss hcm r D hr0 hD (fun l s hl => by
      obtain ⟨d1, d2⟩ := hdat s (List.mem_iff_getElem?.2 ⟨l, hl⟩)
      exact ⟨(abs_le_iff_norm hD).1 d1, (abs_le_iff_norm hD).1 d2⟩) ((abs_le_iff_norm hr0).1 hr) ((abs_le_iff_norm hr0).1 hr') (k + 1) hk
    rw [← hy2] at hg
    have hc0 : 0 ≤ C * ρ ^ (k + 1) * (r + D) := by positivity
    exact (abs_le_iff_norm hc0).2 hg i

/-- C168, the whole initial state is forgotten: two filters with the same such model and data, started with covariances `P` and `P'` and any
means up to `r`, return means that differ by at most `C ρ^(k+1) (r + D)` after step `k`; the covariances and gains approach each other
too (C165). -/
theorem C168_forget (A Q : Matrix (Fin n) (Fin n) ℝ) (H : Matrix (Fin m) (Fin n) ℝ) (R : Matrix (Fin m) (Fin m) ℝ)
    (P P' : Matrix (Fin n) (Fin n) ℝ) (hQ : Q.PosSemidef) (hR : R.PosDef) (hP : P.PosSemidef) (hP' : P'.PosSemidef)
    (hd : Detectable A H) (hs : Stabilizable A Q) :
    ∃ C ρ : ℝ, 0 < ρ ∧ ρ < 1 ∧
      ∀ (kf kf' : KalmanFilter Fl) (Z Z' : NDArray Fl) (U U' : Option (NDArray Fl)) (x₀ x₀' : Fin n → ℝ) (ss : List (LinStep n m)),
        Represents kf Z U ⟨x₀, P⟩ ss → Represents kf' Z' U' ⟨x₀', P'⟩ ss → ConstantModel A H Q R ss →
        ∃ (bs bs' : List (Belief n)) (Ks Ks' : List (Matrix (Fin n) (Fin m) ℝ)), FilterReturns kf Z U bs Ks ∧
          FilterReturns kf' Z' U' bs' Ks' ∧ bs.length = ss.length ∧ bs'.length = ss.length ∧
          ∀ r D : ℝ, 0 ≤ r → 0 ≤ D → (∀ s ∈ ss, (∀ i, |s.z i| ≤ D) ∧ ∀ i, |s.c i| ≤ D) → (∀ i, |x₀ i| ≤ r) → (∀ i, |x₀' i| ≤ r) →
            ∀ k q q', bs[k]? = some q → bs'[k]? = some q' → ∀ i, |q.x i - q'.x i| ≤ C * ρ ^ (k + 1) * (r + D) := by
  obtain ⟨F, hF, hfix, hT⟩ := exists_limit (A := A) (H := H) hQ hR hd
  obtain ⟨C, ρ, hC, h0, h1, hb⟩ := steady_gap hQ hR hd hs hF hfix hT P hP
  obtain ⟨C', ρ', hC', h0', h1', hb'⟩ := steady_gap hQ hR hd hs hF hfix hT P' hP'
  refine ⟨C + C', max ρ ρ', lt_max_of_lt_left h0, max_lt h1 h1', fun kf kf' Z Z' U U' x₀ x₀' ss h h' hcm => ?_⟩
  have hsol : ∀ b : Belief n, b.P.PosSemidef → Solvable b ss := fun b hb =>
    solvable_psd hb (fun s hs => (hcm s hs).2.2.1 ▸ hQ) fun s hs => (hcm s hs).2.2.2 ▸ hR
  refine ⟨_, _, _, _, h.returns (hsol _ hP), h'.returns (hsol _ hP'), filtered_length _ _, filtered_length _ _,
    fun r D hr0 hD hdat hr hr' k q q' hq hq' i => ?_⟩
  obtain ⟨hk, rfl⟩ := filtered_lastOf hq
  obtain ⟨-, rfl⟩ := filtered_lastOf hq'
  have hdat' : ∀ (l : ℕ) (s : LinStep n m), ss[l]? = some s → ‖s.z‖ ≤ D ∧ ‖s.c‖ ≤ D := fun l s hl => by
    obtain ⟨d1, d2⟩ := hdat s (List.mem_iff_getElem?.2 ⟨l, hl⟩)
    exact ⟨(abs_le_iff_norm hD).1 d1, (abs_le_iff_norm hD).1 d2⟩
  have z0 : ‖(0 : Fin n → ℝ)‖ ≤ r := by simpa using hr0
  have g1 := hb x₀ 0 ss hcm r D hr0 hD hdat' ((abs_le_iff_norm hr0).1 hr) z0 (k + 1) hk
  have g2 := hb' x₀' 0 ss hcm r D hr0 hD hdat' ((abs_le_iff_norm hr0).1 hr') z0 (k + 1) hk
  have p1 : ρ ^ (k + 1) ≤ max ρ ρ' ^ (k + 1) := pow_le_pow_left₀ h0.le (le_max_left _ _) _
  have p2 : ρ' ^ (k + 1) ≤ max ρ ρ' ^ (k + 1) := pow_le_pow_left₀ h0'.le (le_max_right _ _) _
  have hrD : 0 ≤ r + D := add_nonneg hr0 hD
  have g3 := norm_sub_le_norm_sub_add_norm_sub (lastOf ⟨x₀, P⟩ (ss.take (k + 1))).x (lastOf ⟨0, F⟩ (ss.take (k + 1))).x
    (lastOf ⟨x₀', P'⟩ (ss.take (k + 1))).x
  rw [norm_sub_rev (lastOf ⟨0, F⟩ (ss.take (k + 1))).x] at g3
  have q1 : C * ρ ^ (k + 1) * (r + D) ≤ C * max ρ ρ' ^ (k + 1) * (r + D) :=
    mul_le_mul_of_nonneg_right (mul_le_mul_of_nonneg_left p1 hC.le) hrD
  have q2 : C' * ρ' ^ (k + 1) * (r + D) ≤ C' * max ρ ρ' ^ (k + 1) * (r + D) :=
    mul_le_mul_of_nonneg_right (mul_le_mul_of_nonneg_left p2 hC'.le) hrD
  have hc0 : 0 ≤ (C + C') * max ρ ρ' ^ (k + 1) * (r + D) := by positivity
  refine (abs_le_iff_norm (v := (lastOf ⟨x₀, P⟩ (ss.take (k + 1))).x - (lastOf ⟨x₀', P'⟩ (ss.take (k + 1))).x) hc0).2 ?_ i
  refine g3.trans ((add_le_add (g1.trans q1) (g2.trans q2)).trans (le_of_eq ?_))
  ring

-- C168: the model of C165, which is neither observable nor controllable; two different initial states, data within bounds.
example (b b' : Belief 2) (x y : ℝ) : let A : Matrix (Fin 2) (Fin 2) ℝ := !![1, 0; 0, 1/2]
    let H : Matrix (Fin 1) (Fin 2) ℝ := !![1, 0]
    let Q : Matrix (Fin 2) (Fin 2) ℝ := !![1, 0; 0, 0]
    let ss : List (LinStep 2 1) := [![x], ![y]].map fun z => ⟨A, 0, H, Q, 1, z⟩
    Q.PosSemidef ∧ Detectable A H ∧ Stabilizable A Q ∧ ¬ Observable A H ∧ ConstantModel A H Q 1 ss ∧
    (∃ kf Z U, Represents kf Z U b ss) ∧ (∃ kf Z U, Represents kf Z U b' ss) ∧
    ∀ s ∈ ss, (∀ i, |s.z i| ≤ |x| + |y|) ∧ ∀ i, |s.c i| ≤ |x| + |y| := by
  intro A H Q ss
  obtain ⟨h1, h2, h3, h4, -, h5⟩ := Ex.detect_case
  refine ⟨h1, h2, h3, h4, (h5 b _).2, (h5 b _).1, (h5 b' _).1, fun s hs => ?_⟩
  have e1 := abs_nonneg x
  have e2 := abs_nonneg y
  simp only [ss, List.map_cons, List.map_nil, List.mem_cons, List.not_mem_nil, or_false] at hs
  rcases hs with rfl | rfl <;> refine ⟨fun i => ?_, fun i => by simp; linarith⟩ <;> simp

end KK
