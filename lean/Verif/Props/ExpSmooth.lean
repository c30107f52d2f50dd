import Verif.Props.SmoothForget
import Verif.Props.MovingAverage
import Verif.Proofs.ExtSmoothObserver
import Verif.Spec.ExpSmooth

/-!
# C174: the smoothed moving average of the documentation is forward-backward exponential smoothing
-/

set_option linter.unusedSectionVars false

namespace KK

open Matrix Filter Topology
open scoped Matrix.Norms.Elementwise

/-- The number `x` as a 1x1 matrix. -/
abbrev m1 (x : ℝ) : Matrix (Fin 1) (Fin 1) ℝ := Matrix.of fun _ _ => x

theorem m1_eta (M : Matrix (Fin 1) (Fin 1) ℝ) : M = m1 (M 0 0) := by
  ext i j
  obtain rfl : i = 0 := Subsingleton.elim _ _
  obtain rfl : j = 0 := Subsingleton.elim _ _
  rfl

theorem m1_posDef {x : ℝ} (h : 0 < x) : (m1 x).PosDef := by
  have : m1 x = x • (1 : Matrix (Fin 1) (Fin 1) ℝ) := by
    ext i j
    obtain rfl : i = 0 := Subsingleton.elim _ _
    obtain rfl : j = 0 := Subsingleton.elim _ _
    simp
  rw [this]
  exact Matrix.PosDef.one.smul h

theorem m1_psd {x : ℝ} (h : 0 ≤ x) : (m1 x).PosSemidef := by
  have : m1 x = x • (1 : Matrix (Fin 1) (Fin 1) ℝ) := by
    ext i j
    obtain rfl : i = 0 := Subsingleton.elim _ _
    obtain rfl : j = 0 := Subsingleton.elim _ _
    simp
  rw [this]
  exact Matrix.PosSemidef.one.smul h

theorem m1_mul (x y : ℝ) : m1 x * m1 y = m1 (x * y) := by ext i j; simp [Matrix.mul_apply]
theorem m1_transpose (x : ℝ) : (m1 x)ᵀ = m1 x := rfl
theorem m1_one : (1 : Matrix (Fin 1) (Fin 1) ℝ) = m1 1 := by
  ext i j
  obtain rfl : i = 0 := Subsingleton.elim _ _
  obtain rfl : j = 0 := Subsingleton.elim _ _
  simp

theorem m1_inv {x : ℝ} (h : x ≠ 0) : (m1 x)⁻¹ = m1 x⁻¹ := by
  refine Matrix.inv_eq_right_inv ?_
  rw [m1_mul, mul_inv_cancel₀ h, m1_one]

theorem m1_mulVec (x y : ℝ) : m1 x *ᵥ (fun _ => y) = fun _ => x * y := by
  funext i; simp [Matrix.mulVec, dotProduct]

/-- The steady state of the scalar random walk. -/
theorem walk_steady {q r f : ℝ} (hq : 0 < q) (hr : 0 < r) (hf : 0 ≤ f) (h : f = (f + q) * r / (f + q + r)) :
    0 < f ∧ f * (f + q) = q * r ∧ √(q ^ 2 + 4 * q * r) = 2 * f + q := by
  have h1 : f * (f + q + r) = (f + q) * r := by
    rw [eq_div_iff (by positivity)] at h; exact h
  have h2 : f * (f + q) = q * r := by linarith
  have hf0 : 0 < f := by
    rcases hf.lt_or_eq with h | h
    · exact h
    · rw [← h] at h2; nlinarith [mul_pos hq hr]
  refine ⟨hf0, h2, ?_⟩
  rw [show q ^ 2 + 4 * q * r = (2 * f + q) ^ 2 by nlinarith]
  exact Real.sqrt_sq (by positivity)

theorem fixedSmooth_ma {q r g : ℝ} (zs : List ℝ) (y : ℝ) :
    fixedSmoothNow 1 1 (m1 g) (m1 (1 - g)) (fun _ => y) (zs.map (maStep q r)) = (fun _ => expNow g y zs) ∧
    fixedSmooth 1 1 (m1 g) (m1 (1 - g)) (fun _ => y) (zs.map (maStep q r)) = (expSmooth g y zs).map fun s => fun _ => s := by
  induction zs generalizing y with
  | nil => exact ⟨rfl, rfl⟩
  | cons z zs ih =>
    have e : (1 : Matrix (Fin 1) (Fin 1) ℝ) *ᵥ (fun _ => y) + (maStep q r z).c = fun _ => y := by
      rw [one_mulVec]; funext i; simp [maStep]
    have e2 : (fun _ => y) + m1 g *ᵥ ((maStep q r z).z - (1 : Matrix (Fin 1) (Fin 1) ℝ) *ᵥ fun _ => y) =
        fun _ => (1 - g) * y + g * z := by
      rw [one_mulVec, show (maStep q r z).z - (fun _ => y) = fun _ => z - y from rfl, m1_mulVec]
      funext i; simp only [Pi.add_apply]; ring
    obtain ⟨i1, i2⟩ := ih ((1 - g) * y + g * z)
    constructor
    · simp only [List.map_cons, fixedSmoothNow, e, e2, i1, expNow]
      rw [show (fun _ => expNow g ((1 - g) * y + g * z) zs) - (fun _ => y) =
        fun _ : Fin 1 => expNow g ((1 - g) * y + g * z) zs - y from rfl, m1_mulVec]
      funext i; simp only [Pi.add_apply]; ring
    · simp only [List.map_cons, fixedSmooth, e, e2, i1, i2, expSmooth]

section
variable [Platform]

/-- C174: the moving average of the documentation (`A = H = 1`, `Q = q > 0`, `R = r > 0`, any `Pk = p ≥ 0`), smoothed: `smooth` returns for
any data and any number of them; the variance of row `k` of `N` (counted from 0) is within `C (ρ^(k+1) + ρ^(N-1-k))` of
`q r / √(q² + 4 q r)`; and the mean is within `C ρ^(k+1) M` of forward-backward exponential smoothing of the data with the weight
`g = (√(q² + 4 q r) - q) / (2 r)` started anywhere (`M` bounds data, initial guess, and start).  `C` and `ρ < 1` depend on
`p`, `q`, `r` only. -/
theorem C174_exponential_smoothing {p q r : ℝ} (hp : 0 ≤ p) (hq : 0 < q) (hr : 0 < r) :
    ∃ C ρ : ℝ, 0 < ρ ∧ ρ < 1 ∧ ∀ (dx dp dz : DType) (x0 : ℝ) (zs : List ℝ), zs ≠ [] →
      ∃ kf kf' states errors, maFilter dx dp x0 p q r zs.length = .ok kf ∧
        (KalmanFilter.smooth (dataZ dz zs) none).run kf = (.ok (states, errors), kf') ∧
        states.length = zs.length ∧ errors.length = zs.length ∧
        ∀ k < zs.length, ∃ x v, IsNumber states[k]? x ∧ IsNumber1 errors[k]? v ∧
          |v - q * r / √(q ^ 2 + 4 * q * r)| ≤ C * (ρ ^ (k + 1) + ρ ^ (zs.length - 1 - k)) ∧
          ∀ M y0 : ℝ, |x0| ≤ M → |y0| ≤ M → (∀ z ∈ zs, |z| ≤ M) →
            ∃ s, (expSmooth ((√(q ^ 2 + 4 * q * r) - q) / (2 * r)) y0 zs)[k]? = some s ∧ |x - s| ≤ C * ρ ^ (k + 1) * M := by
  have hQ : (m1 q).PosDef := m1_posDef hq
  have hR : (m1 r).PosDef := m1_posDef hr
  have hP : (m1 p).PosSemidef := m1_psd hp
  have hd : Detectable (1 : Matrix (Fin 1) (Fin 1) ℝ) (1 : Matrix (Fin 1) (Fin 1) ℝ) := by
    refine ⟨1, ?_⟩
    rw [Matrix.mul_one, sub_self]
    refine (tendsto_add_atTop_iff_nat 1).1 ?_
    simp only [pow_succ, Matrix.mul_zero]
    exact tendsto_const_nhds
  obtain ⟨hs, hdet⟩ := (C170_conditions 1 (m1 q) 1 (m1 r) hR).1 hQ
  have hdet' : ∀ F : Matrix (Fin 1) (Fin 1) ℝ, F.PosSemidef → SteadyState 1 1 (m1 q) (m1 r) F → (1 * F * 1ᵀ + m1 q).det ≠ 0 :=
    fun F hF _ => hdet F hF
  obtain ⟨F, hF, hfix, hT⟩ := exists_limit (A := 1) (H := 1) hQ.posSemidef hR hd
  have hst := closedLoop_stable (H := 1) hQ.posSemidef hR hs hF hfix
  obtain ⟨S, hS, hFS, hSe, -⟩ := steady_smooth (H := 1) hQ.posSemidef hR hF hfix hst (hdet F hF)
  -- the numbers
  obtain ⟨f, hFf⟩ : ∃ f, F = m1 f := ⟨_, m1_eta F⟩
  obtain ⟨σ, hSσ⟩ : ∃ σ, S = m1 σ := ⟨_, m1_eta S⟩
  have hf0 : 0 ≤ f := by
    have := hF.diag_nonneg (i := 0)
    rwa [hFf] at this
  have hfe : f = (f + q) * r / (f + q + r) := by
    have e1 : ((maStep q r 0).next (maBelief 0 f)).P = F := by
      rw [← hfix, hFf]; rfl
    rw [ma_next (by positivity), hFf] at e1
    exact (congrFun (congrFun e1 0) 0).symm
  obtain ⟨hf1, hf2, hf3⟩ := walk_steady hq hr hf0 hfe
  have hprior : priorCov 1 F (m1 q) = m1 (f + q) := by
    rw [hFf, priorCov, m1_one, m1_transpose, m1_mul, m1_mul, one_mul, mul_one]; rfl
  have hG : smGain 1 (m1 q) F = m1 (f / (f + q)) := by
    rw [smGain, hprior, m1_inv (by positivity), hFf, m1_one, m1_transpose, m1_mul, m1_mul, mul_one, div_eq_mul_inv]
  have hsum : f + q + r = r * (f + q) / f := by
    rw [eq_div_iff hf1.ne']; nlinarith
  have hK : steadyGain 1 (m1 q) F 1 (m1 r) = m1 (f / r) := by
    have e1 : (1 : Matrix (Fin 1) (Fin 1) ℝ) * F * (1 : Matrix (Fin 1) (Fin 1) ℝ)ᵀ + m1 q = m1 (f + q) := hprior
    have e2 : (1 : Matrix (Fin 1) (Fin 1) ℝ) * m1 (f + q) * (1 : Matrix (Fin 1) (Fin 1) ℝ)ᵀ + m1 r = m1 (f + q + r) := by
      rw [m1_one, m1_transpose, m1_mul, m1_mul, one_mul, mul_one]; rfl
    rw [steadyGain, e1, e2, m1_inv (by positivity), m1_one, m1_transpose, m1_mul, m1_mul, mul_one, hsum]
    congr 1
    field_simp
  have hg : (√(q ^ 2 + 4 * q * r) - q) / (2 * r) = f / r := by
    rw [hf3]; field_simp; ring
  have hG2 : f / (f + q) = 1 - f / r := by
    field_simp; nlinarith
  have hσ : σ = q * r / √(q ^ 2 + 4 * q * r) := by
    rw [hG, hprior, hSσ, hFf, m1_transpose, show m1 σ - m1 (f + q) = m1 (σ - (f + q)) from rfl, m1_mul, m1_mul] at hSe
    have e1 : σ = f + f / (f + q) * (σ - (f + q)) * (f / (f + q)) := congrFun (congrFun hSe 0) 0
    have e2 : σ * (f + q) ^ 2 = f * (f + q) ^ 2 + f ^ 2 * (σ - (f + q)) := by
      have : 0 < f + q := by positivity
      field_simp at e1
      linarith
    rw [hf3, eq_div_iff (by positivity), ← hf2]
    have : q * (σ * (2 * f + q) - f * (f + q)) = 0 := by nlinarith
    rcases mul_eq_zero.1 this with h | h
    · exact absurd h hq.ne'
    · linarith
  -- the two bounds
  obtain ⟨C₀, ρ₀, hC₀, h0₀, h1₀, hb₀⟩ := cov_decay_detect hQ.posSemidef hR hF hfix hst hT
  have hn : ExpNear ρ₀ (fun k => (ric 1 1 (m1 q) (m1 r))^[k] (m1 p)) F := by
    refine ⟨C₀ * (1 + ‖m1 p‖), by positivity, fun k => (mat_norm_le (by positivity)).2 fun i j => ?_⟩
    have := hb₀ (m1 p) hP k i j
    rw [mul_right_comm] at this
    exact this
  obtain ⟨C₁, ρ₁, hC₁, h0₁, h1₁, hb₁⟩ := smoothAt_steady (SettlesBack.of_detectable hQ.posSemidef hR hd hs hdet' hP) h0₀ h1₀ hn (hdet F hF) hSe
  obtain ⟨C₂, ρ₂, hC₂, h0₂, h1₂, hb₂⟩ := smooth_gap hQ.posSemidef hR hd hs hdet' hF hfix hT (m1 p) hP
  refine ⟨C₁ + 2 * C₂, max ρ₁ ρ₂, lt_max_of_lt_left h0₁, max_lt h1₁ h1₂, fun dx dp dz x0 zs hne => ?_⟩
  obtain ⟨kf, hk1, -, hrep⟩ := ma_represents dx dp dz x0 p q r zs
  have hcm : ConstantModel 1 1 (m1 q) (m1 r) (zs.map (maStep q r)) := fun s hs => by
    obtain ⟨z, -, rfl⟩ := List.mem_map.1 hs
    exact ⟨rfl, rfl, rfl, rfl⟩
  have hne' : zs.map (maStep q r) ≠ [] := by simpa using hne
  have hl : (zs.map (maStep q r)).length = (dataZ dz zs).rows.length := by simp [dataZ, NDArray.rows]
  have hs1 : Solvable (maBelief x0 p) (zs.map (maStep q r)) := (ma_run hq.le hr zs x0 p hp).1
  have hsm : SmoothSolvable (maBelief x0 p) (zs.map (maStep q r)) := smoothSolvable_noise _ _ hP fun s hs => by
    obtain ⟨z, -, rfl⟩ := List.mem_map.1 hs
    exact ⟨hQ, hR⟩
  refine ⟨kf, _, _, _, hk1, hrep.smoothReturns hl hne' hs1 hsm, by simp [smoothed_length], by simp [smoothed_length], fun k hk => ?_⟩
  obtain ⟨b, hb⟩ : ∃ b, (smoothed (maBelief x0 p) (zs.map (maStep q r)))[k]? = some b :=
    ⟨_, List.getElem?_eq_getElem (by simpa [smoothed_length] using hk)⟩
  obtain ⟨k1, hbe⟩ := smoothed_get hb
  have hlen : (zs.map (maStep q r)).length = zs.length := List.length_map _
  have p1 : ∀ j, ρ₁ ^ j ≤ max ρ₁ ρ₂ ^ j := fun j => pow_le_pow_left₀ h0₁.le (le_max_left _ _) _
  have p2 : ∀ j, ρ₂ ^ j ≤ max ρ₁ ρ₂ ^ j := fun j => pow_le_pow_left₀ h0₂.le (le_max_right _ _) _
  have hμ : ∀ j, 0 ≤ max ρ₁ ρ₂ ^ j := fun j => pow_nonneg (h0₁.le.trans (le_max_left _ _)) _
  refine ⟨b.x 0, b.P 0 0, ?_, ?_, ?_, fun M y0 hx hy hz => ?_⟩
  · rw [IsNumber, List.getElem?_map, hb]
    refine congrArg some ?_
    rw [stateRow]
    congr 1
    funext i
    obtain rfl : i = 0 := Subsingleton.elim _ _
    rfl
  · rw [IsNumber1, List.getElem?_map, hb]
    refine congrArg some ?_
    rw [covRow, one1]
    conv_lhs => rw [m1_eta b.P]
  · have e1 := hb₁ (maBelief x0 p) _ rfl hcm (k + 1) k1
    have e2 := (entry_le_norm ((smoothAt (maBelief x0 p) (zs.map (maStep q r)) (k + 1)).P - S) 0 0).trans e1
    rw [hlen, show zs.length - (k + 1) = zs.length - 1 - k by omega] at e2
    rw [hbe, ← hσ]
    have e3 : |(smoothAt (maBelief x0 p) (zs.map (maStep q r)) (k + 1)).P 0 0 - σ| ≤ C₁ * (ρ₁ ^ (k + 1) + ρ₁ ^ (zs.length - 1 - k)) := by
      rw [hSσ] at e2; exact e2
    refine e3.trans (mul_le_mul (by linarith) (add_le_add (p1 _) (p1 _)) (by positivity) (by positivity))
  · have hM : 0 ≤ M := (abs_nonneg _).trans hx
    have nf : ∀ a : ℝ, |a| ≤ M → ‖(fun _ : Fin 1 => a)‖ ≤ M := fun a ha => (pi_norm_le_iff_of_nonneg hM).2 fun _ => ha
    have e1 := (hb₂ (fun _ => x0) (fun _ => y0) _ hcm (k + 1) k1).2 M M hM hM (fun l s hl => by
      obtain ⟨z, hz', rfl⟩ := List.mem_map.1 (List.mem_of_getElem? hl)
      exact ⟨nf z (hz z hz'), by simpa [maStep] using hM⟩) (nf x0 hx) (nf y0 hy)
    obtain ⟨-, f1, f2⟩ := front_fixed hR hQ.posSemidef hF hfix (fun _ => y0) _ hcm
    rw [hK, hG, hG2, (fixedSmooth_ma zs y0).2] at f1 f2
    rw [List.length_map, List.length_map] at f1
    obtain ⟨s, hs'⟩ : ∃ s, (expSmooth (f / r) y0 zs)[k]? = some s := ⟨_, List.getElem?_eq_getElem (by omega)⟩
    have e2 := f2 k (fun _ => s) (by rw [List.getElem?_map, hs']; rfl)
    rw [hg]
    refine ⟨s, hs', ?_⟩
    rw [← e2] at e1
    have e3 := (norm_le_pi_norm ((smoothAt ⟨fun _ => x0, m1 p⟩ (zs.map (maStep q r)) (k + 1)).x - fun _ => s) 0).trans e1
    rw [hbe]
    have e4 : |(smoothAt ⟨fun _ => x0, m1 p⟩ (zs.map (maStep q r)) (k + 1)).x 0 - s| ≤ C₂ * ρ₂ ^ (k + 1) * (M + M) := e3
    refine e4.trans ?_
    have e5 : C₂ * ρ₂ ^ (k + 1) * (M + M) = 2 * C₂ * ρ₂ ^ (k + 1) * M := by ring
    rw [e5]
    refine mul_le_mul_of_nonneg_right (mul_le_mul (by linarith) (p2 _) (by positivity) (by positivity)) hM

end

-- C174: q = r = 1, so the smoothed variance tends to 1/√5; three data.
example : (0 : ℝ) ≤ 1 ∧ (0 : ℝ) < 1 ∧ ([3, 1, 2] : List ℝ) ≠ [] ∧ (∀ z ∈ ([3, 1, 2] : List ℝ), |z| ≤ 3) ∧
    expSmooth (1/2) 0 [3, 1] = [11/8, 5/4] := by
  refine ⟨by norm_num, by norm_num, by simp, fun z hz => ?_, ?_⟩
  · simp only [List.mem_cons, List.not_mem_nil, or_false] at hz
    rcases hz with rfl | rfl | rfl <;> norm_num
  · norm_num [expSmooth, expNow]

end KK
