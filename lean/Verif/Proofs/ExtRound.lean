import Verif.Proofs.ExtRoundStep

/-!
# The extended filter with errors in every step, near a true trajectory
-/

set_option linter.unusedSectionVars false

namespace KK

open Matrix
open scoped Matrix.Norms.Elementwise

section
variable {E : Type*} [NormedAddCommGroup E]

/-- Products that decay, and errors that are a small multiple of the size plus a constant. -/
theorem gron {L : ℕ → E →+ E} {C ρ₀ ρ σ β : ℝ} (hC : 1 ≤ C) (h0 : 0 < ρ₀) (h01 : ρ₀ < ρ) (h1 : ρ < 1)
    {e w : ℕ → E} {N : ℕ} (hL : ∀ j k d, j + k ≤ N → ‖seg L j k d‖ ≤ C * ρ₀ ^ k * ‖d‖)
    (h : ∀ i < N, e (i + 1) = L i (e i) + w i) (hσ : 0 ≤ σ) (hβ : 0 ≤ β) (hCσ : C * σ ≤ (ρ - ρ₀) / 2)
    (hw : ∀ i < N, ‖w i‖ ≤ σ * ‖e i‖ + β) :
    ∀ i ≤ N, ‖e i‖ ≤ 2 * C * ρ ^ i * ‖e 0‖ + 2 * C * (1 - ρ)⁻¹ * β := by
  intro k
  induction k using Nat.strong_induction_on with
  | _ k ih =>
    intro hk
    have hC0 : 0 ≤ C := by linarith
    have hρ : 0 < (1 - ρ)⁻¹ := inv_pos.2 (by linarith)
    have hρ₀ : 0 < (1 - ρ₀)⁻¹ := inv_pos.2 (by linarith)
    have hinv : (1 - ρ₀)⁻¹ ≤ (1 - ρ)⁻¹ := inv_anti₀ (by linarith) (by linarith)
    have hd : 0 < ρ - ρ₀ := by linarith
    have hρ0 : 0 < ρ := by linarith
    have he := norm_nonneg (e 0)
    obtain ⟨B, hB⟩ : ∃ B, B = 2 * C * (1 - ρ)⁻¹ * β := ⟨_, rfl⟩
    have hB0 : 0 ≤ B := by rw [hB]; positivity
    rw [← hB] at ih ⊢
    rw [seg_sum L e w k fun i hi => h i (by omega)]
    refine (norm_add_le _ _).trans ((add_le_add (hL 0 k (e 0) (by omega)) ((norm_sum_le _ _).trans (Finset.sum_le_sum
      (g := fun i => C * σ * (2 * C * ‖e 0‖) * (ρ ^ i * ρ₀ ^ (k - 1 - i)) + C * (σ * B + β) * ρ₀ ^ (k - 1 - i)) fun i hi => ?_))).trans ?_)
    · have hi' := Finset.mem_range.1 hi
      refine (hL (i + 1) (k - 1 - i) (w i) (by omega)).trans ?_
      have h2 := mul_le_mul_of_nonneg_left (ih i hi' (by omega)) hσ
      have h3 := mul_le_mul_of_nonneg_left ((hw i (by omega)).trans (add_le_add_left h2 β))
        (mul_nonneg hC0 (pow_nonneg h0.le (k - 1 - i)))
      refine h3.trans (le_of_eq ?_)
      ring
    · rw [Finset.sum_add_distrib, ← Finset.mul_sum, ← Finset.mul_sum]
      have g1 := (Commute.all ρ ρ₀).geom_sum₂_mul k
      have g2 := @geom_le (strict 0) _ h0 (h01.trans h1) k
      obtain ⟨S, hS⟩ : ∃ S, S = ∑ i ∈ Finset.range k, ρ ^ i * ρ₀ ^ (k - 1 - i) := ⟨_, rfl⟩
      obtain ⟨S', hS'⟩ : ∃ S', S' = ∑ i ∈ Finset.range k, ρ₀ ^ (k - 1 - i) := ⟨_, rfl⟩
      rw [← hS] at g1 ⊢
      rw [← hS'] at g2 ⊢
      have hS0 : 0 ≤ S := by rw [hS]; exact Finset.sum_nonneg fun i _ => by positivity
      have k1 : C * σ * (2 * C * ‖e 0‖) * S ≤ C * ‖e 0‖ * (ρ ^ k - ρ₀ ^ k) := by
        rw [← g1]
        have : C * σ * (2 * C * ‖e 0‖ * S) ≤ (ρ - ρ₀) / 2 * (2 * C * ‖e 0‖ * S) := mul_le_mul_of_nonneg_right hCσ (by positivity)
        linarith
      have k2 : C * (σ * B + β) * S' ≤ B := by
        have e1 : C * (σ * B + β) * S' ≤ C * (σ * B + β) * (1 - ρ₀)⁻¹ := mul_le_mul_of_nonneg_left g2 (by positivity)
        have e2 : C * σ * (B * (1 - ρ₀)⁻¹) ≤ (ρ - ρ₀) / 2 * (B * (1 - ρ₀)⁻¹) := mul_le_mul_of_nonneg_right hCσ (by positivity)
        have e3 : (ρ - ρ₀) / 2 * (B * (1 - ρ₀)⁻¹) ≤ B / 2 := by
          have f1 : (ρ - ρ₀) * (1 - ρ₀)⁻¹ ≤ 1 := by
            rw [mul_inv_le_iff₀ (by linarith)]; linarith
          have := mul_le_mul_of_nonneg_left f1 (show 0 ≤ B / 2 by positivity)
          linarith
        have e4 : C * β * (1 - ρ₀)⁻¹ ≤ C * β * (1 - ρ)⁻¹ := mul_le_mul_of_nonneg_left hinv (by positivity)
        have e5 : C * β * (1 - ρ)⁻¹ = B / 2 := by rw [hB]; ring
        have e6 : C * (σ * B + β) * (1 - ρ₀)⁻¹ = C * σ * (B * (1 - ρ₀)⁻¹) + C * β * (1 - ρ₀)⁻¹ := by ring
        linarith
      have k3 : 0 ≤ C * ρ ^ k * ‖e 0‖ := by positivity
      have k4 : C * ρ₀ ^ k * ‖e 0‖ + C * ‖e 0‖ * (ρ ^ k - ρ₀ ^ k) = C * ρ ^ k * ‖e 0‖ := by ring
      linarith

end

section
variable {n m : ℕ}

/-- Steps close to those of an observable model keep the covariances bounded. -/
theorem cov_upper_close (n m N : ℕ) {r a p γ : ℝ} (hN : 0 < N) (hr : 0 < r) (ha : 0 ≤ a) (hp : 0 ≤ p) (hγ : 0 < γ) :
    ∃ p' δ : ℝ, p ≤ p' ∧ 0 < δ ∧ ∀ (ts ls : List (LinStep n m)) (P : Matrix (Fin n) (Fin n) ℝ), Between 0 p P →
      (∀ t ∈ ls, TameStep a r t) → List.Forall₂ (StepClose a δ) ts ls →
      (∀ w, w <:+: ts → w.length = N → (obsGram w - γ • (1 : Matrix (Fin n) (Fin n) ℝ)).PosSemidef) →
      (p' • (1 : Matrix (Fin n) (Fin n) ℝ) - covRun P ls).PosSemidef := by
  obtain ⟨p₁, hp₁, grow⟩ := cov_growth (n := n) (m := m) ha hr N p hp
  obtain ⟨p₂, hp₂, upper⟩ := window_upper n m (N - 1) ha hr (half_pos hγ)
  obtain ⟨B, L, hB, hL, gc⟩ := gram_close n m N ha
  obtain ⟨e, he⟩ : ∃ e : ℝ, e = γ / 2 / (n + 1) ^ 2 := ⟨_, rfl⟩
  have he0 : 0 < e := by rw [he]; positivity
  have hen : n * (e * n) ^ 2 ≤ (γ / 2) ^ 2 := by
    have h1 : e * (n + 1) ^ 2 = γ / 2 := by rw [he]; field_simp
    have hn : (0 : ℝ) ≤ n := Nat.cast_nonneg n
    rw [← h1]
    have h2 : n * (e * n) ^ 2 = e ^ 2 * (n * n ^ 2) := by ring
    have h3 : (e * (n + 1) ^ 2) ^ 2 = e ^ 2 * ((n + 1) * ((n + 1) * (n + 1) ^ 2)) := by ring
    rw [h2, h3]
    refine mul_le_mul_of_nonneg_left ?_ (by positivity)
    have h4 : (n : ℝ) ^ 2 ≤ (n + 1) * (n + 1) ^ 2 := by
      have : (n : ℝ) ^ 2 ≤ (n + 1) ^ 2 := by nlinarith
      have h5 : (n + 1 : ℝ) ^ 2 ≤ (n + 1) * (n + 1) ^ 2 := le_mul_of_one_le_left (by positivity) (by linarith)
      linarith
    exact mul_le_mul (by linarith) h4 (by positivity) (by positivity)
  obtain ⟨δ, hδ⟩ : ∃ δ, δ = e / (L + 1) := ⟨_, rfl⟩
  have hδ0 : 0 < δ := by rw [hδ]; positivity
  have hLe : L * δ ≤ e := by
    have : (L + 1) * δ = e := by rw [hδ]; field_simp
    linarith
  refine ⟨max p₁ p₂, δ, hp₁.trans (le_max_left _ _), hδ0, fun ts ls P hb htame hcl hobs => ?_⟩
  have hbP : P.PosSemidef := by simpa using hb.1
  rcases Nat.lt_or_ge N ls.length with hjN | hjN
  · refine upper_mono (le_max_right _ _) ?_
    obtain ⟨o, ho⟩ : ∃ o, o = ls.length - N := ⟨_, rfl⟩
    have e2 : ls = ls.take o ++ ls.drop o := (List.take_append_drop _ _).symm
    rw [e2, covRun_append]
    have htame' := htame
    rw [e2] at htame'
    have hlen : (ls.drop o).length = N := by rw [List.length_drop]; omega
    refine upper _ (by omega) (fun t ht => htame' t (by simp only [List.mem_append]; exact .inr ht)) ?_ _
      (covRun_psd (fun t ht => (htame' t (by simp only [List.mem_append]; exact .inl ht)).noisy hr) hbP)
    have hcl' := List.forall₂_drop o hcl
    have hlen' : (ts.drop o).length = N := by rw [hcl'.length_eq, hlen]
    obtain ⟨-, -, hg, -⟩ := gc _ _ δ hδ0.le hlen' hcl'
    refine lower_close hγ he0.le (hobs _ (List.drop_suffix _ _).isInfix hlen') (obsGram_symm _) (fun i k => ?_) hen
    rw [Matrix.sub_apply]
    exact (hg i k).trans hLe
  · exact upper_mono (le_max_left _ _) (grow _ hjN htame _ hbP hb.2)

/-- The covariances of a recursion with errors. -/
theorem cov_near_var {a r C ρ g c ε : ℝ} (ha : 0 ≤ a) (hr : 0 < r) (hC : 1 ≤ C) (h0 : 0 < ρ) (h1 : ρ < 1) (hg : 0 ≤ g)
    (hc : 0 < c) (hε : 0 < ε) : ∃ δ > 0, ∃ X : ℝ, ∀ (P : Matrix (Fin n) (Fin n) ℝ) (ss : List (LinStep n m)),
      Settled a r C ρ g c P ss → ∀ P' : ℕ → Matrix (Fin n) (Fin n) ℝ, ‖P' 0 - P‖ ≤ δ →
      (∀ (i : ℕ) (s : LinStep n m), ss[i]? = some s → ‖P' (i + 1) - s.covNext (P' i)‖ ≤ δ) →
      ∀ i ≤ ss.length, ‖P' i - covRun P (ss.take i)‖ ≤ ε ∧ ‖P' i‖ ≤ X ∧
        ∀ s, ss[i]? = some s → ‖s.gainAt (P' i) - s.gainAt (covRun P (ss.take i))‖ ≤ ε := by
  obtain ⟨δ, hδ, X, key⟩ := stay_near_var (n := n) (m := m) (Y₀ := 0) (D := 0) ha hr hC h0 h1 hg hc le_rfl le_rfl hε
  refine ⟨δ, hδ, X, fun P ss hset P' hP0 hst i hi => ?_⟩
  obtain ⟨ts, hts⟩ : ∃ ts, ts = ss.map fun s => ({ s with c := 0, z := 0 } : LinStep n m) := ⟨_, rfl⟩
  have hmod : ss.map LinStep.model = ts.map LinStep.model := by rw [hts, List.map_map]; rfl
  have hget : ∀ (i : ℕ) (t : LinStep n m), ts[i]? = some t → ∃ s, ss[i]? = some s ∧ t = { s with c := 0, z := 0 } := fun i t h => by
    rw [hts, List.getElem?_map, Option.map_eq_some_iff] at h
    obtain ⟨s, h1, h2⟩ := h
    exact ⟨s, h1, h2.symm⟩
  have hrun : ∀ j, covRun P (ts.take j) = covRun P (ss.take j) := fun j => by
    refine covRun_congr ?_ P
    rw [List.map_take, List.map_take, hmod]
  have := key ⟨0, P⟩ ts (hset.congr hmod) (by simp) (fun l t ht => by
    obtain ⟨s, -, rfl⟩ := hget l t ht
    simp) (fun i => ⟨0, P' i⟩) ts.length le_rfl (by simpa using hδ.le) hP0 (fun i t _ ht => by
    obtain ⟨s, h1, rfl⟩ := hget i t ht
    refine ⟨?_, ?_⟩
    · have : (LinStep.next { s with c := 0, z := 0 } (⟨0, P' i⟩ : Belief n)).x = 0 := by
        simp [LinStep.next, LinStep.predict, LinStep.update]
      rw [this]; simpa using hδ.le
    · exact hst i s h1) i (by rw [hts, List.length_map]; exact hi)
  obtain ⟨-, k2, -, k4, k5⟩ := this
  rw [lastOf_covRun, hrun] at k2 k5
  refine ⟨k2, k4, fun s hs => ?_⟩
  exact (k5 { s with c := 0, z := 0 } (by rw [hts, List.getElem?_map, hs]; rfl)).2

/-- One step of the extended filter as a linear step, for the prediction `y` at which the observation model is evaluated. -/
noncomputable def linAt (s : ExtStep n m) (b : Belief n) (y : Fin n → ℝ) : LinStep n m where
  A := s.jA b.x
  c := s.f b.x - s.jA b.x *ᵥ b.x
  H := s.jH y
  Q := s.Q
  R := s.R
  z := s.z - s.h y + s.jH y *ᵥ s.f b.x

theorem linAt_next (s : ExtStep n m) (b : Belief n) (y : Fin n → ℝ) :
    (constStep (s.jA b.x) (s.f b.x) (s.jH y) (s.h y) s.Q s.R s.z).next b = (linAt s b y).next b := by
  have e : s.jA b.x *ᵥ b.x + (s.f b.x - s.jA b.x *ᵥ b.x) = s.f b.x := by abel
  refine congrArg₂ Belief.mk ?_ rfl
  show s.f b.x + _ *ᵥ (s.z - s.h y) = s.jA b.x *ᵥ b.x + (s.f b.x - s.jA b.x *ᵥ b.x) +
    _ *ᵥ (s.z - s.h y + s.jH y *ᵥ s.f b.x - s.jH y *ᵥ (s.jA b.x *ᵥ b.x + (s.f b.x - s.jA b.x *ᵥ b.x)))
  rw [e, add_sub_cancel_right]
  rfl

theorem linAt_next_x (s : ExtStep n m) (b : Belief n) (y : Fin n → ℝ) :
    ((linAt s b y).next b).x = s.f b.x + (linAt s b y).gainAt b.P *ᵥ (s.z - s.h y) := by
  rw [← linAt_next]; rfl

/-- How an estimation error changes in one step. -/
theorem err_step {s : ExtStep n m} {b b₁ : Belief n} {y x x' : Fin n → ℝ} {w : Fin n → ℝ} {v : Fin m → ℝ} {a κ d g θ E D δ : ℝ}
    {K : Matrix (Fin n) (Fin m) ℝ} (ha : 0 ≤ a) (hκ : 0 ≤ κ) (hg : 0 ≤ g) (hθ : 0 ≤ θ) (h : NearLinear a κ d s x x')
    (hx : x' = s.f x + w) (hz : s.z = s.h x' + v) (hw : ‖w‖ ≤ D) (hv : ‖v‖ ≤ D) (hE : ‖x - b.x‖ ≤ E) (hE1 : E ≤ 1) (hEd : E ≤ d)
    (hDδ : D + δ ≤ E) (hcd : (n * a + κ + 1) * E ≤ d) (hy : ‖y - s.f b.x‖ ≤ δ)
    (hb₁ : ‖b₁.x - ((linAt s b y).next b).x‖ ≤ δ) (hK : ‖(linAt s b y).gainAt b.P - K‖ ≤ θ)
    (hK' : ‖(linAt s b y).gainAt b.P‖ ≤ g) :
    ‖x' - y‖ ≤ (n * a + κ + 1) * E ∧
    ‖x' - b₁.x - ((1 - K * (linAt s b y).H) * (linAt s b y).A) *ᵥ (x - b.x)‖ ≤
      (n * (m * (n * (a * a))) * θ + ((1 + m * g * (n * a)) * κ + m * g * (κ * (n * a + κ + 1) * (n * a + κ))) * E) * ‖x - b.x‖ +
      ((1 + m * g * (n * a)) + m * g * (1 + κ * (n * a + κ + 1) + n * a) + 1) * (D + δ) := by
  have hD0 := (norm_nonneg _).trans hw
  have hδ0 := (norm_nonneg _).trans hy
  have he0 := norm_nonneg (x - b.x)
  have hE0 := he0.trans hE
  obtain ⟨ν, hν⟩ : ∃ ν, ν = ‖x - b.x‖ := ⟨_, rfl⟩
  obtain ⟨c₃, hc₃⟩ : ∃ c₃ : ℝ, c₃ = n * a + κ := ⟨_, rfl⟩
  have hc₃0 : 0 ≤ c₃ := by rw [hc₃]; positivity
  rw [← hc₃] at hcd ⊢
  have hνE : ν ≤ E := hν ▸ hE
  have hν0 : 0 ≤ ν := hν ▸ he0
  -- the prediction
  obtain ⟨A, hA⟩ : ∃ A, A = s.jA b.x := ⟨_, rfl⟩
  obtain ⟨w1, hw1⟩ : ∃ w1, w1 = x' - s.f b.x - A *ᵥ (x - b.x) := ⟨_, rfl⟩
  have hAn : ‖A‖ ≤ a := (mat_norm_le ha).2 (hA ▸ h.jA b.x (hE.trans hEd))
  have hf := h.f b.x (hE.trans hEd)
  rw [← hA, ← hν] at hf
  have hw1n : ‖w1‖ ≤ κ * E * ν + D := by
    have e : w1 = (s.f x - (s.f b.x + A *ᵥ (x - b.x))) + w := by rw [hw1, hx]; abel
    rw [e]
    refine (norm_add_le _ _).trans (add_le_add (hf.trans ?_) hw)
    have : κ * ν ^ 2 = κ * ν * ν := by ring
    rw [this, mul_assoc, mul_assoc]
    exact mul_le_mul_of_nonneg_left (mul_le_mul_of_nonneg_right hνE hν0) hκ
  have hAe : ‖A *ᵥ (x - b.x)‖ ≤ n * a * ν := by
    rw [hν]
    exact (mulVec_norm _ _).trans (mul_le_mul_of_nonneg_right (mul_le_mul_of_nonneg_left hAn (Nat.cast_nonneg _)) he0)
  have hxF : ‖x' - s.f b.x‖ ≤ c₃ * ν + D := by
    have e : x' - s.f b.x = A *ᵥ (x - b.x) + w1 := by rw [hw1]; abel
    rw [e]
    refine (norm_add_le _ _).trans ((add_le_add hAe hw1n).trans ?_)
    have h1 : κ * E * ν ≤ κ * 1 * ν := by gcongr
    rw [hc₃]; linarith
  have hxy : ‖x' - y‖ ≤ c₃ * ν + (D + δ) := by
    have e : x' - y = (x' - s.f b.x) - (y - s.f b.x) := by abel
    rw [e]
    refine (norm_sub_le _ _).trans ?_
    linarith
  have hxyE : ‖x' - y‖ ≤ (c₃ + 1) * E := by
    refine hxy.trans ?_
    have : c₃ * ν ≤ c₃ * E := mul_le_mul_of_nonneg_left hνE hc₃0
    linarith
  refine ⟨hxyE, ?_⟩
  -- the observation
  obtain ⟨H, hH⟩ : ∃ H, H = s.jH y := ⟨_, rfl⟩
  have hHn : ‖H‖ ≤ a := (mat_norm_le ha).2 (hH ▸ h.jH y (hxyE.trans hcd))
  have hh := h.h y (hxyE.trans hcd)
  rw [← hH] at hh
  obtain ⟨v1, hv1⟩ : ∃ v1, v1 = s.z - s.h y - H *ᵥ (x' - s.f b.x) := ⟨_, rfl⟩
  have hsq : κ * ‖x' - y‖ ^ 2 ≤ κ * (c₃ + 1) * c₃ * E * ν + κ * (c₃ + 1) * (D + δ) := by
    have h1 : ‖x' - y‖ ^ 2 ≤ ((c₃ + 1) * E) * (c₃ * ν + (D + δ)) := by
      rw [sq]; exact mul_le_mul hxyE hxy (norm_nonneg _) (by positivity)
    have h2 := mul_le_mul_of_nonneg_left h1 hκ
    have h3 : κ * (c₃ + 1) * (D + δ) * E ≤ κ * (c₃ + 1) * (D + δ) := mul_le_of_le_one_right (by positivity) hE1
    have h4 : κ * ((c₃ + 1) * E * (c₃ * ν + (D + δ))) = κ * (c₃ + 1) * c₃ * E * ν + κ * (c₃ + 1) * (D + δ) * E := by ring
    linarith
  have hv1n : ‖v1‖ ≤ κ * (c₃ + 1) * c₃ * E * ν + (1 + κ * (c₃ + 1) + n * a) * (D + δ) := by
    have e : v1 = (s.h x' - (s.h y + H *ᵥ (x' - y))) + v - H *ᵥ (y - s.f b.x) := by
      rw [hv1, hz, mulVec_sub, mulVec_sub, mulVec_sub]; abel
    rw [e]
    refine (norm_sub_le _ _).trans ((add_le_add ((norm_add_le _ _).trans (add_le_add (hh.trans hsq) hv)) (mulVec_norm _ _)).trans ?_)
    have h1 : n * ‖H‖ * ‖y - s.f b.x‖ ≤ n * a * δ :=
      mul_le_mul (mul_le_mul_of_nonneg_left hHn (Nat.cast_nonneg _)) hy (norm_nonneg _) (by positivity)
    have h2 : 0 ≤ n * a * D := by positivity
    have e2 : (1 + κ * (c₃ + 1) + n * a) * (D + δ) = D + δ + κ * (c₃ + 1) * (D + δ) + (n * a * D + n * a * δ) := by ring
    linarith
  obtain ⟨G, hG⟩ : ∃ G, G = (linAt s b y).gainAt b.P := ⟨_, rfl⟩
  rw [← hG] at hK hK'
  rw [linAt_next_x, ← hG] at hb₁
  have key : x' - b₁.x - ((1 - K * (linAt s b y).H) * (linAt s b y).A) *ᵥ (x - b.x) =
      -(b₁.x - (s.f b.x + G *ᵥ (s.z - s.h y))) - ((G - K) * (H * A)) *ᵥ (x - b.x) + (w1 - G *ᵥ (H *ᵥ w1)) - G *ᵥ v1 := by
    have e1 : (linAt s b y).H = H := hH.symm
    have e2 : (linAt s b y).A = A := hA.symm
    rw [e1, e2, hv1, hw1]
    simp only [sub_mulVec, mulVec_sub, Matrix.sub_mul, Matrix.one_mul, ← mulVec_mulVec]
    abel
  rw [key]
  have b1 : ‖((G - K) * (H * A)) *ᵥ (x - b.x)‖ ≤ n * (m * (n * (a * a))) * θ * ν := by
    refine (mulVec_norm _ _).trans ?_
    rw [← hν]
    refine mul_le_mul_of_nonneg_right ?_ hν0
    have h1 : ‖H * A‖ ≤ n * (a * a) := (mul_norm_le _ _).trans (mul_le_mul_of_nonneg_left
      (mul_le_mul hHn hAn (norm_nonneg _) ha) (Nat.cast_nonneg _))
    have h2 : ‖(G - K) * (H * A)‖ ≤ m * (θ * (n * (a * a))) := (mul_norm_le _ _).trans
      (mul_le_mul_of_nonneg_left (mul_le_mul hK h1 (norm_nonneg _) hθ) (Nat.cast_nonneg _))
    refine (mul_le_mul_of_nonneg_left h2 (Nat.cast_nonneg _)).trans (le_of_eq ?_)
    ring
  have b2 : ‖w1 - G *ᵥ (H *ᵥ w1)‖ ≤ (1 + m * g * (n * a)) * ‖w1‖ := by
    refine (norm_sub_le _ _).trans ?_
    have h1 : ‖H *ᵥ w1‖ ≤ n * a * ‖w1‖ := (mulVec_norm _ _).trans
      (mul_le_mul_of_nonneg_right (mul_le_mul_of_nonneg_left hHn (Nat.cast_nonneg _)) (norm_nonneg _))
    have h2 : ‖G *ᵥ (H *ᵥ w1)‖ ≤ m * g * (n * a * ‖w1‖) := (mulVec_norm _ _).trans
      (mul_le_mul (mul_le_mul_of_nonneg_left hK' (Nat.cast_nonneg _)) h1 (norm_nonneg _) (by positivity))
    linarith
  have b3 : ‖G *ᵥ v1‖ ≤ m * g * ‖v1‖ := (mulVec_norm _ _).trans
    (mul_le_mul_of_nonneg_right (mul_le_mul_of_nonneg_left hK' (Nat.cast_nonneg _)) (norm_nonneg _))
  have b4 : (1 + m * g * (n * a)) * ‖w1‖ ≤ (1 + m * g * (n * a)) * (κ * E * ν + D) := mul_le_mul_of_nonneg_left hw1n (by positivity)
  have b5 : m * g * ‖v1‖ ≤ m * g * (κ * (c₃ + 1) * c₃ * E * ν + (1 + κ * (c₃ + 1) + n * a) * (D + δ)) :=
    mul_le_mul_of_nonneg_left hv1n (by positivity)
  have b6 := norm_sub_le (-(b₁.x - (s.f b.x + G *ᵥ (s.z - s.h y))) - ((G - K) * (H * A)) *ᵥ (x - b.x) + (w1 - G *ᵥ (H *ᵥ w1))) (G *ᵥ v1)
  have b7 := norm_add_le (-(b₁.x - (s.f b.x + G *ᵥ (s.z - s.h y))) - ((G - K) * (H * A)) *ᵥ (x - b.x)) (w1 - G *ᵥ (H *ᵥ w1))
  have b8 := norm_sub_le (-(b₁.x - (s.f b.x + G *ᵥ (s.z - s.h y)))) (((G - K) * (H * A)) *ᵥ (x - b.x))
  rw [norm_neg] at b8
  rw [← hν]
  have z1 : 0 ≤ (1 + m * g * (n * a)) * δ := by positivity
  have e : (n * (m * (n * (a * a))) * θ + ((1 + m * g * (n * a)) * κ + m * g * (κ * (c₃ + 1) * c₃)) * E) * ν +
      ((1 + m * g * (n * a)) + m * g * (1 + κ * (c₃ + 1) + n * a) + 1) * (D + δ) =
      n * (m * (n * (a * a))) * θ * ν + ((1 + m * g * (n * a)) * (κ * E * ν + D)) +
      m * g * (κ * (c₃ + 1) * c₃ * E * ν + (1 + κ * (c₃ + 1) + n * a) * (D + δ)) + (1 + m * g * (n * a)) * δ + D + δ := by ring
  linarith

theorem le_of_div {x A B : ℝ} (hB : 0 < B) (h : x ≤ A / B) : x * B ≤ A := by rwa [le_div_iff₀ hB] at h

set_option maxHeartbeats 2000000 in
/-- The extended filter with an error of at most `δ` in every step follows the true states. -/
theorem round_observer (n m N : ℕ) {q r a p κ d l γ : ℝ} (hN : 0 < N) (hq : 0 < q) (hr : 0 < r) (ha : 0 ≤ a) (hp : 0 < p) (hκ : 0 ≤ κ)
    (hd : 0 < d) (hl : 0 ≤ l) (hγ : 0 < γ) :
    ∃ ε C ρ : ℝ, 0 < ε ∧ 0 < C ∧ 0 < ρ ∧ ρ < 1 ∧ ∀ τ > 0, ∃ δ > 0, ∃ X : ℝ, δ ≤ 1 ∧
      ∀ (ss : List (ExtStep n m)) (b : Belief n) (x w : ℕ → Fin n → ℝ) (v : ℕ → Fin m → ℝ) (r₀ D : ℝ),
        (∀ (j : ℕ) (s : ExtStep n m), ss[j]? = some s → Tracks q r a κ d D x w v j s ∧ NearSmooth l d s (x j) (x (j + 1))) →
        (∀ s ∈ ss, (a • (1 : Matrix (Fin n) (Fin n) ℝ) - s.Q).PosSemidef ∧ (a • (1 : Matrix (Fin m) (Fin m) ℝ) - s.R).PosSemidef) →
        (∀ w, w <:+: alongTruth ss x → w.length = N → (obsGram w - γ • (1 : Matrix (Fin n) (Fin n) ℝ)).PosSemidef) →
        0 ≤ D → D ≤ ε → Between q p b.P → ‖x 0 - b.x‖ ≤ r₀ → r₀ ≤ ε →
        ∀ (b' : ℕ → Belief n) (y : ℕ → Fin n → ℝ) (M : ℕ), M ≤ ss.length → ‖(b' 0).x - b.x‖ ≤ δ → ‖(b' 0).P - b.P‖ ≤ δ →
        (∀ (i : ℕ) (s : ExtStep n m), i < M → ss[i]? = some s → ‖y i - s.f (b' i).x‖ ≤ δ ∧
          ‖(b' (i + 1)).x - ((linAt s (b' i) (y i)).next (b' i)).x‖ ≤ δ ∧
          ‖(b' (i + 1)).P - (linAt s (b' i) (y i)).covNext (b' i).P‖ ≤ δ) →
        ∀ i ≤ M, ‖x i - (b' i).x‖ ≤ C * ρ ^ i * r₀ + C * D + τ ∧ ‖x i - (b' i).x‖ ≤ 1 ∧ ‖x i - (b' i).x‖ ≤ d ∧ ‖(b' i).P‖ ≤ X ∧
          ∀ (s : ExtStep n m) (y' : Fin n → ℝ), ss[i]? = some s → ‖y' - s.f (b' i).x‖ ≤ δ →
            ‖x (i + 1) - y'‖ ≤ 1 ∧ ‖x (i + 1) - y'‖ ≤ d ∧
            δ ≤ |(innovCov (s.jH y') (priorCov (s.jA (b' i).x) (b' i).P s.Q) s.R).det| := by
  obtain ⟨p', δ₀, hpp, hδ₀, hupper⟩ := cov_upper_close n m N hN hr ha hp.le hγ
  have hp' : 0 < p' := hp.trans_le hpp
  obtain ⟨C₀, ρ₀, g, hC₀, h00, h01, hg, hset⟩ := settled_of_upper n m hq hr ha hp'
  have hC₀0 : 0 < C₀ := by linarith
  obtain ⟨ρ, hρ⟩ : ∃ ρ, ρ = (ρ₀ + 1) / 2 := ⟨_, rfl⟩
  have h0ρ : ρ₀ < ρ := by rw [hρ]; linarith
  have hρ1 : ρ < 1 := by rw [hρ]; linarith
  have hρ0 : 0 < ρ := by linarith
  have hinv : 0 < (1 - ρ)⁻¹ := inv_pos.2 (by linarith)
  have hgap : 0 < ρ - ρ₀ := by linarith
  obtain ⟨k1, hk1⟩ : ∃ k1 : ℝ, k1 = n * (m * (n * (a * a))) := ⟨_, rfl⟩
  have hk10 : 0 ≤ k1 := by rw [hk1]; positivity
  obtain ⟨c₃, hc₃⟩ : ∃ c₃ : ℝ, c₃ = n * a + κ := ⟨_, rfl⟩
  have hc₃0 : 0 ≤ c₃ := by rw [hc₃]; positivity
  obtain ⟨g', hg'⟩ : ∃ g' : ℝ, g' = g + 1 := ⟨_, rfl⟩
  have hg'0 : 0 ≤ g' := by rw [hg']; positivity
  obtain ⟨k2, hk2⟩ : ∃ k2 : ℝ, k2 = (1 + m * g' * (n * a)) * κ + m * g' * (κ * (c₃ + 1) * c₃) := ⟨_, rfl⟩
  have hk20 : 0 ≤ k2 := by rw [hk2]; positivity
  obtain ⟨k3, hk3⟩ : ∃ k3 : ℝ, k3 = (1 + m * g' * (n * a)) + m * g' * (1 + κ * (c₃ + 1) + n * a) + 1 := ⟨_, rfl⟩
  have hk30 : 0 ≤ k3 := by rw [hk3]; positivity
  obtain ⟨C, hC⟩ : ∃ C : ℝ, C = 2 * C₀ * (1 + (1 - ρ)⁻¹ * k3) := ⟨_, rfl⟩
  have hC2 : 2 ≤ C := by
    have : 0 ≤ C₀ * ((1 - ρ)⁻¹ * k3) := by positivity
    rw [hC]; linarith
  have hC0 : 0 < C := by linarith
  obtain ⟨θ, hθ, hθ1, hθk⟩ : ∃ θ : ℝ, 0 < θ ∧ θ ≤ 1 ∧ C₀ * (k1 * θ) ≤ (ρ - ρ₀) / 4 := by
    refine ⟨min 1 ((ρ - ρ₀) / 4 / (C₀ * k1 + 1)), by positivity, min_le_left _ _, ?_⟩
    have e1 := le_of_div (by positivity) (min_le_right 1 ((ρ - ρ₀) / 4 / (C₀ * k1 + 1)))
    obtain ⟨t, ht⟩ : ∃ t, t = min 1 ((ρ - ρ₀) / 4 / (C₀ * k1 + 1)) := ⟨_, rfl⟩
    have ht0 : 0 < t := by rw [ht]; positivity
    rw [← ht] at e1 ⊢
    linarith
  obtain ⟨E, hE, hE1, hEd, hEl, hEk⟩ : ∃ E : ℝ, 0 < E ∧ (c₃ + 1) * E ≤ 1 ∧ (c₃ + 1) * E ≤ d ∧ l * ((c₃ + 1) * E) ≤ δ₀ ∧
      C₀ * (k2 * E) ≤ (ρ - ρ₀) / 4 := by
    obtain ⟨E, hE⟩ : ∃ E, E = min (min (1 / (c₃ + 1)) (d / (c₃ + 1))) (min (δ₀ / ((l + 1) * (c₃ + 1))) ((ρ - ρ₀) / 4 / (C₀ * k2 + 1))) := ⟨_, rfl⟩
    have hE0 : 0 < E := by rw [hE]; positivity
    have e1 := le_of_div (by positivity) (hE ▸ (min_le_left _ _).trans (min_le_left _ _) : E ≤ 1 / (c₃ + 1))
    have e2 := le_of_div (by positivity) (hE ▸ (min_le_left _ _).trans (min_le_right _ _) : E ≤ d / (c₃ + 1))
    have e3 := le_of_div (by positivity) (hE ▸ (min_le_right _ _).trans (min_le_left _ _) : E ≤ δ₀ / ((l + 1) * (c₃ + 1)))
    have e4 := le_of_div (by positivity) (hE ▸ (min_le_right _ _).trans (min_le_right _ _) : E ≤ (ρ - ρ₀) / 4 / (C₀ * k2 + 1))
    have z : 0 ≤ c₃ * E := by positivity
    exact ⟨E, hE0, by linarith, by linarith, by linarith, by linarith⟩
  have hc₃E : 0 ≤ c₃ * E := by positivity
  have hEE : E ≤ (c₃ + 1) * E := by linarith
  obtain ⟨ρ₁, hρ₁, hunif⟩ := unif_gainAt (n := n) (m := m) ha hr p' one_pos
  obtain ⟨δ₁, hδ₁, X, hcov⟩ := cov_near_var (n := n) (m := m) ha hr hC₀ h00 h01 hg hp' (ε := min θ ρ₁) (lt_min hθ hρ₁)
  obtain ⟨ε, hε⟩ : ∃ ε, ε = E / (4 * C) := ⟨_, rfl⟩
  have hε0 : 0 < ε := by rw [hε]; positivity
  have hεE : C * ε = E / 4 := by rw [hε]; field_simp
  refine ⟨ε, C, ρ, hε0, hC0, hρ0, hρ1, fun τ hτ => ?_⟩
  obtain ⟨δ, hδ⟩ : ∃ δ, δ = min (min δ₁ ρ₁) (min ε (τ / C)) := ⟨_, rfl⟩
  have hδ0 : 0 < δ := by rw [hδ]; positivity
  have hδδ₁ : δ ≤ δ₁ := hδ ▸ (min_le_left _ _).trans (min_le_left _ _)
  have hδρ₁ : δ ≤ ρ₁ := hδ ▸ (min_le_left _ _).trans (min_le_right _ _)
  have hδε : δ ≤ ε := hδ ▸ (min_le_right _ _).trans (min_le_left _ _)
  have hδτ : C * δ ≤ τ := by
    have := le_of_div hC0 (hδ ▸ (min_le_right _ _).trans (min_le_right _ _) : δ ≤ τ / C)
    linarith
  have hε4 : 2 * ε ≤ E / 4 := by
    have := mul_le_mul_of_nonneg_right hC2 hε0.le
    linarith
  refine ⟨δ, hδ0, X, by linarith, fun ss b x w v r₀ D htr hQR hobs hD hDε hb hx0 hr₀ b' y M hM hbx hbP hst => ?_⟩
  have hr00 := (norm_nonneg _).trans hx0
  have hDδ : D + δ ≤ E := by linarith
  -- one stretch
  have core : ∀ k ≤ M, (∀ i < k, ‖x i - (b' i).x‖ ≤ E) → ∀ i ≤ k, ‖x i - (b' i).x‖ ≤ C * ρ ^ i * r₀ + C * D + C * δ ∧ ‖(b' i).P‖ ≤ X ∧
      ∃ Y : Matrix (Fin n) (Fin n) ℝ, Y.PosSemidef ∧ ‖Y‖ ≤ p' ∧ ‖(b' i).P - Y‖ ≤ ρ₁ := by
    intro k hk hnear
    obtain ⟨L, hL⟩ : ∃ L, L = (ss.take k).mapIdx fun i s => linAt s (b' i) (y i) := ⟨_, rfl⟩
    have hLlen : L.length = k := by rw [hL, List.length_mapIdx, List.length_take]; omega
    have hget : ∀ (i : ℕ) (t : LinStep n m), L[i]? = some t → i < k ∧ ∃ s, ss[i]? = some s ∧ t = linAt s (b' i) (y i) := fun i t h => by
      have hi : i < k := by rw [← hLlen]; exact (List.getElem?_eq_some_iff.1 h).1
      rw [hL, List.getElem?_mapIdx, List.getElem?_take, if_pos hi, Option.map_eq_some_iff] at h
      obtain ⟨s, h1, h2⟩ := h
      exact ⟨hi, s, h1, h2.symm⟩
    have hxy : ∀ (i : ℕ) (s : ExtStep n m), i < k → ss[i]? = some s → ‖x (i + 1) - y i‖ ≤ (c₃ + 1) * E := fun i s hi hs => by
      obtain ⟨tr, -⟩ := htr i s hs
      obtain ⟨h1, -, -⟩ := hst i s (by omega) hs
      have h2 := predict_error ha hκ tr.near tr.state (hnear i hi) (by linarith) (by linarith) tr.dist
      have e : x (i + 1) - y i = (x (i + 1) - s.f (b' i).x) - (y i - s.f (b' i).x) := by abel
      rw [e]
      refine (norm_sub_le _ _).trans ?_
      rw [← hc₃] at h2
      linarith
    have htame : ∀ t ∈ L, TameStep a r t ∧ (t.Q - q • (1 : Matrix (Fin n) (Fin n) ℝ)).PosSemidef := fun t ht => by
      obtain ⟨i, hi⟩ := List.mem_iff_getElem?.1 ht
      obtain ⟨hik, s, hs, rfl⟩ := hget i t hi
      obtain ⟨tr, -⟩ := htr i s hs
      obtain ⟨u1, u2⟩ := hQR s (List.mem_of_getElem? hs)
      exact ⟨⟨tr.near.jA _ ((hnear i hik).trans (hEE.trans hEd)), tr.near.jH _ ((hxy i s hik hs).trans hEd),
        (posDef_of_lower hq tr.Q).posSemidef, u1, tr.R, u2⟩, tr.Q⟩
    have hcl : List.Forall₂ (StepClose a δ₀) ((alongTruth ss x).take k) L := by
      rw [List.forall₂_iff_get]
      have hla : (alongTruth ss x).length = ss.length := by simp [alongTruth]
      refine ⟨by rw [hLlen, List.length_take, hla]; omega, fun i hi hi' => ?_⟩
      rw [hLlen] at hi'
      simp only [List.get_eq_getElem, List.getElem_take]
      obtain ⟨-, s, h1, h2⟩ := hget i _ (List.getElem?_eq_getElem (by omega))
      have e3 : (alongTruth ss x)[i]'(by rw [hla]; omega) =
          { A := s.jA (x i), c := 0, H := s.jH (x (i + 1)), Q := s.Q, R := s.R, z := 0 } := by
        obtain ⟨hs1, rfl⟩ := List.getElem?_eq_some_iff.1 h1
        simp [alongTruth]
      rw [e3, h2]
      obtain ⟨tr, sm⟩ := htr i s h1
      have n1 := hnear i hi'
      have n2 := hxy i s hi' h1
      have z1 : ‖x i - x i‖ ≤ d := by simpa using hd.le
      have z2 : ‖x (i + 1) - x (i + 1)‖ ≤ d := by simpa using hd.le
      exact ⟨tr.near.jA _ z1, tr.near.jA _ (n1.trans (hEE.trans hEd)), tr.near.jH _ z2, tr.near.jH _ (n2.trans hEd),
        fun i' j' => (sm.jA _ (n1.trans (hEE.trans hEd)) i' j').trans ((mul_le_mul_of_nonneg_left (n1.trans hEE) hl).trans hEl),
        fun i' j' => (sm.jH _ (n2.trans hEd) i' j').trans ((mul_le_mul_of_nonneg_left n2 hl).trans hEl)⟩
    have hS := hset b.P L htame hb.1 fun u t e => by
      refine hupper (((alongTruth ss x).take k).take u.length) u b.P ⟨by simpa using (posDef_of_lower hq hb.1).posSemidef, hb.2⟩
        (fun s hs => (htame s (by rw [e]; simp [hs])).1) ?_ fun w hw hwl => hobs w ?_ hwl
      · have := List.forall₂_take u.length hcl
        rw [e, List.take_left] at this
        exact this
      · exact hw.trans ((List.take_prefix _ _).isInfix.trans (List.take_prefix _ _).isInfix)
    have hc := hcov b.P L hS (fun i => (b' i).P) (hbP.trans hδδ₁) fun i t ht => by
      obtain ⟨hik, s, hs, rfl⟩ := hget i t ht
      exact (hst i s (by omega) hs).2.2.trans hδδ₁
    have hdk : ∀ j k', j + k' ≤ L.length → ∀ d, ‖clo (covRun b.P (L.take j)) ((L.drop j).take k') *ᵥ d‖ ≤ C₀ * ρ₀ ^ k' * ‖d‖ := fun j k' hjk d => by
      have := hS.decay (L.take j) ((L.drop j).take k') ((L.drop j).drop k') (by simp) d
      rwa [List.length_take, List.length_drop, Nat.min_eq_left (by omega)] at this
    have hgr := gron (L := fun i => mulHom (cloAt b.P L i)) (C := C₀) (ρ₀ := ρ₀) (ρ := ρ) (σ := k1 * θ + k2 * E) (β := k3 * (D + δ))
      hC₀ h00 h0ρ hρ1 (e := fun i => x i - (b' i).x)
      (w := fun i => x (i + 1) - (b' (i + 1)).x - mulHom (cloAt b.P L i) (x i - (b' i).x)) (N := k)
      (fun j k' d hjk => by rw [seg_mulV b.P L j k' (by omega)]; exact hdk j k' (by omega) d)
      (fun i hi => by abel) (by positivity) (by positivity)
      (by have e1 : C₀ * (k1 * θ + k2 * E) = C₀ * (k1 * θ) + C₀ * (k2 * E) := by ring
          linarith)
      (fun i hi => by
        obtain ⟨t, ht⟩ : ∃ t, L[i]? = some t := ⟨_, List.getElem?_eq_getElem (by omega)⟩
        obtain ⟨-, s, hs, e⟩ := hget i t ht
        obtain ⟨tr, -⟩ := htr i s hs
        obtain ⟨s1, s2, -⟩ := hst i s (by omega) hs
        obtain ⟨-, -, c3⟩ := hc i (by omega)
        have c3 := (c3 t ht).trans (min_le_left _ _)
        have hgn : ‖t.gainAt (covRun b.P (L.take i))‖ ≤ g := by
          refine (mat_norm_le hg).2 (hS.gain (L.take i) t (L.drop (i + 1)) ?_)
          conv_lhs => rw [← List.take_append_drop i L]
          rw [List.drop_eq_getElem_cons (by omega : i < L.length)]
          have := (List.getElem?_eq_some_iff.1 ht).2
          rw [this]
        have hgn' : ‖t.gainAt (b' i).P‖ ≤ g' := by
          have e1 : t.gainAt (b' i).P = (t.gainAt (b' i).P - t.gainAt (covRun b.P (L.take i))) + t.gainAt (covRun b.P (L.take i)) := by abel
          rw [e1, hg']
          refine (norm_add_le _ _).trans ?_
          linarith
        have hm : mulHom (cloAt b.P L i) (x i - (b' i).x) = t.closed (covRun b.P (L.take i)) *ᵥ (x i - (b' i).x) := by
          rw [cloAt_eq b.P ht]; rfl
        rw [hm, hk1, hk2, hk3, hc₃]
        subst e
        exact (err_step (K := (linAt s (b' i) (y i)).gainAt (covRun b.P (L.take i))) ha hκ hg'0 hθ.le tr.near tr.state tr.obs tr.dist tr.err (hnear i hi)
          (by linarith) (by linarith) hDδ (by rw [← hc₃]; exact hEd) s1 s2 c3 hgn').2)
    intro i hi
    obtain ⟨c1, c2, -⟩ := hc i (by omega)
    obtain ⟨s1, s2⟩ := hS.cov (L.take i) (L.drop i) (by simp)
    refine ⟨(hgr i hi).trans ?_, c2, covRun b.P (L.take i), s1, (mat_norm_le hp'.le).2 (psd_entry hp'.le s1 s2), c1.trans (min_le_right _ _)⟩
    have e0 : ‖x 0 - (b' 0).x‖ ≤ r₀ + δ := by
      have e : x 0 - (b' 0).x = (x 0 - b.x) - ((b' 0).x - b.x) := by abel
      rw [e]
      exact (norm_sub_le _ _).trans (add_le_add hx0 hbx)
    have hpow : ρ ^ i ≤ 1 := pow_le_one₀ hρ0.le hρ1.le
    have hpow0 : 0 ≤ ρ ^ i := by positivity
    have f1 : 2 * C₀ * ρ ^ i * ‖x 0 - (b' 0).x‖ ≤ 2 * C₀ * ρ ^ i * (r₀ + δ) := mul_le_mul_of_nonneg_left e0 (by positivity)
    have f2 : 2 * C₀ * δ * ρ ^ i ≤ 2 * C₀ * δ * 1 := mul_le_mul_of_nonneg_left hpow (by positivity)
    have f3 : 0 ≤ C₀ * (1 - ρ)⁻¹ * k3 * (ρ ^ i * r₀) := by positivity
    have f4 : 0 ≤ C₀ * D := by positivity
    have e : C * ρ ^ i * r₀ + C * D + C * δ = 2 * C₀ * ρ ^ i * r₀ + 2 * (C₀ * (1 - ρ)⁻¹ * k3 * (ρ ^ i * r₀)) + 2 * (C₀ * D) + 2 * C₀ * δ +
        2 * C₀ * (1 - ρ)⁻¹ * (k3 * (D + δ)) := by rw [hC]; ring
    linarith
  have hfinE : ∀ i : ℕ, C * ρ ^ i * r₀ + C * D + C * δ ≤ E := fun i => by
    have hpow : ρ ^ i ≤ 1 := pow_le_one₀ hρ0.le hρ1.le
    have f1 : C * ρ ^ i * r₀ ≤ C * 1 * ε := by gcongr
    have f2 : C * D ≤ C * ε := by gcongr
    have f3 : C * δ ≤ C * ε := by gcongr
    linarith
  have hnear : ∀ k ≤ M, ∀ i < k, ‖x i - (b' i).x‖ ≤ E := by
    intro k
    induction k with
    | zero => exact fun _ i hi => absurd hi (by omega)
    | succ k ih =>
      intro hk i hi
      exact (core k (by omega) (ih (by omega)) i (by omega)).1.trans (hfinE i)
  intro i hi
  obtain ⟨r1, r2, Y, r3, r4, r5⟩ := core M le_rfl (hnear M le_rfl) i hi
  have rE := r1.trans (hfinE i)
  refine ⟨by linarith, by linarith, by linarith, r2, fun s y' hs hy' => ?_⟩
  obtain ⟨tr, -⟩ := htr i s hs
  have hxy : ‖x (i + 1) - y'‖ ≤ (c₃ + 1) * E := by
    have h2 := predict_error ha hκ tr.near tr.state rE (by linarith) (by linarith) tr.dist
    have e : x (i + 1) - y' = (x (i + 1) - s.f (b' i).x) - (y' - s.f (b' i).x) := by abel
    rw [e]
    refine (norm_sub_le _ _).trans ?_
    rw [← hc₃] at h2
    linarith
  obtain ⟨u1, u2⟩ := hQR s (List.mem_of_getElem? hs)
  refine ⟨hxy.trans hE1, hxy.trans hEd, hδρ₁.trans ?_⟩
  exact (hunif (linAt s (b' i) y') Y (b' i).P ⟨tr.near.jA _ (rE.trans (hEE.trans hEd)), tr.near.jH _ (hxy.trans hEd),
        (posDef_of_lower hq tr.Q).posSemidef, u1, tr.R, u2⟩ r3 r4 r5).1

end

end KK
