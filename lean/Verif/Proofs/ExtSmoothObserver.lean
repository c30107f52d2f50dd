import Verif.Props.LagVarying
import Verif.Proofs.ExtWindow

/-! # The extended smoother near the true states -/

set_option linter.unusedSectionVars false

namespace KK

open Matrix

variable {n m : ℕ}

theorem rtsSolvable_noise (b : Belief n) (l : List (LinStep n m)) (hb : b.P.PosSemidef) (h : ∀ s ∈ l, s.Q.PosDef ∧ s.R.PosDef) :
    RtsSolvable b l := by
  induction l generalizing b with
  | nil => trivial
  | cons s l ih =>
    obtain ⟨h1, h2⟩ := h s (by simp)
    refine ⟨?_, ih _ (covNext_psd ⟨h1.posSemidef, h2⟩ hb) fun t ht => h t (by simp [ht])⟩
    exact posDef_det_ne (Matrix.PosDef.posSemidef_add (posSemidef_conj hb s.A) h1)

theorem smoothSolvable_noise (b : Belief n) (l : List (LinStep n m)) (hb : b.P.PosSemidef) (h : ∀ s ∈ l, s.Q.PosDef ∧ s.R.PosDef) :
    SmoothSolvable b l := by
  cases l with
  | nil => trivial
  | cons s l =>
    obtain ⟨h1, h2⟩ := h s (by simp)
    exact rtsSolvable_noise _ _ (covNext_psd ⟨h1.posSemidef, h2⟩ hb) fun t ht => h t (by simp [ht])

/-- Runs with bounded covariances and noise in every direction: errors decay step by step. -/
theorem settled_of_upper (n m : ℕ) {q r a p : ℝ} (hq : 0 < q) (hr : 0 < r) (ha : 0 ≤ a) (hp : 0 < p) :
    ∃ C ρ g : ℝ, 1 ≤ C ∧ 0 < ρ ∧ ρ < 1 ∧ 0 ≤ g ∧ ∀ (P : Matrix (Fin n) (Fin n) ℝ) (l : List (LinStep n m)),
      (∀ s ∈ l, TameStep a r s ∧ (s.Q - q • (1 : Matrix (Fin n) (Fin n) ℝ)).PosSemidef) →
      (P - q • (1 : Matrix (Fin n) (Fin n) ℝ)).PosSemidef →
      (∀ u v, l = u ++ v → (p • (1 : Matrix (Fin n) (Fin n) ℝ) - covRun P u).PosSemidef) → Settled a r C ρ g p P l := by
  obtain ⟨c, hc⟩ : ∃ c, c = noiseFloor n m q r a := ⟨_, rfl⟩
  have hc0 : 0 < c := hc ▸ noiseFloor_pos hq hr
  obtain ⟨lo, hlo⟩ : ∃ lo, lo = min q c := ⟨_, rfl⟩
  have hlo0 : 0 < lo := hlo ▸ lt_min hq hc0
  obtain ⟨δ, hδ⟩ : ∃ δ, δ = min (c / p) (1 / 2) := ⟨_, rfl⟩
  have hδ0 : 0 < δ := hδ ▸ lt_min (by positivity) (by norm_num)
  have hδ1 : δ ≤ 1 / 2 := hδ ▸ min_le_right _ _
  have hδp : δ * p ≤ c := by
    have : δ ≤ c / p := hδ ▸ min_le_left _ _
    rwa [le_div_iff₀ hp] at this
  have hθ : 0 < 1 - δ := by linarith
  have low : ∀ (s : LinStep n m) (P : Matrix (Fin n) (Fin n) ℝ), TameStep a r s → (s.Q - q • (1 : Matrix (Fin n) (Fin n) ℝ)).PosSemidef →
      P.PosSemidef → (s.covNext P - lo • (1 : Matrix (Fin n) (Fin n) ℝ)).PosSemidef := fun s P ht hQ hP => by
    refine lower_mono (hlo ▸ min_le_right q c) ?_
    rw [covNext_eq (ht.noisy hr) hP, hc]
    have := (posSemidef_conj hP (s.closed P)).add (joseph_lower (K := s.gainAt P) hq hr ha ht.H hQ ht.R0)
    convert this using 1
    abel
  have key : ∀ (l : List (LinStep n m)) (P : Matrix (Fin n) (Fin n) ℝ),
      (∀ s ∈ l, TameStep a r s ∧ (s.Q - q • (1 : Matrix (Fin n) (Fin n) ℝ)).PosSemidef) →
      (P - lo • (1 : Matrix (Fin n) (Fin n) ℝ)).PosSemidef →
      (∀ u v, l = u ++ v → (p • (1 : Matrix (Fin n) (Fin n) ℝ) - covRun P u).PosSemidef) →
      (covRun P l - lo • (1 : Matrix (Fin n) (Fin n) ℝ)).PosSemidef ∧
      ∀ d, mahal (covRun P l) (clo P l *ᵥ d) ≤ (1 - δ) ^ l.length * mahal P d := by
    intro l
    induction l with
    | nil => intro P _ hP _; exact ⟨hP, fun d => by simp [covRun, clo]⟩
    | cons s l ih =>
      intro P hl hP hup
      obtain ⟨ht, hQ⟩ := hl s (by simp)
      have hPd := posDef_of_lower hlo0 hP
      have hn := low s P ht hQ hPd.posSemidef
      have hnp : (p • (1 : Matrix (Fin n) (Fin n) ℝ) - s.covNext P).PosSemidef := hup [s] l rfl
      obtain ⟨i1, i2⟩ := ih (s.covNext P) (fun t h => hl t (by simp [h])) hn fun u v e => hup (s :: u) v (by rw [e]; rfl)
      refine ⟨i1, fun d => ?_⟩
      rw [clo, ← mulVec_mulVec]
      refine (i2 _).trans ?_
      have := mahal_contract hPd (posDef_of_lower hlo0 hn) (δ := δ) (by linarith) (covNext_eq (ht.noisy hr) hPd.posSemidef) (by
        have h1 := joseph_lower (K := s.gainAt P) hq hr ha ht.H hQ ht.R0
        rw [← hc] at h1
        have h2 := psd_smul hnp hδ0.le
        have h3 : ((c - δ * p) • (1 : Matrix (Fin n) (Fin n) ℝ)).PosSemidef := psd_smul Matrix.PosDef.one.posSemidef (by linarith)
        have := (h1.add h2).add h3
        convert this using 1
        module) d
      calc (1 - δ) ^ l.length * mahal (s.covNext P) (s.closed P *ᵥ d) ≤ (1 - δ) ^ l.length * ((1 - δ) * mahal P d) := by gcongr
        _ = _ := by rw [List.length_cons]; ring
  refine ⟨max 1 (Real.sqrt (p * (n + 1) / lo)), Real.sqrt (1 - δ), Real.sqrt (p / r), le_max_left _ _, Real.sqrt_pos.2 hθ, ?_,
    Real.sqrt_nonneg _, fun P l hl hP hup => ⟨fun s hs => (hl s hs).1, ?_, ?_, ?_⟩⟩
  · rw [Real.sqrt_lt' one_pos]; linarith
  · intro u v w e d
    have hu := key u P (fun s hs => hl s (by rw [e]; simp [hs])) (lower_mono (hlo ▸ min_le_left q c) hP)
      fun u' v' e' => hup u' (v' ++ (v ++ w)) (by rw [e, e']; simp)
    have hv := key v (covRun P u) (fun s hs => hl s (by rw [e]; simp [hs])) hu.1 fun u' v' e' => by
      rw [← covRun_append]; exact hup (u ++ u') (v' ++ w) (by rw [e, e']; simp)
    have hfin := hup (u ++ v) w (by rw [e]; simp)
    rw [covRun_append] at hfin
    have h1 := posDef_of_lower hlo0 hu.1
    have h2 := posDef_of_lower hlo0 hv.1
    have h3 : ‖clo (covRun P u) v *ᵥ d‖ ^ 2 ≤ p * ((1 - δ) ^ v.length * (lo⁻¹ * ((n + 1) * ‖d‖ ^ 2))) := by
      refine (norm_sq_le_dot _).trans ((le_mahal_of_upper h2 hp hfin _).trans (mul_le_mul_of_nonneg_left ((hv.2 d).trans ?_) hp.le))
      refine mul_le_mul_of_nonneg_left ((mahal_le_of_lower h1 (inv_pos.2 hlo0) (by rw [inv_inv]; exact hu.1) _).trans ?_) (by positivity)
      refine mul_le_mul_of_nonneg_left ((dot_le_norm_sq _).trans ?_) (by positivity)
      have := sq_nonneg ‖d‖
      nlinarith
    have h4 : ‖clo (covRun P u) v *ᵥ d‖ ≤ Real.sqrt (p * (n + 1) / lo) * Real.sqrt (1 - δ) ^ v.length * ‖d‖ := by
      refine abs_le_of_sq_le_sq' ?_ (by positivity) |>.2
      rw [mul_pow, mul_pow, Real.sq_sqrt (by positivity), ← pow_mul, mul_comm v.length 2, pow_mul, Real.sq_sqrt hθ.le]
      refine h3.trans (le_of_eq ?_)
      field_simp
    refine h4.trans ?_
    gcongr
    exact le_max_right _ _
  · intro u s v e i j
    have hu := key u P (fun s hs => hl s (by rw [e]; simp [hs])) (lower_mono (hlo ▸ min_le_left q c) hP)
      fun u' v' e' => hup u' (v' ++ (s :: v)) (by rw [e, e']; simp)
    have := hup (u ++ [s]) v (by rw [e]; simp)
    rw [covRun_append] at this
    exact gainAt_le hr (hl s (by rw [e]; simp)).1 (posDef_of_lower hlo0 hu.1).posSemidef this i j
  · intro u v e
    have hu := key u P (fun s hs => hl s (by rw [e]; simp [hs])) (lower_mono (hlo ▸ min_le_left q c) hP)
      fun u' v' e' => hup u' (v' ++ v) (by rw [e, e']; simp)
    exact ⟨(posDef_of_lower hlo0 hu.1).posSemidef, hup u v e⟩

theorem clo_congr {ss ts : List (LinStep n m)} (h : ss.map LinStep.model = ts.map LinStep.model) (P : Matrix (Fin n) (Fin n) ℝ) :
    clo P ss = clo P ts := by
  induction ss generalizing ts P with
  | nil =>
    obtain rfl : ts = [] := by simpa using h.symm
    rfl
  | cons s ss ih =>
    rcases ts with _ | ⟨t, ts⟩
    · simp at h
    rw [List.map_cons, List.map_cons, List.cons.injEq] at h
    obtain ⟨e1, e2⟩ := h
    simp only [LinStep.model, Prod.mk.injEq] at e1
    obtain ⟨f1, f2, f3, f4⟩ := e1
    have g1 : s.covNext P = t.covNext P := by simp only [LinStep.covNext, f1, f2, f3, f4]
    have g2 : s.closed P = t.closed P := by simp only [LinStep.closed, LinStep.gainAt, f1, f2, f3, f4]
    rw [clo, clo, g1, g2, ih e2]

theorem Settled.congr {a r C ρ g c : ℝ} {P : Matrix (Fin n) (Fin n) ℝ} {l l' : List (LinStep n m)} (h : Settled a r C ρ g c P l)
    (he : l.map LinStep.model = l'.map LinStep.model) : Settled a r C ρ g c P l' where
  tame s hs := by
    have : s.model ∈ l.map LinStep.model := by rw [he]; exact List.mem_map_of_mem hs
    obtain ⟨t, ht, e⟩ := List.mem_map.1 this
    simp only [LinStep.model, Prod.mk.injEq] at e
    obtain ⟨f1, f2, f3, f4⟩ := e
    have := h.tame t ht
    exact ⟨f1 ▸ this.A, f2 ▸ this.H, f3 ▸ this.Q0, f3 ▸ this.Q, f4 ▸ this.R0, f4 ▸ this.R⟩
  decay u v w e d := by
    rw [e, List.map_append, List.map_append] at he
    obtain ⟨u', x, e1, hu, hx⟩ := List.map_eq_append_iff.1 he
    obtain ⟨v', w', e2, hv, hw⟩ := List.map_eq_append_iff.1 hx
    have hl : v.length = v'.length := by simpa using (congrArg List.length hv).symm
    rw [← covRun_congr hu, ← clo_congr hv, hl]
    exact h.decay u' v' w' (by rw [e1, e2]) d
  gain u s v e i j := by
    rw [e, List.map_append, List.map_cons] at he
    obtain ⟨u', x, e1, hu, hx⟩ := List.map_eq_append_iff.1 he
    obtain ⟨s', v', e2, hv, hw⟩ := List.map_eq_cons_iff.1 hx
    simp only [LinStep.model, Prod.mk.injEq] at hv
    obtain ⟨f1, f2, f3, f4⟩ := hv
    have := h.gain u' s' v' (by rw [e1, e2]) i j
    rw [covRun_congr hu] at this
    simpa only [LinStep.gainAt, f1, f2, f3, f4] using this
  cov u v e := by
    rw [e, List.map_append] at he
    obtain ⟨u', x, e1, hu, hx⟩ := List.map_eq_append_iff.1 he
    rw [← covRun_congr hu]
    exact h.cov u' x e1

/-- The errors made by linearising. -/
theorem lin_errors {a κ d : ℝ} {s : ExtStep n m} {x x' : Fin n → ℝ} {b : Belief n} (ha : 0 ≤ a) (hκ : 0 ≤ κ)
    (h : NearLinear a κ d s x x') {w : Fin n → ℝ} {v : Fin m → ℝ} (hx : x' = s.f x + w) (hz : s.z = s.h x' + v) {E D : ℝ}
    (hE : ‖x - b.x‖ ≤ E) (hE1 : E ≤ 1) (hEd : E ≤ d) (hw : ‖w‖ ≤ D) (hv : ‖v‖ ≤ D) (hd1 : (n * a + κ) * E + D ≤ 1)
    (hd : (n * a + κ) * E + D ≤ d) :
    ‖x' - (s.lin b).A *ᵥ x - (s.lin b).c‖ ≤ D + κ * E + κ * ((n * a + κ) * E + D) ∧
      ‖(s.lin b).z - (s.lin b).H *ᵥ x'‖ ≤ D + κ * E + κ * ((n * a + κ) * E + D) := by
  have hE0 := (norm_nonneg _).trans hE
  have hD0 := (norm_nonneg _).trans hw
  have hpe := predict_error ha hκ h hx hE hE1 hEd hw
  have h0 := (norm_nonneg _).trans hpe
  have h1 := h.f b.x (hE.trans hEd)
  have h2 := h.h (s.f b.x) (hpe.trans hd)
  have g1 : κ * ‖x - b.x‖ ^ 2 ≤ κ * E := by
    refine mul_le_mul_of_nonneg_left ?_ hκ
    have := norm_nonneg (x - b.x)
    nlinarith
  have g2 : κ * ‖x' - s.f b.x‖ ^ 2 ≤ κ * ((n * a + κ) * E + D) := by
    refine mul_le_mul_of_nonneg_left ?_ hκ
    have := norm_nonneg (x' - s.f b.x)
    nlinarith
  have g3 : 0 ≤ κ * E := by positivity
  have g4 : 0 ≤ κ * ((n * a + κ) * E + D) := by positivity
  constructor
  · have e : x' - (s.lin b).A *ᵥ x - (s.lin b).c = w + (s.f x - (s.f b.x + s.jA b.x *ᵥ (x - b.x))) := by
      simp only [ExtStep.lin, mulVec_sub]; rw [hx]; abel
    rw [e]
    refine (norm_add_le _ _).trans ?_
    linarith
  · have e : (s.lin b).z - (s.lin b).H *ᵥ x' = v + (s.h x' - (s.h (s.f b.x) + s.jH (s.f b.x) *ᵥ (x' - s.f b.x))) := by
      simp only [ExtStep.lin, mulVec_sub]; rw [hz]; abel
    rw [e]
    refine (norm_add_le _ _).trans ?_
    linarith

set_option maxHeartbeats 1000000 in
/-- The extended smoother follows the true states. -/
theorem smooth_observer (n m : ℕ) {q r a p κ d : ℝ} (hq : 0 < q) (hr : 0 < r) (ha : 0 ≤ a) (hp : 0 < p) (hκ : 0 ≤ κ) (hd : 0 < d) :
    ∃ ε C ρ : ℝ, 0 < ε ∧ 0 < C ∧ 0 < ρ ∧ ρ < 1 ∧
      ∀ (ss : List (ExtStep n m)) (b : Belief n) (x w : ℕ → Fin n → ℝ) (v : ℕ → Fin m → ℝ) (r₀ D : ℝ),
        (∀ (j : ℕ) (s : ExtStep n m), ss[j]? = some s → Tracks q r a κ d D x w v j s) →
        (∀ s ∈ ss, (a • (1 : Matrix (Fin n) (Fin n) ℝ) - s.Q).PosSemidef ∧ (a • (1 : Matrix (Fin m) (Fin m) ℝ) - s.R).PosSemidef) →
        0 ≤ D → D ≤ ε → Between q p b.P → ‖x 0 - b.x‖ ≤ r₀ → r₀ ≤ ε →
        (∀ j : ℕ, (∀ i, i ≤ j → NearAt d b ss x i) → ∀ (s : ExtStep n m) (b' : Belief n), ss[j]? = some s →
          (b :: extFiltered b ss)[j]? = some b' → (p • (1 : Matrix (Fin n) (Fin n) ℝ) - (s.next b').P).PosSemidef) →
        ∀ (k : ℕ) (q' : Belief n), (extSmoothed b ss)[k]? = some q' → ‖x (k + 1) - q'.x‖ ≤ C * ρ ^ (k + 1) * r₀ + C * D := by
  obtain ⟨ε₁, C₁, ρ, hε₁, hC₁, h0, h1, hobs⟩ := norm_observer_cov n m hq hr ha hp hκ hd
  obtain ⟨C₂, ρ₂, g, hC₂, h02, h12, hg, hset⟩ := settled_of_upper n m hq hr ha hp
  obtain ⟨K, hK, hfront⟩ := exists_front (c := p) n m ha hr hC₂ h02 h12 hg hp.le
  obtain ⟨M, hM⟩ : ∃ M : ℝ, M = (n * a + κ + 1) * (2 * C₁ + 1) + 1 := ⟨_, rfl⟩
  have hM0 : 0 < M := by rw [hM]; positivity
  obtain ⟨μ, hμ⟩ : ∃ μ : ℝ, μ = min (min ε₁ (1 / M)) (d / M) := ⟨_, rfl⟩
  have hμ0 : 0 < μ := by rw [hμ]; exact lt_min (lt_min hε₁ (by positivity)) (by positivity)
  have hμ1 : μ ≤ ε₁ := hμ ▸ (min_le_left _ _).trans (min_le_left _ _)
  have hμ2 : μ * M ≤ 1 := by
    have : μ ≤ 1 / M := hμ ▸ (min_le_left _ _).trans (min_le_right _ _)
    rwa [le_div_iff₀ hM0] at this
  have hμ3 : μ * M ≤ d := by
    have : μ ≤ d / M := hμ ▸ min_le_right _ _
    rwa [le_div_iff₀ hM0] at this
  obtain ⟨L, hL⟩ : ∃ L : ℝ, L = 1 + κ + κ * (n * a + κ) := ⟨_, rfl⟩
  have hL0 : 0 ≤ L := by rw [hL]; positivity
  obtain ⟨C, hCe⟩ : ∃ C : ℝ, C = K * (C₁ + L * C₁ + (1 + κ)) + 1 := ⟨_, rfl⟩
  have hC0 : 0 < C := by rw [hCe]; positivity
  refine ⟨μ, C, ρ, hμ0, hC0, h0, h1, fun ss b x w v r₀ D hs hQR hD hDμ hb hx0 hr₀ hcov k q' hq' => ?_⟩
  have hr0 := (norm_nonneg _).trans hx0
  have hpow : ∀ j : ℕ, ρ ^ j ≤ 1 := fun j => pow_le_one₀ h0.le h1.le
  have hfil : ∀ (j : ℕ) (b' : Belief n), (b :: extFiltered b ss)[j]? = some b' →
      (b'.P.PosDef ∧ (p • (1 : Matrix (Fin n) (Fin n) ℝ) - b'.P).PosSemidef) ∧ (0 < j → ‖x j - b'.x‖ ≤ C₁ * ρ ^ j * r₀ + C₁ * D) ∧
      ‖x j - b'.x‖ ≤ 2 * C₁ * μ + μ := fun j b' hj => by
    cases j with
    | zero =>
      simp only [List.getElem?_cons_zero, Option.some.injEq] at hj
      subst hj
      refine ⟨⟨posDef_of_lower hq hb.1, hb.2⟩, fun h => absurd h (by omega), hx0.trans (hr₀.trans ?_)⟩
      have : 0 ≤ 2 * C₁ * μ := by positivity
      linarith
    | succ j =>
      rw [List.getElem?_cons_succ] at hj
      obtain ⟨e1, e2⟩ := hobs ss b x w v r₀ D hs hD (hDμ.trans hμ1) hb hx0 (hr₀.trans hμ1) j (fun i _ => hcov i) b' hj
      refine ⟨e1, fun _ => e2, e2.trans ?_⟩
      have f1 : C₁ * ρ ^ (j + 1) * r₀ ≤ C₁ * 1 * μ := by
        have := hpow (j + 1)
        gcongr
      have f2 : C₁ * D ≤ C₁ * μ := by gcongr
      linarith
  -- bounds on errors and the linearised run
  have hsm1 : 2 * C₁ * μ + μ ≤ 1 ∧ 2 * C₁ * μ + μ ≤ d ∧ (n * a + κ) * (2 * C₁ * μ + μ) + μ ≤ 1 ∧
      (n * a + κ) * (2 * C₁ * μ + μ) + μ ≤ d := by
    have e : (n * a + κ) * (2 * C₁ * μ + μ) + μ + (2 * C₁ * μ + μ) = μ * M := by rw [hM]; ring
    have z1 : 0 ≤ (n * a + κ) * (2 * C₁ * μ + μ) + μ := by positivity
    have z2 : 0 ≤ 2 * C₁ * μ + μ := by positivity
    refine ⟨?_, ?_, ?_, ?_⟩ <;> linarith
  obtain ⟨s1, s2, s3, s4⟩ := hsm1
  obtain ⟨ls, hls⟩ : ∃ ls, ls = linRun b ss := ⟨_, rfl⟩
  have hlget : ∀ (j : ℕ) (t : LinStep n m), ls[j]? = some t → ∃ s b', ss[j]? = some s ∧ (b :: extFiltered b ss)[j]? = some b' ∧
      t = s.lin b' := fun j t h => linRun_get b ss j t (hls ▸ h)
  have htame : ∀ t ∈ ls, TameStep a r t ∧ (t.Q - q • (1 : Matrix (Fin n) (Fin n) ℝ)).PosSemidef := fun t ht => by
    obtain ⟨j, hj⟩ := List.mem_iff_getElem?.1 ht
    obtain ⟨s, b', e1, e2, rfl⟩ := hlget j t hj
    obtain ⟨-, -, e3⟩ := hfil j b' e2
    have tr := hs j s e1
    obtain ⟨u1, u2⟩ := hQR s (List.mem_of_getElem? e1)
    have hpe := predict_error ha hκ tr.near tr.state e3 s1 s2 tr.dist
    refine ⟨⟨tr.near.jA _ (e3.trans s2), tr.near.jH _ (hpe.trans ?_), (posDef_of_lower hq tr.Q).posSemidef, u1, tr.R, u2⟩, tr.Q⟩
    linarith
  have hup : ∀ u t, ls = u ++ t → (p • (1 : Matrix (Fin n) (Fin n) ℝ) - covRun b.P u).PosSemidef := fun u t e => by
    rcases List.eq_nil_or_concat u with rfl | ⟨u', s, rfl⟩
    · exact hb.2
    have hlen : u'.length < ls.length := by rw [e]; simp
    have h3 := filtered_get b ls u'.length hlen
    have h4 : ls.take (u'.length + 1) = u' ++ [s] := by
      rw [e, List.concat_eq_append, List.take_append_of_le_length (by simp)]
      exact List.take_of_length_le (by simp)
    rw [h4, hls, ← extFiltered_eq] at h3
    have h5 := (hfil (u'.length + 1) _ (by rw [List.getElem?_cons_succ]; exact h3)).1.2
    rw [lastOf_covRun] at h5
    simpa using h5
  have hsetl := hset b.P ls htame hb.1 hup
  rw [extSmoothed_eq, ← hls] at hq'
  obtain ⟨hk, rfl⟩ := smoothed_get hq'
  obtain ⟨b₁, hb₁⟩ : ∃ b₁, b₁ = lastOf b (ls.take (k + 1)) := ⟨_, rfl⟩
  rw [← hb₁]
  have hget : (b :: extFiltered b ss)[k + 1]? = some b₁ := by
    rw [List.getElem?_cons_succ, extFiltered_eq, ← hls, filtered_get b ls k hk, hb₁]
  obtain ⟨-, herr, -⟩ := hfil (k + 1) b₁ hget
  have herr := herr (by omega)
  obtain ⟨E, hE⟩ : ∃ E, E = C₁ * ρ ^ (k + 1) * r₀ + C₁ * D := ⟨_, rfl⟩
  have hE0 : 0 ≤ E := by rw [hE]; positivity
  rw [← hE] at herr
  obtain ⟨D', hD'⟩ : ∃ D' : ℝ, D' = D + κ * E + κ * ((n * a + κ) * E + D) := ⟨_, rfl⟩
  have hD'0 : 0 ≤ D' := by rw [hD']; positivity
  have hEμ : E ≤ 2 * C₁ * μ := by
    have f1 : C₁ * ρ ^ (k + 1) * r₀ ≤ C₁ * 1 * μ := by
      have := hpow (k + 1)
      gcongr
    have f2 : C₁ * D ≤ C₁ * μ := by gcongr
    rw [hE]; linarith
  obtain ⟨w', hw'⟩ : ∃ w' : ℕ → Fin n → ℝ, w' = fun i => match (ls.drop (k + 1))[i]? with
    | some t => x (k + 1 + i + 1) - t.A *ᵥ x (k + 1 + i) - t.c
    | none => 0 := ⟨_, rfl⟩
  obtain ⟨v', hv'⟩ : ∃ v' : ℕ → Fin m → ℝ, v' = fun i => match (ls.drop (k + 1))[i]? with
    | some t => t.z - t.H *ᵥ x (k + 1 + i + 1)
    | none => 0 := ⟨_, rfl⟩
  have hef := error_front b₁ (ls.drop (k + 1)) (fun i => x (k + 1 + i)) w' v' fun i t ht => by
    rw [hw', hv']
    simp only [ht]
    refine ⟨?_, ?_⟩
    · show x (k + 1 + i + 1) = t.A *ᵥ x (k + 1 + i) + t.c + (x (k + 1 + i + 1) - t.A *ᵥ x (k + 1 + i) - t.c)
      abel
    · show t.z = t.H *ᵥ x (k + 1 + i + 1) + (t.z - t.H *ᵥ x (k + 1 + i + 1))
      abel
  rw [add_zero] at hef
  have hbound : ∀ (i : ℕ) (t : LinStep n m), (ls.drop (k + 1))[i]? = some t → ‖w' i‖ ≤ D' ∧ ‖v' i‖ ≤ D' := fun i t ht => by
    have ht' := ht
    rw [List.getElem?_drop] at ht'
    obtain ⟨s, b', e1, e2, e3⟩ := hlget (k + 1 + i) t ht'
    obtain ⟨-, f1, -⟩ := hfil (k + 1 + i) b' e2
    have tr := hs _ s e1
    have f2 : ‖x (k + 1 + i) - b'.x‖ ≤ E := by
      refine (f1 (by omega)).trans ?_
      have : ρ ^ (k + 1 + i) ≤ ρ ^ (k + 1) := pow_le_pow_of_le_one h0.le h1.le (by omega)
      rw [hE]
      gcongr
    have hEE : (n * a + κ) * E + D ≤ (n * a + κ) * (2 * C₁ * μ + μ) + μ := by
      have : E ≤ 2 * C₁ * μ + μ := by linarith
      gcongr
    have := lin_errors ha hκ tr.near tr.state tr.obs f2 (by linarith) (by linarith) tr.dist tr.err (by linarith) (by linarith)
    rw [← hD', ← e3] at this
    rw [hw', hv']
    simp only [ht]
    exact this
  obtain ⟨es, hes⟩ : ∃ es, es = (ls.drop (k + 1)).mapIdx fun i s => ({ s with c := -w' i, z := v' i } : LinStep n m) := ⟨_, rfl⟩
  rw [← hes] at hef
  have hmod : es.map LinStep.model = (ls.drop (k + 1)).map LinStep.model := by
    apply List.ext_getElem?
    intro i
    rw [hes]
    simp only [List.getElem?_map, List.getElem?_mapIdx, Option.map_map]
    rfl
  have hes' : ∀ t ∈ es, ∃ (i : ℕ) (t' : LinStep n m), (ls.drop (k + 1))[i]? = some t' ∧ t = { t' with c := -w' i, z := v' i } := fun t ht => by
    obtain ⟨i, hi⟩ := List.mem_iff_getElem?.1 ht
    rw [hes, List.getElem?_mapIdx] at hi
    obtain ⟨t', h3, h4⟩ := Option.map_eq_some_iff.1 hi
    exact ⟨i, t', h3, h4.symm⟩
  have hnoise : ∀ t ∈ ls, t.Q.PosDef ∧ t.R.PosDef := fun t ht =>
    ⟨posDef_of_lower hq (htame t ht).2, posDef_of_lower hr (htame t ht).1.R0⟩
  have hb₁P : b₁.P.PosDef := ((hfil (k + 1) b₁ hget).1).1
  have hset₁ : Settled a r C₂ ρ₂ g p b₁.P (ls.drop (k + 1)) := by
    rw [hb₁, lastOf_covRun]
    exact Settled.drop (u := ls.take (k + 1)) (by rw [List.take_append_drop]; exact hsetl)
  have hrts : RtsSolvable ⟨b₁.x - x (k + 1), b₁.P⟩ es := rtsSolvable_congr (ls.drop (k + 1)) es b₁ _ hmod.symm rfl
    (rtsSolvable_noise b₁ _ hb₁P.posSemidef fun t ht => hnoise t (List.mem_of_mem_drop ht))
  have hfin := (hfront ⟨b₁.x - x (k + 1), b₁.P⟩ es (hset₁.congr hmod.symm) hrts D' hD'0 fun t ht => by
    obtain ⟨i, t', h3, rfl⟩ := hes' t ht
    obtain ⟨g1, g2⟩ := hbound i t' h3
    exact ⟨g2, by rw [norm_neg]; exact g1⟩).2
  rw [hef] at hfin
  have hfin' : ‖(front b₁ (ls.drop (k + 1))).x - x (k + 1)‖ ≤ K * (‖b₁.x - x (k + 1)‖ + D') := hfin
  rw [norm_sub_rev, norm_sub_rev b₁.x] at hfin'
  refine hfin'.trans ?_
  have z1 : K * (‖x (k + 1) - b₁.x‖ + D') ≤ K * (E + D') := by gcongr
  refine z1.trans ?_
  have z2 : E + D' = (1 + κ + κ * (n * a + κ)) * E + (1 + κ) * D := by rw [hD']; ring
  rw [z2, ← hL, hE, hCe]
  have z3 : 0 ≤ ρ ^ (k + 1) * r₀ := by positivity
  have z4 : 0 ≤ K * C₁ := by positivity
  have z5 : 0 ≤ K * (1 + κ) := by positivity
  have z6 : 0 ≤ (K * C₁ + K * (1 + κ) + 1) * (ρ ^ (k + 1) * r₀) := by positivity
  have z7 : 0 ≤ (K * C₁ + 1) * D := by positivity
  have e : (K * (C₁ + L * C₁ + (1 + κ)) + 1) * ρ ^ (k + 1) * r₀ + (K * (C₁ + L * C₁ + (1 + κ)) + 1) * D -
      K * (L * (C₁ * ρ ^ (k + 1) * r₀ + C₁ * D) + (1 + κ) * D) =
      (K * C₁ + K * (1 + κ) + 1) * (ρ ^ (k + 1) * r₀) + (K * C₁ + 1) * D := by ring
  linarith

end KK
