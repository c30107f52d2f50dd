import Verif.Proofs.ExtSmoothObserver
import Verif.Props.ExtObserver
import Verif.Props.ExtObservable

/-!
# C127: the extended smoother follows a nonlinear system
-/

set_option linter.unusedSectionVars false

namespace KK

open Matrix

variable {n m : ℕ}

theorem extSmoothSolvable_noise {b : Belief n} {ss : List (ExtStep n m)} (hb : b.P.PosSemidef) (h : ∀ s ∈ ss, s.Q.PosDef ∧ s.R.PosDef) :
    ExtSmoothSolvable b ss := by
  rw [extSmoothSolvable_iff]
  refine smoothSolvable_noise b _ hb fun t ht => ?_
  obtain ⟨j, hj⟩ := List.mem_iff_getElem?.1 ht
  obtain ⟨s, b', e1, -, rfl⟩ := linRun_get b ss j t hj
  exact h s (List.mem_of_getElem? e1)

variable [Platform]

/-- C127: noise covariances `q ≤ Q ≤ a`, `r ≤ R ≤ a`, an initial covariance between `q` and `p`, and bounds `a`, `κ`, `d` on the model
near the true states, one row of `Q` and `R` per observation.  `smooth` does not raise, and there are `ε`, `C` and `ρ < 1`, depending
only on these bounds, such that whatever the true states `x 0, x 1, ...` of the system, with the disturbances `w` of the transitions and the
errors `v` of the measurements - no statistics assumed - are: if disturbances and errors are at most `D ≤ ε`, the initial
estimate is off by at most `r₀ ≤ ε`, and the covariances that `filter` returns are at most `p`, then the smoothed estimate of
time `k` is off by at most `C ρ^(k+1) r₀ + C D`, however long the run. -/
theorem C127_smoother_observer (q r a p κ d : ℝ) (hq : 0 < q) (hr : 0 < r) (ha : 0 ≤ a) (hp : 0 < p) (hκ : 0 ≤ κ) (hd : 0 < d) :
    ∃ ε C ρ : ℝ, 0 < ε ∧ 0 < ρ ∧ ρ < 1 ∧
      ∀ (kf : ExtendedKalmanFilter Fl) (Z : NDArray Fl) (U : Option (NDArray Fl)) (b : Belief n) (ss : List (ExtStep n m)),
        ExtRepresents kf Z U b ss → ss.length = Z.rows.length → ss ≠ [] → Between q p b.P →
        (∀ s ∈ ss, Between q a s.Q ∧ Between r a s.R) →
        ∃ (bs qs : List (Belief n)) (Ks : List (Matrix (Fin n) (Fin m) ℝ)), ExtFilterReturns kf Z U bs Ks ∧
          ExtSmoothReturns kf Z U qs Ks ∧ qs.length = ss.length ∧
          ∀ (x w : ℕ → Fin n → ℝ) (v : ℕ → Fin m → ℝ) (r₀ D : ℝ), 0 ≤ D → D ≤ ε → 0 ≤ r₀ → r₀ ≤ ε →
            (∀ (k : ℕ) (s : ExtStep n m), ss[k]? = some s →
              x (k + 1) = s.f (x k) + w k ∧ s.z = s.h (x (k + 1)) + v k ∧ (∀ i, |w k i| ≤ D) ∧ (∀ i, |v k i| ≤ D) ∧
              NearLinear a κ d s (x k) (x (k + 1))) →
            (∀ i, |b.x i - x 0 i| ≤ r₀) →
            (∀ b' ∈ bs, (p • (1 : Matrix (Fin n) (Fin n) ℝ) - b'.P).PosSemidef) →
            ∀ (k : ℕ) (q' : Belief n), qs[k]? = some q' → ∀ i, |q'.x i - x (k + 1) i| ≤ C * ρ ^ (k + 1) * r₀ + C * D := by
  obtain ⟨ε, C, ρ, hε, hC, hρ, hρ1, key⟩ := smooth_observer n m hq hr ha hp hκ hd
  refine ⟨ε, C, ρ, hε, hρ, hρ1, fun kf Z U b ss hrep hfull hne hb hQR => ?_⟩
  have hbP := (posDef_of_lower hq hb.1).posSemidef
  have hn : ∀ s ∈ ss, s.Q.PosDef ∧ s.R.PosDef := fun s h => ⟨posDef_of_lower hq (hQR s h).1.1, posDef_of_lower hr (hQR s h).2.1⟩
  have hs := extSolvable_psd hbP (fun s h => (hn s h).1.posSemidef) (fun s h => (hn s h).2)
  refine ⟨_, _, _, hrep.returns hs, hrep.smoothReturns hfull hne hs (extSmoothSolvable_noise hbP hn), extSmoothed_length b ss,
    fun x w v r₀ D hD hDε hr₀ hr₀ε hdat h0 hcov k b' hb' => ?_⟩
  have hfin := key ss b x w v r₀ D (fun j s hj => by
    obtain ⟨h1, h2, h3, h4, h5⟩ := hdat j s hj
    have hm := hQR s (List.mem_of_getElem? hj)
    exact ⟨h5, h1, h2, (abs_le_iff_norm hD).1 h3, (abs_le_iff_norm hD).1 h4, hm.1.1, hm.2.1⟩)
    (fun s h => ⟨(hQR s h).1.2, (hQR s h).2.2⟩) hD hDε hb
    ((abs_le_iff_norm hr₀).1 fun i => by rw [Pi.sub_apply, abs_sub_comm]; exact h0 i) hr₀ε
    (fun j _ s b'' h1 h2 => hcov _ (List.mem_of_getElem? (extFiltered_succ b ss j s b'' h1 h2))) k b' hb'
  have := (abs_le_iff_norm ((norm_nonneg _).trans hfin)).2 hfin
  intro i
  have h := this i
  rwa [Pi.sub_apply, abs_sub_comm] at h

/-- C127 (observable along the true trajectory): nothing need be assumed about the covariances if the model linearised at the true
states is observable over every stretch of `N` steps, with margin `γ`, and the Jacobians handed in change at most linearly (`l`) with
the distance from the true states. -/
theorem C127_observable (N : ℕ) (q r a p κ d l γ : ℝ) (hN : 0 < N) (hq : 0 < q) (hr : 0 < r) (ha : 0 ≤ a) (hp : 0 < p) (hκ : 0 ≤ κ)
    (hd : 0 < d) (hl : 0 ≤ l) (hγ : 0 < γ) :
    ∃ ε C ρ : ℝ, 0 < ε ∧ 0 < ρ ∧ ρ < 1 ∧
      ∀ (kf : ExtendedKalmanFilter Fl) (Z : NDArray Fl) (U : Option (NDArray Fl)) (b : Belief n) (ss : List (ExtStep n m)),
        ExtRepresents kf Z U b ss → ss.length = Z.rows.length → ss ≠ [] → Between q p b.P →
        (∀ s ∈ ss, Between q a s.Q ∧ Between r a s.R) →
        ∃ (qs : List (Belief n)) (Ks : List (Matrix (Fin n) (Fin m) ℝ)), ExtSmoothReturns kf Z U qs Ks ∧ qs.length = ss.length ∧
          ∀ (x w : ℕ → Fin n → ℝ) (v : ℕ → Fin m → ℝ) (r₀ D : ℝ), 0 ≤ D → D ≤ ε → 0 ≤ r₀ → r₀ ≤ ε →
            (∀ (k : ℕ) (s : ExtStep n m), ss[k]? = some s →
              x (k + 1) = s.f (x k) + w k ∧ s.z = s.h (x (k + 1)) + v k ∧ (∀ i, |w k i| ≤ D) ∧ (∀ i, |v k i| ≤ D) ∧
              NearLinear a κ d s (x k) (x (k + 1)) ∧ NearSmooth l d s (x k) (x (k + 1))) →
            (∀ w', w' <:+: alongTruth ss x → w'.length = N → (obsGram w' - γ • (1 : Matrix (Fin n) (Fin n) ℝ)).PosSemidef) →
            (∀ i, |b.x i - x 0 i| ≤ r₀) →
            ∀ (k : ℕ) (q' : Belief n), qs[k]? = some q' → ∀ i, |q'.x i - x (k + 1) i| ≤ C * ρ ^ (k + 1) * r₀ + C * D := by
  obtain ⟨p', d', hpp, hd0, hdd, hcov⟩ := ext_cov_upper n m N (κ := κ) hN hq hr ha hp.le hd hl hγ
  obtain ⟨ε, C, ρ, hε, hC, hρ, hρ1, key⟩ := smooth_observer n m hq hr ha (hp.trans_le hpp) hκ hd0
  refine ⟨ε, C, ρ, hε, hρ, hρ1, fun kf Z U b ss hrep hfull hne hb hQR => ?_⟩
  have hbP := (posDef_of_lower hq hb.1).posSemidef
  have hn : ∀ s ∈ ss, s.Q.PosDef ∧ s.R.PosDef := fun s h => ⟨posDef_of_lower hq (hQR s h).1.1, posDef_of_lower hr (hQR s h).2.1⟩
  have hs := extSolvable_psd hbP (fun s h => (hn s h).1.posSemidef) (fun s h => (hn s h).2)
  refine ⟨_, _, hrep.smoothReturns hfull hne hs (extSmoothSolvable_noise hbP hn), extSmoothed_length b ss,
    fun x w v r₀ D hD hDε hr₀ hr₀ε hdat hobs h0 k b' hb' => ?_⟩
  have hfin := key ss b x w v r₀ D (fun j s hj => by
    obtain ⟨h1, h2, h3, h4, h5, -⟩ := hdat j s hj
    have hm := hQR s (List.mem_of_getElem? hj)
    exact ⟨h5.mono hdd, h1, h2, (abs_le_iff_norm hD).1 h3, (abs_le_iff_norm hD).1 h4, hm.1.1, hm.2.1⟩)
    (fun s h => ⟨(hQR s h).1.2, (hQR s h).2.2⟩) hD hDε ⟨hb.1, upper_mono hpp hb.2⟩
    ((abs_le_iff_norm hr₀).1 fun i => by rw [Pi.sub_apply, abs_sub_comm]; exact h0 i) hr₀ε
    (fun j hn s b'' h1 h2 => hcov ss b x ⟨by simpa using hbP, hb.2⟩ hQR
      (fun k s hs => ⟨(hdat k s hs).2.2.2.2.1, (hdat k s hs).2.2.2.2.2⟩) hobs j hn s b'' h1 h2) k b' hb'
  have := (abs_le_iff_norm ((norm_nonneg _).trans hfin)).2 hfin
  intro i
  have h := this i
  rwa [Pi.sub_apply, abs_sub_comm] at h

/-- C127 (pendulum_smoothing.py): for every time step, gravity, noise scale, variance and initial covariance there are `ε`, `C` and
`ρ < 1` such that for any initial estimate and any positive number of measurements `smooth` returns estimates that follow the true
angle and angular velocity of the pendulum - with disturbances and measurement errors at most `D ≤ ε`, an initial error at most
`r₀ ≤ ε`, and as long as the pendulum is not nearly horizontal, `|cos| ≥ c₀` - up to `C ρ^(k+1) r₀ + C D`. -/
theorem C127_pendulum (dt g c p rk c₀ : ℝ) (hdt : 0 < dt) (hc : 0 < c) (hp : 0 < p) (hr : 0 < rk) (hc₀ : 0 < c₀) :
    ∃ ε C ρ : ℝ, 0 < ε ∧ 0 < ρ ∧ ρ < 1 ∧ ∀ (a0 a1 : ℝ) (dtype : DType) (zs : List ℝ), zs ≠ [] →
      ∃ kf, Examples.pendulum dt g c p rk a0 a1 zs.length = .ok kf ∧
        ∃ (qs : List (Belief 2)) (Ks : List (Matrix (Fin 2) (Fin 1) ℝ)),
          ExtSmoothReturns kf (Examples.data dtype zs) none qs Ks ∧ qs.length = zs.length ∧
          ∀ (θ ω w₁ w₂ v : ℕ → ℝ) (r₀ D : ℝ), 0 ≤ D → D ≤ ε → 0 ≤ r₀ → r₀ ≤ ε →
            (∀ (k : ℕ) (z : ℝ), zs[k]? = some z → θ (k + 1) = θ k + dt * ω k + w₁ k ∧
              ω (k + 1) = ω k - g * dt * Real.sin (θ k) + w₂ k ∧ z = Real.sin (θ (k + 1)) + v k ∧
              |w₁ k| ≤ D ∧ |w₂ k| ≤ D ∧ |v k| ≤ D ∧ c₀ ≤ |Real.cos (θ (k + 1))|) →
            |a0 - θ 0| ≤ r₀ → |a1 - ω 0| ≤ r₀ →
            ∀ (k : ℕ) (b' : Belief 2), qs[k]? = some b' →
              |b'.x 0 - θ (k + 1)| ≤ C * ρ ^ (k + 1) * r₀ + C * D ∧ |b'.x 1 - ω (k + 1)| ≤ C * ρ ^ (k + 1) * r₀ + C * D := by
  obtain ⟨q₁, hq₁, hQ⟩ := exists_lower (Examples.pendQ_posDef hdt hc g rk 0)
  obtain ⟨q₂, hq₂, hQ₂⟩ := exists_upper (Examples.pendQ_posDef hdt hc g rk 0).posSemidef
  obtain ⟨r, hr', hR⟩ := exists_lower (posDef_one hr)
  obtain ⟨r₂, hr₂, hR₂⟩ := exists_upper (posDef_one hr).posSemidef
  obtain ⟨q, hqe⟩ : ∃ q, q = min q₁ p := ⟨_, rfl⟩
  have hq : 0 < q := hqe ▸ lt_min hq₁ hp
  have hQq := lower_mono (hqe ▸ min_le_left q₁ p) hQ
  obtain ⟨p', hpp, hcov⟩ := Examples.pend_cov_upper dt g c rk p c₀ hdt hc hr hp hc₀
  have hgd : 0 ≤ |g| * dt := by positivity
  obtain ⟨a, hae⟩ : ∃ a, a = 1 + dt + |g| * dt + q₂ + r₂ := ⟨_, rfl⟩
  obtain ⟨ε, C, ρ, hε, hC, hρ, hρ1, key⟩ := smooth_observer 2 1 (a := a) (κ := 3 * (1 + |g| * dt)) (d := c₀ / 2)
    hq hr' (by rw [hae]; positivity) (hp.trans_le hpp) (by positivity) (by positivity)
  refine ⟨ε, C, ρ, hε, hρ, hρ1, fun a0 a1 dtype zs hne => ?_⟩
  obtain ⟨kf, hk, hrep⟩ := Examples.pendulum_represents dt g c p rk a0 a1 dtype zs
  have hbP : (Examples.pendBelief p a0 a1).P = p • (1 : Matrix (Fin 2) (Fin 2) ℝ) := by
    ext i j; fin_cases i <;> fin_cases j <;> simp [Examples.pendBelief]
  have hup : (p • (1 : Matrix (Fin 2) (Fin 2) ℝ) - (Examples.pendBelief p a0 a1).P).PosSemidef := by
    rw [hbP, sub_self]; exact Matrix.PosSemidef.zero
  have hpsd := (Examples.pendBelief_posDef hp a0 a1).posSemidef
  have hn : ∀ s ∈ zs.map (Examples.pendStep dt g c rk), s.Q.PosDef ∧ s.R.PosDef := fun s h => by
    obtain ⟨z, -, rfl⟩ := List.mem_map.1 h
    exact ⟨Examples.pendQ_posDef hdt hc g rk z, posDef_one hr⟩
  have hs := extSolvable_psd (b := Examples.pendBelief p a0 a1) (ss := zs.map (Examples.pendStep dt g c rk))
    hpsd (fun s h => (hn s h).1.posSemidef) (fun s h => (hn s h).2)
  refine ⟨kf, hk, _, _, hrep.smoothReturns (by simp [Examples.data, NDArray.rows]) (by simpa using hne) hs (extSmoothSolvable_noise hpsd hn),
    by rw [extSmoothed_length, List.length_map],
    fun θ ω w₁ w₂ v r₀ D hD hDε hr₀ hr₀ε hdat h0 h1 k b' hb' => ?_⟩
  have hfin := key _ (Examples.pendBelief p a0 a1) (fun k => ![θ k, ω k]) (fun k => ![w₁ k, w₂ k]) (fun k => fun _ => v k) r₀ D
    (fun j s hj => by
      rw [List.getElem?_map] at hj
      obtain ⟨z, hz, rfl⟩ := Option.map_eq_some_iff.1 hj
      obtain ⟨e1, e2, e3, e4, e5, e6, -⟩ := hdat j z hz
      refine ⟨?_, ?_, ?_, (abs_le_iff_norm hD).1 ?_, (abs_le_iff_norm hD).1 fun _ => e6, hQq, hR⟩
      · have := Examples.pend_nearLinear dt g c rk z (c₀ / 2) hdt ![θ j, ω j] ![θ (j + 1), ω (j + 1)]
        refine ⟨fun y hy i j => (this.jA y hy i j).trans ?_, fun y hy i j => (this.jH y hy i j).trans ?_, this.f, this.h⟩ <;>
          (rw [hae]; linarith)
      · funext i; fin_cases i
        · simpa [Examples.pendStep] using e1
        · simpa [Examples.pendStep] using e2
      · funext i; simpa [Examples.pendStep] using e3
      · intro i; fin_cases i
        · exact e4
        · exact e5)
    (fun s h => by
      obtain ⟨z, -, rfl⟩ := List.mem_map.1 h
      exact ⟨upper_mono (by rw [hae]; linarith) hQ₂, upper_mono (by rw [hae]; linarith) hR₂⟩) hD hDε
    ⟨by
      rw [hbP]
      have := psd_smul (Matrix.PosDef.one (n := Fin 2) (R := ℝ)).posSemidef (sub_nonneg.2 (hqe ▸ min_le_right q₁ p : q ≤ p))
      rwa [sub_smul] at this, upper_mono hpp hup⟩
    ((abs_le_iff_norm hr₀).1 fun i => by
      rw [Pi.sub_apply, abs_sub_comm]
      fin_cases i
      · exact h0
      · exact h1) hr₀ε
    (fun j hn s b'' e1 e2 => hcov _ zs _ hup (fun i hi => by
      exact (hdat i _ (List.getElem?_eq_getElem hi)).2.2.2.2.2.2) j hn s b'' e1 e2) k b' hb'
  have := (abs_le_iff_norm ((norm_nonneg _).trans hfin)).2 hfin
  have f0 := this 0
  have f1 := this 1
  rw [Pi.sub_apply, abs_sub_comm] at f0 f1
  exact ⟨f0, f1⟩

/-! ### The hypotheses are met -/

/-- A pendulum at rest (`θ = ω = 0`), measured exactly, starting off the truth: all hypotheses of `C127_pendulum` on the data hold for
any number of measurements, and the smoothed estimates converge. -/
example (N : ℕ) (hN : N ≠ 0) : ∃ ε C ρ : ℝ, 0 < ε ∧ 0 < ρ ∧ ρ < 1 ∧ ∃ kf, Examples.pendulum 0.01 9.81 0.01 1 0.1 ε (-ε) N = .ok kf ∧
    ∃ (qs : List (Belief 2)) (Ks : List (Matrix (Fin 2) (Fin 1) ℝ)),
      ExtSmoothReturns kf (Examples.data .float64 (List.replicate N 0)) none qs Ks ∧ qs.length = N ∧
      ∀ k b', qs[k]? = some b' → |b'.x 0| ≤ C * ρ ^ (k + 1) * ε ∧ |b'.x 1| ≤ C * ρ ^ (k + 1) * ε := by
  obtain ⟨ε, C, ρ, hε, h0, h1, key⟩ := C127_pendulum 0.01 9.81 0.01 1 0.1 1 (by norm_num) (by norm_num) (by norm_num) (by norm_num)
    (by norm_num)
  obtain ⟨kf, hk, bs, Ks, hret, hlen, hb⟩ := key ε (-ε) .float64 (List.replicate N 0) (by simpa using hN)
  rw [List.length_replicate] at hk hlen
  refine ⟨ε, C, ρ, hε, h0, h1, kf, hk, bs, Ks, hret, hlen, fun k b' hb' => ?_⟩
  have := hb 0 0 0 0 0 ε 0 le_rfl hε.le hε.le le_rfl (fun k z hz => by
    obtain rfl := List.eq_of_mem_replicate (List.mem_of_getElem? hz)
    simp) (by simp [abs_of_pos hε]) (by simp [abs_of_pos hε]) k b' hb'
  simpa using this

theorem Ex.wavy_smooth (z d : ℝ) (x x' : Fin 1 → ℝ) : NearSmooth 1 d (Ex.wavy z) x x' := by
  have hc : ∀ x y : Fin 1 → ℝ, |Real.cos (x 0) - Real.cos (y 0)| ≤ ‖x - y‖ := fun x y => by
    have h3 := norm_le_pi_norm (x - y) 0
    rw [Real.norm_eq_abs, Pi.sub_apply] at h3
    exact (Real.abs_cos_sub_cos_le _ _).trans h3
  refine ⟨fun y _ i j => ?_, fun y _ i j => ?_⟩
  · fin_cases i; fin_cases j
    show |1 + Real.cos (x 0) / 10 - (1 + Real.cos (y 0) / 10)| ≤ _
    have e : 1 + Real.cos (x 0) / 10 - (1 + Real.cos (y 0) / 10) = (Real.cos (x 0) - Real.cos (y 0)) / 10 := by ring
    rw [e, abs_div, abs_of_pos (by norm_num : (0 : ℝ) < 10)]
    have := hc x y
    have := abs_nonneg (Real.cos (x 0) - Real.cos (y 0))
    linarith
  · fin_cases i; fin_cases j
    show |2 + Real.cos (x' 0) - (2 + Real.cos (y 0))| ≤ _
    have e : 2 + Real.cos (x' 0) - (2 + Real.cos (y 0)) = Real.cos (x' 0) - Real.cos (y 0) := by ring
    rw [e, one_mul]
    exact hc x' y

theorem Ex.one_between {c : ℝ} (h : 1 ≤ c) : Between 1 c (1 : Matrix (Fin 1) (Fin 1) ℝ) := by
  refine ⟨by rw [one_smul, sub_self]; exact Matrix.PosSemidef.zero, ?_⟩
  have := psd_smul (Matrix.PosDef.one (n := Fin 1) (R := ℝ)).posSemidef (sub_nonneg.2 h)
  rwa [sub_smul, one_smul] at this

/-- The scalar system `Ex.wavy` (`x ↦ x + sin x / 10`, measured through `2 x + sin x`) is observable along every trajectory: the smoothed
estimates follow the truth. -/
example : ∃ ε C ρ : ℝ, 0 < ε ∧ 0 < ρ ∧ ρ < 1 ∧ ∀ (zs : List ℝ) (b : Belief 1), zs ≠ [] → b.P = 1 →
    ∃ (kf : ExtendedKalmanFilter Fl) (Z : NDArray Fl) (U : Option (NDArray Fl)) (qs : List (Belief 1)) (Ks : List (Matrix (Fin 1) (Fin 1) ℝ)),
      ExtRepresents kf Z U b (zs.map Ex.wavy) ∧ ExtSmoothReturns kf Z U qs Ks ∧ qs.length = zs.length ∧
      ∀ (x v : ℕ → ℝ) (r₀ D : ℝ), 0 ≤ D → D ≤ ε → 0 ≤ r₀ → r₀ ≤ ε →
        (∀ (k : ℕ) (z : ℝ), zs[k]? = some z → x (k + 1) = x k + Real.sin (x k) / 10 ∧
          z = 2 * x (k + 1) + Real.sin (x (k + 1)) + v k ∧ |v k| ≤ D) →
        |b.x 0 - x 0| ≤ r₀ → ∀ (k : ℕ) (q' : Belief 1), qs[k]? = some q' →
          |q'.x 0 - x (k + 1)| ≤ C * ρ ^ (k + 1) * r₀ + C * D := by
  obtain ⟨ε, C, ρ, hε, h0, h1, key⟩ := C127_observable (n := 1) (m := 1) 1 1 1 3 1 3 1 1 1 one_pos one_pos one_pos (by norm_num) one_pos
    (by norm_num) one_pos zero_le_one one_pos
  refine ⟨ε, C, ρ, hε, h0, h1, fun zs b hne hb => ?_⟩
  have hrep := Ex.extEncode_represents (Ex.wavy 0).f (Ex.wavy 0).jA (Ex.wavy 0).h (Ex.wavy 0).jH b (zs.map Ex.wavy) fun s hs => by
    obtain ⟨z, -, rfl⟩ := List.mem_map.1 hs
    exact ⟨rfl, rfl, rfl, rfl⟩
  obtain ⟨qs, Ks, hret, hlen, hall⟩ := key _ _ _ b _ hrep (Ex.extEncZ_length _).symm (by simpa using hne)
    (by rw [hb]; exact Ex.one_between le_rfl) fun s hs => by
      obtain ⟨z, -, rfl⟩ := List.mem_map.1 hs
      exact ⟨Ex.one_between (by norm_num), Ex.one_between (by norm_num)⟩
  refine ⟨_, _, _, qs, Ks, hrep, hret, by rw [hlen, List.length_map], fun x v r₀ D hD hDε hr hrε hdat hb0 k b' hb' => ?_⟩
  refine hall (fun k => fun _ => x k) (fun _ => 0) (fun k => fun _ => v k) r₀ D hD hDε hr hrε (fun k s hs => ?_) (fun w hw hl => ?_)
    (fun i => ?_) k b' hb' 0
  · rw [List.getElem?_map] at hs
    obtain ⟨z, hz, rfl⟩ := Option.map_eq_some_iff.1 hs
    obtain ⟨e1, e2, e3⟩ := hdat k z hz
    refine ⟨?_, ?_, fun _ => by simpa using hD, fun _ => e3, Ex.wavy_near z _ _ _, Ex.wavy_smooth z _ _ _⟩
    · funext i; simpa [Ex.wavy] using e1
    · funext i; simpa [Ex.wavy] using e2
  · obtain ⟨t, rfl⟩ := List.length_eq_one_iff.1 hl
    obtain ⟨i, hi, e⟩ := List.mem_mapIdx.1 (hw.subset (List.mem_singleton_self t))
    have hH : t.H = !![2 + Real.cos (x (i + 1))] := by
      rw [← e]; simp only [List.getElem_map]; rfl
    rw [obsGram, hH]
    have hy := Real.neg_one_le_cos (x (i + 1))
    have e2 : (!![2 + Real.cos (x (i + 1))]ᵀ * !![2 + Real.cos (x (i + 1))] - (1 : ℝ) • (1 : Matrix (Fin 1) (Fin 1) ℝ)) =
        ((2 + Real.cos (x (i + 1))) ^ 2 - 1) • (1 : Matrix (Fin 1) (Fin 1) ℝ) := by
      ext i j; fin_cases i; fin_cases j; simp [Matrix.mul_apply]; ring
    rw [e2]
    exact psd_smul Matrix.PosDef.one.posSemidef (by nlinarith)
  · fin_cases i; exact hb0

/-- The covariances that `filter` returns for `Ex.wavy` are at most one, so C127_smoother_observer applies too. -/
example (zs : List ℝ) (b : Belief 1) (hb : b.P = 1) :
    ∀ b' ∈ extFiltered b (zs.map Ex.wavy), ((1 : ℝ) • (1 : Matrix (Fin 1) (Fin 1) ℝ) - b'.P).PosSemidef := by
  have step : ∀ (z : ℝ) (b : Belief 1), b.P.PosSemidef → ((Ex.wavy z).next b).P.PosSemidef ∧
      ((1 : ℝ) • (1 : Matrix (Fin 1) (Fin 1) ℝ) - ((Ex.wavy z).next b).P).PosSemidef := fun z b hP => by
    have hone : (1 : Matrix (Fin 1) (Fin 1) ℝ).PosDef := Matrix.PosDef.one
    refine ⟨?_, ?_⟩
    · rw [← ExtStep.lin_next]
      exact covNext_psd (s := (Ex.wavy z).lin b) ⟨hone.posSemidef, hone⟩ hP
    · have hy := Real.neg_one_le_cos ((Ex.wavy z).f b.x 0)
      have hpos : 0 < 2 + Real.cos ((Ex.wavy z).f b.x 0) := by linarith
      have hL : !![1 / (2 + Real.cos ((Ex.wavy z).f b.x 0))] * (Ex.wavy z).jH ((Ex.wavy z).f b.x) = (1 : Matrix (Fin 1) (Fin 1) ℝ) := by
        ext i j; fin_cases i; fin_cases j
        show (!![1 / (2 + Real.cos ((Ex.wavy z).f b.x 0))] * !![2 + Real.cos ((Ex.wavy z).f b.x 0)]) 0 0 = _
        simp [Matrix.mul_apply, hpos.ne']
      have hle := next_cov_le (s := Ex.wavy z) hP hone.posSemidef hone !![1 / (2 + Real.cos ((Ex.wavy z).f b.x 0))]
      rw [josephCov, hL, sub_self, Matrix.zero_mul, Matrix.zero_mul, Matrix.zero_mul, Matrix.zero_mul, Matrix.zero_mul,
        zero_add, zero_add] at hle
      refine psd_trans hle (upper_mono (by norm_num : (1 * ((1 : ℕ) * (1 * (1 : ℕ)) ^ 2) : ℝ) ≤ 1) (le_conj zero_le_one ?_ zero_le_one fun i j => ?_))
      · exact (Ex.one_between le_rfl).2
      · fin_cases i; fin_cases j
        show |1 / (2 + Real.cos ((Ex.wavy z).f b.x 0))| ≤ 1
        rw [abs_of_pos (by positivity), div_le_one hpos]
        linarith
  have hP : b.P.PosSemidef := by rw [hb]; exact Matrix.PosDef.one.posSemidef
  clear hb
  induction zs generalizing b with
  | nil => simp [extFiltered]
  | cons z zs ih =>
    intro b' hb'
    rw [List.map_cons, extFiltered, List.mem_cons] at hb'
    rcases hb' with rfl | hb'
    · exact (step z b hP).2
    · exact ih _ (step z b hP).1 b' hb'

end KK
