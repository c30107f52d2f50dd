import Verif.Proofs.ExtWindow
import Verif.Props.TimeVarying

/-!
# C117 continued: observability along the true trajectory
-/

set_option linter.unusedSectionVars false

namespace KK

open Matrix

variable {n m : ℕ}

theorem NearLinear.mono {a κ d d' : ℝ} {s : ExtStep n m} {x x' : Fin n → ℝ} (h : NearLinear a κ d s x x') (hd : d' ≤ d) :
    NearLinear a κ d' s x x' :=
  ⟨fun y hy => h.jA y (hy.trans hd), fun y hy => h.jH y (hy.trans hd), fun y hy => h.f y (hy.trans hd), fun y hy => h.h y (hy.trans hd)⟩

variable [Platform]

/-- C117 (observable along the true trajectory): nothing need be assumed about the covariances that `filter` returns, nor need the
state be visible in one measurement, if the model linearised at the true states is observable over every stretch of `N` steps,
with margin `γ`, and the Jacobians handed in change at most linearly (`l`) with the distance from the true states.  The
constants depend on the bounds and dimensions only. -/
theorem C117_observable (N : ℕ) (q r a p κ d l γ : ℝ) (hN : 0 < N) (hq : 0 < q) (hr : 0 < r) (ha : 0 ≤ a) (hp : 0 < p) (hκ : 0 ≤ κ)
    (hd : 0 < d) (hl : 0 ≤ l) (hγ : 0 < γ) :
    ∃ ε C ρ : ℝ, 0 < ε ∧ 0 < ρ ∧ ρ < 1 ∧
      ∀ (kf : ExtendedKalmanFilter Fl) (Z : NDArray Fl) (U : Option (NDArray Fl)) (b : Belief n) (ss : List (ExtStep n m)),
        ExtRepresents kf Z U b ss → Between q p b.P → (∀ s ∈ ss, Between q a s.Q ∧ Between r a s.R) →
        ∃ (bs : List (Belief n)) (Ks : List (Matrix (Fin n) (Fin m) ℝ)), ExtFilterReturns kf Z U bs Ks ∧ bs.length = ss.length ∧
          ∀ (x w : ℕ → Fin n → ℝ) (v : ℕ → Fin m → ℝ) (r₀ D : ℝ), 0 ≤ D → D ≤ ε → 0 ≤ r₀ → r₀ ≤ ε →
            (∀ (k : ℕ) (s : ExtStep n m), ss[k]? = some s →
              x (k + 1) = s.f (x k) + w k ∧ s.z = s.h (x (k + 1)) + v k ∧ (∀ i, |w k i| ≤ D) ∧ (∀ i, |v k i| ≤ D) ∧
              NearLinear a κ d s (x k) (x (k + 1)) ∧ NearSmooth l d s (x k) (x (k + 1))) →
            (∀ w', w' <:+: alongTruth ss x → w'.length = N → (obsGram w' - γ • (1 : Matrix (Fin n) (Fin n) ℝ)).PosSemidef) →
            (∀ i, |b.x i - x 0 i| ≤ r₀) →
            ∀ (k : ℕ) (b' : Belief n), bs[k]? = some b' → ∀ i, |b'.x i - x (k + 1) i| ≤ C * ρ ^ (k + 1) * r₀ + C * D := by
  obtain ⟨p', d', hpp, hd0, hdd, hcov⟩ := ext_cov_upper n m N (κ := κ) hN hq hr ha hp.le hd hl hγ
  obtain ⟨ε, C, ρ, hε, hC, hρ, hρ1, key⟩ := norm_observer n m hq hr ha (hp.trans_le hpp) hκ hd0
  refine ⟨ε, C, ρ, hε, hρ, hρ1, fun kf Z U b ss hrep hb hQR => ?_⟩
  have hs := extSolvable_psd (posDef_of_lower hq hb.1).posSemidef (fun s h => (posDef_of_lower hq (hQR s h).1.1).posSemidef)
    (fun s h => posDef_of_lower hr (hQR s h).2.1)
  refine ⟨_, _, hrep.returns hs, extFiltered_length b ss, fun x w v r₀ D hD hDε hr₀ hr₀ε hdat hobs h0 k b' hb' => ?_⟩
  have hfin := key ss b x w v r₀ D (fun j s hj => by
    obtain ⟨h1, h2, h3, h4, h5, -⟩ := hdat j s hj
    have hm := hQR s (List.mem_of_getElem? hj)
    exact ⟨h5.mono hdd, h1, h2, (abs_le_iff_norm hD).1 h3, (abs_le_iff_norm hD).1 h4, hm.1.1, hm.2.1⟩) hD hDε
    ⟨hb.1, upper_mono hpp hb.2⟩
    ((abs_le_iff_norm hr₀).1 fun i => by rw [Pi.sub_apply, abs_sub_comm]; exact h0 i) hr₀ε k
    (fun j hj hn s b'' h1 h2 => hcov ss b x ⟨by simpa using (posDef_of_lower hq hb.1).posSemidef, hb.2⟩ hQR
      (fun k s hs => ⟨(hdat k s hs).2.2.2.2.1, (hdat k s hs).2.2.2.2.2⟩) hobs j hn s b'' h1 h2) b' hb'
  have := (abs_le_iff_norm ((norm_nonneg _).trans hfin)).2 hfin
  intro i
  have h := this i
  rwa [Pi.sub_apply, abs_sub_comm] at h

/-! ### The hypotheses are met -/

theorem Examples.pend_nearSmooth (dt g c rk z d : ℝ) (hdt : 0 < dt) (x x' : Fin 2 → ℝ) :
    NearSmooth (1 + |g| * dt) d (Examples.pendStep dt g c rk z) x x' := by
  have hg : 0 ≤ |g| * dt := by positivity
  have hc : ∀ x y : Fin 2 → ℝ, |Real.cos (x 0) - Real.cos (y 0)| ≤ ‖x - y‖ := fun x y => by
    have h3 := norm_le_pi_norm (x - y) 0
    rw [Real.norm_eq_abs, Pi.sub_apply] at h3
    exact (Real.abs_cos_sub_cos_le _ _).trans h3
  refine ⟨fun y _ i j => ?_, fun y _ i j => ?_⟩
  · have h0 : 0 ≤ (1 + |g| * dt) * ‖x - y‖ := by positivity
    have h1 := hc x y
    have h2 : |g| * dt * |Real.cos (x 0) - Real.cos (y 0)| ≤ |g| * dt * ‖x - y‖ := mul_le_mul_of_nonneg_left h1 hg
    fin_cases i <;> fin_cases j
    · simpa [Examples.pendStep] using h0
    · simpa [Examples.pendStep] using h0
    · have e : (Examples.pendStep dt g c rk z).jA x 1 0 - (Examples.pendStep dt g c rk z).jA y 1 0 =
          -(g * dt * (Real.cos (x 0) - Real.cos (y 0))) := by simp [Examples.pendStep]; ring
      show |(Examples.pendStep dt g c rk z).jA x 1 0 - (Examples.pendStep dt g c rk z).jA y 1 0| ≤ _
      rw [e, abs_neg, abs_mul, abs_mul, abs_of_pos hdt]
      have := norm_nonneg (x - y)
      linarith
    · simpa [Examples.pendStep] using h0
  · have h0 : 0 ≤ (1 + |g| * dt) * ‖x' - y‖ := by positivity
    have h1 := hc x' y
    have h2 : 0 ≤ |g| * dt * ‖x' - y‖ := by positivity
    fin_cases i
    fin_cases j
    · have e : (Examples.pendStep dt g c rk z).jH x' 0 0 - (Examples.pendStep dt g c rk z).jH y 0 0 =
          Real.cos (x' 0) - Real.cos (y 0) := by simp [Examples.pendStep]
      show |(Examples.pendStep dt g c rk z).jH x' 0 0 - (Examples.pendStep dt g c rk z).jH y 0 0| ≤ _
      rw [e]
      linarith
    · simpa [Examples.pendStep] using h0

/-- A pendulum at rest, measured through the sine of its angle only (the angular velocity is not visible in one measurement): all
hypotheses of `C117_observable` hold with `N = 2`, so the estimates converge in runs of any length. -/
example (T : ℕ) : ∃ ε C ρ : ℝ, 0 < ε ∧ 0 < ρ ∧ ρ < 1 ∧ ∃ kf, Examples.pendulum 1 9.81 1 1 1 ε (-ε) T = .ok kf ∧
    ∃ (bs : List (Belief 2)) (Ks : List (Matrix (Fin 2) (Fin 1) ℝ)),
      ExtFilterReturns kf (Examples.data .float64 (List.replicate T 0)) none bs Ks ∧ bs.length = T ∧
      ∀ k b', bs[k]? = some b' → ∀ i, |b'.x i| ≤ C * ρ ^ (k + 1) * ε := by
  obtain ⟨q₁, hq₁, hQ⟩ := exists_lower (Examples.pendQ_posDef (dt := 1) (c := 1) one_pos one_pos 9.81 1 0)
  obtain ⟨q₂, hq₂, hQ₂⟩ := exists_upper (Examples.pendQ_posDef (dt := 1) (c := 1) one_pos one_pos 9.81 1 0).posSemidef
  obtain ⟨r, hr', hR⟩ := exists_lower (posDef_one one_pos)
  obtain ⟨r₂, hr₂, hR₂⟩ := exists_upper (posDef_one one_pos).posSemidef
  obtain ⟨q, hqe⟩ : ∃ q, q = min q₁ 1 := ⟨_, rfl⟩
  have hq : 0 < q := hqe ▸ lt_min hq₁ one_pos
  obtain ⟨a, hae⟩ : ∃ a, a = 1 + 1 + |9.81| * 1 + q₂ + r₂ := ⟨_, rfl⟩
  have h9 : (0 : ℝ) ≤ |9.81| * 1 := by positivity
  obtain ⟨ε, C, ρ, hε, h0, h1, key⟩ := C117_observable (n := 2) (m := 1) 2 q r a 1 (3 * (1 + |9.81| * 1)) 1 (1 + |9.81| * 1) (1/4)
    (by norm_num) hq hr' (by rw [hae]; positivity) one_pos (by positivity) one_pos (by positivity) (by norm_num)
  obtain ⟨kf, hk, hrep⟩ := Examples.pendulum_represents 1 9.81 1 1 1 ε (-ε) .float64 (List.replicate T 0)
  rw [List.length_replicate] at hk
  have hbP : (Examples.pendBelief 1 ε (-ε)).P = (1 : Matrix (Fin 2) (Fin 2) ℝ) := by
    ext i j; fin_cases i <;> fin_cases j <;> simp [Examples.pendBelief]
  have hmem : ∀ s ∈ (List.replicate T (0 : ℝ)).map (Examples.pendStep 1 9.81 1 1), s = Examples.pendStep 1 9.81 1 1 0 := fun s hs => by
    obtain ⟨z, hz, rfl⟩ := List.mem_map.1 hs
    rw [List.eq_of_mem_replicate hz]
  obtain ⟨bs, Ks, hret, hlen, hb⟩ := key kf _ _ _ _ hrep
    ⟨by
      rw [hbP]
      have := psd_smul (Matrix.PosDef.one (n := Fin 2) (R := ℝ)).posSemidef (sub_nonneg.2 (hqe ▸ min_le_right q₁ 1 : q ≤ 1))
      rwa [sub_smul, one_smul] at this, by rw [hbP, one_smul, sub_self]; exact Matrix.PosSemidef.zero⟩
    fun s hs => by
      rw [hmem s hs]
      exact ⟨⟨lower_mono (hqe ▸ min_le_left q₁ 1) hQ, upper_mono (by rw [hae]; linarith) hQ₂⟩, ⟨hR, upper_mono (by rw [hae]; linarith) hR₂⟩⟩
  refine ⟨ε, C, ρ, hε, h0, h1, kf, hk, bs, Ks, hret, by simpa using hlen, fun k b' hb' => ?_⟩
  have := hb (fun _ => 0) (fun _ => 0) (fun _ => 0) ε 0 le_rfl hε.le hε.le le_rfl (fun k s hs => by
    rw [hmem s (List.mem_of_getElem? hs)]
    refine ⟨?_, ?_, by simp, by simp, ?_, Examples.pend_nearSmooth 1 9.81 1 1 0 1 one_pos _ _⟩
    · funext i; fin_cases i <;> simp [Examples.pendStep]
    · funext i; simp [Examples.pendStep]
    · have := Examples.pend_nearLinear 1 9.81 1 1 0 1 one_pos 0 0
      refine ⟨fun y hy i j => (this.jA y hy i j).trans ?_, fun y hy i j => (this.jH y hy i j).trans ?_, this.f, this.h⟩ <;>
        (rw [hae]; linarith))
    (fun w hw hl => by
      obtain ⟨s, t, rfl⟩ := List.length_eq_two.1 hl
      have hst : ∀ s ∈ alongTruth ((List.replicate T (0 : ℝ)).map (Examples.pendStep 1 9.81 1 1)) (fun _ => (0 : Fin 2 → ℝ)),
          s.A = !![1, 1; -9.81, 1] ∧ s.H = !![1, 0] := fun s hs => by
        obtain ⟨i, hi, rfl⟩ := List.mem_mapIdx.1 hs
        rw [hmem _ (List.getElem_mem _)]
        constructor
        · ext i j; fin_cases i <;> fin_cases j <;> simp [Examples.pendStep]
        · ext i j; fin_cases i; fin_cases j <;> simp [Examples.pendStep]
      obtain ⟨-, s2⟩ := hst s (hw.subset (by simp))
      obtain ⟨t1, t2⟩ := hst t (hw.subset (by simp))
      have e : obsGram [s, t] - (1/4 : ℝ) • (1 : Matrix (Fin 2) (Fin 2) ℝ) = !![7/4, 1; 1, 3/4] := by
        rw [obsGram, obsGram, s2, t1, t2]
        ext i j
        fin_cases i <;> fin_cases j <;> simp [Matrix.mul_apply, Fin.sum_univ_two] <;> norm_num
      rw [e]
      refine psd_two ?_ ?_ ?_ ?_ <;> simp <;> norm_num) (fun i => by
      fin_cases i <;> simp [Examples.pendBelief, abs_of_pos hε]) k b' hb'
  simpa using this

end KK
