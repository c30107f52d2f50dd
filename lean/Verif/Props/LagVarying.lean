import Verif.Proofs.LagVarying
import Verif.Props.TimeVarying

/-!
# C122-C124: smoothing with a model that changes from step to step
-/

set_option linter.unusedSectionVars false

namespace KK

open Matrix

variable {n m : ℕ}

theorem Margins.rtsSolvable {N : ℕ} {a r γ lo hi : ℝ} (M : Margins n m N a r γ lo hi) {P : Matrix (Fin n) (Fin n) ℝ} (hP : P.PosSemidef)
    (x tt : List (LinStep n m)) (h : UniformModel N a r γ (x ++ tt)) (hx : N ≤ x.length) (y : Fin n → ℝ) :
    RtsSolvable ⟨y, covRun P x⟩ tt := by
  induction tt generalizing x y with
  | nil => trivial
  | cons s tt ih =>
    have hxs : UniformModel N a r γ ((x ++ [s]) ++ tt) := by simpa using h
    have hn := h.noisy M s (by simp)
    have hpsd : (covRun P x).PosSemidef := covRun_psd (fun t ht => h.noisy M t (by simp [ht])) hP
    have hp := priorCov_posSemidef (A := s.A) hpsd hn.1
    have hpd := M.pd (hxs.mono (List.prefix_append _ _).isInfix) (by simp; omega) hP
    rw [covRun_append] at hpd
    have := Matrix.PosDef.posSemidef_add (postCov_le hp hn.2.posSemidef (posDef_det_ne (innovCov_posDef (H := s.H) hp hn.2))) hpd
    refine ⟨?_, ?_⟩
    · show (priorCov s.A (covRun P x) s.Q).det ≠ 0
      have e : priorCov s.A (covRun P x) s.Q - postCov s.H (priorCov s.A (covRun P x) s.Q) s.R + covRun (covRun P x) [s] =
        priorCov s.A (covRun P x) s.Q := sub_add_cancel _ _
      rw [e] at this
      exact posDef_det_ne this
    · have := ih (x ++ [s]) hxs (by simp; omega) (s.next ⟨y, covRun P x⟩).x
      rwa [covRun_append] at this

theorem Margins.smoothSolvable_iff {N : ℕ} {a r γ lo hi : ℝ} (M : Margins n m N a r γ lo hi) {b : Belief n} (hP : b.P.PosSemidef)
    {ss tt : List (LinStep n m)} (h : UniformModel N a r γ (ss ++ tt)) (hx : N ≤ ss.length) (hne : ss ≠ []) :
    SmoothSolvable b (ss ++ tt) ↔ SmoothSolvable b ss := by
  have := M.rtsSolvable hP ss tt h hx (lastOf b ss).x
  rw [← lastOf_covRun] at this
  cases ss with
  | nil => exact absurd rfl hne
  | cons s ss =>
    simp only [List.cons_append, SmoothSolvable]
    rw [rtsSolvable_append]
    exact and_iff_left this

theorem rtsSolvable_congr (l l' : List (LinStep n m)) (b b' : Belief n) (he : l.map LinStep.model = l'.map LinStep.model) (hbb : b.P = b'.P)
    (hr : RtsSolvable b l) : RtsSolvable b' l' := by
  induction l generalizing l' b b' with
  | nil =>
    obtain rfl : l' = [] := by simpa using he.symm
    trivial
  | cons s l ih =>
    rcases l' with _ | ⟨s', l'⟩
    · simp at he
    rw [List.map_cons, List.map_cons, List.cons.injEq] at he
    obtain ⟨e1, e2⟩ := he
    simp only [LinStep.model, Prod.mk.injEq] at e1
    obtain ⟨f1, f2, f3, f4⟩ := e1
    refine ⟨?_, ih l' (s.next b) (s'.next b') e2 ?_ hr.2⟩
    · have := hr.1
      show (priorCov s'.A b'.P s'.Q).det ≠ 0
      rw [← f1, ← f3, ← hbb]; exact this
    · show postCov s.H (priorCov s.A b.P s.Q) s.R = postCov s'.H (priorCov s'.A b'.P s'.Q) s'.R
      rw [f1, f2, f3, f4, hbb]

/-- Data of the steps after the first `k`. -/
theorem tail_data {ss tt : List (LinStep n m)} {D : ℝ} (hD : 0 ≤ D)
    (hdat : DataWithin (ss ++ tt) (ss.length - 1) (ss ++ tt).length D) (hne : ss ≠ []) : ∀ s ∈ tt, ‖s.z‖ ≤ D ∧ ‖s.c‖ ≤ D := by
  intro s hs
  have hl : 0 < ss.length := List.length_pos_iff.2 hne
  obtain ⟨i, hi⟩ := List.mem_iff_getElem?.1 hs
  have hil : i < tt.length := (List.getElem?_eq_some_iff.1 hi).1
  obtain ⟨e1, e2⟩ := hdat (ss.length + i) s (by omega) (by rw [List.length_append]; omega) (by
    rw [List.getElem?_append_right (by omega), Nat.add_sub_cancel_left]; exact hi)
  exact ⟨(abs_le_iff_norm hD).1 e1, (abs_le_iff_norm hD).1 e2⟩

theorem drop_data {ss : List (LinStep n m)} {D : ℝ} (hD : 0 ≤ D) {j k : ℕ} (hjk : j ≤ k) (hdat : DataWithin ss j ss.length D) :
    ∀ s ∈ ss.drop (k + 1), ‖s.z‖ ≤ D ∧ ‖s.c‖ ≤ D := by
  intro s hs
  obtain ⟨i, hi⟩ := List.mem_iff_getElem?.1 hs
  rw [List.getElem?_drop] at hi
  have hil := (List.getElem?_eq_some_iff.1 hi).1
  obtain ⟨e1, e2⟩ := hdat (k + 1 + i) s (by omega) (by omega) hi
  exact ⟨(abs_le_iff_norm hD).1 e1, (abs_le_iff_norm hD).1 e2⟩

/-- The comparison of two smoothing runs, of which the second has more data, at time `k`. -/
structure LagBound (K ρ : ℝ) (ss tt : List (LinStep n m)) (qs qs' : List (Belief n)) (k : ℕ) : Prop where
  cov : ∀ q q', qs[k]? = some q → qs'[k]? = some q' → ∀ i j, |q.P i j - q'.P i j| ≤ K * ρ ^ (ss.length - 1 - k)
  mean : ∀ q q' p p', qs[k]? = some q → qs'[k]? = some q' → qs[ss.length - 1]? = some p → qs'[ss.length - 1]? = some p' →
    ∀ t : ℝ, (∀ i, |p.x i - p'.x i| ≤ t) → ∀ i, |q.x i - q'.x i| ≤ K * ρ ^ (ss.length - 1 - k) * t
  data : ∀ q q' p, qs[k]? = some q → qs'[k]? = some q' → qs[ss.length - 1]? = some p →
    ∀ t D : ℝ, 0 ≤ D → DataWithin (ss ++ tt) (ss.length - 1) (ss ++ tt).length D → (∀ i, |p.x i| ≤ t) →
      ∀ i, |q.x i - q'.x i| ≤ K * ρ ^ (ss.length - 1 - k) * (t + D)

theorem lagBound_of {a r C ρ g c lo K : ℝ} (hK : 1 ≤ K) (h0 : 0 < ρ)
    (hall : ∀ (b : Belief n) (ss tt : List (LinStep n m)), Settled a r C ρ g c b.P (ss ++ tt) →
      (covRun b.P ss - lo • (1 : Matrix (Fin n) (Fin n) ℝ)).PosSemidef → RtsSolvable b (ss ++ tt) →
      (∀ i j, |((front b (ss ++ tt)).P - (front b ss).P) i j| ≤ K * ρ ^ ss.length) ∧
      ‖(front b (ss ++ tt)).x - (front b ss).x‖ ≤ K * ρ ^ ss.length * ‖(front (lastOf b ss) tt).x - (lastOf b ss).x‖ ∧
      ∀ D, 0 ≤ D → (∀ s ∈ tt, ‖s.z‖ ≤ D ∧ ‖s.c‖ ≤ D) →
        ‖(front b (ss ++ tt)).x - (front b ss).x‖ ≤ K * ρ ^ ss.length * (‖(lastOf b ss).x‖ + D))
    {b : Belief n} {ss tt : List (LinStep n m)} (hsm : SmoothSolvable b (ss ++ tt)) {k : ℕ} (hk : k < ss.length)
    (hset : Settled a r C ρ g c (lastOf b (ss.take (k + 1))).P (ss.drop (k + 1) ++ tt))
    (hlo : (covRun b.P ss - lo • (1 : Matrix (Fin n) (Fin n) ℝ)).PosSemidef) :
    LagBound K ρ ss tt (smoothed b ss) (smoothed b (ss ++ tt)) k := by
  have hne : ss ≠ [] := by rintro rfl; simp at hk
  have eN : ss.length - 1 + 1 = ss.length := by omega
  have elen : (ss.drop (k + 1)).length = ss.length - 1 - k := by rw [List.length_drop]; omega
  have hlk : lastOf (lastOf b (ss.take (k + 1))) (ss.drop (k + 1)) = lastOf b ss := by
    rw [← lastOf_append, List.take_append_drop]
  have hck : covRun (lastOf b (ss.take (k + 1))).P (ss.drop (k + 1)) = covRun b.P ss := by
    rw [← lastOf_covRun, hlk, lastOf_covRun]
  have hrts : RtsSolvable (lastOf b (ss.take (k + 1))) (ss.drop (k + 1) ++ tt) := by
    have := smoothSolvable_tail hsm k (by rw [List.length_append]; omega)
    rwa [List.take_append_of_le_length (by omega), List.drop_append_of_le_length (by omega)] at this
  obtain ⟨k1, k2, k3⟩ := hall _ _ tt hset (by rw [hck]; exact hlo) hrts
  rw [elen] at k1 k2 k3
  rw [hlk] at k2 k3
  have getq : ∀ q, (smoothed b ss)[k]? = some q → q = front (lastOf b (ss.take (k + 1))) (ss.drop (k + 1)) := fun q hq => (smoothed_get hq).2
  have getq' : ∀ q, (smoothed b (ss ++ tt))[k]? = some q → q = front (lastOf b (ss.take (k + 1))) (ss.drop (k + 1) ++ tt) := fun q hq => by
    have := (smoothed_get hq).2
    rwa [List.take_append_of_le_length (by omega), List.drop_append_of_le_length (by omega)] at this
  have getp : ∀ q, (smoothed b ss)[ss.length - 1]? = some q → q = lastOf b ss := fun q hq => by
    have := (smoothed_get hq).2
    rw [eN, List.take_length, List.drop_length] at this
    exact this
  have getp' : ∀ q, (smoothed b (ss ++ tt))[ss.length - 1]? = some q → q = front (lastOf b ss) tt := fun q hq => by
    have := (smoothed_get hq).2
    rwa [eN, List.take_left, List.drop_left] at this
  refine ⟨fun q q' hq hq' i j => ?_, fun q q' p p' hq hq' hp hp' t ht i => ?_, fun q q' p hq hq' hp t D hD hdat ht i => ?_⟩
  · obtain rfl := getq q hq
    obtain rfl := getq' q' hq'
    rw [abs_sub_comm]; exact k1 i j
  · obtain rfl := getq q hq
    obtain rfl := getq' q' hq'
    obtain rfl := getp p hp
    obtain rfl := getp' p' hp'
    have ht0 : 0 ≤ t := (abs_nonneg _).trans (ht i)
    have ht' : ‖(front (lastOf b ss) tt).x - (lastOf b ss).x‖ ≤ t := by
      rw [norm_sub_rev]; exact (abs_le_iff_norm (v := (lastOf b ss).x - (front (lastOf b ss) tt).x) ht0).1 ht
    have h2 := k2.trans (mul_le_mul_of_nonneg_left ht' (by positivity))
    have := (abs_le_iff_norm (by positivity)).2 h2 i
    rw [abs_sub_comm]; exact this
  · obtain rfl := getq q hq
    obtain rfl := getq' q' hq'
    obtain rfl := getp p hp
    have ht0 : 0 ≤ t := (abs_nonneg _).trans (ht i)
    have ht' : ‖(lastOf b ss).x‖ ≤ t := (abs_le_iff_norm ht0).1 ht
    have h2 := (k3 D hD (tail_data hD hdat hne)).trans (mul_le_mul_of_nonneg_left (add_le_add_left ht' D) (by positivity))
    have := (abs_le_iff_norm (by positivity)).2 h2 i
    rw [abs_sub_comm]; exact this

variable [Platform]

/-- C122: fixed-lag smoothing with a time-varying model (`UniformModel`: all stretches of `N` steps are observable and controllable with
margin `γ`); `smooth` is called on the data `ss`, and again when the further data `tt` have arrived.  Either both calls raise LinAlgError
or the smoothed belief of each time `k` (`k ≥ N`, counting from one) hardly changes if it lies far from the end of the first run: the
covariance changes by at most `C ρ^(L-k)`, `L` the length of the first run, and the mean by at most `C ρ^(L-k) t` where `t` bounds the
change of the estimate of time `L`, and also by at most `C ρ^(L-k) (t + D)` if `t` bounds the estimate of time `L` of the first run and `D` the
later data.  `C` and `ρ < 1` depend on the dimensions, `N`, `a`, `r` and `γ` only. -/
theorem C122_fixed_lag (n m N : ℕ) (a r γ : ℝ) (hN : 0 < N) (ha : 0 ≤ a) (hr : 0 < r) (hγ : 0 < γ) :
    ∃ C ρ : ℝ, 0 < ρ ∧ ρ < 1 ∧
      ∀ (kf kf' : KalmanFilter Fl) (Z Z' : NDArray Fl) (U U' : Option (NDArray Fl)) (b : Belief n) (ss tt : List (LinStep n m)),
        Represents kf Z U b ss → Represents kf' Z' U' b (ss ++ tt) → b.P.PosSemidef → UniformModel N a r γ (ss ++ tt) →
        N ≤ ss.length → ss.length = Z.rows.length → (ss ++ tt).length = Z'.rows.length →
        (SmoothSingular kf Z U ∧ SmoothSingular kf' Z' U') ∨
        ∃ (qs qs' : List (Belief n)) (Ks Ks' : List (Matrix (Fin n) (Fin m) ℝ)), SmoothReturns kf Z U qs Ks ∧
          SmoothReturns kf' Z' U' qs' Ks' ∧ qs.length = ss.length ∧ qs'.length = (ss ++ tt).length ∧
          ∀ k q q' p p', N ≤ k + 1 → qs[k]? = some q → qs'[k]? = some q' → qs[ss.length - 1]? = some p →
            qs'[ss.length - 1]? = some p' →
            (∀ i j, |q.P i j - q'.P i j| ≤ C * ρ ^ (ss.length - 1 - k)) ∧
            (∀ t : ℝ, (∀ i, |p.x i - p'.x i| ≤ t) → ∀ i, |q.x i - q'.x i| ≤ C * ρ ^ (ss.length - 1 - k) * t) ∧
            ∀ t D : ℝ, 0 ≤ D → DataWithin (ss ++ tt) (ss.length - 1) (ss ++ tt).length D → (∀ i, |p.x i| ≤ t) →
              ∀ i, |q.x i - q'.x i| ≤ C * ρ ^ (ss.length - 1 - k) * (t + D) := by
  obtain ⟨lo, hi, M⟩ := exists_margins n m N hN ha hr hγ
  obtain ⟨C, ρ, g, hC, h0, h1, hg, hset⟩ := M.settled
  obtain ⟨K, hK, hall⟩ := exists_lag_both (c := hi) n m ha hr hC h0 h1 hg M.hi_pos.le M.plo
  refine ⟨K, ρ, h0, h1, fun kf kf' Z Z' U U' b ss tt h h' hP hu hl hfull hfull' => ?_⟩
  have hne : ss ≠ [] := by rintro rfl; simp at hl; omega
  have hne' : ss ++ tt ≠ [] := by simp [hne]
  have hus : UniformModel N a r γ ss := hu.mono (List.prefix_append _ _).isInfix
  have hiff := M.smoothSolvable_iff hP hu hl hne
  by_cases hsm : SmoothSolvable b ss
  · refine .inr ⟨_, _, _, _, h.smoothReturns hfull hne (hus.solvable M hP) hsm, h'.smoothReturns hfull' hne' (hu.solvable M hP) (hiff.2 hsm),
      smoothed_length _ _, smoothed_length _ _, fun k q q' p p' hk hq hq' hp hp' => ?_⟩
    have hkl := (smoothed_get hq).1
    have hset' : Settled a r C ρ g hi (lastOf b (ss.take (k + 1))).P (ss.drop (k + 1) ++ tt) := by
      rw [lastOf_covRun]
      refine hset (ss.take (k + 1)) (ss.drop (k + 1) ++ tt) ?_ (by simp; omega) b.P hP
      rw [← List.append_assoc, List.take_append_drop]; exact hu
    obtain ⟨k1, k2, k3⟩ := lagBound_of hK h0 hall (hiff.2 hsm) hkl hset' (M.between hus hl hP).1
    exact ⟨k1 q q' hq hq', k2 q q' p p' hq hq' hp hp', k3 q q' p hq hq' hp⟩
  · exact .inl ⟨h.smoothSingular hfull hne fun hh => hsm hh.2, h'.smoothSingular hfull' hne' fun hh => hsm (hiff.1 hh.2)⟩

/-- C122 from the first time on: if the initial covariance is at most `p` then the same bounds hold for all times `k`, with constants that
depend on `p` too. -/
theorem C122_from_start (n m N : ℕ) (a r γ p₀ : ℝ) (hN : 0 < N) (ha : 0 ≤ a) (hr : 0 < r) (hγ : 0 < γ) :
    ∃ C ρ : ℝ, 0 < ρ ∧ ρ < 1 ∧
      ∀ (kf kf' : KalmanFilter Fl) (Z Z' : NDArray Fl) (U U' : Option (NDArray Fl)) (b : Belief n) (ss tt : List (LinStep n m)),
        Represents kf Z U b ss → Represents kf' Z' U' b (ss ++ tt) → Between 0 p₀ b.P → UniformModel N a r γ (ss ++ tt) →
        N ≤ ss.length → ss.length = Z.rows.length → (ss ++ tt).length = Z'.rows.length →
        (SmoothSingular kf Z U ∧ SmoothSingular kf' Z' U') ∨
        ∃ (qs qs' : List (Belief n)) (Ks Ks' : List (Matrix (Fin n) (Fin m) ℝ)), SmoothReturns kf Z U qs Ks ∧
          SmoothReturns kf' Z' U' qs' Ks' ∧ qs.length = ss.length ∧ qs'.length = (ss ++ tt).length ∧
          ∀ k q q' p p', qs[k]? = some q → qs'[k]? = some q' → qs[ss.length - 1]? = some p →
            qs'[ss.length - 1]? = some p' →
            (∀ i j, |q.P i j - q'.P i j| ≤ C * ρ ^ (ss.length - 1 - k)) ∧
            (∀ t : ℝ, (∀ i, |p.x i - p'.x i| ≤ t) → ∀ i, |q.x i - q'.x i| ≤ C * ρ ^ (ss.length - 1 - k) * t) ∧
            ∀ t D : ℝ, 0 ≤ D → DataWithin (ss ++ tt) (ss.length - 1) (ss ++ tt).length D → (∀ i, |p.x i| ≤ t) →
              ∀ i, |q.x i - q'.x i| ≤ C * ρ ^ (ss.length - 1 - k) * (t + D) := by
  obtain ⟨lo, hi, M⟩ := exists_margins n m N hN ha hr hγ
  obtain ⟨C, ρ, g, c, hC, h0, h1, hg, hc, hset⟩ := M.settled_start p₀
  obtain ⟨K, hK, hall⟩ := exists_lag_both (c := c) n m ha hr hC h0 h1 hg hc.le M.plo
  refine ⟨K, ρ, h0, h1, fun kf kf' Z Z' U U' b ss tt h h' hPp hu hl hfull hfull' => ?_⟩
  have hP : b.P.PosSemidef := by simpa using hPp.1
  have hne : ss ≠ [] := by rintro rfl; simp at hl; omega
  have hne' : ss ++ tt ≠ [] := by simp [hne]
  have hus : UniformModel N a r γ ss := hu.mono (List.prefix_append _ _).isInfix
  have hiff := M.smoothSolvable_iff hP hu hl hne
  by_cases hsm : SmoothSolvable b ss
  · refine .inr ⟨_, _, _, _, h.smoothReturns hfull hne (hus.solvable M hP) hsm, h'.smoothReturns hfull' hne' (hu.solvable M hP) (hiff.2 hsm),
      smoothed_length _ _, smoothed_length _ _, fun k q q' p p' hq hq' hp hp' => ?_⟩
    have hkl := (smoothed_get hq).1
    have hset' : Settled a r C ρ g c (lastOf b (ss.take (k + 1))).P (ss.drop (k + 1) ++ tt) := by
      rw [lastOf_covRun]
      refine Settled.drop ?_
      rw [← List.append_assoc, List.take_append_drop]
      exact hset _ hu b.P hPp
    obtain ⟨k1, k2, k3⟩ := lagBound_of hK h0 hall (hiff.2 hsm) hkl hset' (M.between hus hl hP).1
    exact ⟨k1 q q' hq hq', k2 q q' p p' hq hq' hp hp', k3 q q' p hq hq' hp⟩
  · exact .inl ⟨h.smoothSingular hfull hne fun hh => hsm hh.2, h'.smoothSingular hfull' hne' fun hh => hsm (hiff.1 hh.2)⟩

/-- C123: the smoother as an observer of a time-varying system.  Whatever the true states `x 0, x 1, ...` are, let `w` be the
disturbances of the transitions, `x (k+1) = A_k x k + B_k u_k + w k`, and `v` the errors of the measurements,
`z_k = H_k x (k+1) + v k` - no statistics assumed.  If all disturbances and errors are at most `D` and the initial estimate is off
by at most `t` then (if `smooth` does not raise LinAlgError) the smoothed estimate of time `k` is off by at most `C ρ^(k+1) t + C D`, however
long the run; `C` and `ρ < 1` depend on the dimensions, `N`, `a`, `r`, `γ` and the bound `p` of the initial covariance only. -/
theorem C123_smoother_observer (n m N : ℕ) (a r γ p : ℝ) (hN : 0 < N) (ha : 0 ≤ a) (hr : 0 < r) (hγ : 0 < γ) :
    ∃ C ρ : ℝ, 0 < ρ ∧ ρ < 1 ∧
      ∀ (kf : KalmanFilter Fl) (Z : NDArray Fl) (U : Option (NDArray Fl)) (b : Belief n) (ss : List (LinStep n m)),
        Represents kf Z U b ss → Between 0 p b.P → UniformModel N a r γ ss → ss ≠ [] → ss.length = Z.rows.length →
        SmoothSingular kf Z U ∨
        ∃ (qs : List (Belief n)) (Ks : List (Matrix (Fin n) (Fin m) ℝ)), SmoothReturns kf Z U qs Ks ∧ qs.length = ss.length ∧
          ∀ (x w : ℕ → Fin n → ℝ) (v : ℕ → Fin m → ℝ) (t D : ℝ), 0 ≤ D →
            (∀ (k : ℕ) (s : LinStep n m), ss[k]? = some s → x (k + 1) = s.A *ᵥ x k + s.c + w k ∧ s.z = s.H *ᵥ x (k + 1) + v k ∧
              (∀ i, |w k i| ≤ D) ∧ ∀ i, |v k i| ≤ D) →
            (∀ i, |b.x i - x 0 i| ≤ t) →
            ∀ k q, qs[k]? = some q → ∀ i, |q.x i - x (k + 1) i| ≤ C * ρ ^ (k + 1) * t + C * D := by
  obtain ⟨lo, hi, M⟩ := exists_margins n m N hN ha hr hγ
  obtain ⟨C, ρ, g, c, hC, h0, h1, hg, hc, hset⟩ := M.settled_start p
  obtain ⟨K, hK, hall⟩ := exists_front (c := c) n m ha hr hC h0 h1 hg hc.le
  have hρ : 0 < (1 - ρ)⁻¹ := inv_pos.2 (by linarith)
  obtain ⟨E, hE⟩ : ∃ E : ℝ, E = C * (1 + g * m * (a * n) + g * m) * (1 - ρ)⁻¹ := ⟨_, rfl⟩
  have hE0 : 0 ≤ E := by rw [hE]; positivity
  refine ⟨K * (C + E + 1), ρ, h0, h1, fun kf Z U b ss h hP hu hne hfull => ?_⟩
  have hpsd : b.P.PosSemidef := by simpa using hP.1
  by_cases hsm : SmoothSolvable b ss
  · refine .inr ⟨_, _, h.smoothReturns hfull hne (hu.solvable M hpsd) hsm, smoothed_length _ _, ?_⟩
    intro x w v t D hD hx ht k q hq i
    have ht0 : 0 ≤ t := (abs_nonneg _).trans (ht i)
    obtain ⟨hk, rfl⟩ := smoothed_get hq
    obtain ⟨es, hes⟩ : ∃ es, es = ss.mapIdx fun i s => ({ s with c := -w i, z := v i } : LinStep n m) := ⟨_, rfl⟩
    have herr := error_run b ss x w v (fun k s hs => ⟨(hx k s hs).1, (hx k s hs).2.1⟩) (k + 1) hk
    rw [← hes] at herr
    have hmod : es.map LinStep.model = ss.map LinStep.model := by
      apply List.ext_getElem?
      intro i
      rw [hes]
      simp only [List.getElem?_map, List.getElem?_mapIdx, Option.map_map]
      rfl
    have hu' : UniformModel N a r γ es := hu.congr hmod.symm
    have hdat : ∀ s ∈ es, ‖s.z‖ ≤ D ∧ ‖s.c‖ ≤ D := fun s hs => by
      obtain ⟨i, hi⟩ := List.mem_iff_getElem?.1 hs
      rw [hes, List.getElem?_mapIdx] at hi
      obtain ⟨s', hs', rfl⟩ := Option.map_eq_some_iff.1 hi
      obtain ⟨-, -, e3, e4⟩ := hx i s' hs'
      exact ⟨(abs_le_iff_norm hD).1 e4, by rw [norm_neg]; exact (abs_le_iff_norm hD).1 e3⟩
    have hel : es.length = ss.length := by rw [hes]; simp
    -- filtering errors at time `k`
    have hs1 : Settled a r C ρ g c b.P (es.take (k + 1) ++ es.drop (k + 1)) := by
      rw [List.take_append_drop]; exact hset es hu' b.P hP
    have hrun := Settled.run ha hC h0 h1 hg hs1.take hD (fun s hs => hdat s (List.mem_of_mem_take hs)) (b.x - x 0)
    rw [herr] at hrun
    have hl : (es.take (k + 1)).length = k + 1 := by simp; omega
    rw [hl, ← hE] at hrun
    have ht' := (abs_le_iff_norm (v := b.x - x 0) ht0).1 ht
    -- smoothing errors
    have hef := error_front (lastOf b (ss.take (k + 1))) (ss.drop (k + 1)) (fun i => x (k + 1 + i)) (fun i => w (k + 1 + i))
      (fun i => v (k + 1 + i)) fun i s hs => by
        rw [List.getElem?_drop] at hs
        exact ⟨(hx _ s hs).1, (hx _ s hs).2.1⟩
    have hed : (ss.drop (k + 1)).mapIdx (fun i s => ({ s with c := -w (k + 1 + i), z := v (k + 1 + i) } : LinStep n m)) = es.drop (k + 1) := by
      apply List.ext_getElem?
      intro i
      rw [hes]
      simp only [List.getElem?_mapIdx, List.getElem?_drop]
    rw [hed, add_zero] at hef
    have hs2 : Settled a r C ρ g c (lastOf b (ss.take (k + 1))).P (es.drop (k + 1)) := by
      have e : (lastOf b (ss.take (k + 1))).P = covRun b.P (es.take (k + 1)) := by
        have := congrArg Belief.P herr
        rw [lastOf_covRun] at this
        exact this.symm
      rw [e]; exact hs1.drop
    have hrts : RtsSolvable ⟨(lastOf b (ss.take (k + 1))).x - x (k + 1), (lastOf b (ss.take (k + 1))).P⟩ (es.drop (k + 1)) := by
      have h3 := smoothSolvable_tail hsm k hk
      refine rtsSolvable_congr (ss.drop (k + 1)) (es.drop (k + 1)) (lastOf b (ss.take (k + 1))) _ ?_ rfl h3
      rw [List.map_drop, List.map_drop, hmod]
    have hfin := (hall ⟨(lastOf b (ss.take (k + 1))).x - x (k + 1), (lastOf b (ss.take (k + 1))).P⟩ (es.drop (k + 1)) hs2 hrts D hD
      (fun s hs => hdat s (List.mem_of_mem_drop hs))).2
    rw [hef] at hfin
    have hfin' : ‖(front (lastOf b (ss.take (k + 1))) (ss.drop (k + 1))).x - x (k + 1)‖ ≤
        K * (‖(lastOf b (ss.take (k + 1))).x - x (k + 1)‖ + D) := hfin
    refine (abs_le_iff_norm (v := (front (lastOf b (ss.take (k + 1))) (ss.drop (k + 1))).x - x (k + 1)) (by positivity)).2
      (hfin'.trans ?_) i
    have hrun' : ‖(lastOf b (ss.take (k + 1))).x - x (k + 1)‖ ≤ C * ρ ^ (k + 1) * t + E * D :=
      hrun.trans (add_le_add_left (mul_le_mul_of_nonneg_left ht' (by positivity)) _)
    have z1 : 0 ≤ ρ ^ (k + 1) * t := by positivity
    have z2 : K * (‖(lastOf b (ss.take (k + 1))).x - x (k + 1)‖ + D) ≤ K * (C * ρ ^ (k + 1) * t + E * D + D) := by gcongr
    refine z2.trans ?_
    have z3 : 0 ≤ K * (E + 1) * (ρ ^ (k + 1) * t) := by positivity
    have z4 : 0 ≤ K * C * D := by positivity
    nlinarith
  · exact .inl (h.smoothSingular hfull hne fun hh => hsm hh.2)

/-- C124: smoothing forgets the initial belief.  Two smoothing runs on the same time-varying steps from different initial means and
covariances (PSD), neither of which raises LinAlgError.  For times `k ≥ N` (counting from one) the entries of the smoothed covariances
differ by at most `C ρ^k`, and if the filtered estimates of a time `j ≤ k`, `j ≥ N`, are within `t` and all later data within `D` then
the smoothed estimates of time `k` differ by at most `C ρ^(k-j) (t + D)`.  `C` and `ρ < 1` depend on the dimensions, `N`, `a`, `r` and
`γ` only. -/
theorem C124_forgets (n m N : ℕ) (a r γ : ℝ) (hN : 0 < N) (ha : 0 ≤ a) (hr : 0 < r) (hγ : 0 < γ) :
    ∃ C ρ : ℝ, 0 < ρ ∧ ρ < 1 ∧
      ∀ (kf kf' : KalmanFilter Fl) (Z Z' : NDArray Fl) (U U' : Option (NDArray Fl)) (b b' : Belief n) (ss : List (LinStep n m)),
        Represents kf Z U b ss → Represents kf' Z' U' b' ss → b.P.PosSemidef → b'.P.PosSemidef → UniformModel N a r γ ss →
        ss ≠ [] → ss.length = Z.rows.length → ss.length = Z'.rows.length →
        SmoothSingular kf Z U ∨ SmoothSingular kf' Z' U' ∨
        ∃ (bs bs' qs qs' : List (Belief n)) (Ks Ks' : List (Matrix (Fin n) (Fin m) ℝ)), FilterReturns kf Z U bs Ks ∧
          FilterReturns kf' Z' U' bs' Ks' ∧ SmoothReturns kf Z U qs Ks ∧ SmoothReturns kf' Z' U' qs' Ks' ∧ bs.length = ss.length ∧
          bs'.length = ss.length ∧ qs.length = ss.length ∧ qs'.length = ss.length ∧
          ∀ k q q', N ≤ k + 1 → qs[k]? = some q → qs'[k]? = some q' →
            (∀ i j, |q.P i j - q'.P i j| ≤ C * ρ ^ k) ∧
            ∀ j p p', N ≤ j + 1 → j ≤ k → bs[j]? = some p → bs'[j]? = some p' → ∀ t D : ℝ, 0 ≤ D → DataWithin ss j ss.length D →
              (∀ i, |p.x i| ≤ t) → (∀ i, |p'.x i| ≤ t) → ∀ i, |q.x i - q'.x i| ≤ C * ρ ^ (k - j) * (t + D) := by
  obtain ⟨lo, hi, M⟩ := exists_margins n m N hN ha hr hγ
  obtain ⟨C₀, ρ₀, g, hC₀, h00, h01, hg, hset⟩ := M.settled
  obtain ⟨K, hK, hall⟩ := exists_front_close (c := hi) n m ha hr hC₀ h00 h01 hg M.hi_pos.le M.plo
  obtain ⟨C₁, ρ₁, hC₁, h10, h11, hcov⟩ := M.cov_close
  obtain ⟨C₂, ρ₂, hC₂, h20, h21, hbel⟩ := M.belief_close
  obtain ⟨C₃, ρ₃, hC₃, h30, h31, hrun⟩ := M.run_bound
  obtain ⟨ρ, hρ⟩ : ∃ ρ, ρ = max ρ₁ ρ₂ := ⟨_, rfl⟩
  have h0 : 0 < ρ := hρ ▸ lt_max_of_lt_left h10
  have h1 : ρ < 1 := hρ ▸ max_lt h11 h21
  have hle1 : ρ₁ ≤ ρ := hρ ▸ le_max_left _ _
  have hle2 : ρ₂ ≤ ρ := hρ ▸ le_max_right _ _
  have hpN : 0 < ρ ^ (N - 1) := by positivity
  have hpN' := inv_pos.2 hpN
  refine ⟨K * (C₁ * (ρ ^ (N - 1))⁻¹) + K * (C₂ + C₁ * (C₃ + 1 + 1)), ρ, h0, h1,
    fun kf kf' Z Z' U U' b b' ss h h' hP hP' hu hne hfull hfull' => ?_⟩
  by_cases hsm : SmoothSolvable b ss
  swap
  · exact .inl (h.smoothSingular hfull hne fun hh => hsm hh.2)
  by_cases hsm' : SmoothSolvable b' ss
  swap
  · exact .inr (.inl (h'.smoothSingular hfull' hne fun hh => hsm' hh.2))
  refine .inr (.inr ⟨_, _, _, _, _, _, h.returns (hu.solvable M hP), h'.returns (hu.solvable M hP'),
    h.smoothReturns hfull hne (hu.solvable M hP) hsm, h'.smoothReturns hfull' hne (hu.solvable M hP') hsm', filtered_length _ _,
    filtered_length _ _, smoothed_length _ _, smoothed_length _ _, fun k q q' hk hq hq' => ?_⟩)
  obtain ⟨hkl, rfl⟩ := smoothed_get hq
  obtain ⟨-, rfl⟩ := smoothed_get hq'
  have ess : ss.take (k + 1) ++ ss.drop (k + 1) = ss := List.take_append_drop _ _
  have hut : UniformModel N a r γ (ss.take (k + 1)) := hu.mono (List.take_prefix _ _).isInfix
  have hlt : N ≤ (ss.take (k + 1)).length := by simp; omega
  have hs1 : Settled a r C₀ ρ₀ g hi (lastOf b (ss.take (k + 1))).P (ss.drop (k + 1)) := by
    rw [lastOf_covRun]; exact hset _ _ (by rw [ess]; exact hu) hlt b.P hP
  have hs2 : Settled a r C₀ ρ₀ g hi (lastOf b' (ss.take (k + 1))).P (ss.drop (k + 1)) := by
    rw [lastOf_covRun]; exact hset _ _ (by rw [ess]; exact hu) hlt b'.P hP'
  have hl1 : ((lastOf b (ss.take (k + 1))).P - lo • (1 : Matrix (Fin n) (Fin n) ℝ)).PosSemidef := by
    rw [lastOf_covRun]; exact (M.between hut hlt hP).1
  have hl2 : ((lastOf b' (ss.take (k + 1))).P - lo • (1 : Matrix (Fin n) (Fin n) ℝ)).PosSemidef := by
    rw [lastOf_covRun]; exact (M.between hut hlt hP').1
  have hr1 := smoothSolvable_tail hsm k hkl
  have hr2 := smoothSolvable_tail hsm' k hkl
  -- filtered covariances, compared at `k` after a start at `j`
  have hfc : ∀ j, N ≤ j + 1 → j ≤ k → ∀ i l, |((lastOf b (ss.take (k + 1))).P - (lastOf b' (ss.take (k + 1))).P) i l| ≤ C₁ * ρ ^ (k - j) := by
    intro j hj hjk i l
    have e : ss.take (k + 1) = ss.take (j + 1) ++ (ss.drop (j + 1)).take (k - j) := by
      rw [← List.take_add]; congr 1; omega
    have hlj : ((ss.drop (j + 1)).take (k - j)).length = k - j := by simp; omega
    have := hcov (ss.take (j + 1)) ((ss.drop (j + 1)).take (k - j)) (by rw [← e]; exact hut) (by simp; omega) b.P b'.P hP hP' i l
    rw [← e, hlj] at this
    rw [lastOf_covRun, lastOf_covRun]
    refine this.trans (mul_le_mul_of_nonneg_left ?_ (by linarith))
    calc ρ₁ ^ (2 * (k - j)) ≤ ρ ^ (2 * (k - j)) := pow_le_pow_left₀ h10.le hle1 _
      _ ≤ _ := pow_le_pow_of_le_one h0.le h1.le (by omega)
  have z0 : 0 ≤ K * (C₂ + C₁ * (C₃ + 1 + 1)) := by positivity
  have z1 : 0 ≤ K * (C₁ * (ρ ^ (N - 1))⁻¹) := by positivity
  constructor
  · intro i l
    have e := hfc (N - 1) (by omega) (by omega)
    have := (hall _ _ _ hs1 hs2 hl1 hl2 hr1 hr2 _ (by positivity) e).1 i l
    refine this.trans ?_
    have hpow : ρ ^ (k - (N - 1)) = (ρ ^ (N - 1))⁻¹ * ρ ^ k := by
      rw [← div_eq_inv_mul, eq_div_iff hpN.ne', ← pow_add]; congr 1; omega
    have : 0 ≤ ρ ^ k := by positivity
    rw [hpow, add_mul]
    refine le_trans (le_of_eq ?_) (le_add_of_nonneg_right (mul_nonneg z0 this))
    ring
  · intro j p p' hj hjk hp hp' t D hD hdat ht ht' i
    have ht0 : 0 ≤ t := (abs_nonneg _).trans (ht i)
    obtain ⟨-, rfl⟩ := filtered_lastOf hp
    obtain ⟨-, rfl⟩ := filtered_lastOf hp'
    have e : ss.take (k + 1) = ss.take (j + 1) ++ (ss.drop (j + 1)).take (k - j) := by
      rw [← List.take_add]; congr 1; omega
    have hlj : ((ss.drop (j + 1)).take (k - j)).length = k - j := by simp; omega
    have hmid : ∀ s ∈ (ss.drop (j + 1)).take (k - j), ‖s.z‖ ≤ D ∧ ‖s.c‖ ≤ D := fun s hs =>
      drop_data hD le_rfl hdat s (List.mem_of_mem_take hs)
    have htn := (abs_le_iff_norm ht0).1 ht
    have htn' := (abs_le_iff_norm ht0).1 ht'
    have k1 := hbel (ss.take (j + 1)) ((ss.drop (j + 1)).take (k - j)) (by rw [← e]; exact hut) (by simp; omega) b b' hP hP' t D hD hmid htn htn'
    have k2 := hrun (ss.take (j + 1)) ((ss.drop (j + 1)).take (k - j)) (by rw [← e]; exact hut) (by simp; omega) b'.P hP' D hD hmid
      (lastOf b' (ss.take (j + 1))).x
    rw [← lastOf_covRun] at k2
    have k2' : ‖(lastOf b' (ss.take (k + 1))).x‖ ≤ C₃ * ρ₃ ^ (k - j) * ‖(lastOf b' (ss.take (j + 1))).x‖ + C₃ * D := by
      rw [hlj] at k2
      rw [e, lastOf_append]; exact k2
    rw [← e, hlj] at k1
    have k3 := (hall _ _ _ hs1 hs2 hl1 hl2 hr1 hr2 _ (by positivity) (hfc j hj hjk)).2 D hD (drop_data hD hjk hdat)
    have k4 : ‖(lastOf b' (ss.take (k + 1))).x‖ ≤ C₃ * (t + D) := by
      have y1 : ρ₃ ^ (k - j) ≤ 1 := pow_le_one₀ h30.le h31.le
      have y2 : C₃ * ρ₃ ^ (k - j) * ‖(lastOf b' (ss.take (j + 1))).x‖ ≤ C₃ * 1 * t := by gcongr
      linarith
    have k5 : ‖(lastOf b (ss.take (k + 1))).x - (lastOf b' (ss.take (k + 1))).x‖ ≤ C₂ * ρ ^ (k - j) * (t + D) := by
      refine k1.trans (mul_le_mul_of_nonneg_right (mul_le_mul_of_nonneg_left ?_ (by linarith)) (by positivity))
      exact pow_le_pow_left₀ h20.le hle2 _
    refine (abs_le_iff_norm (v := (front (lastOf b (ss.take (k + 1))) (ss.drop (k + 1))).x - (front (lastOf b' (ss.take (k + 1))) (ss.drop (k + 1))).x)
      (by positivity)).2 (k3.trans ?_) i
    have hpk : 0 ≤ ρ ^ (k - j) := by positivity
    calc _ ≤ K * (C₂ * ρ ^ (k - j) * (t + D) + C₁ * ρ ^ (k - j) * (C₃ * (t + D) + D)) := by gcongr
      _ ≤ K * (C₂ * ρ ^ (k - j) * (t + D) + C₁ * ρ ^ (k - j) * ((C₃ + 1 + 1) * (t + D))) := by
          have : C₃ * (t + D) + D ≤ (C₃ + 1 + 1) * (t + D) := by nlinarith
          gcongr
      _ = K * (C₂ + C₁ * (C₃ + 1 + 1)) * ρ ^ (k - j) * (t + D) := by ring
      _ ≤ _ := by
          refine mul_le_mul_of_nonneg_right (mul_le_mul_of_nonneg_right ?_ hpk) (by positivity)
          linarith

-- C122-C124: position and velocity sampled at irregular times, steps between 1 and 2, two pieces of any lengths (the first at least
-- two), from any PD covariance at most 5: none of the calls raises.
example (l l' : List (ℝ × ℝ)) (h : ∀ p ∈ l ++ l', 1 ≤ p.1 ∧ p.1 ≤ 2) (h2 : 2 ≤ l.length) (b : Belief 2) (hb : b.P.PosDef)
    (hb' : Between 0 5 b.P) :
    ∃ (kf kf' : KalmanFilter Fl) (Z Z' : NDArray Fl) (U U' : Option (NDArray Fl)) (ss tt : List (LinStep 2 1)),
      ss = l.map (fun p => Ex.irrStep p.1 p.2) ∧ tt = l'.map (fun p => Ex.irrStep p.1 p.2) ∧
      Represents kf Z U b ss ∧ Represents kf' Z' U' b (ss ++ tt) ∧ Between 0 5 b.P ∧ UniformModel 2 2 1 (1/4) (ss ++ tt) ∧
      2 ≤ ss.length ∧ ss.length = Z.rows.length ∧ (ss ++ tt).length = Z'.rows.length ∧
      ∃ (qs : List (Belief 2)) (Ks : List (Matrix (Fin 2) (Fin 1) ℝ)), SmoothReturns kf' Z' U' qs Ks := by
  have hne : l ≠ [] := by rintro rfl; simp at h2
  have hpd : ∀ s ∈ (l ++ l').map (fun p => Ex.irrStep p.1 p.2), PdStep s := fun s hs => by
    obtain ⟨p, hp, rfl⟩ := List.mem_map.1 hs
    have h1 := (h p hp).1
    have hq : (Ex.irrStep p.1 p.2).Q.PosDef := by
      refine posDef_two ?_ ?_ ?_
      · simp [Ex.irrStep]
      · simp [Ex.irrStep]; linarith
      · simp [Ex.irrStep]; nlinarith
    refine ⟨hq.posSemidef, ?_, .inr hq⟩
    · have e : (Ex.irrStep p.1 p.2).R = 1 := by ext i j; fin_cases i; fin_cases j; simp [Ex.irrStep]
      rw [e]; exact Matrix.PosDef.one
  have e : l.map (fun p => Ex.irrStep p.1 p.2) ++ l'.map (fun p => Ex.irrStep p.1 p.2) = (l ++ l').map fun p => Ex.irrStep p.1 p.2 :=
    List.map_append.symm
  refine ⟨_, _, _, _, _, _, _, _, rfl, rfl, Ex.encode_represents _ _, Ex.encode_represents _ _, hb', by rw [e]; exact Ex.irr_uniform _ h,
    by simpa using h2, (Ex.encZ_length _).symm, (Ex.encZ_length _).symm, _, _,
    (Ex.encode_represents _ _).smoothReturns (Ex.encZ_length _).symm (by simp [hne]) (solvable_psd hb.posSemidef ?_ ?_)
      (smoothSolvable_pd _ _ hb (by rw [e]; exact hpd))⟩
  · rw [e]; exact fun s hs => (hpd s hs).1
  · rw [e]; exact fun s hs => (hpd s hs).2.1

end KK
