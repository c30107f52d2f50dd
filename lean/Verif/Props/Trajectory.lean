import Verif.Proofs.Trajectory
import Verif.Props.Posterior

/-!
# C162: the joint distribution of the whole trajectory
-/

set_option linter.unusedSectionVars false

namespace KK

open Matrix MeasureTheory ProbabilityTheory

section abstract

variable {n m : ℕ} {Ω : Type} [MeasurableSpace Ω] {μ : Measure Ω} [IsProbabilityMeasure μ]

namespace Stoch

/-- The estimates of `T` times as one. -/
noncomputable def stackV (T : ℕ) (q : ℕ → VB (L2 μ) n) (C : ℕ → ℕ → Matrix (Fin n) (Fin n) ℝ) : VB (L2 μ) (T * n) :=
  ⟨fun i => (q (finProdFinEquiv.symm i).1).x (finProdFinEquiv.symm i).2, blocks T C⟩

theorem stackV_fn (T : ℕ) (q : ℕ → VB (L2 μ) n) (C : ℕ → ℕ → Matrix (Fin n) (Fin n) ℝ) :
    (stackV T q C).fn = stack T fun k => (q k).fn := rfl

theorem stack_good {T : ℕ} {Y : ℕ → Ω → Fin n → ℝ} {S : Submodule ℝ (L2 μ)} {q : ℕ → VB (L2 μ) n}
    {C : ℕ → ℕ → Matrix (Fin n) (Fin n) ℝ} (hg : ∀ k < T, Good (ip μ) S (liftV μ (Y k)) (q k))
    (hc : ∀ k < T, ∀ l < T, cc (ip μ) (liftV μ (Y k) - (q k).x) (liftV μ (Y l) - (q l).x) = C k l) :
    Good (ip μ) S (liftV μ (stack T Y)) (stackV T q C) where
  mem i := (hg _ (finProdFinEquiv.symm i).1.2).mem _
  perp i := (hg _ (finProdFinEquiv.symm i).1.2).perp (finProdFinEquiv.symm i).2
  cov := by
    ext i j
    exact congrFun (congrFun (hc _ (finProdFinEquiv.symm i).1.2 _ (finProdFinEquiv.symm j).1.2) (finProdFinEquiv.symm i).2)
      (finProdFinEquiv.symm j).2

end Stoch

/-- Conditional mean of a product, for estimates whose errors are independent of the observations. -/
theorem condExp_product {z : ℕ → Ω → Fin m → ℝ} {K : ℕ} {Y Y' yh yh' : Ω → ℝ} (hz : Measurable (firstObs z K))
    (hY : Measurable Y ∧ MemLp Y 2 μ) (hY' : Measurable Y' ∧ MemLp Y' 2 μ)
    (hy : MemLp yh 2 μ) (hy' : MemLp yh' 2 μ)
    (gy : ∃ g : (Fin K → Fin m → ℝ) → ℝ, Measurable g ∧ ∀ ω, yh ω = g (firstObs z K ω))
    (gy' : ∃ g : (Fin K → Fin m → ℝ) → ℝ, Measurable g ∧ ∀ ω, yh' ω = g (firstObs z K ω))
    (hm : ∫ ω, (Y ω - yh ω) ∂μ = 0) (hm' : ∫ ω, (Y' ω - yh' ω) ∂μ = 0)
    (hi : IndepFun (fun ω => (Y ω - yh ω, Y' ω - yh' ω)) (firstObs z K) μ) :
    μ[fun ω => Y ω * Y' ω | MeasurableSpace.comap (firstObs z K) inferInstance] =ᵐ[μ]
      fun ω => yh ω * yh' ω + ∫ ω', (Y ω' - yh ω') * (Y' ω' - yh' ω') ∂μ := by
  obtain ⟨g, hg, hgf⟩ := gy
  obtain ⟨g', hg', hgf'⟩ := gy'
  have hle : MeasurableSpace.comap (firstObs z K) inferInstance ≤ (inferInstance : MeasurableSpace Ω) := hz.comap_le
  have hs : StronglyMeasurable[MeasurableSpace.comap (firstObs z K) inferInstance] yh := by
    have : yh = g ∘ firstObs z K := funext hgf
    rw [this]
    exact (hg.comp (comap_measurable _)).stronglyMeasurable
  have hs' : StronglyMeasurable[MeasurableSpace.comap (firstObs z K) inferInstance] yh' := by
    have : yh' = g' ∘ firstObs z K := funext hgf'
    rw [this]
    exact (hg'.comp (comap_measurable _)).stronglyMeasurable
  obtain ⟨e, he⟩ : ∃ e : Ω → ℝ, e = fun ω => Y ω - yh ω := ⟨_, rfl⟩
  obtain ⟨e', he'⟩ : ∃ e' : Ω → ℝ, e' = fun ω => Y' ω - yh' ω := ⟨_, rfl⟩
  have hmy : Measurable yh := hs.measurable.mono hle le_rfl
  have hmy' : Measurable yh' := hs'.measurable.mono hle le_rfl
  have hme : Measurable e := he ▸ hY.1.sub hmy
  have hme' : Measurable e' := he' ▸ hY'.1.sub hmy'
  have hL : MemLp e 2 μ := he ▸ hY.2.sub hy
  have hL' : MemLp e' 2 μ := he' ▸ hY'.2.sub hy'
  have hind : IndepFun (fun ω => (e ω, e' ω)) (firstObs z K) μ := by rw [he, he']; exact hi
  have key : ∀ (F : ℝ × ℝ → ℝ), Measurable F →
      μ[fun ω => F (e ω, e' ω) | MeasurableSpace.comap (firstObs z K) inferInstance] =ᵐ[μ]
        fun _ => ∫ ω, F (e ω, e' ω) ∂μ := by
    intro F hF
    have hFm : Measurable fun ω => F (e ω, e' ω) := hF.comp (hme.prodMk hme')
    have hI : IndepFun (fun ω => F (e ω, e' ω)) (firstObs z K) μ := hind.comp (φ := F) (ψ := id) hF measurable_id
    exact condExp_indep_eq (μ := μ) (f := fun ω => F (e ω, e' ω)) hFm.comap_le hle
      (comap_measurable _).stronglyMeasurable hI
  have k1 := key (fun p => p.1) measurable_fst
  have k2 := key (fun p => p.2) measurable_snd
  have k3 := key (fun p => p.1 * p.2) (measurable_fst.mul measurable_snd)
  have i0 : Integrable (fun ω => yh ω * yh' ω) μ := hy.integrable_mul hy'
  have i1 : Integrable (fun ω => yh ω * e' ω) μ := hy.integrable_mul hL'
  have i2 : Integrable (fun ω => yh' ω * e ω) μ := hy'.integrable_mul hL
  have i3 : Integrable (fun ω => e ω * e' ω) μ := hL.integrable_mul hL'
  have hsum : (fun ω => Y ω * Y' ω) = ((fun ω => yh ω * yh' ω) + fun ω => yh ω * e' ω) +
      ((fun ω => yh' ω * e ω) + fun ω => e ω * e' ω) := by
    funext ω
    simp only [Pi.add_apply, he, he']
    ring
  have p1 := condExp_mul_of_stronglyMeasurable_left hs (f := yh) (g := e') i1 (hL'.integrable (by norm_num))
  have p2 := condExp_mul_of_stronglyMeasurable_left hs' (f := yh') (g := e) i2 (hL.integrable (by norm_num))
  have p0 := condExp_of_stronglyMeasurable hle (hs.mul hs') i0
  have a1 := condExp_add (i0.add i1) (i2.add i3) (MeasurableSpace.comap (firstObs z K) inferInstance)
  have a2 := condExp_add i0 i1 (MeasurableSpace.comap (firstObs z K) inferInstance)
  have a3 := condExp_add i2 i3 (MeasurableSpace.comap (firstObs z K) inferInstance)
  have m1 : ∫ ω, e ω ∂μ = 0 := by rw [he]; exact hm
  have m2 : ∫ ω, e' ω ∂μ = 0 := by rw [he']; exact hm'
  have p0' : μ[fun ω => yh ω * yh' ω | MeasurableSpace.comap (firstObs z K) inferInstance] = fun ω => yh ω * yh' ω := p0
  rw [hsum]
  filter_upwards [k1, k2, k3, p1, p2, a1, a2, a3] with ω k1 k2 k3 p1 p2 a1 a2 a3
  have p1' : (μ[fun ω => yh ω * e' ω | MeasurableSpace.comap (firstObs z K) inferInstance]) ω = 0 := by
    refine p1.trans ?_
    rw [Pi.mul_apply, k2, m2, mul_zero]
  have p2' : (μ[fun ω => yh' ω * e ω | MeasurableSpace.comap (firstObs z K) inferInstance]) ω = 0 := by
    refine p2.trans ?_
    rw [Pi.mul_apply, k1, m1, mul_zero]
  rw [a1, Pi.add_apply, a2, a3, Pi.add_apply, Pi.add_apply, p0', p1', p2', k3, he, he']
  ring

end abstract

variable [Platform] {n m : ℕ} {Ω : Type} [MeasurableSpace Ω] {μ : Measure Ω} [IsProbabilityMeasure μ]

variable (kf : KalmanFilter Fl) (Zs : Ω → NDArray Fl) (U : Option (NDArray Fl)) (b : Belief n)
  (ms : List (ModelStep n m)) (N : Src n m → Ω → ℝ) (X : ℕ → Ω → Fin n → ℝ) (z : ℕ → Ω → Fin m → ℝ)
  (xf Pf xs Ps : Ω → List (Arr Fl)) (kff kfs : Ω → KalmanFilter Fl)

/-- The matrices `P` are the covariances of the rows of `filter`. -/
def FilterCovs (T : ℕ) (Pf : Ω → List (Arr Fl)) (P : ℕ → Matrix (Fin n) (Fin n) ℝ) : Prop :=
  ∀ k < T, ∀ ω, ∃ a, (Pf ω)[k]? = some a ∧ MatIs (P k) a

theorem trajectory_rows (hN : WhiteNoise μ b.P ms N) (hX : Follows b.x ms N X z)
    (h : ∀ ω, Represents kf (Zs ω) U b (withData ms fun k => z k ω)) (hfull : ∀ ω, ms.length = (Zs ω).rows.length)
    (hrf : ∀ ω, (KalmanFilter.filter (Zs ω) U).run kf = (.ok (xf ω, Pf ω), kff ω))
    (hr : ∀ ω, (KalmanFilter.smooth (Zs ω) U).run kf = (.ok (xs ω, Ps ω), kfs ω)) (hpos : ms ≠ []) :
    ∃ (q : ℕ → Stoch.VB (Stoch.L2 μ) n) (P : ℕ → Matrix (Fin n) (Fin n) ℝ), FilterCovs ms.length Pf P ∧
      (∀ k < ms.length, RowsHold xs Ps k (q k).fn (q k).P ∧
        Stoch.Good (Stoch.ip μ) (Stoch.obsSpan μ z ms.length) (Stoch.liftV μ (X (k + 1))) (q k)) ∧
      ∀ k < ms.length, ∀ l < ms.length,
        Stoch.cc (Stoch.ip μ) (Stoch.liftV μ (X (k + 1)) - (q k).x) (Stoch.liftV μ (X (l + 1)) - (q l).x) =
          crossCov ms P (fun k => (q k).P) k l := by
  have hlen : ∀ ω, (withData ms fun k => z k ω).length = (Zs ω).rows.length := fun ω => by
    rw [Stoch.withData_length]; exact hfull ω
  have hne : ∀ ω, (withData ms fun k => z k ω) ≠ [] := fun ω hn => by
    have := congrArg List.length hn
    rw [Stoch.withData_length, List.length_nil, List.length_eq_zero_iff] at this
    exact hpos this
  have hs : ∀ ω, Solvable b (withData ms fun k => z k ω) ∧ SmoothSolvable b (withData ms fun k => z k ω) := by
    intro ω
    by_contra hn
    obtain ⟨kf'', he⟩ := (h ω).smoothSingular (hlen ω) (hne ω) hn
    rw [hr ω] at he
    simp at he
  obtain ⟨ω₀⟩ : Nonempty Ω := μ.nonempty_of_neZero
  obtain ⟨f, q, hrows, hgood, hcross⟩ := Stoch.trajectory_core hN hX ⟨ω₀, hs ω₀⟩
  refine ⟨q, fun k => (f k).P, fun k hk ω => ?_, fun k hk => ⟨fun ω => ?_, hgood k hk⟩, fun k hk l hl => ?_⟩
  · have hret := (h ω).returns (hs ω).1
    rw [FilterReturns, hrf ω] at hret
    simp only [Prod.mk.injEq, Except.ok.injEq] at hret
    have hl : k < (filtered b (withData ms fun k => z k ω)).length := by
      rw [filtered_length, Stoch.withData_length]; exact hk
    refine ⟨covRow ⟨(f k).fn ω, (f k).P⟩, ?_, ⟨_, rfl⟩⟩
    rw [hret.1.2, List.getElem?_append_left (by rw [List.length_map]; exact hl), List.getElem?_map, (hrows k hk ω).1]
    rfl
  · have hret := (h ω).smoothReturns (hlen ω) (hne ω) (hs ω).1 (hs ω).2
    rw [SmoothReturns, hr ω] at hret
    simp only [Prod.mk.injEq, Except.ok.injEq] at hret
    constructor
    · refine ⟨stateRow ⟨(q k).fn ω, (q k).P⟩, ?_, ⟨_, rfl⟩⟩
      rw [hret.1.1, List.getElem?_map, (hrows k hk ω).2]
      rfl
    · refine ⟨covRow ⟨(q k).fn ω, (q k).P⟩, ?_, ⟨_, rfl⟩⟩
      rw [hret.1.2, List.getElem?_map, (hrows k hk ω).2]
      rfl
  · by_cases hkl : k ≤ l
    · obtain ⟨d, rfl⟩ := Nat.exists_eq_add_of_le hkl
      rw [crossCov, if_pos hkl, hcross k d hl, Nat.add_sub_cancel_left]
    · obtain ⟨d, rfl⟩ := Nat.exists_eq_add_of_le (Nat.le_of_not_le hkl)
      rw [crossCov, if_neg hkl, ← Stoch.cc_symm Stoch.ip_symm, hcross l d hk, Nat.add_sub_cancel_left]

theorem stack_nice {T : ℕ} {Y : ℕ → Ω → Fin n → ℝ} (h : ∀ k < T, Stoch.Nice μ (Y k)) : Stoch.Nice μ (stack T Y) :=
  fun i => h _ (finProdFinEquiv.symm i).1.2 _

/-- C162 (any noise): if the system follows the model with uncorrelated zero-mean noises of the covariances the filter was told,
the covariance of the errors of the smoothed means of rows `k` and `l` is computed from what `filter` and `smooth` return: the
product of the gains `P A' (A P A' + Q)⁻¹` of the steps from `k` to `l` and the smoothed covariance of the later one. -/
theorem C162_cross (hN : WhiteNoise μ b.P ms N) (hX : Follows b.x ms N X z)
    (h : ∀ ω, Represents kf (Zs ω) U b (withData ms fun k => z k ω)) (hfull : ∀ ω, ms.length = (Zs ω).rows.length)
    (hrf : ∀ ω, (KalmanFilter.filter (Zs ω) U).run kf = (.ok (xf ω, Pf ω), kff ω))
    (hr : ∀ ω, (KalmanFilter.smooth (Zs ω) U).run kf = (.ok (xs ω, Ps ω), kfs ω)) :
    ∃ (xh : ℕ → Ω → Fin n → ℝ) (P S : ℕ → Matrix (Fin n) (Fin n) ℝ), FilterCovs ms.length Pf P ∧
      (∀ k < ms.length, RowsHold xs Ps k (xh k) (S k)) ∧
      ∀ k < ms.length, ∀ l < ms.length, ∀ i j,
        ∫ ω, (X (k + 1) ω i - xh k ω i) * (X (l + 1) ω j - xh l ω j) ∂μ = crossCov ms P S k l i j := by
  by_cases hpos : ms = []
  · subst hpos
    refine ⟨fun _ _ _ => 0, fun _ => 0, fun _ => 0, ?_, ?_, ?_⟩
    · exact fun k hk => absurd hk (Nat.not_lt_zero k)
    · exact fun k hk => absurd hk (Nat.not_lt_zero k)
    · exact fun k hk => absurd hk (Nat.not_lt_zero k)
  obtain ⟨q, P, h1, h2, h3⟩ := trajectory_rows kf Zs U b ms N X z xf Pf xs Ps kff kfs hN hX h hfull hrf hr hpos
  refine ⟨fun k => (q k).fn, P, fun k => (q k).P, h1, fun k hk => (h2 k hk).1, fun k hk l hl i j => ?_⟩
  rw [← h3 k hk l hl]
  have e1 := Stoch.err_coe (vb := q k) (Stoch.nice_state hN hX (k := k + 1) (by omega))
  have e2 := Stoch.err_coe (vb := q l) (Stoch.nice_state hN hX (k := l + 1) (by omega))
  refine integral_congr_ae (.of_forall fun ω => ?_)
  simp only
  rw [← e1, ← e2]

/-- C162 (Gaussian noise): given all observations, the whole trajectory is jointly normally distributed: the means are the rows of
`smooth`, the covariance between any two times is `crossCov`. -/
theorem C162_trajectory (hN : WhiteNoise μ b.P ms N) (hX : Follows b.x ms N X z) (hG : GaussianNoise μ ms.length N)
    (h : ∀ ω, Represents kf (Zs ω) U b (withData ms fun k => z k ω)) (hfull : ∀ ω, ms.length = (Zs ω).rows.length)
    (hrf : ∀ ω, (KalmanFilter.filter (Zs ω) U).run kf = (.ok (xf ω, Pf ω), kff ω))
    (hr : ∀ ω, (KalmanFilter.smooth (Zs ω) U).run kf = (.ok (xs ω, Ps ω), kfs ω)) (hpos : ms ≠ []) :
    ∃ (xh : ℕ → Ω → Fin n → ℝ) (P S : ℕ → Matrix (Fin n) (Fin n) ℝ), FilterCovs ms.length Pf P ∧
      (∀ k < ms.length, RowsHold xs Ps k (xh k) (S k)) ∧
      Posterior μ z ms.length (stack ms.length fun k => X (k + 1)) (stack ms.length xh)
        (blocks ms.length (crossCov ms P S)) := by
  obtain ⟨q, P, h1, h2, h3⟩ := trajectory_rows kf Zs U b ms N X z xf Pf xs Ps kff kfs hN hX h hfull hrf hr hpos
  refine ⟨fun k => (q k).fn, P, fun k => (q k).P, h1, fun k hk => (h2 k hk).1, ?_⟩
  have hg := Stoch.stack_good (T := ms.length) (Y := fun k => X (k + 1)) (C := crossCov ms P fun k => (q k).P)
    (fun k hk => (h2 k hk).2) h3
  exact Stoch.posterior_of_gaussian hN hX hG le_rfl
    (stack_nice fun k hk => Stoch.nice_state hN hX (by omega))
    (fun i => Stoch.state_gen hN hX (by have := (finProdFinEquiv.symm i).1.2; omega) _) hg

/-- C162 (Gaussian noise, second moments): what the expectation step of the EM algorithm needs. The conditional mean, given all
observations, of the product of component `i` of the state of row `k` and component `j` of the state of row `l` is the product of
the smoothed means plus the covariance `crossCov`. -/
theorem C162_moments (hN : WhiteNoise μ b.P ms N) (hX : Follows b.x ms N X z) (hG : GaussianNoise μ ms.length N)
    (h : ∀ ω, Represents kf (Zs ω) U b (withData ms fun k => z k ω)) (hfull : ∀ ω, ms.length = (Zs ω).rows.length)
    (hrf : ∀ ω, (KalmanFilter.filter (Zs ω) U).run kf = (.ok (xf ω, Pf ω), kff ω))
    (hr : ∀ ω, (KalmanFilter.smooth (Zs ω) U).run kf = (.ok (xs ω, Ps ω), kfs ω)) (hpos : ms ≠ []) :
    ∃ (xh : ℕ → Ω → Fin n → ℝ) (P S : ℕ → Matrix (Fin n) (Fin n) ℝ), FilterCovs ms.length Pf P ∧
      (∀ k < ms.length, RowsHold xs Ps k (xh k) (S k)) ∧
      ∀ k < ms.length, ∀ l < ms.length, ∀ i j,
        μ[fun ω => X (k + 1) ω i * X (l + 1) ω j | MeasurableSpace.comap (firstObs z ms.length) inferInstance] =ᵐ[μ]
          fun ω => xh k ω i * xh l ω j + crossCov ms P S k l i j := by
  obtain ⟨q, P, h1, h2, h3⟩ := trajectory_rows kf Zs U b ms N X z xf Pf xs Ps kff kfs hN hX h hfull hrf hr hpos
  refine ⟨fun k => (q k).fn, P, fun k => (q k).P, h1, fun k hk => (h2 k hk).1, fun k hk l hl i j => ?_⟩
  have hg := Stoch.stack_good (T := ms.length) (Y := fun k => X (k + 1)) (C := crossCov ms P fun k => (q k).P)
    (fun k hk => (h2 k hk).2) h3
  have hbest := Stoch.best_of_gaussian' hN hX hG le_rfl
    (stack_nice fun k hk => Stoch.nice_state hN hX (by omega))
    (fun i => Stoch.state_gen hN hX (by have := (finProdFinEquiv.symm i).1.2; omega) _) hg
  have hnz : ∀ j < ms.length, Stoch.Nice μ (z j) := fun j hj => Stoch.nice_obs hN hX hj
  have n1 := Stoch.nice_state hN hX (k := k + 1) (by omega)
  have n2 := Stoch.nice_state hN hX (k := l + 1) (by omega)
  have c1 := (h2 k hk).2.calibrated n1 Stoch.one_mem_obsSpan
  have c2 := (h2 l hl).2.calibrated n2 Stoch.one_mem_obsSpan
  have key := condExp_product (μ := μ) (z := z) (K := ms.length) (Stoch.firstObs_meas hnz) (n1 i) (n2 j)
    ((q k).x i).2.2 ((q l).x j).2.2 (Stoch.affine_comp (Stoch.affine_of_mem hnz ((h2 k hk).2.mem i)))
    (Stoch.affine_comp (Stoch.affine_of_mem hnz ((h2 l hl).2.mem j))) (c1.mean i) (c2.mean j) ?_
  · have e1 := Stoch.err_coe (vb := q k) n1
    have e2 := Stoch.err_coe (vb := q l) n2
    have hcov : ∫ ω, (X (k + 1) ω i - (q k).fn ω i) * (X (l + 1) ω j - (q l).fn ω j) ∂μ =
        crossCov ms P (fun k => (q k).P) k l i j := by
      rw [← h3 k hk l hl]
      refine integral_congr_ae (.of_forall fun ω => ?_)
      simp only
      rw [← e1, ← e2]
    rw [← hcov]
    exact key
  · have hφ : Measurable fun y : Fin (ms.length * n) → ℝ =>
        (y (finProdFinEquiv (⟨k, hk⟩, i)), y (finProdFinEquiv (⟨l, hl⟩, j))) :=
      Measurable.prodMk (measurable_pi_apply _) (measurable_pi_apply _)
    have := hbest.indep.comp (ψ := id) hφ measurable_id
    have he : (fun ω => (X (k + 1) ω i - (q k).fn ω i, X (l + 1) ω j - (q l).fn ω j)) =
        (fun y : Fin (ms.length * n) → ℝ => (y (finProdFinEquiv (⟨k, hk⟩, i)), y (finProdFinEquiv (⟨l, hl⟩, j)))) ∘
          fun ω => stack ms.length (fun k => X (k + 1)) ω -
            (Stoch.stackV ms.length q (crossCov ms P fun k => (q k).P)).fn ω := by
      funext ω
      simp [Stoch.stackV_fn, stack]
    exact he ▸ this

-- C162: independent standard normal noises drive any model with unit covariances; all hypotheses are met and the calls return.
example (x₀ : Fin n → ℝ) (ms : List (ModelStep n m)) (hQ : ∀ s ∈ ms, s.Q = 1) (hR : ∀ s ∈ ms, s.R = 1) (hne : ms ≠ []) :
    let b : Belief n := ⟨x₀, 1⟩
    let kf := Ex.encode b (withData ms fun _ _ => 0)
    let U := some (Ex.encU (withData ms fun _ _ => (0 : ℝ)))
    let Zs : (Src n m → ℝ) → NDArray Fl := fun ω => Ex.encZ (withData ms fun k => Ex.exObs x₀ ms k ω)
    WhiteNoise (Ex.normals n m) b.P ms Ex.coord ∧ Follows b.x ms Ex.coord (Ex.exState x₀ ms) (Ex.exObs x₀ ms) ∧
    GaussianNoise (Ex.normals n m) ms.length (Ex.coord : Src n m → _) ∧
    (∀ ω, Represents kf (Zs ω) U b (withData ms fun k => Ex.exObs x₀ ms k ω)) ∧
    (∀ ω, ms.length = (Zs ω).rows.length) ∧
    (∀ ω, ∃ r kf', (KalmanFilter.filter (Zs ω) U).run kf = (.ok r, kf')) ∧
    (∀ ω, ∃ r kf', (KalmanFilter.smooth (Zs ω) U).run kf = (.ok r, kf')) :=
  Ex.stoch_case x₀ ms hQ hR hne

-- The gain of `crossCov` in numbers: for a random walk with unit noise and filtered variance `1` it is `1/2`.
example : crossCov (n := 1) (m := 1) [⟨1, 0, 1, 1, 1⟩, ⟨1, 0, 1, 1, 1⟩] (fun _ => 1) (fun _ => 1) 0 1 = (1 / 2 : ℝ) • 1 := by
  simp only [crossCov, chain, lagGain, ModelStep.predStateCov, Nat.zero_le, if_true, Nat.sub_zero, List.getElem?_cons_succ,
    List.getElem?_cons_zero, Option.map_some, Option.getD_some, Matrix.transpose_one, Matrix.one_mul, Matrix.mul_one]
  refine Matrix.inv_eq_right_inv ?_
  rw [Matrix.mul_smul, Matrix.mul_one, smul_add, ← add_smul]
  norm_num

end KK
