import Verif.Proofs.StochRun
import Verif.Proofs.Transfer
import Verif.Test.Encode
import Verif.Test.GaussianSpace

/-!
# C45 - C48: the filter and the smoother are calibrated and optimal

The observations are random variables on a probability space, produced by a linear system that follows the model the
object was built with.  `filter` (or `smooth`) is called, with the same object, on the observations of every sample
point.
-/

set_option linter.unusedSectionVars false

namespace KK

open Matrix MeasureTheory

variable [Platform] {n m : ℕ} {Ω : Type} [MeasurableSpace Ω] {μ : Measure Ω} [IsProbabilityMeasure μ]

/-- Row `k` of the returned means is the random vector `xh`, and row `k` of the returned covariances is the (non-random)
matrix `P`. -/
def RowsHold (xs Ps : Ω → List (Arr Fl)) (k : ℕ) (xh : Ω → Fin n → ℝ) (P : Matrix (Fin n) (Fin n) ℝ) : Prop :=
  ∀ ω, (∃ a, (xs ω)[k]? = some a ∧ VecIs (xh ω) a) ∧ ∃ a, (Ps ω)[k]? = some a ∧ MatIs P a

section filter
variable (kf : KalmanFilter Fl) (Zs : Ω → NDArray Fl) (U : Option (NDArray Fl)) (b : Belief n)
  (ms : List (ModelStep n m)) (N : Src n m → Ω → ℝ) (X : ℕ → Ω → Fin n → ℝ) (z : ℕ → Ω → Fin m → ℝ)
  (hN : WhiteNoise μ b.P ms N) (hX : Follows b.x ms N X z)
  (h : ∀ ω, Represents kf (Zs ω) U b (withData ms fun k => z k ω))
  (xs Ps : Ω → List (Arr Fl)) (kf' : Ω → KalmanFilter Fl)

include hN hX h in
theorem filter_rows (hr : ∀ ω, (KalmanFilter.filter (Zs ω) U).run kf = (.ok (xs ω, Ps ω), kf' ω)) (k : ℕ)
    (hk : k < ms.length) :
    ∃ vb : Stoch.VB (Stoch.L2 μ) n, Stoch.Good (Stoch.ip μ) (Stoch.obsSpan μ z (k + 1)) (Stoch.liftV μ (X (k + 1))) vb ∧
      RowsHold xs Ps k vb.fn vb.P := by
  have hs : ∀ ω, Solvable b (withData ms fun k => z k ω) := fun ω =>
    (C25_linalgerror kf (Zs ω) U b _ (h ω)).1.1 ⟨_, _, hr ω⟩
  obtain ⟨ω₀⟩ : Nonempty Ω := μ.nonempty_of_neZero
  obtain ⟨vb, hg, hv⟩ := Stoch.filter_core hN hX ⟨ω₀, hs ω₀⟩ hk
  refine ⟨vb, hg, fun ω => ?_⟩
  have hret := (h ω).returns (hs ω)
  rw [FilterReturns, hr ω] at hret
  simp only [Prod.mk.injEq, Except.ok.injEq] at hret
  have hl : k < (filtered b (withData ms fun k => z k ω)).length := by
    rw [filtered_length, Stoch.withData_length]; exact hk
  constructor
  · refine ⟨stateRow ⟨vb.fn ω, vb.P⟩, ?_, ⟨_, rfl⟩⟩
    rw [hret.1.1, List.getElem?_append_left (by rw [List.length_map]; exact hl), List.getElem?_map, hv ω]
    rfl
  · refine ⟨covRow ⟨vb.fn ω, vb.P⟩, ?_, ⟨_, rfl⟩⟩
    rw [hret.1.2, List.getElem?_append_left (by rw [List.length_map]; exact hl), List.getElem?_map, hv ω]
    rfl

/-- C45: if the system follows the model with zero-mean square-integrable uncorrelated noises of covariances `Pk`, `Q`,
`R` (whatever their distribution), then at every step the returned mean is an unbiased estimate of the true state, and
the returned covariance, which does not depend on the data, is exactly the covariance of its error. -/
theorem C45_calibrated (hN : WhiteNoise μ b.P ms N) (hX : Follows b.x ms N X z)
    (h : ∀ ω, Represents kf (Zs ω) U b (withData ms fun k => z k ω))
    (hr : ∀ ω, (KalmanFilter.filter (Zs ω) U).run kf = (.ok (xs ω, Ps ω), kf' ω)) (k : ℕ) (hk : k < ms.length) :
    ∃ (xh : Ω → Fin n → ℝ) (P : Matrix (Fin n) (Fin n) ℝ), RowsHold xs Ps k xh P ∧ Calibrated μ (X (k + 1)) xh P := by
  obtain ⟨vb, hg, hv⟩ := filter_rows kf Zs U b ms N X z hN hX h xs Ps kf' hr k hk
  exact ⟨vb.fn, vb.P, hv, hg.calibrated (Stoch.nice_state hN hX (by omega)) Stoch.one_mem_obsSpan⟩

/-- C46: under the same hypotheses the returned mean of step `k` is an affine function of the observations up to step
`k`, and no affine function of them has a smaller mean square error, for any linear functional of the state. -/
theorem C46_best_affine (hN : WhiteNoise μ b.P ms N) (hX : Follows b.x ms N X z)
    (h : ∀ ω, Represents kf (Zs ω) U b (withData ms fun k => z k ω))
    (hr : ∀ ω, (KalmanFilter.filter (Zs ω) U).run kf = (.ok (xs ω, Ps ω), kf' ω)) (k : ℕ) (hk : k < ms.length) :
    ∃ (xh : Ω → Fin n → ℝ) (P : Matrix (Fin n) (Fin n) ℝ), RowsHold xs Ps k xh P ∧
      BestAffine μ z (k + 1) (X (k + 1)) xh := by
  obtain ⟨vb, hg, hv⟩ := filter_rows kf Zs U b ms N X z hN hX h xs Ps kf' hr k hk
  exact ⟨vb.fn, vb.P, hv, hg.bestAffine (Stoch.nice_state hN hX (by omega))
    fun j hj => Stoch.nice_obs hN hX (by omega)⟩

/-- C47: if moreover the noises are jointly Gaussian, the returned mean of step `k` is the conditional expectation of
the state given the observations up to step `k`, its error is independent of them, and no measurable function of them
has a smaller mean square error, for any linear functional of the state. -/
theorem C47_best_estimate (hN : WhiteNoise μ b.P ms N) (hX : Follows b.x ms N X z) (hG : GaussianNoise μ ms.length N)
    (h : ∀ ω, Represents kf (Zs ω) U b (withData ms fun k => z k ω))
    (hr : ∀ ω, (KalmanFilter.filter (Zs ω) U).run kf = (.ok (xs ω, Ps ω), kf' ω)) (k : ℕ) (hk : k < ms.length) :
    ∃ (xh : Ω → Fin n → ℝ) (P : Matrix (Fin n) (Fin n) ℝ), RowsHold xs Ps k xh P ∧
      BestEstimate μ z (k + 1) (X (k + 1)) xh := by
  obtain ⟨vb, hg, hv⟩ := filter_rows kf Zs U b ms N X z hN hX h xs Ps kf' hr k hk
  exact ⟨vb.fn, vb.P, hv, Stoch.best_of_gaussian hN hX hG (by omega) (by omega) hg⟩

include hN hX h in
theorem smooth_rows (hfull : ∀ ω, ms.length = (Zs ω).rows.length)
    (hr : ∀ ω, (KalmanFilter.smooth (Zs ω) U).run kf = (.ok (xs ω, Ps ω), kf' ω)) (k : ℕ) (hk : k < ms.length) :
    ∃ vb : Stoch.VB (Stoch.L2 μ) n, Stoch.Good (Stoch.ip μ) (Stoch.obsSpan μ z ms.length) (Stoch.liftV μ (X (k + 1))) vb ∧
      RowsHold xs Ps k vb.fn vb.P := by
  have hlen : ∀ ω, (withData ms fun k => z k ω).length = (Zs ω).rows.length := fun ω => by
    rw [Stoch.withData_length]; exact hfull ω
  have hne : ∀ ω, (withData ms fun k => z k ω) ≠ [] := fun ω hn => by
    have := congrArg List.length hn
    rw [Stoch.withData_length, List.length_nil] at this
    omega
  have hs : ∀ ω, Solvable b (withData ms fun k => z k ω) ∧ SmoothSolvable b (withData ms fun k => z k ω) := by
    intro ω
    by_contra hn
    obtain ⟨kf'', he⟩ := (h ω).smoothSingular (hlen ω) (hne ω) hn
    rw [hr ω] at he
    simp at he
  obtain ⟨ω₀⟩ : Nonempty Ω := μ.nonempty_of_neZero
  obtain ⟨vb, hg, hv⟩ := Stoch.smooth_core hN hX ⟨ω₀, hs ω₀⟩ hk
  refine ⟨vb, hg, fun ω => ?_⟩
  have hret := (h ω).smoothReturns (hlen ω) (hne ω) (hs ω).1 (hs ω).2
  rw [SmoothReturns, hr ω] at hret
  simp only [Prod.mk.injEq, Except.ok.injEq] at hret
  constructor
  · refine ⟨stateRow ⟨vb.fn ω, vb.P⟩, ?_, ⟨_, rfl⟩⟩
    rw [hret.1.1, List.getElem?_map, hv ω]
    rfl
  · refine ⟨covRow ⟨vb.fn ω, vb.P⟩, ?_, ⟨_, rfl⟩⟩
    rw [hret.1.2, List.getElem?_map, hv ω]
    rfl

/-- C48: the smoothed means are unbiased estimates, the smoothed covariances are exactly their error covariances, and
each is the best affine estimate given *all* observations; for jointly Gaussian noise it is the conditional
expectation given all observations, and the best of all measurable estimates. -/
theorem C48_smoother (hN : WhiteNoise μ b.P ms N) (hX : Follows b.x ms N X z)
    (h : ∀ ω, Represents kf (Zs ω) U b (withData ms fun k => z k ω)) (hfull : ∀ ω, ms.length = (Zs ω).rows.length)
    (hr : ∀ ω, (KalmanFilter.smooth (Zs ω) U).run kf = (.ok (xs ω, Ps ω), kf' ω)) (k : ℕ) (hk : k < ms.length) :
    ∃ (xh : Ω → Fin n → ℝ) (P : Matrix (Fin n) (Fin n) ℝ), RowsHold xs Ps k xh P ∧ Calibrated μ (X (k + 1)) xh P ∧
      BestAffine μ z ms.length (X (k + 1)) xh ∧
      (GaussianNoise μ ms.length N → BestEstimate μ z ms.length (X (k + 1)) xh) := by
  obtain ⟨vb, hg, hv⟩ := smooth_rows kf Zs U b ms N X z hN hX h xs Ps kf' hfull hr k hk
  have hnice : ∀ j < ms.length, Stoch.Nice μ (z j) := fun j hj => Stoch.nice_obs hN hX hj
  exact ⟨vb.fn, vb.P, hv, hg.calibrated (Stoch.nice_state hN hX (by omega)) Stoch.one_mem_obsSpan,
    hg.bestAffine (Stoch.nice_state hN hX (by omega)) hnice, fun hG =>
    Stoch.best_of_gaussian hN hX hG (by omega) (by omega) hg⟩

end filter

/-! ### Hypotheses are met

Independent standard normal noises drive an arbitrary linear model with unit covariances; the encoded calls represent
it at every sample point, all of them return, and the model is not trivial. -/

theorem Ex.withData_mem {s : LinStep n m} {ms : List (ModelStep n m)} {z : ℕ → Fin m → ℝ} (h : s ∈ withData ms z) :
    ∃ s' ∈ ms, s.Q = s'.Q ∧ s.R = s'.R := by
  induction ms generalizing z with
  | nil => simp [withData] at h
  | cons s' ms ih =>
    rw [withData, List.mem_cons] at h
    rcases h with rfl | h
    · exact ⟨s', by simp, rfl, rfl⟩
    · obtain ⟨s'', h1, h2⟩ := ih h
      exact ⟨s'', by simp [h1], h2⟩

/-- The arrays other than the observations do not depend on the data. -/
theorem Ex.encode_withData (b : Belief n) (ms : List (ModelStep n m)) (z z' : ℕ → Fin m → ℝ) :
    Ex.encode b (withData ms z) = Ex.encode b (withData ms z') ∧ Ex.encU (withData ms z) = Ex.encU (withData ms z') := by
  have h : ∀ {β : Type} (f : LinStep n m → β), (∀ (s : ModelStep n m) (y y' : Fin m → ℝ), f (s.withObs y) = f (s.withObs y')) →
      (withData ms z).map f = (withData ms z').map f := by
    intro β f hf
    induction ms generalizing z z' with
    | nil => rfl
    | cons s ms ih => rw [withData, withData, List.map_cons, List.map_cons, hf s (z 0) (z' 0), ih]
  constructor
  · unfold Ex.encode
    rw [h _ fun _ _ _ => rfl, h _ fun _ _ _ => rfl, h _ fun _ _ _ => rfl, h _ fun _ _ _ => rfl, h _ fun _ _ _ => rfl]
  · unfold Ex.encU
    rw [h _ fun _ _ _ => rfl]

theorem Ex.stoch_case (x₀ : Fin n → ℝ) (ms : List (ModelStep n m)) (hQ : ∀ s ∈ ms, s.Q = 1) (hR : ∀ s ∈ ms, s.R = 1)
    (hne : ms ≠ []) :
    let b : Belief n := ⟨x₀, 1⟩
    let kf := Ex.encode b (withData ms fun _ _ => 0)
    let U := some (Ex.encU (withData ms fun _ _ => (0 : ℝ)))
    let Zs : (Src n m → ℝ) → NDArray Fl := fun ω => Ex.encZ (withData ms fun k => Ex.exObs x₀ ms k ω)
    WhiteNoise (Ex.normals n m) b.P ms Ex.coord ∧ Follows b.x ms Ex.coord (Ex.exState x₀ ms) (Ex.exObs x₀ ms) ∧
    GaussianNoise (Ex.normals n m) ms.length (Ex.coord : Src n m → _) ∧
    (∀ ω, Represents kf (Zs ω) U b (withData ms fun k => Ex.exObs x₀ ms k ω)) ∧
    (∀ ω, ms.length = (Zs ω).rows.length) ∧
    (∀ ω, ∃ r kf', (KalmanFilter.filter (Zs ω) U).run kf = (.ok r, kf')) ∧
    (∀ ω, ∃ r kf', (KalmanFilter.smooth (Zs ω) U).run kf = (.ok r, kf')) := by
  intro b kf U Zs
  have hrep : ∀ ω, Represents kf (Zs ω) U b (withData ms fun k => Ex.exObs x₀ ms k ω) := by
    intro ω
    have := Ex.encode_represents b (withData ms fun k => Ex.exObs x₀ ms k ω)
    obtain ⟨h1, h2⟩ := Ex.encode_withData b ms (fun k => Ex.exObs x₀ ms k ω) fun _ _ => 0
    rwa [h1, h2] at this
  have hP : b.P.PosDef := Matrix.PosDef.one
  have hpd : ∀ z, ∀ s ∈ withData ms z, PdStep s := by
    intro z s hs
    obtain ⟨s', h1, h2, h3⟩ := Ex.withData_mem hs
    have h4 : s.Q = 1 := h2.trans (hQ s' h1)
    have h5 : s.R = 1 := h3.trans (hR s' h1)
    exact ⟨h4 ▸ Matrix.PosSemidef.one, h5 ▸ Matrix.PosDef.one, .inr (h4 ▸ Matrix.PosDef.one)⟩
  have hlen : ∀ ω, ms.length = (Zs ω).rows.length := fun ω => by rw [Ex.encZ_length, Stoch.withData_length]
  refine ⟨Ex.normals_white ms hQ hR, Ex.ex_follows x₀ ms, Ex.normals_gaussian _, hrep, hlen, fun ω => ?_, fun ω => ?_⟩
  · exact ⟨_, _, (hrep ω).returns (solvable_pd b _ hP (hpd _))⟩
  · refine ⟨_, _, (hrep ω).smoothReturns ?_ ?_ (solvable_pd b _ hP (hpd _)) (smoothSolvable_pd b _ hP (hpd _))⟩
    · rw [Stoch.withData_length]; exact hlen ω
    · intro hn
      have := congrArg List.length hn
      rw [Stoch.withData_length, List.length_nil] at this
      exact hne (List.eq_nil_of_length_eq_zero this)

end KK
