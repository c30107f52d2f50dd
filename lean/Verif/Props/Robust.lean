import Verif.Proofs.Robust
import Verif.Props.Stochastic

/-!
# C68, C69: noise that is not as specified
-/

set_option linter.unusedSectionVars false

namespace KK

open Matrix MeasureTheory

variable [Platform] {n m : ℕ} {Ω : Type} [MeasurableSpace Ω] {μ : Measure Ω}

section
variable (kf : KalmanFilter Fl) (Zs : Ω → NDArray Fl) (U : Option (NDArray Fl)) (b : Belief n)
  (ms : List (ModelStep n m)) (N : Src n m → Ω → ℝ) (X : ℕ → Ω → Fin n → ℝ) (z : ℕ → Ω → Fin m → ℝ)
  (xs Ps : Ω → List (Arr Fl)) (kf' : Ω → KalmanFilter Fl)

section rows
variable (h : ∀ ω, Represents kf (Zs ω) U b (withData ms fun k => z k ω))

include h in
theorem filter_solvable (hr : ∀ ω, (KalmanFilter.filter (Zs ω) U).run kf = (.ok (xs ω, Ps ω), kf' ω)) (ω : Ω) :
    Solvable b (withData ms fun k => z k ω) :=
  (C25_linalgerror kf (Zs ω) U b _ (h ω)).1.1 ⟨_, _, hr ω⟩

include h in
theorem rows_of_filtered (hr : ∀ ω, (KalmanFilter.filter (Zs ω) U).run kf = (.ok (xs ω, Ps ω), kf' ω)) (k : ℕ)
    (hk : k < ms.length) (xh : Ω → Fin n → ℝ) (P : Matrix (Fin n) (Fin n) ℝ)
    (hv : ∀ ω, (filtered b (withData ms fun k => z k ω))[k]? = some ⟨xh ω, P⟩) : RowsHold xs Ps k xh P := by
  intro ω
  have hret := (h ω).returns (filter_solvable kf Zs U b ms z xs Ps kf' h hr ω)
  rw [FilterReturns, hr ω] at hret
  simp only [Prod.mk.injEq, Except.ok.injEq] at hret
  have hl : k < (filtered b (withData ms fun k => z k ω)).length := by
    rw [filtered_length, Stoch.withData_length]; exact hk
  constructor
  · refine ⟨stateRow ⟨xh ω, P⟩, ?_, ⟨_, rfl⟩⟩
    rw [hret.1.1, List.getElem?_append_left (by rw [List.length_map]; exact hl), List.getElem?_map, hv ω]
    rfl
  · refine ⟨covRow ⟨xh ω, P⟩, ?_, ⟨_, rfl⟩⟩
    rw [hret.1.2, List.getElem?_append_left (by rw [List.length_map]; exact hl), List.getElem?_map, hv ω]
    rfl

variable (hfull : ∀ ω, ms.length = (Zs ω).rows.length) (hne : ms ≠ [])
include h hfull hne

theorem smooth_solvable (hr : ∀ ω, (KalmanFilter.smooth (Zs ω) U).run kf = (.ok (xs ω, Ps ω), kf' ω)) (ω : Ω) :
    Solvable b (withData ms fun k => z k ω) ∧ SmoothSolvable b (withData ms fun k => z k ω) := by
  by_contra hn
  obtain ⟨kf'', he⟩ := (h ω).smoothSingular (by rw [Stoch.withData_length]; exact hfull ω) (fun hn => by
    have := congrArg List.length hn
    rw [Stoch.withData_length, List.length_nil] at this
    exact hne (List.eq_nil_of_length_eq_zero this)) hn
  rw [hr ω] at he
  simp at he

theorem rows_of_smoothed (hr : ∀ ω, (KalmanFilter.smooth (Zs ω) U).run kf = (.ok (xs ω, Ps ω), kf' ω)) (k : ℕ)
    (xh : Ω → Fin n → ℝ) (P : Matrix (Fin n) (Fin n) ℝ)
    (hv : ∀ ω, (smoothed b (withData ms fun k => z k ω))[k]? = some ⟨xh ω, P⟩) : RowsHold xs Ps k xh P := by
  intro ω
  have hs := smooth_solvable kf Zs U b ms z xs Ps kf' h hfull hne hr ω
  have hret := (h ω).smoothReturns (by rw [Stoch.withData_length]; exact hfull ω) (fun hn => by
    have := congrArg List.length hn
    rw [Stoch.withData_length, List.length_nil] at this
    exact hne (List.eq_nil_of_length_eq_zero this)) hs.1 hs.2
  rw [SmoothReturns, hr ω] at hret
  simp only [Prod.mk.injEq, Except.ok.injEq] at hret
  constructor
  · refine ⟨stateRow ⟨xh ω, P⟩, ?_, ⟨_, rfl⟩⟩
    rw [hret.1.1, List.getElem?_map, hv ω]
    rfl
  · refine ⟨covRow ⟨xh ω, P⟩, ?_, ⟨_, rfl⟩⟩
    rw [hret.1.2, List.getElem?_map, hv ω]
    rfl

end rows

/-- C68: whatever the covariances, correlations and distribution of the noise, and whatever `Pk`, `Q`, `R` the filter was
told (even if they have nothing to do with the noise), every mean returned by `filter` is an unbiased estimate of the
true state, as soon as the noises have zero mean and the system follows `A`, `B`, `H` and the initial mean. -/
theorem C68_unbiased (hN : ZeroMeanNoise μ ms.length N) (hX : Follows b.x ms N X z)
    (h : ∀ ω, Represents kf (Zs ω) U b (withData ms fun k => z k ω)) [Nonempty Ω]
    (hr : ∀ ω, (KalmanFilter.filter (Zs ω) U).run kf = (.ok (xs ω, Ps ω), kf' ω)) (k : ℕ) (hk : k < ms.length) :
    ∃ (xh : Ω → Fin n → ℝ) (P : Matrix (Fin n) (Fin n) ℝ), RowsHold xs Ps k xh P ∧ Unbiased μ (X (k + 1)) xh := by
  obtain ⟨vb, h1, h2⟩ := Stoch.filter_fn b ms z hk (Classical.arbitrary Ω)
  refine ⟨_, _, rows_of_filtered kf Zs U b ms z xs Ps kf' h hr k hk _ _ h2, fun i => ?_⟩
  exact Stoch.driven_filter (Stoch.driven hN hX) k vb h1 i

/-- C68 (smoother): the same for the means returned by `smooth`. -/
theorem C68_unbiased_smooth (hN : ZeroMeanNoise μ ms.length N) (hX : Follows b.x ms N X z)
    (h : ∀ ω, Represents kf (Zs ω) U b (withData ms fun k => z k ω)) [Nonempty Ω]
    (hfull : ∀ ω, ms.length = (Zs ω).rows.length)
    (hr : ∀ ω, (KalmanFilter.smooth (Zs ω) U).run kf = (.ok (xs ω, Ps ω), kf' ω)) (k : ℕ) (hk : k < ms.length) :
    ∃ (xh : Ω → Fin n → ℝ) (P : Matrix (Fin n) (Fin n) ℝ), RowsHold xs Ps k xh P ∧ Unbiased μ (X (k + 1)) xh := by
  have hrow := fun hne => rows_of_smoothed kf Zs U b ms z xs Ps kf' h hfull hne hr k
  clear hr h hfull
  rcases ms with _ | ⟨s, ms⟩
  · simp at hk
  obtain ⟨vb, h1, h2⟩ := Stoch.smooth_fn b ms z s hk (Classical.arbitrary Ω)
  refine ⟨_, _, hrow (by simp) _ _ h2, fun i => ?_⟩
  exact Stoch.driven_smooth (Stoch.driven hN hX).step k vb h1 i

/-- C69: if the noises are uncorrelated and *at most* as large as `Pk`, `Q`, `R` say, every covariance returned by
`filter` is conservative: the mean square error of any linear functional of the state is at most what the returned
covariance says. -/
theorem C69_conservative (hN : NoiseWithin μ b.P ms N) (hX : Follows b.x ms N X z) (hsym : Symmetric b.P ms)
    (h : ∀ ω, Represents kf (Zs ω) U b (withData ms fun k => z k ω)) [Nonempty Ω]
    (hr : ∀ ω, (KalmanFilter.filter (Zs ω) U).run kf = (.ok (xs ω, Ps ω), kf' ω)) (k : ℕ) (hk : k < ms.length) :
    ∃ (xh : Ω → Fin n → ℝ) (P : Matrix (Fin n) (Fin n) ℝ), RowsHold xs Ps k xh P ∧ Conservative μ (X (k + 1)) xh P := by
  obtain ⟨vb, hv, hg⟩ := Stoch.filter_co hX hsym
    ⟨Classical.arbitrary Ω, filter_solvable kf Zs U b ms z xs Ps kf' h hr _⟩ hk
  exact ⟨_, _, rows_of_filtered kf Zs U b ms z xs Ps kf' h hr k hk _ _ hv,
    Stoch.conservative_of_good hN hX rfl (by omega) (Stoch.upTo_le _ _ _ (Submodule.mem_span_singleton_self _)) hg⟩

/-- C69 (smoother): the same for the covariances returned by `smooth`. -/
theorem C69_conservative_smooth (hN : NoiseWithin μ b.P ms N) (hX : Follows b.x ms N X z) (hsym : Symmetric b.P ms)
    (h : ∀ ω, Represents kf (Zs ω) U b (withData ms fun k => z k ω)) [Nonempty Ω]
    (hfull : ∀ ω, ms.length = (Zs ω).rows.length)
    (hr : ∀ ω, (KalmanFilter.smooth (Zs ω) U).run kf = (.ok (xs ω, Ps ω), kf' ω)) (k : ℕ) (hk : k < ms.length) :
    ∃ (xh : Ω → Fin n → ℝ) (P : Matrix (Fin n) (Fin n) ℝ), RowsHold xs Ps k xh P ∧ Conservative μ (X (k + 1)) xh P := by
  have hne : ms ≠ [] := fun hn => by simp [hn] at hk
  obtain ⟨vb, hv, hg⟩ := Stoch.smooth_co hX hsym
    ⟨Classical.arbitrary Ω, smooth_solvable kf Zs U b ms z xs Ps kf' h hfull hne hr _⟩ hk
  exact ⟨_, _, rows_of_smoothed kf Zs U b ms z xs Ps kf' h hfull hne hr k _ _ hv,
    Stoch.conservative_of_good hN hX rfl (by omega) (Stoch.upTo_le _ _ _ (Submodule.mem_span_singleton_self _)) hg⟩

end

/-! ### Hypotheses are met

Independent standard normal noises drive a model whose told covariances are twice too large. -/

theorem Ex.coord_dot {d : ℕ} (src : Fin d → Src n m) (hsrc : Function.Injective src) (c : Fin d → ℝ) :
    ∫ ω, (c ⬝ᵥ fun i => Ex.coord (src i) ω) ^ 2 ∂(Ex.normals n m) = c ⬝ᵥ c := by
  have hint : ∀ i, MemLp (fun ω => c i * Ex.coord (src i) ω) 2 (Ex.normals n m) := fun i =>
    (Ex.coord_sq (src i)).const_mul (c i)
  have := Stoch.int_sq_sum (fun i ω => c i * Ex.coord (src i) ω) hint fun i j hij => by
    have : ∀ ω, c i * Ex.coord (src i) ω * (c j * Ex.coord (src j) ω) =
        c i * c j * (Ex.coord (src i) ω * Ex.coord (src j) ω) := fun ω => by ring
    simp only [this]
    rw [integral_const_mul, Ex.coord_cov fun h => hij (hsrc h), mul_zero]
  simp only [dotProduct]
  rw [this]
  refine Finset.sum_congr rfl fun i _ => ?_
  have : ∀ ω, (c i * Ex.coord (src i) ω) ^ 2 = c i * c i * (Ex.coord (src i) ω * Ex.coord (src i) ω) := fun ω => by ring
  simp only [this]
  rw [integral_const_mul, Ex.coord_var, mul_one]

theorem Ex.dot_two {d : ℕ} (c : Fin d → ℝ) : c ⬝ᵥ c ≤ c ⬝ᵥ ((2 : ℝ) • (1 : Matrix (Fin d) (Fin d) ℝ)) *ᵥ c := by
  rw [Matrix.smul_mulVec, Matrix.one_mulVec, dotProduct_smul, smul_eq_mul]
  have : 0 ≤ c ⬝ᵥ c := Finset.sum_nonneg fun i _ => mul_self_nonneg _
  linarith

theorem Ex.normals_within (ms : List (ModelStep n m)) (hQ : ∀ s ∈ ms, s.Q = (2 : ℝ) • 1) (hR : ∀ s ∈ ms, s.R = (2 : ℝ) • 1) :
    NoiseWithin (Ex.normals n m) ((2 : ℝ) • 1) ms Ex.coord where
  sq a _ := Ex.coord_sq a
  mean a _ := Ex.coord_mean a
  uncorrelated a a' _ _ h := Ex.coord_cov fun e => h (by subst e; rcases a with i | ⟨k, i⟩ | ⟨k, i⟩ <;> simp [Src.SameVector])
  initial c := by
    rw [Ex.coord_dot (fun i => .e i) (fun i j h => by simpa using h)]; exact Ex.dot_two c
  process k s hs c := by
    rw [Ex.coord_dot (fun i => .w k i) (fun i j h => by simpa using h), hQ s (List.mem_of_getElem? hs)]; exact Ex.dot_two c
  measurement k s hs c := by
    rw [Ex.coord_dot (fun i => .v k i) (fun i j h => by simpa using h), hR s (List.mem_of_getElem? hs)]; exact Ex.dot_two c

example (x₀ : Fin n → ℝ) (ms : List (ModelStep n m)) (hQ : ∀ s ∈ ms, s.Q = (2 : ℝ) • 1)
    (hR : ∀ s ∈ ms, s.R = (2 : ℝ) • 1) (hne : ms ≠ []) :
    let b : Belief n := ⟨x₀, (2 : ℝ) • 1⟩
    let kf := Ex.encode b (withData ms fun _ _ => 0)
    let U := some (Ex.encU (withData ms fun _ _ => (0 : ℝ)))
    let Zs : (Src n m → ℝ) → NDArray Fl := fun ω => Ex.encZ (withData ms fun k => Ex.exObs x₀ ms k ω)
    NoiseWithin (Ex.normals n m) b.P ms Ex.coord ∧ ZeroMeanNoise (Ex.normals n m) ms.length (Ex.coord : Src n m → _) ∧
    Follows b.x ms Ex.coord (Ex.exState x₀ ms) (Ex.exObs x₀ ms) ∧ Symmetric b.P ms ∧
    (∀ ω, Represents kf (Zs ω) U b (withData ms fun k => Ex.exObs x₀ ms k ω)) ∧
    (∀ ω, ms.length = (Zs ω).rows.length) ∧
    (∀ ω, ∃ r kf', (KalmanFilter.filter (Zs ω) U).run kf = (.ok r, kf')) ∧
    (∀ ω, ∃ r kf', (KalmanFilter.smooth (Zs ω) U).run kf = (.ok r, kf')) := by
  intro b kf U Zs
  have h2 : ∀ {d : ℕ}, ((2 : ℝ) • (1 : Matrix (Fin d) (Fin d) ℝ)).PosDef := Matrix.PosDef.one.smul (by norm_num)
  have hrep : ∀ ω, Represents kf (Zs ω) U b (withData ms fun k => Ex.exObs x₀ ms k ω) := by
    intro ω
    have := Ex.encode_represents b (withData ms fun k => Ex.exObs x₀ ms k ω)
    obtain ⟨h1, h2⟩ := Ex.encode_withData b ms (fun k => Ex.exObs x₀ ms k ω) fun _ _ => 0
    rwa [h1, h2] at this
  have hP : b.P.PosDef := h2
  have hpd : ∀ z, ∀ s ∈ withData ms z, PdStep s := by
    intro z s hs
    obtain ⟨s', h1, h3, h4⟩ := Ex.withData_mem hs
    have h5 : s.Q = (2 : ℝ) • 1 := h3.trans (hQ s' h1)
    have h6 : s.R = (2 : ℝ) • 1 := h4.trans (hR s' h1)
    exact ⟨h5 ▸ h2.posSemidef, h6 ▸ h2, .inr (h5 ▸ h2)⟩
  have hlen : ∀ ω, ms.length = (Zs ω).rows.length := fun ω => by rw [Ex.encZ_length, Stoch.withData_length]
  refine ⟨Ex.normals_within ms hQ hR, ⟨fun a _ => (Ex.coord_sq a).integrable (by norm_num), fun a _ => Ex.coord_mean a⟩,
    Ex.ex_follows x₀ ms, ⟨by simp [b], fun s hs => ⟨by simp [hQ s hs], by simp [hR s hs]⟩⟩, hrep, hlen,
    fun ω => ⟨_, _, (hrep ω).returns (solvable_pd b _ hP (hpd _))⟩, fun ω => ?_⟩
  refine ⟨_, _, (hrep ω).smoothReturns ?_ ?_ (solvable_pd b _ hP (hpd _)) (smoothSolvable_pd b _ hP (hpd _))⟩
  · rw [Stoch.withData_length]; exact hlen ω
  · intro hn
    have := congrArg List.length hn
    rw [Stoch.withData_length, List.length_nil] at this
    exact hne (List.eq_nil_of_length_eq_zero this)

end KK
