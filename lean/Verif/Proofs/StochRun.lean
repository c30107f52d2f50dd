import Verif.Proofs.StochBest
import Verif.Props.Smoother

/-!
# The random run
-/

set_option linter.unusedSectionVars false

namespace KK

open Matrix MeasureTheory ProbabilityTheory

namespace Stoch

variable {Ω : Type} [MeasurableSpace Ω] {μ : Measure Ω} [IsProbabilityMeasure μ] {n m : ℕ}
  {b : Belief n} {ms : List (ModelStep n m)} {N : Src n m → Ω → ℝ} {X : ℕ → Ω → Fin n → ℝ}
  {z : ℕ → Ω → Fin m → ℝ}

theorem withData_congr (ms : List (ModelStep n m)) {z z' : ℕ → Fin m → ℝ} (h : ∀ k < ms.length, z k = z' k) :
    withData ms z = withData ms z' := by
  induction ms generalizing z z' with
  | nil => rfl
  | cons s ms ih =>
    rw [withData, withData, h 0 (by simp), ih fun k hk => h (k + 1) (by simpa using hk)]

theorem withData_length (ms : List (ModelStep n m)) (z : ℕ → Fin m → ℝ) : (withData ms z).length = ms.length := by
  induction ms generalizing z with
  | nil => rfl
  | cons s ms ih => rw [withData, List.length_cons, List.length_cons, ih]

theorem nice_state (hN : WhiteNoise μ b.P ms N) (hX : Follows b.x ms N X z) {k : ℕ} (hk : k ≤ ms.length) : Nice μ (X k) :=
  fun i => state_lift hN hX k hk i

theorem nice_obs (hN : WhiteNoise μ b.P ms N) (hX : Follows b.x ms N X z) {k : ℕ} (hk : k < ms.length) : Nice μ (z k) :=
  fun i => obs_lift hN hX k hk i

theorem data_eval (hN : WhiteNoise μ b.P ms N) (hX : Follows b.x ms N X z) (ω : Ω) :
    withData ms (fun k i => ev ω (liftV μ (z k) i)) = withData ms fun k => z k ω :=
  withData_congr ms fun k hk => funext fun i => (nice_obs hN hX hk).coe i ω

theorem bV_eval (ω : Ω) : (bV μ b).eval (ev ω) = b := by
  refine Belief.ext (funext fun i => ?_) rfl
  show b.x i * 1 = b.x i
  rw [mul_one]

/-- The random filtered beliefs. -/
theorem filter_core (hN : WhiteNoise μ b.P ms N) (hX : Follows b.x ms N X z)
    (hs : ∃ ω, Solvable b (withData ms fun k => z k ω)) {k : ℕ} (hk : k < ms.length) :
    ∃ vb : VB (L2 μ) n, Good (ip μ) (obsSpan μ z (k + 1)) (liftV μ (X (k + 1))) vb ∧
      ∀ ω, (filtered b (withData ms fun k => z k ω))[k]? = some ⟨vb.fn ω, vb.P⟩ := by
  obtain ⟨ω₀, hs⟩ := hs
  have hv : VSolvable (one μ) (bV μ b) ms fun k => liftV μ (z k) := by
    rw [vsolvable_eval (ev ω₀) (ev_one ω₀), data_eval hN hX, bV_eval]; exact hs
  have hlen : k < (vfiltered (one μ) (bV μ b) ms fun k => liftV μ (z k)).length := by
    have := congrArg List.length (vfiltered_eval (ev ω₀) (ev_one ω₀) (bV μ b) ms fun k => liftV μ (z k))
    rw [List.length_map, filtered_length, withData_length] at this
    omega
  refine ⟨_, filter_good ip_symm (sys hN hX) hv k _ (List.getElem?_eq_getElem hlen), fun ω => ?_⟩
  have := vfiltered_eval (ev ω) (ev_one ω) (bV μ b) ms fun k => liftV μ (z k)
  rw [data_eval hN hX, bV_eval] at this
  rw [← this, List.getElem?_map, List.getElem?_eq_getElem hlen]
  rfl

/-- The random filtered beliefs (preceded by the initial one), and the predictions made from them. -/
theorem predict_core (hN : WhiteNoise μ b.P ms N) (hX : Follows b.x ms N X z)
    (hs : ∃ ω, Solvable b (withData ms fun k => z k ω)) :
    ∃ vb : ℕ → VB (L2 μ) n, vb 0 = bV μ b ∧
      (∀ k < ms.length, ∀ ω, (filtered b (withData ms fun k => z k ω))[k]? = some ⟨(vb (k + 1)).fn ω, (vb (k + 1)).P⟩) ∧
      ∀ k s, ms[k]? = some s → Good (ip μ) (obsSpan μ z k) (liftV μ (X (k + 1))) (vpredict (one μ) s (vb k)) ∧
        Good (ip μ) (obsSpan μ z k) (liftV μ (z k))
          ⟨act s.H (vpredict (one μ) s (vb k)).x, innovCov s.H (vpredict (one μ) s (vb k)).P s.R⟩ ∧
        (innovCov s.H (vpredict (one μ) s (vb k)).P s.R).det ≠ 0 := by
  obtain ⟨ω₀, hs⟩ := hs
  have hv : VSolvable (one μ) (bV μ b) ms fun k => liftV μ (z k) := by
    rw [vsolvable_eval (ev ω₀) (ev_one ω₀), data_eval hN hX, bV_eval]; exact hs
  have hlen : (vfiltered (one μ) (bV μ b) ms fun k => liftV μ (z k)).length = ms.length := by
    have := congrArg List.length (vfiltered_eval (ev ω₀) (ev_one ω₀) (bV μ b) ms fun k => liftV μ (z k))
    rwa [List.length_map, filtered_length, withData_length] at this
  obtain ⟨L, hL⟩ : ∃ L, L = bV μ b :: vfiltered (one μ) (bV μ b) ms fun k => liftV μ (z k) := ⟨_, rfl⟩
  have hLk : ∀ k ≤ ms.length, L[k]? = some (L[k]?.getD (bV μ b)) := by
    intro k hk
    rw [List.getElem?_eq_getElem (by rw [hL, List.length_cons, hlen]; omega)]
    rfl
  refine ⟨fun k => L[k]?.getD (bV μ b), by rw [hL]; rfl, fun k hk ω => ?_, fun k s hs => ?_⟩
  · have := vfiltered_eval (ev ω) (ev_one ω) (bV μ b) ms fun k => liftV μ (z k)
    rw [data_eval hN hX, bV_eval] at this
    have h2 := hLk (k + 1) (by omega)
    rw [← this, List.getElem?_map]
    have h3 : L[k + 1]? = (vfiltered (one μ) (bV μ b) ms fun k => liftV μ (z k))[k]? := by rw [hL]; rfl
    rw [← h3, h2]
    rfl
  · have hk : k < ms.length := (List.getElem?_eq_some_iff.1 hs).1
    refine predict_good ip_symm (sys hN hX) hv k _ ?_ s hs
    rw [← hL]
    exact hLk k (by omega)

/-- The random smoothed beliefs. -/
theorem smooth_core (hN : WhiteNoise μ b.P ms N) (hX : Follows b.x ms N X z)
    (hs : ∃ ω, Solvable b (withData ms fun k => z k ω) ∧ SmoothSolvable b (withData ms fun k => z k ω)) {k : ℕ}
    (hk : k < ms.length) :
    ∃ vb : VB (L2 μ) n, Good (ip μ) (obsSpan μ z ms.length) (liftV μ (X (k + 1))) vb ∧
      ∀ ω, (smoothed b (withData ms fun k => z k ω))[k]? = some ⟨vb.fn ω, vb.P⟩ := by
  obtain ⟨ω₀, hs, hs'⟩ := hs
  have hsys := sys hN hX
  have hdata := data_eval hN hX
  have hv : VSolvable (one μ) (bV μ b) ms fun k => liftV μ (z k) := by
    rw [vsolvable_eval (ev ω₀) (ev_one ω₀), data_eval hN hX, bV_eval]; exact hs
  clear hN hX
  cases ms with
  | nil => simp at hk
  | cons s ms =>
    have hv' : VRtsSolvable (one μ) (vnext (one μ) s (bV μ b) (liftV μ (z 0))) ms fun k => liftV μ (z (k + 1)) := by
      rw [vrtsSolvable_eval (ev ω₀) (ev_one ω₀), vnext_eval (ev ω₀) (ev_one ω₀), bV_eval]
      rw [← hdata ω₀] at hs'
      exact hs'
    have hst := hsys.step ip_symm hv.1
    have heval : ∀ ω, (vrts (one μ) (vnext (one μ) s (bV μ b) (liftV μ (z 0))) ms fun k => liftV μ (z (k + 1))).map
        (VB.eval (ev ω)) = smoothed b (withData (s :: ms) fun k => z k ω) := by
      intro ω
      rw [vrts_eval (ev ω) (ev_one ω), vnext_eval (ev ω) (ev_one ω), bV_eval, ← hdata ω]
      rfl
    have hlen : k < (vrts (one μ) (vnext (one μ) s (bV μ b) (liftV μ (z 0))) ms fun k => liftV μ (z (k + 1))).length := by
      have := congrArg List.length (heval ω₀)
      rw [List.length_map, smoothed_length, withData_length] at this
      omega
    have hg := smooth_good ip_symm hst hv.2 hv' k _ (List.getElem?_eq_getElem hlen)
    rw [← upTo_succ (z := fun k => liftV μ (z k))] at hg
    refine ⟨_, hg, fun ω => ?_⟩
    rw [← heval ω, List.getElem?_map, List.getElem?_eq_getElem hlen]
    rfl

/-! ### Gaussian noise -/

/-- The sources as square-integrable random variables. -/
noncomputable def srcV (μ : Measure Ω) (T : ℕ) (N : Src n m → Ω → ℝ) (a : {a : Src n m // a.Active T}) : L2 μ :=
  lift μ (N a.1)

theorem srcV_coe (hN : WhiteNoise μ b.P ms N) (a : {a : Src n m // a.Active ms.length}) :
    (srcV μ ms.length N a).1 = N a.1 := src_lift hN a.2

theorem srcV_gen {T : ℕ} {a : Src n m} (ha : a.Active T) : lift μ (N a) ∈ gen μ (srcV μ T N) :=
  Submodule.mem_sup_right (Submodule.subset_span ⟨⟨a, ha⟩, rfl⟩)

theorem cst_gen {T : ℕ} (c : ℝ) : c • one μ ∈ gen μ (srcV μ T N) :=
  Submodule.mem_sup_left (Submodule.smul_mem _ _ (Submodule.mem_span_singleton_self _))

theorem state_gen (hN : WhiteNoise μ b.P ms N) (hX : Follows b.x ms N X z) {k : ℕ} (hk : k ≤ ms.length) (i : Fin n) :
    liftV μ (X k) i ∈ gen μ (srcV μ ms.length N) := by
  have hsys := sys hN hX
  induction k generalizing i with
  | zero =>
    have : liftV μ (X 0) i = b.x i • one μ + lift μ (N (.e i)) := by
      refine L2.ext fun ω => ?_
      have h1 := (nice_state hN hX (k := 0) (by omega)).coe i ω
      have h2 : (lift μ (N (.e i))).1 ω = N (.e i) ω := congrFun (src_lift hN (a := .e i) trivial) ω
      rw [h1, hX.init]
      show _ = b.x i * 1 + (lift μ (N (.e i))).1 ω
      rw [h2, mul_one]
    rw [this]
    exact Submodule.add_mem _ (cst_gen _) (srcV_gen (a := .e i) trivial)
  | succ k ih =>
    obtain ⟨s, hs⟩ : ∃ s, ms[k]? = some s := ⟨_, List.getElem?_eq_getElem (by omega)⟩
    have : liftV μ (X (k + 1)) i = (∑ j, s.A i j • liftV μ (X k) j) + s.c i • one μ + lift μ (N (.w k i)) :=
      congrFun (hsys.state k s hs) i
    rw [this]
    exact Submodule.add_mem _ (Submodule.add_mem _ (Submodule.sum_mem _ fun j _ =>
      Submodule.smul_mem _ _ (ih (by omega) j)) (cst_gen _)) (srcV_gen (a := .w k i) (show k < ms.length by omega))

theorem obs_gen (hN : WhiteNoise μ b.P ms N) (hX : Follows b.x ms N X z) {k : ℕ} (hk : k < ms.length) (i : Fin m) :
    liftV μ (z k) i ∈ gen μ (srcV μ ms.length N) := by
  obtain ⟨s, hs⟩ : ∃ s, ms[k]? = some s := ⟨_, List.getElem?_eq_getElem (by omega)⟩
  have : liftV μ (z k) i = (∑ j, s.H i j • liftV μ (X (k + 1)) j) + lift μ (N (.v k i)) :=
    congrFun ((sys hN hX).obs k s hs) i
  rw [this]
  exact Submodule.add_mem _ (Submodule.sum_mem _ fun j _ => Submodule.smul_mem _ _ (state_gen hN hX (by omega) j))
    (srcV_gen (a := .v k i) hk)

/-- Good estimates of anything generated by the sources are best under Gaussian noise. -/
theorem best_of_gaussian' {d : ℕ} {Y : Ω → Fin d → ℝ} (hN : WhiteNoise μ b.P ms N) (hX : Follows b.x ms N X z)
    (hG : GaussianNoise μ ms.length N) {K : ℕ} (hK : K ≤ ms.length) {vb : VB (L2 μ) d} (hY : Nice μ Y)
    (hYg : ∀ i, liftV μ Y i ∈ gen μ (srcV μ ms.length N))
    (h : Good (ip μ) (obsSpan μ z K) (liftV μ Y) vb) : BestEstimate μ z K Y vb.fn := by
  have hz : ∀ k < K, Nice μ (z k) := fun k hk => nice_obs hN hX (by omega)
  refine h.bestEstimate hY hz ?_
  refine h.indep (src := srcV μ ms.length N) ?_ ?_ hY hz hYg fun k hk i => obs_gen hN hX (by omega) i
  · have : (fun a => (srcV μ ms.length N a).1) = fun a : {a : Src n m // a.Active ms.length} => N a.1 :=
      funext fun a => srcV_coe hN a
    rw [this]; exact hG
  · intro a
    rw [ip_one, srcV_coe hN a]
    exact hN.mean a.1 a.2

theorem best_of_gaussian (hN : WhiteNoise μ b.P ms N) (hX : Follows b.x ms N X z) (hG : GaussianNoise μ ms.length N)
    {k K : ℕ} (hk : k ≤ ms.length) (hK : K ≤ ms.length) {vb : VB (L2 μ) n}
    (h : Good (ip μ) (obsSpan μ z K) (liftV μ (X k)) vb) : BestEstimate μ z K (X k) vb.fn :=
  best_of_gaussian' hN hX hG hK (nice_state hN hX hk) (state_gen hN hX hk) h

end Stoch

end KK
