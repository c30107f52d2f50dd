import Verif.Proofs.StochProb
import Mathlib.Probability.ConditionalExpectation

/-!
# Good estimates are calibrated and optimal
-/

set_option linter.unusedSectionVars false

namespace KK

open Matrix MeasureTheory ProbabilityTheory

namespace Stoch

variable {Ω : Type} [MeasurableSpace Ω] {μ : Measure Ω} [IsProbabilityMeasure μ] {n m : ℕ}
  {z : ℕ → Ω → Fin m → ℝ} {K : ℕ} {X : Ω → Fin n → ℝ} {vb : VB (L2 μ) n}

/-- A real random vector with square-integrable components. -/
def Nice (μ : Measure Ω) {k : ℕ} (Y : Ω → Fin k → ℝ) : Prop := ∀ i, Measurable (fun ω => Y ω i) ∧ MemLp (fun ω => Y ω i) 2 μ

theorem Nice.coe {k : ℕ} {Y : Ω → Fin k → ℝ} (h : Nice μ Y) (i : Fin k) (ω : Ω) : (liftV μ Y i).1 ω = Y ω i :=
  congrFun (lift_coe (h i)) ω

/-- The subspace spanned by `1` and the first `K` observations. -/
noncomputable def obsSpan (μ : Measure Ω) [IsProbabilityMeasure μ] (z : ℕ → Ω → Fin m → ℝ) (K : ℕ) : Submodule ℝ (L2 μ) :=
  upTo (Submodule.span ℝ {one μ}) (fun k => liftV μ (z k)) K

theorem affine_of_mem (hz : ∀ k < K, Nice μ (z k)) {f : L2 μ} (hf : f ∈ obsSpan μ z K) : AffineIn z K f.1 := by
  induction K generalizing f with
  | zero =>
    obtain ⟨c, rfl⟩ := Submodule.mem_span_singleton.1 hf
    exact ⟨c, fun k => k.elim0, fun ω => by
      rw [Finset.univ_eq_empty, Finset.sum_empty, add_zero]
      exact mul_one c⟩
  | succ K ih =>
    obtain ⟨a, ha, c, hc, rfl⟩ := Submodule.mem_sup.1 hf
    obtain ⟨α, β, hβ⟩ := ih (fun k hk => hz k (by omega)) ha
    obtain ⟨γ, rfl⟩ := (Submodule.mem_span_range_iff_exists_fun ℝ).1 hc
    refine ⟨α, Fin.snoc (α := fun _ => Fin m → ℝ) β γ, fun ω => ?_⟩
    have h1 : (a + ∑ i, γ i • liftV μ (z K) i).1 ω = a.1 ω + (∑ i, γ i • liftV μ (z K) i).1 ω := rfl
    rw [h1, hβ, sum_coe, Fin.sum_univ_castSucc, ← add_assoc]
    simp only [Fin.snoc_castSucc, Fin.snoc_last, Fin.val_castSucc, Fin.val_last]
    congr 1
    refine Finset.sum_congr rfl fun i _ => ?_
    show γ i * (liftV μ (z K) i).1 ω = _
    rw [(hz K (by omega)).coe]

theorem one_mem_obsSpan : one μ ∈ obsSpan μ z K := upTo_le _ _ _ (Submodule.mem_span_singleton_self _)

theorem obs_mem_obsSpan {k : ℕ} (hk : k < K) (i : Fin m) : liftV μ (z k) i ∈ obsSpan μ z K := by
  induction K with
  | zero => omega
  | succ K ih =>
    rcases Nat.lt_succ_iff_lt_or_eq.1 hk with h | rfl
    · exact Submodule.mem_sup_left (ih h)
    · exact Submodule.mem_sup_right (Submodule.subset_span ⟨i, rfl⟩)

theorem mem_of_affine (hz : ∀ k < K, Nice μ (z k)) {f : Ω → ℝ} (hf : AffineIn z K f) :
    ∃ g : L2 μ, g ∈ obsSpan μ z K ∧ g.1 = f := by
  obtain ⟨α, β, hβ⟩ := hf
  refine ⟨α • one μ + ∑ k : Fin K, ∑ i, β k i • liftV μ (z k) i,
    Submodule.add_mem _ (Submodule.smul_mem _ _ one_mem_obsSpan) (Submodule.sum_mem _ fun k _ =>
      Submodule.sum_mem _ fun i _ => Submodule.smul_mem _ _ (obs_mem_obsSpan k.2 i)), ?_⟩
  funext ω
  rw [hβ]
  have h1 : (α • one μ + ∑ k : Fin K, ∑ i, β k i • liftV μ (z k) i).1 ω
      = α * 1 + (∑ k : Fin K, ∑ i, β k i • liftV μ (z k) i).1 ω := rfl
  rw [h1, sum_coe, mul_one]
  congr 1
  refine Finset.sum_congr rfl fun k _ => ?_
  rw [sum_coe]
  refine Finset.sum_congr rfl fun i _ => ?_
  show β k i * (liftV μ (z k) i).1 ω = _
  rw [(hz k k.2).coe]

/-- The estimate as a function on the sample space. -/
def VB.fn (vb : VB (L2 μ) n) (ω : Ω) : Fin n → ℝ := fun i => (vb.x i).1 ω

theorem fn_eval (vb : VB (L2 μ) n) (ω : Ω) : vb.eval (ev ω) = ⟨vb.fn ω, vb.P⟩ := rfl

theorem err_coe (hX : Nice μ X) (i : Fin n) (ω : Ω) : ((liftV μ X - vb.x) i).1 ω = X ω i - vb.fn ω i := by
  have : ((liftV μ X - vb.x) i).1 ω = (liftV μ X i).1 ω - (vb.x i).1 ω := rfl
  rw [this, hX.coe]; rfl

/-- The error of a linear functional. -/
noncomputable def errOf (X : Ω → Fin n → ℝ) (vb : VB (L2 μ) n) (a : Fin n → ℝ) : L2 μ := ∑ i, a i • (liftV μ X - vb.x) i

theorem errOf_coe (hX : Nice μ X) (a : Fin n → ℝ) (ω : Ω) :
    (errOf X vb a).1 ω = a ⬝ᵥ X ω - a ⬝ᵥ vb.fn ω := by
  rw [errOf, sum_coe, dotProduct, dotProduct, ← Finset.sum_sub_distrib]
  refine Finset.sum_congr rfl fun i _ => ?_
  show a i * ((liftV μ X - vb.x) i).1 ω = _
  rw [err_coe hX, mul_sub]

variable {S : Submodule ℝ (L2 μ)}

theorem Good.errOf_perp (h : Good (ip μ) S (liftV μ X) vb) (a : Fin n → ℝ) {s : L2 μ} (hs : s ∈ S) :
    ip μ (errOf X vb a) s = 0 := by
  rw [errOf, map_sum, LinearMap.sum_apply]
  refine Finset.sum_eq_zero fun i _ => ?_
  rw [map_smul, LinearMap.smul_apply, h.perp i s hs, smul_zero]

theorem Good.calibrated (hX : Nice μ X) (h1 : one μ ∈ S) (h : Good (ip μ) S (liftV μ X) vb) :
    Calibrated μ X vb.fn vb.P where
  sq i := by
    have := ((liftV μ X - vb.x) i).2.2
    rwa [show ((liftV μ X - vb.x) i).1 = fun ω => X ω i - vb.fn ω i from funext (err_coe hX i)] at this
  mean i := by
    have := h.perp i _ h1
    rw [ip_one] at this
    rw [← this]
    exact integral_congr_ae (.of_forall fun ω => (err_coe hX i ω).symm)
  cov i j := by
    have := congrFun (congrFun h.cov i) j
    rw [← this]
    refine integral_congr_ae (.of_forall fun ω => ?_)
    simp only
    rw [err_coe hX, err_coe hX]

theorem Good.bestAffine (hX : Nice μ X) (hz : ∀ k < K, Nice μ (z k)) (h : Good (ip μ) (obsSpan μ z K) (liftV μ X) vb) :
    BestAffine μ z K X vb.fn where
  affine i := affine_of_mem hz (h.mem i)
  best a f hf := by
    obtain ⟨g, hg, rfl⟩ := mem_of_affine hz hf
    obtain ⟨d, hd⟩ : ∃ d, d = ∑ i, a i • vb.x i - g := ⟨_, rfl⟩
    have hdS : d ∈ obsSpan μ z K := by
      rw [hd]
      exact Submodule.sub_mem _ (Submodule.sum_mem _ fun i _ => Submodule.smul_mem _ _ (h.mem i)) hg
    have hdc : ∀ ω, d.1 ω = a ⬝ᵥ vb.fn ω - g.1 ω := by
      intro ω
      rw [hd]
      have : (∑ i, a i • vb.x i - g).1 ω = (∑ i, a i • vb.x i).1 ω - g.1 ω := rfl
      rw [this, sum_coe]; rfl
    have he : ∀ ω, (a ⬝ᵥ X ω - a ⬝ᵥ vb.fn ω) ^ 2 = (errOf X vb a).1 ω * (errOf X vb a).1 ω := fun ω => by
      rw [errOf_coe hX, sq]
    have hs : ∀ ω, (a ⬝ᵥ X ω - g.1 ω) ^ 2 = (errOf X vb a + d).1 ω * (errOf X vb a + d).1 ω := fun ω => by
      have : (errOf X vb a + d).1 ω = (errOf X vb a).1 ω + d.1 ω := rfl
      rw [this, errOf_coe hX, hdc, sq]; ring
    constructor
    · exact (L2.int_mul (errOf X vb a + d) (errOf X vb a + d)).congr (.of_forall fun ω => (hs ω).symm)
    rw [integral_congr_ae (.of_forall he), integral_congr_ae (.of_forall hs)]
    have h1 := h.errOf_perp a hdS
    have h2 : ip μ (errOf X vb a + d) (errOf X vb a + d) = ip μ (errOf X vb a) (errOf X vb a) + ip μ d d := by
      rw [map_add, map_add, LinearMap.add_apply, LinearMap.add_apply, h1, ip_symm d, h1]
      ring
    have h3 := ip_nonneg d
    have h4 : ip μ (errOf X vb a) (errOf X vb a) ≤ ip μ (errOf X vb a + d) (errOf X vb a + d) := by linarith
    exact h4

/-! ### Gaussian noise -/

section gaussian
variable {T : Type} {src : T → L2 μ}

/-- A linear combination of the sources. -/
theorem process_of_span {ι : Type} (hG : IsGaussianProcess (fun t => (src t).1) μ) (Y : ι → L2 μ)
    (hY : ∀ i, Y i ∈ Submodule.span ℝ (Set.range src)) : IsGaussianProcess (fun i => (Y i).1) μ := by
  refine hG.of_isGaussianProcess fun i => ?_
  obtain ⟨c, hc⟩ := (Finsupp.mem_span_range_iff_exists_finsupp).1 (hY i)
  refine ⟨c.support, ∑ t : c.support, c t.1 • ContinuousLinearMap.proj t, fun ω => ?_⟩
  rw [← hc, Finsupp.sum, sum_coe, ContinuousLinearMap.sum_apply]
  simp only [ContinuousLinearMap.smul_apply, ContinuousLinearMap.proj_apply, Finset.restrict]
  rw [← Finset.sum_attach]
  rfl

/-- Everything generated by `1` and the sources. -/
noncomputable def gen (μ : Measure Ω) [IsProbabilityMeasure μ] {T : Type} (src : T → L2 μ) : Submodule ℝ (L2 μ) :=
  Submodule.span ℝ {one μ} ⊔ Submodule.span ℝ (Set.range src)

theorem span_mean (h0 : ∀ t, ip μ (src t) (one μ) = 0) {g : L2 μ} (hg : g ∈ Submodule.span ℝ (Set.range src)) :
    ip μ g (one μ) = 0 := by
  induction hg using Submodule.span_induction with
  | mem x hx => obtain ⟨t, rfl⟩ := hx; exact h0 t
  | zero => simp
  | add x y _ _ hx hy => rw [map_add, LinearMap.add_apply, hx, hy, add_zero]
  | smul c x _ hx => rw [map_smul, LinearMap.smul_apply, hx, smul_zero]

theorem ip_one_one : ip μ (one μ) (one μ) = 1 := by
  rw [ip_one]
  show ∫ _, (1 : ℝ) ∂μ = 1
  simp

/-- Errors are independent of the observations. -/
theorem Good.indep (hG : IsGaussianProcess (fun t => (src t).1) μ) (h0 : ∀ t, ip μ (src t) (one μ) = 0)
    (hX : Nice μ X) (hz : ∀ k < K, Nice μ (z k)) (hXg : ∀ i, liftV μ X i ∈ gen μ src)
    (hzg : ∀ k < K, ∀ i, liftV μ (z k) i ∈ gen μ src) (h : Good (ip μ) (obsSpan μ z K) (liftV μ X) vb) :
    IndepFun (fun ω => X ω - vb.fn ω) (firstObs z K) μ := by
  have hone : one μ ∈ gen μ src := Submodule.mem_sup_left (Submodule.mem_span_singleton_self _)
  have hle : obsSpan μ z K ≤ gen μ src := by
    clear h hz
    induction K with
    | zero => exact le_sup_left
    | succ K ih =>
      refine sup_le (ih fun k hk => hzg k (by omega)) (Submodule.span_le.2 ?_)
      rintro _ ⟨i, rfl⟩
      exact hzg K (by omega) i
  -- errors are linear in the sources
  have he : ∀ i, (liftV μ X - vb.x) i ∈ Submodule.span ℝ (Set.range src) := by
    intro i
    have : (liftV μ X - vb.x) i ∈ gen μ src := Submodule.sub_mem _ (hXg i) (hle (h.mem i))
    obtain ⟨a, ha, g, hg, hag⟩ := Submodule.mem_sup.1 this
    obtain ⟨c, rfl⟩ := Submodule.mem_span_singleton.1 ha
    have h1 := h.perp i _ one_mem_obsSpan
    rw [← hag, map_add, LinearMap.add_apply, span_mean h0 hg, add_zero, map_smul, LinearMap.smul_apply, ip_one_one,
      smul_eq_mul, mul_one] at h1
    rw [← hag, h1, zero_smul, zero_add]
    exact hg
  -- observations are affine in the sources
  have hc : ∀ p : Fin K × Fin m, ∃ c : ℝ, liftV μ (z p.1) p.2 - c • one μ ∈ Submodule.span ℝ (Set.range src) := by
    intro p
    obtain ⟨a, ha, g, hg, hag⟩ := Submodule.mem_sup.1 (hzg p.1 p.1.2 p.2)
    obtain ⟨c, rfl⟩ := Submodule.mem_span_singleton.1 ha
    exact ⟨c, by rw [← hag, add_sub_cancel_left]; exact hg⟩
  choose c hc using hc
  have hproc := process_of_span (ι := Fin n ⊕ (Fin K × Fin m)) hG
    (Sum.elim (liftV μ X - vb.x) fun p => liftV μ (z p.1) p.2 - c p • one μ)
    (by rintro (i | p); exacts [he i, hc p])
  have hproc' : IsGaussianProcess (Sum.elim (fun i => ((liftV μ X - vb.x) i).1)
      fun p : Fin K × Fin m => (liftV μ (z p.1) p.2 - c p • one μ).1) μ := by
    have : (fun i : Fin n ⊕ (Fin K × Fin m) => ((Sum.elim (liftV μ X - vb.x)
        fun p => liftV μ (z p.1) p.2 - c p • one μ) i).1) = Sum.elim (fun i => ((liftV μ X - vb.x) i).1)
      fun p : Fin K × Fin m => (liftV μ (z p.1) p.2 - c p • one μ).1 := by
      funext i; rcases i with i | p <;> rfl
    rwa [this] at hproc
  have hind := hproc'.indepFun_of_covariance_eq_zero (fun i => ((liftV μ X - vb.x) i).2.1.aemeasurable)
    (fun p => (liftV μ (z p.1) p.2 - c p • one μ).2.1.aemeasurable) (fun i p => by
      rw [covariance_eq_sub ((liftV μ X - vb.x) i).2.2 (liftV μ (z p.1) p.2 - c p • one μ).2.2]
      have h1 : ip μ ((liftV μ X - vb.x) i) (liftV μ (z p.1) p.2 - c p • one μ) = 0 :=
        h.perp i _ (Submodule.sub_mem _ (obs_mem_obsSpan p.1.2 p.2) (Submodule.smul_mem _ _ one_mem_obsSpan))
      have h2 := h.perp i _ one_mem_obsSpan
      rw [ip_one] at h2
      rw [h2, zero_mul, sub_zero]
      exact h1)
  have hφ : Measurable (id : (Fin n → ℝ) → Fin n → ℝ) := measurable_id
  have hψ : Measurable (fun (y : Fin K × Fin m → ℝ) (k : Fin K) (i : Fin m) => y (k, i) + c (k, i)) := by
    refine measurable_pi_lambda _ fun k => measurable_pi_lambda _ fun i => ?_
    exact (measurable_pi_apply _).add_const _
  have := hind.comp hφ hψ
  convert this using 1
  · funext ω i
    exact (err_coe hX i ω).symm
  · funext ω k i
    show z k ω i = (liftV μ (z k) i).1 ω - c (k, i) * 1 + c (k, i)
    rw [(hz k k.2).coe]; ring

theorem firstObs_meas (hz : ∀ k < K, Nice μ (z k)) : Measurable (firstObs z K) :=
  measurable_pi_lambda _ fun k => measurable_pi_lambda _ fun i => (hz k k.2 i).1

theorem affine_comp {f : Ω → ℝ} (hf : AffineIn z K f) :
    ∃ g : (Fin K → Fin m → ℝ) → ℝ, Measurable g ∧ ∀ ω, f ω = g (firstObs z K ω) := by
  obtain ⟨α, β, h⟩ := hf
  refine ⟨fun y => α + ∑ k : Fin K, β k ⬝ᵥ y k, ?_, h⟩
  refine measurable_const.add (Finset.measurable_sum _ fun k _ => Finset.measurable_sum _ fun i _ => ?_)
  have hk : Measurable fun y : Fin K → Fin m → ℝ => y k := measurable_pi_apply k
  have hki : Measurable fun y : Fin K → Fin m → ℝ => y k i := (measurable_pi_apply i).comp hk
  exact hki.const_mul _

theorem Good.bestEstimate (hX : Nice μ X) (hz : ∀ k < K, Nice μ (z k))
    (h : Good (ip μ) (obsSpan μ z K) (liftV μ X) vb) (hi : IndepFun (fun ω => X ω - vb.fn ω) (firstObs z K) μ) :
    BestEstimate μ z K X vb.fn where
  indep := hi
  condExp i := by
    have hm := firstObs_meas hz
    have hcal := h.calibrated hX one_mem_obsSpan
    obtain ⟨g, hg, hgf⟩ := affine_comp (affine_of_mem hz (h.mem i))
    have hle : MeasurableSpace.comap (firstObs z K) inferInstance ≤ (inferInstance : MeasurableSpace Ω) := hm.comap_le
    have hsm : StronglyMeasurable[MeasurableSpace.comap (firstObs z K) inferInstance] fun ω => vb.fn ω i := by
      have : (fun ω => vb.fn ω i) = g ∘ firstObs z K := funext hgf
      rw [this]
      exact (hg.comp (comap_measurable _)).stronglyMeasurable
    have hint : Integrable (fun ω => vb.fn ω i) μ := (vb.x i).2.2.integrable (by norm_num)
    have hie : Integrable (fun ω => X ω i - vb.fn ω i) μ := (hcal.sq i).integrable (by norm_num)
    have h1 : (fun ω => X ω i) = (fun ω => vb.fn ω i) + fun ω => X ω i - vb.fn ω i := by
      funext ω; simp
    rw [h1]
    have hind : IndepFun (fun ω => X ω i - vb.fn ω i) (firstObs z K) μ :=
      hi.comp (φ := fun y : Fin n → ℝ => y i) (ψ := id) (measurable_pi_apply i) measurable_id
    have hme : Measurable fun ω => X ω i - vb.fn ω i := (hX i).1.sub (vb.x i).2.1
    have h2 : μ[fun ω => X ω i - vb.fn ω i | MeasurableSpace.comap (firstObs z K) inferInstance] =ᵐ[μ] fun _ => 0 := by
      have := condExp_indep_eq (μ := μ) (f := fun ω => X ω i - vb.fn ω i) hme.comap_le hle
        (comap_measurable _).stronglyMeasurable hind
      rwa [hcal.mean i] at this
    refine (condExp_add hint hie _).trans ?_
    rw [condExp_of_stronglyMeasurable hle hsm hint]
    filter_upwards [h2] with ω hω
    rw [Pi.add_apply, hω, add_zero]
  best a g hg := by
    by_cases hfin : ∫⁻ ω, ENNReal.ofReal ((a ⬝ᵥ X ω - g (firstObs z K ω)) ^ 2) ∂μ = ⊤
    · rw [hfin]; exact le_top
    have hm := firstObs_meas hz
    have hgm : Measurable fun ω => g (firstObs z K ω) := hg.comp hm
    have haX : Measurable fun ω => a ⬝ᵥ X ω := Finset.measurable_sum _ fun i _ => (hX i).1.const_mul _
    have hS : MemLp (fun ω => a ⬝ᵥ X ω - g (firstObs z K ω)) 2 μ := by
      refine (memLp_two_iff_integrable_sq (haX.sub hgm).aestronglyMeasurable).2
        ⟨((haX.sub hgm).pow_const 2).aestronglyMeasurable, ?_⟩
      rw [hasFiniteIntegral_iff_ofReal (.of_forall fun ω => sq_nonneg _)]
      exact lt_top_iff_ne_top.2 hfin
    obtain ⟨e, hedef⟩ : ∃ e, e = errOf X vb a := ⟨_, rfl⟩
    have hec : ∀ ω, e.1 ω = a ⬝ᵥ X ω - a ⬝ᵥ vb.fn ω := fun ω => by rw [hedef]; exact errOf_coe hX a ω
    have hd : MemLp (fun ω => a ⬝ᵥ vb.fn ω - g (firstObs z K ω)) 2 μ := by
      refine (hS.sub e.2.2).ae_eq (.of_forall fun ω => ?_)
      simp only [Pi.sub_apply]
      rw [hec]; ring
    -- the error is independent of the rest
    obtain ⟨G, hG, hGf⟩ : ∃ G : (Fin K → Fin m → ℝ) → ℝ, Measurable G ∧
        ∀ ω, a ⬝ᵥ vb.fn ω - g (firstObs z K ω) = G (firstObs z K ω) := by
      choose G hG hGf using fun i => affine_comp (affine_of_mem hz (h.mem i))
      refine ⟨fun y => (∑ i, a i * G i y) - g y, (Finset.measurable_sum _ fun i _ => (hG i).const_mul _).sub hg, fun ω => ?_⟩
      congr 1
      exact Finset.sum_congr rfl fun i _ => by rw [← hGf]; rfl
    have hind : IndepFun (fun ω => e.1 ω) (fun ω => a ⬝ᵥ vb.fn ω - g (firstObs z K ω)) μ := by
      have := hi.comp (φ := fun y : Fin n → ℝ => a ⬝ᵥ y) (ψ := G)
        (Finset.measurable_sum _ fun i _ => (measurable_pi_apply i).const_mul _) hG
      convert this using 1
      · funext ω; rw [hec]; simp [dotProduct_sub]
      · funext ω; rw [hGf]; rfl
    have hmean : ∫ ω, e.1 ω ∂μ = 0 := by
      rw [← ip_one, hedef]; exact h.errOf_perp a one_mem_obsSpan
    have hprod : ∫ ω, e.1 ω * (a ⬝ᵥ vb.fn ω - g (firstObs z K ω)) ∂μ = 0 := by
      rw [hind.integral_fun_mul_eq_mul_integral e.2.2.aestronglyMeasurable hd.aestronglyMeasurable, hmean, zero_mul]
    have hee : Integrable (fun ω => (a ⬝ᵥ X ω - a ⬝ᵥ vb.fn ω) ^ 2) μ := by
      refine e.2.2.integrable_sq.congr (.of_forall fun ω => ?_)
      simp only
      rw [hec]
    have hcross : Integrable (fun ω => e.1 ω * (a ⬝ᵥ vb.fn ω - g (firstObs z K ω))) μ := e.2.2.integrable_mul hd
    rw [← ofReal_integral_eq_lintegral_ofReal hee (.of_forall fun ω => sq_nonneg _),
      ← ofReal_integral_eq_lintegral_ofReal hS.integrable_sq (.of_forall fun ω => sq_nonneg _)]
    refine ENNReal.ofReal_le_ofReal ?_
    have hsplit : (fun ω => (a ⬝ᵥ X ω - g (firstObs z K ω)) ^ 2) = fun ω => (a ⬝ᵥ X ω - a ⬝ᵥ vb.fn ω) ^ 2 +
        (2 * (e.1 ω * (a ⬝ᵥ vb.fn ω - g (firstObs z K ω))) + (a ⬝ᵥ vb.fn ω - g (firstObs z K ω)) ^ 2) := by
      funext ω; rw [hec]; ring
    have hrest : Integrable (fun ω => 2 * (e.1 ω * (a ⬝ᵥ vb.fn ω - g (firstObs z K ω))) +
        (a ⬝ᵥ vb.fn ω - g (firstObs z K ω)) ^ 2) μ := (hcross.const_mul 2).add hd.integrable_sq
    rw [hsplit, integral_add hee hrest, integral_add (hcross.const_mul 2) hd.integrable_sq,
      integral_const_mul, hprod]
    have : 0 ≤ ∫ ω, (a ⬝ᵥ vb.fn ω - g (firstObs z K ω)) ^ 2 ∂μ := integral_nonneg fun ω => sq_nonneg _
    linarith

end gaussian

end Stoch

end KK
