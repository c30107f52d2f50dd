import Verif.Spec.Stochastic
import Mathlib.Probability.Independence.InfinitePi
import Mathlib.Probability.Distributions.Gaussian.Real
import Mathlib.Probability.Distributions.Gaussian.HasGaussianLaw.Independence
import Mathlib.Probability.Moments.Variance

/-!
# A probability space on which the hypotheses of the stochastic theorems hold

Independent standard normal sources, and any linear model with unit covariances driven by them.
-/

namespace KK
namespace Ex

open Matrix MeasureTheory ProbabilityTheory

variable {n m : ℕ}

/-- Independent standard normal sources. -/
noncomputable def normals (n m : ℕ) : Measure (Src n m → ℝ) := Measure.infinitePi fun _ => gaussianReal 0 1

noncomputable instance : IsProbabilityMeasure (normals n m) := by unfold normals; infer_instance

/-- The sources are the coordinates. -/
def coord (a : Src n m) (ω : Src n m → ℝ) : ℝ := ω a

theorem coord_map (a : Src n m) : (normals n m).map (coord a) = gaussianReal 0 1 :=
  Measure.infinitePi_map_eval _ a

theorem coord_meas (a : Src n m) : Measurable (coord a) := measurable_pi_apply a

theorem coord_sq (a : Src n m) : MemLp (coord a) 2 (normals n m) := by
  have h : MemLp id 2 ((normals n m).map (coord a)) := by
    rw [coord_map]; exact memLp_id_gaussianReal' 2 (by norm_num)
  exact h.comp_of_map (coord_meas a).aemeasurable

theorem coord_mean (a : Src n m) : ∫ ω, coord a ω ∂(normals n m) = 0 := by
  have h := integral_map (μ := normals n m) (φ := coord a) (coord_meas a).aemeasurable (f := fun x : ℝ => x)
    (by fun_prop)
  rw [← h, coord_map, integral_id_gaussianReal]

theorem coord_indep : iIndepFun (fun (a : Src n m) (ω : Src n m → ℝ) => coord a ω) (normals n m) :=
  iIndepFun_infinitePi (X := fun _ x => x) fun _ => measurable_id

theorem coord_var (a : Src n m) : ∫ ω, coord a ω * coord a ω ∂(normals n m) = 1 := by
  have h := integral_map (μ := normals n m) (φ := coord a) (coord_meas a).aemeasurable (f := fun x : ℝ => x * x)
    (by fun_prop)
  rw [← h, coord_map]
  have hv := variance_fun_id_gaussianReal (μ := 0) (v := 1)
  rw [variance_eq_integral (by fun_prop), integral_id_gaussianReal] at hv
  simpa [sq] using hv

theorem coord_cov {a a' : Src n m} (h : a ≠ a') : ∫ ω, coord a ω * coord a' ω ∂(normals n m) = 0 := by
  have := (coord_indep.indepFun h).integral_fun_mul_eq_mul_integral (coord_sq a).aestronglyMeasurable
    (coord_sq a').aestronglyMeasurable
  rw [this, coord_mean, zero_mul]

/-- They are white noise for any model with unit covariances. -/
theorem normals_white (ms : List (ModelStep n m)) (hQ : ∀ s ∈ ms, s.Q = 1) (hR : ∀ s ∈ ms, s.R = 1) :
    WhiteNoise (normals n m) 1 ms coord where
  meas a _ := coord_meas a
  sq a _ := coord_sq a
  mean a _ := coord_mean a
  cov a a' ha ha' := by
    have hc : ∫ ω, coord a ω * coord a' ω ∂(normals n m) = open Classical in if a = a' then 1 else 0 := by
      split
      · subst a'; exact coord_var a
      · exact coord_cov ‹_›
    rw [hc]
    rcases a with i | ⟨k, i⟩ | ⟨k, i⟩ <;> rcases a' with j | ⟨l, j⟩ | ⟨l, j⟩ <;> simp [srcCov]
    · simp [Matrix.one_apply]
    · have hk : k < ms.length := ha
      by_cases h : k = l
      · simp [h, List.getElem?_eq_getElem (h ▸ hk), hQ _ (List.getElem_mem (h ▸ hk)), Matrix.one_apply]
      · simp [h]
    · have hk : k < ms.length := ha
      by_cases h : k = l
      · simp [h, List.getElem?_eq_getElem (h ▸ hk), hR _ (List.getElem_mem (h ▸ hk)), Matrix.one_apply]
      · simp [h]

/-- They are Gaussian. -/
theorem normals_gaussian (T : ℕ) : GaussianNoise (normals n m) T (coord : Src n m → _) where
  hasGaussianLaw I := by
    have h1 : ∀ a : Src n m, HasGaussianLaw (coord a) (normals n m) := fun a =>
      ⟨by rw [coord_map]; infer_instance⟩
    refine iIndepFun.hasGaussianLaw (X := fun (t : I) ω => coord t.1.1 ω) (fun t => h1 _) ?_
    exact coord_indep.precomp (g := fun t : I => t.1.1) fun s t h => Subtype.ext (Subtype.ext h)

/-- A model with no steps beyond the given ones. -/
noncomputable def idle : ModelStep n m := ⟨0, 0, 0, 0, 0⟩

/-- The states of the system driven by the sources. -/
noncomputable def exState (x₀ : Fin n → ℝ) (ms : List (ModelStep n m)) : ℕ → (Src n m → ℝ) → Fin n → ℝ
  | 0, ω => fun i => x₀ i + coord (.e i) ω
  | k + 1, ω => fun i => ((ms[k]?.getD idle).A *ᵥ exState x₀ ms k ω) i + (ms[k]?.getD idle).c i + coord (.w k i) ω

/-- Its observations. -/
noncomputable def exObs (x₀ : Fin n → ℝ) (ms : List (ModelStep n m)) (k : ℕ) (ω : Src n m → ℝ) : Fin m → ℝ :=
  fun i => ((ms[k]?.getD idle).H *ᵥ exState x₀ ms (k + 1) ω) i + coord (.v k i) ω

theorem ex_follows (x₀ : Fin n → ℝ) (ms : List (ModelStep n m)) :
    Follows x₀ ms coord (exState x₀ ms) (exObs x₀ ms) where
  init _ _ := rfl
  state k s hs ω i := by rw [exState, hs]; rfl
  obs k s hs ω i := by rw [exObs, hs]; rfl

end Ex
end KK
