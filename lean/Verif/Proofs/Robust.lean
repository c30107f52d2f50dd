import Verif.Spec.Robust
import Verif.Proofs.StochRun

/-!
# Estimation errors as fixed linear combinations of the noise sources
-/

set_option linter.unusedSectionVars false

namespace KK

open Matrix MeasureTheory

namespace Stoch

/-! ### Unbiasedness -/

section unbiased
variable {V : Type} [AddCommGroup V] [Module ℝ V] {M : Submodule ℝ V} {n m : ℕ}
  {one : V} {X : ℕ → Fin n → V} {b : VB V n} {s : ModelStep n m} {ms : List (ModelStep n m)}
  {w : ℕ → Fin n → V} {v z : ℕ → Fin m → V}

/-- The system, with every noise in a subspace, and the present error too. -/
structure Driven (M : Submodule ℝ V) (one : V) (X : ℕ → Fin n → V) (b : VB V n)
    (ms : List (ModelStep n m)) (w : ℕ → Fin n → V) (v z : ℕ → Fin m → V) : Prop where
  err : InS (X 0 - b.x) M
  state : ∀ (k : ℕ) (s : ModelStep n m), ms[k]? = some s → X (k + 1) = act s.A (X k) + cst one s.c + w k
  obs : ∀ (k : ℕ) (s : ModelStep n m), ms[k]? = some s → z k = act s.H (X (k + 1)) + v k
  w : ∀ k < ms.length, InS (w k) M
  v : ∀ k < ms.length, InS (v k) M

theorem Driven.prior (h : Driven M one X b (s :: ms) w v z) : InS (X 1 - (vpredict one s b).x) M := by
  have e : X 1 - (vpredict one s b).x = act s.A (X 0 - b.x) + w 0 := by
    have e : (vpredict one s b).x = act s.A b.x + cst one s.c := rfl
    rw [h.state 0 s rfl, e, act_sub]
    abel
  rw [e]
  exact (h.err.act _).add (h.w 0 (by simp))

theorem Driven.step (h : Driven M one X b (s :: ms) w v z) :
    Driven M one (fun k => X (k + 1)) (vnext one s b (z 0)) ms (fun k => w (k + 1)) (fun k => v (k + 1))
      (fun k => z (k + 1)) where
  err := by
    have hp := h.prior
    have e : X 1 - (vnext one s b (z 0)).x = (X 1 - (vpredict one s b).x) -
        act (kGain s.H (vpredict one s b).P s.R) (act s.H (X 1 - (vpredict one s b).x) + v 0) := by
      rw [vnext, h.obs 0 s rfl, act_sub s.H]
      simp only
      rw [show act s.H (X (0 + 1)) + v 0 - act s.H (vpredict one s b).x =
        act s.H (X 1) - act s.H (vpredict one s b).x + v 0 by abel]
      abel
    show InS (X 1 - (vnext one s b (z 0)).x) M
    rw [e]
    exact hp.sub (((hp.act _).add (h.v 0 (by simp))).act _)
  state k s' hs := h.state (k + 1) s' hs
  obs k s' hs := h.obs (k + 1) s' hs
  w k hk := h.w (k + 1) (by simpa using hk)
  v k hk := h.v (k + 1) (by simpa using hk)

theorem driven_filter (h : Driven M one X b ms w v z) (k : ℕ) (b' : VB V n)
    (hk : (vfiltered one b ms z)[k]? = some b') : InS (X (k + 1) - b'.x) M := by
  induction ms generalizing X b w v z k with
  | nil => simp [vfiltered] at hk
  | cons s ms ih =>
    rcases k with _ | k
    · simp only [vfiltered, List.getElem?_cons_zero, Option.some.injEq] at hk
      subst hk
      exact h.step.err
    · simp only [vfiltered, List.getElem?_cons_succ] at hk
      exact ih h.step k hk

theorem driven_smooth (h : Driven M one X b ms w v z) (k : ℕ) (b' : VB V n)
    (hk : (vrts one b ms z)[k]? = some b') : InS (X k - b'.x) M := by
  induction ms generalizing X b w v z k b' with
  | nil =>
    rcases k with _ | k
    · simp only [vrts, List.getElem?_cons_zero, Option.some.injEq] at hk
      subst hk; exact h.err
    · simp [vrts] at hk
  | cons s ms ih =>
    rw [vrts] at hk
    rcases hr : vrts one (vnext one s b (z 0)) ms (fun k => z (k + 1)) with _ | ⟨q, qs⟩
    · rw [hr] at hk; simp at hk
    rw [hr] at hk
    rcases k with _ | k
    · simp only [List.getElem?_cons_zero, Option.some.injEq] at hk
      subst hk
      have hq := ih h.step 0 q (by rw [hr]; rfl)
      have e : X 0 - (vrtsStep one b s q).x = (X 0 - b.x) -
          act (b.P * s.Aᵀ * (vpredict one s b).P⁻¹) ((X 1 - (vpredict one s b).x) - (X 1 - q.x)) := by
        rw [vrtsStep, sub_sub_sub_cancel_left]
        simp only
        abel
      rw [e]
      exact h.err.sub ((h.prior.sub hq).act _)
    · simp only [List.getElem?_cons_succ] at hk
      exact ih h.step k b' (by rw [hr]; exact hk)

end unbiased

/-! ### The random run, as functions on the sample space -/

section functions
variable {Ω : Type} [MeasurableSpace Ω] {μ : Measure Ω} {n m : ℕ}
  {b : Belief n} {ms : List (ModelStep n m)} {N : Src n m → Ω → ℝ} {X : ℕ → Ω → Fin n → ℝ}
  {z : ℕ → Ω → Fin m → ℝ}

/-- Integrable functions of zero mean. -/
def centred (μ : Measure Ω) : Submodule ℝ (Ω → ℝ) where
  carrier := {f | Integrable f μ ∧ ∫ ω, f ω ∂μ = 0}
  add_mem' {f g} hf hg := ⟨hf.1.add hg.1, by
    have := integral_add hf.1 hg.1
    rw [hf.2, hg.2, add_zero] at this
    exact this⟩
  zero_mem' := ⟨integrable_zero _ _ _, by simp⟩
  smul_mem' c f hf := ⟨hf.1.smul c, by
    have := integral_smul c f (μ := μ)
    rw [hf.2, smul_zero] at this
    exact this⟩

/-- Value at a sample point. -/
def pt (ω : Ω) : (Ω → ℝ) →ₗ[ℝ] ℝ := LinearMap.proj ω

omit [MeasurableSpace Ω] in
theorem pt_one (ω : Ω) : pt ω (fun _ => 1) = 1 := rfl

/-- Exchange of the arguments. -/
def flip {d : ℕ} (Y : Ω → Fin d → ℝ) : Fin d → Ω → ℝ := fun i ω => Y ω i

omit [MeasurableSpace Ω] in
theorem act_fn {d d' : ℕ} (M : Matrix (Fin d') (Fin d) ℝ) (Y : Fin d → Ω → ℝ) (i : Fin d') (ω : Ω) :
    act M Y i ω = (M *ᵥ fun j => Y j ω) i := act_eval (pt ω) M Y i

def bF (Ω : Type) (b : Belief n) : VB (Ω → ℝ) n := ⟨cst (fun _ => 1) b.x, b.P⟩

omit [MeasurableSpace Ω] in
theorem bF_eval (ω : Ω) : (bF Ω b).eval (pt ω) = b := by
  refine Belief.ext (funext fun i => ?_) rfl
  show b.x i * 1 = b.x i
  rw [mul_one]

theorem driven (hN : ZeroMeanNoise μ ms.length N) (hX : Follows b.x ms N X z) :
    Driven (centred μ) (fun _ => 1) (fun k => flip (X k)) (bF Ω b) ms (fun k i => N (.w k i)) (fun k i => N (.v k i))
      fun k => flip (z k) where
  err i := by
    have : (flip (X 0) - (bF Ω b).x) i = N (.e i) := by
      funext ω
      show X 0 ω i - b.x i * 1 = _
      rw [hX.init]; ring
    rw [this]
    exact ⟨hN.int (.e i) trivial, hN.mean (.e i) trivial⟩
  state k s hs := by
    funext i ω
    show X (k + 1) ω i = act s.A (flip (X k)) i ω + s.c i * 1 + _
    rw [hX.state k s hs, act_fn, mul_one]
    rfl
  obs k s hs := by
    funext i ω
    show z k ω i = act s.H (flip (X (k + 1))) i ω + _
    rw [hX.obs k s hs, act_fn]
    rfl
  w k hk i := ⟨hN.int (.w k i) hk, hN.mean (.w k i) hk⟩
  v k hk i := ⟨hN.int (.v k i) hk, hN.mean (.v k i) hk⟩

/-- Filtered means, as random vectors. -/
theorem filter_fn (b : Belief n) (ms : List (ModelStep n m)) (z : ℕ → Ω → Fin m → ℝ) {k : ℕ} (hk : k < ms.length)
    (ω₀ : Ω) :
    ∃ vb : VB (Ω → ℝ) n, (vfiltered (fun _ => 1) (bF Ω b) ms fun k => flip (z k))[k]? = some vb ∧
      ∀ ω, (filtered b (withData ms fun k => z k ω))[k]? = some ⟨fun i => vb.x i ω, vb.P⟩ := by
  have hev : ∀ ω, (vfiltered (fun _ => 1) (bF Ω b) ms fun k => flip (z k)).map (VB.eval (pt ω)) =
      filtered b (withData ms fun k => z k ω) := by
    intro ω
    rw [vfiltered_eval (pt ω) (pt_one ω), bF_eval]
    rfl
  have hlen : k < (vfiltered (fun _ => 1) (bF Ω b) ms fun k => flip (z k)).length := by
    have := congrArg List.length (hev ω₀)
    rw [List.length_map, filtered_length, withData_length] at this
    omega
  refine ⟨_, List.getElem?_eq_getElem hlen, fun ω => ?_⟩
  rw [← hev, List.getElem?_map, List.getElem?_eq_getElem hlen]
  rfl

theorem smooth_fn (b : Belief n) (ms : List (ModelStep n m)) (z : ℕ → Ω → Fin m → ℝ) (s : ModelStep n m) {k : ℕ}
    (hk : k < ms.length + 1) (ω₀ : Ω) :
    ∃ vb : VB (Ω → ℝ) n, (vrts (fun _ => 1) (vnext (fun _ => 1) s (bF Ω b) (flip (z 0))) ms
        fun k => flip (z (k + 1)))[k]? = some vb ∧
      ∀ ω, (smoothed b (withData (s :: ms) fun k => z k ω))[k]? = some ⟨fun i => vb.x i ω, vb.P⟩ := by
  have hev : ∀ ω, (vrts (fun _ => 1) (vnext (fun _ => 1) s (bF Ω b) (flip (z 0))) ms fun k => flip (z (k + 1))).map
      (VB.eval (pt ω)) = smoothed b (withData (s :: ms) fun k => z k ω) := by
    intro ω
    rw [vrts_eval (pt ω) (pt_one ω), vnext_eval (pt ω) (pt_one ω), bF_eval]
    rfl
  have hlen : k < (vrts (fun _ => 1) (vnext (fun _ => 1) s (bF Ω b) (flip (z 0))) ms
      fun k => flip (z (k + 1))).length := by
    have := congrArg List.length (hev ω₀)
    rw [List.length_map, smoothed_length, withData_length, List.length_cons] at this
    omega
  refine ⟨_, List.getElem?_eq_getElem hlen, fun ω => ?_⟩
  rw [← hev, List.getElem?_map, List.getElem?_eq_getElem hlen]
  rfl

end functions

/-! ### The space of coefficients -/

section coeff
variable {n m T : ℕ}

/-- An affine combination of the noise sources: constant, and coefficients of the initial error, of the process noises
and of the measurement noises. -/
abbrev Co (n m T : ℕ) : Type := ℝ × (Fin n → ℝ) × (Fin T → Fin n → ℝ) × (Fin T → Fin m → ℝ)

/-- The quadratic form of a matrix. -/
noncomputable def qf {d : ℕ} (M : Matrix (Fin d) (Fin d) ℝ) : LinearMap.BilinForm ℝ (Fin d → ℝ) := Matrix.toBilin' M

theorem qf_apply {d : ℕ} (M : Matrix (Fin d) (Fin d) ℝ) (x y : Fin d → ℝ) : qf M x y = x ⬝ᵥ M *ᵥ y :=
  Matrix.toBilin'_apply' M x y

/-- Second moment according to the specified covariances. -/
noncomputable def told (P : Matrix (Fin n) (Fin n) ℝ) (Q : Fin T → Matrix (Fin n) (Fin n) ℝ)
    (R : Fin T → Matrix (Fin m) (Fin m) ℝ) : LinearMap.BilinForm ℝ (Co n m T) :=
  LinearMap.mk₂ ℝ (fun f g => f.1 * g.1 + qf P f.2.1 g.2.1 + ∑ k, qf (Q k) (f.2.2.1 k) (g.2.2.1 k) +
      ∑ k, qf (R k) (f.2.2.2 k) (g.2.2.2 k))
    (fun f f' g => by
      simp only [Prod.fst_add, Prod.snd_add, Pi.add_apply, map_add, LinearMap.add_apply, Finset.sum_add_distrib]; ring)
    (fun c f g => by
      simp only [Prod.smul_fst, Prod.smul_snd, Pi.smul_apply, map_smul, LinearMap.smul_apply, smul_eq_mul, Finset.mul_sum,
        mul_add]; ring)
    (fun f g g' => by
      simp only [Prod.fst_add, Prod.snd_add, Pi.add_apply, map_add, Finset.sum_add_distrib]; ring)
    (fun c f g => by
      simp only [Prod.smul_fst, Prod.smul_snd, Pi.smul_apply, map_smul, smul_eq_mul, Finset.mul_sum, mul_add]; ring)

variable {P : Matrix (Fin n) (Fin n) ℝ} {Q : Fin T → Matrix (Fin n) (Fin n) ℝ} {R : Fin T → Matrix (Fin m) (Fin m) ℝ}

theorem told_apply (f g : Co n m T) : told P Q R f g = f.1 * g.1 + qf P f.2.1 g.2.1 +
    ∑ k, qf (Q k) (f.2.2.1 k) (g.2.2.1 k) + ∑ k, qf (R k) (f.2.2.2 k) (g.2.2.2 k) := rfl

theorem qf_symm {d : ℕ} {M : Matrix (Fin d) (Fin d) ℝ} (h : Mᵀ = M) (x y : Fin d → ℝ) : qf M x y = qf M y x := by
  rw [qf_apply, qf_apply, Matrix.dotProduct_mulVec, ← Matrix.mulVec_transpose, h, dotProduct_comm]

theorem told_symm (hP : Pᵀ = P) (hQ : ∀ k, (Q k)ᵀ = Q k) (hR : ∀ k, (R k)ᵀ = R k) (f g : Co n m T) :
    told P Q R f g = told P Q R g f := by
  rw [told_apply, told_apply, qf_symm hP, mul_comm]
  congr 1
  · congr 1
    exact Finset.sum_congr rfl fun k _ => qf_symm (hQ k) _ _
  · exact Finset.sum_congr rfl fun k _ => qf_symm (hR k) _ _

/-- The constant `1`. -/
def coOne : Co n m T := (1, 0, 0, 0)
/-- Component `i` of the initial error. -/
def coE (i : Fin n) : Co n m T := (0, Pi.single i 1, 0, 0)
/-- Component `i` of the process noise of step `k`. -/
def coW (k : ℕ) (i : Fin n) : Co n m T := (0, 0, fun l => if l.1 = k then Pi.single i 1 else 0, 0)
/-- Component `i` of the measurement noise of step `k`. -/
def coV (k : ℕ) (i : Fin m) : Co n m T := (0, 0, 0, fun l => if l.1 = k then Pi.single i 1 else 0)

/-- The states as combinations of the sources. -/
noncomputable def coX (b : Belief n) (ms : List (ModelStep n m)) : ℕ → Fin n → Co n m T
  | 0 => fun i => b.x i • coOne + coE i
  | k + 1 => match ms[k]? with
    | some s => act s.A (coX b ms k) + cst coOne s.c + coW k
    | none => 0

/-- The observations as combinations of the sources. -/
noncomputable def coZ (b : Belief n) (ms : List (ModelStep n m)) (k : ℕ) : Fin m → Co n m T :=
  match ms[k]? with
  | some s => act s.H (coX b ms (k + 1)) + coV k
  | none => 0

noncomputable def coB (b : Belief n) : VB (Co n m T) n := ⟨cst coOne b.x, b.P⟩

theorem qf_single {d : ℕ} (M : Matrix (Fin d) (Fin d) ℝ) (i j : Fin d) : qf M (Pi.single i 1) (Pi.single j 1) = M i j := by
  rw [qf_apply]; simp

theorem coSys (b : Belief n) (ms : List (ModelStep n m)) (hT : T = ms.length) :
    Sys (told b.P (fun k : Fin T => (ms[k.1]'(by omega)).Q) fun k : Fin T => (ms[k.1]'(by omega)).R) coOne
      (Submodule.span ℝ {coOne}) (coX b ms) (coB b) ms coW coV (coZ b ms) := by
  have hspan : ∀ {B : LinearMap.BilinForm ℝ (Co n m T)} {f : Co n m T}, B f coOne = 0 →
      ∀ s ∈ Submodule.span ℝ {(coOne : Co n m T)}, B f s = 0 := by
    intro B f h s hs
    obtain ⟨c, rfl⟩ := Submodule.mem_span_singleton.1 hs
    rw [map_smul, h, smul_zero]
  have hX0 : (coX b ms 0 : Fin n → Co n m T) - (coB b).x = coE := by
    funext i
    show (b.x i • coOne + coE i) - b.x i • coOne = (coE i : Co n m T)
    rw [add_sub_cancel_left]
  refine ⟨Submodule.mem_span_singleton_self _, ⟨?_, ?_, ?_⟩, ?_, ?_, ?_, ?_, ?_, ?_, ?_, ?_, ?_, ?_, ?_, ?_⟩
  · exact fun i => Submodule.smul_mem _ _ (Submodule.mem_span_singleton_self _)
  · rw [hX0]
    exact fun i s hs => hspan (by simp [told_apply, coE, coOne]) s hs
  · rw [hX0]
    ext i j
    simp [cc, told_apply, coE, qf_single, coB]
  · intro k s hs
    rw [coX, hs]
  · intro k s hs
    rw [coZ, hs]
  · exact fun k hk i s hs => hspan (by simp [told_apply, coW, coOne]) s hs
  · exact fun k hk i s hs => hspan (by simp [told_apply, coV, coOne]) s hs
  · intro k hk; ext i j
    simp [cc, told_apply, coW, coX, coOne, coE]
  · intro k hk; ext i j
    simp [cc, told_apply, coV, coX, coOne, coE]
  · intro k s hs; ext i j
    obtain ⟨hk, hs'⟩ := List.getElem?_eq_some_iff.1 hs
    simp only [cc, told_apply, coW, Matrix.of_apply, mul_zero, map_zero, zero_add, Pi.zero_apply, Finset.sum_const_zero,
      add_zero]
    rw [Finset.sum_eq_single ⟨k, by omega⟩]
    · simp [qf_single, hs']
    · intro l _ hl
      have : l.1 ≠ k := fun h => hl (Fin.ext h)
      simp [this]
    · simp
  · intro k s hs; ext i j
    obtain ⟨hk, hs'⟩ := List.getElem?_eq_some_iff.1 hs
    simp only [cc, told_apply, coV, Matrix.of_apply, mul_zero, map_zero, zero_add, Pi.zero_apply, Finset.sum_const_zero,
      add_zero]
    rw [Finset.sum_eq_single ⟨k, by omega⟩]
    · simp [qf_single, hs']
    · intro l _ hl
      have : l.1 ≠ k := fun h => hl (Fin.ext h)
      simp [this]
    · simp
  · intro k hk l hl hkl; ext i j
    simp only [cc, told_apply, coW, Matrix.of_apply, mul_zero, map_zero, zero_add, Pi.zero_apply, Finset.sum_const_zero,
      add_zero, Matrix.zero_apply]
    refine Finset.sum_eq_zero fun t _ => ?_
    by_cases h1 : t.1 = k
    · have : t.1 ≠ l := by omega
      simp [this]
    · simp [h1]
  · intro k hk l hl hkl; ext i j
    simp only [cc, told_apply, coV, Matrix.of_apply, mul_zero, map_zero, zero_add, Pi.zero_apply, Finset.sum_const_zero,
      add_zero, Matrix.zero_apply]
    refine Finset.sum_eq_zero fun t _ => ?_
    by_cases h1 : t.1 = k
    · have : t.1 ≠ l := by omega
      simp [this]
    · simp [h1]
  · intro k hk l hl; ext i j
    simp [cc, told_apply, coW, coV]
  · intro k hk l hl; ext i j
    simp [cc, told_apply, coW, coV]

end coeff

/-! ### From coefficients to random variables -/

section moments
variable {Ω : Type} [MeasurableSpace Ω] {μ : Measure Ω} {n m T : ℕ}

theorem memLp_dot {d : ℕ} (c : Fin d → ℝ) {F : Fin d → Ω → ℝ} (hF : ∀ i, MemLp (F i) 2 μ) :
    MemLp (fun ω => c ⬝ᵥ fun i => F i ω) 2 μ :=
  memLp_finsetSum _ fun i _ => (hF i).const_mul (c i)

theorem int_dot {d d' : ℕ} (c : Fin d → ℝ) (c' : Fin d' → ℝ) {F : Fin d → Ω → ℝ} {G : Fin d' → Ω → ℝ}
    (hF : ∀ i, MemLp (F i) 2 μ) (hG : ∀ i, MemLp (G i) 2 μ) (h0 : ∀ i j, ∫ ω, F i ω * G j ω ∂μ = 0) :
    ∫ ω, (c ⬝ᵥ fun i => F i ω) * (c' ⬝ᵥ fun i => G i ω) ∂μ = 0 := by
  have hint : ∀ i j, Integrable (fun ω => c i * F i ω * (c' j * G j ω)) μ := fun i j =>
    (((hF i).integrable_mul (hG j)).const_mul (c i * c' j)).congr (.of_forall fun ω => by
      simp only [Pi.mul_apply]; ring)
  have : ∀ ω, (c ⬝ᵥ fun i => F i ω) * (c' ⬝ᵥ fun i => G i ω) = ∑ i, ∑ j, c i * F i ω * (c' j * G j ω) := fun ω => by
    rw [dotProduct, dotProduct, Finset.sum_mul_sum]
  simp only [this]
  rw [integral_finset_sum _ fun i _ => integrable_finset_sum _ fun j _ => hint i j]
  refine Finset.sum_eq_zero fun i _ => ?_
  rw [integral_finset_sum _ fun j _ => hint i j]
  refine Finset.sum_eq_zero fun j _ => ?_
  have : ∀ ω, c i * F i ω * (c' j * G j ω) = c i * c' j * (F i ω * G j ω) := fun ω => by ring
  simp only [this]
  rw [integral_const_mul, h0, mul_zero]

theorem int_sq_sum {J : Type} [Fintype J] [DecidableEq J] (Y : J → Ω → ℝ) (hY : ∀ j, MemLp (Y j) 2 μ)
    (h0 : ∀ i j, i ≠ j → ∫ ω, Y i ω * Y j ω ∂μ = 0) :
    ∫ ω, (∑ j, Y j ω) ^ 2 ∂μ = ∑ j, ∫ ω, Y j ω ^ 2 ∂μ := by
  have hint : ∀ i j, Integrable (fun ω => Y i ω * Y j ω) μ := fun i j => (hY i).integrable_mul (hY j)
  have : ∀ ω, (∑ j, Y j ω) ^ 2 = ∑ i, ∑ j, Y i ω * Y j ω := fun ω => by rw [sq, Finset.sum_mul_sum]
  simp only [this]
  rw [integral_finset_sum _ fun i _ => integrable_finset_sum _ fun j _ => hint i j]
  refine Finset.sum_congr rfl fun i _ => ?_
  rw [integral_finset_sum _ fun j _ => hint i j, Finset.sum_eq_single i]
  · exact integral_congr_ae (.of_forall fun ω => by simp only; ring)
  · exact fun j _ hj => h0 i j hj.symm
  · simp

/-- The value of a combination of sources at a sample point. -/
def coEv (N : Src n m → Ω → ℝ) (ω : Ω) : Co n m T →ₗ[ℝ] ℝ where
  toFun f := f.1 + (f.2.1 ⬝ᵥ fun i => N (.e i) ω) + (∑ k : Fin T, f.2.2.1 k ⬝ᵥ fun i => N (.w k i) ω) +
    ∑ k : Fin T, f.2.2.2 k ⬝ᵥ fun i => N (.v k i) ω
  map_add' f g := by
    simp only [Prod.fst_add, Prod.snd_add, Pi.add_apply, add_dotProduct, Finset.sum_add_distrib]; ring
  map_smul' c f := by
    simp only [Prod.smul_fst, Prod.smul_snd, Pi.smul_apply, smul_dotProduct, smul_eq_mul, RingHom.id_apply, mul_add,
      Finset.mul_sum]

omit [MeasurableSpace Ω] in
theorem coEv_one (N : Src n m → Ω → ℝ) (ω : Ω) : coEv N ω (coOne : Co n m T) = 1 := by
  simp [coEv, coOne]
omit [MeasurableSpace Ω] in
theorem coEv_e (N : Src n m → Ω → ℝ) (ω : Ω) (i : Fin n) : coEv N ω (coE i : Co n m T) = N (.e i) ω := by
  simp [coEv, coE]
omit [MeasurableSpace Ω] in
theorem coEv_w (N : Src n m → Ω → ℝ) (ω : Ω) {k : ℕ} (hk : k < T) (i : Fin n) :
    coEv N ω (coW k i : Co n m T) = N (.w k i) ω := by
  simp only [coEv, coW, LinearMap.coe_mk, AddHom.coe_mk, zero_dotProduct, add_zero, zero_add, Pi.zero_apply,
    Finset.sum_const_zero]
  rw [Finset.sum_eq_single ⟨k, hk⟩]
  · simp
  · intro l _ hl
    have : l.1 ≠ k := fun h => hl (Fin.ext h)
    simp [this]
  · simp
omit [MeasurableSpace Ω] in
theorem coEv_v (N : Src n m → Ω → ℝ) (ω : Ω) {k : ℕ} (hk : k < T) (i : Fin m) :
    coEv N ω (coV k i : Co n m T) = N (.v k i) ω := by
  simp only [coEv, coV, LinearMap.coe_mk, AddHom.coe_mk, zero_dotProduct, add_zero, zero_add, Pi.zero_apply,
    Finset.sum_const_zero]
  rw [Finset.sum_eq_single ⟨k, hk⟩]
  · simp
  · intro l _ hl
    have : l.1 ≠ k := fun h => hl (Fin.ext h)
    simp [this]
  · simp

variable {b : Belief n} {ms : List (ModelStep n m)} {N : Src n m → Ω → ℝ} {X : ℕ → Ω → Fin n → ℝ}
  {z : ℕ → Ω → Fin m → ℝ}

omit [MeasurableSpace Ω] in
theorem coEv_state (hX : Follows b.x ms N X z) (hT : T = ms.length) {k : ℕ} (hk : k ≤ ms.length) (ω : Ω) (i : Fin n) :
    coEv N ω (coX b ms k i : Co n m T) = X k ω i := by
  induction k generalizing i with
  | zero =>
    rw [coX, map_add, map_smul, coEv_one, coEv_e, hX.init, smul_eq_mul, mul_one]
  | succ k ih =>
    obtain ⟨s, hs⟩ : ∃ s, ms[k]? = some s := ⟨_, List.getElem?_eq_getElem (by omega)⟩
    rw [coX, hs, hX.state k s hs]
    simp only [Pi.add_apply, map_add, cst, map_smul, coEv_one, act_eval, smul_eq_mul, mul_one]
    rw [coEv_w N ω (by omega)]
    congr 4
    exact funext fun j => ih (by omega) j

omit [MeasurableSpace Ω] in
theorem coEv_obs (hX : Follows b.x ms N X z) (hT : T = ms.length) {k : ℕ} (hk : k < ms.length) (ω : Ω) (i : Fin m) :
    coEv N ω (coZ b ms k i : Co n m T) = z k ω i := by
  obtain ⟨s, hs⟩ : ∃ s, ms[k]? = some s := ⟨_, List.getElem?_eq_getElem (by omega)⟩
  rw [coZ, hs, hX.obs k s hs]
  simp only [Pi.add_apply, map_add, act_eval]
  rw [coEv_v N ω (by omega)]
  congr 3
  exact funext fun j => coEv_state hX hT (by omega) ω j

omit [MeasurableSpace Ω] in
theorem coB_eval (ω : Ω) : (coB b : VB (Co n m T) n).eval (coEv N ω) = b := by
  refine Belief.ext (funext fun i => ?_) rfl
  show coEv N ω (b.x i • coOne) = b.x i
  rw [map_smul, coEv_one, smul_eq_mul, mul_one]

/-- A centred combination of sources has at most the second moment given by the specified covariances. -/
theorem moment_le (hN : NoiseWithin μ b.P ms N) (hT : T = ms.length) {f : Co n m T} (h1 : f.1 = 0) :
    MemLp (fun ω => coEv N ω f) 2 μ ∧
    ∫ ω, coEv N ω f ^ 2 ∂μ ≤
      told b.P (fun k : Fin T => (ms[k.1]'(by omega)).Q) (fun k : Fin T => (ms[k.1]'(by omega)).R) f f := by
  have hw : ∀ (k : Fin T) (i : Fin n), (Src.w k i : Src n m).Active ms.length := fun k i => show k.1 < _ by omega
  have hv : ∀ (k : Fin T) (i : Fin m), (Src.v k i : Src n m).Active ms.length := fun k i => show k.1 < _ by omega
  have he : ∀ i : Fin n, (Src.e i : Src n m).Active ms.length := fun i => trivial
  obtain ⟨Y, hYd⟩ : ∃ Y : Option (Fin T ⊕ Fin T) → Ω → ℝ, Y = fun j ω => match j with
    | none => f.2.1 ⬝ᵥ fun i => N (.e i) ω
    | some (.inl k) => f.2.2.1 k ⬝ᵥ fun i => N (.w k i) ω
    | some (.inr k) => f.2.2.2 k ⬝ᵥ fun i => N (.v k i) ω := ⟨_, rfl⟩
  have hsum : ∀ ω, coEv N ω f = ∑ j, Y j ω := by
    intro ω
    rw [Fintype.sum_option, Fintype.sum_sum_type, hYd, coEv]
    simp only [LinearMap.coe_mk, AddHom.coe_mk, h1, zero_add, add_assoc]
  have hY : ∀ j, MemLp (Y j) 2 μ := by
    rw [hYd]
    rintro (_ | k | k)
    · exact memLp_dot _ fun i => hN.sq _ (he i)
    · exact memLp_dot _ fun i => hN.sq _ (hw k i)
    · exact memLp_dot _ fun i => hN.sq _ (hv k i)
  have h0 : ∀ i j, i ≠ j → ∫ ω, Y i ω * Y j ω ∂μ = 0 := by
    rw [hYd]
    rintro (_ | k | k) (_ | l | l) hij
    · exact absurd rfl hij
    · exact int_dot _ _ (fun i => hN.sq _ (he i)) (fun i => hN.sq _ (hw l i)) fun i j =>
        hN.uncorrelated _ _ (he i) (hw l j) id
    · exact int_dot _ _ (fun i => hN.sq _ (he i)) (fun i => hN.sq _ (hv l i)) fun i j =>
        hN.uncorrelated _ _ (he i) (hv l j) id
    · exact int_dot _ _ (fun i => hN.sq _ (hw k i)) (fun i => hN.sq _ (he i)) fun i j =>
        hN.uncorrelated _ _ (hw k i) (he j) id
    · exact int_dot _ _ (fun i => hN.sq _ (hw k i)) (fun i => hN.sq _ (hw l i)) fun i j =>
        hN.uncorrelated _ _ (hw k i) (hw l j) fun h => hij (by rw [Fin.ext (h : k.1 = l.1)])
    · exact int_dot _ _ (fun i => hN.sq _ (hw k i)) (fun i => hN.sq _ (hv l i)) fun i j =>
        hN.uncorrelated _ _ (hw k i) (hv l j) id
    · exact int_dot _ _ (fun i => hN.sq _ (hv k i)) (fun i => hN.sq _ (he i)) fun i j =>
        hN.uncorrelated _ _ (hv k i) (he j) id
    · exact int_dot _ _ (fun i => hN.sq _ (hv k i)) (fun i => hN.sq _ (hw l i)) fun i j =>
        hN.uncorrelated _ _ (hv k i) (hw l j) id
    · exact int_dot _ _ (fun i => hN.sq _ (hv k i)) (fun i => hN.sq _ (hv l i)) fun i j =>
        hN.uncorrelated _ _ (hv k i) (hv l j) fun h => hij (by rw [Fin.ext (h : k.1 = l.1)])
  simp only [hsum]
  refine ⟨memLp_finsetSum _ fun j _ => hY j, ?_⟩
  rw [int_sq_sum Y hY h0, Fintype.sum_option, Fintype.sum_sum_type, told_apply, h1, mul_zero, zero_add, ← add_assoc, hYd]
  refine add_le_add (add_le_add ?_ (Finset.sum_le_sum fun k _ => ?_)) (Finset.sum_le_sum fun k _ => ?_)
  · rw [qf_apply]; exact hN.initial _
  · rw [qf_apply]; exact hN.process k _ (List.getElem?_eq_getElem (by omega)) _
  · rw [qf_apply]; exact hN.measurement k _ (List.getElem?_eq_getElem (by omega)) _

/-- Good estimates are conservative. -/
theorem conservative_of_good (hN : NoiseWithin μ b.P ms N) (hX : Follows b.x ms N X z) (hT : T = ms.length) {k : ℕ}
    (hk : k ≤ ms.length) {S : Submodule ℝ (Co n m T)} (h1 : coOne ∈ S) {vb : VB (Co n m T) n}
    (hg : Good (told b.P (fun k : Fin T => (ms[k.1]'(by omega)).Q) (fun k : Fin T => (ms[k.1]'(by omega)).R)) S
      (coX b ms k) vb) :
    Conservative μ (X k) (fun ω => (vb.eval (coEv N ω)).x) vb.P := by
  intro c
  obtain ⟨f, hf⟩ : ∃ f : Co n m T, f = ∑ i, c i • ((coX b ms k : Fin n → Co n m T) - vb.x) i :=
    ⟨_, rfl⟩
  have hev : ∀ ω, coEv N ω f = c ⬝ᵥ (X k ω - (vb.eval (coEv N ω)).x) := by
    intro ω
    rw [hf, map_sum, dotProduct]
    refine Finset.sum_congr rfl fun i _ => ?_
    rw [map_smul, Pi.sub_apply, map_sub, coEv_state hX hT hk, smul_eq_mul]
    rfl
  have hf1 : f.1 = 0 := by
    have : told b.P (fun k : Fin T => (ms[k.1]'(by omega)).Q) (fun k : Fin T => (ms[k.1]'(by omega)).R) f coOne = 0 := by
      rw [hf, map_sum, LinearMap.sum_apply]
      refine Finset.sum_eq_zero fun i _ => ?_
      rw [map_smul, LinearMap.smul_apply, hg.perp i _ h1, smul_zero]
    simpa [told_apply, coOne] using this
  have hff : told b.P (fun k : Fin T => (ms[k.1]'(by omega)).Q) (fun k : Fin T => (ms[k.1]'(by omega)).R) f f =
      c ⬝ᵥ vb.P *ᵥ c := by
    rw [← hg.cov, hf]
    simp only [map_sum, LinearMap.sum_apply, map_smul, LinearMap.smul_apply, smul_eq_mul, dotProduct, Matrix.mulVec, cc,
      Matrix.of_apply, Finset.mul_sum]
    rw [Finset.sum_comm]
    exact Finset.sum_congr rfl fun i _ => Finset.sum_congr rfl fun j _ => by ring
  obtain ⟨h2, h3⟩ := moment_le hN hT hf1
  simp only [hev] at h2 h3
  rw [hff] at h3
  exact ⟨h2.integrable_sq, h3⟩

/-! ### Runs -/

theorem coData (hX : Follows b.x ms N X z) (ω : Ω) :
    withData ms (fun k i => coEv N ω (coZ b ms k i : Co n m ms.length)) = withData ms fun k => z k ω :=
  withData_congr ms fun _ hk => funext fun i => coEv_obs hX rfl hk ω i

theorem coSymm (hsym : Symmetric b.P ms) (f g : Co n m ms.length) :
    told b.P (fun k : Fin ms.length => ms[k.1].Q) (fun k : Fin ms.length => ms[k.1].R) f g =
      told b.P (fun k : Fin ms.length => ms[k.1].Q) (fun k : Fin ms.length => ms[k.1].R) g f :=
  told_symm hsym.1 (fun _ => (hsym.2 _ (List.getElem_mem _)).1) (fun _ => (hsym.2 _ (List.getElem_mem _)).2) f g

theorem filter_co (hX : Follows b.x ms N X z) (hsym : Symmetric b.P ms)
    (hs : ∃ ω, Solvable b (withData ms fun k => z k ω)) {k : ℕ} (hk : k < ms.length) :
    ∃ vb : VB (Co n m ms.length) n,
      (∀ ω, (filtered b (withData ms fun k => z k ω))[k]? = some ⟨(vb.eval (coEv N ω)).x, vb.P⟩) ∧
      Good (told b.P (fun k : Fin ms.length => ms[k.1].Q) fun k : Fin ms.length => ms[k.1].R)
        (upTo (Submodule.span ℝ {coOne}) (coZ b ms) (k + 1)) (coX b ms (k + 1)) vb := by
  obtain ⟨ω₀, hs⟩ := hs
  have hv : VSolvable coOne (coB b) ms (coZ b ms : ℕ → Fin m → Co n m ms.length) := by
    rw [vsolvable_eval (coEv N ω₀) (coEv_one N ω₀), coData hX, coB_eval]; exact hs
  have hev : ∀ ω, (vfiltered coOne (coB b) ms (coZ b ms : ℕ → Fin m → Co n m ms.length)).map (VB.eval (coEv N ω)) =
      filtered b (withData ms fun k => z k ω) := by
    intro ω
    rw [vfiltered_eval (coEv N ω) (coEv_one N ω), coData hX, coB_eval]
  have hlen : k < (vfiltered coOne (coB b) ms (coZ b ms : ℕ → Fin m → Co n m ms.length)).length := by
    have := congrArg List.length (hev ω₀)
    rw [List.length_map, filtered_length, withData_length] at this
    omega
  refine ⟨_, fun ω => ?_, filter_good (coSymm hsym) (coSys b ms rfl) hv k _ (List.getElem?_eq_getElem hlen)⟩
  rw [← hev ω, List.getElem?_map, List.getElem?_eq_getElem hlen]
  rfl

theorem smooth_co (hX : Follows b.x ms N X z) (hsym : Symmetric b.P ms)
    (hs : ∃ ω, Solvable b (withData ms fun k => z k ω) ∧ SmoothSolvable b (withData ms fun k => z k ω)) {k : ℕ}
    (hk : k < ms.length) :
    ∃ vb : VB (Co n m ms.length) n,
      (∀ ω, (smoothed b (withData ms fun k => z k ω))[k]? = some ⟨(vb.eval (coEv N ω)).x, vb.P⟩) ∧
      Good (told b.P (fun k : Fin ms.length => ms[k.1].Q) fun k : Fin ms.length => ms[k.1].R)
        (upTo (Submodule.span ℝ {coOne}) (coZ b ms) ms.length) (coX b ms (k + 1)) vb := by
  obtain ⟨ω₀, hs, hs'⟩ := hs
  have hv : VSolvable coOne (coB b) ms (coZ b ms : ℕ → Fin m → Co n m ms.length) := by
    rw [vsolvable_eval (coEv N ω₀) (coEv_one N ω₀), coData hX, coB_eval]; exact hs
  have hsys := coSys b ms (T := ms.length) rfl
  have hsy := coSymm hsym
  have hdata := coData hX
  have h1 := fun ω => coEv_one (T := ms.length) N ω
  have hb := fun ω => coB_eval (T := ms.length) (b := b) (N := N) ω
  clear hX hsym
  rcases ms with _ | ⟨s, ms⟩
  · simp at hk
  have hv' : VRtsSolvable coOne (vnext coOne s (coB b) (coZ b (s :: ms) 0 : Fin m → Co n m (s :: ms).length)) ms
      fun k => coZ b (s :: ms) (k + 1) := by
    rw [vrtsSolvable_eval (coEv N ω₀) (h1 ω₀), vnext_eval (coEv N ω₀) (h1 ω₀), hb]
    rw [← hdata ω₀] at hs'
    exact hs'
  have hst := hsys.step hsy hv.1
  have hev : ∀ ω, (vrts coOne (vnext coOne s (coB b) (coZ b (s :: ms) 0 : Fin m → Co n m (s :: ms).length)) ms
      fun k => coZ b (s :: ms) (k + 1)).map (VB.eval (coEv N ω)) = smoothed b (withData (s :: ms) fun k => z k ω) := by
    intro ω
    rw [vrts_eval (coEv N ω) (h1 ω), vnext_eval (coEv N ω) (h1 ω), hb, ← hdata ω]
    rfl
  have hlen : k < (vrts coOne (vnext coOne s (coB b) (coZ b (s :: ms) 0 : Fin m → Co n m (s :: ms).length)) ms
      fun k => coZ b (s :: ms) (k + 1)).length := by
    have := congrArg List.length (hev ω₀)
    rw [List.length_map, smoothed_length, withData_length] at this
    omega
  have hg := smooth_good hsy hst hv.2 hv' k _ (List.getElem?_eq_getElem hlen)
  rw [← upTo_succ (z := coZ b (s :: ms))] at hg
  refine ⟨_, fun ω => ?_, hg⟩
  rw [← hev ω, List.getElem?_map, List.getElem?_eq_getElem hlen]
  rfl

end moments

end Stoch

end KK
