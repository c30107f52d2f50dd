import Verif.Spec.Stochastic
import Verif.Proofs.Transfer

/-!
# Orthogonality calculus

Random variables are modelled abstractly as elements of a real vector space with a symmetric bilinear form
(expectation of the product).
-/

set_option linter.unusedSectionVars false

namespace KK

open Matrix

namespace Stoch

variable {V : Type} [AddCommGroup V] [Module ℝ V] {B : LinearMap.BilinForm ℝ V} {S S' : Submodule ℝ V}
  {ι κ ν : Type} [Fintype ι] [Fintype κ] [Fintype ν]

/-- A matrix applied to a random vector. -/
def act (M : Matrix κ ι ℝ) (X : ι → V) : κ → V := fun i => ∑ j, M i j • X j

/-- Cross second-moment matrix. -/
def cc (B : LinearMap.BilinForm ℝ V) (X : ι → V) (Y : κ → V) : Matrix ι κ ℝ := Matrix.of fun i j => B (X i) (Y j)

/-- All components orthogonal to a subspace. -/
def Perp (B : LinearMap.BilinForm ℝ V) (X : ι → V) (S : Submodule ℝ V) : Prop := ∀ i, ∀ s ∈ S, B (X i) s = 0

/-- All components in a subspace. -/
def InS (X : ι → V) (S : Submodule ℝ V) : Prop := ∀ i, X i ∈ S

omit [Fintype ι] [Fintype κ] in
theorem cc_add_left (X X' : ι → V) (Y : κ → V) : cc B (X + X') Y = cc B X Y + cc B X' Y := by
  ext i j; simp [cc]
omit [Fintype ι] [Fintype κ] in
theorem cc_add_right (X : ι → V) (Y Y' : κ → V) : cc B X (Y + Y') = cc B X Y + cc B X Y' := by
  ext i j; simp [cc]
omit [Fintype ι] [Fintype κ] in
theorem cc_sub_left (X X' : ι → V) (Y : κ → V) : cc B (X - X') Y = cc B X Y - cc B X' Y := by
  ext i j; simp [cc]
omit [Fintype ι] [Fintype κ] in
theorem cc_sub_right (X : ι → V) (Y Y' : κ → V) : cc B X (Y - Y') = cc B X Y - cc B X Y' := by
  ext i j; simp [cc]
theorem cc_act_left (M : Matrix ν ι ℝ) (X : ι → V) (Y : κ → V) : cc B (act M X) Y = M * cc B X Y := by
  ext i j
  simp only [cc, act, Matrix.of_apply, Matrix.mul_apply, map_sum, LinearMap.sum_apply, map_smul,
    LinearMap.smul_apply, smul_eq_mul]
theorem cc_act_right (M : Matrix ν κ ℝ) (X : ι → V) (Y : κ → V) : cc B X (act M Y) = cc B X Y * Mᵀ := by
  ext i j
  simp only [cc, act, Matrix.of_apply, Matrix.mul_apply, map_sum, map_smul, smul_eq_mul, Matrix.transpose_apply]
  exact Finset.sum_congr rfl fun _ _ => mul_comm _ _
theorem cc_symm (hB : ∀ x y, B x y = B y x) (X : ι → V) (Y : κ → V) : (cc B X Y)ᵀ = cc B Y X := by
  ext i j; simp [cc, hB (X j)]

theorem act_sub (M : Matrix κ ι ℝ) (X Y : ι → V) : act M (X - Y) = act M X - act M Y := by
  funext i; simp [act, smul_sub, Finset.sum_sub_distrib]
theorem act_add (M : Matrix κ ι ℝ) (X Y : ι → V) : act M (X + Y) = act M X + act M Y := by
  funext i; simp [act, smul_add, Finset.sum_add_distrib]

theorem Perp.add {X Y : ι → V} (h : Perp B X S) (h' : Perp B Y S) : Perp B (X + Y) S := by
  intro i s hs; simp [h i s hs, h' i s hs]
theorem Perp.sub {X Y : ι → V} (h : Perp B X S) (h' : Perp B Y S) : Perp B (X - Y) S := by
  intro i s hs; simp [h i s hs, h' i s hs]
theorem Perp.act {X : ι → V} (h : Perp B X S) (M : Matrix κ ι ℝ) : Perp B (act M X) S := by
  intro i s hs
  simp only [Stoch.act, map_sum, LinearMap.sum_apply, map_smul, LinearMap.smul_apply, h _ s hs, smul_zero,
    Finset.sum_const_zero]
theorem Perp.mono {X : ι → V} (h : Perp B X S') (hS : S ≤ S') : Perp B X S := fun i s hs => h i s (hS hs)

theorem InS.add {X Y : ι → V} (h : InS X S) (h' : InS Y S) : InS (X + Y) S := fun i => S.add_mem (h i) (h' i)
theorem InS.sub {X Y : ι → V} (h : InS X S) (h' : InS Y S) : InS (X - Y) S := fun i => S.sub_mem (h i) (h' i)
theorem InS.act {X : ι → V} (h : InS X S) (M : Matrix κ ι ℝ) : InS (act M X) S :=
  fun _ => S.sum_mem fun j _ => S.smul_mem _ (h j)
theorem InS.mono {X : ι → V} (h : InS X S) (hS : S ≤ S') : InS X S' := fun i => hS (h i)

theorem cc_perp {X : ι → V} {Y : κ → V} (h : Perp B X S) (h' : InS Y S) : cc B X Y = 0 := by
  ext i j; exact h i _ (h' j)

theorem cc_perp' (hB : ∀ x y, B x y = B y x) {X : ι → V} {Y : κ → V} (h : Perp B X S) (h' : InS Y S) :
    cc B Y X = 0 := by
  rw [← cc_symm hB, cc_perp h h', Matrix.transpose_zero]

/-- Orthogonality to a subspace and to further vectors. -/
theorem Perp.sup_span {X : ι → V} (h : Perp B X S) {Y : κ → V} (h' : cc B X Y = 0) :
    Perp B X (S ⊔ Submodule.span ℝ (Set.range Y)) := by
  intro i s hs
  obtain ⟨a, ha, c, hc, rfl⟩ := Submodule.mem_sup.1 hs
  rw [map_add, h i a ha, zero_add]
  clear hs
  induction hc using Submodule.span_induction with
  | mem x hx =>
    obtain ⟨j, rfl⟩ := hx
    exact congrFun (congrFun h' i) j
  | zero => simp
  | add x y _ _ hx hy => simp [hx, hy]
  | smul c x _ hx => simp [hx]

/-! ### The recursions on random beliefs -/

variable {n m : ℕ}

structure VB (V : Type) (n : ℕ) where
  x : Fin n → V
  P : Matrix (Fin n) (Fin n) ℝ

/-- A constant random vector. -/
def cst (one : V) (c : Fin n → ℝ) : Fin n → V := fun i => c i • one

noncomputable def vpredict (one : V) (s : ModelStep n m) (b : VB V n) : VB V n :=
  ⟨act s.A b.x + cst one s.c, priorCov s.A b.P s.Q⟩

noncomputable def vnext (one : V) (s : ModelStep n m) (b : VB V n) (z : Fin m → V) : VB V n :=
  ⟨(vpredict one s b).x + act (kGain s.H (vpredict one s b).P s.R) (z - act s.H (vpredict one s b).x),
    postCov s.H (vpredict one s b).P s.R⟩

noncomputable def vfiltered (one : V) : VB V n → List (ModelStep n m) → (ℕ → Fin m → V) → List (VB V n)
  | _, [], _ => []
  | b, s :: ms, z => vnext one s b (z 0) :: vfiltered one (vnext one s b (z 0)) ms fun k => z (k + 1)

noncomputable def vrtsStep (one : V) (b : VB V n) (s : ModelStep n m) (q : VB V n) : VB V n :=
  ⟨b.x + act (b.P * s.Aᵀ * (vpredict one s b).P⁻¹) (q.x - (vpredict one s b).x),
    b.P + (b.P * s.Aᵀ * (vpredict one s b).P⁻¹) * (q.P - (vpredict one s b).P) *
      (b.P * s.Aᵀ * (vpredict one s b).P⁻¹)ᵀ⟩

noncomputable def vrts (one : V) : VB V n → List (ModelStep n m) → (ℕ → Fin m → V) → List (VB V n)
  | b, [], _ => [b]
  | b, s :: ms, z =>
    match vrts one (vnext one s b (z 0)) ms fun k => z (k + 1) with
    | [] => []
    | q :: qs => vrtsStep one b s q :: q :: qs

def VSolvable (one : V) : VB V n → List (ModelStep n m) → (ℕ → Fin m → V) → Prop
  | _, [], _ => True
  | b, s :: ms, z => (innovCov s.H (vpredict one s b).P s.R).det ≠ 0 ∧
      VSolvable one (vnext one s b (z 0)) ms fun k => z (k + 1)

def VRtsSolvable (one : V) : VB V n → List (ModelStep n m) → (ℕ → Fin m → V) → Prop
  | _, [], _ => True
  | b, s :: ms, z => (vpredict one s b).P.det ≠ 0 ∧
      VRtsSolvable one (vnext one s b (z 0)) ms fun k => z (k + 1)

/-- An estimate of `X` from the data in `S`: it is built from the data, its error is orthogonal to the data, and its
covariance is the true one. -/
structure Good (B : LinearMap.BilinForm ℝ V) (S : Submodule ℝ V) (X : Fin n → V) (b : VB V n) : Prop where
  mem : InS b.x S
  perp : Perp B (X - b.x) S
  cov : cc B (X - b.x) (X - b.x) = b.P

/-- A system in operation: a good estimate of the present state, and noises uncorrelated with everything so far. -/
structure Sys (B : LinearMap.BilinForm ℝ V) (one : V) (S : Submodule ℝ V) (X : ℕ → Fin n → V) (b : VB V n)
    (ms : List (ModelStep n m)) (w : ℕ → Fin n → V) (v z : ℕ → Fin m → V) : Prop where
  one_mem : one ∈ S
  good : Good B S (X 0) b
  state : ∀ (k : ℕ) (s : ModelStep n m), ms[k]? = some s → X (k + 1) = act s.A (X k) + cst one s.c + w k
  obs : ∀ (k : ℕ) (s : ModelStep n m), ms[k]? = some s → z k = act s.H (X (k + 1)) + v k
  wS : ∀ k < ms.length, Perp B (w k) S
  vS : ∀ k < ms.length, Perp B (v k) S
  wX : ∀ k < ms.length, cc B (w k) (X 0) = 0
  vX : ∀ k < ms.length, cc B (v k) (X 0) = 0
  ww : ∀ (k : ℕ) (s : ModelStep n m), ms[k]? = some s → cc B (w k) (w k) = s.Q
  vv : ∀ (k : ℕ) (s : ModelStep n m), ms[k]? = some s → cc B (v k) (v k) = s.R
  ww' : ∀ k < ms.length, ∀ l < ms.length, k ≠ l → cc B (w k) (w l) = 0
  vv' : ∀ k < ms.length, ∀ l < ms.length, k ≠ l → cc B (v k) (v l) = 0
  wv : ∀ k < ms.length, ∀ l < ms.length, cc B (w k) (v l) = 0
  vw : ∀ k < ms.length, ∀ l < ms.length, cc B (v k) (w l) = 0

variable {one : V} {X : ℕ → Fin n → V} {b : VB V n} {s : ModelStep n m} {ms : List (ModelStep n m)}
  {w : ℕ → Fin n → V} {v z : ℕ → Fin m → V}

theorem cst_mem (h : one ∈ S) (c : Fin n → ℝ) : InS (cst one c) S := fun _ => S.smul_mem _ h

/-- The one-step-ahead error. -/
theorem Sys.prior_err (h : Sys B one S X b (s :: ms) w v z) :
    X 1 - (vpredict one s b).x = act s.A (X 0 - b.x) + w 0 := by
  have e : (vpredict one s b).x = act s.A b.x + cst one s.c := rfl
  rw [h.state 0 s rfl, e, act_sub]
  abel

theorem Sys.prior (hB : ∀ x y, B x y = B y x) (h : Sys B one S X b (s :: ms) w v z) :
    Good B S (X 1) (vpredict one s b) where
  mem := (h.good.mem.act _).add (cst_mem h.one_mem _)
  perp := by
    rw [h.prior_err]
    exact (h.good.perp.act _).add (h.wS 0 (by simp))
  cov := by
    have c1 : cc B (w 0) (X 0 - b.x) = 0 := by
      rw [cc_sub_right, h.wX 0 (by simp), cc_perp (h.wS 0 (by simp)) h.good.mem, sub_zero]
    have c2 : cc B (X 0 - b.x) (w 0) = 0 := by rw [← cc_symm hB, c1, Matrix.transpose_zero]
    rw [h.prior_err, cc_add_left, cc_add_right, cc_add_right, cc_act_left, cc_act_left, cc_act_right, cc_act_right, c1, c2,
      h.good.cov, h.ww 0 s rfl, vpredict, priorCov]
    simp [Matrix.mul_assoc]

theorem Sys.innov_eq (h : Sys B one S X b (s :: ms) w v z) :
    z 0 - act s.H (vpredict one s b).x = act s.H (X 1 - (vpredict one s b).x) + v 0 := by
  rw [h.obs 0 s rfl, act_sub]; abel

/-- Later noises are uncorrelated with the one-step-ahead error. -/
theorem Sys.noise_prior (h : Sys B one S X b (s :: ms) w v z) {κ : Type} [Fintype κ] {y : κ → V}
    (h1 : cc B y (X 0) = 0) (h2 : Perp B y S) (h3 : cc B y (w 0) = 0) :
    cc B y (X 1 - (vpredict one s b).x) = 0 := by
  rw [h.prior_err, cc_add_right, cc_act_right, cc_sub_right, h1, cc_perp h2 h.good.mem, h3]
  simp

theorem Sys.noise_state (h : Sys B one S X b (s :: ms) w v z) {κ : Type} [Fintype κ] {y : κ → V}
    (h1 : cc B y (X 0) = 0) (h2 : Perp B y S) (h3 : cc B y (w 0) = 0) : cc B y (X 1) = 0 := by
  rw [h.state 0 s rfl, cc_add_right, cc_add_right, cc_act_right, h1, cc_perp h2 (cst_mem h.one_mem _), h3]
  simp

theorem Sys.noise_obs (h : Sys B one S X b (s :: ms) w v z) {κ : Type} [Fintype κ] {y : κ → V}
    (h1 : cc B y (X 0) = 0) (h2 : Perp B y S) (h3 : cc B y (w 0) = 0) (h4 : cc B y (v 0) = 0) :
    Perp B y (S ⊔ Submodule.span ℝ (Set.range (z 0))) := by
  refine h2.sup_span ?_
  rw [h.obs 0 s rfl, cc_add_right, cc_act_right, h.noise_state h1 h2 h3, h4]
  simp

theorem Sys.post (hB : ∀ x y, B x y = B y x) (h : Sys B one S X b (s :: ms) w v z)
    (hd : (innovCov s.H (vpredict one s b).P s.R).det ≠ 0) :
    Good B (S ⊔ Submodule.span ℝ (Set.range (z 0))) (X 1) (vnext one s b (z 0)) := by
  have hp := h.prior hB
  obtain ⟨p, hpdef⟩ : ∃ p, p = vpredict one s b := ⟨_, rfl⟩
  obtain ⟨r, hr⟩ : ∃ r, r = z 0 - act s.H p.x := ⟨_, rfl⟩
  obtain ⟨e, he⟩ : ∃ e, e = X 1 - p.x := ⟨_, rfl⟩
  have hre : r = act s.H e + v 0 := by rw [hr, he, hpdef]; exact h.innov_eq
  have hve : cc B (v 0) e = 0 := by
    rw [he, hpdef]
    exact h.noise_prior (h.vX 0 (by simp)) (h.vS 0 (by simp)) (h.vw 0 (by simp) 0 (by simp))
  have hev : cc B e (v 0) = 0 := by rw [← cc_symm hB, hve, Matrix.transpose_zero]
  have hee : cc B e e = p.P := by rw [he, hpdef]; exact hp.cov
  have her : cc B e r = p.P * s.Hᵀ := by rw [hre, cc_add_right, cc_act_right, hee, hev, add_zero]
  have hre' : cc B r e = s.H * p.P := by rw [hre, cc_add_left, cc_act_left, hee, hve, add_zero]
  have hrr : cc B r r = innovCov s.H p.P s.R := by
    conv_lhs => rw [hre]
    rw [cc_add_left, cc_add_right, cc_add_right, cc_act_left, cc_act_left, cc_act_right, cc_act_right, hee, hev, hve,
      h.vv 0 s rfl, innovCov]
    simp [Matrix.mul_assoc]
  have hx : (vnext one s b (z 0)).x = p.x + act (kGain s.H p.P s.R) r := by rw [hr, hpdef]; rfl
  have herr : X 1 - (vnext one s b (z 0)).x = e - act (kGain s.H p.P s.R) r := by rw [hx, he]; abel
  have hperr : cc B (e - act (kGain s.H p.P s.R) r) r = 0 := by
    rw [← hpdef] at hd
    rw [cc_sub_left, cc_act_left, her, hrr, kGain_mul_innov hd, sub_self]
  have hpS : Perp B (e - act (kGain s.H p.P s.R) r) S := by
    have h1 : Perp B e S := by rw [he, hpdef]; exact hp.perp
    have h2 : Perp B r S := by rw [hre]; exact (h1.act _).add (h.vS 0 (by simp))
    exact h1.sub (h2.act _)
  have hmemp : InS p.x S := by rw [hpdef]; exact hp.mem
  refine ⟨?_, ?_, ?_⟩
  · rw [hx, hr]
    have hz : InS (z 0) (S ⊔ Submodule.span ℝ (Set.range (z 0))) := fun i =>
      Submodule.mem_sup_right (Submodule.subset_span ⟨i, rfl⟩)
    have hq := hmemp.mono (le_sup_left (b := Submodule.span ℝ (Set.range (z 0))))
    exact hq.add ((hz.sub (hq.act _)).act _)
  · rw [herr]
    refine hpS.sup_span ?_
    have hz : z 0 = r + act s.H p.x := by rw [hr]; abel
    rw [hz, cc_add_right, hperr, cc_perp hpS (hmemp.act _), add_zero]
  · rw [herr, cc_sub_right, cc_act_right, hperr, Matrix.zero_mul, sub_zero, cc_sub_left, cc_act_left, hee, hre', vnext,
      ← hpdef, postCov, Matrix.sub_mul, Matrix.one_mul, Matrix.mul_assoc]

/-- One step of operation. -/
theorem Sys.step (hB : ∀ x y, B x y = B y x) (h : Sys B one S X b (s :: ms) w v z)
    (hd : (innovCov s.H (vpredict one s b).P s.R).det ≠ 0) :
    Sys B one (S ⊔ Submodule.span ℝ (Set.range (z 0))) (fun k => X (k + 1)) (vnext one s b (z 0)) ms
      (fun k => w (k + 1)) (fun k => v (k + 1)) (fun k => z (k + 1)) where
  one_mem := Submodule.mem_sup_left h.one_mem
  good := h.post hB hd
  state k s' hs := h.state (k + 1) s' hs
  obs k s' hs := h.obs (k + 1) s' hs
  wS k hk := h.noise_obs (h.wX (k + 1) (by simpa using hk)) (h.wS (k + 1) (by simpa using hk))
    (h.ww' (k + 1) (by simpa using hk) 0 (by simp) (by simp)) (h.wv (k + 1) (by simpa using hk) 0 (by simp))
  vS k hk := h.noise_obs (h.vX (k + 1) (by simpa using hk)) (h.vS (k + 1) (by simpa using hk))
    (h.vw (k + 1) (by simpa using hk) 0 (by simp)) (h.vv' (k + 1) (by simpa using hk) 0 (by simp) (by simp))
  wX k hk := h.noise_state (h.wX (k + 1) (by simpa using hk)) (h.wS (k + 1) (by simpa using hk))
    (h.ww' (k + 1) (by simpa using hk) 0 (by simp) (by simp))
  vX k hk := h.noise_state (h.vX (k + 1) (by simpa using hk)) (h.vS (k + 1) (by simpa using hk))
    (h.vw (k + 1) (by simpa using hk) 0 (by simp))
  ww k s' hs := h.ww (k + 1) s' hs
  vv k s' hs := h.vv (k + 1) s' hs
  ww' k hk l hl hkl := h.ww' (k + 1) (by simpa using hk) (l + 1) (by simpa using hl) (by simpa using hkl)
  vv' k hk l hl hkl := h.vv' (k + 1) (by simpa using hk) (l + 1) (by simpa using hl) (by simpa using hkl)
  wv k hk l hl := h.wv (k + 1) (by simpa using hk) (l + 1) (by simpa using hl)
  vw k hk l hl := h.vw (k + 1) (by simpa using hk) (l + 1) (by simpa using hl)

/-- The data up to (excluding) step `T`. -/
def upTo (S : Submodule ℝ V) (z : ℕ → Fin m → V) : ℕ → Submodule ℝ V
  | 0 => S
  | T + 1 => upTo S z T ⊔ Submodule.span ℝ (Set.range (z T))

theorem upTo_succ (S : Submodule ℝ V) (z : ℕ → Fin m → V) (T : ℕ) :
    upTo S z (T + 1) = upTo (S ⊔ Submodule.span ℝ (Set.range (z 0))) (fun k => z (k + 1)) T := by
  induction T with
  | zero => rfl
  | succ T ih => rw [upTo, ih]; rfl

theorem upTo_le (S : Submodule ℝ V) (z : ℕ → Fin m → V) (T : ℕ) : S ≤ upTo S z T := by
  induction T with
  | zero => exact le_refl _
  | succ T ih => exact ih.trans le_sup_left

/-- Every filtered belief is good. -/
theorem filter_good (hB : ∀ x y, B x y = B y x) (h : Sys B one S X b ms w v z) (hd : VSolvable one b ms z)
    (k : ℕ) (b' : VB V n) (hk : (vfiltered one b ms z)[k]? = some b') : Good B (upTo S z (k + 1)) (X (k + 1)) b' := by
  induction ms generalizing S X b w v z k with
  | nil => simp [vfiltered] at hk
  | cons s ms ih =>
    have hs := h.step hB hd.1
    rcases k with _ | k
    · simp only [vfiltered, List.getElem?_cons_zero, Option.some.injEq] at hk
      subst hk
      exact h.post hB hd.1
    · simp only [vfiltered, List.getElem?_cons_succ] at hk
      have := ih hs hd.2 k hk
      rw [upTo_succ]
      exact this

/-- The predicted observation is a good estimate of the observation, from the data before it. -/
theorem Sys.obs_good (hB : ∀ x y, B x y = B y x) (h : Sys B one S X b (s :: ms) w v z) :
    Good B S (z 0) ⟨act s.H (vpredict one s b).x, innovCov s.H (vpredict one s b).P s.R⟩ := by
  have hp := h.prior hB
  have hve : cc B (v 0) (X 1 - (vpredict one s b).x) = 0 :=
    h.noise_prior (h.vX 0 (by simp)) (h.vS 0 (by simp)) (h.vw 0 (by simp) 0 (by simp))
  have hev : cc B (X 1 - (vpredict one s b).x) (v 0) = 0 := by rw [← cc_symm hB, hve, Matrix.transpose_zero]
  refine ⟨hp.mem.act _, ?_, ?_⟩
  · show Perp B (z 0 - act s.H (vpredict one s b).x) S
    rw [h.innov_eq]
    exact (hp.perp.act _).add (h.vS 0 (by simp))
  · show cc B (z 0 - act s.H (vpredict one s b).x) (z 0 - act s.H (vpredict one s b).x) = _
    rw [h.innov_eq, cc_add_left, cc_add_right, cc_add_right, cc_act_left, cc_act_left, cc_act_right, cc_act_right, hp.cov,
      hev, hve, h.vv 0 s rfl, innovCov]
    simp [Matrix.mul_assoc]

/-- Every prediction, of the state and of the observation, is good with respect to the data before it. -/
theorem predict_good (hB : ∀ x y, B x y = B y x) (h : Sys B one S X b ms w v z) (hd : VSolvable one b ms z)
    (k : ℕ) (b' : VB V n) (hk : (b :: vfiltered one b ms z)[k]? = some b') (s : ModelStep n m) (hs : ms[k]? = some s) :
    Good B (upTo S z k) (X (k + 1)) (vpredict one s b') ∧
      Good B (upTo S z k) (z k) ⟨act s.H (vpredict one s b').x, innovCov s.H (vpredict one s b').P s.R⟩ ∧
      (innovCov s.H (vpredict one s b').P s.R).det ≠ 0 := by
  induction ms generalizing S X b w v z k with
  | nil => simp at hs
  | cons s' ms ih =>
    rcases k with _ | k
    · simp only [List.getElem?_cons_zero, Option.some.injEq] at hk hs
      subst hk hs
      exact ⟨h.prior hB, h.obs_good hB, hd.1⟩
    · simp only [vfiltered, List.getElem?_cons_succ] at hk hs
      have := ih (h.step hB hd.1) hd.2 k hk hs
      rw [upTo_succ]
      exact this

/-- Something uncorrelated with the data and state so far and with all later noises is uncorrelated with all later
data. -/
theorem Sys.perp_all (hB : ∀ x y, B x y = B y x) (h : Sys B one S X b ms w v z) (hd : VSolvable one b ms z)
    {κ : Type} [Fintype κ] {y : κ → V} (h1 : cc B y (X 0) = 0) (h2 : Perp B y S)
    (h3 : ∀ k < ms.length, cc B y (w k) = 0) (h4 : ∀ k < ms.length, cc B y (v k) = 0) :
    Perp B y (upTo S z ms.length) := by
  induction ms generalizing S X b w v z with
  | nil => exact h2
  | cons s ms ih =>
    have hs := h.step hB hd.1
    rw [List.length_cons, upTo_succ]
    refine ih hs hd.2 ?_ ?_ (fun k hk => h3 (k + 1) (by simpa using hk)) (fun k hk => h4 (k + 1) (by simpa using hk))
    · exact h.noise_state h1 h2 (h3 0 (by simp))
    · exact h.noise_obs h1 h2 (h3 0 (by simp)) (h4 0 (by simp))

/-- Every smoothed belief is good with respect to all the data. -/
theorem smooth_good (hB : ∀ x y, B x y = B y x) (h : Sys B one S X b ms w v z) (hd : VSolvable one b ms z)
    (hd' : VRtsSolvable one b ms z) (k : ℕ) (b' : VB V n) (hk : (vrts one b ms z)[k]? = some b') :
    Good B (upTo S z ms.length) (X k) b' := by
  induction ms generalizing S X b w v z k b' with
  | nil =>
    rcases k with _ | k
    · simp only [vrts, List.getElem?_cons_zero, Option.some.injEq] at hk
      subst hk; exact h.good
    · simp [vrts] at hk
  | cons s ms ih =>
    have hs := h.step hB hd.1
    rw [vrts] at hk
    rcases hr : vrts one (vnext one s b (z 0)) ms (fun k => z (k + 1)) with _ | ⟨q, qs⟩
    · rw [hr] at hk; simp at hk
    rw [hr] at hk
    rw [List.length_cons, upTo_succ]
    rcases k with _ | k
    · simp only [List.getElem?_cons_zero, Option.some.injEq] at hk
      subst hk
      have hq := ih hs hd.2 hd'.2 0 q (by rw [hr]; rfl)
      have hp := h.prior hB
      obtain ⟨p, hpdef⟩ : ∃ p, p = vpredict one s b := ⟨_, rfl⟩
      obtain ⟨e, he⟩ : ∃ e, e = X 0 - b.x := ⟨_, rfl⟩
      obtain ⟨e', he'⟩ : ∃ e', e' = X 1 - p.x := ⟨_, rfl⟩
      obtain ⟨G, hG⟩ : ∃ G, G = b.P * s.Aᵀ * p.P⁻¹ := ⟨_, rfl⟩
      obtain ⟨F, hF⟩ : ∃ F, F = upTo (S ⊔ Submodule.span ℝ (Set.range (z 0))) (fun k => z (k + 1)) ms.length := ⟨_, rfl⟩
      rw [← hF] at hq ⊢
      have hSF : S ≤ F := by rw [hF]; exact le_sup_left.trans (upTo_le _ _ _)
      have hdp : p.P.det ≠ 0 := by rw [hpdef]; exact hd'.1
      have hee : cc B e e = b.P := by rw [he]; exact h.good.cov
      have he'e' : cc B e' e' = p.P := by rw [he', hpdef]; exact hp.cov
      have hwe : cc B (w 0) e = 0 := by
        rw [he, cc_sub_right, h.wX 0 (by simp), cc_perp (h.wS 0 (by simp)) h.good.mem, sub_zero]
      have hew : ∀ {κ : Type} [Fintype κ] {y : κ → V}, cc B y (X 0) = 0 → Perp B y S → cc B e y = 0 := by
        intro κ _ y h1 h2
        rw [← cc_symm hB, he, cc_sub_right, h1, cc_perp h2 h.good.mem, sub_zero, Matrix.transpose_zero]
      have he'eq : e' = act s.A e + w 0 := by rw [he', he, hpdef]; exact h.prior_err
      have hee' : cc B e e' = b.P * s.Aᵀ := by
        rw [he'eq, cc_add_right, cc_act_right, hee, hew (h.wX 0 (by simp)) (h.wS 0 (by simp)), add_zero]
      have hGp : G * p.P = b.P * s.Aᵀ := by
        rw [hG, Matrix.mul_assoc, Matrix.nonsing_inv_mul _ (isUnit_iff_ne_zero.2 hdp), Matrix.mul_one]
      obtain ⟨d, hdd⟩ : ∃ d, d = e - act G e' := ⟨_, rfl⟩
      have hde' : cc B d e' = 0 := by
        rw [hdd, cc_sub_left, cc_act_left, hee', he'e', hGp, sub_self]
      have heS : Perp B e S := by rw [he]; exact h.good.perp
      have he'S : Perp B e' S := by rw [he', hpdef]; exact hp.perp
      have hdS : Perp B d S := by rw [hdd]; exact heS.sub (he'S.act _)
      have hpx : InS p.x S := by rw [hpdef]; exact hp.mem
      have hdX : cc B d (X 1) = 0 := by
        have : X 1 = e' + p.x := by rw [he']; abel
        rw [this, cc_add_right, hde', cc_perp hdS hpx, add_zero]
      -- uncorrelated with later noises
      have hdn : ∀ {κ : Type} [Fintype κ] {y : κ → V}, cc B y (X 0) = 0 → Perp B y S → cc B (w 0) y = 0 →
          cc B d y = 0 := by
        intro κ _ y h1 h2 h3
        rw [hdd, cc_sub_left, cc_act_left, hew h1 h2, he'eq, cc_add_left, cc_act_left, hew h1 h2, h3]
        simp
      have hdv0 : cc B d (v 0) = 0 := hdn (h.vX 0 (by simp)) (h.vS 0 (by simp)) (h.wv 0 (by simp) 0 (by simp))
      have hdF : Perp B d F := by
        rw [hF]
        refine hs.perp_all hB hd.2 hdX ?_ ?_ ?_
        · refine hdS.sup_span ?_
          rw [h.obs 0 s rfl, cc_add_right, cc_act_right, hdX, hdv0]
          simp
        · intro k hk
          exact hdn (h.wX (k + 1) (by simpa using hk)) (h.wS (k + 1) (by simpa using hk))
            (h.ww' 0 (by simp) (k + 1) (by simpa using hk) (by simp))
        · intro k hk
          exact hdn (h.vX (k + 1) (by simpa using hk)) (h.vS (k + 1) (by simpa using hk))
            (h.wv 0 (by simp) (k + 1) (by simpa using hk))
      -- the smoothed error
      have hx : (vrtsStep one b s q).x = b.x + act G (q.x - p.x) := by rw [hG, hpdef]; rfl
      have hP : (vrtsStep one b s q).P = b.P + G * (q.P - p.P) * Gᵀ := by rw [hG, hpdef]; rfl
      obtain ⟨f, hf⟩ : ∃ f, f = X 1 - q.x := ⟨_, rfl⟩
      have hqp : q.x - p.x = e' - f := by rw [he', hf]; abel
      have herr : X 0 - (vrtsStep one b s q).x = d + act G f := by
        rw [hx, hqp, hdd, he, act_sub]; abel
      have hfF : Perp B f F := by rw [hf]; exact hq.perp
      have hff : cc B f f = q.P := by rw [hf]; exact hq.cov
      have hdf : cc B d f = 0 := by rw [hf, cc_sub_right, hdX, cc_perp hdF hq.mem, sub_zero]
      have hfd : cc B f d = 0 := by rw [← cc_symm hB, hdf, Matrix.transpose_zero]
      have hdde : cc B d d = b.P - G * p.P * Gᵀ := by
        have hed : cc B e' d = 0 := by rw [← cc_symm hB, hde', Matrix.transpose_zero]
        have h1 : cc B d d = cc B d e := by
          conv_lhs => rw [show cc B d d = cc B d (e - act G e') by rw [← hdd]]
          rw [cc_sub_right, cc_act_right, hde', Matrix.zero_mul, sub_zero]
        have hPs : b.Pᵀ = b.P := by rw [← hee, cc_symm hB]
        have hpPs : p.Pᵀ = p.P := by rw [← he'e', cc_symm hB]
        have hGT : p.P * Gᵀ = s.A * b.P := by
          have := congrArg Matrix.transpose hGp
          rwa [Matrix.transpose_mul, hpPs, Matrix.transpose_mul, Matrix.transpose_transpose, hPs] at this
        have he'e : cc B e' e = s.A * b.P := by
          rw [← cc_symm hB, hee', Matrix.transpose_mul, Matrix.transpose_transpose, hPs]
        rw [h1, hdd, cc_sub_left, cc_act_left, hee, he'e, Matrix.mul_assoc, hGT]
      refine ⟨?_, ?_, ?_⟩
      · rw [hx]
        exact (h.good.mem.mono hSF).add ((hq.mem.sub (hpx.mono hSF)).act _)
      · rw [herr]; exact hdF.add (hfF.act _)
      · rw [herr, cc_add_left, cc_add_right, cc_add_right, cc_act_left, cc_act_left, cc_act_right, cc_act_right, hdde, hdf,
          hfd, hff, hP, Matrix.mul_sub, Matrix.sub_mul]
        simp only [Matrix.zero_mul, Matrix.mul_zero, add_zero, zero_add, Matrix.mul_assoc]
        abel
    · simp only [List.getElem?_cons_succ] at hk
      have := ih hs hd.2 hd'.2 k b' (by rw [hr]; exact hk)
      exact this

end Stoch

end KK
