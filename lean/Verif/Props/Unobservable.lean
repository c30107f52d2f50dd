import Verif.Spec.Steady
import Verif.Props.Riccati
import Verif.Proofs.Transfer
import Verif.Test.Encode

/-!
# C110: what the observations never see is never corrected
-/

set_option linter.unusedSectionVars false

namespace KK

open Matrix

variable {n m r : ℕ}

theorem carried_length (W : Matrix (Fin n) (Fin r) ℝ) (ss : List (LinStep n m)) : (carried W ss).length = ss.length := by
  induction ss generalizing W with
  | nil => rfl
  | cons s ss ih => simp [carried, ih]

theorem postCov_unseen {H : Matrix (Fin m) (Fin n) ℝ} {W : Matrix (Fin n) (Fin r) ℝ} (h : H * W = 0) (R : Matrix (Fin m) (Fin m) ℝ) :
    postCov H (W * Wᵀ) R = W * Wᵀ := by
  have e : W * Wᵀ * Hᵀ = 0 := by
    rw [Matrix.mul_assoc, ← transpose_mul, h, transpose_zero, Matrix.mul_zero]
  simp [postCov, kGain, e]

theorem next_unseen {s : LinStep n m} {b : Belief n} {W : Matrix (Fin n) (Fin r) ℝ} (hQ : s.Q.PosSemidef) (hR : s.R.PosDef)
    (hW : (b.P - W * Wᵀ).PosSemidef) (h : s.H * (s.A * W) = 0) : ((s.next b).P - (s.A * W) * (s.A * W)ᵀ).PosSemidef := by
  have hpsd : ((s.A * W) * (s.A * W)ᵀ).PosSemidef := by
    have := posSemidef_self_mul_conjTranspose (s.A * W)
    rwa [conjTranspose_eq_transpose_of_trivial] at this
  have h1 : (priorCov s.A b.P s.Q - (s.A * W) * (s.A * W)ᵀ).PosSemidef := by
    have := priorCov_mono (A := s.A) (Q := 0) (Q' := s.Q) hW (by rwa [sub_zero])
    have e : priorCov s.A (W * Wᵀ) 0 = (s.A * W) * (s.A * W)ᵀ := by
      simp [priorCov, transpose_mul, Matrix.mul_assoc]
    rwa [e] at this
  have := postCov_mono (H := s.H) hpsd hR h1 (by rw [sub_self]; exact PosSemidef.zero)
  rw [postCov_unseen h] at this
  exact this

theorem filtered_unseen {W : Matrix (Fin n) (Fin r) ℝ} {b : Belief n} {ss : List (LinStep n m)} (hQ : ∀ s ∈ ss, s.Q.PosSemidef)
    (hR : ∀ s ∈ ss, s.R.PosDef) (hW : (b.P - W * Wᵀ).PosSemidef) (h : Unseen W ss) :
    List.Forall₂ (fun (q : Belief n) W' => (q.P - W' * W'ᵀ).PosSemidef) (filtered b ss) (carried W ss) := by
  induction ss generalizing b W with
  | nil => exact .nil
  | cons s ss ih =>
    have h1 := next_unseen (hQ s (by simp)) (hR s (by simp)) hW h.1
    exact .cons h1 (ih (fun s hs => hQ s (by simp [hs])) (fun s hs => hR s (by simp [hs])) h1 h.2)

theorem next_offset {s : LinStep n m} {W : Matrix (Fin n) (Fin r) ℝ} (h : s.H * (s.A * W) = 0) (b : Belief n) (a : Fin r → ℝ) :
    s.next (b.offset (W *ᵥ a)) = (s.next b).offset ((s.A * W) *ᵥ a) := by
  have e : s.A *ᵥ (W *ᵥ a) = (s.A * W) *ᵥ a := mulVec_mulVec _ _ _
  have e0 : s.H *ᵥ ((s.A * W) *ᵥ a) = 0 := by rw [mulVec_mulVec, h, zero_mulVec]
  have ex : (s.predict (b.offset (W *ᵥ a))).x = (s.predict b).x + (s.A * W) *ᵥ a := by
    show s.A *ᵥ (b.x + W *ᵥ a) + s.c = s.A *ᵥ b.x + s.c + _
    rw [mulVec_add, e]; abel
  refine congrArg₂ Belief.mk ?_ rfl
  show (s.predict (b.offset (W *ᵥ a))).x + _ *ᵥ (s.z - s.H *ᵥ (s.predict (b.offset (W *ᵥ a))).x) = _
  rw [ex, mulVec_add, e0, add_zero]
  show _ = (s.predict b).x + _ *ᵥ (s.z - s.H *ᵥ (s.predict b).x) + _
  rw [add_right_comm]
  rfl

theorem unseen_run {W : Matrix (Fin n) (Fin r) ℝ} {b : Belief n} {ss : List (LinStep n m)} (h : Unseen W ss) (a : Fin r → ℝ) :
    filtered (b.offset (W *ᵥ a)) ss = offsetAll a (filtered b ss) (carried W ss) ∧
    gainsOf (b.offset (W *ᵥ a)) ss = gainsOf b ss ∧ (Solvable (b.offset (W *ᵥ a)) ss ↔ Solvable b ss) ∧
    (RtsSolvable (b.offset (W *ᵥ a)) ss ↔ RtsSolvable b ss) ∧
    rts (b.offset (W *ᵥ a)) ss = offsetAll a (rts b ss) (W :: carried W ss) := by
  induction ss generalizing b W with
  | nil => exact ⟨rfl, rfl, Iff.rfl, Iff.rfl, rfl⟩
  | cons s ss ih =>
    obtain ⟨i1, i2, i3, i4, i5⟩ := ih (b := s.next b) h.2
    have e := next_offset h.1 b a
    refine ⟨?_, ?_, ?_, ?_, ?_⟩
    · rw [filtered, e, i1]; rfl
    · rw [gainsOf, e, i2]; rfl
    · rw [Solvable, e, i3]; rfl
    · rw [RtsSolvable, e, i4]; rfl
    · rw [rts, e, i5, rts]
      have hl := rts_length (s.next b) ss
      rcases hr : rts (s.next b) ss with _ | ⟨q, qs⟩
      · rw [hr] at hl; simp at hl
      · simp only [offsetAll, carried, List.zipWith_cons_cons, List.cons.injEq, and_true]
        refine congrArg₂ Belief.mk ?_ rfl
        show b.x + W *ᵥ a + _ *ᵥ (q.x + (s.A * W) *ᵥ a - (s.A *ᵥ (b.x + W *ᵥ a) + s.c)) = b.x + _ *ᵥ (q.x - (s.A *ᵥ b.x + s.c)) + W *ᵥ a
        rw [mulVec_add, mulVec_mulVec, show q.x + (s.A * W) *ᵥ a - (s.A *ᵥ b.x + (s.A * W) *ᵥ a + s.c) = q.x - (s.A *ᵥ b.x + s.c) by abel,
          add_right_comm]
        rfl

section
variable [Platform]

/-- C110, the covariances: if the observations never see the directions `W` (`H_k A_k ... A_1 W = 0` for all `k`) and the initial
covariance has at least the uncertainty `W W'` in them, then every returned covariance has at least this uncertainty, carried along
by the system: `P_k ≥ (A_k ... A_1 W) (A_k ... A_1 W)'`, however many observations are made. -/
theorem C110_uncertainty_stays (kf : KalmanFilter Fl) (Z : NDArray Fl) (U : Option (NDArray Fl)) (b : Belief n)
    (ss : List (LinStep n m)) (W : Matrix (Fin n) (Fin r) ℝ) (h : Represents kf Z U b ss) (hQ : ∀ s ∈ ss, s.Q.PosSemidef)
    (hR : ∀ s ∈ ss, s.R.PosDef) (hP : b.P.PosSemidef) (hW : (b.P - W * Wᵀ).PosSemidef) (hu : Unseen W ss) :
    ∃ (bs : List (Belief n)) (Ks : List (Matrix (Fin n) (Fin m) ℝ)), FilterReturns kf Z U bs Ks ∧
      List.Forall₂ (fun (q : Belief n) W' => (q.P - W' * W'ᵀ).PosSemidef) bs (carried W ss) :=
  ⟨_, _, h.returns (solvable_psd hP hQ hR), filtered_unseen hQ hR hW hu⟩

/-- C110, the means: under the same condition two runs on the same data whose initial means differ by `W a` differ by exactly
`A_k ... A_1 W a` after step `k` - filtered and smoothed -, and agree in all covariances and gains: the error is never corrected. -/
theorem C110_offset_stays (kf kf' : KalmanFilter Fl) (Z Z' : NDArray Fl) (U U' : Option (NDArray Fl)) (b : Belief n)
    (ss : List (LinStep n m)) (W : Matrix (Fin n) (Fin r) ℝ) (a : Fin r → ℝ) (h : Represents kf Z U b ss)
    (h' : Represents kf' Z' U' ⟨b.x + W *ᵥ a, b.P⟩ ss) (hu : Unseen W ss) :
    ((FilterSingular kf Z U ∧ FilterSingular kf' Z' U') ∨
      ∃ (bs : List (Belief n)) (Ks : List (Matrix (Fin n) (Fin m) ℝ)), bs.length = ss.length ∧ FilterReturns kf Z U bs Ks ∧
        FilterReturns kf' Z' U' (offsetAll a bs (carried W ss)) Ks) ∧
    (ss ≠ [] → ss.length = Z.rows.length → ss.length = Z'.rows.length →
      (SmoothSingular kf Z U ∧ SmoothSingular kf' Z' U') ∨
      ∃ (bs : List (Belief n)) (Ks : List (Matrix (Fin n) (Fin m) ℝ)), bs.length = ss.length ∧ SmoothReturns kf Z U bs Ks ∧
        SmoothReturns kf' Z' U' (offsetAll a bs (carried W ss)) Ks) := by
  obtain ⟨i1, i2, i3, -, -⟩ := unseen_run (b := b) hu a
  constructor
  · by_cases hs : Solvable b ss
    · refine .inr ⟨_, _, filtered_length _ _, h.returns hs, ?_⟩
      rw [← i1, ← i2]; exact h'.returns (i3.2 hs)
    · exact .inl ⟨h.singular hs, h'.singular fun hs' => hs (i3.1 hs')⟩
  · intro hne hl hl'
    have hiff : SmoothSolvable (b.offset (W *ᵥ a)) ss ↔ SmoothSolvable b ss := by
      cases ss with
      | nil => exact Iff.rfl
      | cons s ss =>
        rw [SmoothSolvable, next_offset hu.1 b a]
        exact (unseen_run (b := s.next b) hu.2 a).2.2.2.1
    have hsm : smoothed (b.offset (W *ᵥ a)) ss = offsetAll a (smoothed b ss) (carried W ss) := by
      cases ss with
      | nil => rfl
      | cons s ss =>
        rw [smoothed, next_offset hu.1 b a]
        exact (unseen_run (b := s.next b) hu.2 a).2.2.2.2
    by_cases hs : Solvable b ss ∧ SmoothSolvable b ss
    · refine .inr ⟨_, _, smoothed_length _ _, h.smoothReturns hl hne hs.1 hs.2, ?_⟩
      rw [← hsm, ← i2]; exact h'.smoothReturns hl' hne (i3.2 hs.1) (hiff.2 hs.2)
    · exact .inl ⟨h.smoothSingular hl hne hs, h'.smoothSingular hl' hne fun hs' => hs ⟨i3.1 hs'.1, hiff.1 hs'.2⟩⟩

variable {A Q P : Matrix (Fin n) (Fin n) ℝ} {H : Matrix (Fin m) (Fin n) ℝ} {R : Matrix (Fin m) (Fin m) ℝ}

theorem unseen_eigen {lam : ℝ} {x : Fin n → ℝ} (hx : A *ᵥ x = lam • x) (hH : H *ᵥ x = 0) {ss : List (LinStep n m)}
    (hc : ConstantModel A H Q R ss) (t : ℝ) :
    Unseen (Matrix.of fun i (_ : Fin 1) => t * x i) ss ∧
      ∀ k, k < ss.length → (carried (Matrix.of fun i (_ : Fin 1) => t * x i) ss)[k]? =
        some (Matrix.of fun i (_ : Fin 1) => lam ^ (k + 1) * t * x i) := by
  induction ss generalizing t with
  | nil => exact ⟨trivial, fun k hk => absurd hk (by simp)⟩
  | cons s ss ih =>
    obtain ⟨h1, h2, -, -⟩ := hc s (by simp)
    have hA : s.A * (Matrix.of fun i (_ : Fin 1) => t * x i) = Matrix.of fun i (_ : Fin 1) => lam * t * x i := by
      ext i j
      rw [h1, Matrix.mul_apply]
      have := congrFun hx i
      simp only [mulVec, dotProduct, Pi.smul_apply, smul_eq_mul] at this
      simp only [of_apply]
      rw [mul_right_comm, ← this, Finset.sum_mul]
      exact Finset.sum_congr rfl fun _ _ => by ring
    obtain ⟨i1, i2⟩ := ih (fun s hs => hc s (by simp [hs])) (lam * t)
    refine ⟨⟨?_, ?_⟩, fun k hk => ?_⟩
    · rw [hA, h2]
      ext i j
      rw [Matrix.mul_apply]
      have := congrFun hH i
      simp only [mulVec, dotProduct, Pi.zero_apply] at this
      simp only [of_apply, Matrix.zero_apply]
      calc ∑ k, H i k * (lam * t * x k) = (lam * t) * ∑ k, H i k * x k := by
            rw [Finset.mul_sum]; exact Finset.sum_congr rfl fun _ _ => by ring
        _ = 0 := by rw [this, mul_zero]
    · rw [hA]; exact i1
    · rw [carried, hA]
      rcases k with _ | k
      · simp
      · rw [List.getElem?_cons_succ, i2 k (by simpa using hk), pow_succ lam (k + 1)]
        congr 1; ext i j; simp only [of_apply]; ring

/-- C110, constant models: a direction `x` of the system with `A x = λ x` and `H x = 0` (so the model is not observable) and an
initial covariance `P ≥ c x x'`.  Then in every run `P_k ≥ c λ^(2k) x x'` after step `k`.  So if `|λ| ≥ 1` the variance of a
component `i` in which `x` is not zero never falls below `c x_i²`, however many observations are made, and if `|λ| > 1` it exceeds
every bound. -/
theorem C110_unobservable_mode {c lam : ℝ} {x : Fin n → ℝ} (hc0 : 0 < c) (hx : A *ᵥ x = lam • x) (hH : H *ᵥ x = 0)
    (hQ : Q.PosSemidef) (hR : R.PosDef) (hP : (P - c • vecMulVec x x).PosSemidef) (i : Fin n) (hi : x i ≠ 0) :
    (∀ (kf : KalmanFilter Fl) (Z : NDArray Fl) (U : Option (NDArray Fl)) (x₀ : Fin n → ℝ) (ss : List (LinStep n m)),
      Represents kf Z U ⟨x₀, P⟩ ss → ConstantModel A H Q R ss → ∀ k < ss.length,
        ∃ M : Matrix (Fin n) (Fin n) ℝ, CovRow kf Z U k M ∧ (M - (c * lam ^ (2 * (k + 1))) • vecMulVec x x).PosSemidef ∧
          (1 ≤ |lam| → c * x i ^ 2 ≤ M i i)) ∧
    (1 < |lam| → ∀ L : ℝ, ∃ N : ℕ, ∀ (kf : KalmanFilter Fl) (Z : NDArray Fl) (U : Option (NDArray Fl)) (x₀ : Fin n → ℝ)
      (ss : List (LinStep n m)), Represents kf Z U ⟨x₀, P⟩ ss → ConstantModel A H Q R ss → ∀ k < ss.length, N ≤ k →
        ∃ M : Matrix (Fin n) (Fin n) ℝ, CovRow kf Z U k M ∧ L < M i i) := by
  have hvv : (c • vecMulVec x x : Matrix (Fin n) (Fin n) ℝ).PosSemidef := by
    have := posSemidef_vecMulVec_self_star x
    simp only [star_trivial] at this
    exact this.smul hc0.le
  have hP0 : P.PosSemidef := by
    have := hP.add hvv; rwa [sub_add_cancel] at this
  have hWW : ∀ t : ℝ, (Matrix.of fun i (_ : Fin 1) => t * x i : Matrix (Fin n) (Fin 1) ℝ) * (Matrix.of fun i (_ : Fin 1) => t * x i)ᵀ =
      (t ^ 2) • vecMulVec x x := fun t => by
    ext i j
    simp [Matrix.mul_apply, vecMulVec_apply]; ring
  have hsq : Real.sqrt c ^ 2 = c := Real.sq_sqrt hc0.le
  have key : ∀ (kf : KalmanFilter Fl) (Z : NDArray Fl) (U : Option (NDArray Fl)) (x₀ : Fin n → ℝ) (ss : List (LinStep n m)),
      Represents kf Z U ⟨x₀, P⟩ ss → ConstantModel A H Q R ss → ∀ k < ss.length,
        ∃ M : Matrix (Fin n) (Fin n) ℝ, CovRow kf Z U k M ∧ (M - (c * lam ^ (2 * (k + 1))) • vecMulVec x x).PosSemidef := by
    intro kf Z U x₀ ss h hcm k hk
    refine ⟨_, covRow_const h hcm hP0 hQ hR hk, ?_⟩
    obtain ⟨u1, u2⟩ := unseen_eigen hx hH hcm (Real.sqrt c)
    have hf := filtered_unseen (b := ⟨x₀, P⟩) (fun s hs => (hcm s hs).2.2.1 ▸ hQ) (fun s hs => (hcm s hs).2.2.2 ▸ hR)
      (by rw [hWW, hsq]; exact hP) u1
    have hkl : k < (filtered (⟨x₀, P⟩ : Belief n) ss).length := by rw [filtered_length]; exact hk
    have h1 : (filtered (⟨x₀, P⟩ : Belief n) ss)[k]? = some ((filtered (⟨x₀, P⟩ : Belief n) ss)[k]'hkl) :=
      List.getElem?_eq_getElem hkl
    have h3 := filtered_const hcm _ k _ h1
    have h2 := u2 k hk
    have h4 := (List.forall₂_iff_get.1 hf).2 k (by rw [filtered_length]; exact hk) (by rw [carried_length]; exact hk)
    obtain ⟨h5, h6⟩ := List.getElem?_eq_some_iff.1 h2
    simp only [List.get_eq_getElem] at h4
    rw [h6, h3, hWW, mul_pow, hsq, ← pow_mul] at h4
    rw [mul_comm c, mul_comm 2]
    exact h4
  have hdiag : ∀ (M : Matrix (Fin n) (Fin n) ℝ) (t : ℝ), (M - t • vecMulVec x x).PosSemidef → t * x i ^ 2 ≤ M i i := fun M t h => by
    have := h.diag_nonneg (i := i)
    simp only [Matrix.sub_apply, Matrix.smul_apply, vecMulVec_apply, smul_eq_mul] at this
    nlinarith
  refine ⟨fun kf Z U x₀ ss h hcm k hk => ?_, fun hl L => ?_⟩
  · obtain ⟨M, h1, h2⟩ := key kf Z U x₀ ss h hcm k hk
    refine ⟨M, h1, h2, fun hl => le_trans ?_ (hdiag M _ h2)⟩
    have : 1 ≤ lam ^ (2 * (k + 1)) := by
      rw [pow_mul, ← sq_abs, ← pow_mul]; exact one_le_pow₀ hl
    have hx2 : 0 ≤ x i ^ 2 := sq_nonneg _
    nlinarith [mul_nonneg hc0.le hx2]
  · have hpos : 0 < c * x i ^ 2 := by positivity
    obtain ⟨N, hN⟩ := pow_unbounded_of_one_lt (L / (c * x i ^ 2)) hl
    refine ⟨N, fun kf Z U x₀ ss h hcm k hk hNk => ?_⟩
    obtain ⟨M, h1, h2⟩ := key kf Z U x₀ ss h hcm k hk
    refine ⟨M, h1, lt_of_lt_of_le ?_ (hdiag M _ h2)⟩
    have h3 : L < |lam| ^ N * (c * x i ^ 2) := (div_lt_iff₀ hpos).1 hN
    have h4 : |lam| ^ N ≤ lam ^ (2 * (k + 1)) := by
      rw [pow_mul lam, ← sq_abs, ← pow_mul]; exact pow_le_pow_right₀ hl.le (by omega)
    nlinarith

/-- Position and velocity of which only the velocity is measured: the position is never determined. -/
example (zs : List ℝ) (x₀ : Fin 2 → ℝ) :
    ∃ (kf : KalmanFilter Fl) (Z : NDArray Fl) (U : Option (NDArray Fl)) (ss : List (LinStep 2 1)),
      Represents kf Z U ⟨x₀, 1⟩ ss ∧ ConstantModel !![1, 1; 0, 1] !![0, 1] 0 1 ss ∧ ss.length = zs.length ∧
      (!![1, 1; 0, 1] : Matrix (Fin 2) (Fin 2) ℝ) *ᵥ ![1, 0] = (1 : ℝ) • (![1, 0] : Fin 2 → ℝ) ∧ (!![0, 1] : Matrix (Fin 1) (Fin 2) ℝ) *ᵥ ![1, 0] = 0 ∧
      ((1 : Matrix (Fin 2) (Fin 2) ℝ) - (1 : ℝ) • vecMulVec (![1, 0] : Fin 2 → ℝ) ![1, 0]).PosSemidef ∧ (![1, 0] : Fin 2 → ℝ) 0 ≠ 0 ∧
      Unseen (!![1; 0] : Matrix (Fin 2) (Fin 1) ℝ) ss ∧
      ((1 : Matrix (Fin 2) (Fin 2) ℝ) - (!![1; 0] : Matrix (Fin 2) (Fin 1) ℝ) * (!![1; 0] : Matrix (Fin 2) (Fin 1) ℝ)ᵀ).PosSemidef := by
  have hp : ((1 : Matrix (Fin 2) (Fin 2) ℝ) - (1 : ℝ) • vecMulVec (![1, 0] : Fin 2 → ℝ) ![1, 0]).PosSemidef := by
    have : (1 : Matrix (Fin 2) (Fin 2) ℝ) - (1 : ℝ) • vecMulVec (![1, 0] : Fin 2 → ℝ) ![1, 0] = Matrix.diagonal ![0, 1] := by
      ext i j; fin_cases i <;> fin_cases j <;> simp [vecMulVec_apply]
    rw [this, posSemidef_diagonal_iff]
    intro i; fin_cases i <;> simp
  have he : (!![1; 0] : Matrix (Fin 2) (Fin 1) ℝ) * (!![1; 0] : Matrix (Fin 2) (Fin 1) ℝ)ᵀ = (1 : ℝ) • vecMulVec (![1, 0] : Fin 2 → ℝ) ![1, 0] := by
    ext i j; fin_cases i <;> fin_cases j <;> simp [vecMulVec_apply, Matrix.mul_apply]
  refine ⟨_, _, _, zs.map fun z => ⟨!![1, 1; 0, 1], 0, !![0, 1], 0, 1, ![z]⟩, Ex.encode_represents _ _, ?_, by simp, ?_, ?_, hp,
    by simp, ?_, by rw [he]; exact hp⟩
  · intro s hs
    simp only [List.mem_map] at hs
    obtain ⟨z, -, rfl⟩ := hs
    exact ⟨rfl, rfl, rfl, rfl⟩
  · funext i; fin_cases i <;> simp [mulVec, dotProduct, Fin.sum_univ_two]
  · funext i; fin_cases i; simp [mulVec, dotProduct, Fin.sum_univ_two]
  · have e : (!![1, 1; 0, 1] : Matrix (Fin 2) (Fin 2) ℝ) * (!![1; 0] : Matrix (Fin 2) (Fin 1) ℝ) = !![1; 0] := by
      ext i j; fin_cases i <;> fin_cases j <;> simp [Matrix.mul_apply, Fin.sum_univ_two]
    have e0 : (!![0, 1] : Matrix (Fin 1) (Fin 2) ℝ) * (!![1; 0] : Matrix (Fin 2) (Fin 1) ℝ) = 0 := by
      ext i j; fin_cases i; fin_cases j; simp [Matrix.mul_apply, Fin.sum_univ_two]
    induction zs with
    | nil => exact trivial
    | cons z zs ih => exact ⟨
        (congrArg (fun X : Matrix (Fin 2) (Fin 1) ℝ => (!![0, 1] : Matrix (Fin 1) (Fin 2) ℝ) * X) e).trans e0, by
        show Unseen ((!![1, 1; 0, 1] : Matrix (Fin 2) (Fin 2) ℝ) * (!![1; 0] : Matrix (Fin 2) (Fin 1) ℝ)) _
        rw [e]; exact ih⟩

/-- With the second component doubling unobserved at every step: `λ = 2`. -/
example (zs : List ℝ) (x₀ : Fin 2 → ℝ) :
    ∃ (kf : KalmanFilter Fl) (Z : NDArray Fl) (U : Option (NDArray Fl)) (ss : List (LinStep 2 1)),
      Represents kf Z U ⟨x₀, 1⟩ ss ∧ ConstantModel (Matrix.diagonal ![1, 2]) !![1, 0] 1 1 ss ∧ ss.length = zs.length ∧
      (Matrix.diagonal ![1, 2] : Matrix (Fin 2) (Fin 2) ℝ) *ᵥ ![0, 1] = (2 : ℝ) • (![0, 1] : Fin 2 → ℝ) ∧ (!![1, 0] : Matrix (Fin 1) (Fin 2) ℝ) *ᵥ ![0, 1] = 0 ∧
      ((1 : Matrix (Fin 2) (Fin 2) ℝ) - (1 : ℝ) • vecMulVec (![0, 1] : Fin 2 → ℝ) ![0, 1]).PosSemidef ∧ (![0, 1] : Fin 2 → ℝ) 1 ≠ 0 := by
  have hp : ((1 : Matrix (Fin 2) (Fin 2) ℝ) - (1 : ℝ) • vecMulVec (![0, 1] : Fin 2 → ℝ) ![0, 1]).PosSemidef := by
    have : (1 : Matrix (Fin 2) (Fin 2) ℝ) - (1 : ℝ) • vecMulVec (![0, 1] : Fin 2 → ℝ) ![0, 1] = Matrix.diagonal ![1, 0] := by
      ext i j; fin_cases i <;> fin_cases j <;> simp [vecMulVec_apply]
    rw [this, posSemidef_diagonal_iff]
    intro i; fin_cases i <;> simp
  refine ⟨_, _, _, zs.map fun z => ⟨Matrix.diagonal ![1, 2], 0, !![1, 0], 1, 1, ![z]⟩, Ex.encode_represents _ _, ?_, by simp, ?_, ?_, hp,
    by simp⟩
  · intro s hs
    simp only [List.mem_map] at hs
    obtain ⟨z, -, rfl⟩ := hs
    exact ⟨rfl, rfl, rfl, rfl⟩
  · funext i; fin_cases i <;> simp [mulVec_diagonal]
  · funext i; fin_cases i; simp [mulVec, dotProduct, Fin.sum_univ_two]

end

end KK
