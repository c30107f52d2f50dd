import Verif.Proofs.TimeVaryingRun
import Verif.Props.Observer

/-!
# C119-C121: models that change from step to step

What C82-C85 and C99 say of constant models, for time-varying ones: all stretches of `N` steps are observable and controllable
with a margin (`UniformModel`).
-/

set_option linter.unusedSectionVars false

namespace KK

open Matrix

variable {n m : ℕ}

theorem covRun_congr {ss ts : List (LinStep n m)} (h : ss.map LinStep.model = ts.map LinStep.model) (P : Matrix (Fin n) (Fin n) ℝ) :
    covRun P ss = covRun P ts := by
  induction ss generalizing ts P with
  | nil =>
    obtain rfl : ts = [] := by simpa using h.symm
    rfl
  | cons s ss ih =>
    rcases ts with _ | ⟨t, ts⟩
    · simp at h
    rw [List.map_cons, List.map_cons, List.cons.injEq] at h
    obtain ⟨h1, h2⟩ := h
    simp only [LinStep.model, Prod.mk.injEq] at h1
    obtain ⟨e1, e2, e3, e4⟩ := h1
    rw [covRun, covRun, ih h2, LinStep.covNext, LinStep.covNext, e1, e2, e3, e4]

/-- The two lists of steps have the same matrices (but their measurements and controls may differ). -/
def SameMatrices (ss ts : List (LinStep n m)) : Prop :=
  List.Forall₂ (fun s t => s.A = t.A ∧ s.H = t.H ∧ s.Q = t.Q ∧ s.R = t.R) ss ts

theorem SameMatrices.model {ss ts : List (LinStep n m)} (h : SameMatrices ss ts) : ss.map LinStep.model = ts.map LinStep.model := by
  unfold SameMatrices at h
  induction h with
  | nil => rfl
  | cons h _ ih =>
    obtain ⟨h1, h2, h3, h4⟩ := h
    rw [List.map_cons, List.map_cons, ih, LinStep.model, LinStep.model, h1, h2, h3, h4]

theorem UniformModel.solvable {N : ℕ} {a r γ lo hi : ℝ} (M : Margins n m N a r γ lo hi) {ss : List (LinStep n m)}
    (h : UniformModel N a r γ ss) {b : Belief n} (hb : b.P.PosSemidef) : Solvable b ss :=
  solvable_psd hb (fun s hs => (h.noisy M s hs).1) fun s hs => (h.noisy M s hs).2

variable [Platform]

/-- C119: a time-varying model in which all stretches of `N` steps are observable and controllable with margin `γ`.  From the
`N`-th estimate on, the covariances are between `lo` and `hi`, two positive constants that depend on the dimensions and on
`N`, `a`, `r` and `γ` only - not on the steps, the data, the length of the run or the initial covariance. -/
theorem C119_covariance (n m N : ℕ) (a r γ : ℝ) (hN : 0 < N) (ha : 0 ≤ a) (hr : 0 < r) (hγ : 0 < γ) :
    ∃ lo hi : ℝ, 0 < lo ∧ 0 < hi ∧
      ∀ (kf : KalmanFilter Fl) (Z : NDArray Fl) (U : Option (NDArray Fl)) (b : Belief n) (ss : List (LinStep n m)),
        Represents kf Z U b ss → b.P.PosSemidef → UniformModel N a r γ ss →
        ∃ (bs : List (Belief n)) (Ks : List (Matrix (Fin n) (Fin m) ℝ)), FilterReturns kf Z U bs Ks ∧ bs.length = ss.length ∧
          ∀ k q, N ≤ k + 1 → bs[k]? = some q → Between lo hi q.P := by
  obtain ⟨lo, hi, M⟩ := exists_margins n m N hN ha hr hγ
  refine ⟨lo, hi, M.plo, M.hi_pos, fun kf Z U b ss h hP hu => ?_⟩
  refine ⟨_, _, h.returns (hu.solvable M hP), filtered_length _ _, fun k q hk hq => ?_⟩
  obtain ⟨hl, rfl⟩ := filtered_lastOf hq
  rw [lastOf_covRun]
  exact M.between (hu.mono (List.take_prefix _ _).isInfix) (by simp; omega) hP

/-- C119: two runs with the same matrices, with any two initial covariances and any data.  The entries of their covariances
approach each other geometrically, and the constants depend on the dimensions and on `N`, `a`, `r` and `γ` only. -/
theorem C119_forgets (n m N : ℕ) (a r γ : ℝ) (hN : 0 < N) (ha : 0 ≤ a) (hr : 0 < r) (hγ : 0 < γ) :
    ∃ C ρ : ℝ, 0 < ρ ∧ ρ < 1 ∧
      ∀ (kf kf' : KalmanFilter Fl) (Z Z' : NDArray Fl) (U U' : Option (NDArray Fl)) (b b' : Belief n)
        (ss ss' : List (LinStep n m)),
        Represents kf Z U b ss → Represents kf' Z' U' b' ss' → b.P.PosSemidef → b'.P.PosSemidef → UniformModel N a r γ ss →
        SameMatrices ss ss' →
        ∃ (bs bs' : List (Belief n)) (Ks Ks' : List (Matrix (Fin n) (Fin m) ℝ)), FilterReturns kf Z U bs Ks ∧
          FilterReturns kf' Z' U' bs' Ks' ∧ bs.length = ss.length ∧ bs'.length = ss.length ∧
          ∀ k q q', N ≤ k + 1 → bs[k]? = some q → bs'[k]? = some q' → ∀ i j, |q.P i j - q'.P i j| ≤ C * ρ ^ k := by
  obtain ⟨lo, hi, M⟩ := exists_margins n m N hN ha hr hγ
  obtain ⟨C, ρ, hC, h0, h1, hc⟩ := M.cov_close
  refine ⟨C * (ρ ^ (N - 1))⁻¹, ρ, h0, h1, fun kf kf' Z Z' U U' b b' ss ss' h h' hP hP' hu hsm => ?_⟩
  have hu' := hu.congr hsm.model
  have hlen : ss'.length = ss.length := (List.Forall₂.length_eq hsm).symm
  refine ⟨_, _, _, _, h.returns (hu.solvable M hP), h'.returns (hu'.solvable M hP'), filtered_length _ _,
    by rw [filtered_length, hlen], fun k q q' hk hq hq' i j => ?_⟩
  obtain ⟨hl, rfl⟩ := filtered_lastOf hq
  obtain ⟨-, rfl⟩ := filtered_lastOf hq'
  rw [lastOf_covRun, lastOf_covRun, covRun_congr (ss := ss'.take (k + 1)) (ts := ss.take (k + 1))
    (by rw [List.map_take, List.map_take, hsm.model])]
  have e : ss.take (k + 1) = (ss.take (k + 1)).take N ++ (ss.take (k + 1)).drop N := (List.take_append_drop _ _).symm
  have hinf : ss.take (k + 1) <:+: ss := (List.take_prefix _ _).isInfix
  have key := hc ((ss.take (k + 1)).take N) ((ss.take (k + 1)).drop N) (by rw [← e]; exact hu.mono hinf) (by simp; omega)
    b.P b'.P hP hP' i j
  rw [← e] at key
  refine key.trans ?_
  have hl' : ((ss.take (k + 1)).drop N).length = k + 1 - N := by simp; omega
  have hpos : 0 < ρ ^ (N - 1) := by positivity
  rw [hl', mul_assoc]
  refine mul_le_mul_of_nonneg_left ?_ (by linarith)
  rw [← div_eq_inv_mul, le_div_iff₀ hpos, ← pow_add]
  exact pow_le_pow_of_le_one h0.le h1.le (by omega)

/-- C120: the filter as an observer of a time-varying system.  Whatever the true states `x 0, x 1, ...` are, let `w` be the
disturbances of the transitions, `x (k+1) = A_k x k + B_k u_k + w k`, and `v` the errors of the measurements,
`z_k = H_k x (k+1) + v k` - no statistics assumed.  If all disturbances and errors are at most `D` and the initial estimate is off
by at most `t` then the estimate after step `k` is off by at most `C ρ^(k+1) t + C D`, where `C` and `ρ < 1` depend on the
dimensions, `N`, `a`, `r`, `γ` and the bound `p` of the initial covariance only. -/
theorem C120_observer (n m N : ℕ) (a r γ p : ℝ) (hN : 0 < N) (ha : 0 ≤ a) (hr : 0 < r) (hγ : 0 < γ) :
    ∃ C ρ : ℝ, 0 < ρ ∧ ρ < 1 ∧
      ∀ (kf : KalmanFilter Fl) (Z : NDArray Fl) (U : Option (NDArray Fl)) (b : Belief n) (ss : List (LinStep n m)),
        Represents kf Z U b ss → Between 0 p b.P → UniformModel N a r γ ss →
        ∃ (bs : List (Belief n)) (Ks : List (Matrix (Fin n) (Fin m) ℝ)), FilterReturns kf Z U bs Ks ∧ bs.length = ss.length ∧
          ∀ (x w : ℕ → Fin n → ℝ) (v : ℕ → Fin m → ℝ) (t D : ℝ), 0 ≤ D →
            (∀ (k : ℕ) (s : LinStep n m), ss[k]? = some s → x (k + 1) = s.A *ᵥ x k + s.c + w k ∧ s.z = s.H *ᵥ x (k + 1) + v k ∧
              (∀ i, |w k i| ≤ D) ∧ ∀ i, |v k i| ≤ D) →
            (∀ i, |b.x i - x 0 i| ≤ t) →
            ∀ k q, bs[k]? = some q → ∀ i, |q.x i - x (k + 1) i| ≤ C * ρ ^ (k + 1) * t + C * D := by
  obtain ⟨lo, hi, M⟩ := exists_margins n m N hN ha hr hγ
  obtain ⟨C, ρ, hC, h0, h1, hb⟩ := M.run_bound_start (le_max_left 0 p)
  refine ⟨C, ρ, h0, h1, fun kf Z U b ss h hP hu => ?_⟩
  have hpsd : b.P.PosSemidef := by simpa using hP.1
  refine ⟨_, _, h.returns (hu.solvable M hpsd), filtered_length _ _, ?_⟩
  intro x w v t D hD hx ht k q hq i
  have ht0 : 0 ≤ t := (abs_nonneg _).trans (ht i)
  obtain ⟨hk, rfl⟩ := filtered_lastOf hq
  have herr := error_run b ss x w v (fun k s hs => ⟨(hx k s hs).1, (hx k s hs).2.1⟩) (k + 1) hk
  have hmod : (ss.mapIdx fun i s => ({ s with c := -w i, z := v i } : LinStep n m)).map LinStep.model = ss.map LinStep.model := by
    apply List.ext_getElem?
    intro i
    simp only [List.getElem?_map, List.getElem?_mapIdx, Option.map_map]
    rfl
  have hu' : UniformModel N a r γ (ss.mapIdx fun i s => ({ s with c := -w i, z := v i } : LinStep n m)) := hu.congr hmod.symm
  have key := hb ((ss.mapIdx fun i s => ({ s with c := -w i, z := v i } : LinStep n m)).take (k + 1))
    (hu'.mono (List.take_prefix _ _).isInfix) b.P hpsd (upper_mono (le_max_right _ _) hP.2) D hD (fun s hs => by
    obtain ⟨i, hi⟩ := List.mem_iff_getElem?.1 (List.mem_of_mem_take hs)
    rw [List.getElem?_mapIdx] at hi
    obtain ⟨s', hs', rfl⟩ := Option.map_eq_some_iff.1 hi
    obtain ⟨-, -, e3, e4⟩ := hx i s' hs'
    exact ⟨(abs_le_iff_norm hD).1 e4, by rw [norm_neg]; exact (abs_le_iff_norm hD).1 e3⟩) (b.x - x 0)
  rw [herr] at key
  have hl : ((ss.mapIdx fun i s => ({ s with c := -w i, z := v i } : LinStep n m)).take (k + 1)).length = k + 1 := by
    simp; omega
  rw [hl] at key
  have ht' := (abs_le_iff_norm (v := b.x - x 0) ht0).1 ht
  refine (abs_le_iff_norm (v := (lastOf b (ss.take (k + 1))).x - x (k + 1)) (by positivity)).2 (key.trans ?_) i
  exact add_le_add_left (mul_le_mul_of_nonneg_left ht' (by positivity)) _

/-- C120: bounded data give bounded estimates. -/
theorem C120_bounded (n m N : ℕ) (a r γ p : ℝ) (hN : 0 < N) (ha : 0 ≤ a) (hr : 0 < r) (hγ : 0 < γ) :
    ∃ C ρ : ℝ, 0 < ρ ∧ ρ < 1 ∧
      ∀ (kf : KalmanFilter Fl) (Z : NDArray Fl) (U : Option (NDArray Fl)) (b : Belief n) (ss : List (LinStep n m)),
        Represents kf Z U b ss → Between 0 p b.P → UniformModel N a r γ ss →
        ∃ (bs : List (Belief n)) (Ks : List (Matrix (Fin n) (Fin m) ℝ)), FilterReturns kf Z U bs Ks ∧ bs.length = ss.length ∧
          ∀ t D : ℝ, 0 ≤ D → (∀ s ∈ ss, (∀ i, |s.z i| ≤ D) ∧ ∀ i, |s.c i| ≤ D) → (∀ i, |b.x i| ≤ t) →
            ∀ k q, bs[k]? = some q → ∀ i, |q.x i| ≤ C * ρ ^ (k + 1) * t + C * D := by
  obtain ⟨C, ρ, h0, h1, hb⟩ := C120_observer n m N a r γ p hN ha hr hγ
  refine ⟨C, ρ, h0, h1, fun kf Z U b ss h hP hu => ?_⟩
  obtain ⟨bs, Ks, hret, hl, hbd⟩ := hb kf Z U b ss h hP hu
  refine ⟨bs, Ks, hret, hl, fun t D hD hdat ht k q hq i => ?_⟩
  have := hbd (fun _ => 0) (fun k => -(ss[k]?.elim 0 LinStep.c)) (fun k => ss[k]?.elim 0 LinStep.z) t D hD (fun k s hs => by
    obtain ⟨e1, e2⟩ := hdat s (List.mem_of_getElem? hs)
    simp only [hs, Option.elim, mulVec_zero, zero_add, Pi.neg_apply, abs_neg]
    exact ⟨by simp, trivial, e2, e1⟩) (by simpa using ht) k q hq i
  simpa using this

/-- C121: two runs on the same steps from different initial means and covariances.  From the `N`-th estimate on, the difference
between the two estimates decays geometrically: if after step `j` both are within `t`, and the data of steps `j+1, ..., k` are
within `D`, then after step `k` they differ by at most `C ρ^(k-j) (t + D)`. -/
theorem C121_initial_state (n m N : ℕ) (a r γ : ℝ) (hN : 0 < N) (ha : 0 ≤ a) (hr : 0 < r) (hγ : 0 < γ) :
    ∃ C ρ : ℝ, 0 < ρ ∧ ρ < 1 ∧
      ∀ (kf kf' : KalmanFilter Fl) (Z Z' : NDArray Fl) (U U' : Option (NDArray Fl)) (b b' : Belief n) (ss : List (LinStep n m)),
        Represents kf Z U b ss → Represents kf' Z' U' b' ss → b.P.PosSemidef → b'.P.PosSemidef → UniformModel N a r γ ss →
        ∃ (bs bs' : List (Belief n)) (Ks Ks' : List (Matrix (Fin n) (Fin m) ℝ)), FilterReturns kf Z U bs Ks ∧
          FilterReturns kf' Z' U' bs' Ks' ∧ bs.length = ss.length ∧ bs'.length = ss.length ∧
          ∀ j k p p' q q', N ≤ j + 1 → j ≤ k → bs[j]? = some p → bs'[j]? = some p' → bs[k]? = some q → bs'[k]? = some q' →
            ∀ t D : ℝ, 0 ≤ D → DataWithin ss j k D → (∀ i, |p.x i| ≤ t) → (∀ i, |p'.x i| ≤ t) →
              ∀ i, |q.x i - q'.x i| ≤ C * ρ ^ (k - j) * (t + D) := by
  obtain ⟨lo, hi, M⟩ := exists_margins n m N hN ha hr hγ
  obtain ⟨C, ρ, hC, h0, h1, hb⟩ := M.belief_close
  refine ⟨C, ρ, h0, h1, fun kf kf' Z Z' U U' b b' ss h h' hP hP' hu => ?_⟩
  refine ⟨_, _, _, _, h.returns (hu.solvable M hP), h'.returns (hu.solvable M hP'), filtered_length _ _, filtered_length _ _, ?_⟩
  intro j k p p' q q' hj hjk hp hp' hq hq' t D hD hdat ht ht' i
  have ht0 : 0 ≤ t := (abs_nonneg _).trans (ht i)
  obtain ⟨-, rfl⟩ := filtered_lastOf hp
  obtain ⟨-, rfl⟩ := filtered_lastOf hp'
  obtain ⟨hk, rfl⟩ := filtered_lastOf hq
  obtain ⟨-, rfl⟩ := filtered_lastOf hq'
  have e : ss.take (k + 1) = ss.take (j + 1) ++ (ss.drop (j + 1)).take (k - j) := by
    rw [← List.take_add]; congr 1; omega
  have hl : ((ss.drop (j + 1)).take (k - j)).length = k - j := by simp; omega
  have key := hb (ss.take (j + 1)) ((ss.drop (j + 1)).take (k - j)) (by rw [← e]; exact hu.mono (List.take_prefix _ _).isInfix)
    (by simp; omega) b b' hP hP' t D hD (fun s hs => by
      obtain ⟨i, hi⟩ := List.mem_iff_getElem?.1 hs
      rw [List.getElem?_take] at hi
      split at hi
      · rw [List.getElem?_drop] at hi
        obtain ⟨e1, e2⟩ := hdat (j + 1 + i) s (by omega) (by omega) hi
        exact ⟨(abs_le_iff_norm hD).1 e1, (abs_le_iff_norm hD).1 e2⟩
      · simp at hi) ((abs_le_iff_norm ht0).1 ht) ((abs_le_iff_norm ht0).1 ht')
  rw [← e, hl] at key
  exact (abs_le_iff_norm (v := (lastOf b (ss.take (k + 1))).x - (lastOf b' (ss.take (k + 1))).x) (by positivity)).2 key i

/-! ### Constant models are a special case -/

theorem obsGram_replicate_succ (s : LinStep n m) (k : ℕ) :
    obsGram (List.replicate (k + 1) s) = s.Hᵀ * s.H + s.Aᵀ * obsGram (List.replicate k s) * s.A := by
  rcases k with _ | k
  · simp [obsGram]
  · rw [List.replicate_succ, List.replicate_succ, obsGram]

theorem obsGram_replicate (s : LinStep n m) (k : ℕ) : (obsGram (List.replicate k s)).PosSemidef ∧
    ∀ x, x ⬝ᵥ (obsGram (List.replicate k s) *ᵥ x) = 0 → ∀ i < k, s.H *ᵥ ((s.A ^ i) *ᵥ x) = 0 := by
  induction k with
  | zero => exact ⟨by simpa [obsGram] using Matrix.PosSemidef.zero, fun x _ i hi => absurd hi (by omega)⟩
  | succ k ih =>
    obtain ⟨h1, h2⟩ := ih
    have hH : (s.Hᵀ * s.H).PosSemidef := by
      simpa [conjTranspose_eq_transpose_of_trivial] using Matrix.posSemidef_conjTranspose_mul_self s.H
    have hA : (s.Aᵀ * obsGram (List.replicate k s) * s.A).PosSemidef := by
      have := posSemidef_conj h1 s.Aᵀ
      rwa [transpose_transpose] at this
    rw [obsGram_replicate_succ]
    refine ⟨hH.add hA, fun x hx i hi => ?_⟩
    rw [add_mulVec, dotProduct_add] at hx
    have e1 : 0 ≤ x ⬝ᵥ ((s.Hᵀ * s.H) *ᵥ x) := by simpa using hH.dotProduct_mulVec_nonneg x
    have e2 : 0 ≤ x ⬝ᵥ ((s.Aᵀ * obsGram (List.replicate k s) * s.A) *ᵥ x) := by simpa using hA.dotProduct_mulVec_nonneg x
    have f1 : x ⬝ᵥ ((s.Hᵀ * s.H) *ᵥ x) = (s.H *ᵥ x) ⬝ᵥ (s.H *ᵥ x) := by
      rw [← mulVec_mulVec, dotProduct_mulVec, vecMul_transpose]
    have f2 : x ⬝ᵥ ((s.Aᵀ * obsGram (List.replicate k s) * s.A) *ᵥ x) =
        (s.A *ᵥ x) ⬝ᵥ (obsGram (List.replicate k s) *ᵥ (s.A *ᵥ x)) := by
      rw [← mulVec_mulVec, ← mulVec_mulVec, dotProduct_mulVec, vecMul_transpose]
    rcases i with _ | i
    · have : (s.H *ᵥ x) ⬝ᵥ (s.H *ᵥ x) = 0 := by linarith
      simpa using dotProduct_self_eq_zero.1 this
    · have := h2 (s.A *ᵥ x) (by linarith) i (by omega)
      rwa [mulVec_mulVec _ (s.A ^ i) s.A, ← pow_succ] at this

theorem conGram_replicate (s : LinStep n m) (hQ : s.Q.PosSemidef) (k : ℕ) : (conGram (List.replicate k s)).PosSemidef ∧
    ∀ y, y ⬝ᵥ (conGram (List.replicate k s) *ᵥ y) = 0 → ∀ i < k, y ᵥ* (s.A ^ i * s.Q) = 0 := by
  induction k with
  | zero => exact ⟨by simpa [conGram] using Matrix.PosSemidef.zero, fun x _ i hi => absurd hi (by omega)⟩
  | succ k ih =>
    obtain ⟨h1, h2⟩ := ih
    have e : conGram (List.replicate (k + 1) s) = s.A * conGram (List.replicate k s) * s.Aᵀ + s.Q := by
      rw [List.replicate_succ', conGram, List.foldl_append]; rfl
    have hA := posSemidef_conj h1 s.A
    rw [e]
    refine ⟨hA.add hQ, fun y hy i hi => ?_⟩
    rw [add_mulVec, dotProduct_add] at hy
    have e1 : 0 ≤ y ⬝ᵥ (s.Q *ᵥ y) := by simpa using hQ.dotProduct_mulVec_nonneg y
    have e2 : 0 ≤ y ⬝ᵥ ((s.A * conGram (List.replicate k s) * s.Aᵀ) *ᵥ y) := by simpa using hA.dotProduct_mulVec_nonneg y
    have f2 : y ⬝ᵥ ((s.A * conGram (List.replicate k s) * s.Aᵀ) *ᵥ y) =
        (s.Aᵀ *ᵥ y) ⬝ᵥ (conGram (List.replicate k s) *ᵥ (s.Aᵀ *ᵥ y)) := by
      rw [← mulVec_mulVec, ← mulVec_mulVec, dotProduct_mulVec, mulVec_transpose]
    rcases i with _ | i
    · have h0 : s.Q *ᵥ y = 0 := (hQ.dotProduct_mulVec_zero_iff y).1 (by simpa using (by linarith : y ⬝ᵥ (s.Q *ᵥ y) = 0))
      have hs : s.Qᵀ = s.Q := by simpa [conjTranspose_eq_transpose_of_trivial] using hQ.1.eq
      rw [pow_zero, one_mul, ← hs, vecMul_transpose, h0]
    · have := h2 (s.Aᵀ *ᵥ y) (by linarith) i (by omega)
      rw [pow_succ', Matrix.mul_assoc, ← vecMul_vecMul, ← mulVec_transpose s.A y, this]

theorem posDef_of_zero {M : Matrix (Fin n) (Fin n) ℝ} (h : M.PosSemidef) (h0 : ∀ x, x ⬝ᵥ (M *ᵥ x) = 0 → x = 0) : M.PosDef :=
  Matrix.PosDef.of_dotProduct_mulVec_pos h.1 fun x hx =>
    lt_of_le_of_ne (h.dotProduct_mulVec_nonneg x) fun e => hx (h0 x (by simpa using e.symm))

theorem model_replicate {ss : List (LinStep n m)} {s₀ : LinStep n m} (h : ∀ s ∈ ss, s.model = s₀.model) :
    (List.replicate ss.length s₀).map LinStep.model = ss.map LinStep.model := by
  induction ss with
  | nil => rfl
  | cons s ss ih =>
    rw [List.length_cons, List.replicate_succ, List.map_cons, List.map_cons, h s (by simp), ih fun t ht => h t (by simp [ht])]

/-- C119: the constant models of C82-C85 and C99 are uniform: for an observable and controllable model there are constants with
which every run of it, with any data, is a `UniformModel`. -/
theorem C119_constant (A Q : Matrix (Fin n) (Fin n) ℝ) (H : Matrix (Fin m) (Fin n) ℝ) (R : Matrix (Fin m) (Fin m) ℝ)
    (hQ : Q.PosSemidef) (hR : R.PosDef) (hc : Controllable A Q) (ho : Observable A H) :
    ∃ a r γ : ℝ, 0 ≤ a ∧ 0 < r ∧ 0 < γ ∧ ∀ ss : List (LinStep n m), ConstantModel A H Q R ss → UniformModel n a r γ ss := by
  obtain ⟨s₀, e1, e2, e3, e4⟩ : ∃ s₀ : LinStep n m, s₀.A = A ∧ s₀.H = H ∧ s₀.Q = Q ∧ s₀.R = R :=
    ⟨⟨A, 0, H, Q, R, 0⟩, rfl, rfl, rfl, rfl⟩
  obtain ⟨r, hr, hr'⟩ := exists_lower hR
  obtain ⟨q, hq, hq'⟩ := exists_upper hQ
  obtain ⟨ρ, hρ, hρ'⟩ := exists_upper hR.posSemidef
  obtain ⟨o1, o2⟩ := obsGram_replicate s₀ n
  obtain ⟨c1, c2⟩ := conGram_replicate s₀ (e3 ▸ hQ) n
  obtain ⟨γ₁, g1, g1'⟩ := exists_lower (posDef_of_zero o1 fun x hx => ho x (e1 ▸ e2 ▸ o2 x hx))
  obtain ⟨γ₂, g2, g2'⟩ := exists_lower (posDef_of_zero c1 fun x hx => hc x (e1 ▸ e3 ▸ c2 x hx))
  have nA := entrySum_nonneg A
  have nH := entrySum_nonneg H
  refine ⟨entrySum A + entrySum H + q + ρ, r, min γ₁ γ₂, by positivity, hr, lt_min g1 g2, fun ss hcm => ?_⟩
  have hmod : ∀ s ∈ ss, s.model = s₀.model := fun s hs => by
    obtain ⟨h1, h2, h3, h4⟩ := hcm s hs
    rw [LinStep.model, LinStep.model, h1, h2, h3, h4, e1, e2, e3, e4]
  refine ⟨fun s hs i j => ?_, fun s hs i j => ?_, fun s hs => ?_, fun s hs => ?_, fun w hw hl => ?_, fun w hw hl => ?_⟩
  · rw [(hcm s hs).1]; have := le_entrySum A i j; linarith
  · rw [(hcm s hs).2.1]; have := le_entrySum H i j; linarith
  · rw [(hcm s hs).2.2.1]
    exact ⟨by simpa using hQ, upper_mono (by linarith) hq'⟩
  · rw [(hcm s hs).2.2.2]
    exact ⟨hr', upper_mono (by linarith) hρ'⟩
  · have := model_replicate fun s hs => hmod s (hw.subset hs)
    rw [← obsGram_congr this, hl]
    exact lower_mono (min_le_left _ _) g1'
  · have := model_replicate fun s hs => hmod s (hw.subset hs)
    rw [← conGram_congr this, hl]
    exact lower_mono (min_le_right _ _) g2'

/-! ### A model that does change: irregular sampling -/

/-- Position and velocity, sampled after time `dt`; the position is measured, and the process noise grows with `dt`. -/
noncomputable def Ex.irrStep (dt z : ℝ) : LinStep 2 1 where
  A := !![1, dt; 0, 1]
  c := 0
  H := !![1, 0]
  Q := !![dt, 0; 0, dt]
  R := !![1]
  z := ![z]

theorem psd_two {M : Matrix (Fin 2) (Fin 2) ℝ} (hs : M 0 1 = M 1 0) (h0 : 0 ≤ M 0 0) (h1 : 0 ≤ M 1 1)
    (hd : M 0 1 * M 1 0 ≤ M 0 0 * M 1 1) : M.PosSemidef := by
  refine Matrix.PosSemidef.of_dotProduct_mulVec_nonneg ?_ ?_
  · ext i j; fin_cases i <;> fin_cases j <;> simp [hs]
  · intro x
    simp only [star_trivial, dotProduct, Fin.sum_univ_two, Matrix.mulVec]
    rw [← hs] at *
    rcases h0.eq_or_lt with e | e
    · have : M 0 1 = 0 := by
        rw [← e, zero_mul] at hd
        nlinarith [mul_self_nonneg (M 0 1)]
      rw [← e, this]
      nlinarith [mul_self_nonneg (x 1)]
    · have k1 := mul_self_nonneg (M 0 0 * x 0 + M 0 1 * x 1)
      have k2 : 0 ≤ (M 0 0 * M 1 1 - M 0 1 * M 0 1) * (x 1 * x 1) := mul_nonneg (by linarith) (mul_self_nonneg _)
      have : 0 ≤ M 0 0 * (x 0 * (M 0 0 * x 0 + M 0 1 * x 1) + x 1 * (M 0 1 * x 0 + M 1 1 * x 1)) := by nlinarith
      exact nonneg_of_mul_nonneg_right this e

theorem Ex.irr_uniform (l : List (ℝ × ℝ)) (h : ∀ p ∈ l, 1 ≤ p.1 ∧ p.1 ≤ 2) :
    UniformModel 2 2 1 (1/4) (l.map fun p => Ex.irrStep p.1 p.2) := by
  have hmem : ∀ s ∈ l.map fun p => Ex.irrStep p.1 p.2, ∃ dt z, 1 ≤ dt ∧ dt ≤ 2 ∧ s = Ex.irrStep dt z := fun s hs => by
    obtain ⟨p, hp, rfl⟩ := List.mem_map.1 hs
    exact ⟨p.1, p.2, (h p hp).1, (h p hp).2, rfl⟩
  have hwin : ∀ w, w <:+: (l.map fun p => Ex.irrStep p.1 p.2) → w.length = 2 →
      ∃ dt z dt' z', (1 ≤ dt ∧ dt ≤ 2) ∧ (1 ≤ dt' ∧ dt' ≤ 2) ∧ w = [Ex.irrStep dt z, Ex.irrStep dt' z'] := fun w hw hl => by
    obtain ⟨s, t, rfl⟩ := List.length_eq_two.1 hl
    obtain ⟨dt, z, h1, h2, rfl⟩ := hmem s (hw.subset (by simp))
    obtain ⟨dt', z', h3, h4, rfl⟩ := hmem t (hw.subset (by simp))
    exact ⟨dt, z, dt', z', ⟨h1, h2⟩, ⟨h3, h4⟩, rfl⟩
  refine ⟨fun s hs i j => ?_, fun s hs i j => ?_, fun s hs => ?_, fun s hs => ?_, fun w hw hl => ?_, fun w hw hl => ?_⟩
  · obtain ⟨dt, z, h1, h2, rfl⟩ := hmem s hs
    fin_cases i <;> fin_cases j <;> simp [Ex.irrStep, abs_le] <;> constructor <;> linarith
  · obtain ⟨dt, z, h1, h2, rfl⟩ := hmem s hs
    fin_cases i <;> fin_cases j <;> simp [Ex.irrStep]
  · obtain ⟨dt, z, h1, h2, rfl⟩ := hmem s hs
    constructor
    · refine psd_two ?_ ?_ ?_ ?_ <;> simp [Ex.irrStep] <;> nlinarith
    · refine psd_two ?_ ?_ ?_ ?_ <;> simp [Ex.irrStep] <;> nlinarith
  · obtain ⟨dt, z, h1, h2, rfl⟩ := hmem s hs
    have e : (Ex.irrStep dt z).R = 1 := by ext i j; fin_cases i; fin_cases j; simp [Ex.irrStep]
    rw [e]
    constructor
    · simpa using Matrix.PosSemidef.zero
    · have : (2 : ℝ) • (1 : Matrix (Fin 1) (Fin 1) ℝ) - 1 = 1 := by module
      rw [this]; exact Matrix.PosSemidef.one
  · obtain ⟨dt, z, dt', z', h1, h2, rfl⟩ := hwin w hw hl
    have e : obsGram [Ex.irrStep dt z, Ex.irrStep dt' z'] - (1/4 : ℝ) • (1 : Matrix (Fin 2) (Fin 2) ℝ) =
        !![7/4, dt'; dt', dt' * dt' - 1/4] := by
      ext i j
      fin_cases i <;> fin_cases j <;>
        simp [obsGram, Ex.irrStep, Matrix.mul_apply, Fin.sum_univ_two] <;> norm_num
    rw [e]
    refine psd_two ?_ ?_ ?_ ?_ <;> simp <;> nlinarith
  · obtain ⟨dt, z, dt', z', h1, h2, rfl⟩ := hwin w hw hl
    have e : conGram [Ex.irrStep dt z, Ex.irrStep dt' z'] - (1/4 : ℝ) • (1 : Matrix (Fin 2) (Fin 2) ℝ) =
        !![dt + dt' * dt * dt' + dt' - 1/4, dt' * dt; dt' * dt, dt + dt' - 1/4] := by
      ext i j
      fin_cases i <;> fin_cases j <;>
        simp [conGram, Ex.irrStep, Matrix.mul_apply, Fin.sum_univ_two, Matrix.transpose_apply, Matrix.vecMul, dotProduct, Matrix.vecHead, Matrix.vecTail] <;> ring
    rw [e]
    obtain ⟨h1, h1'⟩ := h1
    obtain ⟨h2, h2'⟩ := h2
    have hp : 0 ≤ dt' * dt := by positivity
    have hp3 : 0 ≤ dt' * dt * dt' := by positivity
    refine psd_two (by simp) (by simp; linarith) (by simp; linarith) ?_
    simp
    have k1 : dt' * dt * (dt' * dt) = dt' * dt * dt' * dt := by ring
    have k2 : dt' * dt * dt' * dt ≤ dt' * dt * dt' * (dt + dt' - 1/4) := mul_le_mul_of_nonneg_left (by linarith) hp3
    have k3 : 0 ≤ (dt + dt' - 1/4) * (dt + dt' - 1/4) := mul_self_nonneg _
    nlinarith

-- C119-C121: position and velocity sampled at irregular times, steps between 1 and 2, over any number of steps, from any
-- covariance, e.g. with the truth at rest at 3 and exact measurements
example (l : List (ℝ × ℝ)) (h : ∀ p ∈ l, 1 ≤ p.1 ∧ p.1 ≤ 2) (hz : ∀ p ∈ l, p.2 = 3) (b : Belief 2) :
    (∃ kf Z U, Represents kf Z U b (l.map fun p => Ex.irrStep p.1 p.2)) ∧
    UniformModel 2 2 1 (1/4) (l.map fun p => Ex.irrStep p.1 p.2) ∧
    (∀ z' : ℝ, SameMatrices (l.map fun p => Ex.irrStep p.1 p.2) (l.map fun p => Ex.irrStep p.1 z')) ∧
    ∀ (k : ℕ) (s : LinStep 2 1), (l.map fun p => Ex.irrStep p.1 p.2)[k]? = some s →
      ![3, 0] = s.A *ᵥ ![3, 0] + s.c + 0 ∧ s.z = s.H *ᵥ ![3, 0] + 0 := by
  refine ⟨⟨_, _, _, Ex.encode_represents _ _⟩, Ex.irr_uniform l h, fun z' => ?_, fun k s hs => ?_⟩
  · unfold SameMatrices
    rw [List.forall₂_map_left_iff, List.forall₂_map_right_iff, List.forall₂_same]
    exact fun p _ => ⟨rfl, rfl, rfl, rfl⟩
  · obtain ⟨p, hp, rfl⟩ := List.mem_map.1 (List.mem_of_getElem? hs)
    constructor
    · funext i; fin_cases i <;> simp [Ex.irrStep, Matrix.mulVec, dotProduct, Fin.sum_univ_two]
    · funext i; fin_cases i; simp [Ex.irrStep, Matrix.mulVec, dotProduct, Fin.sum_univ_two, hz p hp]

end KK
