import Verif.Spec.Steady
import Verif.Props.Forgetting
import Verif.Props.Convergence
import Verif.Proofs.Compact
import Verif.Test.Encode

/-!
# C109: the filter started in the steady state is a fixed-gain observer
-/

set_option linter.unusedSectionVars false

namespace KK

open Matrix

variable {n m : ℕ}

section
variable {A Q F : Matrix (Fin n) (Fin n) ℝ} {H : Matrix (Fin m) (Fin n) ℝ} {R : Matrix (Fin m) (Fin m) ℝ}

/-- The gain in the steady state `F`. -/
noncomputable def steadyGain (A Q F : Matrix (Fin n) (Fin n) ℝ) (H : Matrix (Fin m) (Fin n) ℝ) (R : Matrix (Fin m) (Fin m) ℝ) :
    Matrix (Fin n) (Fin m) ℝ :=
  (A * F * Aᵀ + Q) * Hᵀ * (H * (A * F * Aᵀ + Q) * Hᵀ + R)⁻¹

theorem steady_run (hF : SteadyState A H Q R F) (hd : (H * (A * F * Aᵀ + Q) * Hᵀ + R).det ≠ 0) {ss : List (LinStep n m)}
    (hc : ConstantModel A H Q R ss) (x : Fin n → ℝ) :
    Solvable ⟨x, F⟩ ss ∧ filtered ⟨x, F⟩ ss = (fixedGain A H (steadyGain A Q F H R) x ss).map (fun y => ⟨y, F⟩) ∧
      gainsOf ⟨x, F⟩ ss = List.replicate ss.length (steadyGain A Q F H R) := by
  induction ss generalizing x with
  | nil => exact ⟨trivial, rfl, rfl⟩
  | cons s ss ih =>
    obtain ⟨h1, h2, h3, h4⟩ := hc s (by simp)
    have hn : s.next ⟨x, F⟩ =
        ⟨A *ᵥ x + s.c + steadyGain A Q F H R *ᵥ (s.z - H *ᵥ (A *ᵥ x + s.c)), F⟩ := by
      have e : (s.next ⟨x, F⟩).P = F := by
        have := steadyState_iff.1 hF
        rw [← h1, ← h2, ← h3, ← h4] at this
        exact this
      have e' : (s.next ⟨x, F⟩).x = A *ᵥ x + s.c + steadyGain A Q F H R *ᵥ (s.z - H *ᵥ (A *ᵥ x + s.c)) := by
        rw [← h1, ← h2, ← h3, ← h4]; rfl
      rcases hq : s.next ⟨x, F⟩ with ⟨y, P⟩
      rw [hq] at e e'
      exact congrArg₂ Belief.mk e' e
    obtain ⟨i1, i2, i3⟩ := ih (fun s hs => hc s (by simp [hs])) (A *ᵥ x + s.c + steadyGain A Q F H R *ᵥ (s.z - H *ᵥ (A *ᵥ x + s.c)))
    refine ⟨⟨?_, ?_⟩, ?_, ?_⟩
    · rw [← h1, ← h2, ← h3, ← h4] at hd; exact hd
    · rw [hn]; exact i1
    · rw [filtered, hn, i2]; rfl
    · rw [gainsOf, hn, i3, List.length_cons, List.replicate_succ]
      congr 1
      rw [← h1, ← h2, ← h3, ← h4]; rfl

variable [Platform]

/-- C109: a constant model whose initial covariance is a steady state `F` (with invertible innovation covariance).  Every returned
covariance is `F`, every recorded gain is the same, and the returned means are those of the observer with this fixed gain, which
computes no covariances. -/
theorem C109_steady_start (hF : SteadyState A H Q R F) (hd : (H * (A * F * Aᵀ + Q) * Hᵀ + R).det ≠ 0)
    (kf : KalmanFilter Fl) (Z : NDArray Fl) (U : Option (NDArray Fl)) (x : Fin n → ℝ) (ss : List (LinStep n m))
    (h : Represents kf Z U ⟨x, F⟩ ss) (hc : ConstantModel A H Q R ss) :
    FilterReturns kf Z U ((fixedGain A H (steadyGain A Q F H R) x ss).map fun y => ⟨y, F⟩)
      (List.replicate ss.length (steadyGain A Q F H R)) := by
  obtain ⟨h1, h2, h3⟩ := steady_run hF hd hc x
  rw [← h2, ← h3]
  exact h.returns h1

theorem FilterReturns.unique {kf : KalmanFilter Fl} {Z : NDArray Fl} {U : Option (NDArray Fl)} {bs bs' : List (Belief n)}
    {Ks Ks' : List (Matrix (Fin n) (Fin m) ℝ)} (h : FilterReturns kf Z U bs Ks) (h' : FilterReturns kf Z U bs' Ks')
    (hl : bs.length = bs'.length) : bs = bs' := by
  rw [FilterReturns, h] at h'
  simp only [Prod.mk.injEq, Except.ok.injEq] at h'
  obtain ⟨⟨h1, h2⟩, -⟩ := h'
  have e1 := (List.append_inj h1 (by simpa using hl)).1
  have e2 := (List.append_inj h2 (by simpa using hl)).1
  refine List.ext_getElem hl fun k hk hk' => ?_
  have g1 := congrArg (·[k]?) e1
  have g2 := congrArg (·[k]?) e2
  simp only [List.getElem?_map, List.getElem?_eq_getElem hk, List.getElem?_eq_getElem hk', Option.map_some, Option.some.injEq] at g1 g2
  rcases hp : bs[k] with ⟨x, P⟩
  rcases hp' : bs'[k] with ⟨x', P'⟩
  rw [hp, hp'] at g1 g2
  have f1 := vec_eq g1
  have f2 := mat_eq g2
  refine congrArg₂ Belief.mk ?_ ?_
  · funext i; have := congrFun f1 i; simpa [finV] using this
  · ext i j; have := congrFun (congrFun f2 i) j; simpa [finM] using this

theorem fixedGain_length (A : Matrix (Fin n) (Fin n) ℝ) (H : Matrix (Fin m) (Fin n) ℝ) (K : Matrix (Fin n) (Fin m) ℝ) (x : Fin n → ℝ)
    (ss : List (LinStep n m)) : (fixedGain A H K x ss).length = ss.length := by
  induction ss generalizing x with
  | nil => rfl
  | cons s ss ih => simp [fixedGain, ih]

/-- C109, the filter and the fixed-gain observer: an observable, controllable constant model with PSD `Q` and PD `R` has exactly one
PSD steady state; from every initial mean and PSD covariance the means `filter` returns approach those of the observer with the
steady gain started anywhere, on the same data: if after step `j` both are at most `r` and the data afterwards at most `D`, they
differ by at most `C ρ^(k-j) (r + D)` after step `k`. -/
theorem C109_fixed_gain (A Q : Matrix (Fin n) (Fin n) ℝ) (H : Matrix (Fin m) (Fin n) ℝ) (R : Matrix (Fin m) (Fin m) ℝ)
    (hQ : Q.PosSemidef) (hR : R.PosDef) (hc : Controllable A Q) (ho : Observable A H) :
    ∃ (F : Matrix (Fin n) (Fin n) ℝ) (C ρ : ℝ), (∀ G : Matrix (Fin n) (Fin n) ℝ, G.PosSemidef ∧ SteadyState A H Q R G ↔ G = F) ∧
      0 < ρ ∧ ρ < 1 ∧
      ∀ (kf : KalmanFilter Fl) (Z : NDArray Fl) (U : Option (NDArray Fl)) (b : Belief n) (x : Fin n → ℝ) (ss : List (LinStep n m)),
        Represents kf Z U b ss → b.P.PosSemidef → ConstantModel A H Q R ss →
        ∃ (bs : List (Belief n)) (Ks : List (Matrix (Fin n) (Fin m) ℝ)), FilterReturns kf Z U bs Ks ∧ bs.length = ss.length ∧
          ∀ j k p y q w, n ≤ j + 1 → j ≤ k → bs[j]? = some p → (fixedGain A H (steadyGain A Q F H R) x ss)[j]? = some y →
            bs[k]? = some q → (fixedGain A H (steadyGain A Q F H R) x ss)[k]? = some w →
            ∀ r D : ℝ, 0 ≤ D → DataWithin ss j k D → (∀ i, |p.x i| ≤ r) → (∀ i, |y i| ≤ r) →
              ∀ i, |q.x i - w i| ≤ C * ρ ^ (k - j) * (r + D) := by
  obtain ⟨F, -, -, hF, hS, hu, -⟩ := C82_convergence A Q H R hQ hR hc ho
  obtain ⟨C, ρ, h0, h1, h85⟩ := C85_initial_state A Q H R hQ hR hc ho
  refine ⟨F, C, ρ, fun G => ⟨fun hG => hu G hG.1 hG.2, fun e => e ▸ ⟨hF.posSemidef, hS⟩⟩, h0, h1, fun kf Z U b x ss h hP hcm => ?_⟩
  have hd : (H * (A * F * Aᵀ + Q) * Hᵀ + R).det ≠ 0 :=
    posDef_det_ne (innovCov_posDef (priorCov_posSemidef hF.posSemidef hQ) hR)
  obtain ⟨s1, s2, -⟩ := steady_run hS hd hcm x
  obtain ⟨bs, bs', Ks, Ks', r1, r2, l1, l2, hb⟩ := h85 kf (Ex.encode ⟨x, F⟩ ss) Z (Ex.encZ ss) U (some (Ex.encU ss)) b ⟨x, F⟩ ss h
    (Ex.encode_represents _ _) hP hF.posSemidef hcm
  have e : bs' = (fixedGain A H (steadyGain A Q F H R) x ss).map (fun y => ⟨y, F⟩) := by
    have h2 := (Ex.encode_represents ⟨x, F⟩ ss).returns s1
    rw [← s2]
    exact r2.unique h2 (by rw [l2, filtered_length])
  refine ⟨bs, Ks, r1, l1, fun j k p y q w hj hjk hp hy hq hw r D hD hdat hr hr' => ?_⟩
  exact hb j k p ⟨y, F⟩ q ⟨w, F⟩ hj hjk hp (by rw [e, List.getElem?_map, hy]; rfl) hq (by rw [e, List.getElem?_map, hw]; rfl)
    r D hD hdat hr hr'

/-- A random walk with `Q = 1/2`, `R = 1`: the steady state is `1/2`, the steady gain `1/2` (exponential smoothing). -/
example (zs : List ℝ) (x : ℝ) :
    ∃ (kf : KalmanFilter Fl) (Z : NDArray Fl) (U : Option (NDArray Fl)) (ss : List (LinStep 1 1)),
      Represents kf Z U ⟨![x], !![1 / 2]⟩ ss ∧ ConstantModel !![1] !![1] !![1 / 2] !![1] ss ∧ ss.length = zs.length ∧
      SteadyState !![1] !![1] !![1 / 2] !![1] (!![1 / 2] : Matrix (Fin 1) (Fin 1) ℝ) ∧
      (!![1] * (!![1] * !![1 / 2] * !![1]ᵀ + !![1 / 2]) * !![1]ᵀ + !![1] : Matrix (Fin 1) (Fin 1) ℝ).det ≠ 0 ∧
      steadyGain !![1] !![1 / 2] !![1 / 2] !![1] !![1] = (!![1 / 2] : Matrix (Fin 1) (Fin 1) ℝ) := by
  have e1 : (!![1] : Matrix (Fin 1) (Fin 1) ℝ) = 1 := by ext i j; fin_cases i; fin_cases j; rfl
  have e2 : (!![1 / 2] + !![1 / 2] : Matrix (Fin 1) (Fin 1) ℝ) = 1 := by
    ext i j; fin_cases i; fin_cases j; simp; norm_num
  have e : (!![1] * (!![1] * !![1 / 2] * !![1]ᵀ + !![1 / 2]) * !![1]ᵀ + !![1] : Matrix (Fin 1) (Fin 1) ℝ) = !![2] := by
    simp only [e1, transpose_one, Matrix.one_mul, Matrix.mul_one, e2]
    ext i j; fin_cases i; fin_cases j; simp; norm_num
  have ei : (!![2] : Matrix (Fin 1) (Fin 1) ℝ)⁻¹ = !![1 / 2] := by
    refine inv_eq_left_inv ?_
    ext i j; fin_cases i; fin_cases j; simp
  have eg : steadyGain !![1] !![1 / 2] !![1 / 2] !![1] !![1] = (!![1 / 2] : Matrix (Fin 1) (Fin 1) ℝ) := by
    rw [steadyGain, e, ei]
    simp only [e1, transpose_one, Matrix.one_mul, Matrix.mul_one, e2]
  refine ⟨_, _, _, zs.map fun z => ⟨!![1], 0, !![1], !![1 / 2], !![1], ![z]⟩, Ex.encode_represents _ _, ?_, by simp, ?_, ?_, eg⟩
  · intro s hs
    simp only [List.mem_map] at hs
    obtain ⟨z, -, rfl⟩ := hs
    exact ⟨rfl, rfl, rfl, rfl⟩
  · have : (1 - steadyGain !![1] !![1 / 2] !![1 / 2] !![1] !![1] * !![1]) * (!![1] * !![1 / 2] * !![1]ᵀ + !![1 / 2]) =
        (!![1 / 2] : Matrix (Fin 1) (Fin 1) ℝ) := by
      rw [eg]
      simp only [e1, transpose_one, Matrix.one_mul, Matrix.mul_one, e2]
      rw [← e2, add_sub_cancel_right]
    exact this.symm
  · rw [e]; simp

end

end KK
