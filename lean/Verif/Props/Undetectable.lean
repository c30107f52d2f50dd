import Verif.Props.Detectability

/-!
# C166: exactly the detectable models settle down
-/

set_option linter.unusedSectionVars false

namespace KK

open Matrix Filter Topology
open scoped Matrix.Norms.Elementwise

variable {n m : ℕ} {A Q : Matrix (Fin n) (Fin n) ℝ} {H : Matrix (Fin m) (Fin n) ℝ} {R : Matrix (Fin m) (Fin m) ℝ}

/-- The entries of a PSD matrix are at most as large as its variances. -/
theorem psd_entry_diag {X : Matrix (Fin n) (Fin n) ℝ} (hX : X.PosSemidef) {c : ℝ} (h : ∀ i, X i i ≤ c) (i j : Fin n) :
    |X i j| ≤ c := by
  have hs : X j i = X i j := by
    have := congrFun (congrFun (IsHermitian.symm' hX.1) i) j
    rwa [transpose_apply] at this
  have q : ∀ s : ℝ, 0 ≤ X i i + s * X i j + s * (X i j + s * X j j) := by
    intro s
    have := hX.dotProduct_mulVec_nonneg (Pi.single i 1 + Pi.single j s)
    simp only [star_trivial, mulVec_add, add_dotProduct, dotProduct_add, mulVec_single, single_dotProduct, one_mul] at this
    simp only [Pi.smul_apply, Matrix.col_apply, MulOpposite.smul_eq_mul_unop, MulOpposite.unop_op, mul_one, one_mul, hs] at this
    linarith
  have q1 := q 1
  have q2 := q (-1)
  have := h i
  have := h j
  rw [abs_le]
  constructor <;> linarith

theorem psd_diag_le {X Y : Matrix (Fin n) (Fin n) ℝ} (h : (Y - X).PosSemidef) (i : Fin n) : X i i ≤ Y i i := by
  have := h.diag_nonneg (i := i)
  rw [Matrix.sub_apply] at this
  linarith

theorem iter_up_zero (hQ : Q.PosSemidef) (hR : R.PosDef) (k l : ℕ) :
    ((ric A H Q R)^[k + l] 0 - (ric A H Q R)^[k] 0).PosSemidef := by
  have := iter_mono (A := A) (H := H) (P := 0) (P' := (ric A H Q R)^[l] 0) hQ hR Matrix.PosSemidef.zero
    (by rw [sub_zero]; exact iter_psd hQ hR Matrix.PosSemidef.zero l) k
  rwa [← Function.iterate_add_apply] at this

/-- If the covariances that start with a certain state stay bounded, there is a steady state. -/
theorem steady_of_bounded (hQ : Q.PosSemidef) (hR : R.PosDef) {c : ℝ} (h : ∀ k i, ((ric A H Q R)^[k] 0) i i ≤ c) :
    ∃ F : Matrix (Fin n) (Fin n) ℝ, F.PosSemidef ∧ ric A H Q R F = F := by
  have hz := fun k => iter_psd (A := A) (H := H) hQ hR (Matrix.PosSemidef.zero (n := Fin n)) k
  have hb : ∀ k, ((n * max c 0) • (1 : Matrix (Fin n) (Fin n) ℝ) - (ric A H Q R)^[k] 0).PosSemidef := fun k => by
    refine norm_sub_psd (IsHermitian.symm' (hz k).1) (mul_le_mul_of_nonneg_left ?_ (Nat.cast_nonneg n))
    exact (mat_norm_le (le_max_right _ _)).2 fun i j => psd_entry_diag (hz k) (fun i => (h k i).trans (le_max_left _ _)) i j
  obtain ⟨F, hF, hT⟩ := psd_tendsto_up hz (fun k => iter_up_zero hQ hR k 1) hb
  exact ⟨F, hF, iter_limit hQ hR hF hT⟩

variable [Platform]

theorem detectable_of_steady (hQ : Q.PosSemidef) (hR : R.PosDef) (hs : Stabilizable A Q) {F : Matrix (Fin n) (Fin n) ℝ}
    (hF : F.PosSemidef) (hfix : ric A H Q R F = F) : Detectable A H :=
  (C165_conditions A Q H hQ).2.2 _ (closedLoop_stable (H := H) hQ hR hs hF hfix)

/-- C166: a constant model with PSD `Q` and PD `R` in which the process noise reaches whatever is not stable (for instance one with
PD `Q`) has a steady state of the covariance recursion if and only if it is detectable. -/
theorem C166_steady (A Q : Matrix (Fin n) (Fin n) ℝ) (H : Matrix (Fin m) (Fin n) ℝ) (R : Matrix (Fin m) (Fin m) ℝ)
    (hQ : Q.PosSemidef) (hR : R.PosDef) (hs : Stabilizable A Q) :
    Detectable A H ↔ ∃ F : Matrix (Fin n) (Fin n) ℝ, F.PosSemidef ∧ SteadyState A H Q R F := by
  constructor
  · intro hd
    obtain ⟨F, hF, hfix, -⟩ := exists_limit (A := A) (H := H) hQ hR hd
    exact ⟨F, hF, steadyState_iff.2 hfix⟩
  · rintro ⟨F, hF, hfix⟩
    exact detectable_of_steady hQ hR hs hF (steadyState_iff.1 hfix)

/-- C166: if such a model is not detectable, the filter never settles: whatever the bound `c`, there is a number of steps - the same
for all initial states and all data - after which every covariance that `filter` returns has a variance above `c`. -/
theorem C166_grows (A Q : Matrix (Fin n) (Fin n) ℝ) (H : Matrix (Fin m) (Fin n) ℝ) (R : Matrix (Fin m) (Fin m) ℝ)
    (hQ : Q.PosSemidef) (hR : R.PosDef) (hs : Stabilizable A Q) (hd : ¬ Detectable A H) (c : ℝ) :
    ∃ (i : Fin n) (k₀ : ℕ), ∀ (kf : KalmanFilter Fl) (Z : NDArray Fl) (U : Option (NDArray Fl)) (b : Belief n) (ss : List (LinStep n m)),
      Represents kf Z U b ss → b.P.PosSemidef → ConstantModel A H Q R ss →
      ∃ (bs : List (Belief n)) (Ks : List (Matrix (Fin n) (Fin m) ℝ)), FilterReturns kf Z U bs Ks ∧ bs.length = ss.length ∧
        ∀ k q, k₀ ≤ k → bs[k]? = some q → c < q.P i i := by
  have h : ¬ ∀ k i, ((ric A H Q R)^[k] 0) i i ≤ c := fun h => by
    obtain ⟨F, hF, hfix⟩ := steady_of_bounded hQ hR h
    exact hd (detectable_of_steady hQ hR hs hF hfix)
  simp only [not_forall, not_le] at h
  obtain ⟨k₀, i, hk⟩ := h
  refine ⟨i, k₀, fun kf Z U b ss h hP hcm => ?_⟩
  refine ⟨_, _, h.returns (solvable_psd hP (fun s hs => (hcm s hs).2.2.1 ▸ hQ) fun s hs => (hcm s hs).2.2.2 ▸ hR),
    filtered_length _ _, fun k q hkk hq => ?_⟩
  rw [filtered_const hcm b k q hq]
  obtain ⟨l, rfl⟩ := Nat.exists_eq_add_of_le hkk
  have e1 := psd_diag_le (iter_up_zero (A := A) (H := H) hQ hR k₀ (l + 1)) i
  have e2 := psd_diag_le (iter_mono (A := A) (H := H) (P := 0) (P' := b.P) hQ hR Matrix.PosSemidef.zero (by rwa [sub_zero])
    (k₀ + (l + 1))) i
  rw [add_assoc]
  linarith

/-- C166: in a detectable model, whatever the process noise reaches (any PSD `Q`, also `Q = 0`), all covariances that `filter` returns
stay within a constant times one plus the largest entry of the initial one, for any data and any length of the run. -/
theorem C166_bounded (A Q : Matrix (Fin n) (Fin n) ℝ) (H : Matrix (Fin m) (Fin n) ℝ) (R : Matrix (Fin m) (Fin m) ℝ)
    (hQ : Q.PosSemidef) (hR : R.PosDef) (hd : Detectable A H) :
    ∃ c : ℝ, ∀ (kf : KalmanFilter Fl) (Z : NDArray Fl) (U : Option (NDArray Fl)) (b : Belief n) (ss : List (LinStep n m)) (p : ℝ),
      Represents kf Z U b ss → b.P.PosSemidef → ConstantModel A H Q R ss → 0 ≤ p → (∀ i j, |b.P i j| ≤ p) →
      ∃ (bs : List (Belief n)) (Ks : List (Matrix (Fin n) (Fin m) ℝ)), FilterReturns kf Z U bs Ks ∧ bs.length = ss.length ∧
        ∀ q ∈ bs, ∀ i j, |q.P i j| ≤ c * (1 + p) := by
  obtain ⟨c, hc, h⟩ := iter_bound_detectable (A := A) (H := H) hQ hR hd
  refine ⟨c, fun kf Z U b ss p hr hP hcm hp hPp => ?_⟩
  refine ⟨_, _, hr.returns (solvable_psd hP (fun s hs => (hcm s hs).2.2.1 ▸ hQ) fun s hs => (hcm s hs).2.2.2 ▸ hR),
    filtered_length _ _, fun q hq i j => ?_⟩
  obtain ⟨k, hk⟩ := List.mem_iff_getElem?.1 hq
  rw [filtered_const hcm b k q hk]
  have hPn : ‖b.P‖ ≤ p := (mat_norm_le hp).2 hPp
  refine psd_entry_diag (iter_psd (A := A) (H := H) hQ hR hP (k + 1)) (fun i => ?_) i j
  have e1 := psd_diag_le (h b.P hP (k + 1)) i
  rw [Matrix.smul_apply, one_apply_eq, smul_eq_mul, mul_one] at e1
  exact e1.trans (mul_le_mul_of_nonneg_left (by linarith) hc)

-- C166: two random walks of which only the first is measured. The model is not detectable, so the theorem applies to any run.
example : let A : Matrix (Fin 2) (Fin 2) ℝ := 1
    let H : Matrix (Fin 1) (Fin 2) ℝ := !![1, 0]
    Stabilizable A 1 ∧ ¬ Detectable A H ∧
    ∀ (b : Belief 2) (zs : List (Fin 1 → ℝ)),
      (∃ kf Z U, Represents kf Z U b (zs.map fun z => (⟨A, 0, H, 1, 1, z⟩ : LinStep 2 1))) ∧
      ConstantModel A H 1 1 (zs.map fun z => (⟨A, 0, H, 1, 1, z⟩ : LinStep 2 1)) := by
  intro A H
  refine ⟨⟨1, ?_⟩, ?_, fun b zs => ⟨⟨_, _, _, Ex.encode_represents _ _⟩, ?_⟩⟩
  · have e : A - 1 * 1 = 0 := by simp [A]
    rw [e]
    exact (tendsto_add_atTop_iff_nat 1).1 (tendsto_const_nhds.congr fun k => by simp)
  · rintro ⟨L, hL⟩
    have e1 : (A - L * H) *ᵥ ![0, 1] = ![0, 1] := by
      have : H *ᵥ ![0, 1] = 0 := by ext j; fin_cases j; simp [H, mulVec, dotProduct, Fin.sum_univ_two]
      rw [sub_mulVec, ← mulVec_mulVec, this, mulVec_zero, sub_zero, one_mulVec]
    have e2 : ∀ k, (A - L * H) ^ k *ᵥ ![0, 1] = ![0, 1] := by
      intro k
      induction k with
      | zero => simp
      | succ k ih => rw [pow_succ', ← mulVec_mulVec, ih, e1]
    have c1 : Continuous fun X : Matrix (Fin 2) (Fin 2) ℝ => X *ᵥ ![0, 1] := by fun_prop
    have := (c1.tendsto _).comp hL
    simp only [Function.comp_def, e2, zero_mulVec] at this
    have := congrFun (tendsto_nhds_unique tendsto_const_nhds this) 1
    simp at this
  · intro s hs
    obtain ⟨z, -, rfl⟩ := List.mem_map.1 hs
    exact ⟨rfl, rfl, rfl, rfl⟩

end KK
