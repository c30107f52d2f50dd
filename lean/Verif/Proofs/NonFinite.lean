import Verif.Spec.NonFinite
import Verif.Proofs.Layout

/-! # Bad numbers through the array operations and through one step -/

set_option linter.unusedSectionVars false

namespace KK

open Matrix

/-! ### IEEE arithmetic -/

namespace Ieee

theorem bad_iff {x : Ieee} : x.Bad ↔ ∀ r, x ≠ .fin r := by
  cases x <;> simp [Bad, Finite]

theorem neg_bad {x : Ieee} (h : x.Bad) : x.neg.Bad := by
  cases x <;> simp_all [Bad, Finite, neg]

theorem add_bad_left (rnd : ℝ → Ieee) {x : Ieee} (y : Ieee) (h : x.Bad) : (add rnd x y).Bad := by
  cases x <;> cases y <;> simp_all [Bad, Finite, add]

theorem add_bad_right (rnd : ℝ → Ieee) (x : Ieee) {y : Ieee} (h : y.Bad) : (add rnd x y).Bad := by
  cases x <;> cases y <;> simp_all [Bad, Finite, add]

theorem sub_bad_left (rnd : ℝ → Ieee) {x : Ieee} (y : Ieee) (h : x.Bad) : (sub rnd x y).Bad := add_bad_left rnd _ h

theorem sub_bad_right (rnd : ℝ → Ieee) (x : Ieee) {y : Ieee} (h : y.Bad) : (sub rnd x y).Bad := add_bad_right rnd _ (neg_bad h)

theorem signed_bad (s : SignType) : (signed s).Bad := by
  cases s <;> simp [signed, Bad, Finite]

theorem mul_bad_left (rnd : ℝ → Ieee) {x : Ieee} (y : Ieee) (h : x.Bad) : (mul rnd x y).Bad := by
  cases x <;> cases y <;> first | exact absurd trivial h | (rw [mul]; exact signed_bad _; all_goals simp)

theorem mul_bad_right (rnd : ℝ → Ieee) (x : Ieee) {y : Ieee} (h : y.Bad) : (mul rnd x y).Bad := by
  cases x <;> cases y <;> first | exact absurd trivial h | (rw [mul]; exact signed_bad _; all_goals simp)

theorem fma_bad_one (rnd : ℝ → Ieee) {x : Ieee} (y z : Ieee) (h : x.Bad) : (fma rnd x y z).Bad := by
  cases y <;> cases z <;> cases x <;> first
    | exact absurd trivial h
    | (rw [fma]; exact add_bad_left rnd _ h; all_goals simp)
    | (rw [fma]; exact h; all_goals simp)

theorem fma_bad_two (rnd : ℝ → Ieee) (x : Ieee) {y : Ieee} (z : Ieee) (h : y.Bad) : (fma rnd x y z).Bad := by
  cases y <;> cases z <;> cases x <;> first
    | exact absurd trivial h
    | (rw [fma]; exact add_bad_right rnd _ (mul_bad_left rnd _ h); all_goals simp)

theorem fma_bad_three (rnd : ℝ → Ieee) (x y : Ieee) {z : Ieee} (h : z.Bad) : (fma rnd x y z).Bad := by
  cases y <;> cases z <;> cases x <;> first
    | exact absurd trivial h
    | (rw [fma]; exact add_bad_right rnd _ (mul_bad_right rnd _ h); all_goals simp)

theorem msub_bad (rnd : ℝ → Ieee) (fused : Bool) {x : Ieee} (y z : Ieee) (h : x.Bad) : (msub rnd fused x y z).Bad := by
  unfold msub
  split
  · exact fma_bad_one rnd _ _ h
  · exact sub_bad_left rnd _ h

/-- Infinity divided by infinity is NaN. -/
theorem div_bad (rnd : ℝ → Ieee) {x y : Ieee} (hx : x.Bad) (hy : y.Bad) : (div rnd x y).Bad := by
  cases x <;> cases y <;> simp_all [Bad, Finite, div]

end Ieee

theorem SumTree.evalIeee_bad {k : ℕ} (rnd : ℝ → Ieee) (x y : Fin k → Ieee) (l : Fin k) (h : (x l).Bad ∨ (y l).Bad) (t : SumTree k)
    (hl : l ∈ t.indices) : (t.evalIeee rnd x y).Bad := by
  induction t with
  | prod i =>
    simp only [SumTree.indices, List.mem_singleton] at hl
    subst hl
    rcases h with h | h
    · exact Ieee.mul_bad_left rnd _ h
    · exact Ieee.mul_bad_right rnd _ h
  | add s t hs ht =>
    simp only [SumTree.indices, List.mem_append] at hl
    rcases hl with hl | hl
    · exact Ieee.add_bad_left rnd _ (hs hl)
    · exact Ieee.add_bad_right rnd _ (ht hl)
  | fma s i hs =>
    simp only [SumTree.indices, List.mem_cons] at hl
    rcases hl with rfl | hl
    · rcases h with h | h
      · exact Ieee.fma_bad_two rnd _ _ h
      · exact Ieee.fma_bad_three rnd _ _ h
    · exact Ieee.fma_bad_one rnd _ _ (hs hl)

theorem foldl_bad (rnd : ℝ → Ieee) (fused : Bool) (n : ℕ) (f g : Fin n → Ieee) {x : Ieee} (h : x.Bad) :
    (Fin.foldl n (fun acc l => acc.msub rnd fused (f l) (g l)) x).Bad := by
  induction n generalizing x with
  | zero => simpa using h
  | succ n ih =>
    rw [Fin.foldl_succ]
    exact ih _ _ (Ieee.msub_bad rnd fused _ _ h)

theorem gaussIeee_bad (rnd : ℝ → Ieee) (fused : Bool) (pivot : (n : ℕ) → (Fin (n + 1) → Ieee) → Fin (n + 1)) {n k : ℕ}
    (S : Matrix (Fin n) (Fin n) Ieee) (T X : Matrix (Fin n) (Fin k) Ieee) (h : gaussIeee rnd fused pivot S T = some X)
    (hS : ∀ i l, (S i l).Bad) (j : Fin k) (hT : ∀ i, (T i j).Bad) (i : Fin n) : (X i j).Bad := by
  induction n with
  | zero => exact i.elim0
  | succ n ih =>
    rw [gaussIeee] at h
    dsimp only at h
    split at h
    · exact absurd h (by simp)
    · obtain ⟨Y, hY, rfl⟩ := Option.map_eq_some_iff.1 h
      refine Fin.cases ?_ (fun i => ?_) i
      · exact Ieee.div_bad rnd (foldl_bad rnd fused _ _ _ (hT _)) (hS _ _)
      · exact ih _ _ _ hY (fun i l => Ieee.msub_bad rnd fused _ _ (hS _ _)) (fun i => Ieee.msub_bad rnd fused _ _ (hT _)) i

/-- In IEEE arithmetic, whatever the rounding and the order of evaluation, numbers that are not finite absorb. -/
theorem ieee_absorbing (nanInt : ℝ) (a : IeeeUnit) (hv : ∀ m k n i j, ((a.order m k n i j).indices).Perm (List.finRange (k + 1))) :
    @Absorbing Ieee (ieeeB nanInt a) Ieee.Bad :=
  letI := ieeeB nanInt a
  { add_left := fun _ _ h => Ieee.add_bad_left a.rnd _ h
    add_right := fun _ _ h => Ieee.add_bad_right a.rnd _ h
    sub_left := fun _ _ h => Ieee.sub_bad_left a.rnd _ h
    sub_right := fun _ _ h => Ieee.sub_bad_right a.rnd _ h
    gemm_left := by
      intro m k n A B i l j h
      cases k with
      | zero => exact l.elim0
      | succ k => exact SumTree.evalIeee_bad a.rnd _ _ l (.inl h) _ ((hv m k n i j).mem_iff.2 (List.mem_finRange l))
    gemm_right := by
      intro m k n A B i l j h
      cases k with
      | zero => exact l.elim0
      | succ k => exact SumTree.evalIeee_bad a.rnd _ _ l (.inr h) _ ((hv m k n i j).mem_iff.2 (List.mem_finRange l))
    solve := fun S T X h hS j hT i => gaussIeee_bad a.rnd a.fused a.pivot S T X h hS j hT i }

/-! ### matrices -/

variable {F : Type} [Backend F] {bad : F → Prop}

section
variable (ab : Absorbing bad) {n m : ℕ}
include ab

/-- A bad entry of the covariance spoils the whole predicted covariance. -/
theorem prior_of_cov {A P Q : Matrix (Fin n) (Fin n) F} (h : ∃ i j, bad (P i j)) (i j : Fin n) :
    bad (Arr.mAdd (Backend.gemm A (Backend.gemm P Aᵀ)) Q i j) := by
  obtain ⟨l, c, h⟩ := h
  exact ab.add_left _ _ (ab.gemm_right _ _ i l j (ab.gemm_left _ _ l c j h))

/-- A bad entry of the transition matrix spoils a row of the predicted covariance. -/
theorem prior_of_trans {A P Q : Matrix (Fin n) (Fin n) F} {i l : Fin n} (h : bad (A i l)) (j : Fin n) :
    bad (Arr.mAdd (Backend.gemm A (Backend.gemm P Aᵀ)) Q i j) :=
  ab.add_left _ _ (ab.gemm_left _ _ i l j h)

/-- A bad entry of the predicted covariance spoils a row of the gain. -/
theorem gain_of_prior {H : Matrix (Fin m) (Fin n) F} {P : Matrix (Fin n) (Fin n) F} {R : Matrix (Fin m) (Fin m) F}
    {X : Matrix (Fin m) (Fin n) F} (hX : Backend.solve (Arr.mAdd (Backend.gemm H (Backend.gemm P Hᵀ)) R)ᵀ (Backend.gemm H Pᵀ) = some X)
    {i j : Fin n} (h : bad (P i j)) (l : Fin m) : bad (X l i) := by
  refine ab.solve _ _ _ hX (fun a b => ?_) i (fun a => ?_) l
  · exact ab.add_left _ _ (ab.gemm_right _ _ b i a (ab.gemm_left _ _ i j a h))
  · exact ab.gemm_right _ _ a j i h

/-- A bad entry of the predicted covariance spoils a column of the corrected one. -/
theorem post_of_prior (M P : Matrix (Fin n) (Fin n) F) {i j : Fin n} (h : bad (P i j)) (l : Fin n) : bad (Backend.gemm M P l j) :=
  ab.gemm_right _ _ l i j h

/-- A bad entry of the observation matrix spoils the whole corrected covariance. -/
theorem post_of_obs (I P : Matrix (Fin n) (Fin n) F) (K : Matrix (Fin n) (Fin m) F) {H : Matrix (Fin m) (Fin n) F} {i : Fin m} {l : Fin n}
    (h : bad (H i l)) (a b : Fin n) : bad (Backend.gemm (Arr.mSub I (Backend.gemm K H)) P a b) :=
  ab.gemm_left _ _ a l b (ab.sub_right _ _ (ab.gemm_right _ _ a i l h))

end

/-! ### the shape of a step -/

/-- A noise covariance (matrix or scalar), seen as a matrix. -/
theorem add_noise_eq {n : ℕ} (d : DType) (M : Matrix (Fin n) (Fin n) F) {Q : Arr F} (h : Q.shape = [n, n] ∨ Q.shape = []) :
    ∃ (e : DType) (N : Matrix (Fin n) (Fin n) F), (Arr.mat d M).add Q = .ok (.mat e (Arr.mAdd M N)) ∧
      (0 < n → ∀ bad : F → Prop, Q.Any bad → ∃ i j, bad (N i j)) := by
  rcases h with h | h
  · obtain ⟨d', N, rfl⟩ := Arr.eq_mat h
    exact ⟨_, N, Arr.add_mm _ _ _ _, fun _ _ h => h⟩
  · obtain ⟨d', y, rfl⟩ := Arr.eq_scalar h
    exact ⟨_, fun _ _ => y, Arr.add_ms _ _ _ _, fun hn _ h => ⟨⟨0, hn⟩, ⟨0, hn⟩, h⟩⟩

/-- An observation (vector or scalar), seen as a vector. -/
theorem sub_obs_eq {m : ℕ} {z : Arr F} (d : DType) (y : Fin m → F) (hz : z.shape = [m] ∨ z.shape = []) :
    ∃ (e : DType) (w : Fin m → F), z.sub (.vec d y) = .ok (.vec e fun i => Backend.sub (w i) (y i)) ∧
      (0 < m → ∀ bad : F → Prop, z.Any bad → ∃ i, bad (w i)) := by
  rcases hz with hz | hz
  · obtain ⟨dz, z, rfl⟩ := Arr.eq_vec hz
    exact ⟨_, z, Arr.sub_vv _ _ _ _, fun _ _ h => h⟩
  · obtain ⟨dz, z, rfl⟩ := Arr.eq_scalar hz
    exact ⟨_, fun _ => z, Arr.sub_sv _ _ _ _, fun hm _ h => ⟨⟨0, hm⟩, h⟩⟩

/-- What a successful step of either filter computes from its prediction `xp`, `Pp`. -/
structure UpdateForm (n m : ℕ) (H : Matrix (Fin m) (Fin n) F) (xp : Fin n → F) (Pp : Matrix (Fin n) (Fin n) F) (r : Fin m → F)
    (X : Matrix (Fin m) (Fin n) F) (K : Arr F) (o : Arr F × Arr F) : Prop where
  gain : ∃ R, Backend.solve (Arr.mAdd (Backend.gemm H (Backend.gemm Pp Hᵀ)) R)ᵀ (Backend.gemm H Ppᵀ) = some X
  K : K = .mat .float64 Xᵀ
  x : o.1 = .vec .float64 fun i => Backend.add (xp i) (Backend.gemm (n := 1) Xᵀ (fun i _ => r i) i 0)
  P : ∃ I, o.2 = .mat .float64 (Backend.gemm (Arr.mSub I (Backend.gemm Xᵀ H)) Pp)

namespace UpdateForm
variable (ab : Absorbing bad) {n m : ℕ} {H : Matrix (Fin m) (Fin n) F} {xp : Fin n → F} {Pp : Matrix (Fin n) (Fin n) F} {r : Fin m → F}
  {X : Matrix (Fin m) (Fin n) F} {K : Arr F} {o : Arr F × Arr F} (u : UpdateForm n m H xp Pp r X K o)
include ab u

/-- A bad residual spoils the whole mean. -/
theorem mean_of_residual (h : ∃ i, bad (r i)) : o.1.Every bad := by
  obtain ⟨l, h⟩ := h
  rw [u.x]
  exact fun i => ab.add_right _ _ (ab.gemm_right _ _ i l 0 h)

theorem all_of_prior (hm : 0 < m) (h : ∀ i j, bad (Pp i j)) : o.1.Every bad ∧ o.2.Every bad ∧ K.Every bad := by
  obtain ⟨R, hX⟩ := u.gain
  have hb : ∀ l i, bad (X l i) := fun l i => gain_of_prior ab hX (h i i) l
  refine ⟨?_, ?_, ?_⟩
  · rw [u.x]
    exact fun i => ab.add_right _ _ (ab.gemm_left _ _ i ⟨0, hm⟩ 0 (hb _ _))
  · obtain ⟨I, hP⟩ := u.P
    rw [hP]
    exact fun i j => ab.gemm_right _ _ i j j (h j j)
  · rw [u.K]
    exact fun i l => hb l i

theorem some_of_prior (hm : 0 < m) (h : ∃ i j, bad (Pp i j)) : o.1.Any bad ∧ o.2.Any bad ∧ K.Any bad := by
  obtain ⟨R, hX⟩ := u.gain
  obtain ⟨i, j, h⟩ := h
  have hb : ∀ l, bad (X l i) := fun l => gain_of_prior ab hX h l
  refine ⟨?_, ?_, ?_⟩
  · rw [u.x]
    exact ⟨i, ab.add_right _ _ (ab.gemm_left _ _ i ⟨0, hm⟩ 0 (hb _))⟩
  · obtain ⟨I, hP⟩ := u.P
    rw [hP]
    exact ⟨i, j, ab.gemm_right _ _ i i j h⟩
  · rw [u.K]
    exact ⟨i, ⟨0, hm⟩, hb _⟩

theorem cov_of_row {i : Fin n} (h : ∀ j, bad (Pp i j)) : o.2.Every bad := by
  obtain ⟨I, hP⟩ := u.P
  rw [hP]
  exact fun a j => ab.gemm_right _ _ a i j (h j)

theorem cov_of_obs {i : Fin m} {l : Fin n} (h : bad (H i l)) : o.2.Every bad := by
  obtain ⟨I, hP⟩ := u.P
  rw [hP]
  exact fun a b => post_of_obs ab _ _ _ h a b

end UpdateForm

namespace KalmanFilter

/-- What a successful step of the standard filter computes. -/
theorem step_form {n m : ℕ} {Ak Hk Bk uk zk Qk Rk : Arr F} {x P : Arr F} (h : RowLayout n m Ak Hk Bk uk zk Qk Rk) (hs : Shaped n x P) (g xP o)
    (hr : step n (Arr.identity n) (Ak, Hk, Bk, uk, zk, Qk, Rk) x P = (g, .ok (xP, o))) :
    ∃ (dA : DType) (A : Matrix (Fin n) (Fin n) F) (dH : DType) (H : Matrix (Fin m) (Fin n) F) (dx : DType) (x₀ : Fin n → F) (dP : DType)
      (P₀ Q : Matrix (Fin n) (Fin n) F) (xp : Fin n → F) (w : Fin m → F) (X : Matrix (Fin m) (Fin n) F) (K : Arr F),
      Ak = .mat dA A ∧ Hk = .mat dH H ∧ x = .vec dx x₀ ∧ P = .mat dP P₀ ∧
      (0 < n → ∀ bad : F → Prop, Qk.Any bad → ∃ i j, bad (Q i j)) ∧ (0 < m → ∀ bad : F → Prop, zk.Any bad → ∃ i, bad (w i)) ∧
      (((Bk.Blank ∨ uk.Blank) ∧ ∀ i, xp i = Backend.gemm (n := 1) A (fun i _ => x₀ i) i 0) ∨
        (¬ (Bk.Blank ∨ uk.Blank) ∧ ∃ (p : ℕ) (dB : DType) (B : Matrix (Fin n) (Fin p) F) (du : DType) (u : Fin p → F), Bk = .mat dB B ∧ uk = .vec du u ∧
          ∀ i, xp i = Backend.add (Backend.gemm (n := 1) A (fun i _ => x₀ i) i 0) (Backend.gemm (n := 1) B (fun i _ => u i) i 0))) ∧
      g = some K ∧ o = xP ∧
      UpdateForm n m H xp (Arr.mAdd (Backend.gemm A (Backend.gemm P₀ Aᵀ)) Q)
        (fun i => Backend.sub (w i) (Backend.gemm (n := 1) H (fun i _ => xp i) i 0)) X K xP := by
  obtain ⟨dA, A, rfl⟩ := Arr.eq_mat h.A
  obtain ⟨dH, H, rfl⟩ := Arr.eq_mat h.H
  obtain ⟨dx, x₀, rfl⟩ := Arr.eq_vec hs.1
  obtain ⟨dP, P₀, rfl⟩ := Arr.eq_mat hs.2
  obtain ⟨e, Q, hQ, hQb⟩ := add_noise_eq (dA.promote (dP.promote dA)) (Backend.gemm A (Backend.gemm P₀ A.transpose)) h.Q
  -- the prediction
  obtain ⟨dp, xp, hxp, hpred⟩ : ∃ (dp : DType) (xp : Fin n → F),
      (((Bk.Blank ∨ uk.Blank) ∧ ∀ i, xp i = Backend.gemm (n := 1) A (fun i _ => x₀ i) i 0) ∨
        (¬ (Bk.Blank ∨ uk.Blank) ∧ ∃ (p : ℕ) (dB : DType) (B : Matrix (Fin n) (Fin p) F) (du : DType) (u : Fin p → F), Bk = .mat dB B ∧ uk = .vec du u ∧
          ∀ i, xp i = Backend.add (Backend.gemm (n := 1) A (fun i _ => x₀ i) i 0) (Backend.gemm (n := 1) B (fun i _ => u i) i 0))) ∧
      predict (.mat dA A) (.vec dx x₀) (some Bk) (some uk) (.mat dP P₀) Qk =
        .ok (.vec dp xp, .mat e (Arr.mAdd (Backend.gemm A (Backend.gemm P₀ Aᵀ)) Q)) := by
    rcases hb : (Bk.isnanAll || uk.isnanAll) with _ | _
    · rw [predict_ctrl hb]
      simp only [Bool.or_eq_false_iff] at hb
      have hB' := (Arr.isnanAll_false_iff _).1 hb.1
      have hu' := (Arr.isnanAll_false_iff _).1 hb.2
      rcases h.control with hc | hc | ⟨p, hB, hu⟩
      · exact absurd hc hB'
      · exact absurd hc hu'
      · obtain ⟨dB, B, rfl⟩ := Arr.eq_mat hB
        obtain ⟨du, u, rfl⟩ := Arr.eq_vec hu
        simp only [Arr.T_mat, Arr.matmul_mm, hQ, Arr.matmul_mv, Except.bind_ok', Arr.add_vv]
        exact ⟨_, _, .inr ⟨by tauto, p, dB, B, du, u, rfl, rfl, fun _ => rfl⟩, rfl⟩
    · rw [predict_skip hb]
      simp only [Arr.T_mat, Arr.matmul_mm, hQ, Arr.matmul_mv, Except.bind_ok']
      refine ⟨_, _, .inl ⟨?_, fun _ => rfl⟩, rfl⟩
      rw [Bool.or_eq_true] at hb
      exact hb.imp (Arr.isnanAll_iff_blank _).1 (Arr.isnanAll_iff_blank _).1
  obtain ⟨eR, R, hR, -⟩ := add_noise_eq (dH.promote (e.promote dH))
    (Backend.gemm H (Backend.gemm (Arr.mAdd (Backend.gemm A (Backend.gemm P₀ Aᵀ)) Q) H.transpose)) h.R
  obtain ⟨ew, w, hw, hwb⟩ := sub_obs_eq (dH.promote dp) (fun i => Backend.gemm (n := 1) H (fun i _ => xp i) i 0) h.z
  simp only [step, hpred, gain, Arr.T_mat, Arr.matmul_mm, hR, Except.bind_ok', Arr.solve_mm] at hr
  rcases hX : Backend.solve (Arr.mAdd (Backend.gemm H (Backend.gemm (Arr.mAdd (Backend.gemm A (Backend.gemm P₀ Aᵀ)) Q) H.transpose)) R)ᵀ
    (Backend.gemm H (Arr.mAdd (Backend.gemm A (Backend.gemm P₀ Aᵀ)) Q)ᵀ) with _ | X
  · simp [hX] at hr
  simp only [hX, Except.bind_ok', Arr.T_mat, correct, Arr.matmul_mv, Arr.matmul_mm, hw, Arr.atleast1d_vec, Arr.add_vv, identity_eq, Arr.sub_mm,
    Arr.promote_float_left, Arr.promote_float_right, Arr.assignVec_vec, Arr.assignMat_mat, Prod.mk.injEq, Except.ok.injEq] at hr
  obtain ⟨rfl, rfl, rfl⟩ := hr
  exact ⟨dA, A, dH, H, dx, x₀, dP, P₀, Q, xp, w, X, _, rfl, rfl, rfl, rfl, hQb, hwb, hxp, rfl, rfl, ⟨_, hX⟩, rfl, rfl, _, rfl⟩

end KalmanFilter

/-- An observation minus a predicted observation, either of which may be a scalar. -/
theorem sub_ext_eq {m : ℕ} {z y : Arr F} (hz : z.shape = [m] ∨ z.shape = []) (hy : y.shape = [m] ∨ m = 1 ∧ y.shape = []) :
    ∃ (r : Arr F) (d : DType) (v : Fin m → F), z.sub y = .ok r ∧ r.atleast1d = .vec d v ∧
      (0 < m → ∀ bad : F → Prop, Absorbing bad → z.Any bad ∨ y.Any bad → ∃ i, bad (v i)) := by
  rcases hy with hy | ⟨rfl, hy⟩
  · obtain ⟨dy, y, rfl⟩ := Arr.eq_vec hy
    obtain ⟨e, w, h, hb⟩ := sub_obs_eq dy y hz
    refine ⟨_, _, _, h, rfl, fun hm bad ab hor => ?_⟩
    rcases hor with hor | ⟨i, hi⟩
    · obtain ⟨i, hi⟩ := hb hm bad hor
      exact ⟨i, ab.sub_left _ _ hi⟩
    · exact ⟨i, ab.sub_right _ _ hi⟩
  · obtain ⟨dy, y, rfl⟩ := Arr.eq_scalar hy
    rcases hz with hz | hz
    · obtain ⟨dz, z, rfl⟩ := Arr.eq_vec hz
      refine ⟨_, _, _, Arr.sub_vs _ _ _ _, rfl, fun hm bad ab hor => ?_⟩
      rcases hor with ⟨i, hi⟩ | hor
      · exact ⟨i, ab.sub_left _ _ hi⟩
      · exact ⟨0, ab.sub_right _ _ hor⟩
    · obtain ⟨dz, z, rfl⟩ := Arr.eq_scalar hz
      refine ⟨_, _, _, Arr.sub_ss _ _ _ _, rfl, fun hm bad ab hor => ?_⟩
      rcases hor with hi | hor
      · exact ⟨0, ab.sub_left _ _ hi⟩
      · exact ⟨0, ab.sub_right _ _ hor⟩

namespace ExtendedKalmanFilter

open KalmanFilter (Shaped)

/-- What a successful step of the extended filter computes. -/
theorem step_form {n m : ℕ} {kf : ExtendedKalmanFilter F} {Z : NDArray F} {U : Option (NDArray F)} (hl : ExtLayout n m kf Z U)
    {uk zk Qk Rk x P : Arr F} (hz : zk.shape = [m] ∨ zk.shape = []) (hQ : Qk.shape = [n, n] ∨ Qk.shape = [])
    (hR : Rk.shape = [m, m] ∨ Rk.shape = []) (hs : Shaped n x P) (g xP o) (hr : step kf (uk, zk, Qk, Rk) x P = (g, .ok (xP, o))) :
    ∃ (dA : DType) (A : Matrix (Fin n) (Fin n) F) (dH : DType) (H : Matrix (Fin m) (Fin n) F) (dp : DType) (xp : Fin n → F) (dP : DType)
      (P₀ Q : Matrix (Fin n) (Fin n) F) (y : Arr F) (r : Fin m → F) (X : Matrix (Fin m) (Fin n) F) (K : Arr F),
      kf.jacobianA x (some uk) = .ok (.mat dA A) ∧ kf.f x (some uk) = .ok (.vec dp xp) ∧ kf.jacobianH (.vec dp xp) = .ok (.mat dH H) ∧
      kf.h (.vec dp xp) = .ok y ∧ P = .mat dP P₀ ∧ (0 < n → ∀ bad : F → Prop, Qk.Any bad → ∃ i j, bad (Q i j)) ∧
      (0 < m → ∀ bad : F → Prop, Absorbing bad → zk.Any bad ∨ y.Any bad → ∃ i, bad (r i)) ∧ g = some K ∧ o = xP ∧
      UpdateForm n m H xp (Arr.mAdd (Backend.gemm A (Backend.gemm P₀ Aᵀ)) Q) r X K xP := by
  obtain ⟨hx, hP⟩ := hs
  simp only [step, predict] at hr
  rcases hA : kf.jacobianA x (some uk) with e | Ak; · simp [hA] at hr
  obtain ⟨dA, A, rfl⟩ := Arr.eq_mat (hl.jA _ _ _ hx hA)
  obtain ⟨dP, P, rfl⟩ := Arr.eq_mat hP
  simp only [hA, Except.bind_ok'] at hr
  rcases hf : kf.f x (some uk) with e | xp; · simp [hf] at hr
  have hxp := hl.f _ _ _ hx hf
  obtain ⟨e, Q, hPp, hQb⟩ := add_noise_eq (dA.promote (dP.promote dA)) (Backend.gemm A (Backend.gemm P A.transpose)) hQ
  simp only [hf, Except.bind_ok', Arr.T_mat, Arr.matmul_mm, hPp] at hr
  rcases hH : kf.jacobianH xp with e' | Hk; · simp [hH] at hr
  obtain ⟨dH, H, rfl⟩ := Arr.eq_mat (hl.jH _ _ hxp hH)
  obtain ⟨dx, xp, rfl⟩ := Arr.eq_vec hxp
  obtain ⟨eR, R, hR, -⟩ := add_noise_eq (dH.promote (e.promote dH))
    (Backend.gemm H (Backend.gemm (Arr.mAdd (Backend.gemm A (Backend.gemm P Aᵀ)) Q) H.transpose)) hR
  simp only [hH, gain, Arr.T_mat, Arr.matmul_mm, hR, Except.bind_ok', Arr.solve_mm] at hr
  rcases hX : Backend.solve (Arr.mAdd (Backend.gemm H (Backend.gemm (Arr.mAdd (Backend.gemm A (Backend.gemm P Aᵀ)) Q) H.transpose)) R)ᵀ
    (Backend.gemm H (Arr.mAdd (Backend.gemm A (Backend.gemm P Aᵀ)) Q)ᵀ) with _ | X
  · simp [hX] at hr
  simp only [hX, Except.bind_ok', Arr.T_mat, correct] at hr
  rcases hh : kf.h (.vec dx xp) with e' | y; · simp [hh] at hr
  obtain ⟨res, d, v, hv, hv', hb⟩ := sub_ext_eq hz (hl.h _ _ hxp hh)
  simp only [hh, Except.bind_ok', hv, hv', Arr.matmul_mv, Arr.add_vv, Arr.matmul_mm, hl.ident, identity_eq, Arr.sub_mm,
    Arr.promote_float_left, Arr.promote_float_right, hl.size, Arr.assignVec_vec, Arr.assignMat_mat, Prod.mk.injEq, Except.ok.injEq] at hr
  obtain ⟨rfl, rfl, rfl⟩ := hr
  exact ⟨dA, A, dH, H, dx, xp, dP, P, Q, y, v, X, _, rfl, rfl, hH, hh, rfl, hQb, hb, rfl, rfl, ⟨_, hX⟩, rfl, rfl, _, rfl⟩

end ExtendedKalmanFilter

/-! ### the state before and after each step of a run -/

/-- In a run without exception whose steps keep an invariant and hand on what they return, step `k` starts from the rows written by
step `k - 1` (or from the initial state). -/
theorem trace_at {ρ : Type} {step : ρ → Arr F → Arr F → StepOut F} {Inv : Arr F → Arr F → Prop} (rs : List ρ)
    (hk : ∀ r ∈ rs, ∀ x P g xP o, Inv x P → step r x P = (g, .ok (xP, o)) → o = xP ∧ Inv xP.1 xP.2 ∧ ∃ K, g = some K)
    (x₀ P₀ : Arr F) (h₀ : Inv x₀ P₀) (he : (trace step rs x₀ P₀).err = none) (k : ℕ) (hlt : k < rs.length) :
    ∃ r x P K o, rs[k]? = some r ∧ Inv x P ∧ step r x P = (some K, .ok (o, o)) ∧ (trace step rs x₀ P₀).outs[k]? = some o ∧
      (trace step rs x₀ P₀).gains[k]? = some K ∧ (k = 0 → x = x₀ ∧ P = P₀) ∧
      ∀ k', k = k' + 1 → (trace step rs x₀ P₀).outs[k']? = some (x, P) := by
  induction rs generalizing x₀ P₀ k with
  | nil => simp at hlt
  | cons r rs ih =>
    simp only [trace] at he ⊢
    rcases hr : step r x₀ P₀ with ⟨g, e | ⟨xP, out⟩⟩
    · simp [hr] at he
    simp only [hr] at he ⊢
    obtain ⟨rfl, hinv, K, rfl⟩ := hk r (by simp) _ _ _ _ _ h₀ hr
    cases k with
    | zero => exact ⟨r, x₀, P₀, K, out, rfl, h₀, hr, rfl, rfl, fun _ => ⟨rfl, rfl⟩, fun k' h => by omega⟩
    | succ k =>
      obtain ⟨r', x, P, K', o, h1, h2, h3, h4, h5, h6, h7⟩ := ih (fun r' hr' => hk r' (by simp [hr'])) _ _ hinv he k (by simpa using hlt)
      refine ⟨r', x, P, K', o, by simpa using h1, h2, h3, by simpa using h4, by simpa using h5, by simp, fun k' hk' => ?_⟩
      obtain rfl : k = k' := by omega
      cases k with
      | zero =>
        obtain ⟨rfl, rfl⟩ := h6 rfl
        rfl
      | succ k => simpa using h7 k rfl

end KK
