import Verif.Proofs.Runs
import Verif.Proofs.Layout
import Verif.Props.Nan

/-!
# C17, C18: wrong `state_size`, column-vector initial states
-/

namespace KK

variable {F : Type} [Backend F]

/-- If the first processed step raises, so do `filter` and `smooth`. -/
theorem KalmanFilter.first_step_raises {kf : KalmanFilter F} {Z : NDArray F} {U : Option (NDArray F)}
    (hi : kf.AllIterable Z U) (hst : 0 < kf.steps Z U) (p : PyErr → Prop)
    (h : ∀ r ∈ kf.zrows Z U, ∃ g e, KalmanFilter.step kf.stateSize kf.I r kf.xk kf.Pk = (g, .error e) ∧ p e) :
    ∃ e kf', p e ∧ (KalmanFilter.filter Z U).run kf = (.error e, kf') ∧
      (KalmanFilter.smooth Z U).run kf = (.error e, kf') := by
  rw [← KalmanFilter.zrows_length] at hst
  obtain ⟨r, rs, hrs⟩ : ∃ r rs, kf.zrows Z U = r :: rs := by
    cases h : kf.zrows Z U with
    | nil => simp [h] at hst
    | cons r rs => exact ⟨r, rs, rfl⟩
  obtain ⟨g, e, he, hp⟩ := h r (by simp [hrs])
  have herr : (kf.tr Z U).err = some e := by
    simp only [KalmanFilter.tr, hrs, trace, he]
  have hf : (KalmanFilter.filter Z U).run kf = (.error e, kf.addGains (kf.tr Z U).gains) := by
    rw [KalmanFilter.filter_iter hi]; simp only [herr]
  refine ⟨e, _, hp, hf, ?_⟩
  simp only [KalmanFilter.smooth, Py.run_bind, hf]

namespace Arr

theorem stretch_ne {α : Type} {n d : ℕ} (v : Fin n → α) (h : n ≠ d) (h1 : n ≠ 1) :
    stretch d v = .error .valueError := by
  simp [stretch, h, h1]

theorem zipWith_mat_left (f : F → F → F) {m n : ℕ} (d : DType) (M : Matrix (Fin m) (Fin n) F) (b : Arr F) :
    zipWith f (.mat d M) b = zipWith2 f (.mat d M) b := by
  cases b <;> rfl

theorem zipWith_mat_right (f : F → F → F) {m n : ℕ} (d : DType) (M : Matrix (Fin m) (Fin n) F) (b : Arr F) :
    zipWith f b (.mat d M) = zipWith2 f b (.mat d M) := by
  cases b <;> rfl

/-- An elementwise operation with a rank-2 result raises ValueError or yields a matrix whose sizes are
the broadcast sizes. -/
theorem zipWith2_rows (f : F → F → F) (a b : Arr F) :
    zipWith2 f a b = .error .valueError ∨
    ∃ r c d, ∃ M : Matrix (Fin r) (Fin c) F, bdim a.dims2.1 b.dims2.1 = .ok r ∧
      bdim a.dims2.2 b.dims2.2 = .ok c ∧ zipWith2 f a b = .ok (.mat d M) := by
  rcases h : zipWith2 f a b with e | x
  · left; rw [zipWith2_error h]
  · right
    unfold zipWith2 at h
    rcases h1 : bdim a.dims2.1 b.dims2.1 with e | r
    · simp only [h1, Except.bind_error', reduceCtorEq] at h
    rcases h2 : bdim a.dims2.2 b.dims2.2 with e | c
    · simp only [h1, h2, Except.bind_ok', Except.bind_error', reduceCtorEq] at h
    simp only [h1, h2, Except.bind_ok'] at h
    rcases h3 : a.toMat r c with e | A
    · simp only [h3, Except.bind_error', reduceCtorEq] at h
    rcases h4 : b.toMat r c with e | B
    · simp only [h3, h4, Except.bind_ok', Except.bind_error', reduceCtorEq] at h
    simp only [h3, h4, Except.bind_ok', Except.ok.injEq] at h
    subst h
    exact ⟨r, c, _, _, rfl, rfl, rfl⟩

theorem bdim_eq {a b c : ℕ} (h : bdim a b = .ok c) : (a = c ∨ a = 1) ∧ (b = c ∨ b = 1) := by
  unfold bdim at h
  split at h
  · simp_all
  · split at h
    · simp_all
    · split at h
      · simp_all
      · simp at h

/-- Combining something with `n` rows with something that has `n` or 1 rows. -/
theorem zipWith_nrows (f : F → F → F) {a b : Arr F} {n : ℕ}
    (h : (∃ c, a.shape = [n, c]) ∧ (b.dims2.1 = n ∨ b.dims2.1 = 1) ∨
      (∃ c, b.shape = [n, c]) ∧ (a.dims2.1 = n ∨ a.dims2.1 = 1)) :
    zipWith f a b = .error .valueError ∨
    ∃ c d, ∃ M : Matrix (Fin n) (Fin c) F, zipWith f a b = .ok (.mat d M) := by
  have key : zipWith f a b = zipWith2 f a b ∧ bdim a.dims2.1 b.dims2.1 = .ok n := by
    rcases h with ⟨⟨c, hc⟩, h⟩ | ⟨⟨c, hc⟩, h⟩
    · obtain ⟨d, M, rfl⟩ := eq_mat hc
      refine ⟨zipWith_mat_left _ _ _ _, ?_⟩
      rcases h with h | h <;> rw [h] <;> simp [dims2]
    · obtain ⟨d, M, rfl⟩ := eq_mat hc
      refine ⟨zipWith_mat_right _ _ _ _, ?_⟩
      rcases h with h | h <;> rw [h] <;> simp [dims2]
  rw [key.1]
  rcases zipWith2_rows f a b with h | ⟨r, c, d, M, h1, h2, h3⟩
  · exact .inl h
  · rw [key.2] at h1
    simp only [Except.ok.injEq] at h1
    subst h1
    exact .inr ⟨c, d, M, h3⟩

end Arr

/-! ## C17 -/

theorem KalmanFilter.step_wrong_size {n m s : ℕ} {r : KalmanFilter.Row F} {x P : Arr F}
    (h : RowLayout n m r.1 r.2.1 r.2.2.1 r.2.2.2.1 r.2.2.2.2.1 r.2.2.2.2.2.1 r.2.2.2.2.2.2)
    (hx : x.shape = [n]) (hP : P.shape = [n, n]) (hs : s ≠ n) :
    ∃ g e, KalmanFilter.step s (Arr.identity s) r x P = (g, .error e) ∧
      (e = .valueError ∨ e = .linAlgError) := by
  obtain ⟨Ak, Hk, Bk, uk, zk, Qk, Rk⟩ := r
  simp only at h
  obtain ⟨d, xp, e, Pp, hp⟩ := KalmanFilter.predict_layout h hx hP
  simp only [KalmanFilter.step, hp]
  rcases gain_layout (P := .mat e Pp) h.H rfl h.R with hg | ⟨K, hg⟩
  · exact ⟨none, _, by simp only [hg], .inr rfl⟩
  · simp only [hg]
    refine ⟨_, .valueError, Prod.ext rfl ?_, .inl rfl⟩
    obtain ⟨dH, H, hH⟩ := Arr.eq_mat h.H
    subst hH
    simp only [KalmanFilter.correct, Arr.matmul_mv, Except.bind_ok']
    obtain ⟨d', v, hv⟩ := residual_layout (y := .vec (dH.promote d) fun i =>
      Backend.gemm (n := 1) H (fun i _ => xp i) i 0) h.z rfl
    rw [hv]
    simp only [Except.bind_ok', Arr.atleast1d_vec, Arr.matmul_mv, Arr.add_vv, Arr.matmul_mm,
      identity_eq]
    simp only [Arr.sub, Arr.zipWith_mat_left]
    rcases Arr.zipWith2_rows Backend.sub (Arr.mat .float64 (idM s : Matrix _ _ F))
      (.mat (DType.promote .float64 dH) (Backend.gemm K H)) with h0 | ⟨r, c, d2, M, h1, h2, h3⟩
    · simp only [h0, Except.bind_error']
    · simp only [Arr.dims2] at h1 h2
      rw [h1] at h2
      simp only [Except.ok.injEq] at h2
      subst h2
      simp only [h3, Except.bind_ok', Arr.matmul]
      obtain ⟨h4, h5⟩ := Arr.bdim_eq h1
      by_cases hr : r = n
      · simp only [hr, dite_true, Except.bind_ok']
        have hs1 : s = 1 := by omega
        subst hs1
        simp only [Arr.assignVec]
        rw [Arr.stretch_ne _ (by omega) (by omega)]
        rfl
      · simp only [hr, dite_false, Except.bind_error']

/-- C17: whenever the model is well shaped with the default `state_size`, an explicit non-zero
`state_size` different from the dimension makes `filter` and `smooth` raise ValueError or LinAlgError on
non-empty data, whatever the wrong size is (negative sizes do not get that far: `C17_default_state_size`). -/
theorem C17_wrong_state_size (A : NDArray F) (x : Arr F) (B : Option (NDArray F)) (P : Arr F)
    (H Q R : NDArray F) (kf0 kf : KalmanFilter F) (n m : ℕ) (s : ℤ) (Z : NDArray F) (U : Option (NDArray F))
    (h0 : KalmanFilter.new A x B P H Q R none = .ok kf0) (hl : Layout n m kf0 Z U)
    (hs : s ≠ n) (hs0 : s ≠ 0) (hkf : KalmanFilter.new A x B P H Q R (some s) = .ok kf)
    (hi : kf0.AllIterable Z U) (hst : 0 < kf0.steps Z U) :
    ∃ e kf', (e = .valueError ∨ e = .linAlgError) ∧
      (KalmanFilter.filter Z U).run kf = (.error e, kf') ∧
      (KalmanFilter.smooth Z U).run kf = (.error e, kf') := by
  obtain ⟨t, rfl⟩ : ∃ t : ℕ, s = Int.ofNat (t + 1) := by
    rcases s with (_ | t) | t
    · exact absurd rfl hs0
    · exact ⟨t, rfl⟩
    · simp [KalmanFilter.new] at hkf
  have hkf' : kf = { kf0 with stateSize := t + 1, I := Arr.identity (t + 1) } := by
    simp only [KalmanFilter.new] at h0 hkf
    rcases hx : x.shape with _ | ⟨n', _⟩
    · simp [hx] at h0
    · simp only [hx, Except.bind_ok', Except.ok.injEq] at h0 hkf
      rw [← h0, ← hkf]
  subst hkf'
  refine KalmanFilter.first_step_raises
    (kf := { kf0 with stateSize := t + 1, I := Arr.identity (t + 1) }) ⟨hi.A, hi.H, hi.B, hi.U, hi.Z, hi.Q, hi.R⟩ hst _ ?_
  intro r hr
  exact KalmanFilter.step_wrong_size (KalmanFilter.mem_zrows hl r hr) hl.x hl.P fun h => hs (by rw [← h]; rfl)

/-- C17, defaulting: `None` and `0` both mean `xk.shape[0]`, a positive value is taken as is, a negative one makes the
constructor raise ValueError. -/
theorem C17_default_state_size (A : NDArray F) (x : Arr F) (B : Option (NDArray F)) (P : Arr F)
    (H Q R : NDArray F) :
    KalmanFilter.new A x B P H Q R none = KalmanFilter.new A x B P H Q R (some 0) ∧
    (∀ n rest, x.shape = n :: rest → ∃ kf, KalmanFilter.new A x B P H Q R none = .ok kf ∧
      kf.stateSize = n) ∧
    (∀ s : ℤ, 0 < s → ∃ kf, KalmanFilter.new A x B P H Q R (some s) = .ok kf ∧ kf.stateSize = s) ∧
    (∀ s : ℤ, s < 0 → KalmanFilter.new A x B P H Q R (some s) = .error .valueError) := by
  refine ⟨rfl, fun n rest h => ?_, fun s hs => ?_, fun s hs => ?_⟩
  · simp only [KalmanFilter.new, h, Except.bind_ok']
    exact ⟨_, rfl, rfl⟩
  · obtain ⟨t, rfl⟩ := Int.eq_succ_of_zero_lt hs
    exact ⟨_, rfl, rfl⟩
  · obtain ⟨t, rfl⟩ := Int.eq_negSucc_of_lt_zero hs
    rfl

-- The hypotheses of C17 are met by the constant-velocity model with `state_size=1`.
example : ∃ kf0 kf, KalmanFilter.new (Ex.cv 3).A (Ex.cv 3).xk (some (Ex.cv 3).B) (Ex.cv 3).Pk (Ex.cv 3).H
      (Ex.cv 3).Q (Ex.cv 3).R none = .ok kf0 ∧
    Layout 2 1 kf0 (.stack ([some 1, some 2].map Ex.vec1)) (some (.stack ([some 1, some 2].map Ex.vec1))) ∧
    KalmanFilter.new (Ex.cv 3).A (Ex.cv 3).xk (some (Ex.cv 3).B) (Ex.cv 3).Pk (Ex.cv 3).H
      (Ex.cv 3).Q (Ex.cv 3).R (some 1) = .ok kf ∧
    kf0.AllIterable (.stack ([some 1, some 2].map Ex.vec1)) (some (.stack ([some 1, some 2].map Ex.vec1))) ∧
    0 < kf0.steps (.stack ([some 1, some 2].map Ex.vec1)) (some (.stack ([some 1, some 2].map Ex.vec1))) :=
  ⟨Ex.cv 3, _, rfl, Ex.cv_layout 3 _ _, rfl,
    ⟨trivial, trivial, trivial, trivial, trivial, trivial, trivial⟩, by decide⟩

/-! ## C18 -/

theorem KalmanFilter.predict_column {n m : ℕ} {Ak Hk Bk uk zk Qk Rk x P : Arr F}
    (h : RowLayout n m Ak Hk Bk uk zk Qk Rk) (hx : x.shape = [n, 1]) (hP : P.shape = [n, n]) :
    KalmanFilter.predict Ak x (some Bk) (some uk) P Qk = .error .valueError ∨
    ∃ (d : DType) (c : ℕ) (xp : Matrix (Fin n) (Fin c) F) (e : DType) (Pp : Matrix (Fin n) (Fin n) F),
      KalmanFilter.predict Ak x (some Bk) (some uk) P Qk = .ok (.mat d xp, .mat e Pp) := by
  obtain ⟨dA, A, hA⟩ := Arr.eq_mat h.A
  obtain ⟨dx, x, rfl⟩ := Arr.eq_mat hx
  obtain ⟨dP, P, rfl⟩ := Arr.eq_mat hP
  have hQ := h.Q
  have hc := h.control'
  subst hA
  rcases hn : (Bk.isnanAll || uk.isnanAll) with _ | _
  · rw [KalmanFilter.predict_ctrl hn]
    obtain ⟨p, hB, hu⟩ : ∃ p, Bk.shape = [n, p] ∧ uk.shape = [p] := by
      simp only [Bool.or_eq_false_iff] at hn
      rcases hc with hc | hc | hc
      · rw [hc] at hn; simp at hn
      · rw [hc] at hn; simp at hn
      · exact hc
    obtain ⟨dB, B, rfl⟩ := Arr.eq_mat hB
    obtain ⟨du, u, rfl⟩ := Arr.eq_vec hu
    obtain ⟨e, Pp, he⟩ := add_noise (dA.promote (dP.promote dA))
      (Backend.gemm A (Backend.gemm P A.transpose)) hQ
    simp only [Arr.matmul_mm, Arr.matmul_mv, Except.bind_ok', Arr.T_mat, Arr.add]
    rcases Arr.zipWith_nrows (F := F) Backend.add (n := n) (a := .mat (dA.promote dx) (Backend.gemm A x))
      (b := .vec (dB.promote du) fun i => Backend.gemm (n := 1) B (fun i _ => u i) i 0)
      (.inl ⟨⟨_, rfl⟩, .inr rfl⟩) with h0 | ⟨c, d, M, h0⟩
    · left; simp only [h0, Except.bind_error']
    · right
      simp only [h0, Except.bind_ok']
      simp only [Arr.add] at he
      simp only [he, Except.bind_ok']
      exact ⟨_, _, _, _, _, rfl⟩
  · rw [KalmanFilter.predict_skip hn]
    obtain ⟨e, Pp, he⟩ := add_noise (dA.promote (dP.promote dA))
      (Backend.gemm A (Backend.gemm P A.transpose)) hQ
    right
    simp only [Arr.matmul_mm, Except.bind_ok', Arr.T_mat, he]
    exact ⟨_, _, _, _, _, rfl⟩

theorem KalmanFilter.step_column {n m s : ℕ} {r : KalmanFilter.Row F} {x P I : Arr F}
    (h : RowLayout n m r.1 r.2.1 r.2.2.1 r.2.2.2.1 r.2.2.2.2.1 r.2.2.2.2.2.1 r.2.2.2.2.2.2)
    (hx : x.shape = [n, 1]) (hP : P.shape = [n, n]) (hn : n ≠ 1) :
    ∃ g e, KalmanFilter.step s I r x P = (g, .error e) ∧
      (e = .valueError ∨ e = .linAlgError) := by
  obtain ⟨Ak, Hk, Bk, uk, zk, Qk, Rk⟩ := r
  simp only at h
  rcases KalmanFilter.predict_column h hx hP with hp | ⟨d, c, xp, e, Pp, hp⟩
  · exact ⟨none, _, by simp only [KalmanFilter.step, hp], .inl rfl⟩
  simp only [KalmanFilter.step, hp]
  rcases gain_layout (P := .mat e Pp) h.H rfl h.R with hg | ⟨K, hg⟩
  · exact ⟨none, _, by simp only [hg], .inr rfl⟩
  · simp only [hg]
    refine ⟨_, .valueError, Prod.ext rfl ?_, .inl rfl⟩
    obtain ⟨dH, H, hH⟩ := Arr.eq_mat h.H
    subst hH
    have hz : zk.dims2.1 = 1 := by
      rcases h.z with hz | hz
      · obtain ⟨_, _, rfl⟩ := Arr.eq_vec hz; rfl
      · obtain ⟨_, _, rfl⟩ := Arr.eq_scalar hz; rfl
    simp only [KalmanFilter.correct, Arr.matmul_mm, Except.bind_ok', Arr.sub, Arr.add]
    rcases Arr.zipWith_nrows (F := F) Backend.sub (n := m) (a := zk)
      (b := .mat (dH.promote d) (Backend.gemm H xp)) (.inr ⟨⟨_, rfl⟩, .inr hz⟩) with h0 | ⟨c', d', M, h0⟩
    · simp only [h0, Except.bind_error']
    simp only [h0, Except.bind_ok', Arr.atleast1d_mat, Arr.matmul_mm]
    rcases Arr.zipWith_nrows (F := F) Backend.add (n := n) (a := .mat d xp)
      (b := .mat (DType.promote .float64 d') (Backend.gemm K M)) (.inl ⟨⟨_, rfl⟩, .inl rfl⟩)
      with h1 | ⟨c1, d1, M1, h1⟩
    · simp only [h1, Except.bind_error']
    simp only [h1, Except.bind_ok']
    rcases h2 : Arr.zipWith Backend.sub I (.mat (DType.promote .float64 dH) (Backend.gemm K H)) with e2 | ikh
    · rw [Arr.zipWith_error h2]; rfl
    simp only [Except.bind_ok']
    rcases h3 : ikh.matmul (.mat e Pp) with e3 | PP
    · rw [Arr.matmul_error h3]; rfl
    simp only [Except.bind_ok', Arr.assignVec, hn, dite_false, Except.bind_error']

/-- C18: a model of dimension `n >= 2` whose initial state is an `(n,1)` column is rejected with
ValueError or LinAlgError by `filter` and `smooth` on non-empty data, for every `state_size`.
(`hl`: the same model with some `(n,)` initial state is well shaped.) -/
theorem C18_column_state (n m : ℕ) (hn : 2 ≤ n) (kf : KalmanFilter F) (x0 : Arr F) (Z : NDArray F)
    (U : Option (NDArray F)) (hx : kf.xk.shape = [n, 1])
    (hl : Layout n m { kf with xk := x0, stateSize := n, I := Arr.identity n } Z U)
    (hi : kf.AllIterable Z U) (hst : 0 < kf.steps Z U) :
    ∃ e kf', (e = .valueError ∨ e = .linAlgError) ∧
      (KalmanFilter.filter Z U).run kf = (.error e, kf') ∧
      (KalmanFilter.smooth Z U).run kf = (.error e, kf') := by
  refine KalmanFilter.first_step_raises hi hst _ ?_
  intro r hr
  exact KalmanFilter.step_column (KalmanFilter.mem_zrows hl r hr) hx hl.P (by omega)

-- C18: the constant-velocity model with a column initial state.
example : let kf : KalmanFilter Ex.QN := { Ex.cv 3 with xk := Ex.col2 (some 0) (some 1) }
    let Z : NDArray Ex.QN := .stack ([some 1, some 2].map Ex.vec1)
    kf.xk.shape = [2, 1] ∧
    Layout 2 1 { kf with xk := Ex.vec2 (some 0) (some 1), stateSize := 2, I := Arr.identity 2 } Z (some Z) ∧
    kf.AllIterable Z (some Z) ∧ 0 < kf.steps Z (some Z) :=
  ⟨rfl, Ex.cv_layout 3 _ _, ⟨trivial, trivial, trivial, trivial, trivial, trivial, trivial⟩, by decide⟩

/-! ### C18 for the extended filter -/

/-- If the first processed step raises, so do `filter` and `smooth`. -/
theorem ExtendedKalmanFilter.first_step_raises {kf : ExtendedKalmanFilter F} {Z : NDArray F} {U : Option (NDArray F)}
    (hi : kf.AllIterable Z U) (hst : 0 < kf.steps Z U) (p : PyErr → Prop)
    (h : ∀ r ∈ kf.zrows Z U, ∃ g e, ExtendedKalmanFilter.step kf r kf.xk kf.Pk = (g, .error e) ∧ p e) :
    ∃ e kf', p e ∧ (ExtendedKalmanFilter.filter Z U).run kf = (.error e, kf') ∧
      (ExtendedKalmanFilter.smooth Z U).run kf = (.error e, kf') := by
  rw [← ExtendedKalmanFilter.zrows_length] at hst
  obtain ⟨r, rs, hrs⟩ : ∃ r rs, kf.zrows Z U = r :: rs := by
    cases h : kf.zrows Z U with
    | nil => simp [h] at hst
    | cons r rs => exact ⟨r, rs, rfl⟩
  obtain ⟨g, e, he, hp⟩ := h r (by simp [hrs])
  have herr : (kf.tr Z U).err = some e := by
    simp only [ExtendedKalmanFilter.tr, hrs, trace, he]
  have hf : (ExtendedKalmanFilter.filter Z U).run kf = (.error e, kf.addGains (kf.tr Z U).gains) := by
    rw [ExtendedKalmanFilter.filter_iter hi]; simp only [herr]
  refine ⟨e, _, hp, hf, ?_⟩
  simp only [ExtendedKalmanFilter.smooth, Py.run_bind, hf]

/-- A model written for column vectors: states are `(n,1)`, observations `(m,1)`, `(m,)` or scalars, Jacobians matrices; data and
noise as documented. -/
structure ColumnModel (n m : ℕ) (kf : ExtendedKalmanFilter F) (Z : NDArray F) : Prop where
  x : kf.xk.shape = [n, 1]
  P : kf.Pk.shape = [n, n]
  f : ∀ x u y, x.shape = [n, 1] → kf.f x u = .ok y → y.shape = [n, 1]
  jA : ∀ x u y, x.shape = [n, 1] → kf.jacobianA x u = .ok y → y.shape = [n, n]
  h : ∀ x y, x.shape = [n, 1] → kf.h x = .ok y → y.shape = [m, 1] ∨ y.shape = [m] ∨ y.shape = []
  jH : ∀ x y, x.shape = [n, 1] → kf.jacobianH x = .ok y → y.shape = [m, n]
  z : ∀ a ∈ Z.rows, a.shape = [m] ∨ a.shape = []
  Q : ∀ a ∈ kf.Q.rows, a.shape = [n, n] ∨ a.shape = []
  R : ∀ a ∈ kf.R.rows, a.shape = [m, m] ∨ a.shape = []

/-- Some callback raises `e`. -/
def ExtendedKalmanFilter.CallbackRaises (kf : ExtendedKalmanFilter F) (e : PyErr) : Prop :=
  (∃ x u, kf.f x u = .error e ∨ kf.jacobianA x u = .error e) ∨ ∃ x, kf.h x = .error e ∨ kf.jacobianH x = .error e

/-- What `K (z - h(x))` adds to a column is a vector of `n` entries or a matrix with `n` rows, if it is anything. -/
theorem corr_column {n m : ℕ} {zk y : Arr F} (K : Matrix (Fin n) (Fin m) F) (hz : zk.shape = [m] ∨ zk.shape = [])
    (hy : y.shape = [m, 1] ∨ y.shape = [m] ∨ y.shape = []) {res corr : Arr F} (h1 : zk.sub y = .ok res)
    (h2 : (Arr.mat .float64 K).matmul res.atleast1d = .ok corr) :
    (∃ d, ∃ v : Fin n → F, corr = .vec d v) ∨ ∃ c d, ∃ M : Matrix (Fin n) (Fin c) F, corr = .mat d M := by
  rcases hb : res.atleast1d with ⟨d, x⟩ | @⟨k, d, v⟩ | @⟨k, l, d, M⟩ <;> rw [hb] at h2
  · exact absurd h2 (by simp [Arr.matmul])
  · left
    simp only [Arr.matmul] at h2
    split_ifs at h2 with h
    simp only [Except.ok.injEq] at h2
    exact ⟨_, _, h2.symm⟩
  · right
    simp only [Arr.matmul] at h2
    split_ifs at h2 with h
    simp only [Except.ok.injEq] at h2
    exact ⟨_, _, _, h2.symm⟩

theorem ExtendedKalmanFilter.step_column {n m : ℕ} {kf : ExtendedKalmanFilter F} {Z : NDArray F} (h : ColumnModel n m kf Z)
    {r : Row F} (hz : r.2.1.shape = [m] ∨ r.2.1.shape = []) (hQ : r.2.2.1.shape = [n, n] ∨ r.2.2.1.shape = [])
    (hR : r.2.2.2.shape = [m, m] ∨ r.2.2.2.shape = []) (hn : n ≠ 1) :
    ∃ g e, step kf r kf.xk kf.Pk = (g, .error e) ∧ (e = .valueError ∨ e = .linAlgError ∨ kf.CallbackRaises e) := by
  obtain ⟨uk, zk, Qk, Rk⟩ := r
  simp only at hz hQ hR
  simp only [step, predict]
  rcases hA : kf.jacobianA kf.xk (some uk) with e | Ak
  · exact ⟨none, e, by simp only [Except.bind_error'], .inr (.inr (.inl ⟨_, _, .inr hA⟩))⟩
  obtain ⟨dA, A, rfl⟩ := Arr.eq_mat (h.jA _ _ _ h.x hA)
  rcases hf : kf.f kf.xk (some uk) with e | xp
  · exact ⟨none, e, by simp only [Except.bind_error', Except.bind_ok'], .inr (.inr (.inl ⟨_, _, .inl hf⟩))⟩
  have hxp := h.f _ _ _ h.x hf
  obtain ⟨dP, P, hP⟩ := Arr.eq_mat h.P
  obtain ⟨e, Pp, hPp⟩ := add_noise (dA.promote (dP.promote dA)) (Backend.gemm A (Backend.gemm P A.transpose)) hQ
  simp only [hP, Except.bind_ok', Arr.T_mat, Arr.matmul_mm, hPp]
  rcases hH : kf.jacobianH xp with e' | Hk
  · exact ⟨none, e', rfl, .inr (.inr (.inr ⟨_, .inr hH⟩))⟩
  simp only [ext_gain_eq]
  rcases gain_layout (P := .mat e Pp) (h.jH _ _ hxp hH) rfl hR with hg | ⟨K, hg⟩
  · exact ⟨none, _, by simp only [hg], .inr (.inl rfl)⟩
  simp only [hg, correct]
  rcases hh : kf.h xp with e' | y
  · exact ⟨_, e', rfl, .inr (.inr (.inr ⟨_, .inl hh⟩))⟩
  refine ⟨_, .valueError, Prod.ext rfl ?_, .inl rfl⟩
  simp only [Except.bind_ok']
  rcases h0 : zk.sub y with e0 | res
  · rw [Arr.zipWith_error h0]; rfl
  simp only [Except.bind_ok']
  rcases h1 : (Arr.mat .float64 K).matmul res.atleast1d with e1 | corr
  · rw [Arr.matmul_error h1]; rfl
  simp only [Except.bind_ok', Arr.add]
  have hcorr : corr.dims2.1 = n ∨ corr.dims2.1 = 1 := by
    rcases corr_column K hz (h.h _ _ hxp hh) h0 h1 with ⟨d, v, rfl⟩ | ⟨c, d, M, rfl⟩
    · exact .inr rfl
    · exact .inl rfl
  rcases Arr.zipWith_nrows (F := F) Backend.add (n := n) (a := xp) (b := corr) (.inl ⟨⟨_, hxp⟩, hcorr⟩)
    with h2 | ⟨c1, d1, M1, h2⟩
  · simp only [h2, Except.bind_error']
  simp only [h2, Except.bind_ok']
  rcases h3 : (Arr.mat .float64 K).matmul Hk with e3 | kh
  · rw [Arr.matmul_error h3]; rfl
  simp only [Except.bind_ok']
  rcases h4 : kf.I.sub kh with e4 | ikh
  · rw [Arr.zipWith_error h4]; rfl
  simp only [Except.bind_ok']
  rcases h5 : ikh.matmul (.mat e Pp) with e5 | PP
  · rw [Arr.matmul_error h5]; rfl
  simp only [Except.bind_ok', Arr.assignVec, hn, dite_false, Except.bind_error']

/-- C18 for the extended filter: a model of dimension `n >= 2` written for `(n,1)` column vectors is rejected by `filter` and
`smooth` on non-empty data, with ValueError, LinAlgError or an exception of a callback. -/
theorem C18_ekf_column_state (n m : ℕ) (hn : 2 ≤ n) (kf : ExtendedKalmanFilter F) (Z : NDArray F) (U : Option (NDArray F))
    (h : ColumnModel n m kf Z) (hi : kf.AllIterable Z U) (hst : 0 < kf.steps Z U) :
    ∃ e kf', (e = .valueError ∨ e = .linAlgError ∨ kf.CallbackRaises e) ∧
      (ExtendedKalmanFilter.filter Z U).run kf = (.error e, kf') ∧
      (ExtendedKalmanFilter.smooth Z U).run kf = (.error e, kf') := by
  refine ExtendedKalmanFilter.first_step_raises hi hst _ fun r hr => ?_
  obtain ⟨k, hk⟩ := List.mem_iff_getElem?.1 hr
  obtain ⟨uk, zk, Qk, Rk⟩ := r
  simp only [ExtendedKalmanFilter.zrows, List.getElem?_zip_eq_some] at hk
  obtain ⟨h4, h5, h6, h7⟩ := hk
  exact ExtendedKalmanFilter.step_column h (h.z _ (List.mem_of_getElem? h5)) (h.Q _ (List.mem_of_getElem? h6))
    (h.R _ (List.mem_of_getElem? h7)) (by omega)

-- C18: constant velocity as an extended model for column vectors, observing the position as a `(1,1)` array.
example : let kf : ExtendedKalmanFilter Ex.QN :=
      { f := fun x _ => (Ex.mat2 (some 1) (some 1) (some 0) (some 1)).matmul x, jacobianA := fun _ _ => .ok (Ex.mat2 (some 1) (some 1) (some 0) (some 1)),
        xk := Ex.col2 (some 0) (some 1), Pk := Ex.mat2 (some 1) (some 0) (some 0) (some 1),
        h := fun x => (Arr.mat .float64 (fun _ j => if j = 0 then some 1 else some 0 : Matrix (Fin 1) (Fin 2) Ex.QN)).matmul x,
        jacobianH := fun _ => .ok (.mat .float64 (fun _ j => if j = 0 then some 1 else some 0 : Matrix (Fin 1) (Fin 2) Ex.QN)),
        Q := .stack [.scalar .float64 (some 1), .scalar .float64 (some 1)], R := .stack [.scalar .float64 (some 1), .scalar .float64 (some 1)],
        stateSize := 2, I := Arr.identity 2, kalmanGains := [] }
    let Z : NDArray Ex.QN := .stack ([some 1, some 2].map Ex.vec1)
    ColumnModel 2 1 kf Z ∧ kf.AllIterable Z none ∧ 0 < kf.steps Z none := by
  intro kf Z
  refine ⟨⟨rfl, rfl, ?_, ?_, ?_, ?_, ?_, ?_, ?_⟩, ⟨trivial, trivial, trivial, trivial⟩, by decide⟩
  · intro x u y hx hy
    obtain ⟨d, M, rfl⟩ := Arr.eq_mat hx
    cases Except.ok.inj hy; rfl
  · intro x u y hx hy
    simp only [kf, Except.ok.injEq] at hy
    subst hy; rfl
  · intro x y hx hy
    obtain ⟨d, M, rfl⟩ := Arr.eq_mat hx
    cases Except.ok.inj hy; exact .inl rfl
  · intro x y hx hy
    simp only [kf, Except.ok.injEq] at hy
    subst hy; rfl
  · intro a ha
    simp [Z, NDArray.rows] at ha
    rcases ha with rfl | rfl <;> exact .inl rfl
  · intro a ha
    simp [kf, NDArray.rows] at ha
    subst ha; exact .inr rfl
  · intro a ha
    simp [kf, NDArray.rows] at ha
    subst ha; exact .inr rfl

end KK
