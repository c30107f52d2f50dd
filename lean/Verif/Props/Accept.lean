import Verif.Props.Broadcast
import Verif.Proofs.NonFinite
import Verif.Test.Pushed

/-!
# Which shapes are accepted, and which exceptions can occur (C140)

Specification: `FitsShape`, `ControlFits` (`Spec/Broadcast.lean`).
-/

set_option linter.unusedSectionVars false
set_option linter.unusedSimpArgs false

namespace KK

variable {F : Type} [Backend F]

namespace Arr

theorem toMat_fits {a : Arr F} {r c : ℕ} (h : FitsShape a.shape [r, c]) : ∃ N, a.toMat r c = .ok N := by
  rcases a with ⟨d, x⟩ | ⟨d, v⟩ | ⟨d, M⟩
  · exact ⟨_, rfl⟩
  · obtain ⟨w, hw, -⟩ := stretch_fits v (FitsShape.one_two.1 h)
    simp only [toMat, hw, Except.bind_ok']
    exact ⟨_, rfl⟩
  · obtain ⟨h1, h2⟩ := FitsShape.two.1 h
    obtain ⟨w, hw, -⟩ := stretch_fits M h1
    obtain ⟨w', hw', -⟩ := stretch_fits (fun j i => w i j) h2
    simp only [toMat, hw, hw', Except.bind_ok']
    exact ⟨_, rfl⟩

theorem add_fits {n m : ℕ} (d : DType) (M : Matrix (Fin n) (Fin m) F) {Q : Arr F} (h : FitsShape Q.shape [n, m]) :
    ∃ (e : DType) (N : Matrix (Fin n) (Fin m) F), (Arr.mat d M).add Q = .ok (.mat e N) := by
  obtain ⟨N, hN⟩ := toMat_fits h
  have hd := fits_dims.1 h
  have e1 : bdim (Arr.mat d M).dims2.1 Q.dims2.1 = .ok n := bdim_fits hd.1
  have e2 : bdim (Arr.mat d M).dims2.2 Q.dims2.2 = .ok m := bdim_fits hd.2
  simp only [Arr.add, zipWith_mat_left, zipWith2, e1, e2, Except.bind_ok', hN, toMat_self]
  exact ⟨_, _, rfl⟩

theorem vec_op_fits {n : ℕ} {w : Arr F} (h : FitsShape w.shape [n]) : ∃ v : Fin n → F, (∀ d (x : Fin n → F),
    (Arr.vec d x).add w = .ok (.vec (d.promote w.dtype) fun i => Backend.add (x i) (v i))) ∧
    ∀ d (x : Fin n → F), w.sub (.vec d x) = .ok (.vec (w.dtype.promote d) fun i => Backend.sub (v i) (x i)) := by
  rcases w with ⟨d', y⟩ | ⟨d', u⟩ | ⟨d', M⟩
  · exact ⟨fun _ => y, fun _ _ => rfl, fun _ _ => rfl⟩
  · have hk := FitsShape.one.1 h
    obtain ⟨v, hv, -⟩ := stretch_fits u hk
    refine ⟨v, fun d x => ?_, fun d x => ?_⟩
    · simp only [Arr.add, zipWith, bdim_fits hk, Except.bind_ok', hv, stretch_self]; rfl
    · rename_i k
      have : bdim k n = .ok n := by
        rcases hk with e | e
        · exact e ▸ bdim_self _
        · rw [e]; exact bdim_one_left _
      simp only [Arr.sub, zipWith, this, Except.bind_ok', hv, stretch_self]; rfl
  · exact absurd h FitsShape.two_one

theorem control_fits {n : ℕ} {B u : Arr F} (h : ControlFits n B.shape u.shape) : ∃ w, B.matmul u = .ok w ∧ FitsShape w.shape [n] := by
  rcases h with ⟨p, hu, h⟩ | ⟨p, hB, h⟩
  · obtain ⟨d, u, rfl⟩ := eq_vec hu
    rcases h with h | h | h
    · obtain ⟨d', B, rfl⟩ := eq_vec h
      refine ⟨_, by simp only [matmul, dite_true]; rfl, ?_⟩
      exact FitsShape.nil _
    · obtain ⟨d', B, rfl⟩ := eq_mat h
      exact ⟨_, matmul_mv _ _ _ _, FitsShape.one.2 (.inr rfl)⟩
    · obtain ⟨d', B, rfl⟩ := eq_mat h
      exact ⟨_, matmul_mv _ _ _ _, FitsShape.one.2 (.inl rfl)⟩
  · obtain ⟨d, B, rfl⟩ := eq_vec hB
    rcases h with h | h
    · obtain ⟨d', u, rfl⟩ := eq_mat h
      refine ⟨_, by simp only [matmul, dite_true]; rfl, ?_⟩
      exact FitsShape.one.2 (.inr rfl)
    · obtain ⟨d', u, rfl⟩ := eq_mat h
      refine ⟨_, by simp only [matmul, dite_true]; rfl, ?_⟩
      exact FitsShape.one.2 (.inl rfl)

end Arr

/-- All processed rows of a call have shapes that fit by broadcasting, given the documented `A` and `H`. -/
def KalmanFilter.RowsFit (n m : ℕ) (kf : KalmanFilter F) (Z : NDArray F) (U : Option (NDArray F)) : Prop :=
  ∀ (k : ℕ) (Bk uk zk Qk Rk : Arr F), k < kf.steps Z U → kf.B.rows[k]? = some Bk → (effU U Z).rows[k]? = some uk →
    Z.rows[k]? = some zk → kf.Q.rows[k]? = some Qk → kf.R.rows[k]? = some Rk →
    FitsShape Qk.shape [n, n] ∧ FitsShape Rk.shape [m, m] ∧ FitsShape zk.shape [m] ∧
      (Bk.Blank ∨ uk.Blank ∨ ControlFits n Bk.shape uk.shape)

/-- Documented shapes of the initial state, its covariance, `A` and `H`; nothing is said about the rest. -/
structure KalmanFilter.CoreShapes (n m : ℕ) (kf : KalmanFilter F) : Prop where
  x : kf.xk.shape = [n]
  P : kf.Pk.shape = [n, n]
  size : kf.stateSize = n
  ident : kf.I = Arr.identity n
  A : ∀ a ∈ kf.A.rows, a.shape = [n, n]
  H : ∀ a ∈ kf.H.rows, a.shape = [m, n]

theorem gain_fits {n m : ℕ} {Hk P Rk : Arr F} (hH : Hk.shape = [m, n]) (hP : P.shape = [n, n]) (hR : FitsShape Rk.shape [m, m]) :
    KalmanFilter.gain Hk P Rk = .error .linAlgError ∨
    ∃ K : Matrix (Fin n) (Fin m) F, KalmanFilter.gain Hk P Rk = .ok (.mat .float64 K) := by
  obtain ⟨dH, H, rfl⟩ := Arr.eq_mat hH
  obtain ⟨dP, P, rfl⟩ := Arr.eq_mat hP
  simp only [KalmanFilter.gain, Arr.T_mat, Arr.matmul_mm, Except.bind_ok']
  obtain ⟨e, S, hS⟩ := Arr.add_fits (dH.promote (dP.promote dH)) (Backend.gemm H (Backend.gemm P H.transpose)) hR
  rw [hS]
  simp only [Except.bind_ok', Arr.T_mat, Arr.solve_mm]
  rcases Backend.solve S.transpose (Backend.gemm H P.transpose) with _ | X
  · left; rfl
  · right; exact ⟨X.transpose, rfl⟩

theorem KalmanFilter.step_fits {n m : ℕ} {Ak Hk Bk uk zk Qk Rk x P : Arr F} (hA : Ak.shape = [n, n]) (hH : Hk.shape = [m, n])
    (hs : KalmanFilter.Shaped n x P) (hQ : FitsShape Qk.shape [n, n]) (hR : FitsShape Rk.shape [m, m]) (hz : FitsShape zk.shape [m])
    (hc : Bk.Blank ∨ uk.Blank ∨ ControlFits n Bk.shape uk.shape) :
    KalmanFilter.step n (Arr.identity n) (Ak, Hk, Bk, uk, zk, Qk, Rk) x P = (none, .error .linAlgError) ∨
    ∃ (K : Matrix (Fin n) (Fin m) F) (x' : Fin n → F) (P' : Matrix (Fin n) (Fin n) F),
      KalmanFilter.step n (Arr.identity n) (Ak, Hk, Bk, uk, zk, Qk, Rk) x P = (some (.mat .float64 K),
        .ok ((.vec .float64 x', .mat .float64 P'), (.vec .float64 x', .mat .float64 P'))) := by
  obtain ⟨dx, x, rfl⟩ := Arr.eq_vec hs.1
  obtain ⟨dP, P, rfl⟩ := Arr.eq_mat hs.2
  have hp : ∃ (d : DType) (xp : Fin n → F) (e : DType) (Pp : Matrix (Fin n) (Fin n) F),
      KalmanFilter.predict Ak (.vec dx x) (some Bk) (some uk) (.mat dP P) Qk = .ok (.vec d xp, .mat e Pp) := by
    obtain ⟨dA, A, rfl⟩ := Arr.eq_mat hA
    obtain ⟨e, Pp, hPp⟩ := Arr.add_fits (dA.promote (dP.promote dA)) (Backend.gemm A (Backend.gemm P A.transpose)) hQ
    rcases hb : (Bk.isnanAll || uk.isnanAll) with _ | _
    · rw [KalmanFilter.predict_ctrl hb]
      simp only [Bool.or_eq_false_iff] at hb
      rcases hc with hc | hc | hc
      · simp [← Arr.isnanAll_iff_blank, hb.1] at hc
      · simp [← Arr.isnanAll_iff_blank, hb.2] at hc
      · obtain ⟨w, hw, hw'⟩ := Arr.control_fits hc
        obtain ⟨v, hv, -⟩ := Arr.vec_op_fits hw'
        simp only [Arr.T_mat, Arr.matmul_mm, hPp, Arr.matmul_mv, Except.bind_ok', hw, hv]
        exact ⟨_, _, _, _, rfl⟩
    · rw [KalmanFilter.predict_skip hb]
      simp only [Arr.T_mat, Arr.matmul_mm, hPp, Arr.matmul_mv, Except.bind_ok']
      exact ⟨_, _, _, _, rfl⟩
  obtain ⟨d, xp, e, Pp, hp⟩ := hp
  simp only [KalmanFilter.step, hp]
  rcases gain_fits (P := .mat e Pp) hH rfl hR with hg | ⟨K, hg⟩
  · left; simp only [hg]
  · right
    simp only [hg]
    obtain ⟨dH, H, rfl⟩ := Arr.eq_mat hH
    obtain ⟨v, -, hv⟩ := Arr.vec_op_fits hz
    simp only [KalmanFilter.correct, Arr.matmul_mv, Except.bind_ok', hv, Arr.atleast1d_vec, Arr.add_vv, Arr.matmul_mm,
      identity_eq, Arr.sub_mm, Arr.promote_float_left, Arr.promote_float_right, Arr.assignVec_vec, Arr.assignMat_mat]
    exact ⟨_, _, _, rfl⟩

theorem KalmanFilter.row_parts {kf : KalmanFilter F} {Z : NDArray F} {U : Option (NDArray F)} {k : ℕ} {r : KalmanFilter.Row F}
    (h : (kf.zrows Z U)[k]? = some r) : kf.A.rows[k]? = some r.1 ∧ kf.H.rows[k]? = some r.2.1 ∧ kf.B.rows[k]? = some r.2.2.1 ∧
      (effU U Z).rows[k]? = some r.2.2.2.1 ∧ Z.rows[k]? = some r.2.2.2.2.1 ∧ kf.Q.rows[k]? = some r.2.2.2.2.2.1 ∧
      kf.R.rows[k]? = some r.2.2.2.2.2.2 := by
  obtain ⟨A, H, B, u, z, Q, R⟩ := r
  simpa only [KalmanFilter.zrows, List.getElem?_zip_eq_some] using h

/-- C140: with two or more state components and documented `x0`, `P0`, `A`, `H`, a call that returns was given noise matrices,
observations and controls whose shapes fit by broadcasting; every other shape was rejected. -/
theorem C140_accepted {n m : ℕ} (hn : 2 ≤ n) (kf kf' : KalmanFilter F) (Z : NDArray F) (U : Option (NDArray F)) (hk : kf.CoreShapes n m)
    (r : List (Arr F) × List (Arr F)) (h : (KalmanFilter.filter Z U).run kf = (.ok r, kf')) : kf.RowsFit n m Z U := by
  have hi : kf.AllIterable Z U := KalmanFilter.ok_iter h
  rw [KalmanFilter.filter_iter hi] at h
  have he : (kf.tr Z U).err = none := by
    rcases he : (kf.tr Z U).err with _ | e
    · rfl
    · rw [he] at h; simp at h
  intro k Bk uk zk Qk Rk hlt hB hu hz hQ hR
  have key : ∀ r ∈ kf.zrows Z U, ∀ x P g xP o, KalmanFilter.Shaped n x P →
      KalmanFilter.step kf.stateSize kf.I r x P = (g, .ok (xP, o)) →
      (FitsShape r.2.2.2.2.2.1.shape [n, n] ∧ FitsShape r.2.2.2.2.2.2.shape [m, m] ∧ FitsShape r.2.2.2.2.1.shape [m] ∧
      (r.2.2.1.Blank ∨ r.2.2.2.1.Blank ∨ ControlFits n r.2.2.1.shape r.2.2.2.1.shape)) ∧
      o = xP ∧ KalmanFilter.Shaped n xP.1 xP.2 ∧ ∃ K, g = some K := by
    intro r hr x P g xP o hs hstep
    obtain ⟨k, hk'⟩ := List.mem_iff_getElem?.1 hr
    obtain ⟨h1, h2, -⟩ := KalmanFilter.row_parts hk'
    rw [hk.size, hk.ident] at hstep
    exact KalmanFilter.step_accepts hn (hk.A _ (List.mem_of_getElem? h1)) (hk.H _ (List.mem_of_getElem? h2)) hs hstep
  obtain ⟨r', x, P, K, o, h1, h2, h3, -⟩ := trace_at (Inv := KalmanFilter.Shaped n) (kf.zrows Z U)
    (fun r hr x P g xP o hs hstep => (key r hr x P g xP o hs hstep).2) kf.xk kf.Pk ⟨hk.x, hk.P⟩ he k
    (by rw [KalmanFilter.zrows_length]; exact hlt)
  have hfit := (key r' (List.mem_of_getElem? h1) _ _ _ _ _ h2 h3).1
  obtain ⟨-, -, e1, e2, e3, e4, e5⟩ := KalmanFilter.row_parts h1
  rw [hB] at e1; rw [hu] at e2; rw [hz] at e3; rw [hQ] at e4; rw [hR] at e5
  simp only [Option.some.injEq] at e1 e2 e3 e4 e5
  rw [e1, e2, e3, e4, e5]
  exact hfit

/-- C140: conversely, shapes that fit are accepted: the call returns, or a singular innovation covariance raises LinAlgError. -/
theorem C140_fits {n m : ℕ} (kf : KalmanFilter F) (Z : NDArray F) (U : Option (NDArray F)) (hk : kf.CoreShapes n m)
    (hi : kf.AllIterable Z U) (hf : kf.RowsFit n m Z U) :
    (∃ r kf', (KalmanFilter.filter Z U).run kf = (.ok r, kf')) ∨ ∃ kf', (KalmanFilter.filter Z U).run kf = (.error .linAlgError, kf') := by
  rw [KalmanFilter.filter_iter hi]
  rcases he : (kf.tr Z U).err with _ | e
  · exact .inl ⟨_, _, rfl⟩
  right
  have key : ∀ (k : ℕ) (r : KalmanFilter.Row F), (kf.zrows Z U)[k]? = some r → ∀ x P, KalmanFilter.Shaped n x P →
      KalmanFilter.step kf.stateSize kf.I r x P = (none, .error .linAlgError) ∨
      ∃ (K : Matrix (Fin n) (Fin m) F) (x' : Fin n → F) (P' : Matrix (Fin n) (Fin n) F),
        KalmanFilter.step kf.stateSize kf.I r x P = (some (.mat .float64 K),
        .ok ((.vec .float64 x', .mat .float64 P'), (.vec .float64 x', .mat .float64 P'))) := by
    intro k r hr x P hs
    have hlt : k < kf.steps Z U := by rw [← KalmanFilter.zrows_length]; exact (List.getElem?_eq_some_iff.1 hr).1
    obtain ⟨h1, h2, e1, e2, e3, e4, e5⟩ := KalmanFilter.row_parts hr
    obtain ⟨f1, f2, f3, f4⟩ := hf k _ _ _ _ _ hlt e1 e2 e3 e4 e5
    rw [hk.size, hk.ident]
    exact KalmanFilter.step_fits (hk.A _ (List.mem_of_getElem? h1)) (hk.H _ (List.mem_of_getElem? h2)) hs f1 f2 f3 f4
  have gen : ∀ (rs : List (KalmanFilter.Row F)) (x P : Arr F), (∀ r ∈ rs, ∃ k : ℕ, (kf.zrows Z U)[k]? = some r) → KalmanFilter.Shaped n x P →
      ∀ e, (trace (KalmanFilter.step kf.stateSize kf.I) rs x P).err = some e → e = .linAlgError := by
    intro rs
    induction rs with
    | nil => intro x P _ _ e he; simp [trace] at he
    | cons r rs ih =>
      intro x P hm hs e he
      obtain ⟨k, hr⟩ := hm r (by simp)
      rcases key k r hr x P hs with h | ⟨K, x', P', h⟩
      · simp only [trace, h, Option.some.injEq] at he; exact he.symm
      · simp only [trace, h] at he
        exact ih _ _ (fun r hr => hm r (by simp [hr])) ⟨rfl, rfl⟩ e he
  have : e = .linAlgError := gen _ _ _ (fun r hr => List.mem_iff_getElem?.1 hr) ⟨hk.x, hk.P⟩ e he
  subst this
  exact ⟨_, rfl⟩

/-- C140: whatever the shapes, `filter` on sequences raises nothing but ValueError and LinAlgError. -/
theorem C140_exceptions (kf kf' : KalmanFilter F) (Z : NDArray F) (U : Option (NDArray F)) (hi : kf.AllIterable Z U) (e : PyErr)
    (h : (KalmanFilter.filter Z U).run kf = (.error e, kf')) : e = .valueError ∨ e = .linAlgError := by
  rw [KalmanFilter.filter_iter hi] at h
  rcases he : (kf.tr Z U).err with _ | e'
  · rw [he] at h; simp at h
  rw [he] at h
  simp only [Prod.mk.injEq, Except.error.injEq] at h
  rw [h.1] at he
  obtain ⟨k, r, g, -, -, -, -, -, hs, -⟩ := trace_fail _ _ _ _ he
  exact KalmanFilter.step_raises hs

/-! ### The extended filter -/

theorem ExtendedKalmanFilter.row_parts {kf : ExtendedKalmanFilter F} {Z : NDArray F} {U : Option (NDArray F)} {k : ℕ}
    {r : ExtendedKalmanFilter.Row F} (h : (kf.zrows Z U)[k]? = some r) : (effU U Z).rows[k]? = some r.1 ∧ Z.rows[k]? = some r.2.1 ∧
      kf.Q.rows[k]? = some r.2.2.1 ∧ kf.R.rows[k]? = some r.2.2.2 := by
  obtain ⟨u, z, Q, R⟩ := r
  simpa only [ExtendedKalmanFilter.zrows, List.getElem?_zip_eq_some] using h

/-- C140 for `ExtendedKalmanFilter`: callbacks with the documented shapes, whatever `Q`, `R`, `Z`. -/
theorem C140_ext_accepted {n m : ℕ} (hn : 2 ≤ n) (kf kf' : ExtendedKalmanFilter F) (Z : NDArray F) (U : Option (NDArray F))
    (hx : kf.xk.shape = [n]) (hP : kf.Pk.shape = [n, n]) (hsz : kf.stateSize = n) (hI : kf.I = Arr.identity n)
    (hcb : kf.CallbackShapes n m) (r : List (Arr F) × List (Arr F)) (h : (ExtendedKalmanFilter.filter Z U).run kf = (.ok r, kf'))
    (k : ℕ) (zk Qk Rk : Arr F) (hlt : k < kf.steps Z U) (hz : Z.rows[k]? = some zk) (hQ : kf.Q.rows[k]? = some Qk)
    (hR : kf.R.rows[k]? = some Rk) : FitsShape Qk.shape [n, n] ∧ FitsShape Rk.shape [m, m] ∧ FitsShape zk.shape [m] := by
  have hi : kf.AllIterable Z U := ExtendedKalmanFilter.ok_iter h
  rw [ExtendedKalmanFilter.filter_iter hi] at h
  have he : (kf.tr Z U).err = none := by
    rcases he : (kf.tr Z U).err with _ | e
    · rfl
    · rw [he] at h; simp at h
  have key : ∀ r ∈ kf.zrows Z U, ∀ x P g xP o, KalmanFilter.Shaped n x P →
      ExtendedKalmanFilter.step kf r x P = (g, .ok (xP, o)) →
      (FitsShape r.2.2.1.shape [n, n] ∧ FitsShape r.2.2.2.shape [m, m] ∧ FitsShape r.2.1.shape [m]) ∧
      o = xP ∧ KalmanFilter.Shaped n xP.1 xP.2 ∧ ∃ K, g = some K := by
    intro r hr x P g xP o hs hstep
    exact ExtendedKalmanFilter.step_accepts hn hsz hI hcb hs hstep
  obtain ⟨r', x, P, K, o, h1, h2, h3, -⟩ := trace_at (Inv := KalmanFilter.Shaped n) (kf.zrows Z U)
    (fun r hr x P g xP o hs hstep => (key r hr x P g xP o hs hstep).2) kf.xk kf.Pk ⟨hx, hP⟩ he k
    (by rw [ExtendedKalmanFilter.zrows_length]; exact hlt)
  have hfit := (key r' (List.mem_of_getElem? h1) _ _ _ _ _ h2 h3).1
  obtain ⟨-, e3, e4, e5⟩ := ExtendedKalmanFilter.row_parts h1
  rw [hz] at e3; rw [hQ] at e4; rw [hR] at e5
  simp only [Option.some.injEq] at e3 e4 e5
  rw [e3, e4, e5]
  exact hfit

theorem ExtendedKalmanFilter.step_fits {n m : ℕ} {kf : ExtendedKalmanFilter F} (hsz : kf.stateSize = n) (hI : kf.I = Arr.identity n)
    (hcb : kf.CallbackShapes n m) {uk zk Qk Rk x P : Arr F} (hs : KalmanFilter.Shaped n x P) (hQ : FitsShape Qk.shape [n, n])
    (hR : FitsShape Rk.shape [m, m]) (hz : FitsShape zk.shape [m]) :
    (∃ g e, ExtendedKalmanFilter.step kf (uk, zk, Qk, Rk) x P = (g, .error e) ∧ (e = .linAlgError ∨ kf.CallbackRaises e)) ∨
    ∃ (K : Matrix (Fin n) (Fin m) F) (x' : Fin n → F) (P' : Matrix (Fin n) (Fin n) F) (d : DType),
      ExtendedKalmanFilter.step kf (uk, zk, Qk, Rk) x P = (some (.mat .float64 K),
        .ok ((.vec d x', .mat .float64 P'), (.vec .float64 x', .mat .float64 P'))) := by
  obtain ⟨dP, P, rfl⟩ := Arr.eq_mat hs.2
  simp only [ExtendedKalmanFilter.step, ExtendedKalmanFilter.predict]
  rcases hA : kf.jacobianA x (some uk) with e | Ak
  · exact .inl ⟨_, _, rfl, .inr (.inl ⟨_, _, .inr hA⟩)⟩
  rcases hf : kf.f x (some uk) with e | xp
  · exact .inl ⟨_, _, rfl, .inr (.inl ⟨_, _, .inl hf⟩)⟩
  have hxp := hcb.f _ _ _ hs.1 hf
  obtain ⟨dA, A, rfl⟩ := Arr.eq_mat (hcb.jA _ _ _ hs.1 hA)
  obtain ⟨e, Pp, hPp⟩ := Arr.add_fits (dA.promote (dP.promote dA)) (Backend.gemm A (Backend.gemm P A.transpose)) hQ
  simp only [Arr.T_mat, Arr.matmul_mm, hPp, Except.bind_ok']
  rcases hj : kf.jacobianH xp with e' | Hk
  · exact .inl ⟨_, _, rfl, .inr (.inr ⟨_, .inr hj⟩)⟩
  simp only
  have hH := hcb.jH _ _ hxp hj
  have hg : ExtendedKalmanFilter.gain Hk (.mat e Pp) Rk = KalmanFilter.gain Hk (.mat e Pp) Rk := rfl
  rw [hg]
  rcases gain_fits (P := .mat e Pp) hH rfl hR with hg | ⟨K, hg⟩
  · rw [hg]; exact .inl ⟨_, _, rfl, .inl rfl⟩
  rw [hg]
  simp only [ExtendedKalmanFilter.correct]
  rcases hh : kf.h xp with e' | hx
  · exact .inl ⟨_, _, rfl, .inr (.inr ⟨_, .inl hh⟩)⟩
  obtain ⟨dH, H, rfl⟩ := Arr.eq_mat hH
  obtain ⟨dx, xv, rfl⟩ := Arr.eq_vec hxp
  have hres : ∃ res d, ∃ w : Fin m → F, zk.sub hx = .ok res ∧ res.atleast1d = .vec d w := by
    rcases hcb.h _ _ hxp hh with h | ⟨rfl, h⟩
    · obtain ⟨dh, hv, rfl⟩ := Arr.eq_vec h
      obtain ⟨v, -, hv'⟩ := Arr.vec_op_fits hz
      exact ⟨_, _, _, hv' _ _, rfl⟩
    · rcases hx with ⟨d, y⟩ | ⟨d, v⟩ | ⟨d, M⟩
      · rcases zk with ⟨d', z⟩ | ⟨d', v⟩ | ⟨d', M⟩
        · exact ⟨_, _, _, rfl, rfl⟩
        · rename_i k
          obtain rfl : k = 1 := by rcases FitsShape.one.1 hz with h | h <;> exact h
          exact ⟨_, _, _, rfl, rfl⟩
        · exact absurd hz FitsShape.two_one
      · simp [Arr.shape] at h
      · simp [Arr.shape] at h
  obtain ⟨res, dw, w, hr1, hr2⟩ := hres
  right
  simp only [Arr.matmul_mv, Except.bind_ok', hr1, hr2, Arr.add_vv, Arr.matmul_mm, hI, hsz,
      identity_eq, Arr.sub_mm, Arr.promote_float_left, Arr.promote_float_right, Arr.assignVec_vec, Arr.assignMat_mat]
  exact ⟨_, _, _, _, rfl⟩

/-- C140 for `ExtendedKalmanFilter`: conversely, rows of `Q`, `R` and observations that fit are accepted: the call returns, or raises LinAlgError
(a singular innovation covariance) or what a callback raised. -/
theorem C140_ext_fits {n m : ℕ} (kf : ExtendedKalmanFilter F) (Z : NDArray F) (U : Option (NDArray F))
    (hx : kf.xk.shape = [n]) (hP : kf.Pk.shape = [n, n]) (hsz : kf.stateSize = n) (hI : kf.I = Arr.identity n)
    (hcb : kf.CallbackShapes n m) (hi : kf.AllIterable Z U)
    (hf : ∀ (k : ℕ) (zk Qk Rk : Arr F), k < kf.steps Z U → Z.rows[k]? = some zk → kf.Q.rows[k]? = some Qk → kf.R.rows[k]? = some Rk →
      FitsShape Qk.shape [n, n] ∧ FitsShape Rk.shape [m, m] ∧ FitsShape zk.shape [m]) :
    (∃ r kf', (ExtendedKalmanFilter.filter Z U).run kf = (.ok r, kf')) ∨
    ∃ e kf', (ExtendedKalmanFilter.filter Z U).run kf = (.error e, kf') ∧ (e = .linAlgError ∨ kf.CallbackRaises e) := by
  rw [ExtendedKalmanFilter.filter_iter hi]
  rcases he : (kf.tr Z U).err with _ | e
  · exact .inl ⟨_, _, rfl⟩
  right
  have key : ∀ (k : ℕ) (r : ExtendedKalmanFilter.Row F), (kf.zrows Z U)[k]? = some r → ∀ x P, KalmanFilter.Shaped n x P →
      (∃ g e, ExtendedKalmanFilter.step kf r x P = (g, .error e) ∧ (e = .linAlgError ∨ kf.CallbackRaises e)) ∨
      ∃ (K : Matrix (Fin n) (Fin m) F) (x' : Fin n → F) (P' : Matrix (Fin n) (Fin n) F) (d : DType),
        ExtendedKalmanFilter.step kf r x P = (some (.mat .float64 K),
          .ok ((.vec d x', .mat .float64 P'), (.vec .float64 x', .mat .float64 P'))) := by
    intro k r hr x P hs
    have hlt : k < kf.steps Z U := by rw [← ExtendedKalmanFilter.zrows_length]; exact (List.getElem?_eq_some_iff.1 hr).1
    obtain ⟨-, e3, e4, e5⟩ := ExtendedKalmanFilter.row_parts hr
    obtain ⟨f1, f2, f3⟩ := hf k _ _ _ hlt e3 e4 e5
    exact ExtendedKalmanFilter.step_fits hsz hI hcb hs f1 f2 f3
  have gen : ∀ (rs : List (ExtendedKalmanFilter.Row F)) (x P : Arr F), (∀ r ∈ rs, ∃ k : ℕ, (kf.zrows Z U)[k]? = some r) →
      KalmanFilter.Shaped n x P → ∀ e, (trace (ExtendedKalmanFilter.step kf) rs x P).err = some e → e = .linAlgError ∨ kf.CallbackRaises e := by
    intro rs
    induction rs with
    | nil => intro x P _ _ e he; simp [trace] at he
    | cons r rs ih =>
      intro x P hm hs e he
      obtain ⟨k, hr⟩ := hm r (by simp)
      rcases key k r hr x P hs with ⟨g, e', h, h'⟩ | ⟨K, x', P', d, h⟩
      · simp only [trace, h, Option.some.injEq] at he; exact he ▸ h'
      · simp only [trace, h] at he
        exact ih _ _ (fun r hr => hm r (by simp [hr])) ⟨rfl, rfl⟩ e he
  exact ⟨e, _, rfl, gen _ _ _ (fun r hr => List.mem_iff_getElem?.1 hr) ⟨hx, hP⟩ e he⟩

/-- C140 for `ExtendedKalmanFilter`: on sequences `filter` raises nothing but ValueError, LinAlgError and what a callback raised. -/
theorem C140_ext_exceptions (kf kf' : ExtendedKalmanFilter F) (Z : NDArray F) (U : Option (NDArray F)) (hi : kf.AllIterable Z U) (e : PyErr)
    (h : (ExtendedKalmanFilter.filter Z U).run kf = (.error e, kf')) : (e = .valueError ∨ e = .linAlgError) ∨ kf.CallbackRaises e := by
  rw [ExtendedKalmanFilter.filter_iter hi] at h
  rcases he : (kf.tr Z U).err with _ | e'
  · rw [he] at h; simp at h
  rw [he] at h
  simp only [Prod.mk.injEq, Except.error.injEq] at h
  rw [h.1] at he
  obtain ⟨k, r, g, -, -, -, -, -, hs, -⟩ := trace_fail _ _ _ _ he
  exact ExtendedKalmanFilter.step_raises hs

/-! ### Non-vacuity -/

/-- C140 is met by a call with numbers for the noise and for the observations, and by one that is rejected: three-component observations. -/
example : Ex.numbers.CoreShapes 2 1 ∧ Ex.numbers.AllIterable Ex.numberZ (some Ex.us) ∧
    (∃ r kf', (KalmanFilter.filter Ex.numberZ (some Ex.us)).run Ex.numbers = (.ok r, kf')) ∧
    ∃ kf', (KalmanFilter.filter (.stack [.vec (n := 3) .float64 fun _ => some 1]) (some Ex.us)).run Ex.numbers = (.error .valueError, kf') := by
  refine ⟨⟨rfl, rfl, rfl, rfl, ?_, ?_⟩, ⟨trivial, trivial, trivial, trivial, trivial, trivial, trivial⟩, (Ex.returned_iff _).1 (by decide +kernel),
    (Ex.raised_iff _ _).1 (by decide +kernel)⟩
  · simp [Ex.numbers, Ex.cv, NDArray.rows]; rfl
  · simp [Ex.numbers, Ex.cv, NDArray.rows]; rfl

/-- C140 and C139 for the extended filter: numbers for the noise and for the observations. -/
example : (let kf := Ex.pushed (.scalar .float64 (some (1/4))) (.scalar .float64 (some 1)) 2
    kf.xk.shape = [2] ∧ kf.Pk.shape = [2, 2] ∧ kf.stateSize = 2 ∧ kf.I = Arr.identity 2 ∧ kf.CallbackShapes 2 1 ∧
    kf.AllIterable Ex.numberZ (some Ex.us) ∧ ∃ r kf', (ExtendedKalmanFilter.filter Ex.numberZ (some Ex.us)).run kf = (.ok r, kf')) ∧
    ∃ Q' R', (Ex.pushed (.scalar .float64 (some (1/4))) (.scalar .float64 (some 1)) 2).Q.RowsBroadcast [2, 2] Q' ∧
      (Ex.pushed (.scalar .float64 (some (1/4))) (.scalar .float64 (some 1)) 2).R.RowsBroadcast [1, 1] R' ∧
      ExtLayout 2 1 { Ex.pushed (.scalar .float64 (some (1/4))) (.scalar .float64 (some 1)) 2 with Q := Q', R := R' } Ex.numberZ' (some Ex.us) := by
  constructor
  · intro kf
    have h := Ex.pushed_layout (.scalar .float64 (some (1/4))) (.scalar .float64 (some 1)) 2 [] none (.inr rfl) (.inr rfl)
    exact ⟨rfl, rfl, rfl, rfl, ⟨h.f, h.jA, h.h, h.jH⟩, ⟨trivial, trivial, trivial, trivial⟩, (Ex.returned_iff _).1 (by decide +kernel)⟩
  · exact ⟨.stack (List.replicate 2 (.mat (m := 2) (n := 2) .float64 fun _ _ => some (1/4))),
      .stack (List.replicate 2 (.mat (m := 1) (n := 1) .float64 fun _ _ => some 1)),
      .stack _ _ (.cons (Arr.IsBroadcast.const_mat _ _ _ _) (.cons (Arr.IsBroadcast.const_mat _ _ _ _) .nil)),
      .stack _ _ (.cons (Arr.IsBroadcast.const_mat _ _ _ _) (.cons (Arr.IsBroadcast.const_mat _ _ _ _) .nil)),
      Ex.pushed_layout _ _ 2 [some 1, some 3] _ (.inl rfl) (.inl rfl)⟩

end KK
