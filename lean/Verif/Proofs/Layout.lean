import Verif.Proofs.Blank
import Verif.Proofs.Runs

/-! # Well-shaped steps -/

set_option linter.unusedSectionVars false
set_option linter.unusedSimpArgs false

namespace KK

variable {F : Type} [Backend F]

/-- The identity matrix of a backend. -/
def idM (n : ℕ) : Matrix (Fin n) (Fin n) F := fun i j => if i = j then Backend.one else Backend.zero

theorem identity_eq (n : ℕ) : (Arr.identity n : Arr F) = .mat .float64 (idM n) := rfl

/-- A noise covariance, matrix or scalar, added to a matrix. -/
theorem add_noise {n : ℕ} (d : DType) (M : Matrix (Fin n) (Fin n) F) {Q : Arr F}
    (h : Q.shape = [n, n] ∨ Q.shape = []) :
    ∃ (e : DType) (N : Matrix (Fin n) (Fin n) F), (Arr.mat d M).add Q = .ok (.mat e N) := by
  rcases h with h | h
  · obtain ⟨d', N, rfl⟩ := Arr.eq_mat h
    exact ⟨_, _, Arr.add_mm _ _ _ _⟩
  · obtain ⟨d', y, rfl⟩ := Arr.eq_scalar h
    exact ⟨_, _, Arr.add_ms _ _ _ _⟩

theorem gain_layout {n m : ℕ} {Hk P Rk : Arr F} (hH : Hk.shape = [m, n]) (hP : P.shape = [n, n])
    (hR : Rk.shape = [m, m] ∨ Rk.shape = []) :
    KalmanFilter.gain Hk P Rk = .error .linAlgError ∨
    ∃ K : Matrix (Fin n) (Fin m) F, KalmanFilter.gain Hk P Rk = .ok (.mat .float64 K) := by
  obtain ⟨dH, H, rfl⟩ := Arr.eq_mat hH
  obtain ⟨dP, P, rfl⟩ := Arr.eq_mat hP
  simp only [KalmanFilter.gain, Arr.T_mat, Arr.matmul_mm, Except.bind_ok']
  obtain ⟨e, S, hS⟩ := add_noise (dH.promote (dP.promote dH)) (Backend.gemm H (Backend.gemm P H.transpose)) hR
  rw [hS]
  simp only [Except.bind_ok', Arr.T_mat, Arr.solve_mm]
  rcases Backend.solve S.transpose (Backend.gemm H P.transpose) with _ | X
  · left; rfl
  · right; exact ⟨X.transpose, rfl⟩

theorem ext_gain_eq (Hk P Rk : Arr F) : ExtendedKalmanFilter.gain Hk P Rk = KalmanFilter.gain Hk P Rk := rfl

theorem residual_layout {m : ℕ} {z y : Arr F} (hz : z.shape = [m] ∨ z.shape = []) (hy : y.shape = [m]) :
    ∃ (d : DType) (v : Fin m → F), z.sub y = .ok (.vec d v) := by
  obtain ⟨dy, y, rfl⟩ := Arr.eq_vec hy
  rcases hz with hz | hz
  · obtain ⟨dz, z, rfl⟩ := Arr.eq_vec hz
    exact ⟨_, _, Arr.sub_vv _ _ _ _⟩
  · obtain ⟨dz, z, rfl⟩ := Arr.eq_scalar hz
    exact ⟨_, _, Arr.sub_sv _ _ _ _⟩

/-- The residual of a nonlinear observation, which may be a scalar when `m = 1`. -/
theorem residual_ext {m : ℕ} {z y : Arr F} (hz : z.shape = [m] ∨ z.shape = [])
    (hy : y.shape = [m] ∨ m = 1 ∧ y.shape = []) :
    ∃ (r : Arr F) (d : DType) (v : Fin m → F), z.sub y = .ok r ∧ r.atleast1d = .vec d v := by
  rcases hy with hy | ⟨rfl, hy⟩
  · obtain ⟨d, v, h⟩ := residual_layout hz hy
    exact ⟨_, d, v, h, rfl⟩
  · obtain ⟨dy, y, rfl⟩ := Arr.eq_scalar hy
    rcases hz with hz | hz
    · obtain ⟨dz, z, rfl⟩ := Arr.eq_vec hz
      exact ⟨_, _, _, Arr.sub_vs _ _ _ _, rfl⟩
    · obtain ⟨dz, z, rfl⟩ := Arr.eq_scalar hz
      exact ⟨_, _, _, Arr.sub_ss _ _ _ _, rfl⟩

namespace KalmanFilter

/-- `predict` when the control is switched off. -/
theorem predict_skip {Ak x Bk uk P Qk : Arr F} (h : (Bk.isnanAll || uk.isnanAll) = true) :
    predict Ak x (some Bk) (some uk) P Qk = (do
      let xp ← Ak.matmul x
      let pat ← P.matmul Ak.T
      let apat ← Ak.matmul pat
      let Pp ← apat.add Qk
      .ok (xp, Pp)) := by
  simp only [predict, isNanAll, Except.bind_ok']
  rcases hb : Bk.isnanAll with _ | _
  · simp only [hb, Bool.false_or] at h
    simp [h]
  · simp

/-- `predict` with a control term. -/
theorem predict_ctrl {Ak x Bk uk P Qk : Arr F} (h : (Bk.isnanAll || uk.isnanAll) = false) :
    predict Ak x (some Bk) (some uk) P Qk = (do
      let ax ← Ak.matmul x
      let bu ← Bk.matmul uk
      let xp ← ax.add bu
      let pat ← P.matmul Ak.T
      let apat ← Ak.matmul pat
      let Pp ← apat.add Qk
      .ok (xp, Pp)) := by
  simp only [Bool.or_eq_false_iff] at h
  simp only [predict, isNanAll, Except.bind_ok', h.1, h.2, Bool.false_eq_true, if_false]

theorem predict_layout {n m : ℕ} {Ak Hk Bk uk zk Qk Rk x P : Arr F}
    (h : RowLayout n m Ak Hk Bk uk zk Qk Rk) (hx : x.shape = [n]) (hP : P.shape = [n, n]) :
    ∃ (d : DType) (xp : Fin n → F) (e : DType) (Pp : Matrix (Fin n) (Fin n) F),
      predict Ak x (some Bk) (some uk) P Qk = .ok (.vec d xp, .mat e Pp) := by
  obtain ⟨dA, A, rfl⟩ := Arr.eq_mat h.A
  obtain ⟨dx, x, rfl⟩ := Arr.eq_vec hx
  obtain ⟨dP, P, rfl⟩ := Arr.eq_mat hP
  obtain ⟨e, Pp, hPp⟩ := add_noise (dA.promote (dP.promote dA))
    (Backend.gemm A (Backend.gemm P A.transpose)) h.Q
  rcases hb : (Bk.isnanAll || uk.isnanAll) with _ | _
  · rw [predict_ctrl hb]
    simp only [Bool.or_eq_false_iff] at hb
    rcases h.control' with hc | hc | ⟨p, hB, hu⟩
    · simp [hb.1] at hc
    · simp [hb.2] at hc
    · obtain ⟨dB, B, rfl⟩ := Arr.eq_mat hB
      obtain ⟨du, u, rfl⟩ := Arr.eq_vec hu
      simp only [Arr.T_mat, Arr.matmul_mm, hPp, Arr.matmul_mv, Except.bind_ok', Arr.add_vv]
      exact ⟨_, _, _, _, rfl⟩
  · rw [predict_skip hb]
    simp only [Arr.T_mat, Arr.matmul_mm, hPp, Arr.matmul_mv, Except.bind_ok', Arr.add_vv]
    exact ⟨_, _, _, _, rfl⟩

theorem correct_layout {n m : ℕ} {Hk zk x P : Arr F} (hH : Hk.shape = [m, n]) (hx : x.shape = [n])
    (hP : P.shape = [n, n]) (hz : zk.shape = [m] ∨ zk.shape = []) (K : Matrix (Fin n) (Fin m) F) :
    ∃ (x' : Fin n → F) (P' : Matrix (Fin n) (Fin n) F),
      correct (Arr.identity n) (.mat .float64 K) Hk x P zk =
        .ok (.vec .float64 x', .mat .float64 P') := by
  obtain ⟨dH, H, rfl⟩ := Arr.eq_mat hH
  obtain ⟨dx, x, rfl⟩ := Arr.eq_vec hx
  obtain ⟨dP, P, rfl⟩ := Arr.eq_mat hP
  simp only [correct, Arr.matmul_mv, Except.bind_ok']
  obtain ⟨d, v, hv⟩ := residual_layout (y := .vec (dH.promote dx) fun i =>
    Backend.gemm (n := 1) H (fun i _ => x i) i 0) hz rfl
  rw [hv]
  simp only [Except.bind_ok', Arr.atleast1d_vec, Arr.matmul_mv, Arr.add_vv, Arr.matmul_mm,
    identity_eq, Arr.sub_mm, Arr.promote_float_left, Arr.promote_float_right]
  exact ⟨_, _, rfl⟩

/-- Well-shaped state. -/
def Shaped (n : ℕ) (x P : Arr F) : Prop := x.shape = [n] ∧ P.shape = [n, n]

theorem step_layout {n m : ℕ} {r : Row F} {x P : Arr F}
    (h : RowLayout n m r.1 r.2.1 r.2.2.1 r.2.2.2.1 r.2.2.2.2.1 r.2.2.2.2.2.1 r.2.2.2.2.2.2)
    (hs : Shaped n x P) :
    step n (Arr.identity n) r x P = (none, .error .linAlgError) ∨
    ∃ (K : Matrix (Fin n) (Fin m) F) (x' : Fin n → F) (P' : Matrix (Fin n) (Fin n) F),
      step n (Arr.identity n) r x P = (some (.mat .float64 K),
        .ok ((.vec .float64 x', .mat .float64 P'), (.vec .float64 x', .mat .float64 P'))) := by
  obtain ⟨Ak, Hk, Bk, uk, zk, Qk, Rk⟩ := r
  simp only at h
  obtain ⟨d, xp, e, Pp, hp⟩ := predict_layout h hs.1 hs.2
  simp only [step, hp]
  rcases gain_layout (P := .mat e Pp) h.H rfl h.R with hg | ⟨K, hg⟩
  · left; simp only [hg]
  · right
    simp only [hg]
    obtain ⟨x', P', hc⟩ := correct_layout (x := .vec d xp) (P := .mat e Pp) h.H rfl rfl h.z K
    rw [hc]
    simp only [Except.bind_ok', Arr.assignVec_vec, Arr.assignMat_mat]
    exact ⟨_, _, _, rfl⟩

theorem mem_zrows {kf : KalmanFilter F} {Z : NDArray F} {U : Option (NDArray F)} {n m : ℕ}
    (h : Layout n m kf Z U) : ∀ r ∈ kf.zrows Z U,
      RowLayout n m r.1 r.2.1 r.2.2.1 r.2.2.2.1 r.2.2.2.2.1 r.2.2.2.2.2.1 r.2.2.2.2.2.2 := by
  intro r hr
  obtain ⟨k, hk⟩ := List.mem_iff_getElem?.1 hr
  obtain ⟨Ak, Hk, Bk, uk, zk, Qk, Rk⟩ := r
  simp only [zrows, List.getElem?_zip_eq_some] at hk
  obtain ⟨h1, h2, h3, h4, h5, h6, h7⟩ := hk
  exact h.rows k _ _ _ _ _ _ _ h1 h2 h3 h4 h5 h6 h7

theorem step_keeps {n m : ℕ} {r : Row F} {x P : Arr F}
    (h : RowLayout n m r.1 r.2.1 r.2.2.1 r.2.2.2.1 r.2.2.2.2.1 r.2.2.2.2.2.1 r.2.2.2.2.2.2)
    (g) (xP o) (hs : Shaped n x P) (hr : step n (Arr.identity n) r x P = (g, .ok (xP, o))) :
    o = xP ∧ Shaped n xP.1 xP.2 := by
  rcases step_layout h hs with h' | ⟨K, x', P', h'⟩
  · rw [h'] at hr; simp at hr
  · rw [h'] at hr
    simp only [Prod.mk.injEq, Except.ok.injEq] at hr
    obtain ⟨-, rfl, rfl⟩ := hr
    exact ⟨rfl, rfl, rfl⟩

end KalmanFilter

namespace ExtendedKalmanFilter

open KalmanFilter (Shaped)

/-- A step on well-shaped data: either it raises, or the written rows are the new (well-shaped) state. -/
theorem step_keeps {n m : ℕ} {kf : ExtendedKalmanFilter F} {Z : NDArray F} {U : Option (NDArray F)}
    (hl : ExtLayout n m kf Z U) {r : Row F} {x P : Arr F} (hz : r.2.1.shape = [m] ∨ r.2.1.shape = [])
    (hQ : r.2.2.1.shape = [n, n] ∨ r.2.2.1.shape = [])
    (hR : r.2.2.2.shape = [m, m] ∨ r.2.2.2.shape = [])
    (g) (xP o) (hs : Shaped n x P) (hr : step kf r x P = (g, .ok (xP, o))) :
    o = xP ∧ Shaped n xP.1 xP.2 := by
  obtain ⟨uk, zk, Qk, Rk⟩ := r
  obtain ⟨hx, hP⟩ := hs
  simp only at hz hQ hR
  simp only [step, predict] at hr
  rcases hA : kf.jacobianA x (some uk) with e | Ak; · simp [hA] at hr
  obtain ⟨dA, A, rfl⟩ := Arr.eq_mat (hl.jA _ _ _ hx hA)
  obtain ⟨dP, P, rfl⟩ := Arr.eq_mat hP
  simp only [hA, Except.bind_ok'] at hr
  rcases hf : kf.f x (some uk) with e | xp; · simp [hf] at hr
  have hxp := hl.f _ _ _ hx hf
  obtain ⟨e, Pp, hPp⟩ := add_noise (dA.promote (dP.promote dA))
    (Backend.gemm A (Backend.gemm P A.transpose)) hQ
  simp only [hf, Except.bind_ok', Arr.T_mat, Arr.matmul_mm, hPp] at hr
  rcases hH : kf.jacobianH xp with e' | Hk; · simp [hH] at hr
  have hHs := hl.jH _ _ hxp hH
  simp only [hH, ext_gain_eq] at hr
  rcases gain_layout (P := .mat e Pp) hHs rfl hR with hg | ⟨K, hg⟩
  · simp [hg] at hr
  obtain ⟨dH, H, rfl⟩ := Arr.eq_mat hHs
  obtain ⟨dx, xp, rfl⟩ := Arr.eq_vec hxp
  simp only [hg, correct] at hr
  rcases hh : kf.h (.vec dx xp) with e' | y; · simp [hh] at hr
  obtain ⟨res, d, v, hv, hv'⟩ := residual_ext hz (hl.h _ _ hxp hh)
  simp only [hh, Except.bind_ok', hv, hv', Arr.matmul_mv, Arr.add_vv, Arr.matmul_mm,
    hl.ident, identity_eq, Arr.sub_mm, Arr.promote_float_left, Arr.promote_float_right, hl.size,
    Arr.assignVec_vec, Arr.assignMat_mat, Prod.mk.injEq, Except.ok.injEq] at hr
  obtain ⟨-, rfl, rfl⟩ := hr
  exact ⟨rfl, rfl, rfl⟩

theorem mem_zrows {kf : ExtendedKalmanFilter F} {Z : NDArray F} {U : Option (NDArray F)} {n m : ℕ}
    (h : ExtLayout n m kf Z U) : ∀ r ∈ kf.zrows Z U,
      (r.2.1.shape = [m] ∨ r.2.1.shape = []) ∧ (r.2.2.1.shape = [n, n] ∨ r.2.2.1.shape = []) ∧
      (r.2.2.2.shape = [m, m] ∨ r.2.2.2.shape = []) := by
  intro r hr
  obtain ⟨k, hk⟩ := List.mem_iff_getElem?.1 hr
  obtain ⟨uk, zk, Qk, Rk⟩ := r
  simp only [zrows, List.getElem?_zip_eq_some] at hk
  obtain ⟨h4, h5, h6, h7⟩ := hk
  exact ⟨h.z _ (List.mem_of_getElem? h5), h.Q _ (List.mem_of_getElem? h6),
    h.R _ (List.mem_of_getElem? h7)⟩

end ExtendedKalmanFilter

end KK
