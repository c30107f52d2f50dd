import Verif.Proofs.Broadcast
import Verif.Props.Rejected

/-! # Which shapes one step of `filter` accepts -/

set_option linter.unusedSectionVars false
set_option linter.unusedSimpArgs false

namespace KK

variable {F : Type} [Backend F]

namespace Arr

theorem fits_dims {q : Arr F} {r c : ℕ} : FitsShape q.shape [r, c] ↔ (q.dims2.1 = r ∨ q.dims2.1 = 1) ∧ (q.dims2.2 = c ∨ q.dims2.2 = 1) := by
  rcases q with ⟨d, x⟩ | ⟨d, v⟩ | ⟨d, M⟩
  · simp [shape, dims2, FitsShape.nil]
  · simp [shape, dims2, FitsShape.one_two]
  · simp [shape, dims2, FitsShape.two]

theorem bdim_left {a b c : ℕ} (h : bdim a b = .ok c) (ha : a ≠ 1) : c = a ∧ (b = a ∨ b = 1) := by
  obtain ⟨h1, h2⟩ := bdim_eq h
  have : a = c := by tauto
  subst this
  exact ⟨rfl, h2⟩

theorem bdim_right {a b c : ℕ} (h : bdim a b = .ok c) (hb : b ≠ 1) : c = b ∧ (a = b ∨ a = 1) := by
  obtain ⟨h1, h2⟩ := bdim_eq h
  have : b = c := by tauto
  subst this
  exact ⟨rfl, h1⟩

/-- What an elementwise operation with a matrix on the left returns. -/
theorem zipWith_mat_ok (f : F → F → F) {r c : ℕ} {d : DType} {M : Matrix (Fin r) (Fin c) F} {q p : Arr F}
    (h : zipWith f (.mat d M) q = .ok p) :
    ∃ (r' c' : ℕ) (e : DType) (N : Matrix (Fin r') (Fin c') F), p = .mat e N ∧ bdim r q.dims2.1 = .ok r' ∧ bdim c q.dims2.2 = .ok c' := by
  rw [zipWith_mat_left] at h
  rcases zipWith2_rows f (.mat d M) q with h' | ⟨r', c', e, N, h1, h2, h3⟩
  · rw [h'] at h; cases h
  · rw [h3] at h
    cases h
    exact ⟨r', c', e, N, rfl, h1, h2⟩

theorem zipWith_mat_ok' (f : F → F → F) {r c : ℕ} {d : DType} {M : Matrix (Fin r) (Fin c) F} {q p : Arr F}
    (h : zipWith f q (.mat d M) = .ok p) :
    ∃ (r' c' : ℕ) (e : DType) (N : Matrix (Fin r') (Fin c') F), p = .mat e N ∧ bdim q.dims2.1 r = .ok r' ∧ bdim q.dims2.2 c = .ok c' := by
  rw [zipWith_mat_right] at h
  rcases zipWith2_rows f q (.mat d M) with h' | ⟨r', c', e, N, h1, h2, h3⟩
  · rw [h'] at h; cases h
  · rw [h3] at h
    cases h
    exact ⟨r', c', e, N, rfl, h1, h2⟩

/-- Something added to a vector with at least two entries. -/
theorem add_vec_ok {n : ℕ} (hn : 2 ≤ n) {d : DType} {v : Fin n → F} {w p : Arr F} (h : (Arr.vec d v).add w = .ok p) :
    (FitsShape w.shape [n] ∧ p.shape = [n]) ∨ ∃ c e, ∃ N : Matrix (Fin c) (Fin n) F, p = .mat e N ∧ ∃ d', w.shape = [c, d'] := by
  rcases w with ⟨d', x⟩ | ⟨d', u⟩ | ⟨d', M⟩
  · left
    simp only [Arr.add, zipWith, Except.ok.injEq] at h
    subst h
    exact ⟨FitsShape.nil _, rfl⟩
  · left
    rename_i k
    simp only [Arr.add, zipWith] at h
    rcases hb : bdim n k with e | j
    · rw [hb] at h; simp only [Except.bind_error', reduceCtorEq] at h
    obtain ⟨rfl, hk⟩ := bdim_left hb (by omega)
    rw [hb] at h
    simp only [Except.bind_ok', stretch_self] at h
    rcases hs : stretch j u with e | u'
    · rw [hs] at h; simp only [Except.bind_error', reduceCtorEq] at h
    rw [hs] at h
    simp only [Except.bind_ok', Except.ok.injEq] at h
    subst h
    exact ⟨FitsShape.one.2 hk, rfl⟩
  · right
    obtain ⟨r', c', e, N, rfl, h1, h2⟩ := zipWith_mat_ok' _ h
    simp only [dims2, bdim_one_left, Except.ok.injEq] at h1 h2
    obtain ⟨rfl, -⟩ := bdim_left h2 (by omega)
    subst h1
    exact ⟨_, e, N, rfl, _, rfl⟩

/-- Products whose result has rank at most one. -/
theorem matmul_shape {a b c : Arr F} (h : a.matmul b = .ok c) :
    (∃ p, a.shape = [p] ∧ b.shape = [p] ∧ c.shape = []) ∨ (∃ r p, a.shape = [r, p] ∧ b.shape = [p] ∧ c.shape = [r]) ∨
    (∃ p q, a.shape = [p] ∧ b.shape = [p, q] ∧ c.shape = [q]) ∨ ∃ r p q, a.shape = [r, p] ∧ b.shape = [p, q] ∧ c.shape = [r, q] := by
  rcases a with ⟨d, x⟩ | ⟨d, v⟩ | ⟨d, M⟩ <;> rcases b with ⟨d', x'⟩ | ⟨d', v'⟩ | ⟨d', M'⟩ <;> simp only [matmul, reduceCtorEq] at h
  · split at h
    · rename_i hk; subst hk; cases h; exact .inl ⟨_, rfl, rfl, rfl⟩
    · cases h
  · split at h
    · rename_i hk; subst hk; cases h; exact .inr (.inr (.inl ⟨_, _, rfl, rfl, rfl⟩))
    · cases h
  · split at h
    · rename_i hk; subst hk; cases h; exact .inr (.inl ⟨_, _, rfl, rfl, rfl⟩)
    · cases h
  · split at h
    · rename_i hk; subst hk; cases h; exact .inr (.inr (.inr ⟨_, _, _, rfl, rfl, rfl⟩))
    · cases h

theorem matmul_mat_ok {n m : ℕ} {d : DType} {K : Matrix (Fin n) (Fin m) F} {b c : Arr F} (h : (Arr.mat d K).matmul b = .ok c) :
    (b.shape = [m] ∧ c.shape = [n]) ∨ ∃ q, b.shape = [m, q] ∧ c.shape = [n, q] := by
  rcases matmul_shape h with ⟨p, h1, h2, h3⟩ | ⟨r, p, h1, h2, h3⟩ | ⟨p, q, h1, h2, h3⟩ | ⟨r, p, q, h1, h2, h3⟩ <;>
    simp only [shape, List.cons.injEq, and_true, reduceCtorEq, and_false] at h1
  · obtain ⟨rfl, rfl⟩ := h1; exact .inl ⟨h2, h3⟩
  · obtain ⟨rfl, rfl⟩ := h1; exact .inr ⟨q, h2, h3⟩

theorem assignVec_mat {n q : ℕ} (hn : 2 ≤ n) {a : Arr F} (h : a.shape = [n, q]) (s : ℕ) (r : Arr F) : a.assignVec s ≠ .ok r := by
  obtain ⟨d, M, rfl⟩ := eq_mat h
  simp only [assignVec]
  rw [dif_neg (by omega)]
  simp

/-- Something subtracted from something: the result of `z - y` for a vector `y`. -/
theorem sub_vec_ok {m : ℕ} {d : DType} {y : Fin m → F} {z r : Arr F} (h : z.sub (.vec d y) = .ok r) :
    (∃ j, r.shape = [j] ∧ (j = m → FitsShape z.shape [m])) ∨ ∃ c q, r.shape = [c, q] ∧ ∃ q', z.shape = [c, q'] := by
  rcases z with ⟨d', x⟩ | ⟨d', u⟩ | ⟨d', M⟩
  · left
    simp only [Arr.sub, zipWith, Except.ok.injEq] at h
    subst h
    exact ⟨m, rfl, fun _ => FitsShape.nil _⟩
  · left
    rename_i k
    simp only [Arr.sub, zipWith] at h
    rcases hb : bdim k m with e | j
    · rw [hb] at h; simp only [Except.bind_error', reduceCtorEq] at h
    rw [hb] at h
    simp only [Except.bind_ok'] at h
    rcases hs : stretch j u with e | u'
    · rw [hs] at h; simp only [Except.bind_error', reduceCtorEq] at h
    rcases hs' : stretch j y with e | y'
    · rw [hs, hs'] at h; simp only [Except.bind_ok', Except.bind_error', reduceCtorEq] at h
    rw [hs, hs'] at h
    simp only [Except.bind_ok', Except.ok.injEq] at h
    subst h
    refine ⟨j, rfl, ?_⟩
    rintro rfl
    exact FitsShape.one.2 (bdim_eq hb).1
  · right
    obtain ⟨r', c', e, N, rfl, h1, h2⟩ := zipWith_mat_ok _ h
    simp only [dims2, bdim_one_right, Except.ok.injEq] at h1
    subst h1
    exact ⟨_, c', rfl, _, rfl⟩

theorem solve_mat_ok {a b X : Arr F} (h : a.solve b = .ok X) :
    (∃ k, a.shape = [k, k] ∧ b.shape = [k] ∧ X.shape = [k]) ∨ ∃ k q, a.shape = [k, k] ∧ b.shape = [k, q] ∧ X.shape = [k, q] := by
  rcases a with ⟨d, x⟩ | ⟨d, v⟩ | ⟨d, M⟩
  · simp [solve] at h
  · simp [solve] at h
  simp only [solve] at h
  split at h
  · rename_i hmn
    subst hmn
    rcases b with ⟨d', x'⟩ | ⟨d', v'⟩ | ⟨d', M'⟩
    · simp at h
    · simp only at h
      split at h
      · rename_i hk
        subst hk
        split at h
        · simp at h
        · cases h; exact .inl ⟨_, rfl, rfl, rfl⟩
      · simp at h
    · simp only at h
      split at h
      · rename_i hk
        subst hk
        split at h
        · simp at h
        · cases h; exact .inr ⟨_, _, rfl, rfl, rfl⟩
      · simp at h
  · simp at h

theorem solve_error {a b : Arr F} {e : PyErr} (h : a.solve b = .error e) : e = .valueError ∨ e = .linAlgError := by
  rcases a with ⟨d, x⟩ | ⟨d, v⟩ | ⟨d, M⟩
  · simp only [solve, Except.error.injEq] at h; exact .inr h.symm
  · simp only [solve, Except.error.injEq] at h; exact .inr h.symm
  simp only [solve] at h
  split at h
  · rcases b with ⟨d', x'⟩ | ⟨d', v'⟩ | ⟨d', M'⟩
    · simp only [Except.error.injEq] at h; exact .inl h.symm
    · simp only at h
      split at h
      · split at h
        · simp only [Except.error.injEq] at h; exact .inr h.symm
        · cases h
      · simp only [Except.error.injEq] at h; exact .inl h.symm
    · simp only at h
      split at h
      · split at h
        · simp only [Except.error.injEq] at h; exact .inr h.symm
        · cases h
      · simp only [Except.error.injEq] at h; exact .inl h.symm
  · simp only [Except.error.injEq] at h; exact .inr h.symm

end Arr

theorem Except.bind_eq_ok {α β : Type} {x : Except PyErr α} {f : α → Except PyErr β} {b : β} (h : (x >>= f) = .ok b) :
    ∃ a, x = .ok a ∧ f a = .ok b := by
  rcases x with e | a
  · cases h
  · exact ⟨a, rfl, h⟩

theorem Except.bind_eq_error {α β : Type} {x : Except PyErr α} {f : α → Except PyErr β} {e : PyErr} (h : (x >>= f) = .error e) :
    x = .error e ∨ ∃ a, x = .ok a ∧ f a = .error e := by
  rcases x with e' | a
  · cases h; exact .inl rfl
  · exact .inr ⟨a, rfl, h⟩

/-- Shapes of the noise that the gain computation accepts. -/
theorem gain_accepts {n m : ℕ} {Hk P Rk K : Arr F} (hH : Hk.shape = [m, n]) (hP : P.shape = [n, n])
    (h : KalmanFilter.gain Hk P Rk = .ok K) : FitsShape Rk.shape [m, m] ∧ ∃ K' : Matrix (Fin n) (Fin m) F, K = .mat .float64 K' := by
  obtain ⟨dH, H, rfl⟩ := Arr.eq_mat hH
  obtain ⟨dP, P, rfl⟩ := Arr.eq_mat hP
  simp only [KalmanFilter.gain, Arr.T_mat, Arr.matmul_mm, Except.bind_ok'] at h
  obtain ⟨S, hS, h⟩ := Except.bind_eq_ok h
  obtain ⟨X, hX, h⟩ := Except.bind_eq_ok h
  simp only [Except.ok.injEq] at h
  obtain ⟨r, c, e, N, rfl, h1, h2⟩ := Arr.zipWith_mat_ok _ hS
  have hm : r = m ∧ c = m := by
    rcases Arr.solve_mat_ok hX with ⟨k, e1, e2, -⟩ | ⟨k, q, e1, e2, -⟩
    · simp [Arr.shape] at e2
    · simp only [Arr.T_mat, Arr.shape, List.cons.injEq, and_true] at e1 e2
      omega
  obtain ⟨rfl, rfl⟩ := hm
  refine ⟨Arr.fits_dims.2 ⟨(Arr.bdim_eq h1).2, (Arr.bdim_eq h2).2⟩, ?_⟩
  simp only [Arr.T_mat, Arr.solve_mm] at hX
  rcases hb : Backend.solve N.transpose (Backend.gemm H P.transpose) with _ | Y
  · simp [hb] at hX
  · simp only [hb, Except.ok.injEq] at hX
    subst hX
    exact ⟨_, h.symm⟩

/-- Covariance part of `predict`. -/
theorem predictCov_accepts {n : ℕ} (hn : 2 ≤ n) {Ak P Qk Pp : Arr F} (hA : Ak.shape = [n, n]) (hP : P.shape = [n, n])
    (h : (do let pat ← P.matmul Ak.T
             let apat ← Ak.matmul pat
             apat.add Qk) = .ok Pp) : FitsShape Qk.shape [n, n] ∧ Pp.shape = [n, n] := by
  obtain ⟨dA, A, rfl⟩ := Arr.eq_mat hA
  obtain ⟨dP, P, rfl⟩ := Arr.eq_mat hP
  simp only [Arr.T_mat, Arr.matmul_mm, Except.bind_ok'] at h
  obtain ⟨r, c, e, N, rfl, h1, h2⟩ := Arr.zipWith_mat_ok _ h
  obtain ⟨rfl, h3⟩ := Arr.bdim_left h1 (by omega)
  obtain ⟨rfl, h4⟩ := Arr.bdim_left h2 (by omega)
  exact ⟨Arr.fits_dims.2 ⟨h3, h4⟩, rfl⟩

/-- The state part of an accepted step: the residual must be a vector. -/
theorem state_accepts {n m : ℕ} (hn : 2 ≤ n) {K : Matrix (Fin n) (Fin m) F} {zk hx x res corr x' s : Arr F}
    (hxs : x.shape = [n] ∨ ∃ c, x.shape = [c, n]) (hhx : (x.shape = [n] → hx.shape = [m] ∨ m = 1 ∧ hx.shape = []) ∧ (∀ c, x.shape = [c, n] → c = n ∧ hx.shape = [m, n]))
    (h1 : zk.sub hx = .ok res) (h2 : (Arr.mat .float64 K).matmul res.atleast1d = .ok corr) (h3 : x.add corr = .ok x') (h4 : x'.assignVec n = .ok s) :
    x.shape = [n] ∧ FitsShape zk.shape [m] ∧ ∃ v : Fin n → F, x' = .vec .float64 v := by
  have hd : x'.shape = [n] → ∃ v : Fin n → F, x' = .vec .float64 v := by
    intro hs
    obtain ⟨d', v, rfl⟩ := Arr.eq_vec hs
    rcases Arr.matmul_mat_ok h2 with ⟨a, b⟩ | ⟨q, a, b⟩
    · obtain ⟨d1, r1, e1⟩ := Arr.eq_vec a
      rw [e1, Arr.matmul_mv] at h2
      cases h2
      rcases hxs with hxs | ⟨c, hxs⟩
      · obtain ⟨d2, x2, rfl⟩ := Arr.eq_vec hxs
        rw [Arr.add_vv] at h3
        cases h3
        simp only [Arr.promote_float_left, Arr.promote_float_right]
        exact ⟨_, rfl⟩
      · obtain ⟨d2, x2, rfl⟩ := Arr.eq_mat hxs
        obtain ⟨_, _, _, _, e, -⟩ := Arr.zipWith_mat_ok _ h3
        cases e
    · obtain ⟨d1, r1, rfl⟩ := Arr.eq_mat b
      obtain ⟨_, _, _, _, e, -⟩ := Arr.zipWith_mat_ok' _ h3
      cases e
  rcases hxs with hxs | ⟨c, hxs⟩
  · refine ⟨hxs, ?_⟩
    obtain ⟨d, xv, rfl⟩ := Arr.eq_vec hxs
    have wide : ∀ q, corr.shape = [n, q] → False := by
      intro q hq
      obtain ⟨d2, C, rfl⟩ := Arr.eq_mat hq
      obtain ⟨r', c', e', N, rfl, e1, e2⟩ := Arr.zipWith_mat_ok' _ h3
      simp only [Arr.dims2, Arr.bdim_one_left, Except.ok.injEq] at e1
      subst e1
      exact Arr.assignVec_mat hn rfl _ _ h4
    rcases hhx.1 rfl with hhx | ⟨rfl, hhx'⟩
    · obtain ⟨dy, y, rfl⟩ := Arr.eq_vec hhx
      rcases Arr.sub_vec_ok h1 with ⟨j, hr, hf⟩ | ⟨c, q, hr, q', hz⟩
      · have ha : res.atleast1d = res := Arr.atleast1d_shape (by rw [hr]; simp)
        rw [ha] at h2
        rcases Arr.matmul_mat_ok h2 with ⟨a, b⟩ | ⟨q, a, b⟩
        · rw [hr] at a
          simp only [List.cons.injEq, and_true] at a
          refine ⟨hf a, hd ?_⟩
          rcases Arr.add_vec_ok hn h3 with ⟨-, h⟩ | ⟨c, e, N, -, d', h⟩
          · exact h
          · rw [b] at h; simp at h
        · rw [hr] at a; simp at a
      · have ha : res.atleast1d = res := Arr.atleast1d_shape (by rw [hr]; simp)
        rw [ha] at h2
        rcases Arr.matmul_mat_ok h2 with ⟨a, b⟩ | ⟨q2, a, b⟩
        · rw [hr] at a; simp at a
        · exact (wide _ b).elim
    · obtain ⟨dy, y, rfl⟩ := Arr.eq_scalar hhx'
      have hvec : ∀ k, zk.shape = [k] → res.shape = [k] := by
        intro k hk
        obtain ⟨dz, z, rfl⟩ := Arr.eq_vec hk
        rw [Arr.sub_vs] at h1
        cases h1
        rfl
      rcases hz : zk.shape with _ | ⟨k, _ | ⟨q, _ | ⟨q2, l⟩⟩⟩
      · refine ⟨FitsShape.nil _, hd ?_⟩
        obtain ⟨dz, z, rfl⟩ := Arr.eq_scalar hz
        rw [Arr.sub_ss] at h1
        cases h1
        rcases Arr.matmul_mat_ok h2 with ⟨a, b⟩ | ⟨q, a, b⟩
        · rcases Arr.add_vec_ok hn h3 with ⟨-, h⟩ | ⟨c, e, N, -, d', h⟩
          · exact h
          · rw [b] at h; simp at h
        · simp [Arr.atleast1d, Arr.shape] at a
      · have hr := hvec k hz
        have ha : res.atleast1d = res := Arr.atleast1d_shape (by rw [hr]; simp)
        rw [ha] at h2
        rcases Arr.matmul_mat_ok h2 with ⟨a, b⟩ | ⟨q, a, b⟩
        · rw [hr] at a
          simp only [List.cons.injEq, and_true] at a
          subst a
          refine ⟨FitsShape.one.2 (.inl rfl), hd ?_⟩
          rcases Arr.add_vec_ok hn h3 with ⟨-, h⟩ | ⟨c, e, N, -, d', h⟩
          · exact h
          · rw [b] at h; simp at h
        · rw [hr] at a; simp at a
      · obtain ⟨dz, z, rfl⟩ := Arr.eq_mat hz
        obtain ⟨r', c', e', N, rfl, e1, e2⟩ := Arr.zipWith_mat_ok _ h1
        rcases Arr.matmul_mat_ok h2 with ⟨a, b⟩ | ⟨q2, a, b⟩
        · simp [Arr.atleast1d, Arr.shape] at a
        · exact (wide _ b).elim
      · rcases zk with _ | _ | _ <;> simp [Arr.shape] at hz
  · exfalso
    obtain ⟨rfl, hhx⟩ := hhx.2 c hxs
    obtain ⟨d, X, rfl⟩ := Arr.eq_mat hxs
    obtain ⟨_, _, _, N, rfl, e1, -⟩ := Arr.zipWith_mat_ok _ h3
    obtain ⟨rfl, -⟩ := Arr.bdim_left e1 (by omega)
    exact Arr.assignVec_mat hn rfl _ _ h4

/-- The covariance part of an accepted step. -/
theorem cov_accepts {n m : ℕ} {K : Matrix (Fin n) (Fin m) F} {Hk P P' : Arr F} (hH : Hk.shape = [m, n]) (hP : P.shape = [n, n])
    (h : (do let kh ← (Arr.mat .float64 K).matmul Hk
             let ikh ← (Arr.identity n : Arr F).sub kh
             ikh.matmul P) = .ok P') : ∃ M : Matrix (Fin n) (Fin n) F, P' = .mat .float64 M := by
  obtain ⟨dH, H, rfl⟩ := Arr.eq_mat hH
  obtain ⟨dP, P, rfl⟩ := Arr.eq_mat hP
  simp only [Arr.matmul_mm, Except.bind_ok', identity_eq, Arr.sub_mm, Arr.promote_float_left, Arr.promote_float_right,
    Except.ok.injEq] at h
  exact ⟨_, h.symm⟩

namespace KalmanFilter

theorem step_accepts {n m : ℕ} (hn : 2 ≤ n) {Ak Hk Bk uk zk Qk Rk x P : Arr F} {g : Option (Arr F)} {xP o : Arr F × Arr F}
    (hA : Ak.shape = [n, n]) (hH : Hk.shape = [m, n]) (hs : Shaped n x P)
    (h : step n (Arr.identity n) (Ak, Hk, Bk, uk, zk, Qk, Rk) x P = (g, .ok (xP, o))) :
    (FitsShape Qk.shape [n, n] ∧ FitsShape Rk.shape [m, m] ∧ FitsShape zk.shape [m] ∧
      (Bk.Blank ∨ uk.Blank ∨ ControlFits n Bk.shape uk.shape)) ∧ o = xP ∧ Shaped n xP.1 xP.2 ∧ ∃ K, g = some K := by
  simp only [step] at h
  rcases hp : predict Ak x (some Bk) (some uk) P Qk with e | ⟨xp, Pp⟩
  · rw [hp] at h; simp at h
  rw [hp] at h
  simp only at h
  rcases hg : gain Hk Pp Rk with e | K
  · rw [hg] at h; simp at h
  rw [hg] at h
  simp only [Prod.mk.injEq] at h
  obtain ⟨hgK, h⟩ := h
  -- the prediction
  have hcov : FitsShape Qk.shape [n, n] ∧ Pp.shape = [n, n] := by
    rcases hb : (Bk.isnanAll || uk.isnanAll) with _ | _
    · rw [predict_ctrl hb] at hp
      obtain ⟨ax, -, hp⟩ := Except.bind_eq_ok hp
      obtain ⟨bu, -, hp⟩ := Except.bind_eq_ok hp
      obtain ⟨xq, -, hp⟩ := Except.bind_eq_ok hp
      obtain ⟨pat, h1, hp⟩ := Except.bind_eq_ok hp
      obtain ⟨apat, h2, hp⟩ := Except.bind_eq_ok hp
      obtain ⟨Pq, h3, hp⟩ := Except.bind_eq_ok hp
      cases hp
      exact predictCov_accepts hn hA hs.2 (by rw [h1, Except.bind_ok', h2, Except.bind_ok', h3])
    · rw [predict_skip hb] at hp
      obtain ⟨xq, -, hp⟩ := Except.bind_eq_ok hp
      obtain ⟨pat, h1, hp⟩ := Except.bind_eq_ok hp
      obtain ⟨apat, h2, hp⟩ := Except.bind_eq_ok hp
      obtain ⟨Pq, h3, hp⟩ := Except.bind_eq_ok hp
      cases hp
      exact predictCov_accepts hn hA hs.2 (by rw [h1, Except.bind_ok', h2, Except.bind_ok', h3])
  have hmean : (xp.shape = [n] ∧ (Bk.Blank ∨ uk.Blank ∨ ControlFits n Bk.shape uk.shape)) ∨ ∃ c, xp.shape = [c, n] := by
    obtain ⟨dA, A, rfl⟩ := Arr.eq_mat hA
    obtain ⟨dx, xv, rfl⟩ := Arr.eq_vec hs.1
    rcases hb : (Bk.isnanAll || uk.isnanAll) with _ | _
    · rw [predict_ctrl hb] at hp
      rw [Arr.matmul_mv] at hp
      simp only [Except.bind_ok'] at hp
      obtain ⟨bu, h1, hp⟩ := Except.bind_eq_ok hp
      obtain ⟨xq, h2, hp⟩ := Except.bind_eq_ok hp
      obtain ⟨pat, -, hp⟩ := Except.bind_eq_ok hp
      obtain ⟨apat, -, hp⟩ := Except.bind_eq_ok hp
      obtain ⟨Pq, -, hp⟩ := Except.bind_eq_ok hp
      cases hp
      rcases Arr.add_vec_ok hn h2 with ⟨hf, hsx⟩ | ⟨c, e, N, rfl, -⟩
      · left
        refine ⟨hsx, .inr (.inr ?_)⟩
        rcases Arr.matmul_shape h1 with ⟨p, e1, e2, e3⟩ | ⟨r, p, e1, e2, e3⟩ | ⟨p, q, e1, e2, e3⟩ | ⟨r, p, q, e1, e2, e3⟩
        · exact .inl ⟨p, e2, .inl e1⟩
        · rw [e3, FitsShape.one] at hf
          rcases hf with rfl | rfl
          · exact .inl ⟨p, e2, .inr (.inr e1)⟩
          · exact .inl ⟨p, e2, .inr (.inl e1)⟩
        · rw [e3, FitsShape.one] at hf
          rcases hf with rfl | rfl
          · exact .inr ⟨p, e1, .inr e2⟩
          · exact .inr ⟨p, e1, .inl e2⟩
        · rw [e3] at hf; exact absurd hf FitsShape.two_one
      · exact .inr ⟨c, rfl⟩
    · rw [predict_skip hb, Arr.matmul_mv] at hp
      simp only [Except.bind_ok'] at hp
      obtain ⟨pat, -, hp⟩ := Except.bind_eq_ok hp
      obtain ⟨apat, -, hp⟩ := Except.bind_eq_ok hp
      obtain ⟨Pq, -, hp⟩ := Except.bind_eq_ok hp
      cases hp
      left
      refine ⟨rfl, ?_⟩
      simp only [Bool.or_eq_true, Arr.isnanAll_iff_blank] at hb
      tauto
  obtain ⟨hR, K', rfl⟩ := gain_accepts hH hcov.2 hg
  -- the correction
  obtain ⟨xP', hc, h⟩ := Except.bind_eq_ok h
  obtain ⟨srow, h4, h⟩ := Except.bind_eq_ok h
  obtain ⟨erow, h5, h⟩ := Except.bind_eq_ok h
  simp only [Except.ok.injEq, Prod.mk.injEq] at h
  obtain ⟨rfl, ho⟩ := h
  simp only [correct] at hc
  obtain ⟨hx, c1, hc⟩ := Except.bind_eq_ok hc
  obtain ⟨res, c2, hc⟩ := Except.bind_eq_ok hc
  obtain ⟨corr, c3, hc⟩ := Except.bind_eq_ok hc
  obtain ⟨x', c4, hc⟩ := Except.bind_eq_ok hc
  obtain ⟨kh, c5, hc⟩ := Except.bind_eq_ok hc
  obtain ⟨ikh, c6, hc⟩ := Except.bind_eq_ok hc
  obtain ⟨P', c7, hc⟩ := Except.bind_eq_ok hc
  cases hc
  have hhx : (xp.shape = [n] → hx.shape = [m] ∨ m = 1 ∧ hx.shape = []) ∧ (∀ c, xp.shape = [c, n] → c = n ∧ hx.shape = [m, n]) := by
    obtain ⟨dH, H, rfl⟩ := Arr.eq_mat hH
    constructor
    · intro hsx
      rcases Arr.matmul_mat_ok c1 with ⟨-, b⟩ | ⟨q, a, -⟩
      · exact .inl b
      · rw [hsx] at a; simp at a
    · intro c hsx
      rcases Arr.matmul_mat_ok c1 with ⟨a, b⟩ | ⟨q, a, b⟩
      · rw [hsx] at a; simp at a
      · rw [hsx] at a
        simp only [List.cons.injEq, and_true] at a
        obtain ⟨rfl, rfl⟩ := a
        exact ⟨rfl, b⟩
  obtain ⟨hsx, hz, v, rfl⟩ := state_accepts hn (hmean.imp (·.1) id) hhx c2 c3 c4 h4
  obtain ⟨M, rfl⟩ := cov_accepts (P' := P') hH hcov.2 (by rw [c5, Except.bind_ok', c6, Except.bind_ok', c7])
  have hctl : Bk.Blank ∨ uk.Blank ∨ ControlFits n Bk.shape uk.shape := by
    rcases hmean with h | ⟨c, h⟩
    · exact h.2
    · rw [hsx] at h; simp at h
  rw [Arr.assignVec_vec] at h4
  rw [Arr.assignMat_mat] at h5
  cases h4; cases h5
  exact ⟨⟨hcov.1, hR, hz, hctl⟩, ho.symm, ⟨rfl, rfl⟩, _, hgK.symm⟩

end KalmanFilter

namespace ExtendedKalmanFilter

open KalmanFilter (Shaped)

/-- Callbacks with the documented shapes (they may raise); nothing is said about the data. -/
structure CallbackShapes (n m : ℕ) (kf : ExtendedKalmanFilter F) : Prop where
  f : ∀ x u y, x.shape = [n] → kf.f x u = .ok y → y.shape = [n]
  jA : ∀ x u y, x.shape = [n] → kf.jacobianA x u = .ok y → y.shape = [n, n]
  h : ∀ x y, x.shape = [n] → kf.h x = .ok y → y.shape = [m] ∨ m = 1 ∧ y.shape = []
  jH : ∀ x y, x.shape = [n] → kf.jacobianH x = .ok y → y.shape = [m, n]

theorem step_accepts {n m : ℕ} (hn : 2 ≤ n) {kf : ExtendedKalmanFilter F} (hsz : kf.stateSize = n) (hI : kf.I = Arr.identity n)
    (hcb : kf.CallbackShapes n m) {uk zk Qk Rk x P : Arr F} {g : Option (Arr F)} {xP o : Arr F × Arr F}
    (hs : Shaped n x P) (h : step kf (uk, zk, Qk, Rk) x P = (g, .ok (xP, o))) :
    (FitsShape Qk.shape [n, n] ∧ FitsShape Rk.shape [m, m] ∧ FitsShape zk.shape [m]) ∧ o = xP ∧ Shaped n xP.1 xP.2 ∧ ∃ K, g = some K := by
  simp only [step] at h
  rcases hp : predict kf x (some uk) P Qk with e | ⟨xp, Pp⟩
  · rw [hp] at h; simp at h
  rw [hp] at h
  simp only at h
  rcases hj : kf.jacobianH xp with e | Hk
  · rw [hj] at h; simp at h
  rw [hj] at h
  simp only at h
  rcases hg : gain Hk Pp Rk with e | K
  · rw [hg] at h; simp at h
  rw [hg] at h
  simp only [Prod.mk.injEq] at h
  obtain ⟨hgK, h⟩ := h
  simp only [predict] at hp
  obtain ⟨Ak, p1, hp⟩ := Except.bind_eq_ok hp
  obtain ⟨xq, p2, hp⟩ := Except.bind_eq_ok hp
  obtain ⟨pat, p3, hp⟩ := Except.bind_eq_ok hp
  obtain ⟨apat, p4, hp⟩ := Except.bind_eq_ok hp
  obtain ⟨Pq, p5, hp⟩ := Except.bind_eq_ok hp
  cases hp
  have hxp := hcb.f _ _ _ hs.1 p2
  have hA := hcb.jA _ _ _ hs.1 p1
  have hH := hcb.jH _ _ hxp hj
  have hcov := predictCov_accepts (Qk := Qk) (Pp := Pp) hn hA hs.2 (by rw [p3, Except.bind_ok', p4, Except.bind_ok', p5])
  obtain ⟨hR, K', rfl⟩ := gain_accepts hH hcov.2 (show KalmanFilter.gain Hk Pp Rk = .ok K from hg)
  obtain ⟨xP', hc, h⟩ := Except.bind_eq_ok h
  obtain ⟨srow, h4, h⟩ := Except.bind_eq_ok h
  obtain ⟨erow, h5, h⟩ := Except.bind_eq_ok h
  simp only [Except.ok.injEq, Prod.mk.injEq] at h
  obtain ⟨rfl, ho⟩ := h
  simp only [correct] at hc
  obtain ⟨hx, c1, hc⟩ := Except.bind_eq_ok hc
  obtain ⟨res, c2, hc⟩ := Except.bind_eq_ok hc
  obtain ⟨corr, c3, hc⟩ := Except.bind_eq_ok hc
  obtain ⟨x', c4, hc⟩ := Except.bind_eq_ok hc
  obtain ⟨kh, c5, hc⟩ := Except.bind_eq_ok hc
  obtain ⟨ikh, c6, hc⟩ := Except.bind_eq_ok hc
  obtain ⟨P', c7, hc⟩ := Except.bind_eq_ok hc
  cases hc
  rw [hsz] at h4 h5
  rw [hI] at c6
  obtain ⟨-, hz, v, rfl⟩ := state_accepts hn (.inl hxp) ⟨fun _ => hcb.h _ _ hxp c1, fun c h => by rw [hxp] at h; simp at h⟩ c2 c3 c4 h4
  obtain ⟨M, rfl⟩ := cov_accepts (P' := P') hH hcov.2 (by rw [c5, Except.bind_ok', c6, Except.bind_ok', c7])
  rw [Arr.assignVec_vec] at h4
  rw [Arr.assignMat_mat] at h5
  cases h4; cases h5
  exact ⟨⟨hcov.1, hR, hz⟩, ho.symm, ⟨rfl, rfl⟩, _, hgK.symm⟩

end ExtendedKalmanFilter

/-! ## Exceptions -/

/-- ValueError or LinAlgError. -/
def ShapeOrSingular (e : PyErr) : Prop := e = .valueError ∨ e = .linAlgError

theorem isNanAll_some (a : Arr F) : isNanAll (some a) = .ok a.isnanAll := rfl

theorem gain_error {Hk P Rk : Arr F} {e : PyErr} (h : KalmanFilter.gain Hk P Rk = .error e) : ShapeOrSingular e := by
  simp only [KalmanFilter.gain] at h
  rcases Except.bind_eq_error h with h | ⟨_, -, h⟩
  · exact .inl (Arr.matmul_error h)
  rcases Except.bind_eq_error h with h | ⟨_, -, h⟩
  · exact .inl (Arr.matmul_error h)
  rcases Except.bind_eq_error h with h | ⟨_, -, h⟩
  · exact .inl (Arr.add_error h)
  rcases Except.bind_eq_error h with h | ⟨_, -, h⟩
  · exact .inl (Arr.matmul_error h)
  rcases Except.bind_eq_error h with h | ⟨_, -, h⟩
  · exact Arr.solve_error h
  · cases h

theorem cov_error {Ak P Qk x : Arr F} {e : PyErr} (h : (do
      let pat ← P.matmul Ak.T
      let apat ← Ak.matmul pat
      let Pp ← apat.add Qk
      .ok (x, Pp) : Except PyErr (Arr F × Arr F)) = .error e) : ShapeOrSingular e := by
  rcases Except.bind_eq_error h with h | ⟨_, -, h⟩
  · exact .inl (Arr.matmul_error h)
  rcases Except.bind_eq_error h with h | ⟨_, -, h⟩
  · exact .inl (Arr.matmul_error h)
  rcases Except.bind_eq_error h with h | ⟨_, -, h⟩
  · exact .inl (Arr.add_error h)
  · cases h

theorem predict_raises {Ak x Bk uk P Qk : Arr F} {e : PyErr} (h : KalmanFilter.predict Ak x (some Bk) (some uk) P Qk = .error e) :
    ShapeOrSingular e := by
  rcases hb : (Bk.isnanAll || uk.isnanAll) with _ | _
  · rw [KalmanFilter.predict_ctrl hb] at h
    rcases Except.bind_eq_error h with h | ⟨_, -, h⟩
    · exact .inl (Arr.matmul_error h)
    rcases Except.bind_eq_error h with h | ⟨_, -, h⟩
    · exact .inl (Arr.matmul_error h)
    rcases Except.bind_eq_error h with h | ⟨_, -, h⟩
    · exact .inl (Arr.add_error h)
    · exact cov_error h
  · rw [KalmanFilter.predict_skip hb] at h
    rcases Except.bind_eq_error h with h | ⟨_, -, h⟩
    · exact .inl (Arr.matmul_error h)
    · exact cov_error h

theorem correct_tail_error {I K Hk x P zk hx : Arr F} {e : PyErr} (h : (do
      let res ← zk.sub hx
      let corr ← K.matmul res.atleast1d
      let xkPost ← x.add corr
      let kh ← K.matmul Hk
      let ikh ← I.sub kh
      let PkPost ← ikh.matmul P
      .ok (xkPost, PkPost) : Except PyErr (Arr F × Arr F)) = .error e) : ShapeOrSingular e := by
  rcases Except.bind_eq_error h with h | ⟨_, -, h⟩
  · exact .inl (Arr.sub_error h)
  rcases Except.bind_eq_error h with h | ⟨_, -, h⟩
  · exact .inl (Arr.matmul_error h)
  rcases Except.bind_eq_error h with h | ⟨_, -, h⟩
  · exact .inl (Arr.add_error h)
  rcases Except.bind_eq_error h with h | ⟨_, -, h⟩
  · exact .inl (Arr.matmul_error h)
  rcases Except.bind_eq_error h with h | ⟨_, -, h⟩
  · exact .inl (Arr.sub_error h)
  rcases Except.bind_eq_error h with h | ⟨_, -, h⟩
  · exact .inl (Arr.matmul_error h)
  · cases h

theorem assign_error {s : ℕ} {y : Except PyErr (Arr F × Arr F)} {e : PyErr} (h : (do
      let xP ← y
      let srow ← xP.1.assignVec s
      let erow ← xP.2.assignMat s
      .ok (xP, (srow, erow)) : Except PyErr ((Arr F × Arr F) × (Arr F × Arr F))) = .error e) : y = .error e ∨ ShapeOrSingular e := by
  rcases Except.bind_eq_error h with h | ⟨_, -, h⟩
  · exact .inl h
  rcases Except.bind_eq_error h with h | ⟨_, -, h⟩
  · exact .inr (.inl (Arr.assignVec_error h))
  rcases Except.bind_eq_error h with h | ⟨_, -, h⟩
  · exact .inr (.inl (Arr.assignMat_error h))
  · cases h

theorem KalmanFilter.step_raises {s : ℕ} {I : Arr F} {r : KalmanFilter.Row F} {x P : Arr F} {g : Option (Arr F)} {e : PyErr}
    (h : KalmanFilter.step s I r x P = (g, .error e)) : ShapeOrSingular e := by
  obtain ⟨Ak, Hk, Bk, uk, zk, Qk, Rk⟩ := r
  simp only [KalmanFilter.step] at h
  rcases hp : KalmanFilter.predict Ak x (some Bk) (some uk) P Qk with e' | ⟨xp, Pp⟩
  · rw [hp] at h
    simp only [Prod.mk.injEq, Except.error.injEq] at h
    rw [h.2] at hp
    exact predict_raises hp
  rw [hp] at h
  simp only at h
  rcases hg : KalmanFilter.gain Hk Pp Rk with e' | K
  · rw [hg] at h
    simp only [Prod.mk.injEq, Except.error.injEq] at h
    rw [h.2] at hg
    exact gain_error hg
  rw [hg] at h
  simp only [Prod.mk.injEq] at h
  rcases assign_error h.2 with hc | hc
  · simp only [KalmanFilter.correct] at hc
    rcases Except.bind_eq_error hc with hc | ⟨_, -, hc⟩
    · exact .inl (Arr.matmul_error hc)
    · exact correct_tail_error hc
  · exact hc

theorem ExtendedKalmanFilter.step_raises {kf : ExtendedKalmanFilter F} {r : ExtendedKalmanFilter.Row F} {x P : Arr F} {g : Option (Arr F)} {e : PyErr}
    (h : ExtendedKalmanFilter.step kf r x P = (g, .error e)) : ShapeOrSingular e ∨ kf.CallbackRaises e := by
  obtain ⟨uk, zk, Qk, Rk⟩ := r
  simp only [ExtendedKalmanFilter.step] at h
  rcases hp : ExtendedKalmanFilter.predict kf x (some uk) P Qk with e' | ⟨xp, Pp⟩
  · rw [hp] at h
    simp only [Prod.mk.injEq, Except.error.injEq] at h
    rw [h.2] at hp
    simp only [ExtendedKalmanFilter.predict] at hp
    rcases Except.bind_eq_error hp with h | ⟨_, -, hp⟩
    · exact .inr (.inl ⟨_, _, .inr h⟩)
    rcases Except.bind_eq_error hp with h | ⟨_, -, hp⟩
    · exact .inr (.inl ⟨_, _, .inl h⟩)
    · exact .inl (cov_error hp)
  rw [hp] at h
  simp only at h
  rcases hj : kf.jacobianH xp with e' | Hk
  · rw [hj] at h
    simp only [Prod.mk.injEq, Except.error.injEq] at h
    rw [h.2] at hj
    exact .inr (.inr ⟨_, .inr hj⟩)
  rw [hj] at h
  simp only at h
  rcases hg : ExtendedKalmanFilter.gain Hk Pp Rk with e' | K
  · rw [hg] at h
    simp only [Prod.mk.injEq, Except.error.injEq] at h
    rw [h.2] at hg
    exact .inl (gain_error (show KalmanFilter.gain Hk Pp Rk = .error e from hg))
  rw [hg] at h
  simp only [Prod.mk.injEq] at h
  rcases assign_error h.2 with hc | hc
  · simp only [ExtendedKalmanFilter.correct] at hc
    rcases Except.bind_eq_error hc with hc | ⟨_, -, hc⟩
    · exact .inr (.inr ⟨_, .inl hc⟩)
    · exact .inl (correct_tail_error hc)
  · exact .inl hc

end KK
