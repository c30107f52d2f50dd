import Verif.Props.History

/-!
# Partial failure, and independence of covariances from the data (C07, C08)
-/

set_option linter.unusedSectionVars false
set_option linter.unusedSimpArgs false

namespace KK

variable {F : Type} [Backend F]

/-! ## C07 -/

theorem KalmanFilter.correct_error {I K H x P z : Arr F} {e : PyErr}
    (h : KalmanFilter.correct I K H x P z = .error e) : e = .valueError := by
  simp only [KalmanFilter.correct] at h
  rcases h1 : H.matmul x with e1 | hx
  · simp [h1] at h; subst h; exact Arr.matmul_error h1
  simp only [h1, Except.bind_ok'] at h
  rcases h2 : z.sub hx with e1 | res
  · simp [h2] at h; subst h; exact Arr.sub_error h2
  simp only [h2, Except.bind_ok'] at h
  rcases h3 : K.matmul res.atleast1d with e1 | corr
  · simp [h3] at h; subst h; exact Arr.matmul_error h3
  simp only [h3, Except.bind_ok'] at h
  rcases h4 : x.add corr with e1 | xp
  · simp [h4] at h; subst h; exact Arr.add_error h4
  simp only [h4, Except.bind_ok'] at h
  rcases h5 : K.matmul H with e1 | kh
  · simp [h5] at h; subst h; exact Arr.matmul_error h5
  simp only [h5, Except.bind_ok'] at h
  rcases h6 : I.sub kh with e1 | ikh
  · simp [h6] at h; subst h; exact Arr.sub_error h6
  simp only [h6, Except.bind_ok'] at h
  rcases h7 : ikh.matmul P with e1 | Pp
  · simp [h7] at h; subst h; exact Arr.matmul_error h7
  simp [h7] at h

theorem KalmanFilter.step_error {s : ℕ} {I : Arr F} {r : KalmanFilter.Row F} {x P : Arr F}
    {g : Option (Arr F)} {e : PyErr} (h : KalmanFilter.step s I r x P = (g, .error e))
    (he : e = .linAlgError) : g = none := by
  obtain ⟨Ak, Hk, Bk, uk, zk, Qk, Rk⟩ := r
  simp only [KalmanFilter.step] at h
  rcases h1 : KalmanFilter.predict Ak x (some Bk) (some uk) P Qk with e1 | ⟨xp, Pp⟩
  · simp [h1] at h; exact h.1.symm
  simp only [h1] at h
  rcases h2 : KalmanFilter.gain Hk Pp Rk with e1 | K
  · simp [h2] at h; exact h.1.symm
  simp only [h2, Prod.mk.injEq] at h
  obtain ⟨-, h⟩ := h
  exfalso
  rcases h3 : KalmanFilter.correct I K Hk xp Pp zk with e1 | xP
  · simp [h3] at h; subst h; simp [KalmanFilter.correct_error h3] at he
  simp only [h3, Except.bind_ok'] at h
  rcases h4 : Arr.assignVec s xP.1 with e1 | srow
  · simp [h4] at h; subst h; simp [Arr.assignVec_error h4] at he
  simp only [h4, Except.bind_ok'] at h
  rcases h5 : Arr.assignMat s xP.2 with e1 | erow
  · simp [h5] at h; subst h; simp [Arr.assignMat_error h5] at he
  simp [h5] at h

/-- C07: if `filter` raises `e`, there is a step `k` such that filtering the first `k` observations returns
and filtering the first `k+1` raises the same `e` with the same gains; the record then consists of the gains
of steps `0..k-1`, followed by at most the gain of step `k`, and by nothing if `e` is LinAlgError. -/
theorem C07_partial_failure (kf kf' : KalmanFilter F) (Z : NDArray F) (U : Option (NDArray F)) (e : PyErr)
    (hi : kf.AllIterable Z U) (h : (KalmanFilter.filter Z U).run kf = (.error e, kf')) :
    ∃ k < kf.steps Z U, ∃ r kf1,
      (KalmanFilter.filter (Z.take k) U).run kf = (.ok r, kf1) ∧
      (KalmanFilter.filter (Z.take (k + 1)) U).run kf = (.error e, kf') ∧
      kf1.kalmanGains.length = kf.kalmanGains.length + k ∧
      (kf'.kalmanGains = kf1.kalmanGains ∨ ∃ K, kf'.kalmanGains = kf1.kalmanGains ++ [K]) ∧
      (e = .linAlgError → kf'.kalmanGains = kf1.kalmanGains) := by
  rw [KalmanFilter.filter_iter hi] at h
  rcases he : (kf.tr Z U).err with _ | e'
  · simp [he] at h
  simp only [he, Prod.mk.injEq, Except.error.injEq] at h
  obtain ⟨rfl, rfl⟩ := h
  obtain ⟨k, r, g, hk, hr, h1, h2, h3, h4, h5⟩ := trace_fail _ _ _ _ he
  rw [KalmanFilter.zrows_length] at hk
  refine ⟨k, hk, ?_⟩
  rw [KalmanFilter.filter_iter (hi.takeZ k), KalmanFilter.filter_iter (hi.takeZ (k + 1))]
  have z1 := kf.zrows_takeZ Z U k
  have z2 := kf.zrows_takeZ Z U (k + 1)
  simp only [KalmanFilter.tr, z1, z2, h1, h2, h3]
  refine ⟨_, _, rfl, trivial, ?_, ?_, ?_⟩
  · have := trace_gains_length _ (KalmanFilter.stepGain _ _) _ _ _ h1
    rw [List.length_take, KalmanFilter.zrows_length] at this
    simp [KalmanFilter.addGains, this]; omega
  · simp only [KalmanFilter.addGains, h5]
    cases g with
    | none => left; simp
    | some K => right; exact ⟨K, by simp⟩
  · intro hl
    have := KalmanFilter.step_error h4 hl
    simp [KalmanFilter.addGains, h5, this]

theorem ExtendedKalmanFilter.correct_error {kf : ExtendedKalmanFilter F} {K H x P z : Arr F} {e : PyErr}
    (hh : ∀ x, kf.h x ≠ .error .linAlgError)
    (h : kf.correct K H x P z = .error e) : e ≠ .linAlgError := by
  rintro rfl
  simp only [ExtendedKalmanFilter.correct] at h
  rcases h1 : kf.h x with e1 | hx
  · simp [h1] at h; subst h; exact hh x h1
  simp only [h1, Except.bind_ok'] at h
  rcases h2 : z.sub hx with e1 | res
  · simp [h2] at h; subst h; simpa using Arr.sub_error h2
  simp only [h2, Except.bind_ok'] at h
  rcases h3 : K.matmul res.atleast1d with e1 | corr
  · simp [h3] at h; subst h; simpa using Arr.matmul_error h3
  simp only [h3, Except.bind_ok'] at h
  rcases h4 : x.add corr with e1 | xp
  · simp [h4] at h; subst h; simpa using Arr.add_error h4
  simp only [h4, Except.bind_ok'] at h
  rcases h5 : K.matmul H with e1 | kh
  · simp [h5] at h; subst h; simpa using Arr.matmul_error h5
  simp only [h5, Except.bind_ok'] at h
  rcases h6 : kf.I.sub kh with e1 | ikh
  · simp [h6] at h; subst h; simpa using Arr.sub_error h6
  simp only [h6, Except.bind_ok'] at h
  rcases h7 : ikh.matmul P with e1 | Pp
  · simp [h7] at h; subst h; simpa using Arr.matmul_error h7
  simp [h7] at h

theorem ExtendedKalmanFilter.step_error {kf : ExtendedKalmanFilter F}
    {r : ExtendedKalmanFilter.Row F} {x P : Arr F}
    {g : Option (Arr F)} {e : PyErr} (hh : ∀ x, kf.h x ≠ .error .linAlgError)
    (h : kf.step r x P = (g, .error e)) (he : e = .linAlgError) : g = none := by
  obtain ⟨uk, zk, Qk, Rk⟩ := r
  simp only [ExtendedKalmanFilter.step] at h
  rcases h1 : kf.predict x (some uk) P Qk with e1 | ⟨xp, Pp⟩
  · simp [h1] at h; exact h.1.symm
  simp only [h1] at h
  rcases h0 : kf.jacobianH xp with e1 | Hk
  · simp [h0] at h; exact h.1.symm
  simp only [h0] at h
  rcases h2 : ExtendedKalmanFilter.gain Hk Pp Rk with e1 | K
  · simp [h2] at h; exact h.1.symm
  simp only [h2, Prod.mk.injEq] at h
  obtain ⟨-, h⟩ := h
  exfalso
  rcases h3 : kf.correct K Hk xp Pp zk with e1 | xP
  · simp [h3] at h; subst h; exact ExtendedKalmanFilter.correct_error hh h3 he
  simp only [h3, Except.bind_ok'] at h
  rcases h4 : Arr.assignVec kf.stateSize xP.1 with e1 | srow
  · simp [h4] at h; subst h; simp [Arr.assignVec_error h4] at he
  simp only [h4, Except.bind_ok'] at h
  rcases h5 : Arr.assignMat kf.stateSize xP.2 with e1 | erow
  · simp [h5] at h; subst h; simp [Arr.assignMat_error h5] at he
  simp [h5] at h

/-- C07 for the extended filter (for LinAlgError: provided `h` itself does not raise LinAlgError). -/
theorem C07_ekf_partial_failure (kf kf' : ExtendedKalmanFilter F) (Z : NDArray F)
    (U : Option (NDArray F)) (e : PyErr)
    (hi : kf.AllIterable Z U) (h : (ExtendedKalmanFilter.filter Z U).run kf = (.error e, kf')) :
    ∃ k < kf.steps Z U, ∃ r kf1,
      (ExtendedKalmanFilter.filter (Z.take k) U).run kf = (.ok r, kf1) ∧
      (ExtendedKalmanFilter.filter (Z.take (k + 1)) U).run kf = (.error e, kf') ∧
      kf1.kalmanGains.length = kf.kalmanGains.length + k ∧
      (kf'.kalmanGains = kf1.kalmanGains ∨ ∃ K, kf'.kalmanGains = kf1.kalmanGains ++ [K]) ∧
      ((∀ x, kf.h x ≠ .error .linAlgError) → e = .linAlgError → kf'.kalmanGains = kf1.kalmanGains) := by
  rw [ExtendedKalmanFilter.filter_iter hi] at h
  rcases he : (kf.tr Z U).err with _ | e'
  · simp [he] at h
  simp only [he, Prod.mk.injEq, Except.error.injEq] at h
  obtain ⟨rfl, rfl⟩ := h
  obtain ⟨k, r, g, hk, hr, h1, h2, h3, h4, h5⟩ := trace_fail _ _ _ _ he
  rw [ExtendedKalmanFilter.zrows_length] at hk
  refine ⟨k, hk, ?_⟩
  rw [ExtendedKalmanFilter.filter_iter (hi.takeZ k), ExtendedKalmanFilter.filter_iter (hi.takeZ (k + 1))]
  have z1 := kf.zrows_takeZ Z U k
  have z2 := kf.zrows_takeZ Z U (k + 1)
  simp only [ExtendedKalmanFilter.tr, z1, z2, h1, h2, h3]
  refine ⟨_, _, rfl, trivial, ?_, ?_, ?_⟩
  · have := trace_gains_length _ (ExtendedKalmanFilter.stepGain _) _ _ _ h1
    rw [List.length_take, ExtendedKalmanFilter.zrows_length] at this
    simp [ExtendedKalmanFilter.addGains, this]; omega
  · simp only [ExtendedKalmanFilter.addGains, h5]
    cases g with
    | none => left; simp
    | some K => right; exact ⟨K, by simp⟩
  · intro hh hl
    have := ExtendedKalmanFilter.step_error hh h4 hl
    simp [ExtendedKalmanFilter.addGains, h5, this]

/-- Failing runs exist: singular innovation covariance at the second step, and a misshapen third
observation. -/
example : ∃ kf', (KalmanFilter.filter Ex.zs none).run
    { Ex.cv 3 with H := .stack [Ex.row2 (some 1) (some 0), Ex.row2 (some 0) (some 0), Ex.row2 (some 1) (some 0)],
                   R := .stack [Ex.mat1 (some 1), Ex.mat1 (some 0), Ex.mat1 (some 1)] } =
      (.error .linAlgError, kf') :=
  (Ex.raised_iff _ _).1 (by decide +kernel)
example : ∃ kf', (KalmanFilter.filter (.stack [Ex.vec1 (some 1), Ex.vec1 (some 1), Ex.vec2 (some 1) (some 1)])
    none).run (Ex.cv 3) = (.error .valueError, kf') :=
  (Ex.raised_iff _ _).1 (by decide +kernel)

/-! ## C08 -/

/-- The covariance part of a successful `predict` does not depend on the mean or the control. -/
theorem KalmanFilter.predict_cov {Ak x x' Bk Bk' uk uk' P Qk : Arr F} {a b : Arr F × Arr F}
    (h : KalmanFilter.predict Ak x (some Bk) (some uk) P Qk = .ok a)
    (h' : KalmanFilter.predict Ak x' (some Bk') (some uk') P Qk = .ok b) : a.2 = b.2 := by
  have key : ∀ {x Bk uk : Arr F} {a : Arr F × Arr F},
      KalmanFilter.predict Ak x (some Bk) (some uk) P Qk = .ok a →
      (do
        let pat ← P.matmul Ak.T
        let apat ← Ak.matmul pat
        apat.add Qk) = .ok a.2 := by
    intro x Bk uk a h
    rcases hb : (Bk.isnanAll || uk.isnanAll) with _ | _
    · rw [KalmanFilter.predict_ctrl hb] at h
      rcases h1 : Ak.matmul x with e | ax; · simp [h1] at h
      simp only [h1, Except.bind_ok'] at h
      rcases h2 : Bk.matmul uk with e | bu; · simp [h2] at h
      simp only [h2, Except.bind_ok'] at h
      rcases h3 : ax.add bu with e | xp; · simp [h3] at h
      simp only [h3, Except.bind_ok'] at h
      rcases h4 : P.matmul Ak.T with e | pat; · simp [h4] at h
      simp only [h4, Except.bind_ok'] at h ⊢
      rcases h5 : Ak.matmul pat with e | apat; · simp [h5] at h
      simp only [h5, Except.bind_ok'] at h ⊢
      rcases h6 : apat.add Qk with e | Pp; · simp [h6] at h
      simp only [h6, Except.bind_ok', Except.ok.injEq] at h ⊢
      rw [← h]
    · rw [KalmanFilter.predict_skip hb] at h
      rcases h1 : Ak.matmul x with e | ax; · simp [h1] at h
      simp only [h1, Except.bind_ok'] at h
      rcases h4 : P.matmul Ak.T with e | pat; · simp [h4] at h
      simp only [h4, Except.bind_ok'] at h ⊢
      rcases h5 : Ak.matmul pat with e | apat; · simp [h5] at h
      simp only [h5, Except.bind_ok'] at h ⊢
      rcases h6 : apat.add Qk with e | Pp; · simp [h6] at h
      simp only [h6, Except.bind_ok', Except.ok.injEq] at h ⊢
      rw [← h]
  have e1 := key h
  have e2 := key h'
  rw [e1] at e2
  simpa using e2

theorem KalmanFilter.correct_cov {I K H x x' P z z' : Arr F} {a b : Arr F × Arr F}
    (h : KalmanFilter.correct I K H x P z = .ok a)
    (h' : KalmanFilter.correct I K H x' P z' = .ok b) : a.2 = b.2 := by
  have key : ∀ {x z : Arr F} {a : Arr F × Arr F}, KalmanFilter.correct I K H x P z = .ok a →
      (do
        let kh ← K.matmul H
        let ikh ← I.sub kh
        ikh.matmul P) = .ok a.2 := by
    intro x z a h
    simp only [KalmanFilter.correct] at h
    rcases h1 : H.matmul x with e1 | hx; · simp [h1] at h
    simp only [h1, Except.bind_ok'] at h
    rcases h2 : z.sub hx with e1 | res; · simp [h2] at h
    simp only [h2, Except.bind_ok'] at h
    rcases h3 : K.matmul res.atleast1d with e1 | corr; · simp [h3] at h
    simp only [h3, Except.bind_ok'] at h
    rcases h4 : x.add corr with e1 | xp; · simp [h4] at h
    simp only [h4, Except.bind_ok'] at h
    rcases h5 : K.matmul H with e1 | kh; · simp [h5] at h
    simp only [h5, Except.bind_ok'] at h ⊢
    rcases h6 : I.sub kh with e1 | ikh; · simp [h6] at h
    simp only [h6, Except.bind_ok'] at h ⊢
    rcases h7 : ikh.matmul P with e1 | Pp; · simp [h7] at h
    simp only [h7, Except.bind_ok', Except.ok.injEq] at h ⊢
    rw [← h]
  have e1 := key h
  have e2 := key h'
  rw [e1] at e2
  simpa using e2

/-- Two zipped rows with the same `A`, `H`, `Q`, `R`. -/
def KalmanFilter.SameParams (r r' : KalmanFilter.Row F) : Prop :=
  r.1 = r'.1 ∧ r.2.1 = r'.2.1 ∧ r.2.2.2.2.2.1 = r'.2.2.2.2.2.1 ∧ r.2.2.2.2.2.2 = r'.2.2.2.2.2.2

theorem KalmanFilter.step_cov (s : ℕ) (I : Arr F) (r r' : KalmanFilter.Row F) (x x' P : Arr F)
    (g g' : Option (Arr F)) (xP xP' o o' : Arr F × Arr F) (hr : KalmanFilter.SameParams r r')
    (h : KalmanFilter.step s I r x P = (g, .ok (xP, o)))
    (h' : KalmanFilter.step s I r' x' P = (g', .ok (xP', o'))) :
    g = g' ∧ xP.2 = xP'.2 ∧ o.2 = o'.2 := by
  obtain ⟨Ak, Hk, Bk, uk, zk, Qk, Rk⟩ := r
  obtain ⟨Ak', Hk', Bk', uk', zk', Qk', Rk'⟩ := r'
  obtain ⟨rfl, rfl, rfl, rfl⟩ := hr
  dsimp only at *
  simp only [KalmanFilter.step] at h h'
  rcases h1 : KalmanFilter.predict Ak x (some Bk) (some uk) P Qk with e1 | ⟨xp, Pp⟩; · simp [h1] at h
  rcases h1' : KalmanFilter.predict Ak x' (some Bk') (some uk') P Qk with e1 | ⟨xp', Pp'⟩
  · simp [h1'] at h'
  obtain rfl : Pp = Pp' := KalmanFilter.predict_cov h1 h1'
  simp only [h1] at h
  simp only [h1'] at h'
  rcases h2 : KalmanFilter.gain Hk Pp Rk with e1 | K; · simp [h2] at h
  simp only [h2, Prod.mk.injEq] at h h'
  obtain ⟨rfl, h⟩ := h
  obtain ⟨rfl, h'⟩ := h'
  rcases h3 : KalmanFilter.correct I K Hk xp Pp zk with e1 | y; · simp [h3] at h
  rcases h3' : KalmanFilter.correct I K Hk xp' Pp zk' with e1 | y'; · simp [h3'] at h'
  have hy : y.2 = y'.2 := KalmanFilter.correct_cov h3 h3'
  simp only [h3, Except.bind_ok'] at h
  simp only [h3', Except.bind_ok'] at h'
  rcases h4 : Arr.assignVec s y.1 with e1 | srow; · simp [h4] at h
  rcases h4' : Arr.assignVec s y'.1 with e1 | srow'; · simp [h4'] at h'
  simp only [h4, Except.bind_ok'] at h
  simp only [h4', Except.bind_ok'] at h'
  rcases h5 : Arr.assignMat s y.2 with e1 | erow; · simp [h5] at h
  rw [← hy] at h'
  simp only [h5, Except.bind_ok', Except.ok.injEq, Prod.mk.injEq] at h h'
  obtain ⟨rfl, rfl⟩ := h
  obtain ⟨rfl, rfl⟩ := h'
  exact ⟨rfl, hy, rfl⟩

theorem KalmanFilter.same_rows (kf kf' : KalmanFilter F) (Z Z' : NDArray F) (U U' : Option (NDArray F))
    (hA : kf.A = kf'.A) (hH : kf.H = kf'.H) (hQ : kf.Q = kf'.Q) (hR : kf.R = kf'.R)
    (hT : kf.steps Z U = kf'.steps Z' U') :
    List.Forall₂ KalmanFilter.SameParams (kf.zrows Z U) (kf'.zrows Z' U') := by
  rw [List.forall₂_iff_get]
  refine ⟨by rw [KalmanFilter.zrows_length, KalmanFilter.zrows_length, hT], ?_⟩
  intro i h1 h2
  simp only [KalmanFilter.SameParams, List.get_eq_getElem, KalmanFilter.zrows, List.getElem_zip, hA, hH,
    hQ, hR, and_self]

/-- C08: two runs with the same `Pk`, `A`, `H`, `Q`, `R`, `state_size` and arbitrary `xk`, `B`, observations
and controls return the same covariances and record the same gains. -/
theorem C08_data_independent (kf kf' kf1 kf1' : KalmanFilter F) (Z Z' : NDArray F)
    (U U' : Option (NDArray F)) (xs Ps xs' Ps' : List (Arr F))
    (hP : kf.Pk = kf'.Pk) (hA : kf.A = kf'.A) (hH : kf.H = kf'.H) (hQ : kf.Q = kf'.Q)
    (hR : kf.R = kf'.R) (hs : kf.stateSize = kf'.stateSize) (hI : kf.I = kf'.I)
    (hlen : Z.len = Z'.len) (hT : kf.steps Z U = kf'.steps Z' U')
    (h : (KalmanFilter.filter Z U).run kf = (.ok (xs, Ps), kf1))
    (h' : (KalmanFilter.filter Z' U').run kf' = (.ok (xs', Ps'), kf1')) :
    Ps = Ps' ∧ kf1.kalmanGains.drop kf.kalmanGains.length =
      kf1'.kalmanGains.drop kf'.kalmanGains.length := by
  have he := KalmanFilter.ok_err h
  have he' := KalmanFilter.ok_err h'
  have hi := KalmanFilter.ok_iter h
  have hi' := KalmanFilter.ok_iter h'
  have hlen' : Z.rows.length = Z'.rows.length := by
    obtain ⟨z, rfl⟩ := hi.Z.exists
    obtain ⟨z', rfl⟩ := hi'.Z.exists
    simpa using hlen
  rw [KalmanFilter.filter_iter hi] at h
  rw [KalmanFilter.filter_iter hi'] at h'
  have hrel := KalmanFilter.same_rows kf kf' Z Z' U U' hA hH hQ hR hT
  simp only [KalmanFilter.tr, ← hs, ← hI, ← hP] at he' h'
  obtain ⟨hg, ho⟩ := trace_cov (KalmanFilter.step kf.stateSize kf.I) (KalmanFilter.step kf.stateSize kf.I)
    KalmanFilter.SameParams
    (fun r r' x x' P g g' xP xP' o o' => KalmanFilter.step_cov _ _ r r' x x' P g g' xP xP' o o')
    _ _ hrel kf.xk kf'.xk kf.Pk he he'
  simp only [KalmanFilter.tr, he, Prod.mk.injEq, Except.ok.injEq] at h
  simp only [he', Prod.mk.injEq, Except.ok.injEq] at h'
  obtain ⟨⟨-, rfl⟩, rfl⟩ := h
  obtain ⟨⟨-, rfl⟩, rfl⟩ := h'
  refine ⟨by rw [ho, hlen', hT], ?_⟩
  simp only [KalmanFilter.addGains, List.drop_left, hg]

theorem back_cov {b1 b2 : ℕ → Arr F → Arr F → Except PyErr (Arr F × Arr F)}
    (hb : ∀ k x x' P r r', b1 k x P = .ok r → b2 k x' P = .ok r' → r.2 = r'.2) (m : ℕ)
    {l l' : List (Arr F × Arr F)} {a a' : Arr F × Arr F} (ha : a.2 = a'.2)
    (h : back b1 m a = .ok l) (h' : back b2 m a' = .ok l') : l.map Prod.snd = l'.map Prod.snd := by
  induction m generalizing a a' l l' with
  | zero =>
    simp only [back, Except.ok.injEq] at h h'
    subst h h'
    simp [ha]
  | succ m ih =>
    simp only [back] at h h'
    rcases h1 : b1 m a.1 a.2 with e | r; · simp [h1] at h
    rcases h1' : b2 m a'.1 a'.2 with e | r'; · simp [h1'] at h'
    simp only [h1, Except.bind_ok'] at h
    simp only [h1', Except.bind_ok'] at h'
    rcases h2 : back b1 m r with e | rest; · simp [h2] at h
    rcases h2' : back b2 m r' with e | rest'; · simp [h2'] at h'
    simp only [h2, Except.bind_ok', Except.ok.injEq] at h
    simp only [h2', Except.bind_ok', Except.ok.injEq] at h'
    rw [← ha] at h1'
    have := ih (hb _ _ _ _ _ _ h1 h1') h2 h2'
    subst h h'
    simp [this, ha]

/-- Inversion of one iteration of the backward loop. -/
theorem KalmanFilter.body_ok {A Q B U : NDArray F} {s : ℕ} {xe Pe : List (Arr F)} {k : ℕ}
    {x P : Arr F} {r : Arr F × Arr F} (h : KalmanFilter.body A Q B U s xe Pe k x P = .ok r) :
    ∃ Ak Qk Bk uk Pk xk x' P', A.item (k + 1) = .ok Ak ∧ Q.item (k + 1) = .ok Qk ∧
      B.item (k + 1) = .ok Bk ∧ U.item (k + 1) = .ok uk ∧ getRow Pe k = .ok Pk ∧ getRow xe k = .ok xk ∧
      KalmanFilter.smoothStep xk Pk Ak Qk Bk uk x P = .ok (x', P') ∧ x'.assignVec s = .ok r.1 ∧
      P'.assignMat s = .ok r.2 := by
  simp only [KalmanFilter.body] at h
  rcases h1 : A.item (k + 1) with e | Ak; · simp [h1] at h
  simp only [h1, Except.bind_ok'] at h
  rcases h2 : Q.item (k + 1) with e | Qk; · simp [h2] at h
  simp only [h2, Except.bind_ok'] at h
  rcases h3 : B.item (k + 1) with e | Bk; · simp [h3] at h
  simp only [h3, Except.bind_ok'] at h
  rcases h4 : U.item (k + 1) with e | uk; · simp [h4] at h
  simp only [h4, Except.bind_ok'] at h
  rcases h5 : getRow Pe k with e | Pk; · simp [h5] at h
  simp only [h5, Except.bind_ok'] at h
  rcases h6 : getRow xe k with e | xk; · simp [h6] at h
  simp only [h6, Except.bind_ok'] at h
  rcases h7 : KalmanFilter.smoothStep xk Pk Ak Qk Bk uk x P with e | ⟨x', P'⟩; · simp [h7] at h
  simp only [h7, Except.bind_ok'] at h
  rcases h8 : x'.assignVec s with e | xr; · simp [h8] at h
  simp only [h8, Except.bind_ok'] at h
  rcases h9 : P'.assignMat s with e | Pr; · simp [h9] at h
  simp only [h9, Except.bind_ok', Except.ok.injEq] at h
  subst h
  exact ⟨Ak, Qk, Bk, uk, Pk, xk, x', P', rfl, rfl, rfl, rfl, rfl, rfl, h7, h8, h9⟩

theorem KalmanFilter.smoothStep_cov {xk xk' Pk Ak Qk Bk Bk' uk uk' x x' P : Arr F} {a b : Arr F × Arr F}
    (h : KalmanFilter.smoothStep xk Pk Ak Qk Bk uk x P = .ok a)
    (h' : KalmanFilter.smoothStep xk' Pk Ak Qk Bk' uk' x' P = .ok b) : a.2 = b.2 := by
  simp only [KalmanFilter.smoothStep] at h h'
  rcases h1 : KalmanFilter.predict Ak xk (some Bk) (some uk) Pk Qk with e | ⟨xa, Pa⟩; · simp [h1] at h
  rcases h1' : KalmanFilter.predict Ak xk' (some Bk') (some uk') Pk Qk with e | ⟨xa', Pa'⟩
  · simp [h1'] at h'
  obtain rfl : Pa = Pa' := KalmanFilter.predict_cov h1 h1'
  simp only [h1, Except.bind_ok'] at h
  simp only [h1', Except.bind_ok'] at h'
  rcases h2 : Pk.matmul Ak.T with e | pat; · simp [h2] at h
  simp only [h2, Except.bind_ok'] at h h'
  rcases h3 : Arr.solve Pa.T pat.T with e | X; · simp [h3] at h
  simp only [h3, Except.bind_ok'] at h h'
  rcases h4 : x.sub xa with e | dx; · simp [h4] at h
  rcases h4' : x'.sub xa' with e | dx'; · simp [h4'] at h'
  simp only [h4, Except.bind_ok'] at h
  simp only [h4', Except.bind_ok'] at h'
  rcases h5 : X.T.matmul dx with e | kdx; · simp [h5] at h
  rcases h5' : X.T.matmul dx' with e | kdx'; · simp [h5'] at h'
  simp only [h5, Except.bind_ok'] at h
  simp only [h5', Except.bind_ok'] at h'
  rcases h6 : xk.add kdx with e | xs; · simp [h6] at h
  rcases h6' : xk'.add kdx' with e | xs'; · simp [h6'] at h'
  simp only [h6, Except.bind_ok'] at h
  simp only [h6', Except.bind_ok'] at h'
  rcases h7 : P.sub Pa with e | dP; · simp [h7] at h
  simp only [h7, Except.bind_ok'] at h h'
  rcases h8 : dP.matmul X.T.T with e | dPk; · simp [h8] at h
  simp only [h8, Except.bind_ok'] at h h'
  rcases h9 : X.T.matmul dPk with e | kdPk; · simp [h9] at h
  simp only [h9, Except.bind_ok'] at h h'
  rcases h10 : Pk.add kdPk with e | Ps; · simp [h10] at h
  simp only [h10, Except.bind_ok', Except.ok.injEq] at h h'
  rw [← h, ← h']

/-- C08 for `smooth`: smoothed covariances (and gains) do not depend on the data either. -/
theorem C08_smooth_data_independent (kf kf' kf1 kf1' : KalmanFilter F) (Z Z' : NDArray F)
    (U U' : Option (NDArray F)) (xs Ps xs' Ps' : List (Arr F))
    (hP : kf.Pk = kf'.Pk) (hA : kf.A = kf'.A) (hH : kf.H = kf'.H) (hQ : kf.Q = kf'.Q)
    (hR : kf.R = kf'.R) (hs : kf.stateSize = kf'.stateSize) (hI : kf.I = kf'.I)
    (hlen : Z.len = Z'.len) (hT : kf.steps Z U = kf'.steps Z' U')
    (h : (KalmanFilter.smooth Z U).run kf = (.ok (xs, Ps), kf1))
    (h' : (KalmanFilter.smooth Z' U').run kf' = (.ok (xs', Ps'), kf1')) :
    Ps = Ps' ∧ kf1.kalmanGains.drop kf.kalmanGains.length =
      kf1'.kalmanGains.drop kf'.kalmanGains.length := by
  obtain ⟨xe, Pe, x, P, l, hf, hne, hl, hx, hP1, hb, rfl, rfl⟩ := KalmanFilter.smooth_ok h
  obtain ⟨xe', Pe', x', P', l', hf', hne', hl', hx', hP1', hb', rfl, rfl⟩ := KalmanFilter.smooth_ok h'
  obtain ⟨rfl, hg⟩ := C08_data_independent kf kf' kf1 kf1' Z Z' U U' _ _ _ _ hP hA hH hQ hR hs hI hlen hT
    hf hf'
  have hxl : xe.length = xe'.length := by rw [hl, hl']
  rw [← hxl] at hb' hP1'
  rw [hP1] at hP1'
  obtain rfl : P = P' := by simpa using hP1'
  refine ⟨?_, hg⟩
  refine back_cov (a := (x, P)) (a' := (x', P)) (fun k x x' P r r' h1 h2 => ?_) (xe.length - 1) rfl hb hb'
  obtain ⟨Ak, Qk, Bk, uk, Pk, xk, y, Y, a1, a2, a3, a4, a5, a6, a7, a8, a9⟩ := KalmanFilter.body_ok h1
  obtain ⟨Ak', Qk', Bk', uk', Pk', xk', y', Y', b1, b2, b3, b4, b5, b6, b7, b8, b9⟩ :=
    KalmanFilter.body_ok h2
  rw [← hA, a1] at b1
  rw [← hQ, a2] at b2
  rw [a5] at b5
  simp only [Except.ok.injEq] at b1 b2 b5
  subst b1 b2 b5
  have : Y = Y' := KalmanFilter.smoothStep_cov a7 b7
  subst this
  rw [← hs, a9] at b9
  simpa using b9

/-- Two such runs: different initial mean, observations and control. -/
example : (∃ r k, (KalmanFilter.smooth Ex.zs (some Ex.us)).run (Ex.cv 3) = (.ok r, k)) ∧
    (∃ r k, (KalmanFilter.smooth (.stack [Ex.vec1 (some 7), Ex.vec1 none, Ex.vec1 (some 2)]) none).run
      { Ex.cv 3 with xk := Ex.vec2 (some 5) (some 5) } = (.ok r, k)) :=
  ⟨(Ex.returned_iff _).1 (by decide +kernel), (Ex.returned_iff _).1 (by decide +kernel)⟩

end KK
