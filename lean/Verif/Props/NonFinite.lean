import Verif.Proofs.NonFinite
import Verif.Props.Nan
import Verif.Test.Ieee
import Verif.Test.Pushed

/-!
# Infinite and NaN numbers are permanent (C132-C134)

`Absorbing bad` is the only assumption on the arithmetic; `ieee_absorbing` shows it for "not finite" in IEEE arithmetic with any
rounding (including overflow to infinity) and any order of evaluation.
-/

set_option linter.unusedSectionVars false

namespace KK

open Matrix

variable {F : Type} [Backend F] {bad : F → Prop} {n m : ℕ}

theorem Arr.Every.any_vec (hn : 0 < n) {a : Arr F} (hs : a.shape = [n]) (h : a.Every bad) : a.Any bad := by
  obtain ⟨d, v, rfl⟩ := Arr.eq_vec hs
  exact ⟨⟨0, hn⟩, h ⟨0, hn⟩⟩

theorem Arr.Every.any_mat (hn : 0 < n) {a : Arr F} (hs : a.shape = [n, n]) (h : a.Every bad) : a.Any bad := by
  obtain ⟨d, v, rfl⟩ := Arr.eq_mat hs
  exact ⟨⟨0, hn⟩, ⟨0, hn⟩, h ⟨0, hn⟩ ⟨0, hn⟩⟩

/-! ### the rows of a run -/

namespace KalmanFilter

/-- The inputs, the gain and the rows of one processed step of a call that returned, and the state it started from. -/
theorem run_at {kf kf' : KalmanFilter F} {Z : NDArray F} {U : Option (NDArray F)} {xs Ps : List (Arr F)} (hl : Layout n m kf Z U)
    (h : (filter Z U).run kf = (.ok (xs, Ps), kf')) (k : ℕ) (hk : k < kf.steps Z U) :
    ∃ Ak Hk Bk uk zk Qk Rk x P K o, kf.A.rows[k]? = some Ak ∧ kf.H.rows[k]? = some Hk ∧ kf.B.rows[k]? = some Bk ∧
      (effU U Z).rows[k]? = some uk ∧ Z.rows[k]? = some zk ∧ kf.Q.rows[k]? = some Qk ∧ kf.R.rows[k]? = some Rk ∧
      RowLayout n m Ak Hk Bk uk zk Qk Rk ∧ Shaped n x P ∧
      step n (Arr.identity n) (Ak, Hk, Bk, uk, zk, Qk, Rk) x P = (some K, .ok (o, o)) ∧ xs[k]? = some o.1 ∧ Ps[k]? = some o.2 ∧
      kf'.kalmanGains[kf.kalmanGains.length + k]? = some K ∧ (k = 0 → x = kf.xk ∧ P = kf.Pk) ∧
      (∀ k', k = k' + 1 → xs[k']? = some x ∧ Ps[k']? = some P) := by
  have he := ok_err h
  rw [filter_iter (ok_iter h)] at h
  simp only [he, Prod.mk.injEq, Except.ok.injEq] at h
  obtain ⟨⟨rfl, rfl⟩, rfl⟩ := h
  simp only [tr, hl.size, hl.ident] at he ⊢
  obtain ⟨r, x, P, K, o, h1, h2, h3, h4, h5, h6, h7⟩ := trace_at (Inv := Shaped n) (kf.zrows Z U)
    (fun r hr x P g xP o hs hst => by
      obtain ⟨Ak, Hk, Bk, uk, zk, Qk, Rk⟩ := r
      obtain ⟨a, b⟩ := step_keeps (mem_zrows hl _ hr) g xP o hs hst
      obtain ⟨_, _, _, _, _, _, _, _, _, _, _, _, K, _, _, _, _, _, _, _, hg, _⟩ := step_form (mem_zrows hl _ hr) hs g xP o hst
      exact ⟨a, b, K, hg⟩) kf.xk kf.Pk ⟨hl.x, hl.P⟩ he k (by rw [zrows_length]; exact hk)
  obtain ⟨Ak, Hk, Bk, uk, zk, Qk, Rk⟩ := r
  have hmem := mem_zrows hl _ (List.mem_of_getElem? h1)
  simp only [zrows, List.getElem?_zip_eq_some] at h1
  obtain ⟨a1, a2, a3, a4, a5, a6, a7⟩ := h1
  have row : ∀ {k : ℕ} {o : Arr F × Arr F}, (trace (step n (Arr.identity n)) (kf.zrows Z U) kf.xk kf.Pk).outs[k]? = some o →
      (List.map Prod.fst (trace (step n (Arr.identity n)) (kf.zrows Z U) kf.xk kf.Pk).outs ++
        List.replicate (Z.rows.length - kf.steps Z U) (Arr.zerosVec n))[k]? = some o.1 ∧
      (List.map Prod.snd (trace (step n (Arr.identity n)) (kf.zrows Z U) kf.xk kf.Pk).outs ++
        List.replicate (Z.rows.length - kf.steps Z U) (Arr.zerosMat n))[k]? = some o.2 := by
    intro k o ho
    have hlt := (List.getElem?_eq_some_iff.1 ho).1
    rw [List.getElem?_append_left (by simpa using hlt), List.getElem?_append_left (by simpa using hlt), List.getElem?_map,
      List.getElem?_map, ho]
    exact ⟨rfl, rfl⟩
  refine ⟨Ak, Hk, Bk, uk, zk, Qk, Rk, x, P, K, o, a1, a2, a3, a4, a5, a6, a7, hmem, h2, h3, (row h4).1, (row h4).2, ?_, h6, fun k' hk' => row (h7 k' hk')⟩
  simp only [addGains]
  rw [List.getElem?_append_right (by omega), Nat.add_sub_cancel_left]
  exact h5

/-- What one step does with bad numbers. -/
theorem step_bad (ab : Absorbing bad) (hn : 0 < n) (hm : 0 < m) {Ak Hk Bk uk zk Qk Rk x P : Arr F} (h : RowLayout n m Ak Hk Bk uk zk Qk Rk)
    (hs : Shaped n x P) {K : Arr F} {o : Arr F × Arr F} (hr : step n (Arr.identity n) (Ak, Hk, Bk, uk, zk, Qk, Rk) x P = (some K, .ok (o, o))) :
    (x.Any bad ∨ Ak.Any bad ∨ Hk.Any bad ∨ zk.Any bad ∨ (¬ Bk.Blank ∧ ¬ uk.Blank ∧ (Bk.Any bad ∨ uk.Any bad)) → o.1.Every bad) ∧
    (P.Any bad → o.1.Every bad ∧ o.2.Every bad ∧ K.Every bad) ∧ (Ak.Any bad ∨ Hk.Any bad → o.2.Every bad) ∧
    (Qk.Any bad → o.1.Any bad ∧ o.2.Any bad ∧ K.Any bad) := by
  obtain ⟨dA, A, dH, H, dx, x₀, dP, P₀, Q, xp, w, X, K', rfl, rfl, rfl, rfl, hQ, hz, hxp, hK, -, u⟩ := step_form h hs _ _ _ hr
  simp only [Option.some.injEq] at hK
  subst hK
  have hprior : (∃ i, bad (xp i)) → o.1.Every bad := by
    rintro ⟨l, hl⟩
    exact u.mean_of_residual ab ⟨⟨0, hm⟩, ab.sub_right _ _ (ab.gemm_right _ _ _ l 0 hl)⟩
  refine ⟨?_, ?_, ?_, ?_⟩
  · rintro (⟨l, hb⟩ | ⟨i, l, hb⟩ | ⟨i, l, hb⟩ | hb | ⟨h1, h2, hb⟩)
    · refine hprior ⟨⟨0, hn⟩, ?_⟩
      have hax : bad (Backend.gemm (n := 1) A (fun i _ => x₀ i) ⟨0, hn⟩ 0) := ab.gemm_right _ _ _ l 0 hb
      rcases hxp with ⟨-, hxp⟩ | ⟨-, p, dB, B, du, u', rfl, rfl, hxp⟩
      · rw [hxp]; exact hax
      · rw [hxp]; exact ab.add_left _ _ hax
    · refine hprior ⟨i, ?_⟩
      have hax : bad (Backend.gemm (n := 1) A (fun i _ => x₀ i) i 0) := ab.gemm_left _ _ _ l 0 hb
      rcases hxp with ⟨-, hxp⟩ | ⟨-, p, dB, B, du, u', rfl, rfl, hxp⟩
      · rw [hxp]; exact hax
      · rw [hxp]; exact ab.add_left _ _ hax
    · exact u.mean_of_residual ab ⟨i, ab.sub_right _ _ (ab.gemm_left _ _ _ l 0 hb)⟩
    · obtain ⟨i, hi⟩ := hz hm bad hb
      exact u.mean_of_residual ab ⟨i, ab.sub_left _ _ hi⟩
    · rcases hxp with ⟨hc, -⟩ | ⟨-, p, dB, B, du, u', rfl, rfl, hxp⟩
      · tauto
      · rcases hb with ⟨i, l, hb⟩ | ⟨l, hb⟩
        · exact hprior ⟨i, by rw [hxp]; exact ab.add_right _ _ (ab.gemm_left _ _ _ l 0 hb)⟩
        · exact hprior ⟨⟨0, hn⟩, by rw [hxp]; exact ab.add_right _ _ (ab.gemm_right _ _ _ l 0 hb)⟩
  · exact fun hb => u.all_of_prior ab hm (fun i j => prior_of_cov ab hb i j)
  · rintro (⟨i, l, hb⟩ | ⟨i, l, hb⟩)
    · exact u.cov_of_row ab (fun j => prior_of_trans ab hb j)
    · exact u.cov_of_obs ab hb
  · intro hb
    obtain ⟨i, j, hb⟩ := hQ hn bad hb
    exact u.some_of_prior ab hm ⟨i, j, ab.add_right _ _ hb⟩

end KalmanFilter

/-! ## C132 -/

section
variable (ab : Absorbing bad) (hn : 0 < n) (hm : 0 < m) (kf kf' : KalmanFilter F) (Z : NDArray F) (U : Option (NDArray F))
  (xs Ps : List (Arr F)) (hl : Layout n m kf Z U) (h : (KalmanFilter.filter Z U).run kf = (.ok (xs, Ps), kf'))
include ab hn hm hl h

/-- C132, means: a bad number in the initial state, or in the observation, the transition matrix, the observation matrix or the
control (unless switched off) of step `k`, or in an already returned state, makes every component of every state from then on bad. -/
theorem C132_means (k : ℕ)
    (hbad : kf.xk.Any bad ∨ (∃ z, Z.rows[k]? = some z ∧ z.Any bad) ∨ (∃ a, kf.A.rows[k]? = some a ∧ a.Any bad) ∨
      (∃ a, kf.H.rows[k]? = some a ∧ a.Any bad) ∨
      (∃ b u, kf.B.rows[k]? = some b ∧ (effU U Z).rows[k]? = some u ∧ ¬ b.Blank ∧ ¬ u.Blank ∧ (b.Any bad ∨ u.Any bad)) ∨
      (∃ i x, i < k ∧ i < kf.steps Z U ∧ xs[i]? = some x ∧ x.Any bad))
    (j : ℕ) (hkj : k ≤ j) (hj : j < kf.steps Z U) : ∃ x, xs[j]? = some x ∧ x.Every bad := by
  induction j with
  | zero =>
    obtain rfl : k = 0 := by omega
    obtain ⟨Ak, Hk, Bk, uk, zk, Qk, Rk, x, P, K, o, a1, a2, a3, a4, a5, a6, a7, hL, hs, hst, hx, -, -, h0, -⟩ := KalmanFilter.run_at hl h 0 hj
    refine ⟨_, hx, (KalmanFilter.step_bad ab hn hm hL hs hst).1 ?_⟩
    rcases hbad with hb | ⟨z, hz, hb⟩ | ⟨a, ha, hb⟩ | ⟨a, ha, hb⟩ | ⟨b, u, hb, hu, hb1, hu1, hor⟩ | ⟨i, x, hi, -⟩
    · rw [(h0 rfl).1]; exact .inl hb
    · rw [a5] at hz; cases hz; exact .inr (.inr (.inr (.inl hb)))
    · rw [a1] at ha; cases ha; exact .inr (.inl hb)
    · rw [a2] at ha; cases ha; exact .inr (.inr (.inl hb))
    · rw [a3] at hb; rw [a4] at hu; cases hb; cases hu; exact .inr (.inr (.inr (.inr ⟨hb1, hu1, hor⟩)))
    · omega
  | succ j ih =>
    obtain ⟨Ak, Hk, Bk, uk, zk, Qk, Rk, x, P, K, o, a1, a2, a3, a4, a5, a6, a7, hL, hs, hst, hx, -, -, -, hprev⟩ := KalmanFilter.run_at hl h (j + 1) hj
    obtain ⟨hp, -⟩ := hprev j rfl
    refine ⟨_, hx, (KalmanFilter.step_bad ab hn hm hL hs hst).1 ?_⟩
    by_cases hkj' : k ≤ j
    · obtain ⟨y, hy, hyb⟩ := ih hkj' (by omega)
      rw [hp] at hy
      cases hy
      exact .inl (hyb.any_vec hn hs.1)
    · obtain rfl : k = j + 1 := by omega
      rcases hbad with hb | ⟨z, hz, hb⟩ | ⟨a, ha, hb⟩ | ⟨a, ha, hb⟩ | ⟨b, u, hb, hu, hb1, hu1, hor⟩ | ⟨i, y, hi, hi', hy, hyb⟩
      · -- a bad initial state has already spoilt row `j`
        refine .inl ?_
        have : ∀ i, i < kf.steps Z U → ∃ x, xs[i]? = some x ∧ x.Every bad := by
          intro i
          induction i with
          | zero =>
            intro hi
            obtain ⟨_, _, _, _, _, _, _, x', _, _, o', -, -, -, -, -, -, -, hL', hs', hst', hx', -, -, h0', -⟩ := KalmanFilter.run_at hl h 0 hi
            exact ⟨_, hx', (KalmanFilter.step_bad ab hn hm hL' hs' hst').1 (.inl (by rw [(h0' rfl).1]; exact hb))⟩
          | succ i ihi =>
            intro hi
            obtain ⟨_, _, _, _, _, _, _, x', _, _, o', -, -, -, -, -, -, -, hL', hs', hst', hx', -, -, -, hp'⟩ := KalmanFilter.run_at hl h (i + 1) hi
            obtain ⟨y, hy, hyb⟩ := ihi (by omega)
            rw [(hp' i rfl).1] at hy
            cases hy
            exact ⟨_, hx', (KalmanFilter.step_bad ab hn hm hL' hs' hst').1 (.inl (hyb.any_vec hn hs'.1))⟩
        obtain ⟨y, hy, hyb⟩ := this j (by omega)
        rw [hp] at hy
        cases hy
        exact hyb.any_vec hn hs.1
      · rw [a5] at hz; cases hz; exact .inr (.inr (.inr (.inl hb)))
      · rw [a1] at ha; cases ha; exact .inr (.inl hb)
      · rw [a2] at ha; cases ha; exact .inr (.inr (.inl hb))
      · rw [a3] at hb; rw [a4] at hu; cases hb; cases hu; exact .inr (.inr (.inr (.inr ⟨hb1, hu1, hor⟩)))
      · refine .inl ?_
        have : ∀ d, i + d < kf.steps Z U → ∃ x, xs[i + d]? = some x ∧ x.Any bad := by
          intro d
          induction d with
          | zero => exact fun _ => ⟨y, hy, hyb⟩
          | succ d ihd =>
            intro hd
            obtain ⟨_, _, _, _, _, _, _, x', _, _, o', -, -, -, -, -, -, -, hL', hs', hst', hx', -, -, -, hp'⟩ := KalmanFilter.run_at hl h (i + d + 1) hd
            obtain ⟨y', hy', hyb'⟩ := ihd (by omega)
            rw [(hp' (i + d) rfl).1] at hy'
            cases hy'
            have hsh := (KalmanFilter.step_keeps hL' _ _ _ hs' hst').2.1
            exact ⟨_, hx', ((KalmanFilter.step_bad ab hn hm hL' hs' hst').1 (.inl hyb')).any_vec hn hsh⟩
        obtain ⟨y', hy', hyb'⟩ := this (j - i) (by omega)
        rw [show i + (j - i) = j by omega, hp] at hy'
        cases hy'
        exact hyb'

/-- C132, covariances: a bad number in the initial covariance spoils every entry of everything the filter computes; one in a returned
covariance or in the process noise of step `k` spoils every entry of the states, covariances and gains of all later steps; one in the
transition or observation matrix of step `k` spoils every entry of the covariances from step `k` on. -/
theorem C132_covariances :
    (kf.Pk.Any bad → ∀ j, j < kf.steps Z U → (∃ x, xs[j]? = some x ∧ x.Every bad) ∧ (∃ P, Ps[j]? = some P ∧ P.Every bad) ∧
      ∃ K, kf'.kalmanGains[kf.kalmanGains.length + j]? = some K ∧ K.Every bad) ∧
    (∀ k, k < kf.steps Z U → (∃ P, Ps[k]? = some P ∧ P.Any bad) ∨ (∃ q, kf.Q.rows[k]? = some q ∧ q.Any bad) →
      ∀ j, k < j → j < kf.steps Z U → (∃ x, xs[j]? = some x ∧ x.Every bad) ∧ (∃ P, Ps[j]? = some P ∧ P.Every bad) ∧
        ∃ K, kf'.kalmanGains[kf.kalmanGains.length + j]? = some K ∧ K.Every bad) ∧
    (∀ k, (∃ a, kf.A.rows[k]? = some a ∧ a.Any bad) ∨ (∃ a, kf.H.rows[k]? = some a ∧ a.Any bad) →
      ∀ j, k ≤ j → j < kf.steps Z U → ∃ P, Ps[j]? = some P ∧ P.Every bad) := by
  -- a bad returned covariance spoils the next step
  have next : ∀ k, k + 1 < kf.steps Z U → (∃ P, Ps[k]? = some P ∧ P.Any bad) →
      (∃ x, xs[k + 1]? = some x ∧ x.Every bad) ∧ (∃ P, Ps[k + 1]? = some P ∧ P.Every bad ∧ P.Any bad) ∧
      ∃ K, kf'.kalmanGains[kf.kalmanGains.length + (k + 1)]? = some K ∧ K.Every bad := by
    rintro k hk ⟨P', hP', hb⟩
    obtain ⟨Ak, Hk, Bk, uk, zk, Qk, Rk, x, P, K, o, -, -, -, -, -, -, -, hL, hs, hst, hx, hPk, hK, -, hprev⟩ := KalmanFilter.run_at hl h (k + 1) hk
    rw [(hprev k rfl).2] at hP'
    cases hP'
    obtain ⟨b1, b2, b3⟩ := (KalmanFilter.step_bad ab hn hm hL hs hst).2.1 hb
    exact ⟨⟨_, hx, b1⟩, ⟨_, hPk, b2, b2.any_mat hn (KalmanFilter.step_keeps hL _ _ _ hs hst).2.2⟩, _, hK, b3⟩
  have later : ∀ k, k < kf.steps Z U → (∃ P, Ps[k]? = some P ∧ P.Any bad) → ∀ j, k < j → j < kf.steps Z U →
      (∃ x, xs[j]? = some x ∧ x.Every bad) ∧ (∃ P, Ps[j]? = some P ∧ P.Every bad ∧ P.Any bad) ∧
      ∃ K, kf'.kalmanGains[kf.kalmanGains.length + j]? = some K ∧ K.Every bad := by
    intro k hk hb j hkj hj
    induction j with
    | zero => omega
    | succ j ih =>
      by_cases hkj' : k < j
      · obtain ⟨-, ⟨P, hP, -, hPb⟩, -⟩ := ih hkj' (by omega)
        exact next j hj ⟨P, hP, hPb⟩
      · obtain rfl : k = j := by omega
        exact next k hj hb
  refine ⟨fun hb j hj => ?_, fun k hk hb j hkj hj => ?_, fun k hb j hkj hj => ?_⟩
  · obtain ⟨Ak, Hk, Bk, uk, zk, Qk, Rk, x, P, K, o, -, -, -, -, -, -, -, hL, hs, hst, hx, hPk, hK, h0, -⟩ := KalmanFilter.run_at hl h 0 (by omega)
    rw [← (h0 rfl).2] at hb
    obtain ⟨b1, b2, b3⟩ := (KalmanFilter.step_bad ab hn hm hL hs hst).2.1 hb
    rcases Nat.eq_zero_or_pos j with rfl | hpos
    · exact ⟨⟨_, hx, b1⟩, ⟨_, hPk, b2⟩, _, hK, b3⟩
    · obtain ⟨c1, ⟨P', c2, c3, -⟩, c4⟩ := later 0 (by omega) ⟨_, hPk, b2.any_mat hn (KalmanFilter.step_keeps hL _ _ _ hs hst).2.2⟩ j hpos hj
      exact ⟨c1, ⟨P', c2, c3⟩, c4⟩
  · have hb' : ∃ P, Ps[k]? = some P ∧ P.Any bad := by
      rcases hb with hb | ⟨q, hq, hb⟩
      · exact hb
      · obtain ⟨Ak, Hk, Bk, uk, zk, Qk, Rk, x, P, K, o, -, -, -, -, -, a6, -, hL, hs, hst, hx, hPk, hK, -, -⟩ := KalmanFilter.run_at hl h k hk
        rw [a6] at hq
        cases hq
        exact ⟨_, hPk, ((KalmanFilter.step_bad ab hn hm hL hs hst).2.2.2 hb).2.1⟩
    obtain ⟨c1, ⟨P', c2, c3, -⟩, c4⟩ := later k hk hb' j hkj hj
    exact ⟨c1, ⟨P', c2, c3⟩, c4⟩
  · obtain ⟨Ak, Hk, Bk, uk, zk, Qk, Rk, x, P, K, o, a1, a2, -, -, -, -, -, hL, hs, hst, hx, hPk, hK, -, -⟩ :=
      KalmanFilter.run_at hl h k (by omega)
    have hev : o.2.Every bad := by
      refine (KalmanFilter.step_bad ab hn hm hL hs hst).2.2.1 ?_
      rcases hb with ⟨a, ha, hb⟩ | ⟨a, ha, hb⟩
      · rw [a1] at ha; cases ha; exact .inl hb
      · rw [a2] at ha; cases ha; exact .inr hb
    rcases Nat.eq_or_lt_of_le hkj with rfl | hlt
    · exact ⟨_, hPk, hev⟩
    · obtain ⟨-, ⟨P', c2, c3, -⟩, -⟩ := later k (by omega) ⟨_, hPk, hev.any_mat hn (KalmanFilter.step_keeps hL _ _ _ hs hst).2.2⟩ j hlt hj
      exact ⟨P', c2, c3⟩

/-- C132, as a health check: if one single component of the last state is good, then every component of every returned state is good,
and so are all observations, transition and observation matrices and (where used) controls of the processed steps, the initial state and
covariance, and, of all steps but the last, all returned covariances and all process noise covariances. -/
theorem C132_check (t : ℕ) (hsteps : kf.steps Z U = t + 1) (x : Arr F) (hx : xs[t]? = some x) (hgood : ¬ x.Every bad) :
    ¬ kf.xk.Any bad ∧ ¬ kf.Pk.Any bad ∧
    ∀ k, k ≤ t → (∀ y, xs[k]? = some y → k < t → ¬ y.Any bad) ∧ (∀ z, Z.rows[k]? = some z → ¬ z.Any bad) ∧
      (∀ a, kf.A.rows[k]? = some a → ¬ a.Any bad) ∧ (∀ a, kf.H.rows[k]? = some a → ¬ a.Any bad) ∧
      (∀ b u, kf.B.rows[k]? = some b → (effU U Z).rows[k]? = some u → ¬ b.Blank → ¬ u.Blank → ¬ b.Any bad ∧ ¬ u.Any bad) ∧
      (k < t → (∀ P, Ps[k]? = some P → ¬ P.Any bad) ∧ ∀ q, kf.Q.rows[k]? = some q → ¬ q.Any bad) := by
  have key : ∀ k, k ≤ t → (∃ y, xs[t]? = some y ∧ y.Every bad) → False := by
    rintro k - ⟨y, hy, hyb⟩
    rw [hx] at hy
    cases hy
    exact hgood hyb
  have means := fun k hbad => C132_means ab hn hm kf kf' Z U xs Ps hl h k hbad t
  have covs := C132_covariances ab hn hm kf kf' Z U xs Ps hl h
  refine ⟨fun hb => ?_, fun hb => ?_, fun k hk => ⟨fun y hy hlt hb => ?_, fun z hz hb => ?_, fun a ha hb => ?_, fun a ha hb => ?_,
    fun b u hb hu h1 h2 => ⟨fun hbb => ?_, fun hub => ?_⟩, fun hlt => ⟨fun P hP hb => ?_, fun q hq hb => ?_⟩⟩⟩
  · exact key 0 (by omega) (means 0 (.inl hb) (by omega) (by omega))
  · exact key 0 (by omega) (covs.1 hb t (by omega)).1
  · exact key k hk (means t (.inr (.inr (.inr (.inr (.inr ⟨k, y, hlt, by omega, hy, hb⟩))))) le_rfl (by omega))
  · exact key k hk (means k (.inr (.inl ⟨z, hz, hb⟩)) hk (by omega))
  · exact key k hk (means k (.inr (.inr (.inl ⟨a, ha, hb⟩))) hk (by omega))
  · exact key k hk (means k (.inr (.inr (.inr (.inl ⟨a, ha, hb⟩)))) hk (by omega))
  · exact key k hk (means k (.inr (.inr (.inr (.inr (.inl ⟨b, u, hb, hu, h1, h2, .inl hbb⟩))))) hk (by omega))
  · exact key k hk (means k (.inr (.inr (.inr (.inr (.inl ⟨b, u, hb, hu, h1, h2, .inr hub⟩))))) hk (by omega))
  · exact key k hk (covs.2.1 k (by omega) (.inl ⟨P, hP, hb⟩) t hlt (by omega)).1
  · exact key k hk (covs.2.1 k (by omega) (.inr ⟨q, hq, hb⟩) t hlt (by omega)).1

end

/-- C132, the numbers: in IEEE 754 arithmetic with infinities and NaN - any rounding, with overflow to infinity, any order of the
dot products, with or without fused multiply-add, any choice of equally large pivots - the numbers that are not finite are absorbing. -/
theorem C132_ieee (nanInt : ℝ) (a : IeeeUnit) (hv : a.Valid) : @Absorbing Ieee (ieeeB nanInt a) Ieee.Bad := ieee_absorbing nanInt a hv.order

/-- A NaN among three observations: the last two states have no good component; the filter returned. -/
example (xs Ps : List (Arr Ex.QN)) (kf' : KalmanFilter Ex.QN)
    (h : (KalmanFilter.filter (.stack [Ex.vec1 (some 1), Ex.vec1 none, Ex.vec1 (some 2)]) (some Ex.us)).run (Ex.cv 3) = (.ok (xs, Ps), kf')) :
    (∃ x, xs[1]? = some x ∧ x.Every (· = none)) ∧ ∃ x, xs[2]? = some x ∧ x.Every (· = none) :=
  have hl := Ex.cv_layout 3 [some 1, none, some 2] [some 1, some 0, some (-1)]
  have key := C132_means Ex.absorbing (by norm_num) (by norm_num) _ _ _ _ _ _ hl h 1 (.inr (.inl ⟨_, rfl, 0, rfl⟩))
  ⟨key 1 le_rfl (by decide), key 2 (by norm_num) (by decide)⟩

example : Ex.returned ((KalmanFilter.filter (.stack [Ex.vec1 (some 1), Ex.vec1 none, Ex.vec1 (some 2)]) (some Ex.us)).run (Ex.cv 3)) = true := by
  decide +kernel

/-- A NaN in the initial covariance: all gains are bad. -/
example (xs Ps : List (Arr Ex.QN)) (kf' : KalmanFilter Ex.QN)
    (h : (KalmanFilter.filter Ex.zs (some Ex.us)).run { Ex.cv 3 with Pk := Ex.mat2 (some 1) (some 0) (some 0) none } = (.ok (xs, Ps), kf')) :
    ∃ K, kf'.kalmanGains[2]? = some K ∧ K.Every (· = none) := by
  have hl : Layout 2 1 { Ex.cv 3 with Pk := Ex.mat2 (some 1) (some 0) (some 0) none } Ex.zs (some Ex.us) :=
    have hl := Ex.cv_layout 3 [some 1, some 3, some 2] [some 1, some 0, some (-1)]
    ⟨rfl, rfl, rfl, rfl, hl.rows⟩
  exact ((C132_covariances Ex.absorbing (by norm_num) (by norm_num) _ _ _ _ _ _ hl h).1 ⟨1, 1, rfl⟩ 2 (by decide)).2.2

example : Ex.returned ((KalmanFilter.filter Ex.zs (some Ex.us)).run { Ex.cv 3 with Pk := Ex.mat2 (some 1) (some 0) (some 0) none }) = true := by
  decide +kernel

/-- The first component of a vector is a number. -/
def Ex.firstGood : Arr Ex.QN → Bool
  | @Arr.vec _ _ (_ + 1) v => (v 0).isSome
  | _ => false

theorem Ex.not_every {x : Arr Ex.QN} (h : Ex.firstGood x = true) : ¬ x.Every (· = none) := by
  unfold Ex.firstGood at h
  split at h
  · rename_i d n v
    intro hb
    rw [hb 0] at h
    exact absurd h (by simp)
  · exact absurd h (by simp)

/-- A run with good numbers only passes the check. -/
example : ∃ xs Ps kf', (KalmanFilter.filter Ex.zs (some Ex.us)).run (Ex.cv 3) = (.ok (xs, Ps), kf') ∧ ∃ x, xs[2]? = some x ∧ ¬ x.Every (· = none) := by
  have key : ∃ r : (List (Arr Ex.QN) × List (Arr Ex.QN)) × KalmanFilter Ex.QN, (KalmanFilter.filter Ex.zs (some Ex.us)).run (Ex.cv 3) = (.ok r.1, r.2) := by
    obtain ⟨r, s, h⟩ := (Ex.returned_iff _).1 (show Ex.returned ((KalmanFilter.filter Ex.zs (some Ex.us)).run (Ex.cv 3)) = true by decide +kernel)
    exact ⟨(r, s), h⟩
  obtain ⟨⟨⟨xs, Ps⟩, kf'⟩, h⟩ := key
  refine ⟨xs, Ps, kf', h, ?_⟩
  have hg : (match ((KalmanFilter.filter Ex.zs (some Ex.us)).run (Ex.cv 3)).1 with
    | .ok (xs, _) => (xs[2]?).any Ex.firstGood
    | .error _ => false) = true := by decide +kernel
  rw [h] at hg
  dsimp only at hg
  rcases hx : xs[2]? with _ | x
  · rw [hx] at hg
    exact absurd hg (by simp)
  · rw [hx] at hg
    exact ⟨x, rfl, Ex.not_every hg⟩

/-! ## C133 -/

namespace ExtendedKalmanFilter

open KalmanFilter (Shaped)

/-- The inputs, the gain and the rows of one processed step of a call that returned, and the state it started from. -/
theorem run_at {kf kf' : ExtendedKalmanFilter F} {Z : NDArray F} {U : Option (NDArray F)} {xs Ps : List (Arr F)} (hl : ExtLayout n m kf Z U)
    (h : (filter Z U).run kf = (.ok (xs, Ps), kf')) (k : ℕ) (hk : k < kf.steps Z U) :
    ∃ uk zk Qk Rk x P K o, (effU U Z).rows[k]? = some uk ∧ Z.rows[k]? = some zk ∧ kf.Q.rows[k]? = some Qk ∧ kf.R.rows[k]? = some Rk ∧
      (zk.shape = [m] ∨ zk.shape = []) ∧ (Qk.shape = [n, n] ∨ Qk.shape = []) ∧ (Rk.shape = [m, m] ∨ Rk.shape = []) ∧ Shaped n x P ∧
      step kf (uk, zk, Qk, Rk) x P = (some K, .ok (o, o)) ∧ xs[k]? = some o.1 ∧ Ps[k]? = some o.2 ∧
      kf'.kalmanGains[kf.kalmanGains.length + k]? = some K ∧ (k = 0 → x = kf.xk ∧ P = kf.Pk) ∧
      (∀ k', k = k' + 1 → xs[k']? = some x ∧ Ps[k']? = some P) := by
  have he := ok_err h
  rw [filter_iter (ok_iter h)] at h
  simp only [he, Prod.mk.injEq, Except.ok.injEq] at h
  obtain ⟨⟨rfl, rfl⟩, rfl⟩ := h
  simp only [tr] at he ⊢
  obtain ⟨r, x, P, K, o, h1, h2, h3, h4, h5, h6, h7⟩ := trace_at (Inv := Shaped n) (kf.zrows Z U)
    (fun r hr x P g xP o hs hst => by
      obtain ⟨a1, a2, a3⟩ := mem_zrows hl _ hr
      obtain ⟨uk, zk, Qk, Rk⟩ := r
      obtain ⟨a, b⟩ := step_keeps hl a1 a2 a3 g xP o hs hst
      obtain ⟨_, _, _, _, _, _, _, _, _, _, _, _, K, _, _, _, _, _, _, _, hg, _⟩ := step_form hl a1 a2 a3 hs g xP o hst
      exact ⟨a, b, K, hg⟩) kf.xk kf.Pk ⟨hl.x, hl.P⟩ he k (by rw [zrows_length]; exact hk)
  obtain ⟨b1, b2, b3⟩ := mem_zrows hl _ (List.mem_of_getElem? h1)
  obtain ⟨uk, zk, Qk, Rk⟩ := r
  simp only [zrows, List.getElem?_zip_eq_some] at h1
  obtain ⟨a4, a5, a6, a7⟩ := h1
  have row : ∀ {k : ℕ} {o : Arr F × Arr F}, (trace (step kf) (kf.zrows Z U) kf.xk kf.Pk).outs[k]? = some o →
      (List.map Prod.fst (trace (step kf) (kf.zrows Z U) kf.xk kf.Pk).outs ++
        List.replicate (Z.rows.length - kf.steps Z U) (Arr.zerosVec kf.stateSize))[k]? = some o.1 ∧
      (List.map Prod.snd (trace (step kf) (kf.zrows Z U) kf.xk kf.Pk).outs ++
        List.replicate (Z.rows.length - kf.steps Z U) (Arr.zerosMat kf.stateSize))[k]? = some o.2 := by
    intro k o ho
    have hlt := (List.getElem?_eq_some_iff.1 ho).1
    rw [List.getElem?_append_left (by simpa using hlt), List.getElem?_append_left (by simpa using hlt), List.getElem?_map,
      List.getElem?_map, ho]
    exact ⟨rfl, rfl⟩
  refine ⟨uk, zk, Qk, Rk, x, P, K, o, a4, a5, a6, a7, b1, b2, b3, h2, h3, (row h4).1, (row h4).2, ?_, h6, fun k' hk' => row (h7 k' hk')⟩
  simp only [addGains]
  rw [List.getElem?_append_right (by omega), Nat.add_sub_cancel_left]
  exact h5

/-- What one step does with bad numbers. -/
theorem step_bad (ab : Absorbing bad) (hn : 0 < n) (hm : 0 < m) {kf : ExtendedKalmanFilter F} {Z : NDArray F} {U : Option (NDArray F)}
    (hl : ExtLayout n m kf Z U) {uk zk Qk Rk x P : Arr F} (hz : zk.shape = [m] ∨ zk.shape = []) (hQ : Qk.shape = [n, n] ∨ Qk.shape = [])
    (hR : Rk.shape = [m, m] ∨ Rk.shape = []) (hs : Shaped n x P) {K : Arr F} {o : Arr F × Arr F}
    (hr : step kf (uk, zk, Qk, Rk) x P = (some K, .ok (o, o))) :
    (zk.Any bad → o.1.Every bad) ∧ (∀ xp y, kf.f x (some uk) = .ok xp → kf.h xp = .ok y → y.Any bad → o.1.Every bad) ∧
    (∀ xp, kf.f x (some uk) = .ok xp → xp.Any bad → o.1.Any bad) ∧
    (P.Any bad → o.1.Every bad ∧ o.2.Every bad ∧ K.Every bad) ∧
    (∀ a, kf.jacobianA x (some uk) = .ok a → a.Any bad → o.2.Every bad) ∧
    (∀ xp a, kf.f x (some uk) = .ok xp → kf.jacobianH xp = .ok a → a.Any bad → o.2.Every bad) ∧
    (Qk.Any bad → o.1.Any bad ∧ o.2.Any bad ∧ K.Any bad) := by
  obtain ⟨dA, A, dH, H, dp, xp, dP, P₀, Q, y, r, X, K', hA, hf, hH, hh, rfl, hQb, hzb, hK, -, u⟩ := step_form hl hz hQ hR hs _ _ _ hr
  simp only [Option.some.injEq] at hK
  subst hK
  refine ⟨fun hb => u.mean_of_residual ab (hzb hm bad ab (.inl hb)), fun xp' y' h1 h2 hb => ?_, fun xp' h1 hb => ?_,
    fun hb => u.all_of_prior ab hm (fun i j => prior_of_cov ab hb i j), fun a h1 hb => ?_, fun xp' a h1 h2 hb => ?_, fun hb => ?_⟩
  · rw [hf] at h1
    cases h1
    rw [hh] at h2
    cases h2
    exact u.mean_of_residual ab (hzb hm bad ab (.inr hb))
  · rw [hf] at h1
    cases h1
    obtain ⟨i, hi⟩ := hb
    rw [u.x]
    exact ⟨i, ab.add_left _ _ hi⟩
  · rw [hA] at h1
    cases h1
    obtain ⟨i, l, hi⟩ := hb
    exact u.cov_of_row ab (fun j => prior_of_trans ab hi j)
  · rw [hf] at h1
    cases h1
    rw [hH] at h2
    cases h2
    obtain ⟨i, l, hi⟩ := hb
    exact u.cov_of_obs ab hi
  · obtain ⟨i, j, hb⟩ := hQb hn bad hb
    exact u.some_of_prior ab hm ⟨i, j, ab.add_right _ _ hb⟩

/-- The state from which step `k` starts: the initial one, or the row returned for the step before. -/
def Start (kf : ExtendedKalmanFilter F) (xs : List (Arr F)) (k : ℕ) (x : Arr F) : Prop :=
  (k = 0 ∧ x = kf.xk) ∨ ∃ i, k = i + 1 ∧ xs[i]? = some x

end ExtendedKalmanFilter

section
variable (ab : Absorbing bad) (hn : 0 < n) (hm : 0 < m) (kf kf' : ExtendedKalmanFilter F) (Z : NDArray F) (U : Option (NDArray F))
  (xs Ps : List (Arr F)) (hl : ExtLayout n m kf Z U) (h : (ExtendedKalmanFilter.filter Z U).run kf = (.ok (xs, Ps), kf'))
include ab hn hm hl h

/-- C133, covariances: whatever the callbacks do, a bad number in the initial covariance spoils every entry of everything the extended
filter computes; one in a returned covariance, in the process noise of step `k`, or in a Jacobian that a callback returned at step `k`, spoils
every entry of the states, covariances and gains of all later steps. -/
theorem C133_covariances :
    (kf.Pk.Any bad → ∀ j, j < kf.steps Z U → (∃ x, xs[j]? = some x ∧ x.Every bad) ∧ (∃ P, Ps[j]? = some P ∧ P.Every bad) ∧
      ∃ K, kf'.kalmanGains[kf.kalmanGains.length + j]? = some K ∧ K.Every bad) ∧
    (∀ k, k < kf.steps Z U → ((∃ P, Ps[k]? = some P ∧ P.Any bad) ∨ (∃ q, kf.Q.rows[k]? = some q ∧ q.Any bad) ∨
        ∃ x u, kf.Start xs k x ∧ (effU U Z).rows[k]? = some u ∧ ((∃ a, kf.jacobianA x (some u) = .ok a ∧ a.Any bad) ∨
          ∃ y a, kf.f x (some u) = .ok y ∧ kf.jacobianH y = .ok a ∧ a.Any bad)) →
      ∀ j, k < j → j < kf.steps Z U → (∃ x, xs[j]? = some x ∧ x.Every bad) ∧ (∃ P, Ps[j]? = some P ∧ P.Every bad) ∧
        ∃ K, kf'.kalmanGains[kf.kalmanGains.length + j]? = some K ∧ K.Every bad) := by
  have next : ∀ k, k + 1 < kf.steps Z U → (∃ P, Ps[k]? = some P ∧ P.Any bad) →
      (∃ x, xs[k + 1]? = some x ∧ x.Every bad) ∧ (∃ P, Ps[k + 1]? = some P ∧ P.Every bad ∧ P.Any bad) ∧
      ∃ K, kf'.kalmanGains[kf.kalmanGains.length + (k + 1)]? = some K ∧ K.Every bad := by
    rintro k hk ⟨P', hP', hb⟩
    obtain ⟨uk, zk, Qk, Rk, x, P, K, o, -, -, -, -, b1, b2, b3, hs, hst, hx, hPk, hK, -, hprev⟩ := ExtendedKalmanFilter.run_at hl h (k + 1) hk
    rw [(hprev k rfl).2] at hP'
    cases hP'
    obtain ⟨c1, c2, c3⟩ := (ExtendedKalmanFilter.step_bad ab hn hm hl b1 b2 b3 hs hst).2.2.2.1 hb
    exact ⟨⟨_, hx, c1⟩, ⟨_, hPk, c2, c2.any_mat hn (ExtendedKalmanFilter.step_keeps hl b1 b2 b3 _ _ _ hs hst).2.2⟩, _, hK, c3⟩
  have later : ∀ k, k < kf.steps Z U → (∃ P, Ps[k]? = some P ∧ P.Any bad) → ∀ j, k < j → j < kf.steps Z U →
      (∃ x, xs[j]? = some x ∧ x.Every bad) ∧ (∃ P, Ps[j]? = some P ∧ P.Every bad ∧ P.Any bad) ∧
      ∃ K, kf'.kalmanGains[kf.kalmanGains.length + j]? = some K ∧ K.Every bad := by
    intro k hk hb j hkj hj
    induction j with
    | zero => omega
    | succ j ih =>
      by_cases hkj' : k < j
      · obtain ⟨-, ⟨P, hP, -, hPb⟩, -⟩ := ih hkj' (by omega)
        exact next j hj ⟨P, hP, hPb⟩
      · obtain rfl : k = j := by omega
        exact next k hj hb
  refine ⟨fun hb j hj => ?_, fun k hk hb j hkj hj => ?_⟩
  · obtain ⟨uk, zk, Qk, Rk, x, P, K, o, -, -, -, -, b1, b2, b3, hs, hst, hx, hPk, hK, h0, -⟩ := ExtendedKalmanFilter.run_at hl h 0 (by omega)
    rw [← (h0 rfl).2] at hb
    obtain ⟨c1, c2, c3⟩ := (ExtendedKalmanFilter.step_bad ab hn hm hl b1 b2 b3 hs hst).2.2.2.1 hb
    rcases Nat.eq_zero_or_pos j with rfl | hpos
    · exact ⟨⟨_, hx, c1⟩, ⟨_, hPk, c2⟩, _, hK, c3⟩
    · obtain ⟨e1, ⟨P', e2, e3, -⟩, e4⟩ := later 0 (by omega)
        ⟨_, hPk, c2.any_mat hn (ExtendedKalmanFilter.step_keeps hl b1 b2 b3 _ _ _ hs hst).2.2⟩ j hpos hj
      exact ⟨e1, ⟨P', e2, e3⟩, e4⟩
  · obtain ⟨uk, zk, Qk, Rk, x, P, K, o, a4, -, a6, -, b1, b2, b3, hs, hst, hx, hPk, hK, h0, hprev⟩ := ExtendedKalmanFilter.run_at hl h k hk
    have sb := ExtendedKalmanFilter.step_bad ab hn hm hl b1 b2 b3 hs hst
    have hsh := (ExtendedKalmanFilter.step_keeps hl b1 b2 b3 _ _ _ hs hst).2.2
    have hb' : ∃ P, Ps[k]? = some P ∧ P.Any bad := by
      rcases hb with hb | ⟨q, hq, hb⟩ | ⟨x', u', hst', hu', hb⟩
      · exact hb
      · rw [a6] at hq
        cases hq
        exact ⟨_, hPk, (sb.2.2.2.2.2.2 hb).2.1⟩
      · rw [a4] at hu'
        cases hu'
        obtain rfl : x = x' := by
          rcases hst' with ⟨rfl, rfl⟩ | ⟨i, rfl, hi⟩
          · exact (h0 rfl).1
          · rw [(hprev i rfl).1] at hi
            exact Option.some.inj hi
        rcases hb with ⟨a, ha, hb⟩ | ⟨y, a, hy, ha, hb⟩
        · exact ⟨_, hPk, (sb.2.2.2.2.1 a ha hb).any_mat hn hsh⟩
        · exact ⟨_, hPk, (sb.2.2.2.2.2.1 y a hy ha hb).any_mat hn hsh⟩
    obtain ⟨c1, ⟨P', c2, c3, -⟩, c4⟩ := later k hk hb' j hkj hj
    exact ⟨c1, ⟨P', c2, c3⟩, c4⟩

/-- C133, means: a bad number in the observation of step `k`, or in the observation that the callback `h` predicts, spoils every
component of the state returned for that step; one in the state that the callback `f` predicts shows in that state. -/
theorem C133_means (k : ℕ) (hk : k < kf.steps Z U) :
    (∀ z, Z.rows[k]? = some z → z.Any bad → ∃ x, xs[k]? = some x ∧ x.Every bad) ∧
    (∀ x u p, kf.Start xs k x → (effU U Z).rows[k]? = some u → kf.f x (some u) = .ok p →
      (∀ y, kf.h p = .ok y → y.Any bad → ∃ x', xs[k]? = some x' ∧ x'.Every bad) ∧ (p.Any bad → ∃ x', xs[k]? = some x' ∧ x'.Any bad)) := by
  obtain ⟨uk, zk, Qk, Rk, x, P, K, o, a4, a5, a6, -, b1, b2, b3, hs, hst, hx, hPk, hK, h0, hprev⟩ := ExtendedKalmanFilter.run_at hl h k hk
  have sb := ExtendedKalmanFilter.step_bad ab hn hm hl b1 b2 b3 hs hst
  refine ⟨fun z hz hb => ?_, fun x' u' p hst' hu' hp => ?_⟩
  · rw [a5] at hz
    cases hz
    exact ⟨_, hx, sb.1 hb⟩
  · rw [a4] at hu'
    cases hu'
    obtain rfl : x = x' := by
      rcases hst' with ⟨rfl, rfl⟩ | ⟨i, rfl, hi⟩
      · exact (h0 rfl).1
      · rw [(hprev i rfl).1] at hi
        exact Option.some.inj hi
    exact ⟨fun y hy hb => ⟨_, hx, sb.2.1 p y hp hy hb⟩, fun hb => ⟨_, hx, sb.2.2.1 p hp hb⟩⟩

end

/-! ## C134 -/

theorem assignVec_every {n : ℕ} {a b : Arr F} (hs : a.shape = [n]) (h : a.assignVec n = .ok b) (hb : a.Every bad) : b.Every bad := by
  obtain ⟨d, v, rfl⟩ := Arr.eq_vec hs
  rw [Arr.assignVec_vec] at h
  cases h
  exact hb

theorem assignMat_every {n : ℕ} {a b : Arr F} (hs : a.shape = [n, n]) (h : a.assignMat n = .ok b) (hb : a.Every bad) : b.Every bad := by
  obtain ⟨d, v, rfl⟩ := Arr.eq_mat hs
  rw [Arr.assignMat_mat] at h
  cases h
  exact hb

/-- The second half of the backward step, common to both classes. -/
theorem smoothTail_bad (ab : Absorbing bad) {xEst PEst xNext PNext : Arr F} {da d : DType} {xa : Fin n → F} {Pa : Matrix (Fin n) (Fin n) F} {X : Arr F}
    (hX : X.shape = [n, n]) (hx : xEst.shape = [n]) (hP : PEst.shape = [n, n]) (hxn : xNext.shape = [n]) (hPn : PNext.shape = [n, n]) {r : Arr F × Arr F}
    (h : (do
      let dx ← xNext.sub (.vec da xa)
      let kdx ← X.T.matmul dx
      let xs ← xEst.add kdx
      let dP ← PNext.sub (.mat d Pa)
      let dPk ← dP.matmul X.T.T
      let kdPk ← X.T.matmul dPk
      let Ps ← PEst.add kdPk
      Except.ok (xs, Ps) : Except PyErr (Arr F × Arr F)) = .ok r) :
    r.1.shape = [n] ∧ r.2.shape = [n, n] ∧ (xNext.Any bad → r.1.Every bad) ∧ (PNext.Any bad → r.2.Every bad) := by
  obtain ⟨dX, X, rfl⟩ := Arr.eq_mat hX
  obtain ⟨dx, x, rfl⟩ := Arr.eq_vec hx
  obtain ⟨dP, P, rfl⟩ := Arr.eq_mat hP
  obtain ⟨dn, y, rfl⟩ := Arr.eq_vec hxn
  obtain ⟨dN, Y, rfl⟩ := Arr.eq_mat hPn
  simp only [Arr.T_mat, Arr.sub_vv, Arr.matmul_mv, Arr.add_vv, Arr.sub_mm, Arr.matmul_mm, Arr.add_mm, Except.bind_ok', Except.ok.injEq] at h
  subst h
  refine ⟨rfl, rfl, ?_, ?_⟩
  · rintro ⟨l, hl⟩ i
    exact ab.add_right _ _ (ab.gemm_right _ _ i l 0 (ab.sub_left _ _ hl))
  · rintro ⟨l, c, hl⟩ i j
    exact ab.add_right _ _ (ab.gemm_right _ _ i l j (ab.gemm_left _ _ l c j (ab.sub_left _ _ hl)))

theorem KalmanFilter.smoothStep_bad (ab : Absorbing bad) {xk Pk Ak Qk Bk uk x P : Arr F} {r : Arr F × Arr F} (hx : xk.shape = [n])
    (hA : Ak.shape = [n, n]) (hP : Pk.shape = [n, n]) (hQ : Qk.shape = [n, n] ∨ Qk.shape = [])
    (hc : Bk.Blank ∨ uk.Blank ∨ ∃ p, Bk.shape = [n, p] ∧ uk.shape = [p]) (hxn : x.shape = [n]) (hPn : P.shape = [n, n])
    (hr : KalmanFilter.smoothStep xk Pk Ak Qk Bk uk x P = .ok r) :
    r.1.shape = [n] ∧ r.2.shape = [n, n] ∧ (x.Any bad → r.1.Every bad) ∧ (P.Any bad → r.2.Every bad) := by
  obtain ⟨d, xp, e, Pp, hp⟩ := KalmanFilter.predict_layout (m := n) (Hk := Ak) (zk := xk) (Rk := Qk) ⟨hA, hA, hc, .inl hx, hQ, hQ⟩ hx hP
  simp only [KalmanFilter.smoothStep, hp, Except.bind_ok'] at hr
  obtain ⟨dP, P', rfl⟩ := Arr.eq_mat hP
  obtain ⟨dA, A, rfl⟩ := Arr.eq_mat hA
  rw [Arr.T_mat, Arr.matmul_mm] at hr
  simp only [Except.bind_ok'] at hr
  rw [Arr.T_mat, Arr.T_mat, Arr.solve_mm] at hr
  rcases h3 : Backend.solve Pp.transpose (Backend.gemm P' A.transpose).transpose with _ | X
  · simp [h3] at hr
  simp only [h3, Except.bind_ok'] at hr
  exact smoothTail_bad ab (X := .mat .float64 X) rfl hx rfl hxn hPn hr

theorem ExtendedKalmanFilter.smoothStep_bad (ab : Absorbing bad) {kf : ExtendedKalmanFilter F} {Z : NDArray F} {U : Option (NDArray F)}
    (hl : ExtLayout n m kf Z U) {xk Pk Qk uk x P : Arr F} {r : Arr F × Arr F} (hx : xk.shape = [n]) (hP : Pk.shape = [n, n])
    (hQ : Qk.shape = [n, n] ∨ Qk.shape = []) (hxn : x.shape = [n]) (hPn : P.shape = [n, n]) (hr : kf.smoothStep xk Pk Qk uk x P = .ok r) :
    r.1.shape = [n] ∧ r.2.shape = [n, n] ∧ (x.Any bad → r.1.Every bad) ∧ (P.Any bad → r.2.Every bad) := by
  simp only [ExtendedKalmanFilter.smoothStep, ExtendedKalmanFilter.predict] at hr
  rcases hA : kf.jacobianA xk (some uk) with e | Ak; · simp [hA] at hr
  obtain ⟨dA, A, rfl⟩ := Arr.eq_mat (hl.jA _ _ _ hx hA)
  obtain ⟨dP, P', rfl⟩ := Arr.eq_mat hP
  rcases hf : kf.f xk (some uk) with e | xp; · simp [hA, hf] at hr
  obtain ⟨dx, xp, rfl⟩ := Arr.eq_vec (hl.f _ _ _ hx hf)
  obtain ⟨e, Q, hPp, -⟩ := add_noise_eq (dA.promote (dP.promote dA)) (Backend.gemm A (Backend.gemm P' A.transpose)) hQ
  simp only [hA, hf, Except.bind_ok', Arr.T_mat, Arr.matmul_mm, hPp] at hr
  rw [Arr.solve_mm] at hr
  rcases h3 : Backend.solve (Arr.mAdd (Backend.gemm A (Backend.gemm P' A.transpose)) Q).transpose (Backend.gemm P' A.transpose).transpose with _ | X
  · simp [h3] at hr
  simp only [h3, Except.bind_ok'] at hr
  exact smoothTail_bad ab (X := .mat .float64 X) rfl hx rfl hxn hPn hr

/-- Backward induction over the rows of the smoother. -/
theorem back_bad {body : ℕ → Arr F → Arr F → Except PyErr (Arr F × Arr F)} {t : ℕ} {last : Arr F × Arr F} {l : List (Arr F × Arr F)}
    (hn : 0 < n) (h : back body t last = .ok l)
    (hb : ∀ k x P r, k < t → x.shape = [n] → P.shape = [n, n] → body k x P = .ok r →
      r.1.shape = [n] ∧ r.2.shape = [n, n] ∧ (x.Any bad → r.1.Every bad) ∧ (P.Any bad → r.2.Every bad))
    (hsh : ∀ o ∈ l, o.1.shape = [n] ∧ o.2.shape = [n, n]) (k : ℕ) (hk : k ≤ t) (o : Arr F × Arr F) (ho : l[k]? = some o) (j : ℕ) (hj : j < k) :
    (o.1.Any bad → ∃ y, (l.map Prod.fst)[j]? = some y ∧ y.Every bad) ∧ (o.2.Any bad → ∃ P, (l.map Prod.snd)[j]? = some P ∧ P.Every bad) := by
  induction k generalizing o with
  | zero => omega
  | succ k ih =>
    obtain ⟨a, b, ha, hb1, hab⟩ := back_step h k (by omega)
    rw [ho] at hb1
    cases hb1
    obtain ⟨s1, s2⟩ := hsh o (List.mem_of_getElem? ho)
    obtain ⟨t1, t2, t3, t4⟩ := hb k o.1 o.2 a (by omega) s1 s2 hab
    by_cases hjk : j < k
    · obtain ⟨u1, u2⟩ := ih (by omega) a ha hjk
      exact ⟨fun hx => u1 ((t3 hx).any_vec hn t1), fun hP => u2 ((t4 hP).any_mat hn t2)⟩
    · obtain rfl : j = k := by omega
      exact ⟨fun hx => ⟨a.1, by rw [List.getElem?_map, ha]; rfl, t3 hx⟩, fun hP => ⟨a.2, by rw [List.getElem?_map, ha]; rfl, t4 hP⟩⟩

/-- C134 for `KalmanFilter.smooth`: a bad number in a smoothed mean makes every component of all earlier smoothed means bad, and the
same for smoothed covariances. -/
theorem C134_smooth (ab : Absorbing bad) (n m : ℕ) (hn : 0 < n) (kf kf' : KalmanFilter F) (Z : NDArray F) (U : Option (NDArray F))
    (xs Ps : List (Arr F)) (hl : Layout n m kf Z U) (hfull : kf.steps Z U = Z.rows.length)
    (h : (KalmanFilter.smooth Z U).run kf = (.ok (xs, Ps), kf')) (k j : ℕ) (hj : j < k) :
    (∀ x, xs[k]? = some x → x.Any bad → ∃ y, xs[j]? = some y ∧ y.Every bad) ∧
    (∀ P, Ps[k]? = some P → P.Any bad → ∃ Y, Ps[j]? = some Y ∧ Y.Every bad) := by
  obtain ⟨xe, Pe, x, P, l, hf, hne, hlen, hx, hP, hb, rfl, rfl⟩ := KalmanFilter.smooth_ok h
  obtain ⟨n', hn', hxl, hPl, hxs, hPs⟩ := KalmanFilter.filter_rowsOk hf
  obtain ⟨zs, rfl, hzs⟩ := NDArray.len_ok hn'
  simp only [NDArray.rows_stack] at hfull
  have step : ∀ k x P r, k < xe.length - 1 → x.shape = [n] → P.shape = [n, n] →
      KalmanFilter.body kf.A kf.Q kf.B (checkNoneAndBroadcast U (.stack zs)) kf.stateSize xe Pe k x P = .ok r →
      r.1.shape = [n] ∧ r.2.shape = [n, n] ∧ (x.Any bad → r.1.Every bad) ∧ (P.Any bad → r.2.Every bad) := by
    intro k y Y r hk1 hys hYs hr
    obtain ⟨Ak, Qk, Bk, uk, Pk, xk, y', Y', a1, a2, a3, a4, a5, a6, a7, a8, a9⟩ := KalmanFilter.body_ok hr
    obtain ⟨row, hrow, b1, b2, b3, b4, b5, b6, b7⟩ := KalmanFilter.zrows_get (kf := kf) (Z := .stack zs) (U := U) (k := k + 1) (by omega)
    have hL := KalmanFilter.mem_zrows hl row (List.mem_of_getElem? hrow)
    rw [item_rows a1] at b1
    rw [item_rows a3] at b3
    rw [item_rows a4] at b4
    rw [item_rows a2] at b6
    simp only [Option.some.injEq] at b1 b3 b4 b6
    subst b1 b3 b4 b6
    have hxk : xk.shape = [n] := by
      have := (hxs xk (List.mem_of_getElem? (getRow_ok a6))).1
      rwa [hl.size] at this
    have hPk : Pk.shape = [n, n] := by
      have := (hPs Pk (List.mem_of_getElem? (getRow_ok a5))).1
      rwa [hl.size] at this
    obtain ⟨c1, c2, c3, c4⟩ := KalmanFilter.smoothStep_bad ab hxk hL.A hPk hL.Q hL.control hys hYs a7
    rw [hl.size] at a8 a9
    exact ⟨(assignVec_shape a8).1, (assignMat_shape a9).1, fun hb => assignVec_every c1 a8 (c3 hb), fun hb => assignMat_every c2 a9 (c4 hb)⟩
  have hx1 : x.shape = [n] := by have := (hxs x (List.mem_of_getElem? hx)).1; rwa [hl.size] at this
  have hP1 : P.shape = [n, n] := by have := (hPs P (List.mem_of_getElem? hP)).1; rwa [hl.size] at this
  have hsh : ∀ o ∈ l, o.1.shape = [n] ∧ o.2.shape = [n, n] :=
    back_forall_lt (fun o => o.1.shape = [n] ∧ o.2.shape = [n, n])
      (fun k x P r hk hp hr => by obtain ⟨a, b, -⟩ := step k x P r hk hp.1 hp.2 hr; exact ⟨a, b⟩) ⟨hx1, hP1⟩ hb
  have hll := back_length hb
  refine ⟨fun y hy hyb => ?_, fun Y hY hYb => ?_⟩
  · rw [List.getElem?_map, Option.map_eq_some_iff] at hy
    obtain ⟨o, ho, rfl⟩ := hy
    have := (List.getElem?_eq_some_iff.1 ho).1
    exact (back_bad hn hb step hsh k (by omega) o ho j hj).1 hyb
  · rw [List.getElem?_map, Option.map_eq_some_iff] at hY
    obtain ⟨o, ho, rfl⟩ := hY
    have := (List.getElem?_eq_some_iff.1 ho).1
    exact (back_bad hn hb step hsh k (by omega) o ho j hj).2 hYb

/-- C134 for `ExtendedKalmanFilter.smooth`, whatever the callbacks compute. -/
theorem C134_ext_smooth (ab : Absorbing bad) (n m : ℕ) (hn : 0 < n) (kf kf' : ExtendedKalmanFilter F) (Z : NDArray F) (U : Option (NDArray F))
    (xs Ps : List (Arr F)) (hl : ExtLayout n m kf Z U) (h : (ExtendedKalmanFilter.smooth Z U).run kf = (.ok (xs, Ps), kf')) (k j : ℕ) (hj : j < k) :
    (∀ x, xs[k]? = some x → x.Any bad → ∃ y, xs[j]? = some y ∧ y.Every bad) ∧
    (∀ P, Ps[k]? = some P → P.Any bad → ∃ Y, Ps[j]? = some Y ∧ Y.Every bad) := by
  obtain ⟨xe, Pe, x, P, l, hf, hne, hlen, hx, hP, hb, rfl, rfl⟩ := ExtendedKalmanFilter.smooth_ok h
  obtain ⟨n', hn', hxl, hPl, hxs, hPs⟩ := ExtendedKalmanFilter.filter_rowsOk hf
  have step : ∀ k x P r, k < xe.length - 1 → x.shape = [n] → P.shape = [n, n] →
      kf.body kf.Q (checkNoneAndBroadcast U Z) xe Pe k x P = .ok r →
      r.1.shape = [n] ∧ r.2.shape = [n, n] ∧ (x.Any bad → r.1.Every bad) ∧ (P.Any bad → r.2.Every bad) := by
    intro k y Y r hk1 hys hYs h
    simp only [ExtendedKalmanFilter.body] at h
    rcases h2 : kf.Q.item (k + 1) with e | Qk; · simp [h2] at h
    simp only [h2, Except.bind_ok'] at h
    rcases h4 : (checkNoneAndBroadcast U Z).item (k + 1) with e | uk; · simp [h4] at h
    simp only [h4, Except.bind_ok'] at h
    rcases h5 : getRow Pe k with e | Pk; · simp [h5] at h
    simp only [h5, Except.bind_ok'] at h
    rcases h6 : getRow xe k with e | xk; · simp [h6] at h
    simp only [h6, Except.bind_ok'] at h
    rcases h7 : kf.smoothStep xk Pk Qk uk y Y with e | ⟨x', P'⟩; · simp [h7] at h
    simp only [h7, Except.bind_ok'] at h
    rcases h8 : x'.assignVec kf.stateSize with e | xr; · simp [h8] at h
    simp only [h8, Except.bind_ok'] at h
    rcases h9 : P'.assignMat kf.stateSize with e | Pr; · simp [h9] at h
    simp only [h9, Except.bind_ok', Except.ok.injEq] at h
    subst h
    have hxk : xk.shape = [n] := by
      have := (hxs xk (List.mem_of_getElem? (getRow_ok h6))).1
      rwa [hl.size] at this
    have hPk : Pk.shape = [n, n] := by
      have := (hPs Pk (List.mem_of_getElem? (getRow_ok h5))).1
      rwa [hl.size] at this
    obtain ⟨c1, c2, c3, c4⟩ := ExtendedKalmanFilter.smoothStep_bad ab hl hxk hPk (hl.Q _ (List.mem_of_getElem? (item_rows h2))) hys hYs h7
    rw [hl.size] at h8 h9
    exact ⟨(assignVec_shape h8).1, (assignMat_shape h9).1, fun hb => assignVec_every c1 h8 (c3 hb), fun hb => assignMat_every c2 h9 (c4 hb)⟩
  have hx1 : x.shape = [n] := by have := (hxs x (List.mem_of_getElem? hx)).1; rwa [hl.size] at this
  have hP1 : P.shape = [n, n] := by have := (hPs P (List.mem_of_getElem? hP)).1; rwa [hl.size] at this
  have hsh : ∀ o ∈ l, o.1.shape = [n] ∧ o.2.shape = [n, n] :=
    back_forall_lt (fun o => o.1.shape = [n] ∧ o.2.shape = [n, n])
      (fun k x P r hk hp hr => by obtain ⟨a, b, -⟩ := step k x P r hk hp.1 hp.2 hr; exact ⟨a, b⟩) ⟨hx1, hP1⟩ hb
  have hll := back_length hb
  refine ⟨fun y hy hyb => ?_, fun Y hY hYb => ?_⟩
  · rw [List.getElem?_map, Option.map_eq_some_iff] at hy
    obtain ⟨o, ho, rfl⟩ := hy
    have := (List.getElem?_eq_some_iff.1 ho).1
    exact (back_bad hn hb step hsh k (by omega) o ho j hj).1 hyb
  · rw [List.getElem?_map, Option.map_eq_some_iff] at hY
    obtain ⟨o, ho, rfl⟩ := hY
    have := (List.getElem?_eq_some_iff.1 ho).1
    exact (back_bad hn hb step hsh k (by omega) o ho j hj).2 hYb

/-- C134, from the data: if the filtering pass of `smooth` meets a bad number (in the initial state, or in the observation, matrices or
control of a step), or a filtered covariance of any step but the last is bad somewhere, then every component of every smoothed mean is bad. -/
theorem C134_from_data (ab : Absorbing bad) (n m : ℕ) (hn : 0 < n) (hm : 0 < m) (kf kf' : KalmanFilter F) (Z : NDArray F) (U : Option (NDArray F))
    (xs Ps : List (Arr F)) (hl : Layout n m kf Z U) (hfull : kf.steps Z U = Z.rows.length)
    (h : (KalmanFilter.smooth Z U).run kf = (.ok (xs, Ps), kf')) (xe Pe : List (Arr F))
    (hf : (KalmanFilter.filter Z U).run kf = (.ok (xe, Pe), kf')) (k : ℕ) (hk : k < Z.rows.length)
    (hbad : kf.xk.Any bad ∨ (∃ z, Z.rows[k]? = some z ∧ z.Any bad) ∨ (∃ a, kf.A.rows[k]? = some a ∧ a.Any bad) ∨
      (∃ a, kf.H.rows[k]? = some a ∧ a.Any bad) ∨
      (∃ b u, kf.B.rows[k]? = some b ∧ (effU U Z).rows[k]? = some u ∧ ¬ b.Blank ∧ ¬ u.Blank ∧ (b.Any bad ∨ u.Any bad)) ∨
      (∃ P, k + 1 < Z.rows.length ∧ Pe[k]? = some P ∧ P.Any bad)) : ∀ x ∈ xs, x.Every bad := by
  obtain ⟨t, ht⟩ : ∃ t, Z.rows.length = t + 1 := ⟨Z.rows.length - 1, by omega⟩
  have hlast : ∃ x, xe[t]? = some x ∧ x.Every bad := by
    rcases hbad with hb | hb | hb | hb | hb | ⟨P, hlt, hP, hb⟩
    · exact C132_means ab hn hm kf kf' Z U xe Pe hl hf k (.inl hb) t (by omega) (by omega)
    · exact C132_means ab hn hm kf kf' Z U xe Pe hl hf k (.inr (.inl hb)) t (by omega) (by omega)
    · exact C132_means ab hn hm kf kf' Z U xe Pe hl hf k (.inr (.inr (.inl hb))) t (by omega) (by omega)
    · exact C132_means ab hn hm kf kf' Z U xe Pe hl hf k (.inr (.inr (.inr (.inl hb)))) t (by omega) (by omega)
    · exact C132_means ab hn hm kf kf' Z U xe Pe hl hf k (.inr (.inr (.inr (.inr (.inl hb))))) t (by omega) (by omega)
    · exact ((C132_covariances ab hn hm kf kf' Z U xe Pe hl hf).2.1 k (by omega) (.inl ⟨P, hP, hb⟩) t (by omega) (by omega)).1
  obtain ⟨y, hy, hyb⟩ := hlast
  have hxt : xs[t]? = some y ∧ xs.length = t + 1 := by
    obtain ⟨xe', Pe', x, P, l, hf', hne, hlen, hx, hP, hb, rfl, rfl⟩ := KalmanFilter.smooth_ok h
    rw [hf] at hf'
    cases hf'
    obtain ⟨n', hn', hxl, hPl, hxs, hPs⟩ := KalmanFilter.filter_rowsOk hf
    obtain ⟨zs, rfl, hzs⟩ := NDArray.len_ok hn'
    simp only [NDArray.rows_stack] at ht
    have hl' := back_last hb
    have hl2 := back_length hb
    obtain rfl : t = xe.length - 1 := by omega
    rw [hx] at hy
    cases hy
    exact ⟨by rw [List.getElem?_map, hl']; rfl, by rw [List.length_map, hl2]⟩
  have hsh : y.shape = [n] := by
    obtain ⟨n', hn', hxl, hPl, hxs, hPs⟩ := KalmanFilter.filter_rowsOk hf
    have := (hxs y (List.mem_of_getElem? hy)).1
    rwa [hl.size] at this
  intro x hx
  obtain ⟨j, hj⟩ := List.mem_iff_getElem?.1 hx
  have hjl := (List.getElem?_eq_some_iff.1 hj).1
  rcases Nat.lt_or_ge j t with hlt | hge
  · obtain ⟨x', hx', hxb⟩ := (C134_smooth ab n m hn kf kf' Z U xs Ps hl hfull h t j hlt).1 y hxt.1 (hyb.any_vec hn hsh)
    rw [hj] at hx'
    cases hx'
    exact hxb
  · obtain rfl : j = t := by omega
    rw [hxt.1] at hj
    cases hj
    exact hyb

/-- A NaN in the process noise spoils every later row of the extended filter. -/
example (xs Ps : List (Arr Ex.QN)) (kf' : ExtendedKalmanFilter Ex.QN)
    (h : (ExtendedKalmanFilter.filter Ex.zs (some Ex.us)).run (Ex.pushed (Ex.mat2 (some 1) (some 0) (some 0) none) Ex.r1 3) = (.ok (xs, Ps), kf')) :
    (∃ x, xs[2]? = some x ∧ x.Every (· = none)) ∧ ∃ P, Ps[2]? = some P ∧ P.Every (· = none) :=
  have hl := Ex.pushed_layout (Ex.mat2 (some 1) (some 0) (some 0) none) Ex.r1 3 [some 1, some 3, some 2] (some Ex.us) (.inl rfl) (.inl rfl)
  have key := (C133_covariances Ex.absorbing (by norm_num) (by norm_num) _ _ _ _ _ _ hl h).2 0 (by decide) (.inr (.inl ⟨_, rfl, 1, 1, rfl⟩)) 2 (by norm_num) (by decide)
  ⟨key.1, key.2.1⟩

example : Ex.returned ((ExtendedKalmanFilter.filter Ex.zs (some Ex.us)).run (Ex.pushed (Ex.mat2 (some 1) (some 0) (some 0) none) Ex.r1 3)) = true := by
  decide +kernel

/-- A NaN observation in the extended filter. -/
example (xs Ps : List (Arr Ex.QN)) (kf' : ExtendedKalmanFilter Ex.QN)
    (h : (ExtendedKalmanFilter.filter (.stack [Ex.vec1 (some 1), Ex.vec1 none]) (some Ex.us)).run (Ex.pushed Ex.q2 Ex.r1 3) = (.ok (xs, Ps), kf')) :
    ∃ x, xs[1]? = some x ∧ x.Every (· = none) :=
  have hl := Ex.pushed_layout Ex.q2 Ex.r1 3 [some 1, none] (some Ex.us) (.inl rfl) (.inl rfl)
  (C133_means Ex.absorbing (by norm_num) (by norm_num) _ _ _ _ _ _ hl h 1 (by decide)).1 _ rfl ⟨0, rfl⟩

example : Ex.returned ((ExtendedKalmanFilter.filter (.stack [Ex.vec1 (some 1), Ex.vec1 none]) (some Ex.us)).run (Ex.pushed Ex.q2 Ex.r1 3)) = true := by
  decide +kernel

/-- A NaN as the last of three observations: smoothing loses everything. -/
example (xs Ps : List (Arr Ex.QN)) (kf' : KalmanFilter Ex.QN)
    (h : (KalmanFilter.smooth (.stack [Ex.vec1 (some 1), Ex.vec1 (some 3), Ex.vec1 none]) (some Ex.us)).run (Ex.cv 3) = (.ok (xs, Ps), kf')) :
    ∀ x ∈ xs, x.Every (· = none) := by
  have hl := Ex.cv_layout 3 [some 1, some 3, none] [some 1, some 0, some (-1)]
  obtain ⟨xe, Pe, x, P, l, hf, -⟩ := KalmanFilter.smooth_ok h
  exact C134_from_data Ex.absorbing 2 1 (by norm_num) (by norm_num) _ _ _ _ xs Ps hl (by decide) h xe Pe hf 2 (by decide) (.inr (.inl ⟨_, rfl, 0, rfl⟩))

example : Ex.returned ((KalmanFilter.smooth (.stack [Ex.vec1 (some 1), Ex.vec1 (some 3), Ex.vec1 none]) (some Ex.us)).run (Ex.cv 3)) = true := by
  decide +kernel

example : Ex.returned ((ExtendedKalmanFilter.smooth (.stack [Ex.vec1 (some 1), Ex.vec1 (some 3), Ex.vec1 none]) (some Ex.us)).run
    (Ex.pushed Ex.q2 Ex.r1 3)) = true := by
  decide +kernel

end KK
