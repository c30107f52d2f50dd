import Verif.Proofs.InfNoise
import Verif.Props.NonFinite
import Verif.Props.FloatVariance

/-!
# Infinite measurement noise in floating point (C135)
-/

set_option linter.unusedSectionVars false

namespace KK

open Matrix

section
variable {nanInt : ℝ} {a : IeeeUnit} {n m : ℕ}

theorem ieee_gemm_zero_left (hr : Ieee.Rounding a.rnd) {k : ℕ} (S : Matrix (Fin m) (Fin k) Ieee) (T : Matrix (Fin k) (Fin n) Ieee)
    (hS : ∀ i l, S i l = .fin 0) (hT : ∀ l j, (T l j).Finite) (i : Fin m) (j : Fin n) :
    @Backend.gemm Ieee (ieeeB nanInt a) m k n S T i j = .fin 0 := by
  cases k with
  | zero => rfl
  | succ k => exact SumTree.evalIeee_zero hr _ _ (fun l => .inl ⟨hS i l, hT l j⟩) _

theorem ieee_gemm_id (hr : Ieee.Rounding a.rnd) (hv : a.Valid) {I : Matrix (Fin m) (Fin m) Ieee} (hI : ∀ i j, I i j = if i = j then .fin 1 else .fin 0)
    (T : Matrix (Fin m) (Fin n) Ieee) (hT : ∀ l j, Ieee.Rep a.rnd (T l j)) (i : Fin m) (j : Fin n) :
    @Backend.gemm Ieee (ieeeB nanInt a) m m n I T i j = T i j := by
  cases m with
  | zero => exact i.elim0
  | succ m =>
    have hp := hv.order (m + 1) m n i j
    have hrow : (fun l => I i l) = fun l => if i = l then Ieee.fin 1 else .fin 0 := funext fun l => hI i l
    show SumTree.evalIeee a.rnd (fun l => I i l) (fun l => T l j) _ = _
    rw [hrow, SumTree.evalIeee_unit hr i _ (fun l => hT l j) _ (hp.nodup_iff.2 (List.nodup_finRange _)), if_pos (hp.mem_iff.2 (List.mem_finRange i))]

theorem ieee_gemm_rep (hr : Ieee.Rounding a.rnd) {k : ℕ} (S : Matrix (Fin m) (Fin k) Ieee) (T : Matrix (Fin k) (Fin n) Ieee) (i : Fin m) (j : Fin n)
    (h : (@Backend.gemm Ieee (ieeeB nanInt a) m k n S T i j).Finite) : Ieee.Rep a.rnd (@Backend.gemm Ieee (ieeeB nanInt a) m k n S T i j) := by
  cases k with
  | zero => exact Ieee.Rep.zero hr
  | succ k => exact SumTree.evalIeee_rep hr _ _ _ h

/-- The gain is zero. -/
theorem gain_inf (hr : Ieee.Rounding a.rnd) (hv : a.Valid) {dH dP : DType} {H : Matrix (Fin m) (Fin n) Ieee} {P : Matrix (Fin n) (Fin n) Ieee} {R : Arr Ieee}
    (hR : InfNoise m R)
    (h1 : ∀ i j, (@Backend.gemm Ieee (ieeeB nanInt a) _ _ _ H (@Backend.gemm Ieee (ieeeB nanInt a) _ _ _ P Hᵀ) i j).Finite)
    (h2 : ∀ i j, (@Backend.gemm Ieee (ieeeB nanInt a) _ _ _ H Pᵀ i j).Finite) :
    @KalmanFilter.gain Ieee (ieeeB nanInt a) (.mat dH H) (.mat dP P) R = .ok (.mat .float64 (fun _ _ => .fin 0 : Matrix (Fin n) (Fin m) Ieee)) := by
  letI : Backend Ieee := ieeeB nanInt a
  have hT : ∀ {p q : ℕ} (A : Matrix (Fin p) (Fin q) Ieee) (d : DType), (Arr.mat d A).T = .mat d Aᵀ := fun _ _ => rfl
  -- the innovation covariance: infinities on the diagonal only
  obtain ⟨e, S, hS, hd, ho⟩ : ∃ (e : DType) (S : Matrix (Fin m) (Fin m) Ieee),
      (Arr.mat (dH.promote (dP.promote dH)) (Backend.gemm H (Backend.gemm P Hᵀ))).add R = .ok (.mat e S) ∧ (∀ i, S i i = .posInf) ∧
      ∀ i j, i ≠ j → Ieee.Rep a.rnd (S i j) := by
    have hinf : ∀ x : Ieee, x.Finite → Ieee.add a.rnd x .posInf = .posInf := by
      intro x hx
      obtain ⟨y, rfl⟩ := Ieee.finite_iff.1 hx
      rfl
    rcases hR with ⟨d, rfl⟩ | ⟨rfl, d, rfl⟩
    · refine ⟨_, _, Arr.add_mm _ _ _ _, fun i => ?_, fun i j hij => ?_⟩
      · show Ieee.add a.rnd (Backend.gemm H (Backend.gemm P Hᵀ) i i) (if i = i then Ieee.posInf else .fin 0) = _
        rw [if_pos rfl]
        exact hinf _ (h1 i i)
      · show Ieee.Rep a.rnd (Ieee.add a.rnd (Backend.gemm H (Backend.gemm P Hᵀ) i j) (if i = j then Ieee.posInf else .fin 0))
        rw [if_neg hij, (ieee_gemm_rep hr _ _ i j (h1 i j)).add_zero]
        exact ieee_gemm_rep hr _ _ i j (h1 i j)
    · refine ⟨_, _, Arr.add_ms _ _ _ _, fun i => hinf _ (h1 i i), fun i j hij => absurd (Subsingleton.elim i j) hij⟩
  have hsol : Backend.solve Sᵀ (Backend.gemm H Pᵀ) = some fun (_ : Fin m) (_ : Fin n) => Ieee.fin 0 :=
    gaussIeee_inf hr a.fused a.pivot hv.pivot _ _ (fun i => hd i) (fun i j h => ho j i (Ne.symm h)) (fun i j => ieee_gemm_rep hr _ _ i j (h2 i j))
  simp only [KalmanFilter.gain, hT, Arr.matmul_mm, Except.bind_ok', hS, Arr.solve_mm, hsol]
  rfl

/-- The rest of the update changes nothing. -/
theorem correct_inf (hr : Ieee.Rounding a.rnd) (hv : a.Valid) {dH dx dP : DType} {H : Matrix (Fin m) (Fin n) Ieee} {x : Fin n → Ieee}
    {P : Matrix (Fin n) (Fin n) Ieee} {z : Arr Ieee} (hH : ∀ i j, (H i j).Finite) (hx : ∀ i, Ieee.Rep a.rnd (x i)) (hP : ∀ i j, Ieee.Rep a.rnd (P i j))
    {dr : DType} {r : Fin m → Ieee} {K : Matrix (Fin n) (Fin m) Ieee} (hK : ∀ i l, K i l = .fin 0)
    (hres : @Arr.sub Ieee (ieeeB nanInt a) z (.vec (dH.promote dx) fun i => @Backend.gemm Ieee (ieeeB nanInt a) _ _ 1 H (fun i _ => x i) i 0) = .ok (.vec dr r))
    (hfin : ∀ i, (r i).Finite) :
    @KalmanFilter.correct Ieee (ieeeB nanInt a) (@Arr.identity Ieee (ieeeB nanInt a) n) (.mat .float64 K)
      (.mat dH H) (.vec dx x) (.mat dP P) z = .ok (.vec .float64 x, .mat .float64 P) := by
  letI : Backend Ieee := ieeeB nanInt a
  simp only [KalmanFilter.correct, Arr.matmul_mv, Except.bind_ok', hres, Arr.atleast1d_vec, Arr.add_vv, Arr.matmul_mm, identity_eq, Arr.sub_mm,
    Arr.promote_float_left, Arr.promote_float_right]
  have e1 : (fun i => Backend.add (x i) (Backend.gemm (n := 1) K (fun i _ => r i) i 0)) = x := by
    funext i
    rw [ieee_gemm_zero_left hr _ _ hK (fun l _ => hfin l)]
    exact (hx i).add_zero
  have hI : ∀ i j, Arr.mSub (idM n : Matrix (Fin n) (Fin n) Ieee) (Backend.gemm K H) i j =
      if i = j then .fin 1 else .fin 0 := by
    intro i j
    show Ieee.sub a.rnd (idM n i j) (Backend.gemm K H i j) = _
    rw [ieee_gemm_zero_left hr _ _ hK hH]
    unfold idM
    split_ifs
    · show Ieee.add a.rnd (.fin 1) (.fin (-0)) = _
      simp [Ieee.add, hr.one]
    · show Ieee.add a.rnd (.fin 0) (.fin (-0)) = _
      simp [Ieee.add, hr.zero]
  have e2 : Backend.gemm (Arr.mSub (idM n : Matrix (Fin n) (Fin n) Ieee) (Backend.gemm K H)) P = P := by
    funext i j
    exact ieee_gemm_id hr hv hI P hP i j
  rw [e1, e2]

/-- The computed mean of a prediction, where finite, consists of numbers of the format; so does its covariance. -/
theorem predict_rep (hr : Ieee.Rounding a.rnd) {Ak Hk Bk uk zk Qk Rk x P : Arr Ieee} (h : @RowLayout Ieee (ieeeB nanInt a) n m Ak Hk Bk uk zk Qk Rk) (hx : x.shape = [n])
    (hP : P.shape = [n, n]) {d e : DType} {xp : Fin n → Ieee} {Pp : Matrix (Fin n) (Fin n) Ieee}
    (hp : @KalmanFilter.predict Ieee (ieeeB nanInt a) Ak x (some Bk) (some uk) P Qk = .ok (.vec d xp, .mat e Pp)) :
    (∀ i, (xp i).Finite → Ieee.Rep a.rnd (xp i)) ∧ ∀ i j, (Pp i j).Finite → Ieee.Rep a.rnd (Pp i j) := by
  letI : Backend Ieee := ieeeB nanInt a
  obtain ⟨dA, A, rfl⟩ := Arr.eq_mat h.A
  obtain ⟨dx, x₀, rfl⟩ := Arr.eq_vec hx
  obtain ⟨dP, P₀, rfl⟩ := Arr.eq_mat hP
  obtain ⟨e', Q, hQ, -⟩ := add_noise_eq (dA.promote (dP.promote dA)) (Backend.gemm A (Backend.gemm P₀ A.transpose)) h.Q
  rcases hb : (Bk.isnanAll || uk.isnanAll) with _ | _
  · rw [KalmanFilter.predict_ctrl hb] at hp
    rcases h.control' with hc | hc | ⟨p, hB, hu⟩
    · simp [hc] at hb
    · simp [hc] at hb
    · obtain ⟨dB, B, rfl⟩ := Arr.eq_mat hB
      obtain ⟨du, u, rfl⟩ := Arr.eq_vec hu
      simp only [Arr.T_mat, Arr.matmul_mm, hQ, Arr.matmul_mv, Except.bind_ok', Arr.add_vv, Except.ok.injEq, Prod.mk.injEq, Arr.vec.injEq,
        Arr.mat.injEq, heq_eq_eq, true_and] at hp
      obtain ⟨⟨-, rfl⟩, -, rfl⟩ := hp
      exact ⟨fun i hi => Ieee.Rep.of_add hr hi, fun i j hij => Ieee.Rep.of_add hr hij⟩
  · rw [KalmanFilter.predict_skip hb] at hp
    simp only [Arr.T_mat, Arr.matmul_mm, hQ, Arr.matmul_mv, Except.bind_ok', Except.ok.injEq, Prod.mk.injEq, Arr.vec.injEq,
        Arr.mat.injEq, heq_eq_eq, true_and] at hp
    obtain ⟨⟨-, rfl⟩, -, rfl⟩ := hp
    exact ⟨fun i hi => ieee_gemm_rep hr _ _ _ _ hi, fun i j hij => Ieee.Rep.of_add hr hij⟩

end

/-- The parts of one step. -/
theorem KalmanFilter.step_parts {F : Type} [Backend F] {n m : ℕ} {Ak Hk Bk uk zk Qk Rk x P : Arr F} (h : RowLayout n m Ak Hk Bk uk zk Qk Rk) (hs : Shaped n x P)
    {K : Arr F} {o : Arr F × Arr F} (hr : step n (Arr.identity n) (Ak, Hk, Bk, uk, zk, Qk, Rk) x P = (some K, .ok (o, o))) :
    ∃ (d : DType) (xp : Fin n → F) (e : DType) (Pp : Matrix (Fin n) (Fin n) F), predict Ak x (some Bk) (some uk) P Qk = .ok (.vec d xp, .mat e Pp) ∧
      gain Hk (.mat e Pp) Rk = .ok K ∧ correct (Arr.identity n) K Hk (.vec d xp) (.mat e Pp) zk = .ok o := by
  obtain ⟨d, xp, e, Pp, hp⟩ := predict_layout h hs.1 hs.2
  refine ⟨d, xp, e, Pp, hp, ?_⟩
  simp only [step, hp] at hr
  rcases hg : gain Hk (.mat e Pp) Rk with err | K'
  · simp [hg] at hr
  simp only [hg, Prod.mk.injEq, Option.some.injEq] at hr
  obtain ⟨rfl, hr⟩ := hr
  rcases hc : correct (Arr.identity n) K' Hk (.vec d xp) (.mat e Pp) zk with err | xP
  · simp [hc] at hr
  simp only [hc, Except.bind_ok'] at hr
  rcases h8 : xP.1.assignVec n with err | xr; · simp [h8] at hr
  simp only [h8, Except.bind_ok'] at hr
  rcases h9 : xP.2.assignMat n with err | Pr; · simp [h9] at hr
  simp only [h9, Except.bind_ok', Except.ok.injEq, Prod.mk.injEq] at hr
  exact ⟨rfl, congrArg _ hr.1⟩

/-- A noise that makes the whole gain bad makes everything bad. -/
theorem correct_bad {F : Type} [Backend F] {bad : F → Prop} (ab : Absorbing bad) {n m : ℕ} {Hk zk : Arr F} (hH : Hk.shape = [m, n]) (hz : zk.shape = [m] ∨ zk.shape = [])
    {dx dP dK : DType} {x : Fin n → F} {P : Matrix (Fin n) (Fin n) F} {K : Matrix (Fin n) (Fin m) F} {l : Fin m} (hK : ∀ i, bad (K i l)) {o : Arr F × Arr F}
    (h : KalmanFilter.correct (Arr.identity n) (.mat dK K) Hk (.vec dx x) (.mat dP P) zk = .ok o) : o.1.Every bad ∧ o.2.Every bad := by
  obtain ⟨dH, H, rfl⟩ := Arr.eq_mat hH
  obtain ⟨ew, w, hw, -⟩ := sub_obs_eq (dH.promote dx) (fun i => Backend.gemm (n := 1) H (fun i _ => x i) i 0) hz
  simp only [KalmanFilter.correct, Arr.matmul_mv, Arr.matmul_mm, hw, Arr.atleast1d_vec, Arr.add_vv, identity_eq, Arr.sub_mm, Except.bind_ok',
    Except.ok.injEq] at h
  subst h
  refine ⟨fun i => ?_, fun i j => ?_⟩
  · exact ab.add_right _ _ (ab.gemm_left _ _ i l 0 (hK i))
  · exact ab.gemm_left _ _ i i j (ab.sub_right _ _ (ab.gemm_left _ _ i l i (hK i)))

/-! ## C135 -/

section
variable (nanInt : ℝ) (a : IeeeUnit) (hr : Ieee.Rounding a.rnd) (hv : a.Valid) (n m : ℕ)

include hr hv

/-- C135, `update`: with infinite measurement noise the given state and covariance are returned unchanged, to the last bit, and a zero
gain is recorded - as long as everything else is finite. -/
theorem C135_update (dH dx dP : DType) (H : Matrix (Fin m) (Fin n) Ieee) (x : Fin n → Ieee) (P : Matrix (Fin n) (Fin n) Ieee) (z R : Arr Ieee)
    (kf : KalmanFilter Ieee) (hI : kf.I = @Arr.identity Ieee (ieeeB nanInt a) n) (hR : InfNoise m R)
    (hx : ∀ i, Ieee.Rep a.rnd (x i)) (hP : ∀ i j, Ieee.Rep a.rnd (P i j)) (hfin : @FiniteUpdate (ieeeB nanInt a) n m H x P z) :
    (@KalmanFilter.update Ieee (ieeeB nanInt a) (.mat dH H) (.vec dx x) (.mat dP P) z R).run kf =
      (.ok (.vec .float64 x, .mat .float64 P),
        { kf with kalmanGains := kf.kalmanGains ++ [.mat .float64 (fun _ _ => .fin 0 : Matrix (Fin n) (Fin m) Ieee)] }) := by
  obtain ⟨K, hK⟩ : ∃ K : Matrix (Fin n) (Fin m) Ieee, K = fun _ _ => .fin 0 := ⟨_, rfl⟩
  obtain ⟨hH', -, -, hin, hcr, hres⟩ := hfin
  obtain ⟨dr, r, h3, h4⟩ := hres (dH.promote dx)
  have hg := gain_inf (dH := dH) (dP := dP) hr hv hR hin hcr
  have hc := correct_inf (dP := dP) hr hv hH' hx hP (K := K) (fun i l => by rw [hK]) h3 h4
  rw [← hK] at hg ⊢
  let B : Backend Ieee := ieeeB nanInt a
  simp only [KalmanFilter.update, Py.run_bind, Py.run_lift, hg, Py.run_mutate, Py.run_self, hI, hc]

/-- C135, `filter`: a step whose measurement noise is infinite returns the prediction, to the last bit, and a zero gain. -/
theorem C135_filter (kf kf' : KalmanFilter Ieee) (Z : NDArray Ieee) (U : Option (NDArray Ieee)) (xs Ps : List (Arr Ieee))
    (hl : @Layout Ieee (ieeeB nanInt a) n m kf Z U) (h : (@KalmanFilter.filter Ieee (ieeeB nanInt a) Z U).run kf = (.ok (xs, Ps), kf'))
    (k : ℕ) (x P A B u Q z R : Arr Ieee) (dH : DType) (H : Matrix (Fin m) (Fin n) Ieee)
    (hstart : (k = 0 ∧ x = kf.xk ∧ P = kf.Pk) ∨ ∃ i, k = i + 1 ∧ xs[i]? = some x ∧ Ps[i]? = some P)
    (hA : kf.A.rows[k]? = some A) (hH : kf.H.rows[k]? = some (.mat dH H)) (hB : kf.B.rows[k]? = some B) (hu : (@effU Ieee (ieeeB nanInt a) U Z).rows[k]? = some u)
    (hz : Z.rows[k]? = some z) (hQ : kf.Q.rows[k]? = some Q) (hRk : kf.R.rows[k]? = some R) (hR : InfNoise m R)
    (d e : DType) (xp : Fin n → Ieee) (Pp : Matrix (Fin n) (Fin n) Ieee)
    (hp : @KalmanFilter.predict Ieee (ieeeB nanInt a) A x (some B) (some u) P Q = .ok (.vec d xp, .mat e Pp))
    (hfin : @FiniteUpdate (ieeeB nanInt a) n m H xp Pp z) :
    xs[k]? = some (.vec .float64 xp) ∧ Ps[k]? = some (.mat .float64 Pp) ∧
      kf'.kalmanGains[kf.kalmanGains.length + k]? = some (.mat .float64 (fun _ _ => .fin 0 : Matrix (Fin n) (Fin m) Ieee)) := by
  let ib : Backend Ieee := ieeeB nanInt a
  have hk : k < kf.steps Z U := by
    have : (kf.zrows Z U)[k]? = some (A, .mat dH H, B, u, z, Q, R) := by
      simp only [KalmanFilter.zrows, List.getElem?_zip_eq_some]
      exact ⟨hA, hH, hB, hu, hz, hQ, hRk⟩
    have := (List.getElem?_eq_some_iff.1 this).1
    rwa [KalmanFilter.zrows_length] at this
  obtain ⟨A', H', B', u', z', Q', R', x', P', K, o, a1, a2, a3, a4, a5, a6, a7, hL, hs, hst, hxo, hPo, hKo, h0, hprev⟩ := KalmanFilter.run_at hl h k hk
  rw [hA] at a1; rw [hH] at a2; rw [hB] at a3; rw [hu] at a4; rw [hz] at a5; rw [hQ] at a6; rw [hRk] at a7
  cases a1; cases a2; cases a3; cases a4; cases a5; cases a6; cases a7
  obtain ⟨rfl, rfl⟩ : x = x' ∧ P = P' := by
    rcases hstart with ⟨h1, h2, h3⟩ | ⟨i, h1, h2, h3⟩
    · exact ⟨h2.trans (h0 h1).1.symm, h3.trans (h0 h1).2.symm⟩
    · rw [(hprev i h1).1] at h2
      rw [(hprev i h1).2] at h3
      cases h2; cases h3
      exact ⟨rfl, rfl⟩
  obtain ⟨d', xp', e', Pp', hp', hg', hc'⟩ := KalmanFilter.step_parts hL hs hst
  rw [hp] at hp'
  cases hp'
  obtain ⟨rx, rP⟩ := predict_rep hr hL hs.1 hs.2 hp
  obtain ⟨dr, r, h3, h4⟩ := hfin.residual (dH.promote d)
  have hg := gain_inf (dH := dH) (dP := e) hr hv hR hfin.innovation hfin.cross
  obtain ⟨K0, hK0⟩ : ∃ K : Matrix (Fin n) (Fin m) Ieee, K = fun _ _ => .fin 0 := ⟨_, rfl⟩
  have hc := correct_inf (dP := e) hr hv hfin.hH (fun i => rx i (hfin.hx i)) (fun i j => rP i j (hfin.hP i j)) (K := K0) (fun i l => by rw [hK0]) h3 h4
  rw [hg] at hg'
  cases hg'
  rw [← hK0] at hc' ⊢
  rw [hc] at hc'
  cases hc'
  exact ⟨hxo, hPo, by rw [hKo, ← hK0]⟩

omit hr in
/-- C135, the trap: with two or more sensors the *number* `np.inf` as measurement noise (which numpy adds to every entry of `H @ P @ H.T`)
raises nothing, and makes every entry of the gain, of the new state and of the new covariance infinite or NaN, whatever the other arguments. -/
theorem C135_trap (q : ℕ) (Hk zk : Arr Ieee) (hH : Hk.shape = [q + 2, n]) (hz : zk.shape = [q + 2] ∨ zk.shape = []) (dx dP dR : DType) (x : Fin n → Ieee)
    (P : Matrix (Fin n) (Fin n) Ieee) (kf : KalmanFilter Ieee) (hI : kf.I = @Arr.identity Ieee (ieeeB nanInt a) n) :
    ∃ K o, (@KalmanFilter.update Ieee (ieeeB nanInt a) Hk (.vec dx x) (.mat dP P) zk (.scalar dR .posInf)).run kf =
      (.ok o, { kf with kalmanGains := kf.kalmanGains ++ [K] }) ∧ K.Every Ieee.Bad ∧ o.1.Every Ieee.Bad ∧ o.2.Every Ieee.Bad := by
  let B : Backend Ieee := ieeeB nanInt a
  have ab := ieee_absorbing nanInt a hv.order
  have hH' := hH
  obtain ⟨dH, H, rfl⟩ := Arr.eq_mat hH
  have hS : ∀ i j, (Backend.add (Backend.gemm H (Backend.gemm P Hᵀ) i j) Ieee.posInf).Bad := fun i j => ab.add_right _ _ (fun h => h)
  obtain ⟨X, hX⟩ := gaussIeee_bad_some a.rnd a.fused a.pivot (fun i j => Backend.add (Backend.gemm H (Backend.gemm P Hᵀ) j i) Ieee.posInf)
    (Backend.gemm H Pᵀ) (fun i j => hS j i)
  have hXb : ∀ i j, (X i j).Bad := gaussIeee_all_bad a.rnd a.fused a.pivot _ _ _ hX (fun i j => hS j i)
  have hg : KalmanFilter.gain (.mat dH H) (.mat dP P) (.scalar dR .posInf) = .ok (.mat .float64 Xᵀ) := by
    simp only [KalmanFilter.gain, Arr.T_mat, Arr.matmul_mm, Arr.add_ms, Except.bind_ok', Arr.solve_mm]
    rw [show Backend.solve (Arr.mAddS (Backend.gemm H (Backend.gemm P Hᵀ)) Ieee.posInf)ᵀ (Backend.gemm H Pᵀ) = some X from hX]
    rfl
  obtain ⟨x', P', hc⟩ := KalmanFilter.correct_layout (x := .vec dx x) (P := .mat dP P) (zk := zk) (n := n) hH' rfl rfl hz Xᵀ
  obtain ⟨b1, b2⟩ := correct_bad ab hH' hz (l := 0) (fun i => hXb 0 i) hc
  refine ⟨.mat .float64 Xᵀ, _, ?_, fun i l => hXb l i, b1, b2⟩
  simp only [KalmanFilter.update, Py.run_bind, Py.run_lift, hg, Py.run_mutate, Py.run_self, hI, hc]

omit hr in
/-- C135, one of two sensors: if only the second sensor has infinite noise, the outcome depends on the pivot.  If the computed innovation
covariance has a larger entry off the diagonal than the (finite) one of the first sensor, `update` raises nothing, but the gain of the *first*
sensor is NaN, and the new state and covariance have no finite entry. -/
theorem C135_one_sensor (Hk zk Rk : Arr Ieee) (hH : Hk.shape = [2, n]) (hz : zk.shape = [2] ∨ zk.shape = []) (dx dP eS eT : DType)
    (x : Fin n → Ieee) (P : Matrix (Fin n) (Fin n) Ieee) (kf : KalmanFilter Ieee) (hI : kf.I = @Arr.identity Ieee (ieeeB nanInt a) n)
    (C pht : Arr Ieee) (S : Matrix (Fin 2) (Fin 2) Ieee) (T : Matrix (Fin 2) (Fin n) Ieee)
    (h1 : @Arr.matmul Ieee (ieeeB nanInt a) (.mat dP P) Hk.T = .ok pht) (h2 : @Arr.matmul Ieee (ieeeB nanInt a) Hk pht = .ok C)
    (h3 : @Arr.add Ieee (ieeeB nanInt a) C Rk = .ok (.mat eS S)) (h4 : @Arr.matmul Ieee (ieeeB nanInt a) Hk (.mat dP Pᵀ) = .ok (.mat eT T))
    (s t : ℝ) (hs : S 0 0 = .fin s) (ht : S 0 1 = .fin t) (hst : |s| < |t|) (h10 : (S 1 0).Finite) (h11 : S 1 1 = .posInf) (hT : ∀ j, (T 1 j).Finite) :
    ∃ (K : Matrix (Fin n) (Fin 2) Ieee) (o : Arr Ieee × Arr Ieee), (@KalmanFilter.update Ieee (ieeeB nanInt a) Hk (.vec dx x) (.mat dP P) zk Rk).run kf =
      (.ok o, { kf with kalmanGains := kf.kalmanGains ++ [.mat .float64 K] }) ∧ (∀ i, K i 0 = .nan) ∧ o.1.Every Ieee.Bad ∧ o.2.Every Ieee.Bad := by
  let B : Backend Ieee := ieeeB nanInt a
  have ab := ieee_absorbing nanInt a hv.order
  obtain ⟨X, hX, hXn⟩ := gaussIeee_two_nan a.rnd a.fused a.pivot hv.pivot Sᵀ T (s := s) (t := t) hs ht hst h10 h11 hT
  have hg : KalmanFilter.gain Hk (.mat dP P) Rk = .ok (.mat .float64 Xᵀ) := by
    simp only [KalmanFilter.gain, h1, h2, h3, Except.bind_ok', Arr.T_mat, h4, Arr.solve_mm]
    rw [show Backend.solve Sᵀ T = some X from hX]
    rfl
  obtain ⟨x', P', hc⟩ := KalmanFilter.correct_layout (x := .vec dx x) (P := .mat dP P) (zk := zk) (n := n) hH rfl rfl hz Xᵀ
  obtain ⟨b1, b2⟩ := correct_bad ab hH hz (l := 0) (fun i => by show (X 0 i).Bad; rw [hXn i]; exact fun h => h) hc
  refine ⟨Xᵀ, _, ?_, fun i => hXn i, b1, b2⟩
  simp only [KalmanFilter.update, Py.run_bind, Py.run_lift, hg, Py.run_mutate, Py.run_self, hI, hc]

end

/-! ### examples -/

section
variable {nanInt : ℝ} {a : IeeeUnit}

/-- The only way to sum one product. -/
theorem ieee_order_one (hv : a.Valid) (m n : ℕ) (i : Fin m) (j : Fin n) : a.order m 0 n i j = .prod 0 := by
  have h := hv.order m 0 n i j
  have hl := h.length_eq
  have pos : ∀ {k : ℕ} (t : SumTree k), 0 < t.indices.length := by
    intro k t
    induction t with
    | prod l => simp [SumTree.indices]
    | add s t h1 h2 => simp only [SumTree.indices, List.length_append]; omega
    | fma s l h1 => simp [SumTree.indices]
  simp only [List.length_finRange] at hl
  cases ht : a.order m 0 n i j with
  | prod l => rw [show l = 0 from Fin.ext (by have := l.2; omega)]
  | add s t =>
    rw [ht] at hl
    simp only [SumTree.indices, List.length_append] at hl
    have := pos s
    have := pos t
    omega
  | fma s l =>
    rw [ht] at hl
    simp only [SumTree.indices, List.length_cons] at hl
    have := pos s
    omega

theorem ieee_gemm_one (hv : a.Valid) {m n : ℕ} (S : Matrix (Fin m) (Fin 1) Ieee) (T : Matrix (Fin 1) (Fin n) Ieee) (i : Fin m) (j : Fin n) :
    @Backend.gemm Ieee (ieeeB nanInt a) m 1 n S T i j = (S i 0).mul a.rnd (T 0 j) := by
  show (a.order m 0 n i j).evalIeee a.rnd _ _ = _
  rw [ieee_order_one hv]
  rfl

/-- binary64 with infinities. -/
noncomputable def Ex.ieee64 : IeeeUnit := ieeeUnit 53 (-1022) ((2 ^ 53 - 1) * 2 ^ 971) true

theorem Ex.ieee64_valid : Ex.ieee64.Valid := ieeeUnit_valid _ _ _ _

theorem Ex.ieee64_rounding : Ieee.Rounding Ex.ieee64.rnd :=
  ieeeUnit_rounding (by norm_num) (by norm_num) (one_le_two.trans binary64_max_ge) binary64_max

/-- Small integers are numbers of the format. -/
theorem Ex.ieee64_int (k : ℤ) (hk : |k| < 2 ^ 53) : Ex.ieee64.rnd k = .fin k := by
  refine ieeeOf_fin ((binary_nearest (by norm_num) binary64_max).exact ⟨k, 0, hk, by norm_num, by norm_num⟩ ?_)
  have h1 : |(k : ℝ)| ≤ 2 ^ 53 - 1 := by
    have : |k| ≤ 2 ^ 53 - 1 := by omega
    exact_mod_cast this
  have h2 : (1 : ℝ) ≤ 2 ^ 971 := one_le_pow₀ (by norm_num)
  calc |(k : ℝ)| ≤ (2 ^ 53 - 1) * 1 := by rw [mul_one]; exact h1
    _ ≤ _ := mul_le_mul_of_nonneg_left h2 (by norm_num)

theorem Ex.ieee64_rep (k : ℤ) (hk : |k| < 2 ^ 53) : Ieee.Rep Ex.ieee64.rnd (.fin k) := ⟨k, rfl, Ex.ieee64_int k hk⟩

theorem Ex.ieee64_mul {x y : ℝ} (j k : ℤ) (hx : x = j) (hy : y = k) (h : |j * k| < 2 ^ 53) : Ieee.mul Ex.ieee64.rnd (.fin x) (.fin y) = .fin (j * k : ℤ) := by
  subst hx hy
  show Ex.ieee64.rnd (j * k) = _
  rw [← Int.cast_mul]
  exact Ex.ieee64_int _ h

theorem Ex.ieee64_add {x y : ℝ} (j k : ℤ) (hx : x = j) (hy : y = k) (h : |j + k| < 2 ^ 53) : Ieee.add Ex.ieee64.rnd (.fin x) (.fin y) = .fin (j + k : ℤ) := by
  subst hx hy
  show Ex.ieee64.rnd (j + k) = _
  rw [← Int.cast_add]
  exact Ex.ieee64_int _ h

theorem Ex.ieee64_sub {x y : ℝ} (j k : ℤ) (hx : x = j) (hy : y = k) (h : |j - k| < 2 ^ 53) : Ieee.sub Ex.ieee64.rnd (.fin x) (.fin y) = .fin (j - k : ℤ) := by
  have := Ex.ieee64_add (x := x) (y := -y) j (-k) hx (by rw [hy]; push_cast; rfl) (by rw [← sub_eq_add_neg]; exact h)
  rw [sub_eq_add_neg]
  exact this

/-- One state variable. -/
theorem FiniteUpdate.one (hv : a.Valid) {m : ℕ} (H : Matrix (Fin m) (Fin 1) Ieee) (x : Fin 1 → Ieee) (P : Matrix (Fin 1) (Fin 1) Ieee) (dz : DType)
    (z : Fin m → Ieee) (hH : ∀ i j, (H i j).Finite) (hx : ∀ i, (x i).Finite) (hP : ∀ i j, (P i j).Finite)
    (h1 : ∀ i j, ((H i 0).mul a.rnd ((P 0 0).mul a.rnd (H j 0))).Finite) (h2 : ∀ i, ((H i 0).mul a.rnd (P 0 0)).Finite)
    (h3 : ∀ i, (Ieee.sub a.rnd (z i) ((H i 0).mul a.rnd (x 0))).Finite) : @FiniteUpdate (ieeeB nanInt a) 1 m H x P (.vec dz z) := by
  let B : Backend Ieee := ieeeB nanInt a
  refine ⟨hH, hx, hP, fun i j => ?_, fun i j => ?_, fun d => ?_⟩
  · rw [ieee_gemm_one hv, ieee_gemm_one hv]
    exact h1 i j
  · rw [ieee_gemm_one hv]
    obtain rfl : j = 0 := Subsingleton.elim _ _
    exact h2 i
  · refine ⟨_, _, Arr.sub_vv _ _ _ _, fun i => ?_⟩
    have e := ieee_gemm_one (nanInt := nanInt) hv H (fun i (_ : Fin 1) => x i) i 0
    exact (congrArg (fun t => (Ieee.sub a.rnd (z i) t).Finite) e).mpr (h3 i)

/-- Two sensors, `h = (1, 3)`, of a scalar state. -/
def Ex.sensors13 : Matrix (Fin 2) (Fin 1) Ieee := fun i _ => .fin ((if i = 0 then 1 else 3 : ℤ) : ℝ)

/-- A 1 x 1 covariance. -/
def Ex.one1 (k : ℤ) : Matrix (Fin 1) (Fin 1) Ieee := fun _ _ => .fin k

/-- A state with one component. -/
def Ex.vec1' (k : ℤ) : Fin 1 → Ieee := fun _ => .fin k

/-- Everything is finite. -/
theorem Ex.two_finite (dz : DType) : @FiniteUpdate (ieeeB 0 Ex.ieee64) 1 2 Ex.sensors13 (Ex.vec1' 5) (Ex.one1 2)
    (.vec dz fun i : Fin 2 => .fin ((if i = 0 then 7 else 8 : ℤ) : ℝ)) := by
  refine FiniteUpdate.one Ex.ieee64_valid _ _ _ _ _ (fun _ _ => trivial) (fun _ => trivial) (fun _ _ => trivial) (fun i j => ?_) (fun i => ?_) fun i => ?_
  · show (Ieee.mul _ (.fin _) (Ieee.mul _ (.fin _) (.fin _))).Finite
    rw [Ex.ieee64_mul 2 _ rfl rfl (by split_ifs <;> norm_num), Ex.ieee64_mul _ _ rfl rfl (by split_ifs <;> norm_num)]
    trivial
  · show (Ieee.mul _ (.fin _) (.fin _)).Finite
    rw [Ex.ieee64_mul _ 2 rfl rfl (by split_ifs <;> norm_num)]
    trivial
  · show (Ieee.sub _ (.fin _) (Ieee.mul _ (.fin _) (.fin _))).Finite
    rw [Ex.ieee64_mul _ 5 rfl rfl (by split_ifs <;> norm_num), Ex.ieee64_sub _ _ rfl rfl (by split_ifs <;> norm_num)]
    trivial

/-- binary64, two sensors with infinite noise: the state 5 and the variance 2 are kept. -/
example (kf : KalmanFilter Ieee) (hI : kf.I = @Arr.identity Ieee (ieeeB 0 Ex.ieee64) 1) :
    ((@KalmanFilter.update Ieee (ieeeB 0 Ex.ieee64) (.mat .float64 Ex.sensors13) (.vec .float64 (Ex.vec1' 5)) (.mat .float64 (Ex.one1 2))
      (.vec .float64 fun i : Fin 2 => .fin ((if i = 0 then 7 else 8 : ℤ) : ℝ)) (.mat .float64 (fun i j : Fin 2 => if i = j then .posInf else .fin 0))).run kf).1 =
      .ok (.vec .float64 (Ex.vec1' 5), .mat .float64 (Ex.one1 2)) := by
  exact congrArg Prod.fst (C135_update 0 Ex.ieee64 Ex.ieee64_rounding Ex.ieee64_valid 1 2 .float64 .float64 .float64 Ex.sensors13 (Ex.vec1' 5) (Ex.one1 2) _ _ kf hI
    (.inl ⟨_, rfl⟩) (fun _ => Ex.ieee64_rep 5 (by norm_num)) (fun _ _ => Ex.ieee64_rep 2 (by norm_num)) (Ex.two_finite .float64))

/-- Two sensors, `h = (1, 3)`, variance 1, noise `diag(1, inf)`: the gain of the good sensor is NaN, so is the state. -/
example (kf : KalmanFilter Ieee) (hI : kf.I = @Arr.identity Ieee (ieeeB 0 Ex.ieee64) 1) (x : Fin 1 → Ieee) (z : Fin 2 → Ieee) :
    ∃ (K : Matrix (Fin 1) (Fin 2) Ieee) (o : Arr Ieee × Arr Ieee),
      (@KalmanFilter.update Ieee (ieeeB 0 Ex.ieee64) (.mat .float64 Ex.sensors13) (.vec .float64 x) (.mat .float64 (Ex.one1 1)) (.vec .float64 z)
        (.mat .float64 (fun i j : Fin 2 => if i = j then (if i = 0 then .fin 1 else .posInf) else .fin 0))).run kf =
      (.ok o, { kf with kalmanGains := kf.kalmanGains ++ [.mat .float64 K] }) ∧ (∀ i, K i 0 = .nan) ∧ o.1.Every Ieee.Bad ∧ o.2.Every Ieee.Bad := by
  let B : Backend Ieee := ieeeB 0 Ex.ieee64
  have hc : ∀ i j, Backend.gemm Ex.sensors13 (Backend.gemm (Ex.one1 1) Ex.sensors13ᵀ) i j =
      .fin (((if i = 0 then 1 else 3) * (1 * (if j = 0 then 1 else 3)) : ℤ) : ℝ) := by
    intro i j
    rw [ieee_gemm_one Ex.ieee64_valid, ieee_gemm_one Ex.ieee64_valid]
    show Ieee.mul _ (.fin _) (Ieee.mul _ (.fin _) (.fin _)) = _
    rw [Ex.ieee64_mul 1 _ rfl rfl (by split_ifs <;> norm_num), Ex.ieee64_mul _ _ rfl rfl (by split_ifs <;> norm_num)]
  refine C135_one_sensor 0 Ex.ieee64 Ex.ieee64_valid 1 (.mat .float64 Ex.sensors13) _ _ rfl (.inl rfl) _ _ .float64 .float64 _ _ kf hI _ _ _ _
    (Arr.matmul_mm _ _ _ _) (Arr.matmul_mm _ _ _ _) (Arr.add_mm _ _ _ _) (Arr.matmul_mm _ _ _ _) 2 3 ?_ ?_ (by norm_num) ?_ ?_ ?_
  · show Ieee.add _ (Backend.gemm Ex.sensors13 (Backend.gemm (Ex.one1 1) Ex.sensors13ᵀ) 0 0) (.fin 1) = _
    rw [hc, Ex.ieee64_add _ 1 rfl (by norm_num) (by norm_num)]
    norm_num
  · show Ieee.add _ (Backend.gemm Ex.sensors13 (Backend.gemm (Ex.one1 1) Ex.sensors13ᵀ) 0 1) (.fin 0) = _
    rw [hc, Ex.ieee64_add _ 0 rfl (by norm_num) (by norm_num)]
    norm_num
  · show (Ieee.add _ (Backend.gemm Ex.sensors13 (Backend.gemm (Ex.one1 1) Ex.sensors13ᵀ) 1 0) (.fin 0)).Finite
    rw [hc, Ex.ieee64_add _ 0 rfl (by norm_num) (by norm_num)]
    trivial
  · show Ieee.add _ (Backend.gemm Ex.sensors13 (Backend.gemm (Ex.one1 1) Ex.sensors13ᵀ) 1 1) .posInf = _
    rw [hc]
    rfl
  · intro j
    show (Backend.gemm Ex.sensors13 (Ex.one1 1)ᵀ 1 j).Finite
    rw [ieee_gemm_one Ex.ieee64_valid]
    show (Ieee.mul _ (.fin _) (.fin _)).Finite
    rw [Ex.ieee64_mul _ 1 rfl rfl (by norm_num)]
    trivial

/-- The number `np.inf` for two sensors. -/
example (kf : KalmanFilter Ieee) (hI : kf.I = @Arr.identity Ieee (ieeeB 0 Ex.ieee64) 1) (z : Fin 2 → Ieee) :
    ∃ K o, (@KalmanFilter.update Ieee (ieeeB 0 Ex.ieee64) (.mat .float64 Ex.sensors13) (.vec .float64 (Ex.vec1' 5)) (.mat .float64 (Ex.one1 2))
      (.vec .float64 z) (.scalar .float64 .posInf)).run kf = (.ok o, { kf with kalmanGains := kf.kalmanGains ++ [K] }) ∧
      K.Every Ieee.Bad ∧ o.1.Every Ieee.Bad ∧ o.2.Every Ieee.Bad :=
  C135_trap 0 Ex.ieee64 Ex.ieee64_valid 1 0 (.mat .float64 Ex.sensors13) _ rfl (.inl rfl) _ _ _ _ _ kf hI

/-- A random walk, observed once, with infinite noise. -/
noncomputable def Ex.walkInf : KalmanFilter Ieee where
  A := .stack [.mat .float64 (Ex.one1 1)]
  xk := .vec .float64 (Ex.vec1' 5)
  B := .stack [.mat .float64 (fun _ _ => .nan : Matrix (Fin 1) (Fin 1) Ieee)]
  Pk := .mat .float64 (Ex.one1 2)
  H := .stack [.mat .float64 (Ex.one1 1)]
  Q := .stack [.mat .float64 (Ex.one1 1)]
  R := .stack [.scalar .float64 .posInf]
  stateSize := 1
  I := @Arr.identity Ieee (ieeeB 0 Ex.ieee64) 1
  kalmanGains := []

theorem Ex.walkInf_predict (u : Arr Ieee) : @KalmanFilter.predict Ieee (ieeeB 0 Ex.ieee64) (.mat .float64 (Ex.one1 1)) (.vec .float64 (Ex.vec1' 5))
    (some (.mat .float64 (fun _ _ => .nan : Matrix (Fin 1) (Fin 1) Ieee))) (some u) (.mat .float64 (Ex.one1 2)) (.mat .float64 (Ex.one1 1)) =
      .ok (.vec .float64 (Ex.vec1' 5), .mat .float64 (Ex.one1 3)) := by
  let B : Backend Ieee := ieeeB 0 Ex.ieee64
  have hb : ((Arr.mat .float64 (fun _ _ => .nan : Matrix (Fin 1) (Fin 1) Ieee)).isnanAll || u.isnanAll) = true := by
    rw [Bool.or_eq_true]
    exact .inl ((Arr.isnanAll_iff_blank _).2 fun _ _ => ⟨rfl, rfl⟩)
  rw [KalmanFilter.predict_skip hb]
  simp only [Arr.T_mat, Arr.matmul_mm, Arr.matmul_mv, Arr.add_mm, Except.bind_ok']
  have e1 : (fun i => Backend.gemm (n := 1) (Ex.one1 1) (fun i _ => Ex.vec1' 5 i) i 0) = Ex.vec1' 5 := by
    funext i
    refine (ieee_gemm_one Ex.ieee64_valid _ _ i 0).trans ?_
    show Ieee.mul _ (.fin _) (.fin _) = _
    rw [Ex.ieee64_mul 1 5 rfl rfl (by norm_num)]
    rfl
  have e2 : Arr.mAdd (Backend.gemm (Ex.one1 1) (Backend.gemm (Ex.one1 2) (Ex.one1 1)ᵀ)) (Ex.one1 1) = Ex.one1 3 := by
    funext i j
    show Ieee.add _ (Backend.gemm (Ex.one1 1) (Backend.gemm (Ex.one1 2) (Ex.one1 1)ᵀ) i j) (.fin _) = _
    rw [ieee_gemm_one Ex.ieee64_valid, ieee_gemm_one Ex.ieee64_valid]
    show Ieee.add _ (Ieee.mul _ (.fin _) (Ieee.mul _ (.fin _) (.fin _))) (.fin _) = _
    rw [Ex.ieee64_mul 2 1 rfl rfl (by norm_num), Ex.ieee64_mul 1 _ rfl rfl (by norm_num), Ex.ieee64_add _ 1 rfl rfl (by norm_num)]
    norm_num [Ex.one1]
  exact congrArg₂ (fun x P => Except.ok (Arr.vec .float64 x, Arr.mat .float64 P)) e1 e2

/-- The observation 7 is ignored: the prediction is returned. -/
example : ∃ kf', (@KalmanFilter.filter Ieee (ieeeB 0 Ex.ieee64) (.stack [.vec .float64 (Ex.vec1' 7)]) none).run Ex.walkInf =
    (.ok ([.vec .float64 (Ex.vec1' 5)], [.mat .float64 (Ex.one1 3)]), kf') := by
  let B : Backend Ieee := ieeeB 0 Ex.ieee64
  have hfin : FiniteUpdate (Ex.one1 1) (Ex.vec1' 5) (Ex.one1 3) (.vec .float64 (Ex.vec1' 7)) := by
    refine FiniteUpdate.one Ex.ieee64_valid _ _ _ _ _ (fun _ _ => trivial) (fun _ => trivial) (fun _ _ => trivial) (fun i j => ?_) (fun i => ?_) fun i => ?_
    · show (Ieee.mul _ (.fin _) (Ieee.mul _ (.fin _) (.fin _))).Finite
      rw [Ex.ieee64_mul 3 1 rfl rfl (by norm_num), Ex.ieee64_mul 1 _ rfl rfl (by norm_num)]
      trivial
    · show (Ieee.mul _ (.fin _) (.fin _)).Finite
      rw [Ex.ieee64_mul 1 3 rfl rfl (by norm_num)]
      trivial
    · show (Ieee.sub _ (.fin _) (Ieee.mul _ (.fin _) (.fin _))).Finite
      rw [Ex.ieee64_mul 1 5 rfl rfl (by norm_num), Ex.ieee64_sub 7 _ rfl rfl (by norm_num)]
      trivial
  have hu := C135_update 0 Ex.ieee64 Ex.ieee64_rounding Ex.ieee64_valid 1 1 .float64 .float64 .float64 (Ex.one1 1) (Ex.vec1' 5) (Ex.one1 3)
    (.vec .float64 (Ex.vec1' 7)) (.scalar .float64 .posInf) Ex.walkInf rfl (.inr ⟨rfl, _, rfl⟩) (fun _ => Ex.ieee64_rep 5 (by norm_num))
    (fun _ _ => Ex.ieee64_rep 3 (by norm_num)) hfin
  refine ⟨{ Ex.walkInf with kalmanGains := [.mat .float64 (fun _ _ => .fin 0 : Matrix (Fin 1) (Fin 1) Ieee)] }, ?_⟩
  show (KalmanFilter.filterLoop 0 [(.mat .float64 (Ex.one1 1), .mat .float64 (Ex.one1 1), .mat .float64 (fun _ _ => .nan : Matrix (Fin 1) (Fin 1) Ieee),
    Arr.fullLikeNan (.vec .float64 (Ex.vec1' 7)), .vec .float64 (Ex.vec1' 7), .mat .float64 (Ex.one1 1), .scalar .float64 .posInf)]
    (.vec .float64 (Ex.vec1' 5)) (.mat .float64 (Ex.one1 2)) [Arr.zerosVec 1] [Arr.zerosMat 1]).run Ex.walkInf = _
  simp only [KalmanFilter.filterLoop, Py.run_bind, Py.run_lift, Py.run_self, Ex.walkInf_predict, hu]
  rfl

/-- It has the documented layout. -/
example : @Layout Ieee (ieeeB 0 Ex.ieee64) 1 1 Ex.walkInf (.stack [.vec .float64 (Ex.vec1' 7)]) none := by
  let B : Backend Ieee := ieeeB 0 Ex.ieee64
  refine ⟨rfl, rfl, rfl, rfl, ?_⟩
  intro k Ak Hk Bk uk zk Qk Rk hA hH hB hu hz hQ hR
  cases k with
  | succ k => simp [Ex.walkInf] at hA
  | zero =>
    cases hA; cases hH; cases hB; cases hu; cases hz; cases hQ; cases hR
    exact ⟨rfl, rfl, .inl fun _ _ => ⟨rfl, rfl⟩, .inl rfl, .inl rfl, .inr rfl⟩

end

end KK
