import Verif.Props.InfNoise

/-!
# Infinite measurement noise, extended filter (C135)
-/

set_option linter.unusedSectionVars false

namespace KK

open Matrix

/-- Everything in an update of the extended filter except the measurement noise is finite: the Jacobian `H` and the covariance `P`, the computed
`H @ P @ H.T` and `H @ P.T`, and the residual `z - h(x)`. -/
structure FiniteExtUpdate [Backend Ieee] {n m : ℕ} (H : Matrix (Fin m) (Fin n) Ieee) (P : Matrix (Fin n) (Fin n) Ieee) (z y : Arr Ieee) : Prop where
  hH : ∀ i j, (H i j).Finite
  hP : ∀ i j, (P i j).Finite
  innovation : ∀ i j, (Backend.gemm H (Backend.gemm P Hᵀ) i j).Finite
  cross : ∀ i j, (Backend.gemm H Pᵀ i j).Finite
  residual : ∃ (r : Arr Ieee) (e : DType) (v : Fin m → Ieee), z.sub y = .ok r ∧ r.atleast1d = .vec e v ∧ ∀ i, (v i).Finite

section
variable {nanInt : ℝ} {a : IeeeUnit} {n m : ℕ}

/-- A zero gain changes nothing. -/
theorem ext_correct_inf (hr : Ieee.Rounding a.rnd) (hv : a.Valid) (kf : ExtendedKalmanFilter Ieee) (hI : kf.I = @Arr.identity Ieee (ieeeB nanInt a) n)
    {dH dx dP : DType} {H : Matrix (Fin m) (Fin n) Ieee} {x : Fin n → Ieee}
    {P : Matrix (Fin n) (Fin n) Ieee} {z y : Arr Ieee} (hx : ∀ i, Ieee.Rep a.rnd (x i)) (hP : ∀ i j, Ieee.Rep a.rnd (P i j))
    {K : Matrix (Fin n) (Fin m) Ieee} (hK : ∀ i l, K i l = .fin 0) (hh : kf.h (.vec dx x) = .ok y) (hfin : @FiniteExtUpdate (ieeeB nanInt a) n m H P z y) :
    @ExtendedKalmanFilter.correct Ieee (ieeeB nanInt a) kf (.mat .float64 K) (.mat dH H) (.vec dx x) (.mat dP P) z = .ok (.vec .float64 x, .mat .float64 P) := by
  let B : Backend Ieee := ieeeB nanInt a
  obtain ⟨r, e, v, h1, h2, h3⟩ := hfin.residual
  simp only [ExtendedKalmanFilter.correct, hI, hh, h1, h2, Arr.matmul_mv, Except.bind_ok', Arr.add_vv, Arr.matmul_mm, identity_eq, Arr.sub_mm,
    Arr.promote_float_left, Arr.promote_float_right]
  have e1 : (fun i => Backend.add (x i) (Backend.gemm (n := 1) K (fun i _ => v i) i 0)) = x := by
    funext i
    rw [ieee_gemm_zero_left hr _ _ hK (fun l _ => h3 l)]
    exact (hx i).add_zero
  have hI' : ∀ i j, Arr.mSub (idM n : Matrix (Fin n) (Fin n) Ieee) (Backend.gemm K H) i j =
      if i = j then .fin 1 else .fin 0 := by
    intro i j
    show Ieee.sub a.rnd (idM n i j) (Backend.gemm K H i j) = _
    rw [ieee_gemm_zero_left hr _ _ hK hfin.hH]
    unfold idM
    split_ifs
    · show Ieee.add a.rnd (.fin 1) (.fin (-0)) = _
      simp [Ieee.add, hr.one]
    · show Ieee.add a.rnd (.fin 0) (.fin (-0)) = _
      simp [Ieee.add, hr.zero]
  have e2 : Backend.gemm (Arr.mSub (idM n : Matrix (Fin n) (Fin n) Ieee) (Backend.gemm K H)) P = P := by
    funext i j
    exact ieee_gemm_id hr hv hI' P hP i j
  rw [e1, e2]

/-- The covariance of a prediction, where finite, consists of numbers of the format. -/
theorem ext_predict_rep (hr : Ieee.Rounding a.rnd) {kf : ExtendedKalmanFilter Ieee} {Z : NDArray Ieee} {U : Option (NDArray Ieee)}
    (hl : @ExtLayout Ieee (ieeeB nanInt a) n m kf Z U) {x P Qk : Arr Ieee} {uk : Option (Arr Ieee)} (hs : KalmanFilter.Shaped n x P)
    (hQ : Qk.shape = [n, n] ∨ Qk.shape = []) {xp : Arr Ieee} {e : DType} {Pp : Matrix (Fin n) (Fin n) Ieee}
    (hp : @ExtendedKalmanFilter.predict Ieee (ieeeB nanInt a) kf x uk P Qk = .ok (xp, .mat e Pp)) :
    ∀ i j, (Pp i j).Finite → Ieee.Rep a.rnd (Pp i j) := by
  let B : Backend Ieee := ieeeB nanInt a
  simp only [ExtendedKalmanFilter.predict] at hp
  rcases hA : kf.jacobianA x uk with e' | Ak; · simp [hA] at hp
  obtain ⟨dA, A, rfl⟩ := Arr.eq_mat (hl.jA _ _ _ hs.1 hA)
  obtain ⟨dP, P, rfl⟩ := Arr.eq_mat hs.2
  simp only [hA, Except.bind_ok'] at hp
  rcases hf : kf.f x uk with e' | xp'; · simp [hf] at hp
  obtain ⟨e', Q, hPp, -⟩ := add_noise_eq (dA.promote (dP.promote dA)) (Backend.gemm A (Backend.gemm P A.transpose)) hQ
  simp only [hf, Except.bind_ok', Arr.T_mat, Arr.matmul_mm, hPp, Except.ok.injEq, Prod.mk.injEq, Arr.mat.injEq, heq_eq_eq, true_and] at hp
  obtain ⟨-, -, rfl⟩ := hp
  exact fun i j hij => Ieee.Rep.of_add hr hij

end

section
variable (nanInt : ℝ) (a : IeeeUnit) (hr : Ieee.Rounding a.rnd) (hv : a.Valid) (n m : ℕ)

include hr hv

/-- C135, extended class, `update`: with infinite measurement noise the given state and covariance are returned unchanged, to the last bit, and a
zero gain is recorded - as long as everything else is finite. -/
theorem C135_ext_update (kf : ExtendedKalmanFilter Ieee) (hI : kf.I = @Arr.identity Ieee (ieeeB nanInt a) n) (dH dx dP : DType)
    (H : Matrix (Fin m) (Fin n) Ieee) (x : Fin n → Ieee) (P : Matrix (Fin n) (Fin n) Ieee) (z y R : Arr Ieee)
    (hjH : kf.jacobianH (.vec dx x) = .ok (.mat dH H)) (hh : kf.h (.vec dx x) = .ok y) (hR : InfNoise m R)
    (hx : ∀ i, Ieee.Rep a.rnd (x i)) (hP : ∀ i j, Ieee.Rep a.rnd (P i j)) (hfin : @FiniteExtUpdate (ieeeB nanInt a) n m H P z y) :
    (@ExtendedKalmanFilter.update Ieee (ieeeB nanInt a) (.vec dx x) (.mat dP P) z R).run kf =
      (.ok (.vec .float64 x, .mat .float64 P),
        { kf with kalmanGains := kf.kalmanGains ++ [.mat .float64 (fun _ _ => .fin 0 : Matrix (Fin n) (Fin m) Ieee)] }) := by
  obtain ⟨K, hK⟩ : ∃ K : Matrix (Fin n) (Fin m) Ieee, K = fun _ _ => .fin 0 := ⟨_, rfl⟩
  obtain ⟨-, -, f3, f4, -⟩ := id hfin
  have hg := gain_inf (dH := dH) (dP := dP) hr hv hR f3 f4
  have hc := ext_correct_inf (dH := dH) (dP := dP) hr hv kf hI hx hP (K := K) (fun i l => by rw [hK]) hh hfin
  rw [← hK] at hg ⊢
  let B : Backend Ieee := ieeeB nanInt a
  simp only [ExtendedKalmanFilter.update, Py.run_bind, Py.run_lift, Py.run_self, hjH, ext_gain_eq, hg, Py.run_mutate, hc]

/-- C135, extended class, `filter`: a step whose measurement noise is infinite returns the prediction, to the last bit, and a zero gain. -/
theorem C135_ext_filter (kf kf' : ExtendedKalmanFilter Ieee) (Z : NDArray Ieee) (U : Option (NDArray Ieee)) (xs Ps : List (Arr Ieee))
    (hl : @ExtLayout Ieee (ieeeB nanInt a) n m kf Z U) (h : (@ExtendedKalmanFilter.filter Ieee (ieeeB nanInt a) Z U).run kf = (.ok (xs, Ps), kf'))
    (k : ℕ) (x P u Q z R : Arr Ieee) (hstart : (k = 0 ∧ x = kf.xk ∧ P = kf.Pk) ∨ ∃ i, k = i + 1 ∧ xs[i]? = some x ∧ Ps[i]? = some P)
    (hu : (@effU Ieee (ieeeB nanInt a) U Z).rows[k]? = some u) (hz : Z.rows[k]? = some z) (hQ : kf.Q.rows[k]? = some Q)
    (hRk : kf.R.rows[k]? = some R) (hR : InfNoise m R) (d e dH : DType) (xp : Fin n → Ieee) (Pp : Matrix (Fin n) (Fin n) Ieee)
    (H : Matrix (Fin m) (Fin n) Ieee) (y : Arr Ieee)
    (hp : @ExtendedKalmanFilter.predict Ieee (ieeeB nanInt a) kf x (some u) P Q = .ok (.vec d xp, .mat e Pp))
    (hjH : kf.jacobianH (.vec d xp) = .ok (.mat dH H)) (hh : kf.h (.vec d xp) = .ok y) (hx : ∀ i, Ieee.Rep a.rnd (xp i))
    (hfin : @FiniteExtUpdate (ieeeB nanInt a) n m H Pp z y) :
    xs[k]? = some (.vec .float64 xp) ∧ Ps[k]? = some (.mat .float64 Pp) ∧
      kf'.kalmanGains[kf.kalmanGains.length + k]? = some (.mat .float64 (fun _ _ => .fin 0 : Matrix (Fin n) (Fin m) Ieee)) := by
  let ib : Backend Ieee := ieeeB nanInt a
  have hk : k < kf.steps Z U := by
    have : (kf.zrows Z U)[k]? = some (u, z, Q, R) := by
      simp only [ExtendedKalmanFilter.zrows, List.getElem?_zip_eq_some]
      exact ⟨hu, hz, hQ, hRk⟩
    have := (List.getElem?_eq_some_iff.1 this).1
    rwa [ExtendedKalmanFilter.zrows_length] at this
  obtain ⟨u', z', Q', R', x', P', K, o, a4, a5, a6, a7, b1, b2, b3, hs, hst, hxo, hPo, hKo, h0, hprev⟩ := ExtendedKalmanFilter.run_at hl h k hk
  rw [hu] at a4; rw [hz] at a5; rw [hQ] at a6; rw [hRk] at a7
  cases a4; cases a5; cases a6; cases a7
  obtain ⟨rfl, rfl⟩ : x = x' ∧ P = P' := by
    rcases hstart with ⟨h1, h2, h3⟩ | ⟨i, h1, h2, h3⟩
    · exact ⟨h2.trans (h0 h1).1.symm, h3.trans (h0 h1).2.symm⟩
    · rw [(hprev i h1).1] at h2
      rw [(hprev i h1).2] at h3
      cases h2; cases h3
      exact ⟨rfl, rfl⟩
  have rP := ext_predict_rep hr hl hs b2 hp
  have hg := gain_inf (dH := dH) (dP := e) hr hv hR hfin.innovation hfin.cross
  obtain ⟨K0, hK0⟩ : ∃ K : Matrix (Fin n) (Fin m) Ieee, K = fun _ _ => .fin 0 := ⟨_, rfl⟩
  have hc := ext_correct_inf (dH := dH) (dP := e) hr hv kf hl.ident hx (fun i j => rP i j (hfin.hP i j)) (K := K0) (fun i l => by rw [hK0]) hh hfin
  rw [← hK0] at hg ⊢
  simp only [ExtendedKalmanFilter.step, hp, hjH, ext_gain_eq, hg, hc, Except.bind_ok', hl.size, Arr.assignVec_vec, Arr.assignMat_mat, Prod.mk.injEq, Option.some.injEq,
    Except.ok.injEq] at hst
  obtain ⟨rfl, h1, h2⟩ := hst
  cases h1
  exact ⟨hxo, hPo, hKo⟩

omit hr in
/-- C135, extended class, the trap: with two or more sensors the *number* `np.inf` as measurement noise raises nothing (unless a callback does), and
makes every entry of the gain, of the new state and of the new covariance infinite or NaN. -/
theorem C135_ext_trap (q : ℕ) (Hk zk y : Arr Ieee) (kf : ExtendedKalmanFilter Ieee) (hI : kf.I = @Arr.identity Ieee (ieeeB nanInt a) n)
    (dx dP dR : DType) (x : Fin n → Ieee) (P : Matrix (Fin n) (Fin n) Ieee)
    (hjH : kf.jacobianH (.vec dx x) = .ok Hk) (hh : kf.h (.vec dx x) = .ok y) (hH : Hk.shape = [q + 2, n])
    (hz : zk.shape = [q + 2] ∨ zk.shape = []) (hy : y.shape = [q + 2]) :
    ∃ K o, (@ExtendedKalmanFilter.update Ieee (ieeeB nanInt a) (.vec dx x) (.mat dP P) zk (.scalar dR .posInf)).run kf =
      (.ok o, { kf with kalmanGains := kf.kalmanGains ++ [K] }) ∧ K.Every Ieee.Bad ∧ o.1.Every Ieee.Bad ∧ o.2.Every Ieee.Bad := by
  let B : Backend Ieee := ieeeB nanInt a
  have ab := ieee_absorbing nanInt a hv.order
  obtain ⟨dH, H, rfl⟩ := Arr.eq_mat hH
  have hS : ∀ i j, (Backend.add (Backend.gemm H (Backend.gemm P Hᵀ) i j) Ieee.posInf).Bad := fun i j => ab.add_right _ _ (fun h => h)
  obtain ⟨X, hX⟩ := gaussIeee_bad_some a.rnd a.fused a.pivot (fun i j => Backend.add (Backend.gemm H (Backend.gemm P Hᵀ) j i) Ieee.posInf)
    (Backend.gemm H Pᵀ) (fun i j => hS j i)
  have hXb : ∀ i j, (X i j).Bad := gaussIeee_all_bad a.rnd a.fused a.pivot _ _ _ hX (fun i j => hS j i)
  have hg : ExtendedKalmanFilter.gain (.mat dH H) (.mat dP P) (.scalar dR .posInf) = .ok (.mat .float64 Xᵀ) := by
    simp only [ExtendedKalmanFilter.gain, Arr.T_mat, Arr.matmul_mm, Arr.add_ms, Except.bind_ok', Arr.solve_mm]
    rw [show Backend.solve (Arr.mAddS (Backend.gemm H (Backend.gemm P Hᵀ)) Ieee.posInf)ᵀ (Backend.gemm H Pᵀ) = some X from hX]
    rfl
  obtain ⟨r, d, v, h1, h2, -⟩ := sub_ext_eq hz (.inl hy)
  obtain ⟨o, hc, ho1, ho2⟩ : ∃ o, ExtendedKalmanFilter.correct kf (.mat .float64 Xᵀ) (.mat dH H) (.vec dx x) (.mat dP P) zk = .ok o ∧
      o.1.Every Ieee.Bad ∧ o.2.Every Ieee.Bad := by
    simp only [ExtendedKalmanFilter.correct, hI, hh, h1, h2, Arr.matmul_mv, Arr.matmul_mm, Arr.add_vv, identity_eq, Arr.sub_mm, Except.bind_ok',
      Except.ok.injEq]
    exact ⟨_, rfl, fun i => ab.add_right _ _ (ab.gemm_left _ _ i 0 0 (hXb 0 i)),
      fun i j => ab.gemm_left _ _ i i j (ab.sub_right _ _ (ab.gemm_left _ _ i 0 i (hXb 0 i)))⟩
  refine ⟨.mat .float64 Xᵀ, o, ?_, fun i l => hXb l i, ho1, ho2⟩
  simp only [ExtendedKalmanFilter.update, Py.run_bind, Py.run_lift, hjH, hg, Py.run_mutate, Py.run_self, hc]

end

/-! ### examples -/

/-- A scalar random walk whose level is observed through `h(x) = (x, 3x)`, as an extended filter. -/
noncomputable def Ex.walkExt (R : Arr Ieee) : ExtendedKalmanFilter Ieee where
  f x _ := .ok x
  jacobianA _ _ := .ok (.mat .float64 (Ex.one1 1))
  xk := .vec .float64 (Ex.vec1' 5)
  Pk := .mat .float64 (Ex.one1 2)
  h _ := .ok (.vec .float64 fun i : Fin 2 => .fin ((if i = 0 then 5 else 15 : ℤ) : ℝ))
  jacobianH _ := .ok (.mat .float64 Ex.sensors13)
  Q := .stack [.mat .float64 (Ex.one1 1)]
  R := .stack [R]
  stateSize := 1
  I := @Arr.identity Ieee (ieeeB 0 Ex.ieee64) 1
  kalmanGains := []

/-- Everything is finite. -/
theorem Ex.ext_finite (k : ℤ) (hk : k = 2 ∨ k = 3) : @FiniteExtUpdate (ieeeB 0 Ex.ieee64) 1 2 Ex.sensors13 (Ex.one1 k)
    (.vec .float64 fun i : Fin 2 => .fin ((if i = 0 then 7 else 8 : ℤ) : ℝ)) (.vec .float64 fun i : Fin 2 => .fin ((if i = 0 then 5 else 15 : ℤ) : ℝ)) := by
  let B : Backend Ieee := ieeeB 0 Ex.ieee64
  refine ⟨fun _ _ => trivial, fun _ _ => trivial, fun i j => ?_, fun i j => ?_, _, _, _, Arr.sub_vv _ _ _ _, rfl, fun i => ?_⟩
  · rw [ieee_gemm_one Ex.ieee64_valid, ieee_gemm_one Ex.ieee64_valid]
    show (Ieee.mul _ (.fin _) (Ieee.mul _ (.fin _) (.fin _))).Finite
    rw [Ex.ieee64_mul k _ rfl rfl (by rcases hk with rfl | rfl <;> split_ifs <;> norm_num),
      Ex.ieee64_mul _ _ rfl rfl (by rcases hk with rfl | rfl <;> split_ifs <;> norm_num)]
    trivial
  · rw [ieee_gemm_one Ex.ieee64_valid]
    show (Ieee.mul _ (.fin _) (.fin _)).Finite
    rw [Ex.ieee64_mul _ k rfl rfl (by rcases hk with rfl | rfl <;> split_ifs <;> norm_num)]
    trivial
  · show (Ieee.sub _ (.fin _) (.fin _)).Finite
    rw [Ex.ieee64_sub _ _ rfl rfl (by split_ifs <;> norm_num)]
    trivial

/-- binary64, two sensors with infinite noise: the state 5 and the variance 2 are kept. -/
example (R : Arr Ieee) : ((@ExtendedKalmanFilter.update Ieee (ieeeB 0 Ex.ieee64) (.vec .float64 (Ex.vec1' 5)) (.mat .float64 (Ex.one1 2))
      (.vec .float64 fun i : Fin 2 => .fin ((if i = 0 then 7 else 8 : ℤ) : ℝ)) (.mat .float64 (fun i j : Fin 2 => if i = j then .posInf else .fin 0))).run
      (Ex.walkExt R)).1 = .ok (.vec .float64 (Ex.vec1' 5), .mat .float64 (Ex.one1 2)) :=
  congrArg Prod.fst (C135_ext_update 0 Ex.ieee64 Ex.ieee64_rounding Ex.ieee64_valid 1 2 (Ex.walkExt R) rfl .float64 .float64 .float64 Ex.sensors13
    (Ex.vec1' 5) (Ex.one1 2) _ _ _ rfl rfl (.inl ⟨_, rfl⟩) (fun _ => Ex.ieee64_rep 5 (by norm_num)) (fun _ _ => Ex.ieee64_rep 2 (by norm_num))
    (Ex.ext_finite 2 (.inl rfl)))

/-- The number `np.inf` for the same two sensors. -/
example (R : Arr Ieee) (z : Fin 2 → Ieee) : ∃ K o, (@ExtendedKalmanFilter.update Ieee (ieeeB 0 Ex.ieee64) (.vec .float64 (Ex.vec1' 5))
      (.mat .float64 (Ex.one1 2)) (.vec .float64 z) (.scalar .float64 .posInf)).run (Ex.walkExt R) =
      (.ok o, { Ex.walkExt R with kalmanGains := [] ++ [K] }) ∧ K.Every Ieee.Bad ∧ o.1.Every Ieee.Bad ∧ o.2.Every Ieee.Bad :=
  C135_ext_trap 0 Ex.ieee64 Ex.ieee64_valid 1 0 _ _ _ (Ex.walkExt R) rfl _ _ _ _ _ rfl rfl rfl (.inl rfl) rfl

/-- The hypotheses of `C135_ext_filter` on one step: the call returns, and the layout is the documented one. -/
example : ∃ o kf', (@ExtendedKalmanFilter.filter Ieee (ieeeB 0 Ex.ieee64)
      (.stack [.vec .float64 fun i : Fin 2 => .fin ((if i = 0 then 7 else 8 : ℤ) : ℝ)]) none).run
      (Ex.walkExt (.mat .float64 (fun i j : Fin 2 => if i = j then .posInf else .fin 0))) = (.ok ([.vec .float64 (Ex.vec1' 5)], [o]), kf') ∧
    @ExtLayout Ieee (ieeeB 0 Ex.ieee64) 1 2 (Ex.walkExt (.mat .float64 (fun i j : Fin 2 => if i = j then .posInf else .fin 0)))
      (.stack [.vec .float64 fun i : Fin 2 => .fin ((if i = 0 then 7 else 8 : ℤ) : ℝ)]) none := by
  let B : Backend Ieee := ieeeB 0 Ex.ieee64
  obtain ⟨kf, hkf⟩ : ∃ kf, kf = Ex.walkExt (.mat .float64 (fun i j : Fin 2 => if i = j then .posInf else .fin 0)) := ⟨_, rfl⟩
  rw [← hkf]
  have hp : ∀ u, ExtendedKalmanFilter.predict kf (.vec .float64 (Ex.vec1' 5)) u (.mat .float64 (Ex.one1 2)) (.mat .float64 (Ex.one1 1)) =
      .ok (.vec .float64 (Ex.vec1' 5), .mat .float64 (Ex.one1 3)) := by
    intro u
    rw [hkf]
    simp only [ExtendedKalmanFilter.predict, Ex.walkExt, Except.bind_ok', Arr.T_mat, Arr.matmul_mm, Arr.add_mm]
    have e2 : Arr.mAdd (Backend.gemm (Ex.one1 1) (Backend.gemm (Ex.one1 2) (Ex.one1 1)ᵀ)) (Ex.one1 1) = Ex.one1 3 := by
      funext i j
      show Ieee.add _ (Backend.gemm (Ex.one1 1) (Backend.gemm (Ex.one1 2) (Ex.one1 1)ᵀ) i j) (.fin _) = _
      rw [ieee_gemm_one Ex.ieee64_valid, ieee_gemm_one Ex.ieee64_valid]
      show Ieee.add _ (Ieee.mul _ (.fin _) (Ieee.mul _ (.fin _) (.fin _))) (.fin _) = _
      rw [Ex.ieee64_mul 2 1 rfl rfl (by norm_num), Ex.ieee64_mul 1 _ rfl rfl (by norm_num), Ex.ieee64_add _ 1 rfl rfl (by norm_num)]
      norm_num [Ex.one1]
    exact congrArg (fun P => Except.ok (Arr.vec .float64 (Ex.vec1' 5), Arr.mat .float64 P)) e2
  have hu := C135_ext_update 0 Ex.ieee64 Ex.ieee64_rounding Ex.ieee64_valid 1 2 kf (by rw [hkf]; rfl) .float64 .float64 .float64 Ex.sensors13
    (Ex.vec1' 5) (Ex.one1 3) _ _ (.mat .float64 (fun i j : Fin 2 => if i = j then .posInf else .fin 0)) (by rw [hkf]; rfl) (by rw [hkf]; rfl)
    (.inl ⟨_, rfl⟩) (fun _ => Ex.ieee64_rep 5 (by norm_num)) (fun _ _ => Ex.ieee64_rep 3 (by norm_num)) (Ex.ext_finite 3 (.inr rfl))
  refine ⟨.mat .float64 (Ex.one1 3), { kf with kalmanGains := kf.kalmanGains ++ [.mat .float64 (fun _ _ => .fin 0 : Matrix (Fin 1) (Fin 2) Ieee)] }, ?_, ?_⟩
  · have : (ExtendedKalmanFilter.filter (.stack [.vec .float64 fun i : Fin 2 => .fin ((if i = 0 then 7 else 8 : ℤ) : ℝ)]) none).run kf =
      (ExtendedKalmanFilter.filterLoop 0 [(Arr.fullLikeNan (.vec .float64 fun i : Fin 2 => .fin ((if i = 0 then 7 else 8 : ℤ) : ℝ)),
        .vec .float64 fun i : Fin 2 => .fin ((if i = 0 then 7 else 8 : ℤ) : ℝ), .mat .float64 (Ex.one1 1),
        .mat .float64 (fun i j : Fin 2 => if i = j then .posInf else .fin 0))]
      (.vec .float64 (Ex.vec1' 5)) (.mat .float64 (Ex.one1 2)) [Arr.zerosVec 1] [Arr.zerosMat 1]).run kf := by
      rw [hkf]
      rfl
    rw [this]
    simp only [ExtendedKalmanFilter.filterLoop, Py.run_bind, Py.run_lift, Py.run_self, hp, hu]
    rw [hkf]
    rfl
  · rw [hkf]
    refine ⟨rfl, rfl, rfl, rfl, ?_, ?_, ?_, ?_, ?_, ?_, ?_⟩
    · rintro x u y hx ⟨⟩; exact hx
    · rintro x u y hx ⟨⟩; rfl
    · rintro x y hx ⟨⟩; exact .inl rfl
    · rintro x y hx ⟨⟩; rfl
    · intro z hz
      obtain rfl := List.mem_singleton.1 hz
      exact .inl rfl
    · intro z hz
      obtain rfl := List.mem_singleton.1 hz
      exact .inl rfl
    · intro z hz
      obtain rfl := List.mem_singleton.1 hz
      exact .inl rfl

end KK
