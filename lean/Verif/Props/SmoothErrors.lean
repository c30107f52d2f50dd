import Verif.Props.Accept
import Verif.Props.ShortSmooth

/-!
# C160: the exceptions of `smooth`, and the shapes it accepts
-/

set_option linter.unusedSectionVars false
set_option linter.unusedSimpArgs false

namespace KK

variable {F : Type} [Backend F]

/-- If the backward pass raises, one of its iterations did, on rows it had computed. -/
theorem back_error {body : ℕ → Arr F → Arr F → Except PyErr (Arr F × Arr F)} {t : ℕ} {last : Arr F × Arr F} {e : PyErr}
    (p : Arr F × Arr F → Prop) (hp : ∀ k x P r, k < t → p (x, P) → body k x P = .ok r → p r) (hl : p last)
    (h : back body t last = .error e) : ∃ k x P, k < t ∧ p (x, P) ∧ body k x P = .error e := by
  induction t generalizing last with
  | zero => simp [back] at h
  | succ t ih =>
    rcases hb : body t last.1 last.2 with e' | r
    · simp only [back, hb, Except.bind_error', Except.error.injEq] at h
      exact ⟨t, last.1, last.2, by omega, hl, h ▸ hb⟩
    · rcases hr : back body t r with e' | l
      · simp only [back, hb, Except.bind_ok', hr, Except.bind_error', Except.error.injEq] at h
        obtain ⟨k, x, P, h1, h2, h3⟩ := ih (fun k x P r hk => hp k x P r (by omega)) (hp t _ _ r (by omega) hl hb) (h ▸ hr)
        exact ⟨k, x, P, by omega, h2, h3⟩
      · simp [back, hb, hr] at h

theorem item_full {a : NDArray F} {k : ℕ} (h : k < a.rows.length) : ∃ x, a.rows[k]? = some x ∧ a.item k = .ok x := by
  cases a with
  | d0 => simp [NDArray.rows] at h
  | stack l =>
    have := List.getElem?_eq_getElem (l := l) (i := k) h
    exact ⟨_, this, by simp [NDArray.item, this]⟩

/-- The last lines of an iteration of the backward pass of either class. -/
theorem smooth_tail_error {xEst PEst xa Pa X K xNext PNext : Arr F} {e : PyErr} (h : (do
      let dx ← xNext.sub xa
      let kdx ← K.matmul dx
      let xs ← xEst.add kdx
      let dP ← PNext.sub Pa
      let dPk ← dP.matmul X
      let kdPk ← K.matmul dPk
      let Ps ← PEst.add kdPk
      .ok (xs, Ps) : Except PyErr (Arr F × Arr F)) = .error e) : ShapeOrSingular e := by
  rcases Except.bind_eq_error h with h | ⟨_, -, h⟩
  · exact .inl (Arr.sub_error h)
  rcases Except.bind_eq_error h with h | ⟨_, -, h⟩
  · exact .inl (Arr.matmul_error h)
  rcases Except.bind_eq_error h with h | ⟨_, -, h⟩
  · exact .inl (Arr.add_error h)
  rcases Except.bind_eq_error h with h | ⟨_, -, h⟩
  · exact .inl (Arr.sub_error h)
  rcases Except.bind_eq_error h with h | ⟨_, -, h⟩
  · exact .inl (Arr.matmul_error h)
  rcases Except.bind_eq_error h with h | ⟨_, -, h⟩
  · exact .inl (Arr.matmul_error h)
  rcases Except.bind_eq_error h with h | ⟨_, -, h⟩
  · exact .inl (Arr.add_error h)
  · cases h

theorem KalmanFilter.smoothStep_error {xEst PEst Ak Qk Bk uk xNext PNext : Arr F} {e : PyErr}
    (h : KalmanFilter.smoothStep xEst PEst Ak Qk Bk uk xNext PNext = .error e) : ShapeOrSingular e := by
  simp only [KalmanFilter.smoothStep] at h
  rcases Except.bind_eq_error h with h | ⟨⟨xa, Pa⟩, -, h⟩
  · exact predict_raises h
  rcases Except.bind_eq_error h with h | ⟨_, -, h⟩
  · exact .inl (Arr.matmul_error h)
  rcases Except.bind_eq_error h with h | ⟨_, -, h⟩
  · exact Arr.solve_error h
  · exact smooth_tail_error h

theorem ExtendedKalmanFilter.smoothStep_error {kf : ExtendedKalmanFilter F} {xEst PEst Qk uk xNext PNext : Arr F} {e : PyErr}
    (h : ExtendedKalmanFilter.smoothStep kf xEst PEst Qk uk xNext PNext = .error e) : ShapeOrSingular e ∨ kf.CallbackRaises e := by
  simp only [ExtendedKalmanFilter.smoothStep] at h
  rcases Except.bind_eq_error h with hp | ⟨⟨xa, Pa⟩, -, h⟩
  · simp only [ExtendedKalmanFilter.predict] at hp
    rcases Except.bind_eq_error hp with h | ⟨_, -, hp⟩
    · exact .inr (.inl ⟨_, _, .inr h⟩)
    rcases Except.bind_eq_error hp with h | ⟨_, -, hp⟩
    · exact .inr (.inl ⟨_, _, .inl h⟩)
    · exact .inl (cov_error hp)
  rcases Except.bind_eq_error h with h | ⟨_, -, h⟩
  · exact .inr (.inl ⟨_, _, .inr h⟩)
  rcases Except.bind_eq_error h with h | ⟨_, -, h⟩
  · exact .inl (.inl (Arr.matmul_error h))
  rcases Except.bind_eq_error h with h | ⟨_, -, h⟩
  · exact .inl (Arr.solve_error h)
  · exact .inl (smooth_tail_error h)

theorem KalmanFilter.body_error {A Q B U : NDArray F} {s k : ℕ} {xe Pe : List (Arr F)} {x P : Arr F} {e : PyErr}
    (h : KalmanFilter.body A Q B U s xe Pe k x P = .error e) (hA : k + 1 < A.rows.length) (hQ : k + 1 < Q.rows.length)
    (hB : k + 1 < B.rows.length) (hU : k + 1 < U.rows.length) (hx : k < xe.length) (hP : k < Pe.length) : ShapeOrSingular e := by
  obtain ⟨a, -, ha⟩ := item_full hA
  obtain ⟨q, -, hq⟩ := item_full hQ
  obtain ⟨b, -, hb⟩ := item_full hB
  obtain ⟨u, -, hu⟩ := item_full hU
  simp only [KalmanFilter.body, ha, hq, hb, hu, getRow_some (List.getElem?_eq_getElem hx), getRow_some (List.getElem?_eq_getElem hP),
    Except.bind_ok'] at h
  rcases Except.bind_eq_error h with h | ⟨_, -, h⟩
  · exact KalmanFilter.smoothStep_error h
  rcases Except.bind_eq_error h with h | ⟨_, -, h⟩
  · exact .inl (Arr.assignVec_error h)
  rcases Except.bind_eq_error h with h | ⟨_, -, h⟩
  · exact .inl (Arr.assignMat_error h)
  · cases h

theorem ExtendedKalmanFilter.body_error {kf : ExtendedKalmanFilter F} {Q U : NDArray F} {k : ℕ} {xe Pe : List (Arr F)} {x P : Arr F} {e : PyErr}
    (h : ExtendedKalmanFilter.body kf Q U xe Pe k x P = .error e) (hQ : k + 1 < Q.rows.length)
    (hU : k + 1 < U.rows.length) (hx : k < xe.length) (hP : k < Pe.length) : ShapeOrSingular e ∨ kf.CallbackRaises e := by
  obtain ⟨q, -, hq⟩ := item_full hQ
  obtain ⟨u, -, hu⟩ := item_full hU
  simp only [ExtendedKalmanFilter.body, hq, hu, getRow_some (List.getElem?_eq_getElem hx), getRow_some (List.getElem?_eq_getElem hP),
    Except.bind_ok'] at h
  rcases Except.bind_eq_error h with h | ⟨_, -, h⟩
  · exact ExtendedKalmanFilter.smoothStep_error h
  rcases Except.bind_eq_error h with h | ⟨_, -, h⟩
  · exact .inl (.inl (Arr.assignVec_error h))
  rcases Except.bind_eq_error h with h | ⟨_, -, h⟩
  · exact .inl (.inl (Arr.assignMat_error h))
  · cases h

/-- A parameter sequence that the backward pass needs is shorter than the data. -/
theorem effU_short {U : Option (NDArray F)} {Z : NDArray F} : (effU U Z).rows.length < Z.rows.length ↔ ∃ u, U = some u ∧ u.rows.length < Z.rows.length := by
  rcases U with _ | u
  · have : (effU none Z).rows.length = Z.rows.length := by
      rcases Z with _ | l <;> simp [effU, checkNoneAndBroadcast, NDArray.fullLikeNan, NDArray.rows]
    simp [this]
  · simp [effU, checkNoneAndBroadcast]

/-- C160: `smooth` first does what `filter` does.  If `filter` returned, `smooth` raises IndexError exactly if there are no observations, or at
least two and one of `A`, `B`, `Q` or the controls is shorter; otherwise it returns or raises ValueError or LinAlgError. -/
theorem C160_outcome (kf kf' : KalmanFilter F) (Z : NDArray F) (U : Option (NDArray F)) (hi : kf.AllIterable Z U)
    (o : Except PyErr (List (Arr F) × List (Arr F))) (h : (KalmanFilter.smooth Z U).run kf = (o, kf')) :
    (∀ e, ((KalmanFilter.filter Z U).run kf).1 = .error e → o = .error e) ∧ kf' = ((KalmanFilter.filter Z U).run kf).2 ∧
    (∀ r, ((KalmanFilter.filter Z U).run kf).1 = .ok r →
      (o = .error .indexError ↔ Z.rows.length = 0 ∨ 2 ≤ Z.rows.length ∧ (kf.A.rows.length < Z.rows.length ∨ kf.B.rows.length < Z.rows.length ∨
        kf.Q.rows.length < Z.rows.length ∨ ∃ u, U = some u ∧ u.rows.length < Z.rows.length)) ∧
      (o = .error .indexError ∨ o = .error .valueError ∨ o = .error .linAlgError ∨
        ∃ xs Ps, o = .ok (xs, Ps) ∧ xs.length = Z.rows.length ∧ Ps.length = Z.rows.length)) := by
  by_cases hs : 2 ≤ Z.rows.length ∧ (kf.A.rows.length < Z.rows.length ∨ kf.B.rows.length < Z.rows.length ∨ kf.Q.rows.length < Z.rows.length ∨
      (effU U Z).rows.length < Z.rows.length)
  · rw [C88_short_sequence kf Z U hi hs.1 hs.2] at h
    rw [effU_short] at hs
    rcases hf : (KalmanFilter.filter Z U).run kf with ⟨e | r, kf''⟩
    · simp only [hf, Prod.mk.injEq] at h
      obtain ⟨rfl, rfl⟩ := h
      exact ⟨fun e' he' => he', rfl, fun r hr => by (cases hr)⟩
    · simp only [hf, Prod.mk.injEq] at h
      obtain ⟨rfl, rfl⟩ := h
      exact ⟨fun e' he' => by (cases he'), rfl, fun r hr => ⟨⟨fun _ => .inr hs, fun _ => rfl⟩, .inl rfl⟩⟩
  · rw [KalmanFilter.smooth_eq] at h
    rcases hf : (KalmanFilter.filter Z U).run kf with ⟨e | ⟨xe, Pe⟩, kf''⟩
    · simp only [hf, Prod.mk.injEq] at h
      obtain ⟨rfl, rfl⟩ := h
      exact ⟨fun e' he' => he', rfl, fun r hr => by (cases hr)⟩
    rw [hf] at h
    obtain ⟨n, hn, hx, hP, -, -⟩ := KalmanFilter.filter_rowsOk hf
    have hN : n = Z.rows.length := by
      obtain ⟨l, hl⟩ := hi.Z.exists
      subst hl
      simp only [NDArray.len, Except.ok.injEq] at hn
      simp [NDArray.rows, ← hn]
    rw [← effU_short, or_iff_left hs]
    rcases Nat.eq_zero_or_pos n with h0 | hpos
    · have e1 : xe[xe.length - 1]? = none := List.getElem?_eq_none (by omega)
      simp only [e1, Prod.mk.injEq] at h
      obtain ⟨rfl, rfl⟩ := h
      exact ⟨fun e' he' => by (cases he'), rfl, fun r hr => ⟨⟨fun _ => by omega, fun _ => rfl⟩, .inl rfl⟩⟩
    · have e1 := List.getElem?_eq_getElem (l := xe) (i := xe.length - 1) (by omega)
      have e2 := List.getElem?_eq_getElem (l := Pe) (i := xe.length - 1) (by omega)
      simp only [e1, e2, Prod.mk.injEq] at h
      obtain ⟨ho, rfl⟩ := h
      refine ⟨fun e' he' => by (cases he'), rfl, fun r hr => ?_⟩
      rcases hb : back (KalmanFilter.body kf.A kf.Q kf.B (checkNoneAndBroadcast U Z) kf.stateSize xe Pe) (xe.length - 1)
          (xe[xe.length - 1], Pe[xe.length - 1]) with e | l
      · obtain ⟨k, x, P, hk, -, hbody⟩ := back_error (fun _ => True) (fun _ _ _ _ _ _ _ => trivial) trivial hb
        have hs' : 2 ≤ Z.rows.length := by omega
        simp only [hs', true_and, not_or, not_lt] at hs
        have := KalmanFilter.body_error hbody (by omega) (by omega) (by omega) (show k + 1 < (effU U Z).rows.length by omega) (by omega) (by omega)
        rw [hb] at ho
        simp only [Except.map] at ho
        subst ho
        rcases this with rfl | rfl
        · exact ⟨⟨fun h => by (cases h), fun h => by omega⟩, .inr (.inl rfl)⟩
        · exact ⟨⟨fun h => by (cases h), fun h => by omega⟩, .inr (.inr (.inl rfl))⟩
      · rw [hb] at ho
        have hl := back_length hb
        simp only [Except.map] at ho
        subst ho
        exact ⟨⟨fun h => by (cases h), fun h => by omega⟩, .inr (.inr (.inr ⟨_, _, rfl, by rw [List.length_map]; omega, by rw [List.length_map]; omega⟩))⟩

/-- C160 for `ExtendedKalmanFilter`, where a callback may raise as well. -/
theorem C160_ext_outcome (kf kf' : ExtendedKalmanFilter F) (Z : NDArray F) (U : Option (NDArray F)) (hi : kf.AllIterable Z U)
    (o : Except PyErr (List (Arr F) × List (Arr F))) (h : (ExtendedKalmanFilter.smooth Z U).run kf = (o, kf')) :
    (∀ e, ((ExtendedKalmanFilter.filter Z U).run kf).1 = .error e → o = .error e) ∧ kf' = ((ExtendedKalmanFilter.filter Z U).run kf).2 ∧
    (∀ r, ((ExtendedKalmanFilter.filter Z U).run kf).1 = .ok r →
      if Z.rows.length = 0 ∨ 2 ≤ Z.rows.length ∧ (kf.Q.rows.length < Z.rows.length ∨ ∃ u, U = some u ∧ u.rows.length < Z.rows.length)
      then o = .error .indexError
      else (∃ e, o = .error e ∧ (e = .valueError ∨ e = .linAlgError ∨ kf.CallbackRaises e)) ∨
        ∃ xs Ps, o = .ok (xs, Ps) ∧ xs.length = Z.rows.length ∧ Ps.length = Z.rows.length) := by
  by_cases hs : 2 ≤ Z.rows.length ∧ (kf.Q.rows.length < Z.rows.length ∨ (effU U Z).rows.length < Z.rows.length)
  · rw [C88_ekf_short_sequence kf Z U hi hs.1 hs.2] at h
    rw [effU_short] at hs
    rcases hf : (ExtendedKalmanFilter.filter Z U).run kf with ⟨e | r, kf''⟩
    · simp only [hf, Prod.mk.injEq] at h
      obtain ⟨rfl, rfl⟩ := h
      exact ⟨fun e' he' => he', rfl, fun r hr => by (cases hr)⟩
    · simp only [hf, Prod.mk.injEq] at h
      obtain ⟨rfl, rfl⟩ := h
      refine ⟨fun e' he' => by (cases he'), rfl, fun r hr => ?_⟩
      rw [if_pos (.inr hs)]
  · rw [ExtendedKalmanFilter.smooth_eq] at h
    rcases hf : (ExtendedKalmanFilter.filter Z U).run kf with ⟨e | ⟨xe, Pe⟩, kf''⟩
    · simp only [hf, Prod.mk.injEq] at h
      obtain ⟨rfl, rfl⟩ := h
      exact ⟨fun e' he' => he', rfl, fun r hr => by (cases hr)⟩
    rw [hf] at h
    obtain ⟨n, hn, hx, hP, -, -⟩ := ExtendedKalmanFilter.filter_rowsOk hf
    have hN : n = Z.rows.length := by
      obtain ⟨l, hl⟩ := hi.Z.exists
      subst hl
      simp only [NDArray.len, Except.ok.injEq] at hn
      simp [NDArray.rows, ← hn]
    rcases Nat.eq_zero_or_pos n with h0 | hpos
    · have e1 : xe[xe.length - 1]? = none := List.getElem?_eq_none (by omega)
      simp only [e1, Prod.mk.injEq] at h
      obtain ⟨rfl, rfl⟩ := h
      refine ⟨fun e' he' => by (cases he'), rfl, fun r hr => ?_⟩
      rw [if_pos (.inl (by omega))]
    · have e1 := List.getElem?_eq_getElem (l := xe) (i := xe.length - 1) (by omega)
      have e2 := List.getElem?_eq_getElem (l := Pe) (i := xe.length - 1) (by omega)
      simp only [e1, e2, Prod.mk.injEq] at h
      obtain ⟨ho, rfl⟩ := h
      refine ⟨fun e' he' => by (cases he'), rfl, fun r hr => ?_⟩
      rw [if_neg (fun hc => by
        rcases hc with hc | ⟨h2, hc⟩
        · omega
        · exact hs ⟨h2, hc.imp id effU_short.2⟩)]
      rcases hb : back (ExtendedKalmanFilter.body kf kf.Q (checkNoneAndBroadcast U Z) xe Pe) (xe.length - 1)
          (xe[xe.length - 1], Pe[xe.length - 1]) with e | l
      · obtain ⟨k, x, P, hk, -, hbody⟩ := back_error (fun _ => True) (fun _ _ _ _ _ _ _ => trivial) trivial hb
        have hs' : 2 ≤ Z.rows.length := by omega
        simp only [hs', true_and, not_or, not_lt] at hs
        have := ExtendedKalmanFilter.body_error hbody (by omega) (show k + 1 < (effU U Z).rows.length by omega) (by omega) (by omega)
        rw [hb] at ho
        simp only [Except.map] at ho
        subst ho
        exact .inl ⟨e, rfl, or_assoc.1 this⟩
      · rw [hb] at ho
        have hl := back_length hb
        simp only [Except.map] at ho
        subst ho
        exact .inr ⟨_, _, rfl, by rw [List.length_map]; omega, by rw [List.length_map]; omega⟩

/-! ### Shapes -/

theorem KalmanFilter.predict_fits {n : ℕ} {Ak Bk uk Qk x P : Arr F} (hA : Ak.shape = [n, n]) (hx : x.shape = [n]) (hP : P.shape = [n, n])
    (hQ : FitsShape Qk.shape [n, n]) (hc : Bk.Blank ∨ uk.Blank ∨ ControlFits n Bk.shape uk.shape) :
    ∃ (d : DType) (xp : Fin n → F) (e : DType) (Pp : Matrix (Fin n) (Fin n) F),
      KalmanFilter.predict Ak x (some Bk) (some uk) P Qk = .ok (.vec d xp, .mat e Pp) := by
  obtain ⟨dx, x, rfl⟩ := Arr.eq_vec hx
  obtain ⟨dP, P, rfl⟩ := Arr.eq_mat hP
  obtain ⟨dA, A, rfl⟩ := Arr.eq_mat hA
  obtain ⟨e, Pp, hPp⟩ := Arr.add_fits (dA.promote (dP.promote dA)) (Backend.gemm A (Backend.gemm P A.transpose)) hQ
  rcases hb : (Bk.isnanAll || uk.isnanAll) with _ | _
  · rw [KalmanFilter.predict_ctrl hb]
    simp only [Bool.or_eq_false_iff] at hb
    rcases hc with hc | hc | hc
    · simp [← Arr.isnanAll_iff_blank, hb.1] at hc
    · simp [← Arr.isnanAll_iff_blank, hb.2] at hc
    · obtain ⟨w, hw, hw'⟩ := Arr.control_fits hc
      obtain ⟨v, hv, -⟩ := Arr.vec_op_fits hw'
      simp only [Arr.T_mat, Arr.matmul_mm, hPp, Arr.matmul_mv, Except.bind_ok', hw, hv]
      exact ⟨_, _, _, _, rfl⟩
  · rw [KalmanFilter.predict_skip hb]
    simp only [Arr.T_mat, Arr.matmul_mm, hPp, Arr.matmul_mv, Except.bind_ok']
    exact ⟨_, _, _, _, rfl⟩

/-- The last lines of an iteration: with the shapes of the state only a singular prediction can raise. -/
theorem smooth_tail_fits {n : ℕ} {x P Ak xn Pn : Arr F} (hA : Ak.shape = [n, n]) (hx : x.shape = [n]) (hP : P.shape = [n, n]) (hxn : xn.shape = [n])
    (hPn : Pn.shape = [n, n]) (d e : DType) (xp : Fin n → F) (Pp : Matrix (Fin n) (Fin n) F) :
    let y : Except PyErr (Arr F × Arr F) := (do
      let pat ← P.matmul Ak.T
      let X ← Arr.solve (Arr.mat e Pp).T pat.T
      let dx ← xn.sub (.vec d xp)
      let kdx ← X.T.matmul dx
      let xs ← x.add kdx
      let dP ← Pn.sub (.mat e Pp)
      let dPk ← dP.matmul X.T.T
      let kdPk ← X.T.matmul dPk
      let Ps ← P.add kdPk
      .ok (xs, Ps))
    y = .error .linAlgError ∨ ∃ r, y = .ok r ∧ r.1.shape = [n] ∧ r.2.shape = [n, n] := by
  obtain ⟨dx, x, rfl⟩ := Arr.eq_vec hx
  obtain ⟨dP, P, rfl⟩ := Arr.eq_mat hP
  obtain ⟨dA, A, rfl⟩ := Arr.eq_mat hA
  obtain ⟨dxn, xn, rfl⟩ := Arr.eq_vec hxn
  obtain ⟨dPn, Pn, rfl⟩ := Arr.eq_mat hPn
  simp only [Arr.T_mat, Arr.matmul_mm, Except.bind_ok', Arr.solve_mm]
  rcases Backend.solve Pp.transpose (Backend.gemm P A.transpose).transpose with _ | X
  · exact .inl rfl
  · simp only [Except.bind_ok', Arr.sub_vv, Arr.T_mat, Arr.matmul_mv, Arr.add_vv, Arr.sub_mm, Arr.matmul_mm, Arr.add_mm]
    exact .inr ⟨_, rfl, rfl, rfl⟩

theorem assign_fits {n : ℕ} {y : Except PyErr (Arr F × Arr F)} (h : y = .error .linAlgError ∨ ∃ r, y = .ok r ∧ r.1.shape = [n] ∧ r.2.shape = [n, n]) :
    let w : Except PyErr (Arr F × Arr F) := (do
      let r ← y
      let xrow ← r.1.assignVec n
      let Prow ← r.2.assignMat n
      .ok (xrow, Prow))
    w = .error .linAlgError ∨ ∃ r, w = .ok r ∧ r.1.shape = [n] ∧ r.2.shape = [n, n] := by
  rcases h with rfl | ⟨⟨x, P⟩, rfl, h1, h2⟩
  · exact .inl rfl
  · obtain ⟨dx, x, rfl⟩ := Arr.eq_vec h1
    obtain ⟨dP, P, rfl⟩ := Arr.eq_mat h2
    simp only [Except.bind_ok', Arr.assignVec_vec, Arr.assignMat_mat]
    exact .inr ⟨_, rfl, rfl, rfl⟩

/-- C160: with the documented `x0`, `P0`, `A`, `H`, full-length parameters and at least one observation, noise matrices, observations and controls
whose shapes fit by broadcasting are accepted by `smooth`: it returns, or raises LinAlgError. -/
theorem C160_fits {n m : ℕ} (kf : KalmanFilter F) (Z : NDArray F) (U : Option (NDArray F)) (hk : kf.CoreShapes n m)
    (hi : kf.AllIterable Z U) (hf : kf.RowsFit n m Z U) (hfull : kf.steps Z U = Z.rows.length) (hZ : 0 < Z.rows.length) :
    (∃ r kf', (KalmanFilter.smooth Z U).run kf = (.ok r, kf')) ∨ ∃ kf', (KalmanFilter.smooth Z U).run kf = (.error .linAlgError, kf') := by
  rw [KalmanFilter.smooth_eq]
  rcases C140_fits kf Z U hk hi hf with ⟨⟨xe, Pe⟩, kf', h⟩ | ⟨kf', h⟩
  swap
  · rw [h]; exact .inr ⟨_, rfl⟩
  rw [h]
  obtain ⟨N, hN, hx, hP, hxs, hPs⟩ := KalmanFilter.filter_rowsOk h
  have hN : N = Z.rows.length := by
    obtain ⟨l, hl⟩ := hi.Z.exists
    subst hl
    simp only [NDArray.len, Except.ok.injEq] at hN
    simp [NDArray.rows, ← hN]
  have e1 := List.getElem?_eq_getElem (l := xe) (i := xe.length - 1) (by omega)
  have e2 := List.getElem?_eq_getElem (l := Pe) (i := xe.length - 1) (by omega)
  simp only [e1, e2]
  have hl : kf.steps Z U ≤ kf.A.rows.length ∧ kf.steps Z U ≤ kf.B.rows.length ∧ kf.steps Z U ≤ (effU U Z).rows.length ∧
      kf.steps Z U ≤ kf.Q.rows.length ∧ kf.steps Z U ≤ kf.R.rows.length := by
    simp only [KalmanFilter.steps]; omega
  rw [hk.size] at hxs hPs
  have key : ∀ k x P, k < xe.length - 1 → (fun r : Arr F × Arr F => r.1.shape = [n] ∧ r.2.shape = [n, n]) (x, P) →
      KalmanFilter.body kf.A kf.Q kf.B (checkNoneAndBroadcast U Z) kf.stateSize xe Pe k x P = .error .linAlgError ∨
      ∃ r, KalmanFilter.body kf.A kf.Q kf.B (checkNoneAndBroadcast U Z) kf.stateSize xe Pe k x P = .ok r ∧ r.1.shape = [n] ∧ r.2.shape = [n, n] := by
    intro k x P hk' hs
    obtain ⟨a, ha, ha'⟩ := item_full (a := kf.A) (k := k + 1) (by omega)
    obtain ⟨q, hq, hq'⟩ := item_full (a := kf.Q) (k := k + 1) (by omega)
    obtain ⟨b, hb, hb'⟩ := item_full (a := kf.B) (k := k + 1) (by omega)
    obtain ⟨u, hu, hu'⟩ := item_full (a := effU U Z) (k := k + 1) (by omega)
    obtain ⟨z, hz, -⟩ := item_full (a := Z) (k := k + 1) (by omega)
    obtain ⟨r, hr, -⟩ := item_full (a := kf.R) (k := k + 1) (by omega)
    obtain ⟨f1, -, -, f4⟩ := hf (k + 1) _ _ _ _ _ (by omega) hb hu hz hq hr
    have g1 := List.getElem?_eq_getElem (l := xe) (i := k) (by omega)
    have g2 := List.getElem?_eq_getElem (l := Pe) (i := k) (by omega)
    have s1 := (hxs _ (List.mem_of_getElem? g1)).1
    have s2 := (hPs _ (List.mem_of_getElem? g2)).1
    have hA := hk.A _ (List.mem_of_getElem? ha)
    change (checkNoneAndBroadcast U Z).item (k + 1) = _ at hu'
    obtain ⟨d, xp, e, Pp, hp⟩ := KalmanFilter.predict_fits hA s1 s2 f1 f4
    simp only [KalmanFilter.body, ha', hq', hb', hu', getRow_some g1, getRow_some g2, Except.bind_ok', KalmanFilter.smoothStep, hp, hk.size]
    exact assign_fits (smooth_tail_fits hA s1 s2 hs.1 hs.2 d e xp Pp)
  rcases hb : back (KalmanFilter.body kf.A kf.Q kf.B (checkNoneAndBroadcast U Z) kf.stateSize xe Pe) (xe.length - 1)
      (xe[xe.length - 1], Pe[xe.length - 1]) with e | l
  · obtain ⟨k, x, P, hk', hs, hbody⟩ := back_error (fun r : Arr F × Arr F => r.1.shape = [n] ∧ r.2.shape = [n, n]) (fun k x P r hk' hs hr => by
      rcases key k x P hk' hs with h | ⟨r', h, hs'⟩
      · rw [hr] at h; cases h
      · rw [hr] at h; cases h; exact hs') ⟨(hxs _ (List.mem_of_getElem? e1)).1, (hPs _ (List.mem_of_getElem? e2)).1⟩ hb
    rcases key k x P hk' hs with h | ⟨r', h, hs'⟩
    · rw [hbody] at h
      cases h
      exact .inr ⟨_, rfl⟩
    · rw [hbody] at h; cases h
  · exact .inl ⟨_, _, rfl⟩

/-- C160: so if `filter` returned on full-length parameters, `smooth` never raises ValueError, whatever the shapes of `Q`, `R`, `B`, the
observations and the controls: it returns or a prediction is singular. -/
theorem C160_after_filter {n m : ℕ} (hn : 2 ≤ n) (kf kf' : KalmanFilter F) (Z : NDArray F) (U : Option (NDArray F)) (hk : kf.CoreShapes n m)
    (hfull : kf.steps Z U = Z.rows.length) (hZ : 0 < Z.rows.length) (r : List (Arr F) × List (Arr F))
    (h : (KalmanFilter.filter Z U).run kf = (.ok r, kf')) :
    (∃ r kf', (KalmanFilter.smooth Z U).run kf = (.ok r, kf')) ∨ ∃ kf', (KalmanFilter.smooth Z U).run kf = (.error .linAlgError, kf') :=
  C160_fits kf Z U hk (KalmanFilter.ok_iter h) (C140_accepted hn kf kf' Z U hk r h) hfull hZ

/-- C160 for `ExtendedKalmanFilter`: callbacks of the documented shapes. -/
theorem C160_ext_fits {n m : ℕ} (kf : ExtendedKalmanFilter F) (Z : NDArray F) (U : Option (NDArray F))
    (hx : kf.xk.shape = [n]) (hP : kf.Pk.shape = [n, n]) (hsz : kf.stateSize = n) (hI : kf.I = Arr.identity n)
    (hcb : kf.CallbackShapes n m) (hi : kf.AllIterable Z U)
    (hf : ∀ (k : ℕ) (zk Qk Rk : Arr F), k < kf.steps Z U → Z.rows[k]? = some zk → kf.Q.rows[k]? = some Qk → kf.R.rows[k]? = some Rk →
      FitsShape Qk.shape [n, n] ∧ FitsShape Rk.shape [m, m] ∧ FitsShape zk.shape [m])
    (hfull : kf.steps Z U = Z.rows.length) (hZ : 0 < Z.rows.length) :
    (∃ r kf', (ExtendedKalmanFilter.smooth Z U).run kf = (.ok r, kf')) ∨
    ∃ e kf', (ExtendedKalmanFilter.smooth Z U).run kf = (.error e, kf') ∧ (e = .linAlgError ∨ kf.CallbackRaises e) := by
  rw [ExtendedKalmanFilter.smooth_eq]
  rcases C140_ext_fits kf Z U hx hP hsz hI hcb hi hf with ⟨⟨xe, Pe⟩, kf', h⟩ | ⟨e, kf', h, he⟩
  swap
  · rw [h]; exact .inr ⟨_, _, rfl, he⟩
  rw [h]
  obtain ⟨N, hN, hxl, hPl, hxs, hPs⟩ := ExtendedKalmanFilter.filter_rowsOk h
  have hN : N = Z.rows.length := by
    obtain ⟨l, hl⟩ := hi.Z.exists
    subst hl
    simp only [NDArray.len, Except.ok.injEq] at hN
    simp [NDArray.rows, ← hN]
  have e1 := List.getElem?_eq_getElem (l := xe) (i := xe.length - 1) (by omega)
  have e2 := List.getElem?_eq_getElem (l := Pe) (i := xe.length - 1) (by omega)
  simp only [e1, e2]
  have hl : kf.steps Z U ≤ (effU U Z).rows.length ∧ kf.steps Z U ≤ kf.Q.rows.length ∧ kf.steps Z U ≤ kf.R.rows.length := by
    simp only [ExtendedKalmanFilter.steps]; omega
  rw [hsz] at hxs hPs
  have key : ∀ k x P, k < xe.length - 1 → (fun r : Arr F × Arr F => r.1.shape = [n] ∧ r.2.shape = [n, n]) (x, P) →
      (∃ e, ExtendedKalmanFilter.body kf kf.Q (checkNoneAndBroadcast U Z) xe Pe k x P = .error e ∧ (e = .linAlgError ∨ kf.CallbackRaises e)) ∨
      ∃ r, ExtendedKalmanFilter.body kf kf.Q (checkNoneAndBroadcast U Z) xe Pe k x P = .ok r ∧ r.1.shape = [n] ∧ r.2.shape = [n, n] := by
    intro k x P hk' hs
    obtain ⟨q, hq, hq'⟩ := item_full (a := kf.Q) (k := k + 1) (by omega)
    obtain ⟨u, hu, hu'⟩ := item_full (a := effU U Z) (k := k + 1) (by omega)
    obtain ⟨z, hz, -⟩ := item_full (a := Z) (k := k + 1) (by omega)
    obtain ⟨r, hr, -⟩ := item_full (a := kf.R) (k := k + 1) (by omega)
    obtain ⟨f1, -, -⟩ := hf (k + 1) _ _ _ (by omega) hz hq hr
    have g1 := List.getElem?_eq_getElem (l := xe) (i := k) (by omega)
    have g2 := List.getElem?_eq_getElem (l := Pe) (i := k) (by omega)
    have s1 := (hxs _ (List.mem_of_getElem? g1)).1
    have s2 := (hPs _ (List.mem_of_getElem? g2)).1
    change (checkNoneAndBroadcast U Z).item (k + 1) = _ at hu'
    simp only [ExtendedKalmanFilter.body, hq', hu', getRow_some g1, getRow_some g2, Except.bind_ok', ExtendedKalmanFilter.smoothStep,
      ExtendedKalmanFilter.predict, hsz]
    rcases hA : kf.jacobianA xe[k] (some u) with e | Ak
    · exact .inl ⟨e, rfl, .inr (.inl ⟨_, _, .inr hA⟩)⟩
    rcases hfk : kf.f xe[k] (some u) with e | xp
    · exact .inl ⟨e, rfl, .inr (.inl ⟨_, _, .inl hfk⟩)⟩
    have hAs := hcb.jA _ _ _ s1 hA
    obtain ⟨d, xp, rfl⟩ := Arr.eq_vec (hcb.f _ _ _ s1 hfk)
    obtain ⟨dP, P', hP'⟩ := Arr.eq_mat s2
    obtain ⟨dA, A, rfl⟩ := Arr.eq_mat hAs
    obtain ⟨e, Pp, hPp⟩ := Arr.add_fits (dA.promote (dP.promote dA)) (Backend.gemm A (Backend.gemm P' A.transpose)) f1
    have hPk : (do
        let pat ← Pe[k].matmul (Arr.mat dA A).T
        let apat ← (Arr.mat dA A).matmul pat
        let Pp ← apat.add q
        .ok (Arr.vec d xp, Pp) : Except PyErr (Arr F × Arr F)) = .ok (.vec d xp, .mat e Pp) := by
      rw [hP']
      simp only [Arr.T_mat, Arr.matmul_mm, hPp, Except.bind_ok']
    simp only [Except.bind_ok', hPk]
    rcases assign_fits (smooth_tail_fits hAs s1 s2 hs.1 hs.2 d e xp Pp) with h | h
    · exact .inl ⟨_, h, .inl rfl⟩
    · exact .inr h
  rcases hb : back (ExtendedKalmanFilter.body kf kf.Q (checkNoneAndBroadcast U Z) xe Pe) (xe.length - 1)
      (xe[xe.length - 1], Pe[xe.length - 1]) with e | l
  · obtain ⟨k, x, P, hk', hs, hbody⟩ := back_error (fun r : Arr F × Arr F => r.1.shape = [n] ∧ r.2.shape = [n, n]) (fun k x P r hk' hs hr => by
      rcases key k x P hk' hs with ⟨e, h, -⟩ | ⟨r', h, hs'⟩
      · rw [hr] at h; cases h
      · rw [hr] at h; cases h; exact hs') ⟨(hxs _ (List.mem_of_getElem? e1)).1, (hPs _ (List.mem_of_getElem? e2)).1⟩ hb
    rcases key k x P hk' hs with ⟨e', h, he⟩ | ⟨r', h, hs'⟩
    · rw [hbody] at h
      cases h
      exact .inr ⟨_, _, rfl, he⟩
    · rw [hbody] at h; cases h
  · exact .inl ⟨_, _, rfl⟩

/-- C160 for `ExtendedKalmanFilter`: after a `filter` that returned, no ValueError but from a callback. -/
theorem C160_ext_after_filter {n m : ℕ} (hn : 2 ≤ n) (kf kf' : ExtendedKalmanFilter F) (Z : NDArray F) (U : Option (NDArray F))
    (hx : kf.xk.shape = [n]) (hP : kf.Pk.shape = [n, n]) (hsz : kf.stateSize = n) (hI : kf.I = Arr.identity n)
    (hcb : kf.CallbackShapes n m) (hfull : kf.steps Z U = Z.rows.length) (hZ : 0 < Z.rows.length) (r : List (Arr F) × List (Arr F))
    (h : (ExtendedKalmanFilter.filter Z U).run kf = (.ok r, kf')) :
    (∃ r kf', (ExtendedKalmanFilter.smooth Z U).run kf = (.ok r, kf')) ∨
    ∃ e kf', (ExtendedKalmanFilter.smooth Z U).run kf = (.error e, kf') ∧ (e = .linAlgError ∨ kf.CallbackRaises e) :=
  C160_ext_fits kf Z U hx hP hsz hI hcb (ExtendedKalmanFilter.ok_iter h)
    (fun k zk Qk Rk hlt hz hQ hR => C140_ext_accepted hn kf kf' Z U hx hP hsz hI hcb r h k zk Qk Rk hlt hz hQ hR) hfull hZ

/-! ### Non-vacuity -/

/-- The example with one row of `H`, and a 3 x 3 second row of `Q`. -/
def Ex.shortHQ : KalmanFilter Ex.QN :=
  { Ex.numbers with H := .stack [Ex.row2 (some 1) (some 0)], Q := .stack [.scalar .float64 (some (1/4)), .mat (m := 3) (n := 3) .float64 fun _ _ => some 1] }

/-- C160: a smooth that returns; one with controls too short; a ValueError after a `filter` that returned (`H` is short, so `filter` does not reach the
second row of `Q`); and one without observations. -/
example : (Ex.numbers.CoreShapes 2 1 ∧ Ex.numbers.AllIterable Ex.numberZ (some Ex.us) ∧ Ex.numbers.steps Ex.numberZ (some Ex.us) = Ex.numberZ.rows.length ∧
      0 < Ex.numberZ.rows.length ∧ (∃ r kf', (KalmanFilter.filter Ex.numberZ (some Ex.us)).run Ex.numbers = (.ok r, kf')) ∧
      ∃ r kf', (KalmanFilter.smooth Ex.numberZ (some Ex.us)).run Ex.numbers = (.ok r, kf')) ∧
    (∃ kf', (KalmanFilter.smooth Ex.numberZ (some (.stack [Ex.vec1 (some 1)]))).run Ex.numbers = (.error .indexError, kf')) ∧
    ((∃ r kf', (KalmanFilter.filter Ex.numberZ (some Ex.us)).run Ex.shortHQ = (.ok r, kf')) ∧
      ∃ kf', (KalmanFilter.smooth Ex.numberZ (some Ex.us)).run Ex.shortHQ = (.error .valueError, kf')) ∧
    ∃ kf', (KalmanFilter.smooth (.stack []) (some Ex.us)).run Ex.numbers = (.error .indexError, kf') := by
  refine ⟨⟨⟨rfl, rfl, rfl, rfl, ?_, ?_⟩, ⟨trivial, trivial, trivial, trivial, trivial, trivial, trivial⟩, rfl, by decide, (Ex.returned_iff _).1 (by decide +kernel),
    (Ex.returned_iff _).1 (by decide +kernel)⟩, (Ex.raised_iff _ _).1 (by decide +kernel), ⟨(Ex.returned_iff _).1 (by decide +kernel),
    (Ex.raised_iff _ _).1 (by decide +kernel)⟩, (Ex.raised_iff _ _).1 (by decide +kernel)⟩
  · simp [Ex.numbers, Ex.cv, NDArray.rows]; rfl
  · simp [Ex.numbers, Ex.cv, NDArray.rows]; rfl

/-- C160 for the extended filter. -/
example : let kf := Ex.pushed (.scalar .float64 (some (1/4))) (.scalar .float64 (some 1)) 2
    kf.xk.shape = [2] ∧ kf.Pk.shape = [2, 2] ∧ kf.stateSize = 2 ∧ kf.I = Arr.identity 2 ∧ kf.CallbackShapes 2 1 ∧
    kf.AllIterable Ex.numberZ (some Ex.us) ∧ kf.steps Ex.numberZ (some Ex.us) = Ex.numberZ.rows.length ∧ 0 < Ex.numberZ.rows.length ∧
    (∃ r kf', (ExtendedKalmanFilter.filter Ex.numberZ (some Ex.us)).run kf = (.ok r, kf')) ∧
    (∃ r kf', (ExtendedKalmanFilter.smooth Ex.numberZ (some Ex.us)).run kf = (.ok r, kf')) ∧
    ∃ kf', (ExtendedKalmanFilter.smooth Ex.numberZ (some (.stack [Ex.vec1 (some 1)]))).run kf = (.error .indexError, kf') := by
  intro kf
  have h := Ex.pushed_layout (.scalar .float64 (some (1/4))) (.scalar .float64 (some 1)) 2 [] none (.inr rfl) (.inr rfl)
  exact ⟨rfl, rfl, rfl, rfl, ⟨h.f, h.jA, h.h, h.jH⟩, ⟨trivial, trivial, trivial, trivial⟩, rfl, by decide, (Ex.returned_iff _).1 (by decide +kernel),
    (Ex.returned_iff _).1 (by decide +kernel), (Ex.raised_iff _ _).1 (by decide +kernel)⟩

end KK
