import Verif.Proofs.Accept
import Verif.Props.Control

/-!
# Arrays that only fit by broadcasting (C139-C141)

Specification: `FitsShape`, `Arr.IsBroadcast`, `NDArray.RowsBroadcast` (`Spec/Broadcast.lean`).
-/

set_option linter.unusedSectionVars false
set_option linter.unusedSimpArgs false

namespace KK

variable {F : Type} [Backend F]

/-- Runs over rows that the step function cannot tell apart, as long as an invariant holds. -/
theorem trace_rel_inv {ρ ρ' : Type} (s : ρ → Arr F → Arr F → StepOut F) (s' : ρ' → Arr F → Arr F → StepOut F)
    (rel : ρ → ρ' → Prop) (Inv : Arr F → Arr F → Prop) (h : ∀ r r', rel r r' → ∀ x P, Inv x P → s r x P = s' r' x P)
    (hk : ∀ r r', rel r r' → ∀ x P g xP o, Inv x P → s' r' x P = (g, .ok (xP, o)) → Inv xP.1 xP.2)
    (rs : List ρ) (rs' : List ρ') (hr : List.Forall₂ rel rs rs') (x P : Arr F) (hi : Inv x P) :
    trace s rs x P = trace s' rs' x P := by
  induction hr generalizing x P with
  | nil => rfl
  | @cons r r' rs rs' hr hrs ih =>
    simp only [trace, h r r' hr x P hi]
    rcases hs : s' r' x P with ⟨g, e | ⟨xP, o⟩⟩
    · rfl
    · simp only [ih _ _ (hk r r' hr x P g xP o hi hs)]

/-- Two controls that `predict` cannot tell apart. -/
def SameControl (u u' : Arr F) : Prop := u = u' ∨ u.Blank ∧ u'.Blank

theorem predict_bc {n : ℕ} {Ak x Bk uk uk' P Qk Qk' : Arr F} (hA : Ak.shape = [n, n]) (hP : P.shape = [n, n])
    (hQ : Qk.IsBroadcast [n, n] Qk') (hu : SameControl uk uk') :
    KalmanFilter.predict Ak x (some Bk) (some uk) P Qk = KalmanFilter.predict Ak x (some Bk) (some uk') P Qk' := by
  have hu' : KalmanFilter.predict Ak x (some Bk) (some uk) P Qk = KalmanFilter.predict Ak x (some Bk) (some uk') P Qk := by
    rcases hu with rfl | ⟨h1, h2⟩
    · rfl
    · rw [← Arr.isnanAll_iff_blank] at h1 h2
      rw [KalmanFilter.predict_skip (by simp [h1]), KalmanFilter.predict_skip (by simp [h2])]
  rw [hu']
  obtain ⟨dA, A, rfl⟩ := Arr.eq_mat hA
  obtain ⟨dP, P, rfl⟩ := Arr.eq_mat hP
  rcases hb : (Bk.isnanAll || uk'.isnanAll) with _ | _
  · simp only [KalmanFilter.predict_ctrl hb, Arr.T_mat, Arr.matmul_mm, Except.bind_ok', hQ.add]
  · simp only [KalmanFilter.predict_skip hb, Arr.T_mat, Arr.matmul_mm, Except.bind_ok', hQ.add]

theorem gain_bc {n m : ℕ} {Hk P Rk Rk' : Arr F} (hH : Hk.shape = [m, n]) (hP : P.shape = [n, n]) (hR : Rk.IsBroadcast [m, m] Rk') :
    KalmanFilter.gain Hk P Rk = KalmanFilter.gain Hk P Rk' := by
  obtain ⟨dH, H, rfl⟩ := Arr.eq_mat hH
  obtain ⟨dP, P, rfl⟩ := Arr.eq_mat hP
  simp only [KalmanFilter.gain, Arr.T_mat, Arr.matmul_mm, Except.bind_ok', hR.add]

theorem correct_bc {n m : ℕ} {I K Hk x P zk zk' : Arr F} (hH : Hk.shape = [m, n]) (hx : x.shape = [n]) (hz : zk.IsBroadcast [m] zk') :
    KalmanFilter.correct I K Hk x P zk = KalmanFilter.correct I K Hk x P zk' := by
  obtain ⟨dH, H, rfl⟩ := Arr.eq_mat hH
  obtain ⟨dx, x, rfl⟩ := Arr.eq_vec hx
  simp only [KalmanFilter.correct, Arr.matmul_mv, Except.bind_ok', hz.sub]

/-- The rows of two calls that differ by broadcasting only. -/
structure RowBroadcast (n m : ℕ) (r r' : KalmanFilter.Row F) : Prop where
  A : r.1 = r'.1
  H : r.2.1 = r'.2.1
  B : r.2.2.1 = r'.2.2.1
  u : SameControl r.2.2.2.1 r'.2.2.2.1
  z : r.2.2.2.2.1.IsBroadcast [m] r'.2.2.2.2.1
  Q : r.2.2.2.2.2.1.IsBroadcast [n, n] r'.2.2.2.2.2.1
  R : r.2.2.2.2.2.2.IsBroadcast [m, m] r'.2.2.2.2.2.2
  layout : RowLayout n m r'.1 r'.2.1 r'.2.2.1 r'.2.2.2.1 r'.2.2.2.2.1 r'.2.2.2.2.2.1 r'.2.2.2.2.2.2

theorem KalmanFilter.step_bc {n m : ℕ} {r r' : KalmanFilter.Row F} (h : RowBroadcast n m r r') (s : ℕ) (I : Arr F) {x P : Arr F}
    (hs : KalmanFilter.Shaped n x P) : KalmanFilter.step s I r x P = KalmanFilter.step s I r' x P := by
  obtain ⟨A, H, B, u, z, Q, R⟩ := r
  obtain ⟨A', H', B', u', z', Q', R'⟩ := r'
  obtain ⟨h1, h2, h3, h4, h5, h6, h7, h8⟩ := h
  simp only at h1 h2 h3 h4 h5 h6 h7 h8
  subst h1 h2 h3
  simp only [KalmanFilter.step, predict_bc h8.A hs.2 h6 h4]
  obtain ⟨d, xp, e, Pp, hp⟩ := KalmanFilter.predict_layout h8 hs.1 hs.2
  simp only [hp]
  rw [gain_bc (P := .mat e Pp) h8.H rfl h7]
  simp only [correct_bc (x := .vec d xp) h8.H rfl h5]

theorem NDArray.RowsBroadcast.length {t : List ℕ} {a b : NDArray F} (h : a.RowsBroadcast t b) : a.rows.length = b.rows.length := by
  cases h with
  | stack l l' h => simpa using h.length_eq

theorem NDArray.RowsBroadcast.get {t : List ℕ} {a b : NDArray F} (h : a.RowsBroadcast t b) {k : ℕ} {x y : Arr F}
    (hx : a.rows[k]? = some x) (hy : b.rows[k]? = some y) : x.IsBroadcast t y := by
  cases h with
  | stack l l' h =>
    simp only [NDArray.rows_stack] at hx hy
    rw [List.forall₂_iff_get] at h
    obtain ⟨h1, e1⟩ := List.getElem?_eq_some_iff.1 hx
    obtain ⟨h2, e2⟩ := List.getElem?_eq_some_iff.1 hy
    have := h.2 k h1 h2
    simpa [e1, e2] using this

theorem NDArray.RowsBroadcast.iter {t : List ℕ} {a b : NDArray F} (h : a.RowsBroadcast t b) : a.Iterable ∧ b.Iterable := by
  cases h; exact ⟨by simp [NDArray.Iterable], by simp [NDArray.Iterable]⟩

/-- The controls of two calls cannot be told apart. -/
def SameControls (Z Z' : NDArray F) (U : Option (NDArray F)) : Prop :=
  ((effU U Z).Iterable ↔ (effU U Z').Iterable) ∧ (effU U Z).rows.length = (effU U Z').rows.length ∧
    ∀ (k : ℕ) (u u' : Arr F), (effU U Z).rows[k]? = some u → (effU U Z').rows[k]? = some u' → SameControl u u'

theorem SameControls.refl (Z : NDArray F) (U : Option (NDArray F)) : SameControls Z Z U :=
  ⟨Iff.rfl, rfl, fun _ _ _ h1 h2 => .inl (Option.some.inj (h1.symm.trans h2))⟩

theorem sameControl_eff {m : ℕ} {Z Z' : NDArray F} {U : Option (NDArray F)} (hZ : Z.RowsBroadcast [m] Z')
    (hU : U = none → Backend.isnan (Backend.nan : F) = true ∧ ∀ z ∈ Z.rows, z.dtype = .float64) :
    SameControls Z Z' U := by
  rcases U with _ | U
  · obtain ⟨hn, hd⟩ := hU rfl
    refine ⟨?_, ?_, ?_⟩
    · cases hZ with
      | stack l l' h => exact ⟨fun _ => by simp [effU, checkNoneAndBroadcast, NDArray.fullLikeNan, NDArray.Iterable],
          fun _ => by simp [effU, checkNoneAndBroadcast, NDArray.fullLikeNan, NDArray.Iterable]⟩
    · rw [KalmanFilter.effU_rows_none, KalmanFilter.effU_rows_none, List.length_map, List.length_map, hZ.length]
    · intro k u u' h1 h2
      rw [KalmanFilter.effU_rows_none, List.getElem?_map, Option.map_eq_some_iff] at h1 h2
      obtain ⟨z, hz, rfl⟩ := h1
      obtain ⟨z', hz', rfl⟩ := h2
      have := hd z (List.mem_of_getElem? hz)
      exact .inr ⟨fullLikeNan_blank hn this, fullLikeNan_blank hn ((hZ.get hz hz').dtype.trans this)⟩
  · exact ⟨Iff.rfl, rfl, fun k u u' h1 h2 => .inl (Option.some.inj (h1.symm.trans h2))⟩

theorem effU_iterable {Z : NDArray F} {U : Option (NDArray F)} (hZ : Z.Iterable) (hU : ¬ ∃ u, U = some u ∧ ¬ u.Iterable) :
    (effU U Z).Iterable := by
  rcases U with _ | U
  · obtain ⟨l, rfl⟩ := hZ.exists
    simp [effU, checkNoneAndBroadcast, NDArray.fullLikeNan, NDArray.Iterable]
  · by_contra h
    exact hU ⟨U, rfl, h⟩

theorem rowBroadcast_zrows {n m : ℕ} {kf : KalmanFilter F} {Q' R' Z Z' : NDArray F} {U : Option (NDArray F)}
    (hQ : kf.Q.RowsBroadcast [n, n] Q') (hR : kf.R.RowsBroadcast [m, m] R') (hZ : Z.RowsBroadcast [m] Z')
    (hU : SameControls Z Z' U)
    (hl : Layout n m { kf with Q := Q', R := R' } Z' U) :
    kf.steps Z U = ({ kf with Q := Q', R := R' } : KalmanFilter F).steps Z' U ∧
    List.Forall₂ (RowBroadcast n m) (kf.zrows Z U) (({ kf with Q := Q', R := R' } : KalmanFilter F).zrows Z' U) := by
  obtain ⟨-, hul, hur⟩ := hU
  have hs : kf.steps Z U = ({ kf with Q := Q', R := R' } : KalmanFilter F).steps Z' U := by
    simp only [KalmanFilter.steps, hul, hZ.length, hQ.length, hR.length]
  refine ⟨hs, forall₂_of_getElem? _ _ _ (by rw [KalmanFilter.zrows_length, KalmanFilter.zrows_length, hs]) ?_⟩
  rintro k ⟨A1, H1, B1, u1, z1, Q1, R1⟩ ⟨A2, H2, B2, u2, z2, Q2, R2⟩ h1 h2
  have hlay := KalmanFilter.mem_zrows hl _ (List.mem_of_getElem? h2)
  simp only [KalmanFilter.zrows, List.getElem?_zip_eq_some] at h1 h2
  obtain ⟨a1, a2, a3, a4, a5, a6, a7⟩ := h1
  obtain ⟨b1, b2, b3, b4, b5, b6, b7⟩ := h2
  simp only [a1, a2, a3, Option.some.injEq] at b1 b2 b3
  exact ⟨b1, b2, b3, hur k _ _ a4 b4, hZ.get a5 b5, hQ.get a6 b6, hR.get a7 b7, hlay⟩

theorem broadcast_core {n m : ℕ} (kf : KalmanFilter F) (Q' R' Z Z' : NDArray F) (U : Option (NDArray F))
    (hQ : kf.Q.RowsBroadcast [n, n] Q') (hR : kf.R.RowsBroadcast [m, m] R') (hZ : Z.RowsBroadcast [m] Z')
    (hU : SameControls Z Z' U)
    (hl : Layout n m { kf with Q := Q', R := R' } Z' U) :
    (((KalmanFilter.filter Z U).run kf).1 = ((KalmanFilter.filter Z' U).run { kf with Q := Q', R := R' }).1 ∧
      ((KalmanFilter.filter Z U).run kf).2.kalmanGains = ((KalmanFilter.filter Z' U).run { kf with Q := Q', R := R' }).2.kalmanGains) ∧
    (kf.steps Z U = Z.rows.length →
      ((KalmanFilter.smooth Z U).run kf).1 = ((KalmanFilter.smooth Z' U).run { kf with Q := Q', R := R' }).1) := by
  obtain ⟨hui, hul, hur⟩ := id hU
  have hf : (((KalmanFilter.filter Z U).run kf).1 = ((KalmanFilter.filter Z' U).run { kf with Q := Q', R := R' }).1 ∧
      ((KalmanFilter.filter Z U).run kf).2.kalmanGains = ((KalmanFilter.filter Z' U).run { kf with Q := Q', R := R' }).2.kalmanGains) := by
    by_cases hi : kf.AllIterable Z U
    · have hi' : ({ kf with Q := Q', R := R' } : KalmanFilter F).AllIterable Z' U :=
        ⟨hi.A, hi.H, hi.B, hui.1 hi.U, hZ.iter.2, hQ.iter.2, hR.iter.2⟩
      obtain ⟨hs, hz⟩ := rowBroadcast_zrows hQ hR hZ hU hl
      have ht : kf.tr Z U = ({ kf with Q := Q', R := R' } : KalmanFilter F).tr Z' U := by
        refine trace_rel_inv _ _ _ (KalmanFilter.Shaped n) ?_ ?_ _ _ hz kf.xk kf.Pk ⟨hl.x, hl.P⟩
        · intro r r' hr x P hsh
          exact KalmanFilter.step_bc hr _ _ hsh
        · intro r r' hr x P g xP o hsh hstep
          have e1 := hl.size
          have e2 := hl.ident
          simp only at e1 e2
          simp only [e1, e2] at hstep
          exact (KalmanFilter.step_keeps hr.layout g xP o hsh hstep).2
      rw [KalmanFilter.filter_iter hi, KalmanFilter.filter_iter hi', ht, hs, hZ.length]
      exact ⟨rfl, rfl⟩
    · have h1 : (KalmanFilter.filter Z U).run kf = (.error .typeError, kf) := by
        refine (C19_scalar_parameter kf Z U ?_).1
        by_contra hc
        simp only [not_or, not_not] at hc
        obtain ⟨c1, c2, c3, c4, c5, c6, c7⟩ := hc
        exact hi ⟨c1, c2, c3, effU_iterable c6 c7, c6, c4, c5⟩
      have h2 : (KalmanFilter.filter Z' U).run { kf with Q := Q', R := R' } = (.error .typeError, { kf with Q := Q', R := R' }) := by
        refine (C19_scalar_parameter { kf with Q := Q', R := R' } Z' U ?_).1
        by_contra hc
        simp only [not_or, not_not] at hc
        obtain ⟨c1, c2, c3, c4, c5, c6, c7⟩ := hc
        exact hi ⟨c1, c2, c3, hui.2 (effU_iterable c6 c7), hZ.iter.1, hQ.iter.1, hR.iter.1⟩
      rw [h1, h2]
      exact ⟨rfl, rfl⟩
  refine ⟨hf, fun hfull => ?_⟩
  rw [KalmanFilter.smooth_eq, KalmanFilter.smooth_eq]
  obtain ⟨h1, h2⟩ := hf
  rcases he : (KalmanFilter.filter Z U).run kf with ⟨re, e'⟩
  rcases hk : (KalmanFilter.filter Z' U).run { kf with Q := Q', R := R' } with ⟨rk, k'⟩
  rw [he, hk] at h1
  simp only at h1
  subst h1
  rcases re with e | ⟨xe, Pe⟩
  · rfl
  obtain ⟨N, hn, hx, hP, -, hPs⟩ := KalmanFilter.filter_rowsOk he
  obtain ⟨z, rfl, hz⟩ := NDArray.len_ok hn
  simp only
  obtain ⟨hs, hrows⟩ := rowBroadcast_zrows hQ hR hZ hU hl
  have hsz : kf.stateSize = n := hl.size
  have hc : ∀ last, back (KalmanFilter.body kf.A kf.Q kf.B (checkNoneAndBroadcast U (.stack z)) kf.stateSize xe Pe)
      (xe.length - 1) last =
      back (KalmanFilter.body kf.A Q' kf.B (checkNoneAndBroadcast U Z') kf.stateSize xe Pe) (xe.length - 1) last := by
    intro last
    refine back_congr (fun _ => True) (fun _ _ _ _ _ _ _ => trivial) (fun k x P hk _ => ?_) trivial
    have hk1 : k + 1 < (kf.zrows (.stack z) U).length := by
      rw [KalmanFilter.zrows_length, hfull]; simp only [NDArray.rows_stack]; omega
    have hk2 : k + 1 < (({ kf with Q := Q', R := R' } : KalmanFilter F).zrows Z' U).length := by rw [← hrows.length_eq]; exact hk1
    rw [List.forall₂_iff_get] at hrows
    have hr := hrows.2 (k + 1) hk1 hk2
    have g1 := List.getElem?_eq_getElem hk1
    have g2 := List.getElem?_eq_getElem hk2
    simp only [List.get_eq_getElem] at hr
    generalize (kf.zrows (.stack z) U)[k + 1] = r at hr g1
    generalize (({ kf with Q := Q', R := R' } : KalmanFilter F).zrows Z' U)[k + 1] = r' at hr g2
    obtain ⟨A1, H1, B1, u1, z1, Q1, R1⟩ := r
    obtain ⟨A2, H2, B2, u2, z2, Q2, R2⟩ := r'
    simp only [KalmanFilter.zrows, List.getElem?_zip_eq_some] at g1 g2
    obtain ⟨a1, a2, a3, a4, a5, a6, a7⟩ := g1
    obtain ⟨b1, b2, b3, b4, b5, b6, b7⟩ := g2
    obtain ⟨e1, e2, e3, e4, e5, e6, e7, e8⟩ := hr
    simp only at e1 e2 e3 e4 e5 e6 e7 e8
    subst e1 e2 e3
    have get : ∀ {a : NDArray F} {r}, a.rows[k + 1]? = some r → a.item (k + 1) = .ok r := by
      intro a r h
      rcases a with _ | l
      · simp [NDArray.rows] at h
      · simp only [NDArray.rows_stack] at h; simp [NDArray.item, h]
    have a4' := get a4
    have b4' := get b4
    simp only [effU] at a4' b4'
    simp only [KalmanFilter.body, get a1, get a3, get a6, a4', get b6, b4', Except.bind_ok', KalmanFilter.smoothStep]
    have hkP : k < Pe.length := by omega
    have hrow : getRow Pe k = .ok Pe[k] := by simp [getRow, hkP]
    have hsh : (Pe[k]).shape = [n, n] := by rw [← hsz]; exact (hPs _ (List.getElem_mem hkP)).1
    simp only [hrow, Except.bind_ok', predict_bc e8.A hsh e6 e4]
  simp only [hc]

/-- C139: noise rows and observations that fit the documented shapes only by broadcasting are used exactly as if the caller had
broadcast them: same results, same exceptions, same gains, for `filter` and `smooth`. -/
theorem C139_broadcast {n m : ℕ} (kf : KalmanFilter F) (Q' R' Z Z' : NDArray F) (U : Option (NDArray F))
    (hQ : kf.Q.RowsBroadcast [n, n] Q') (hR : kf.R.RowsBroadcast [m, m] R') (hZ : Z.RowsBroadcast [m] Z')
    (hU : U = none → Backend.isnan (Backend.nan : F) = true ∧ ∀ z ∈ Z.rows, z.dtype = .float64)
    (hl : Layout n m { kf with Q := Q', R := R' } Z' U) :
    (((KalmanFilter.filter Z U).run kf).1 = ((KalmanFilter.filter Z' U).run { kf with Q := Q', R := R' }).1 ∧
      ((KalmanFilter.filter Z U).run kf).2.kalmanGains = ((KalmanFilter.filter Z' U).run { kf with Q := Q', R := R' }).2.kalmanGains) ∧
    (kf.steps Z U = Z.rows.length →
      ((KalmanFilter.smooth Z U).run kf).1 = ((KalmanFilter.smooth Z' U).run { kf with Q := Q', R := R' }).1) :=
  broadcast_core kf Q' R' Z Z' U hQ hR hZ (sameControl_eff hZ hU) hl

/-! ### The extended filter -/

theorem ext_predict_bc {n : ℕ} {kf : ExtendedKalmanFilter F} (hA : ∀ x u y, x.shape = [n] → kf.jacobianA x u = .ok y → y.shape = [n, n])
    {x uk P Qk Qk' : Arr F} (hx : x.shape = [n]) (hP : P.shape = [n, n]) (hQ : Qk.IsBroadcast [n, n] Qk') :
    ExtendedKalmanFilter.predict kf x (some uk) P Qk = ExtendedKalmanFilter.predict kf x (some uk) P Qk' := by
  simp only [ExtendedKalmanFilter.predict]
  rcases hj : kf.jacobianA x (some uk) with e | Ak
  · rfl
  obtain ⟨dA, A, rfl⟩ := Arr.eq_mat (hA _ _ _ hx hj)
  obtain ⟨dP, P, rfl⟩ := Arr.eq_mat hP
  simp only [Arr.T_mat, Arr.matmul_mm, Except.bind_ok', hQ.add]

theorem ext_correct_bc {n m : ℕ} {kf : ExtendedKalmanFilter F}
    (hh : ∀ x y, x.shape = [n] → kf.h x = .ok y → y.shape = [m] ∨ m = 1 ∧ y.shape = [])
    {K Hk x P zk zk' : Arr F} (hx : x.shape = [n]) (hz : zk.IsBroadcast [m] zk') :
    ExtendedKalmanFilter.correct kf K Hk x P zk = ExtendedKalmanFilter.correct kf K Hk x P zk' := by
  simp only [ExtendedKalmanFilter.correct]
  rcases hy : kf.h x with e | y
  · rfl
  rcases hh _ _ hx hy with h | ⟨rfl, h⟩
  · obtain ⟨d, y, rfl⟩ := Arr.eq_vec h
    simp only [Except.bind_ok', hz.sub]
  · obtain ⟨d, y, rfl⟩ := Arr.eq_scalar h
    obtain ⟨r, e1, r', e2, e3⟩ := hz.sub_scalar d y
    simp only [Except.bind_ok', e1, e2, e3]

/-- The rows of two calls of the extended filter that differ by broadcasting only. -/
structure ExtRowBroadcast (n m : ℕ) (r r' : ExtendedKalmanFilter.Row F) : Prop where
  u : r.1 = r'.1
  z : r.2.1.IsBroadcast [m] r'.2.1
  Q : r.2.2.1.IsBroadcast [n, n] r'.2.2.1
  R : r.2.2.2.IsBroadcast [m, m] r'.2.2.2

theorem ExtendedKalmanFilter.step_bc {n m : ℕ} {kf : ExtendedKalmanFilter F} {Q' R' Z' : NDArray F} {U : Option (NDArray F)}
    (hl : ExtLayout n m { kf with Q := Q', R := R' } Z' U) {r r' : ExtendedKalmanFilter.Row F} (h : ExtRowBroadcast n m r r') {x P : Arr F}
    (hs : KalmanFilter.Shaped n x P) :
    ExtendedKalmanFilter.step kf r x P = ExtendedKalmanFilter.step { kf with Q := Q', R := R' } r' x P := by
  obtain ⟨u, z, Q, R⟩ := r
  obtain ⟨u', z', Q2, R2⟩ := r'
  obtain ⟨h1, h2, h3, h4⟩ := h
  simp only at h1 h2 h3 h4
  subst h1
  have hp : ExtendedKalmanFilter.predict { kf with Q := Q', R := R' } x (some u) P Q2 = ExtendedKalmanFilter.predict kf x (some u) P Q2 := rfl
  simp only [ExtendedKalmanFilter.step, hp, ext_predict_bc (kf := kf) hl.jA hs.1 hs.2 h3]
  rcases hq : ExtendedKalmanFilter.predict kf x (some u) P Q2 with e | ⟨xp, Pp⟩
  · rfl
  simp only
  rcases hj : kf.jacobianH xp with e | Hk
  · rfl
  simp only
  have hsh : xp.shape = [n] ∧ Pp.shape = [n, n] := by
    simp only [ExtendedKalmanFilter.predict] at hq
    obtain ⟨Ak, p1, hq⟩ := Except.bind_eq_ok hq
    obtain ⟨xq, p2, hq⟩ := Except.bind_eq_ok hq
    obtain ⟨pat, p3, hq⟩ := Except.bind_eq_ok hq
    obtain ⟨apat, p4, hq⟩ := Except.bind_eq_ok hq
    obtain ⟨Pq, p5, hq⟩ := Except.bind_eq_ok hq
    cases hq
    refine ⟨hl.f _ _ _ hs.1 p2, ?_⟩
    obtain ⟨dA, A, rfl⟩ := Arr.eq_mat (hl.jA _ _ _ hs.1 p1)
    obtain ⟨dP, P, rfl⟩ := Arr.eq_mat hs.2
    rw [Arr.T_mat, Arr.matmul_mm] at p3
    cases p3
    rw [Arr.matmul_mm] at p4
    cases p4
    obtain ⟨N, rfl, -⟩ := h3.toMat
    rw [Arr.add_mm] at p5
    cases p5
    rfl
  have hg : ExtendedKalmanFilter.gain Hk Pp R = ExtendedKalmanFilter.gain Hk Pp R2 := gain_bc (hl.jH _ _ hsh.1 hj) hsh.2 h4
  rw [hg]
  rcases ExtendedKalmanFilter.gain Hk Pp R2 with e | K
  · rfl
  simp only [ext_correct_bc (kf := kf) hl.h hsh.1 h2]
  rfl

theorem extRowBroadcast_zrows {n m : ℕ} {kf : ExtendedKalmanFilter F} {Q' R' Z Z' U : NDArray F}
    (hQ : kf.Q.RowsBroadcast [n, n] Q') (hR : kf.R.RowsBroadcast [m, m] R') (hZ : Z.RowsBroadcast [m] Z') :
    kf.steps Z (some U) = ({ kf with Q := Q', R := R' } : ExtendedKalmanFilter F).steps Z' (some U) ∧
    List.Forall₂ (ExtRowBroadcast n m) (kf.zrows Z (some U)) (({ kf with Q := Q', R := R' } : ExtendedKalmanFilter F).zrows Z' (some U)) := by
  have hs : kf.steps Z (some U) = ({ kf with Q := Q', R := R' } : ExtendedKalmanFilter F).steps Z' (some U) := by
    simp only [ExtendedKalmanFilter.steps, effU, checkNoneAndBroadcast, hZ.length, hQ.length, hR.length]
  refine ⟨hs, forall₂_of_getElem? _ _ _ (by rw [ExtendedKalmanFilter.zrows_length, ExtendedKalmanFilter.zrows_length, hs]) ?_⟩
  rintro k ⟨u1, z1, Q1, R1⟩ ⟨u2, z2, Q2, R2⟩ h1 h2
  simp only [ExtendedKalmanFilter.zrows, List.getElem?_zip_eq_some] at h1 h2
  obtain ⟨a4, a5, a6, a7⟩ := h1
  obtain ⟨b4, b5, b6, b7⟩ := h2
  exact ⟨Option.some.inj (a4.symm.trans b4), hZ.get a5 b5, hQ.get a6 b6, hR.get a7 b7⟩

/-- C139 for `ExtendedKalmanFilter`. -/
theorem C139_ext_broadcast {n m : ℕ} (kf : ExtendedKalmanFilter F) (Q' R' Z Z' U : NDArray F)
    (hQ : kf.Q.RowsBroadcast [n, n] Q') (hR : kf.R.RowsBroadcast [m, m] R') (hZ : Z.RowsBroadcast [m] Z')
    (hl : ExtLayout n m { kf with Q := Q', R := R' } Z' (some U)) :
    (((ExtendedKalmanFilter.filter Z (some U)).run kf).1 = ((ExtendedKalmanFilter.filter Z' (some U)).run { kf with Q := Q', R := R' }).1 ∧
      ((ExtendedKalmanFilter.filter Z (some U)).run kf).2.kalmanGains =
        ((ExtendedKalmanFilter.filter Z' (some U)).run { kf with Q := Q', R := R' }).2.kalmanGains) ∧
    ((ExtendedKalmanFilter.smooth Z (some U)).run kf).1 = ((ExtendedKalmanFilter.smooth Z' (some U)).run { kf with Q := Q', R := R' }).1 := by
  have hf : (((ExtendedKalmanFilter.filter Z (some U)).run kf).1 = ((ExtendedKalmanFilter.filter Z' (some U)).run { kf with Q := Q', R := R' }).1 ∧
      ((ExtendedKalmanFilter.filter Z (some U)).run kf).2.kalmanGains =
        ((ExtendedKalmanFilter.filter Z' (some U)).run { kf with Q := Q', R := R' }).2.kalmanGains) := by
    by_cases hi : kf.AllIterable Z (some U)
    · have hi' : ({ kf with Q := Q', R := R' } : ExtendedKalmanFilter F).AllIterable Z' (some U) :=
        ⟨hi.U, hZ.iter.2, hQ.iter.2, hR.iter.2⟩
      obtain ⟨hs, hz⟩ := extRowBroadcast_zrows (U := U) hQ hR hZ
      have ht : kf.tr Z (some U) = ({ kf with Q := Q', R := R' } : ExtendedKalmanFilter F).tr Z' (some U) := by
        refine trace_rel_inv _ _ _ (KalmanFilter.Shaped n) ?_ ?_ _ _ hz kf.xk kf.Pk ⟨hl.x, hl.P⟩
        · intro r r' hr x P hsh
          exact ExtendedKalmanFilter.step_bc hl hr hsh
        · intro r r' hr x P g xP o hsh hstep
          exact (ExtendedKalmanFilter.step_keeps hl (.inl hr.z.shape) (.inl hr.Q.shape) (.inl hr.R.shape) g xP o hsh hstep).2
      rw [ExtendedKalmanFilter.filter_iter hi, ExtendedKalmanFilter.filter_iter hi', ht, hs, hZ.length]
      exact ⟨rfl, rfl⟩
    · have h1 : (ExtendedKalmanFilter.filter Z (some U)).run kf = (.error .typeError, kf) := by
        refine (C19_ekf_scalar_parameter kf Z (some U) ?_).1
        by_contra hc
        simp only [not_or, not_not] at hc
        obtain ⟨c4, c5, c6, c7⟩ := hc
        exact hi ⟨effU_iterable c6 c7, c6, c4, c5⟩
      have h2 : (ExtendedKalmanFilter.filter Z' (some U)).run { kf with Q := Q', R := R' } = (.error .typeError, { kf with Q := Q', R := R' }) := by
        refine (C19_ekf_scalar_parameter { kf with Q := Q', R := R' } Z' (some U) ?_).1
        by_contra hc
        simp only [not_or, not_not] at hc
        obtain ⟨c4, c5, c6, c7⟩ := hc
        exact hi ⟨effU_iterable hZ.iter.1 c7, hZ.iter.1, hQ.iter.1, hR.iter.1⟩
      rw [h1, h2]
      exact ⟨rfl, rfl⟩
  refine ⟨hf, ?_⟩
  rw [ExtendedKalmanFilter.smooth_eq, ExtendedKalmanFilter.smooth_eq]
  obtain ⟨h1, h2⟩ := hf
  rcases he : (ExtendedKalmanFilter.filter Z (some U)).run kf with ⟨re, e'⟩
  rcases hk : (ExtendedKalmanFilter.filter Z' (some U)).run { kf with Q := Q', R := R' } with ⟨rk, k'⟩
  rw [he, hk] at h1
  simp only at h1
  subst h1
  rcases re with e | ⟨xe, Pe⟩
  · rfl
  obtain ⟨N, hn, hx, hP, hxs, hPs⟩ := ExtendedKalmanFilter.filter_rowsOk he
  simp only
  have hsz : kf.stateSize = n := hl.size
  have hc : ∀ last, back (ExtendedKalmanFilter.body kf kf.Q (checkNoneAndBroadcast (some U) Z) xe Pe) (xe.length - 1) last =
      back (ExtendedKalmanFilter.body { kf with Q := Q', R := R' } Q' (checkNoneAndBroadcast (some U) Z') xe Pe) (xe.length - 1) last := by
    intro last
    refine back_congr (fun _ => True) (fun _ _ _ _ _ _ _ => trivial) (fun k x P hk _ => ?_) trivial
    simp only [ExtendedKalmanFilter.body, checkNoneAndBroadcast]
    have hkP : k < Pe.length := by omega
    have hkx : k < xe.length := by omega
    have hrow : getRow Pe k = .ok Pe[k] := by simp [getRow, hkP]
    have hrow' : getRow xe k = .ok xe[k] := by simp [getRow, hkx]
    have hsh : (Pe[k]).shape = [n, n] := by rw [← hsz]; exact (hPs _ (List.getElem_mem hkP)).1
    have hsh' : (xe[k]).shape = [n] := by rw [← hsz]; exact (hxs _ (List.getElem_mem hkx)).1
    have hq : (kf.Q.item (k + 1) = .error .indexError ∧ Q'.item (k + 1) = .error .indexError) ∨
        ∃ q q', kf.Q.item (k + 1) = .ok q ∧ Q'.item (k + 1) = .ok q' ∧ q.IsBroadcast [n, n] q' := by
      have hlen := hQ.length
      have hget := fun (x y : Arr F) => hQ.get (k := k + 1) (x := x) (y := y)
      obtain ⟨l, el⟩ := hQ.iter.1.exists
      obtain ⟨l', el'⟩ := hQ.iter.2.exists
      rw [el, el'] at hlen hget ⊢
      simp only [NDArray.rows_stack] at hlen hget
      by_cases hlt : k + 1 < l.length
      · right
        exact ⟨l[k + 1], l'[k + 1], by simp [NDArray.item, hlt], by simp [NDArray.item, hlen ▸ hlt],
          hget _ _ (by simp [hlt]) (by simp [hlen ▸ hlt])⟩
      · left
        constructor <;> simp only [NDArray.item] <;> rw [List.getElem?_eq_none (by omega)]
    rcases hq with ⟨q1, q2⟩ | ⟨q, q', q1, q2, q3⟩
    · rw [q1, q2]; rfl
    · rw [q1, q2]
      simp only [Except.bind_ok', hrow, hrow', ExtendedKalmanFilter.smoothStep, ext_predict_bc (kf := kf) hl.jA hsh' hsh q3]
      rfl
  simp only [hc]

/-! ### Non-vacuity -/

theorem Arr.IsBroadcast.const_mat (d : DType) (x : F) (r c : ℕ) : (Arr.scalar d x).IsBroadcast [r, c] (.mat (m := r) (n := c) d fun _ _ => x) where
  fits := FitsShape.nil _
  shape := rfl
  dtype := rfl
  entry := by
    rintro (_ | ⟨i, _ | ⟨j, _ | ⟨k, l⟩⟩⟩) y h
    · simp [Arr.entryAt] at h
    · simp [Arr.entryAt] at h
    · simp only [Arr.entryAt, Option.dite_none_right_eq_some] at h
      exact h.2
    · simp [Arr.entryAt] at h

theorem Arr.IsBroadcast.const_vec (d : DType) (x : F) (r : ℕ) : (Arr.scalar d x).IsBroadcast [r] (.vec (n := r) d fun _ => x) where
  fits := FitsShape.nil _
  shape := rfl
  dtype := rfl
  entry := by
    rintro (_ | ⟨i, _ | ⟨j, l⟩⟩) y h
    · simp [Arr.entryAt] at h
    · simp only [Arr.entryAt, Option.dite_none_right_eq_some] at h
      exact h.2
    · simp [Arr.entryAt] at h

namespace Ex

/-- The constant-velocity filter with numbers for the noise. -/
def numbers : KalmanFilter QN :=
  { cv 2 with Q := .stack (List.replicate 2 (.scalar .float64 (some (1/4)))), R := .stack (List.replicate 2 (.scalar .float64 (some 1))) }

/-- Numbers for the observations. -/
def numberZ : NDArray QN := .stack [.scalar .float64 (some 1), .scalar .float64 (some 3)]

/-- The observations of shape `(1,)`. -/
def numberZ' : NDArray QN := .stack [.vec (n := 1) .float64 fun _ => some 1, .vec (n := 1) .float64 fun _ => some 3]

end Ex

/-- C139 is met by a call that returns. -/
example : ∃ Q' R', Ex.numbers.Q.RowsBroadcast [2, 2] Q' ∧ Ex.numbers.R.RowsBroadcast [1, 1] R' ∧ Ex.numberZ.RowsBroadcast [1] Ex.numberZ' ∧
    Layout 2 1 { Ex.numbers with Q := Q', R := R' } Ex.numberZ' (some Ex.us) ∧
    ∃ r kf', (KalmanFilter.smooth Ex.numberZ (some Ex.us)).run Ex.numbers = (.ok r, kf') := by
  refine ⟨.stack (List.replicate 2 (.mat (m := 2) (n := 2) .float64 fun _ _ => some (1/4))),
    .stack (List.replicate 2 (.mat (m := 1) (n := 1) .float64 fun _ _ => some 1)),
    .stack _ _ (.cons (Arr.IsBroadcast.const_mat _ _ _ _) (.cons (Arr.IsBroadcast.const_mat _ _ _ _) .nil)),
    .stack _ _ (.cons (Arr.IsBroadcast.const_mat _ _ _ _) (.cons (Arr.IsBroadcast.const_mat _ _ _ _) .nil)),
    .stack _ _ (.cons (Arr.IsBroadcast.const_vec _ _ _) (.cons (Arr.IsBroadcast.const_vec _ _ _) .nil)),
    ⟨rfl, rfl, rfl, rfl, ?_⟩, (Ex.returned_iff _).1 (by decide +kernel)⟩
  intro k Ak Hk Bk uk zk Qk Rk h1 h2 h3 h4 h5 h6 h7
  replace h1 := List.mem_of_getElem? h1
  replace h2 := List.mem_of_getElem? h2
  replace h3 := List.mem_of_getElem? h3
  replace h4 := List.mem_of_getElem? h4
  replace h5 := List.mem_of_getElem? h5
  replace h6 := List.mem_of_getElem? h6
  replace h7 := List.mem_of_getElem? h7
  simp [Ex.numbers, Ex.cv, NDArray.rows, Ex.numberZ', effU, checkNoneAndBroadcast, Ex.us] at h1 h2 h3 h4 h5 h6 h7
  subst h1 h2 h3
  refine ⟨rfl, rfl, .inr (.inr ⟨1, rfl, ?_⟩), ?_, ?_, ?_⟩
  · rcases h4 with rfl | rfl | rfl <;> rfl
  · rcases h5 with rfl | rfl <;> exact .inl rfl
  · subst h6; exact .inl rfl
  · subst h7; exact .inl rfl

end KK
