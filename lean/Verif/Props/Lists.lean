import Verif.Proofs.ListsExt
import Verif.Proofs.Nan

/-!
# Python lists and numbers in place of arrays (C136-C138)
-/

set_option linter.unusedSectionVars false

namespace KK

variable {F : Type} [Backend F]

/-! ## C136 -/

/-- C136, constructor: it stores what it got; with `B = None` the stored `B` is `np.full_like(np.asarray(A), np.nan)`. -/
theorem C136_new (A : PySeq F) (A' : NDArray F) (xk : Arr F) (B : Option (PySeq F)) (B' : NDArray F) (Pk : PyVal F) (Pk' : Arr F) (H Q R : PySeq F)
    (H' Q' R' : NDArray F) (n : Option ℤ) (hA : A.Is A') (hB : A.ControlIs B B') (hP : Pk.Is Pk') (hH : H.Is H') (hQ : Q.Is Q') (hR : R.Is R') :
    (∃ e, PyFilter.new A (.arr xk) B Pk H Q R n = .error e ∧ KalmanFilter.new A' xk (some B') Pk' H' Q' R' n = .error e) ∨
    ∃ o kf, PyFilter.new A (.arr xk) B Pk H Q R n = .ok o ∧ KalmanFilter.new A' xk (some B') Pk' H' Q' R' n = .ok kf ∧ o.Is kf := by
  obtain ⟨V, hV, hVB, -, -⟩ := PyFilter.control_is hB
  simp only [PyFilter.new, KalmanFilter.new, hV, Except.bind_ok', checkNoneAndBroadcast, PyVal.size0]
  have ok : ∀ n, ({ A := A, xk := .arr xk, B := V, Pk := Pk, H := H, Q := Q, R := R, stateSize := n, I := Arr.identity n, kalmanGains := [] } : PyFilter F).Is
      { A := A', xk := xk, B := B', Pk := Pk', H := H', Q := Q', R := R', stateSize := n, I := Arr.identity n, kalmanGains := [] } :=
    fun n => ⟨hA, rfl, hVB, hP, hH, hQ, hR, rfl, rfl, rfl⟩
  rcases n with _ | (_ | s) | s
  · rcases xk.shape with _ | ⟨n, t⟩
    · exact .inl ⟨_, rfl, rfl⟩
    · exact .inr ⟨_, _, rfl, rfl, ok n⟩
  · rcases xk.shape with _ | ⟨n, t⟩
    · exact .inl ⟨_, rfl, rfl⟩
    · exact .inr ⟨_, _, rfl, rfl, ok n⟩
  · exact .inr ⟨_, _, rfl, rfl, ok (s + 1)⟩
  · exact .inl ⟨_, rfl, rfl⟩

/-- C136, `predict`: lists for any arguments but `Ak`, and not for both `Bk` and `uk`. -/
theorem C136_predict (Ak : Arr F) (xk Bk uk Pk Qk : PyVal F) (x b u p q : Arr F) (hx : xk.Is x) (hB : Bk.Is b) (hu : uk.Is u)
    (hBu : Bk.isArr = true ∨ uk.isArr = true) (hP : Pk.Is p) (hQ : Qk.Is q) :
    PyFilter.predict (.arr Ak) xk (some Bk) (some uk) Pk Qk = KalmanFilter.predict Ak x (some b) (some u) p q :=
  PyFilter.predict_is (PyVal.Is.arr Ak) rfl hx hB hu hBu hP hQ

/-- C136, `update`: lists for any arguments but `Hk` and `Pk`. -/
theorem C136_update (o : PyFilter F) (kf : KalmanFilter F) (h : o.Is kf) (Hk Pk : Arr F) (xk zk Rk : PyVal F) (x z r : Arr F) (hx : xk.Is x) (hz : zk.Is z)
    (hR : Rk.Is r) : ((PyFilter.update (.arr Hk) xk (.arr Pk) zk Rk).run o).1 = ((KalmanFilter.update Hk x Pk z r).run kf).1 ∧
      ((PyFilter.update (.arr Hk) xk (.arr Pk) zk Rk).run o).2.Is ((KalmanFilter.update Hk x Pk z r).run kf).2 := by
  simp only [PyFilter.update, KalmanFilter.update, Py.run_bind, Py.run_lift, PyFilter.gain_is (PyVal.Is.arr Hk) rfl hR]
  rcases KalmanFilter.gain Hk Pk r with e | K
  · exact ⟨rfl, h⟩
  simp only [Py.run_mutate, Py.run_self]
  refine ⟨?_, ⟨h.A, h.xk, h.B, h.Pk, h.H, h.Q, h.R, h.size, h.ident, by rw [h.gains]⟩⟩
  simp only [PyFilter.correct, KalmanFilter.correct, h.ident, (PyVal.Is.arr Hk).matmul hx (.inl rfl), show xk.asarray = .ok x from hx,
    show (PyVal.arr Hk).asarray = .ok Hk from rfl, show (PyVal.arr Pk).asarray = .ok Pk from rfl, Except.bind_ok']
  rcases Hk.matmul x with e | hx
  · rfl
  simp only [Except.bind_ok', hz.sub (PyVal.Is.arr hx) (PyVal.Subtractable.right _ _)]

/-- C136, `filter`: with lists or numbers in place of rows of `B`, `Q`, `R`, `Z`, `U`, of the initial state or covariance, the call does exactly
what it does with the arrays they stand for: same result or same exception, same gains recorded, nothing else changed. -/
theorem C136_filter (o : PyFilter F) (kf : KalmanFilter F) (h : o.Is kf) (hA : o.A.OfArrays) (hH : o.H.OfArrays) (Z : PySeq F) (Z' : NDArray F)
    (hZ : Z.Is Z') (U : Option (PySeq F)) (U' : NDArray F) (hU : Z.ControlIs U U') (hBU : ∀ V, U = some V → o.B.OneArray V) :
    (PyFilter.filter Z U).run o = (((KalmanFilter.filter Z' (some U')).run kf).1,
      { o with kalmanGains := ((KalmanFilter.filter Z' (some U')).run kf).2.kalmanGains }) :=
  PyFilter.filter_is h hA hH hZ hU hBU

/-- C136, `smooth`: likewise. -/
theorem C136_smooth (o : PyFilter F) (kf : KalmanFilter F) (h : o.Is kf) (hA : o.A.OfArrays) (hH : o.H.OfArrays) (Z : PySeq F) (Z' : NDArray F)
    (hZ : Z.Is Z') (U : Option (PySeq F)) (U' : NDArray F) (hU : Z.ControlIs U U') (hBU : ∀ V, U = some V → o.B.OneArray V) :
    (PyFilter.smooth Z U).run o = (((KalmanFilter.smooth Z' (some U')).run kf).1,
      { o with kalmanGains := ((KalmanFilter.smooth Z' (some U')).run kf).2.kalmanGains }) :=
  PyFilter.smooth_is h hA hH hZ hU hBU

/-- Rows converted one by one, and a list converted as a whole. -/
theorem mapM_is {l : List (PyVal F)} {rows : List (Arr F)} (h : List.Forall₂ PyVal.Is l rows) : l.mapM PyVal.asarray = .ok rows := by
  induction h with
  | nil => rfl
  | @cons v a l rows hv h ih =>
    rw [List.mapM_cons, show v.asarray = .ok a from hv, ih]
    rfl

theorem withDType_self (a : Arr F) : a.withDType a.dtype = a := by cases a <;> rfl

/-- With rows of one shape and one dtype, `np.full_like` of the list is that of the array. -/
theorem fullLike_uniform {Z : PySeq F} {rows : List (Arr F)} (hZ : Z.Is (.stack rows)) (s : List ℕ) (d : DType) (hs : ∀ r ∈ rows, r.shape = s)
    (hd : ∀ r ∈ rows, r.dtype = d) : Z.fullLikeNan = .ok (NDArray.stack rows).fullLikeNan := by
  cases Z with
  | nd b => cases hZ; rfl
  | list l =>
    obtain ⟨rows', h1, h2⟩ := hZ
    cases h1
    simp only [PySeq.fullLikeNan, mapM_is h2, Except.bind_ok']
    rw [if_pos fun r hr t ht => (hs r hr).trans (hs t ht).symm]
    simp only [NDArray.fullLikeNan, Except.ok.injEq, NDArray.stack.injEq]
    refine List.map_congr_left fun r hr => ?_
    have : commonDType (rows.map Arr.dtype) = r.dtype := by
      rw [hd r hr]
      have hall : ∀ e ∈ rows.map Arr.dtype, e = d := by
        intro e he
        obtain ⟨t, ht, rfl⟩ := List.mem_map.1 he
        exact hd t ht
      have hne : rows.map Arr.dtype ≠ [] := fun h => by rw [List.map_eq_nil_iff.1 h] at hr; exact absurd hr (List.not_mem_nil)
      cases d with
      | int64 => exact if_pos ⟨hne, hall⟩
      | float64 =>
        refine if_neg fun h => ?_
        have := h.2 r.dtype (List.mem_map_of_mem hr)
        rw [hd r hr] at this
        cases this
    rw [this, withDType_self]

/-- C136, no control: if the observations are a list whose rows have one shape and one dtype (say, all floats), then `filter(Z)` is what it is
with the array `np.array(Z)`. -/
theorem C136_no_control (o : PyFilter F) (kf : KalmanFilter F) (h : o.Is kf) (hA : o.A.OfArrays) (hH : o.H.OfArrays) (Z : PySeq F) (rows : List (Arr F))
    (hZ : Z.Is (.stack rows)) (s : List ℕ) (d : DType) (hs : ∀ r ∈ rows, r.shape = s) (hd : ∀ r ∈ rows, r.dtype = d) :
    (PyFilter.filter Z none).run o = (((KalmanFilter.filter (.stack rows) none).run kf).1,
      { o with kalmanGains := ((KalmanFilter.filter (.stack rows) none).run kf).2.kalmanGains }) ∧
    (PyFilter.smooth Z none).run o = (((KalmanFilter.smooth (.stack rows) none).run kf).1,
      { o with kalmanGains := ((KalmanFilter.smooth (.stack rows) none).run kf).2.kalmanGains }) :=
  ⟨PyFilter.filter_is h hA hH hZ (U := none) (fullLike_uniform hZ s d hs hd) (fun _ h => by cases h),
    PyFilter.smooth_is h hA hH hZ (U := none) (fullLike_uniform hZ s d hs hd) (fun _ h => by cases h)⟩

/-! ## C137 -/

/-- C137, constructor: an initial state that is a list or a number raises AttributeError unless `state_size` is given. -/
theorem C137_new (A : PySeq F) (xk : PyVal F) (hx : xk.isArr = false) (B : PySeq F) (Pk : PyVal F) (H Q R : PySeq F) :
    PyFilter.new A xk (some B) Pk H Q R = .error .attributeError ∧
    (∀ s : ℕ, ∃ o, PyFilter.new A xk (some B) Pk H Q R (some (s + 1)) = .ok o ∧ o.xk = xk ∧ o.stateSize = s + 1) := by
  refine ⟨?_, fun s => ⟨_, rfl, rfl, rfl⟩⟩
  cases xk <;> first | rfl | simp [PyVal.isArr] at hx

/-- C137, `predict`: a transition matrix that is a list (or a number) always raises; AttributeError unless the mean raised before. -/
theorem C137_predict_transition (Ak xk : PyVal F) (Bk uk : Option (PyVal F)) (Pk Qk : PyVal F) (h : Ak.isArr = false) :
    (∃ e, PyFilter.predict Ak xk Bk uk Pk Qk = .error e) ∧
    (∀ m, PyFilter.predictMean Ak xk Bk uk = .ok m → PyFilter.predict Ak xk Bk uk Pk Qk = .error .attributeError) := by
  have key : ∀ m, PyFilter.predictMean Ak xk Bk uk = .ok m → PyFilter.predict Ak xk Bk uk Pk Qk = .error .attributeError := by
    intro m hm
    simp only [PyFilter.predict, hm, Except.bind_ok', PyFilter.predictCov, PyVal.T_err h]
    rfl
  refine ⟨?_, key⟩
  rcases hm : PyFilter.predictMean Ak xk Bk uk with e | m
  · refine ⟨e, ?_⟩
    simp only [PyFilter.predict, hm]
    rfl
  · exact ⟨_, key m hm⟩

/-- C137, `predict`: a control matrix and a control that are both lists (or numbers) raise TypeError when the control is used. -/
theorem C137_predict_control (Ak x : Arr F) (ax : Arr F) (hax : Ak.matmul x = .ok ax) (Bk uk : PyVal F) (b u : Arr F) (hb : Bk.Is b) (hu : uk.Is u)
    (hB : Bk.isArr = false) (hU : uk.isArr = false) (hnb : ¬ b.Blank) (hnu : ¬ u.Blank) (Pk Qk : PyVal F) :
    PyFilter.predict (.arr Ak) (.arr x) (some Bk) (some uk) Pk Qk = .error .typeError := by
  have e1 : b.isnanAll = false := by rw [← Bool.not_eq_true, Arr.isnanAll_iff_blank]; exact hnb
  have e2 : u.isnanAll = false := by rw [← Bool.not_eq_true, Arr.isnanAll_iff_blank]; exact hnu
  simp only [PyFilter.predict, PyFilter.predictMean, hb.isNanAll, hu.isNanAll, Except.bind_ok', e1, e2, (PyVal.Is.arr Ak).matmul (PyVal.Is.arr x) (.inl rfl), hax,
    PyVal.matmul_err hB hU]
  rfl

/-- C137, `update`: an observation matrix that is a list (or a number) raises AttributeError, and nothing is recorded; so does a covariance that is
a list, if nothing raised before. -/
theorem C137_update (o : PyFilter F) (Hk xk Pk zk Rk : PyVal F) (h : Hk.isArr = false ∨ Pk.isArr = false) :
    ∃ e, (PyFilter.update Hk xk Pk zk Rk).run o = (.error e, o) ∧ (Hk.isArr = false → e = .attributeError) := by
  by_cases hH : Hk.isArr = false
  · refine ⟨.attributeError, ?_, fun _ => rfl⟩
    simp only [PyFilter.update, Py.run_bind, Py.run_lift, PyFilter.gain, PyVal.T_err hH]
    rfl
  · have hP := h.resolve_left hH
    have : ∃ e, PyFilter.gain Hk Pk Rk = .error e := by
      simp only [PyFilter.gain]
      rcases Hk.T with e | Ht
      · exact ⟨e, rfl⟩
      simp only [Except.bind_ok']
      rcases Pk.matmul (.arr Ht) with e | pht
      · exact ⟨e, rfl⟩
      simp only [Except.bind_ok']
      rcases Hk.matmul (.arr pht) with e | hpht
      · exact ⟨e, rfl⟩
      simp only [Except.bind_ok']
      rcases Rk.asarray with e | r
      · exact ⟨e, rfl⟩
      simp only [Except.bind_ok']
      rcases hpht.add r with e | S
      · exact ⟨e, rfl⟩
      simp only [Except.bind_ok', PyVal.T_err hP]
      exact ⟨_, rfl⟩
    obtain ⟨e, he⟩ := this
    refine ⟨e, ?_, fun h => absurd h hH⟩
    simp only [PyFilter.update, Py.run_bind, Py.run_lift, he]

/-- What a step that returned says about its arguments. -/
theorem predict_needs {Ak xk Bk uk Pk Qk : PyVal F} {out : Arr F × Arr F} (h : PyFilter.predict Ak xk (some Bk) (some uk) Pk Qk = .ok out) :
    Ak.isArr = true ∧ (Bk.isArr = true ∨ uk.isArr = true ∨ (∃ b, Bk.Is b ∧ b.Blank) ∨ ∃ u, uk.Is u ∧ u.Blank) := by
  refine ⟨?_, ?_⟩
  · by_contra hA
    obtain ⟨e, he⟩ := (C137_predict_transition Ak xk (some Bk) (some uk) Pk Qk (by simpa using hA)).1
    rw [he] at h; cases h
  · rcases hb : Bk.isArr with _ | _
    · rcases hu : uk.isArr with _ | _
      · rcases hb' : Bk.asarray with e | b
        · simp only [PyFilter.predict, PyFilter.predictMean, PyVal.isNanAll, hb'] at h
          cases h
        rcases hn : b.isnanAll with _ | _
        · rcases hu' : uk.asarray with e | u
          · simp only [PyFilter.predict, PyFilter.predictMean, PyVal.isNanAll, hb', hu', Except.bind_ok', hn] at h
            cases h
          rcases hm : u.isnanAll with _ | _
          · simp only [PyFilter.predict, PyFilter.predictMean, PyVal.isNanAll, hb', hu', Except.bind_ok', hn, hm, PyVal.matmul_err hb hu] at h
            rcases hax : Ak.matmul xk with e | ax
            · rw [hax] at h; cases h
            · rw [hax] at h; cases h
          · exact .inr (.inr (.inr ⟨u, hu', (Arr.isnanAll_iff_blank _).1 hm⟩))
        · exact .inr (.inr (.inl ⟨b, hb', (Arr.isnanAll_iff_blank _).1 hn⟩))
      · exact .inr (.inl rfl)
    · exact .inl rfl

theorem loop_needs (rows : List (PyFilter.Row F)) : ∀ (k : ℕ) (xk Pk : PyVal F) (s e : List (Arr F)) (o o' : PyFilter F) (out : List (Arr F) × List (Arr F)),
    (PyFilter.filterLoop k rows xk Pk s e).run o = (.ok out, o') → ∀ r ∈ rows, r.1.isArr = true ∧ r.2.1.isArr = true ∧
      (r.2.2.1.isArr = true ∨ r.2.2.2.1.isArr = true ∨ (∃ b, r.2.2.1.Is b ∧ b.Blank) ∨ ∃ u, r.2.2.2.1.Is u ∧ u.Blank) := by
  induction rows with
  | nil => intro _ _ _ _ _ _ _ _ _ r hr; exact absurd hr (List.not_mem_nil)
  | cons r rows ih =>
    intro k xk Pk s e o o' out h
    obtain ⟨Ak, Hk, Bk, uk, zk, Qk, Rk⟩ := r
    simp only [PyFilter.filterLoop, Py.run_bind, Py.run_lift] at h
    rcases hp : PyFilter.predict Ak xk (some Bk) (some uk) Pk Qk with er | ⟨xp, Pp⟩
    · simp [hp] at h
    simp only [hp] at h
    have hH : Hk.isArr = true := by
      by_contra hH
      obtain ⟨er, he, -⟩ := C137_update o Hk (.arr xp) (.arr Pp) zk Rk (.inl (by simpa using hH))
      rw [he] at h
      simp at h
    rcases hu : (PyFilter.update Hk (.arr xp) (.arr Pp) zk Rk).run o with ⟨er | ⟨x', P'⟩, o₁⟩
    · simp [hu] at h
    simp only [hu, Py.run_self] at h
    rcases hs : x'.assignVec o₁.stateSize with er | sr
    · simp [hs] at h
    simp only [hs] at h
    rcases he : P'.assignMat o₁.stateSize with er | pr
    · simp [he] at h
    simp only [he] at h
    intro r hr
    rcases List.mem_cons.1 hr with rfl | hr
    · obtain ⟨h1, h2⟩ := predict_needs hp
      exact ⟨h1, hH, h2⟩
    · exact ih _ _ _ _ _ _ _ _ h r hr

/-- C137, `filter`: if it returned, then in every processed row the transition and observation matrices were arrays, and of control matrix and
control at least one was an array or one of them was all NaN.  So a nested list in `A` or `H`, or lists in both `B` and `U`, make `filter` raise. -/
theorem C137_filter (o o' : PyFilter F) (Z : PySeq F) (U : Option (PySeq F)) (V : PySeq F) (hV : PySeq.checkNone U Z = .ok V)
    (out : List (Arr F) × List (Arr F)) (h : (PyFilter.filter Z U).run o = (.ok out, o')) (k : ℕ) (a hh b u z q r : PyVal F)
    (hk : o.A.item k = .ok a ∧ o.H.item k = .ok hh ∧ o.B.item k = .ok b ∧ V.item k = .ok u ∧ Z.item k = .ok z ∧ o.Q.item k = .ok q ∧ o.R.item k = .ok r) :
    a.isArr = true ∧ hh.isArr = true ∧ (b.isArr = true ∨ u.isArr = true ∨ (∃ b', b.Is b' ∧ b'.Blank) ∨ ∃ u', u.Is u' ∧ u'.Blank) := by
  have get : ∀ {s : PySeq F} {l : List (PyVal F)}, s.iter = .ok l → ∀ {v}, s.item k = .ok v → l[k]? = some v := by
    intro s l hl v hv
    cases s with
    | nd b =>
      cases b with
      | d0 d x => cases hl
      | stack rows =>
        simp only [PySeq.iter, NDArray.iter, Except.bind_ok', Except.ok.injEq] at hl
        subst hl
        simp only [PySeq.item, NDArray.item] at hv
        rw [List.getElem?_map]
        rcases hr : rows[k]? with _ | r
        · rw [hr] at hv; cases hv
        · rw [hr] at hv; cases hv; rfl
    | list l' =>
      simp only [PySeq.iter, Except.ok.injEq] at hl
      subst hl
      simp only [PySeq.item] at hv
      rcases hr : l'[k]? with _ | r
      · rw [hr] at hv; cases hv
      · rw [hr] at hv; cases hv; rfl
  obtain ⟨k1, k2, k3, k4, k5, k6, k7⟩ := hk
  simp only [PyFilter.filter, Py.run_bind, Py.run_self, Py.run_lift, hV] at h
  rcases hn : Z.len with e | n
  · simp [hn] at h
  simp only [hn] at h
  rcases hz : PyFilter.zipRows o.A o.H o.B V Z o.Q o.R with e | rows
  · simp [hz] at h
  simp only [hz] at h
  have hrow : (a, hh, b, u, z, q, r) ∈ rows := by
    simp only [PyFilter.zipRows] at hz
    rcases h1 : o.A.iter with e | l1
    · rw [h1] at hz; cases hz
    rcases h2 : o.H.iter with e | l2
    · rw [h1, h2] at hz; cases hz
    rcases h3 : o.B.iter with e | l3
    · rw [h1, h2, h3] at hz; cases hz
    rcases h4 : V.iter with e | l4
    · rw [h1, h2, h3, h4] at hz; cases hz
    rcases h5 : Z.iter with e | l5
    · rw [h1, h2, h3, h4, h5] at hz; cases hz
    rcases h6 : o.Q.iter with e | l6
    · rw [h1, h2, h3, h4, h5, h6] at hz; cases hz
    rcases h7 : o.R.iter with e | l7
    · rw [h1, h2, h3, h4, h5, h6, h7] at hz; cases hz
    rw [h1, h2, h3, h4, h5, h6, h7] at hz
    cases hz
    refine List.mem_of_getElem? (i := k) ?_
    simp only [List.getElem?_zip_eq_some]
    exact ⟨get h1 k1, get h2 k2, get h3 k3, get h4 k4, get h5 k5, get h6 k6, get h7 k7⟩
  exact loop_needs rows _ _ _ _ _ _ _ _ h _ hrow

/-- C137, ragged observations: without a control sequence, a list of observations whose rows differ in shape raises ValueError before any row is
processed - even though `filter` accepts it when a control sequence is given. -/
theorem C137_ragged (o : PyFilter F) (l : List (PyVal F)) (rows : List (Arr F)) (h : List.Forall₂ PyVal.Is l rows) (r t : Arr F) (hr : r ∈ rows) (ht : t ∈ rows)
    (hne : r.shape ≠ t.shape) : (PyFilter.filter (.list l) none).run o = (.error .valueError, o) := by
  have : (PySeq.list l).fullLikeNan = .error .valueError := by
    simp only [PySeq.fullLikeNan, mapM_is h, Except.bind_ok']
    exact if_neg fun hall => hne (hall r hr t ht)
  simp only [PyFilter.filter, Py.run_bind, Py.run_self, Py.run_lift, PySeq.len, PySeq.checkNone, this]
  rfl

/-! ## C138 -/

/-- C138, `filter` of the extended class: with lists or numbers in place of rows of `Q`, `R`, `Z`, `U`, of the initial covariance, or of what the
callbacks `f` and `h` return, the call does exactly what it does with the arrays they stand for - provided the Jacobians return arrays and
observation and predicted observation are not both lists. -/
theorem C138_filter (o : PyExtFilter F) (kf : ExtendedKalmanFilter F) (h : o.Is kf) (Z : PySeq F) (Z' : NDArray F) (hZ : Z.Is Z') (U : Option (PySeq F))
    (U' : NDArray F) (hU : Z.ControlIs U U') (hs : ∀ k z v y, Z.item k = .ok z → o.h v = .ok y → z.Subtractable y) :
    (PyExtFilter.filter Z U).run o = (((ExtendedKalmanFilter.filter Z' (some U')).run kf).1,
      { o with kalmanGains := ((ExtendedKalmanFilter.filter Z' (some U')).run kf).2.kalmanGains }) :=
  PyExtFilter.filter_is h hZ hU hs

/-- C138, `smooth` of the extended class. -/
theorem C138_smooth (o : PyExtFilter F) (kf : ExtendedKalmanFilter F) (h : o.Is kf) (Z : PySeq F) (Z' : NDArray F) (hZ : Z.Is Z') (U : Option (PySeq F))
    (U' : NDArray F) (hU : Z.ControlIs U U') (hs : ∀ k z v y, Z.item k = .ok z → o.h v = .ok y → z.Subtractable y) :
    (PyExtFilter.smooth Z U).run o = (((ExtendedKalmanFilter.smooth Z' (some U')).run kf).1,
      { o with kalmanGains := ((ExtendedKalmanFilter.smooth Z' (some U')).run kf).2.kalmanGains }) :=
  PyExtFilter.smooth_is h hZ hU hs

/-- C138, failures of `predict`: a Jacobian `A` that is a list or a number raises AttributeError (unless `f` raises first). -/
theorem C138_jacobian_A (o : PyExtFilter F) (xk : PyVal F) (uk : Option (PyVal F)) (Pk Qk a x : PyVal F) (ha : o.jacobianA xk uk = .ok a)
    (hf : o.f xk uk = .ok x) (h : a.isArr = false) : PyExtFilter.predict o xk uk Pk Qk = .error .attributeError := by
  simp only [PyExtFilter.predict, ha, hf, Except.bind_ok', PyFilter.predictCov, PyVal.T_err h]
  rfl

/-- C138, failures of `update`: a Jacobian `H` that is a list raises AttributeError and nothing is recorded. -/
theorem C138_jacobian_H (o : PyExtFilter F) (xk Pk zk Rk a : PyVal F) (ha : o.jacobianH xk = .ok a) (h : a.isArr = false) :
    (PyExtFilter.update xk Pk zk Rk).run o = (.error .attributeError, o) := by
  simp only [PyExtFilter.update, Py.run_bind, Py.run_self, Py.run_lift, ha, PyFilter.gain, PyVal.T_err h]
  rfl

/-- C138, failures of `update`: an observation and a predicted observation that are both lists raise TypeError - after the gain was recorded. -/
theorem C138_lists_clash (o : PyExtFilter F) (xk Pk zk Rk a y : PyVal F) (K : Arr F) (ha : o.jacobianH xk = .ok a) (hK : PyFilter.gain a Pk Rk = .ok K)
    (hy : o.h xk = .ok y) (h : ¬ zk.Subtractable y) :
    (PyExtFilter.update xk Pk zk Rk).run o = (.error .typeError, { o with kalmanGains := o.kalmanGains ++ [K] }) := by
  simp only [PyExtFilter.update, Py.run_bind, Py.run_self, Py.run_lift, ha, hK, Py.run_mutate, PyExtFilter.correct, hy, Except.bind_ok', PyVal.sub_err h]
  rfl

/-! ### examples -/

/-- A random walk given by Python numbers and lists. -/
def Ex.listWalk (F : Type) [Backend F] : PyFilter F where
  A := .nd (.stack [.mat .float64 fun _ _ : Fin 1 => Backend.one, .mat .float64 fun _ _ : Fin 1 => Backend.one])
  xk := .list [(.int64, Backend.zero)]
  B := .list [.nested [[(.float64, Backend.one)]], .nested [[(.float64, Backend.one)]]]
  Pk := .nested [[(.float64, Backend.one)]]
  H := .list [.arr (.mat .float64 fun _ _ : Fin 1 => Backend.one), .arr (.mat .float64 fun _ _ : Fin 1 => Backend.one)]
  Q := .list [.num .float64 Backend.one, .num .int64 Backend.one]
  R := .list [.num .float64 Backend.one, .nested [[(.float64, Backend.one)]]]
  stateSize := 1
  I := Arr.identity 1
  kalmanGains := []

/-- The arrays it stands for. -/
def Ex.arrayWalk (F : Type) [Backend F] : KalmanFilter F where
  A := .stack [.mat .float64 fun _ _ : Fin 1 => Backend.one, .mat .float64 fun _ _ : Fin 1 => Backend.one]
  xk := .vec .int64 fun i : Fin 1 => ([(DType.int64, (Backend.zero : F))].get i).2
  B := .stack [.mat .float64 fun i j : Fin 1 => (([[(DType.float64, (Backend.one : F))]].get i).get (j.cast (by simp))).2,
    .mat .float64 fun i j : Fin 1 => (([[(DType.float64, (Backend.one : F))]].get i).get (j.cast (by simp))).2]
  Pk := .mat .float64 fun i j : Fin 1 => (([[(DType.float64, (Backend.one : F))]].get i).get (j.cast (by simp))).2
  H := .stack [.mat .float64 fun _ _ : Fin 1 => Backend.one, .mat .float64 fun _ _ : Fin 1 => Backend.one]
  Q := .stack [.scalar .float64 Backend.one, .scalar .int64 Backend.one]
  R := .stack [.scalar .float64 Backend.one, .mat .float64 fun i j : Fin 1 => (([[(DType.float64, (Backend.one : F))]].get i).get (j.cast (by simp))).2]
  stateSize := 1
  I := Arr.identity 1
  kalmanGains := []

/-- One-element lists. -/
theorem Ex.nested_one (x : F) : (PyVal.nested [[(.float64, x)]]).Is (.mat .float64 fun i j : Fin 1 => (([[(DType.float64, x)]].get i).get (j.cast (by simp))).2) := by
  simp only [PyVal.Is, PyVal.asarray]
  rw [dif_pos (by simp)]
  rfl

theorem Ex.listWalk_is : (Ex.listWalk F).Is (Ex.arrayWalk F) where
  A := rfl
  xk := rfl
  B := ⟨_, rfl, .cons (Ex.nested_one _) (.cons (Ex.nested_one _) .nil)⟩
  Pk := Ex.nested_one _
  H := ⟨_, rfl, .cons rfl (.cons rfl .nil)⟩
  Q := ⟨_, rfl, .cons rfl (.cons rfl .nil)⟩
  R := ⟨_, rfl, .cons rfl (.cons (Ex.nested_one _) .nil)⟩
  size := rfl
  ident := rfl
  gains := rfl

/-- It meets the hypotheses of `C136_filter`, `C136_smooth` and `C136_no_control`. -/
example (z w : F) : (Ex.listWalk F).A.OfArrays ∧ (Ex.listWalk F).H.OfArrays ∧
    (PySeq.list [PyVal.num .float64 z, .num .float64 w]).Is (.stack [.scalar .float64 z, .scalar .float64 w]) := by
  refine ⟨trivial, ?_, _, rfl, .cons rfl (.cons rfl .nil)⟩
  intro v hv
  simp only [Ex.listWalk, List.mem_cons, List.not_mem_nil, or_false, or_self] at hv
  subst hv; rfl

/-- ... and with a control sequence of arrays. -/
example (u : Arr F) : (Ex.listWalk F).B.OneArray (.nd (.stack [u, u])) := fun _ _ _ _ h =>
  .inr (PySeq.OfArrays.item (s := .nd (.stack [u, u])) trivial h)

/-- Two observations, no control. -/
example (z w : F) : ((PyFilter.filter (.list [PyVal.num .float64 z, .num .float64 w]) none).run (Ex.listWalk F)).1 =
    ((KalmanFilter.filter (.stack [.scalar .float64 z, .scalar .float64 w]) none).run (Ex.arrayWalk F)).1 := by
  have hZ : (PySeq.list [PyVal.num .float64 z, .num .float64 w]).Is (.stack [.scalar .float64 z, .scalar .float64 w]) := ⟨_, rfl, .cons rfl (.cons rfl .nil)⟩
  exact congrArg Prod.fst (C136_no_control (Ex.listWalk F) (Ex.arrayWalk F) Ex.listWalk_is trivial (fun v hv => by
    simp only [List.mem_cons, List.not_mem_nil, or_false, or_self] at hv
    subst hv; rfl) _ _ hZ [] .float64 (by simp [Arr.shape]) (by simp [Arr.dtype])).1

/-- Two lists `B` and `u`. -/
example (hn : Backend.isnan (Backend.one : F) = false) (Pk Qk : PyVal F) (ax : Arr F)
    (hax : (Arr.mat .float64 fun _ _ : Fin 1 => (Backend.one : F)).matmul (.vec .float64 fun _ : Fin 1 => Backend.zero) = .ok ax) :
    PyFilter.predict (.arr (.mat .float64 fun _ _ : Fin 1 => (Backend.one : F))) (.arr (.vec .float64 fun _ : Fin 1 => Backend.zero))
      (some (.nested [[(.float64, Backend.one)]])) (some (.list [(.float64, Backend.one)])) Pk Qk = .error .typeError := by
  refine C137_predict_control _ _ ax hax _ (.list [(.float64, Backend.one)]) _ (.vec .float64 fun i : Fin 1 => ([(DType.float64, (Backend.one : F))].get i).2)
    (Ex.nested_one _) rfl rfl rfl (fun h => ?_) (fun h => ?_) _ _
  · have := (h 0 0).2
    simp [hn] at this
  · have := (h 0).2
    simp [hn] at this

/-- A ragged list of observations: a number and a list. -/
example (o : PyFilter F) (z : F) : (PyFilter.filter (.list [.num .float64 z, .list [(.float64, z)]]) none).run o = (.error .valueError, o) :=
  C137_ragged o _ [_, _] (.cons rfl (.cons rfl .nil)) _ _ (List.mem_cons_self ..) (List.mem_cons_of_mem _ (List.mem_cons_self ..)) (by simp [Arr.shape])

/-- An extended filter whose callbacks return Python lists. -/
def Ex.listExt (F : Type) [Backend F] : PyExtFilter F where
  f _ _ := .ok (.list [(.float64, Backend.one), (.int64, Backend.zero)])
  jacobianA _ _ := .ok (.arr (Arr.identity 2))
  xk := .arr (.vec .float64 fun _ : Fin 2 => Backend.zero)
  Pk := .arr (Arr.identity 2)
  h _ := .ok (.list [(.float64, Backend.one)])
  jacobianH _ := .ok (.arr (.mat .float64 fun (_ : Fin 1) (_ : Fin 2) => Backend.one))
  Q := .list [.num .float64 Backend.one]
  R := .list [.num .float64 Backend.one]
  stateSize := 2
  I := Arr.identity 2
  kalmanGains := []

/-- The arrays it stands for; with array observations it meets the hypotheses of `C138_filter` and `C138_smooth`. -/
example (z : Arr F) : ∃ kf : ExtendedKalmanFilter F, (Ex.listExt F).Is kf ∧
    ∀ k w v y, (PySeq.nd (.stack [z])).item k = .ok w → (Ex.listExt F).h v = .ok y → w.Subtractable y := by
  refine ⟨{ f := fun _ _ => .ok (.vec .float64 fun i : Fin 2 => ([(DType.float64, (Backend.one : F)), (.int64, Backend.zero)].get i).2),
            jacobianA := fun _ _ => .ok (Arr.identity 2), xk := .vec .float64 fun _ : Fin 2 => Backend.zero, Pk := Arr.identity 2,
            h := fun _ => .ok (.vec .float64 fun i : Fin 1 => ([(DType.float64, (Backend.one : F))].get i).2),
            jacobianH := fun _ => .ok (.mat .float64 fun (_ : Fin 1) (_ : Fin 2) => Backend.one), Q := .stack [.scalar .float64 Backend.one],
            R := .stack [.scalar .float64 Backend.one], stateSize := 2, I := Arr.identity 2, kalmanGains := [] }, ?_, ?_⟩
  · exact ⟨rfl, rfl, ⟨_, rfl, .cons rfl .nil⟩, ⟨_, rfl, .cons rfl .nil⟩, rfl, rfl, rfl, fun _ _ _ _ _ _ => rfl, fun _ _ _ _ _ _ => rfl, fun _ _ _ => rfl,
      fun _ _ _ => rfl⟩
  · intro k w v y hw _
    have := PySeq.OfArrays.item (s := .nd (.stack [z])) trivial hw
    cases w <;> first | trivial | simp [PyVal.isArr] at this

/-- With a list as observation the same filter raises TypeError once the gain is known. -/
example (xk Pk Rk : PyVal F) (z : F) (K : Arr F) (hK : PyFilter.gain (.arr (.mat .float64 fun (_ : Fin 1) (_ : Fin 2) => Backend.one)) Pk Rk = .ok K) :
    (PyExtFilter.update xk Pk (.list [(.float64, z)]) Rk).run (Ex.listExt F) = (.error .typeError, { Ex.listExt F with kalmanGains := [] ++ [K] }) :=
  C138_lists_clash _ _ _ _ _ _ _ K rfl hK rfl (fun h => h)

end KK
