import Verif.Proofs.Lists

/-! # Lists behave like the arrays they stand for: the extended class -/

set_option linter.unusedSectionVars false

namespace KK

variable {F : Type}

theorem ResultIs.cases {r : Except PyErr (PyVal F)} {s : Except PyErr (Arr F)} (h : ResultIs r s) :
    (∃ e, r = .error e ∧ s = .error e) ∨ ∃ v a, r = .ok v ∧ s = .ok a ∧ v.Is a := by
  rcases r with e | v <;> rcases s with e' | a
  · cases h; exact .inl ⟨e, rfl, rfl⟩
  · exact h.elim
  · exact h.elim
  · exact .inr ⟨v, a, rfl, rfl, h⟩

theorem SameArray.cases {r : Except PyErr (PyVal F)} {s : Except PyErr (Arr F)} (h : SameArray r s) :
    (∃ e, r = .error e ∧ s = .error e) ∨ ∃ a, r = .ok (.arr a) ∧ s = .ok a := by
  rcases r with e | v <;> rcases s with e' | a
  · cases h; exact .inl ⟨e, rfl, rfl⟩
  · exact h.elim
  · exact h.elim
  · obtain rfl : v = .arr a := h; exact .inr ⟨a, rfl, rfl⟩

namespace PyExtFilter

open PyVal

variable [Backend F]

/-- The part of `Is` that no method call changes. -/
structure Same (o : PyExtFilter F) (kf : ExtendedKalmanFilter F) : Prop where
  size : o.stateSize = kf.stateSize
  ident : o.I = kf.I
  f : ∀ v a w b, v.Is a → w.Is b → ResultIs (o.f v (some w)) (kf.f a (some b))
  jacobianA : ∀ v a w b, v.Is a → w.Is b → SameArray (o.jacobianA v (some w)) (kf.jacobianA a (some b))
  h : ∀ v a, v.Is a → ResultIs (o.h v) (kf.h a)
  jacobianH : ∀ v a, v.Is a → SameArray (o.jacobianH v) (kf.jacobianH a)

theorem Is.same {o : PyExtFilter F} {kf : ExtendedKalmanFilter F} (h : o.Is kf) : o.Same kf := ⟨h.size, h.ident, h.f, h.jacobianA, h.h, h.jacobianH⟩

theorem predict_is {o : PyExtFilter F} {kf : ExtendedKalmanFilter F} (h : o.Same kf) {xk uk Pk Qk : PyVal F} {x u p q : Arr F} (hx : xk.Is x) (hu : uk.Is u)
    (hP : Pk.Is p) (hQ : Qk.Is q) :
    (∃ e, predict o xk (some uk) Pk Qk = .error e ∧ ExtendedKalmanFilter.predict kf x (some u) p q = .error e) ∨
      ∃ v xp Pp, predict o xk (some uk) Pk Qk = .ok (v, Pp) ∧ ExtendedKalmanFilter.predict kf x (some u) p q = .ok (xp, Pp) ∧ v.Is xp ∧
        o.f xk (some uk) = .ok v := by
  simp only [predict, ExtendedKalmanFilter.predict]
  rcases (h.jacobianA _ _ _ _ hx hu).cases with ⟨e, h1, h1'⟩ | ⟨a, h1, h1'⟩
  · exact .inl ⟨e, by simp only [h1]; rfl, by simp only [h1']; rfl⟩
  rcases (h.f _ _ _ _ hx hu).cases with ⟨e, h2, h2'⟩ | ⟨v, xp, h2, h2', hv⟩
  · exact .inl ⟨e, by simp only [h1, h2]; rfl, by simp only [h1', h2']; rfl⟩
  simp only [h1, h1', h2, h2', Except.bind_ok', PyFilter.predictCov_is (PyVal.Is.arr a) rfl hP hQ]
  rcases p.matmul a.T with e | pat
  · exact .inl ⟨e, rfl, rfl⟩
  simp only [Except.bind_ok']
  rcases a.matmul pat with e | apat
  · exact .inl ⟨e, rfl, rfl⟩
  simp only [Except.bind_ok']
  rcases apat.add q with e | Pp
  · exact .inl ⟨e, rfl, rfl⟩
  exact .inr ⟨v, xp, Pp, rfl, rfl, hv, rfl⟩

/-- `zk - h(xk)` exists in Python (asked only if `h` returns). -/
def ResidualOk (o : PyExtFilter F) (xk zk : PyVal F) : Prop := ∀ y, o.h xk = .ok y → zk.Subtractable y

theorem correct_is {o : PyExtFilter F} {kf : ExtendedKalmanFilter F} (h : o.Same kf) {K H p : Arr F} {xk zk : PyVal F} {x z : Arr F} (hx : xk.Is x)
    (hz : zk.Is z) (hs : o.ResidualOk xk zk) : correct o K (.arr H) xk (.arr p) zk = ExtendedKalmanFilter.correct kf K H x p z := by
  simp only [correct, ExtendedKalmanFilter.correct, show xk.asarray = .ok x from hx, show (PyVal.arr H).asarray = .ok H from rfl,
    show (PyVal.arr p).asarray = .ok p from rfl, Except.bind_ok', h.ident]
  rcases (h.h _ _ hx).cases with ⟨e, h1, h1'⟩ | ⟨y, b, h1, h1', hy⟩
  · simp only [h1, h1']; rfl
  simp only [h1, h1', Except.bind_ok', hz.sub hy (hs y h1)]

/-- What a method call on the object with lists does, given what the call on arrays does. -/
def withGains (o : PyExtFilter F) {α : Type} (r : Except PyErr α × ExtendedKalmanFilter F) : Except PyErr α × PyExtFilter F :=
  (r.1, { o with kalmanGains := r.2.kalmanGains })

theorem Same.gains {o : PyExtFilter F} {kf : ExtendedKalmanFilter F} (h : o.Same kf) (g : List (Arr F)) :
    ({ o with kalmanGains := g } : PyExtFilter F).Same { kf with kalmanGains := g } := ⟨h.size, h.ident, h.f, h.jacobianA, h.h, h.jacobianH⟩

theorem update_is {o : PyExtFilter F} {kf : ExtendedKalmanFilter F} (h : o.Same kf) (hg : o.kalmanGains = kf.kalmanGains) {p : Arr F} {xk zk Rk : PyVal F}
    {x z r : Arr F} (hx : xk.Is x) (hz : zk.Is z) (hR : Rk.Is r) (hs : o.ResidualOk xk zk) :
    (update xk (.arr p) zk Rk).run o = o.withGains ((ExtendedKalmanFilter.update x p z r).run kf) := by
  simp only [update, ExtendedKalmanFilter.update, Py.run_bind, Py.run_self, Py.run_lift]
  rcases (h.jacobianH _ _ hx).cases with ⟨e, h1, h1'⟩ | ⟨H, h1, h1'⟩
  · simp only [h1, h1', withGains, ← hg]
  simp only [h1, h1', PyFilter.gain_is (PyVal.Is.arr H) rfl hR, ext_gain_eq]
  rcases KalmanFilter.gain H p r with e | K
  · simp only [withGains, ← hg]
  simp only [Py.run_mutate, correct_is h hx hz hs, withGains, hg]

/-- One row of the `zip`. -/
def RowIs (r : Row F) (r' : ExtendedKalmanFilter.Row F) : Prop :=
  r.1.Is r'.1 ∧ r.2.1.Is r'.2.1 ∧ r.2.2.1.Is r'.2.2.1 ∧ r.2.2.2.Is r'.2.2.2

theorem loop_is {rows : List (Row F)} {rows' : List (ExtendedKalmanFilter.Row F)} (h : List.Forall₂ RowIs rows rows') :
    ∀ (k : ℕ) (o : PyExtFilter F) (kf : ExtendedKalmanFilter F) (xk Pk : PyVal F) (x p : Arr F) (s e : List (Arr F)), o.Same kf →
      o.kalmanGains = kf.kalmanGains → (∀ r ∈ rows, ∀ v, o.ResidualOk v r.2.1) → xk.Is x → Pk.Is p →
      (filterLoop k rows xk Pk s e).run o = o.withGains ((ExtendedKalmanFilter.filterLoop k rows' x p s e).run kf) := by
  induction h with
  | nil =>
    intro k o kf xk Pk x p s e h h3 _ hx hP
    simp only [filterLoop, ExtendedKalmanFilter.filterLoop, withGains, Py.pure, ← h3]
  | @cons r r' rows rows' hr hrs ih =>
    intro k o kf xk Pk x p s e h h3 hs hx hP
    obtain ⟨uk, zk, Qk, Rk⟩ := r
    obtain ⟨uk', zk', Qk', Rk'⟩ := r'
    obtain ⟨hu, hz, hQ, hR⟩ := hr
    simp only at hu hz hQ hR
    simp only [filterLoop, ExtendedKalmanFilter.filterLoop, Py.run_bind, Py.run_self, Py.run_lift]
    rcases predict_is h hx hu hP hQ with ⟨er, h1, h1'⟩ | ⟨v, xp, Pp, h1, h1', hv, -⟩
    · simp only [h1, h1', withGains, ← h3]
    simp only [h1, h1', update_is h h3 hv hz hR (hs _ (List.mem_cons_self ..) v)]
    rcases hup : (ExtendedKalmanFilter.update xp Pp zk' Rk').run kf with ⟨er | ⟨x', P'⟩, kf'⟩
    · rfl
    obtain ⟨g, rfl⟩ : ∃ g, kf' = { kf with kalmanGains := g } := by
      simp only [ExtendedKalmanFilter.update, Py.run_bind, Py.run_self, Py.run_lift] at hup
      rcases hH : kf.jacobianH xp with er | H
      · simp [hH] at hup
      simp only [hH] at hup
      rcases hK : ExtendedKalmanFilter.gain H Pp Rk' with er | K
      · simp [hK] at hup
      simp only [hK, Py.run_mutate, Prod.mk.injEq] at hup
      exact ⟨_, hup.2.symm⟩
    simp only [withGains, h.size]
    rcases x'.assignVec kf.stateSize with er | sr
    · rfl
    simp only
    rcases P'.assignMat kf.stateSize with er | er
    · rfl
    simp only
    have := ih (k + 1) { o with kalmanGains := g } { kf with kalmanGains := g } (.arr x') (.arr P') x' P' (s.set k sr) (e.set k er) (h.gains g) rfl
      (fun r hr => hs r (List.mem_cons_of_mem _ hr)) rfl rfl
    simp only [h.size] at this
    rw [this]
    rfl

theorem zip_is {U Z Q R : PySeq F} {U' Z' Q' R' : NDArray F} (hU : U.Is U') (hZ : Z.Is Z') (hQ : Q.Is Q') (hR : R.Is R') :
    (∃ e, zipRows U Z Q R = .error e ∧ ExtendedKalmanFilter.zipRows U' Z' Q' R' = .error e) ∨
      ∃ rows rows', zipRows U Z Q R = .ok rows ∧ ExtendedKalmanFilter.zipRows U' Z' Q' R' = .ok rows' ∧ List.Forall₂ RowIs rows rows' ∧
        ∀ r ∈ rows, ∃ k, Z.item k = .ok r.2.1 := by
  rcases hU.iter with ⟨e, h4, h4'⟩ | ⟨lU, lU', h4, h4', fU⟩
  · exact .inl ⟨e, by simp only [zipRows, h4]; rfl, by simp only [ExtendedKalmanFilter.zipRows, h4']; rfl⟩
  rcases hZ.iter with ⟨e, h5, h5'⟩ | ⟨lZ, lZ', h5, h5', fZ⟩
  · exact .inl ⟨e, by simp only [zipRows, h4, h5]; rfl, by simp only [ExtendedKalmanFilter.zipRows, h4', h5']; rfl⟩
  rcases hQ.iter with ⟨e, h6, h6'⟩ | ⟨lQ, lQ', h6, h6', fQ⟩
  · exact .inl ⟨e, by simp only [zipRows, h4, h5, h6]; rfl, by simp only [ExtendedKalmanFilter.zipRows, h4', h5', h6']; rfl⟩
  rcases hR.iter with ⟨e, h7, h7'⟩ | ⟨lR, lR', h7, h7', fR⟩
  · exact .inl ⟨e, by simp only [zipRows, h4, h5, h6, h7]; rfl, by simp only [ExtendedKalmanFilter.zipRows, h4', h5', h6', h7']; rfl⟩
  refine .inr ⟨_, _, by simp only [zipRows, h4, h5, h6, h7]; rfl, by simp only [ExtendedKalmanFilter.zipRows, h4', h5', h6', h7']; rfl, ?_, ?_⟩
  · have get : ∀ {l : List (PyVal F)} {l' : List (Arr F)}, List.Forall₂ PyVal.Is l l' → ∀ {k : ℕ} {v : PyVal F} {a : Arr F},
        l[k]? = some v → l'[k]? = some a → v.Is a := by
      intro l l' h k v a h1 h2
      obtain ⟨k1, rfl⟩ := List.getElem?_eq_some_iff.1 h1
      obtain ⟨k2, rfl⟩ := List.getElem?_eq_some_iff.1 h2
      exact h.get k1 k2
    refine List.forall₂_iff_get.2 ⟨by simp [fU.length_eq, fZ.length_eq, fQ.length_eq, fR.length_eq], ?_⟩
    intro k hk hk'
    obtain ⟨r, hr⟩ : ∃ r, r = (lU.zip (lZ.zip (lQ.zip lR))).get ⟨k, hk⟩ := ⟨_, rfl⟩
    obtain ⟨r', hr'⟩ : ∃ r, r = (lU'.zip (lZ'.zip (lQ'.zip lR'))).get ⟨k, hk'⟩ := ⟨_, rfl⟩
    rw [← hr, ← hr']
    have e1 : (lU.zip (lZ.zip (lQ.zip lR)))[k]? = some r := by rw [hr]; exact List.getElem?_eq_getElem hk
    have e2 : (lU'.zip (lZ'.zip (lQ'.zip lR')))[k]? = some r' := by rw [hr']; exact List.getElem?_eq_getElem hk'
    obtain ⟨r4, r5, r6, r7⟩ := r
    obtain ⟨s4, s5, s6, s7⟩ := r'
    simp only [List.getElem?_zip_eq_some] at e1 e2
    obtain ⟨a4, a5, a6, a7⟩ := e1
    obtain ⟨b4, b5, b6, b7⟩ := e2
    exact ⟨get fU a4 b4, get fZ a5 b5, get fQ a6 b6, get fR a7 b7⟩
  · rintro ⟨r4, r5, r6, r7⟩ hr
    obtain ⟨k, hk⟩ := List.mem_iff_getElem?.1 hr
    simp only [List.getElem?_zip_eq_some] at hk
    exact ⟨k, PySeq.iter_get h5 hk.2.1⟩

/-- `filter` on lists. -/
theorem filter_is {o : PyExtFilter F} {kf : ExtendedKalmanFilter F} (h : o.Is kf) {Z : PySeq F} {Z' : NDArray F} (hZ : Z.Is Z')
    {U : Option (PySeq F)} {U' : NDArray F} (hU : Z.ControlIs U U') (hs : ∀ k z v y, Z.item k = .ok z → o.h v = .ok y → z.Subtractable y) :
    (filter Z U).run o = o.withGains ((ExtendedKalmanFilter.filter Z' (some U')).run kf) := by
  obtain ⟨V, hV, hVU, -, -⟩ := PyFilter.control_is hU
  simp only [filter, ExtendedKalmanFilter.filter, Py.run_bind, Py.run_self, Py.run_lift, hZ.len, hV, checkNoneAndBroadcast]
  rcases Z'.len with e | n
  · simp only [withGains, ← h.gains]
  simp only [h.size]
  rcases zip_is hVU hZ h.Q h.R with ⟨e, h1, h2⟩ | ⟨rows, rows', h1, h2, hr, hr'⟩
  · simp only [h1, h2, withGains, ← h.gains]
  · simp only [h1, h2]
    refine loop_is hr 0 o kf _ _ _ _ _ _ h.same h.gains (fun r hr v y hy => ?_) h.xk h.Pk
    obtain ⟨k, hk⟩ := hr' r hr
    exact hs k _ v y hk hy

theorem smoothStep_is {o : PyExtFilter F} {kf : ExtendedKalmanFilter F} (h : o.Same kf) {x p xn pn : Arr F} {Qk uk : PyVal F} {q u : Arr F} (hQ : Qk.Is q)
    (hu : uk.Is u) : smoothStep o x p Qk uk xn pn = ExtendedKalmanFilter.smoothStep kf x p q u xn pn := by
  simp only [smoothStep, ExtendedKalmanFilter.smoothStep]
  rcases predict_is h (PyVal.Is.arr x) hu (PyVal.Is.arr p) hQ with ⟨er, h1, h1'⟩ | ⟨v, xp, Pp, h1, h1', hv, -⟩
  · simp only [h1, h1']; rfl
  simp only [h1, h1', Except.bind_ok']
  rcases (h.jacobianA _ _ _ _ (PyVal.Is.arr x) hu).cases with ⟨e, h2, h2'⟩ | ⟨a, h2, h2'⟩
  · simp only [h2, h2']; rfl
  simp only [h2, h2', Except.bind_ok', PyVal.T, show v.asarray = .ok xp from hv]

theorem smoothLoop_is {o : PyExtFilter F} {kf : ExtendedKalmanFilter F} (h : o.Same kf) {Q U : PySeq F} {Q' U' : NDArray F} (hQ : Q.Is Q') (hU : U.Is U')
    (xE PE : List (Arr F)) (ks : List ℕ) : ∀ xs Ps, smoothLoop o Q U xE PE ks xs Ps = ExtendedKalmanFilter.smoothLoop kf Q' U' xE PE ks xs Ps := by
  induction ks with
  | nil => exact fun _ _ => rfl
  | cons k ks ih =>
    intro xs Ps
    simp only [smoothLoop, ExtendedKalmanFilter.smoothLoop]
    rcases hQ.item (k + 1) with ⟨e, h2, h2'⟩ | ⟨vQ, rQ, h2, h2', iQ⟩
    · simp only [h2, h2']; rfl
    rcases hU.item (k + 1) with ⟨e, h4, h4'⟩ | ⟨vU, rU, h4, h4', iU⟩
    · simp only [h2, h2', h4, h4']; rfl
    simp only [h2, h2', h4, h4', Except.bind_ok', smoothStep_is h iQ iU, ih, h.size]

/-- `smooth` on lists. -/
theorem smooth_is {o : PyExtFilter F} {kf : ExtendedKalmanFilter F} (h : o.Is kf) {Z : PySeq F} {Z' : NDArray F} (hZ : Z.Is Z')
    {U : Option (PySeq F)} {U' : NDArray F} (hU : Z.ControlIs U U') (hs : ∀ k z v y, Z.item k = .ok z → o.h v = .ok y → z.Subtractable y) :
    (smooth Z U).run o = o.withGains ((ExtendedKalmanFilter.smooth Z' (some U')).run kf) := by
  obtain ⟨V, hV, hVU, -, -⟩ := PyFilter.control_is hU
  simp only [smooth, ExtendedKalmanFilter.smooth, Py.run_bind, filter_is h hZ hU hs]
  rcases hr : (ExtendedKalmanFilter.filter Z' (some U')).run kf with ⟨e | ⟨xE, PE⟩, kf'⟩
  · rfl
  obtain ⟨g, rfl⟩ : ∃ g, kf' = { kf with kalmanGains := g } := by
    obtain ⟨g, hg⟩ := ExtendedKalmanFilter.filter_state Z' (some U') kf
    rw [hr] at hg
    exact ⟨_, hg⟩
  simp only [withGains, Py.run_self, Py.run_lift, hZ.len, hV, checkNoneAndBroadcast]
  rcases Z'.len with e | n
  · rfl
  simp only [h.size]
  rcases (if n = 0 then Except.error PyErr.indexError else getRow xE (n - 1)) with e | xl
  · rfl
  simp only
  rcases (if n = 0 then Except.error PyErr.indexError else getRow PE (n - 1)) with e | Pl
  · rfl
  simp only
  rcases xl.assignVec kf.stateSize with e | xr
  · rfl
  simp only
  rcases Pl.assignMat kf.stateSize with e | Pr
  · rfl
  have := smoothLoop_is (h.same.gains g) h.Q hVU xE PE (List.range (n - 1)).reverse
    ((List.replicate n (Arr.zerosVec kf.stateSize)).set (n - 1) xr) ((List.replicate n (Arr.zerosMat kf.stateSize)).set (n - 1) Pr)
  simp only [h.size] at this
  simp only [this]

end PyExtFilter

end KK
