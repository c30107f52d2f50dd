import Verif.Spec.Lists
import Verif.Proofs.Trace
import Verif.Proofs.Layout
import Verif.Proofs.Back

/-! # Lists behave like the arrays they stand for -/

set_option linter.unusedSectionVars false

namespace KK

variable {F : Type}

namespace PyVal

theorem Is.arr (a : Arr F) : (PyVal.arr a).Is a := rfl

theorem Is.eq_arr {v : PyVal F} {a : Arr F} (h : v.Is a) (hv : v.isArr = true) : v = .arr a := by
  cases v <;> simp_all [isArr, Is, asarray]

theorem is_arr_iff {b a : Arr F} : (PyVal.arr b).Is a ↔ b = a := by simp [Is, asarray]

theorem Is.T {v : PyVal F} {a : Arr F} (h : v.Is a) (hv : v.isArr = true) : v.T = .ok a.T := by
  rw [h.eq_arr hv]; rfl

theorem T_err {v : PyVal F} (hv : v.isArr = false) : v.T = .error .attributeError := by
  cases v <;> simp_all [isArr, PyVal.T]

variable [Backend F]

theorem Is.matmul {v w : PyVal F} {a b : Arr F} (hv : v.Is a) (hw : w.Is b) (h : v.isArr = true ∨ w.isArr = true) : v.matmul w = a.matmul b := by
  have : (v.isArr || w.isArr) = true := by rcases h with h | h <;> simp [h]
  simp only [PyVal.matmul, this, show v.asarray = .ok a from hv, show w.asarray = .ok b from hw, Except.bind_ok']

theorem matmul_err {v w : PyVal F} (hv : v.isArr = false) (hw : w.isArr = false) : v.matmul w = .error .typeError := by
  simp [PyVal.matmul, hv, hw]

theorem Is.sub {v w : PyVal F} {a b : Arr F} (hv : v.Is a) (hw : w.Is b) (h : v.Subtractable w) : v.sub w = a.sub b := by
  have hv' : v.asarray = .ok a := hv
  have hw' : w.asarray = .ok b := hw
  cases v with
  | arr x =>
    obtain rfl := is_arr_iff.1 hv
    simp only [PyVal.sub, hw', Except.bind_ok']
  | num d x =>
    cases w with
    | arr y =>
      obtain rfl := is_arr_iff.1 hw
      simp only [PyVal.sub, hv', Except.bind_ok']
    | num e y =>
      simp only [asarray, Except.ok.injEq] at hv' hw'
      subst hv' hw'
      rfl
    | list l => exact h.elim
    | nested l => exact h.elim
  | list l =>
    cases w with
    | arr y =>
      obtain rfl := is_arr_iff.1 hw
      simp only [PyVal.sub, hv', Except.bind_ok']
    | _ => exact h.elim
  | nested l =>
    cases w with
    | arr y =>
      obtain rfl := is_arr_iff.1 hw
      simp only [PyVal.sub, hv', Except.bind_ok']
    | _ => exact h.elim

theorem sub_err {v w : PyVal F} (h : ¬ v.Subtractable w) : v.sub w = .error .typeError := by
  cases v <;> cases w <;> first | rfl | exact (h trivial).elim

theorem Is.isNanAll {v : PyVal F} {a : Arr F} (h : v.Is a) : PyVal.isNanAll (some v) = .ok a.isnanAll := by
  simp only [PyVal.isNanAll, show v.asarray = .ok a from h, Except.bind_ok']

theorem Subtractable.right (v : PyVal F) (a : Arr F) : v.Subtractable (.arr a) := by cases v <;> trivial

end PyVal

namespace PySeq

theorem Is.len {s : PySeq F} {a : NDArray F} (h : s.Is a) : s.len = a.len := by
  cases s with
  | nd b => cases h; rfl
  | list l =>
    obtain ⟨rows, rfl, h⟩ := h
    simp [PySeq.len, NDArray.len, h.length_eq]

theorem forall₂_arr (l : List (Arr F)) : List.Forall₂ PyVal.Is (l.map .arr) l := by
  induction l with
  | nil => exact .nil
  | cons a l ih => exact .cons rfl ih

/-- Iteration: same exception, or rows that convert to the rows of the array. -/
theorem Is.iter {s : PySeq F} {a : NDArray F} (h : s.Is a) :
    (∃ e, s.iter = .error e ∧ a.iter = .error e) ∨ ∃ l rows, s.iter = .ok l ∧ a.iter = .ok rows ∧ List.Forall₂ PyVal.Is l rows := by
  cases s with
  | nd b =>
    cases h
    cases a with
    | d0 d x => exact .inl ⟨_, rfl, rfl⟩
    | stack rows => exact .inr ⟨_, _, rfl, rfl, forall₂_arr rows⟩
  | list l =>
    obtain ⟨rows, rfl, h⟩ := h
    exact .inr ⟨_, _, rfl, rfl, h⟩

/-- Indexing. -/
theorem Is.item {s : PySeq F} {a : NDArray F} (h : s.Is a) (k : ℕ) :
    (∃ e, s.item k = .error e ∧ a.item k = .error e) ∨ ∃ v r, s.item k = .ok v ∧ a.item k = .ok r ∧ v.Is r := by
  cases s with
  | nd b =>
    cases h
    simp only [PySeq.item]
    rcases a.item k with e | r
    · exact .inl ⟨_, rfl, rfl⟩
    · exact .inr ⟨_, _, rfl, rfl, rfl⟩
  | list l =>
    obtain ⟨rows, rfl, h⟩ := h
    simp only [PySeq.item, NDArray.item]
    rcases hl : l[k]? with _ | v
    · have : rows[k]? = none := by
        rw [List.getElem?_eq_none_iff] at hl ⊢
        rw [← h.length_eq]; exact hl
      exact .inl ⟨_, rfl, by rw [this]⟩
    · obtain ⟨hk, rfl⟩ := List.getElem?_eq_some_iff.1 hl
      have hk' : k < rows.length := by rw [← h.length_eq]; exact hk
      rw [List.getElem?_eq_getElem hk']
      exact .inr ⟨_, _, rfl, rfl, h.get hk hk'⟩

theorem OfArrays.item {s : PySeq F} (h : s.OfArrays) {k : ℕ} {v : PyVal F} (hv : s.item k = .ok v) : v.isArr = true := by
  cases s with
  | nd b =>
    simp only [PySeq.item] at hv
    rcases hb : b.item k with e | r
    · simp [hb] at hv
    · simp only [hb, Except.bind_ok', Except.ok.injEq] at hv
      subst hv; rfl
  | list l =>
    simp only [PySeq.item] at hv
    rcases hl : l[k]? with _ | w
    · simp [hl] at hv
    · simp only [hl, Except.ok.injEq] at hv
      subst hv
      exact h _ (List.mem_of_getElem? hl)

/-- `s[k]` of an iterable sequence is the `k`-th element of the iteration. -/
theorem iter_get {s : PySeq F} {l : List (PyVal F)} (h : s.iter = .ok l) {k : ℕ} {v : PyVal F} (hv : l[k]? = some v) : s.item k = .ok v := by
  cases s with
  | nd b =>
    cases b with
    | d0 d x => simp [PySeq.iter, NDArray.iter] at h
    | stack rows =>
      simp only [PySeq.iter, NDArray.iter, Except.bind_ok', Except.ok.injEq] at h
      subst h
      rw [List.getElem?_map] at hv
      rcases hr : rows[k]? with _ | r
      · simp [hr] at hv
      · simp only [hr, Option.map_some, Option.some.injEq] at hv
        subst hv
        simp only [PySeq.item, NDArray.item, hr, Except.bind_ok']
  | list l' =>
    simp only [PySeq.iter, Except.ok.injEq] at h
    subst h
    simp only [PySeq.item, hv]

end PySeq

/-! ## standard class -/

namespace PyFilter

open PyVal

variable [Backend F]

theorem predictCov_is {Ak Pk Qk : PyVal F} {a p q : Arr F} (hA : Ak.Is a) (hAa : Ak.isArr = true) (hP : Pk.Is p) (hQ : Qk.Is q) :
    predictCov Ak Pk Qk = (do
      let pat ← p.matmul a.T
      let apat ← a.matmul pat
      apat.add q) := by
  simp only [predictCov, hA.T hAa, Except.bind_ok', hP.matmul (Is.arr _) (.inr rfl)]
  rcases p.matmul a.T with e | pat
  · rfl
  simp only [Except.bind_ok', hA.matmul (Is.arr pat) (.inr rfl), show Qk.asarray = .ok q from hQ]

/-- `predict` on lists. -/
theorem predict_is {Ak xk Bk uk Pk Qk : PyVal F} {a x b u p q : Arr F} (hA : Ak.Is a) (hAa : Ak.isArr = true) (hx : xk.Is x) (hB : Bk.Is b) (hu : uk.Is u)
    (hBu : Bk.isArr = true ∨ uk.isArr = true) (hP : Pk.Is p) (hQ : Qk.Is q) :
    predict Ak xk (some Bk) (some uk) Pk Qk = KalmanFilter.predict a x (some b) (some u) p q := by
  simp only [predict, predictMean, hB.isNanAll, hu.isNanAll, Except.bind_ok', predictCov_is hA hAa hP hQ]
  rcases hb : b.isnanAll with _ | _
  · rcases hn : u.isnanAll with _ | _
    · rw [KalmanFilter.predict_ctrl (by rw [hb, hn]; rfl)]
      simp only [hA.matmul hx (.inl hAa), hB.matmul hu hBu, bind_assoc]
    · rw [KalmanFilter.predict_skip (by rw [hb, hn]; rfl)]
      simp only [hA.matmul hx (.inl hAa), bind_assoc]
  · rw [KalmanFilter.predict_skip (by rw [hb]; rfl)]
    simp only [hA.matmul hx (.inl hAa), bind_assoc]

theorem gain_is {Hk Rk : PyVal F} {h r p : Arr F} (hH : Hk.Is h) (hHa : Hk.isArr = true) (hR : Rk.Is r) : gain Hk (.arr p) Rk = KalmanFilter.gain h p r := by
  simp only [gain, KalmanFilter.gain, hH.T hHa, Except.bind_ok', (Is.arr p).matmul (Is.arr _) (.inr rfl)]
  rcases p.matmul h.T with e | pht
  · rfl
  simp only [Except.bind_ok', hH.matmul (Is.arr pht) (.inr rfl), show Rk.asarray = .ok r from hR, PyVal.T, hH.matmul (Is.arr p.T) (.inr rfl)]

theorem correct_is {I K x p : Arr F} {Hk zk : PyVal F} {h z : Arr F} (hH : Hk.Is h) (hHa : Hk.isArr = true) (hz : zk.Is z) :
    correct I K Hk (.arr x) (.arr p) zk = KalmanFilter.correct I K h x p z := by
  simp only [correct, KalmanFilter.correct, hH.matmul (Is.arr x) (.inl hHa), show Hk.asarray = .ok h from hH,
    show (PyVal.arr x).asarray = .ok x from rfl, show (PyVal.arr p).asarray = .ok p from rfl, Except.bind_ok']
  rcases h.matmul x with e | hx
  · rfl
  simp only [Except.bind_ok', hz.sub (Is.arr hx) (Subtractable.right _ _)]

/-- One row of the `zip`: the lists and the arrays. -/
def RowIs (r : Row F) (r' : KalmanFilter.Row F) : Prop :=
  r.1.Is r'.1 ∧ r.1.isArr = true ∧ r.2.1.Is r'.2.1 ∧ r.2.1.isArr = true ∧ r.2.2.1.Is r'.2.2.1 ∧ r.2.2.2.1.Is r'.2.2.2.1 ∧
    (r.2.2.1.isArr = true ∨ r.2.2.2.1.isArr = true) ∧ r.2.2.2.2.1.Is r'.2.2.2.2.1 ∧ r.2.2.2.2.2.1.Is r'.2.2.2.2.2.1 ∧ r.2.2.2.2.2.2.Is r'.2.2.2.2.2.2

/-- What a method call on the object with lists does, given what the call on arrays does. -/
def withGains (o : PyFilter F) {α : Type} (r : Except PyErr α × KalmanFilter F) : Except PyErr α × PyFilter F :=
  (r.1, { o with kalmanGains := r.2.kalmanGains })

theorem loop_is {rows : List (Row F)} {rows' : List (KalmanFilter.Row F)} (h : List.Forall₂ RowIs rows rows') :
    ∀ (k : ℕ) (o : PyFilter F) (kf : KalmanFilter F) (xk Pk : PyVal F) (x p : Arr F) (s e : List (Arr F)), o.stateSize = kf.stateSize → o.I = kf.I →
      o.kalmanGains = kf.kalmanGains → xk.Is x → Pk.Is p →
      (filterLoop k rows xk Pk s e).run o = o.withGains ((KalmanFilter.filterLoop k rows' x p s e).run kf) := by
  induction h with
  | nil =>
    intro k o kf xk Pk x p s e h1 h2 h3 hx hP
    simp only [filterLoop, KalmanFilter.filterLoop, withGains, Py.pure, ← h3]
  | @cons r r' rows rows' hr h ih =>
    intro k o kf xk Pk x p s e h1 h2 h3 hx hP
    obtain ⟨oA, ox, oB, oP, oH, oQ, oR, on, oI, og⟩ := o
    simp only at h1 h2 h3
    subst h1 h2 h3
    obtain ⟨Ak, Hk, Bk, uk, zk, Qk, Rk⟩ := r
    obtain ⟨Ak', Hk', Bk', uk', zk', Qk', Rk'⟩ := r'
    obtain ⟨hA, hAa, hH, hHa, hB, hu, hBu, hz, hQ, hR⟩ := hr
    simp only at hA hAa hH hHa hB hu hBu hz hQ hR
    simp only [filterLoop, KalmanFilter.filterLoop, Py.run_bind, Py.run_lift, predict_is hA hAa hx hB hu hBu hP hQ, update, KalmanFilter.update]
    rcases KalmanFilter.predict Ak' x (some Bk') (some uk') p Qk' with er | ⟨xp, Pp⟩
    · rfl
    simp only [gain_is hH hHa hR]
    rcases KalmanFilter.gain Hk' Pp Rk' with er | K
    · rfl
    simp only [Py.run_mutate, Py.run_self, correct_is hH hHa hz]
    rcases KalmanFilter.correct kf.I K Hk' xp Pp zk' with er | ⟨x', P'⟩
    · rfl
    simp only
    rcases x'.assignVec kf.stateSize with er | sr
    · rfl
    simp only
    rcases P'.assignMat kf.stateSize with er | er
    · rfl
    simp only
    rw [ih (k + 1) _ { kf with kalmanGains := kf.kalmanGains ++ [K] } (.arr x') (.arr P') x' P' _ _ rfl rfl rfl rfl rfl]
    rfl

theorem forall₂_zip7 {A H B U Z Q R : List (PyVal F)} {A' H' B' U' Z' Q' R' : List (Arr F)} (hA : List.Forall₂ PyVal.Is A A') (hAa : ∀ v ∈ A, v.isArr = true)
    (hH : List.Forall₂ PyVal.Is H H') (hHa : ∀ v ∈ H, v.isArr = true) (hB : List.Forall₂ PyVal.Is B B') (hU : List.Forall₂ PyVal.Is U U')
    (hBU : ∀ (k : ℕ) v w, B[k]? = some v → U[k]? = some w → v.isArr = true ∨ w.isArr = true) (hZ : List.Forall₂ PyVal.Is Z Z')
    (hQ : List.Forall₂ PyVal.Is Q Q') (hR : List.Forall₂ PyVal.Is R R') :
    List.Forall₂ RowIs (A.zip (H.zip (B.zip (U.zip (Z.zip (Q.zip R)))))) (A'.zip (H'.zip (B'.zip (U'.zip (Z'.zip (Q'.zip R')))))) := by
  have get : ∀ {l : List (PyVal F)} {l' : List (Arr F)}, List.Forall₂ PyVal.Is l l' → ∀ {k : ℕ} {v : PyVal F} {a : Arr F}, l[k]? = some v → l'[k]? = some a → v.Is a := by
    intro l l' h k v a h1 h2
    obtain ⟨k1, rfl⟩ := List.getElem?_eq_some_iff.1 h1
    obtain ⟨k2, rfl⟩ := List.getElem?_eq_some_iff.1 h2
    exact h.get k1 k2
  refine List.forall₂_iff_get.2 ⟨by simp [hA.length_eq, hH.length_eq, hB.length_eq, hU.length_eq, hZ.length_eq, hQ.length_eq, hR.length_eq], ?_⟩
  intro k hk hk'
  obtain ⟨r, hr⟩ : ∃ r, r = (A.zip (H.zip (B.zip (U.zip (Z.zip (Q.zip R)))))).get ⟨k, hk⟩ := ⟨_, rfl⟩
  obtain ⟨r', hr'⟩ : ∃ r, r = (A'.zip (H'.zip (B'.zip (U'.zip (Z'.zip (Q'.zip R')))))).get ⟨k, hk'⟩ := ⟨_, rfl⟩
  rw [← hr, ← hr']
  have e1 : (A.zip (H.zip (B.zip (U.zip (Z.zip (Q.zip R))))))[k]? = some r := by rw [hr]; exact List.getElem?_eq_getElem hk
  have e2 : (A'.zip (H'.zip (B'.zip (U'.zip (Z'.zip (Q'.zip R'))))))[k]? = some r' := by rw [hr']; exact List.getElem?_eq_getElem hk'
  obtain ⟨r1, r2, r3, r4, r5, r6, r7⟩ := r
  obtain ⟨s1, s2, s3, s4, s5, s6, s7⟩ := r'
  simp only [List.getElem?_zip_eq_some] at e1 e2
  obtain ⟨a1, a2, a3, a4, a5, a6, a7⟩ := e1
  obtain ⟨b1, b2, b3, b4, b5, b6, b7⟩ := e2
  exact ⟨get hA a1 b1, hAa _ (List.mem_of_getElem? a1), get hH a2 b2, hHa _ (List.mem_of_getElem? a2), get hB a3 b3, get hU a4 b4, hBU k _ _ a3 a4,
    get hZ a5 b5, get hQ a6 b6, get hR a7 b7⟩

theorem OfArrays_iter {s : PySeq F} (h : s.OfArrays) {l : List (PyVal F)} (hl : s.iter = .ok l) : ∀ v ∈ l, v.isArr = true := by
  intro v hv
  obtain ⟨k, hk⟩ := List.mem_iff_getElem?.1 hv
  exact h.item (PySeq.iter_get hl hk)

theorem zip_is {A H B U Z Q R : PySeq F} {A' H' B' U' Z' Q' R' : NDArray F} (hA : A.Is A') (hAa : A.OfArrays) (hH : H.Is H') (hHa : H.OfArrays)
    (hB : B.Is B') (hU : U.Is U') (hBU : B.OneArray U) (hZ : Z.Is Z') (hQ : Q.Is Q') (hR : R.Is R') :
    (∃ e, zipRows A H B U Z Q R = .error e ∧ KalmanFilter.zipRows A' H' B' U' Z' Q' R' = .error e) ∨
      ∃ rows rows', zipRows A H B U Z Q R = .ok rows ∧ KalmanFilter.zipRows A' H' B' U' Z' Q' R' = .ok rows' ∧ List.Forall₂ RowIs rows rows' := by
  rcases hA.iter with ⟨e, h1, h1'⟩ | ⟨lA, lA', h1, h1', fA⟩
  · exact .inl ⟨e, by simp only [zipRows, h1]; rfl, by simp only [KalmanFilter.zipRows, h1']; rfl⟩
  rcases hH.iter with ⟨e, h2, h2'⟩ | ⟨lH, lH', h2, h2', fH⟩
  · exact .inl ⟨e, by simp only [zipRows, h1, h2]; rfl, by simp only [KalmanFilter.zipRows, h1', h2']; rfl⟩
  rcases hB.iter with ⟨e, h3, h3'⟩ | ⟨lB, lB', h3, h3', fB⟩
  · exact .inl ⟨e, by simp only [zipRows, h1, h2, h3]; rfl, by simp only [KalmanFilter.zipRows, h1', h2', h3']; rfl⟩
  rcases hU.iter with ⟨e, h4, h4'⟩ | ⟨lU, lU', h4, h4', fU⟩
  · exact .inl ⟨e, by simp only [zipRows, h1, h2, h3, h4]; rfl, by simp only [KalmanFilter.zipRows, h1', h2', h3', h4']; rfl⟩
  rcases hZ.iter with ⟨e, h5, h5'⟩ | ⟨lZ, lZ', h5, h5', fZ⟩
  · exact .inl ⟨e, by simp only [zipRows, h1, h2, h3, h4, h5]; rfl, by simp only [KalmanFilter.zipRows, h1', h2', h3', h4', h5']; rfl⟩
  rcases hQ.iter with ⟨e, h6, h6'⟩ | ⟨lQ, lQ', h6, h6', fQ⟩
  · exact .inl ⟨e, by simp only [zipRows, h1, h2, h3, h4, h5, h6]; rfl, by simp only [KalmanFilter.zipRows, h1', h2', h3', h4', h5', h6']; rfl⟩
  rcases hR.iter with ⟨e, h7, h7'⟩ | ⟨lR, lR', h7, h7', fR⟩
  · exact .inl ⟨e, by simp only [zipRows, h1, h2, h3, h4, h5, h6, h7]; rfl, by simp only [KalmanFilter.zipRows, h1', h2', h3', h4', h5', h6', h7']; rfl⟩
  refine .inr ⟨_, _, by simp only [zipRows, h1, h2, h3, h4, h5, h6, h7]; rfl, by simp only [KalmanFilter.zipRows, h1', h2', h3', h4', h5', h6', h7']; rfl, ?_⟩
  exact forall₂_zip7 fA (OfArrays_iter hAa h1) fH (OfArrays_iter hHa h2) fB fU
    (fun k v w hv hw => hBU k v w (PySeq.iter_get h3 hv) (PySeq.iter_get h4 hw)) fZ fQ fR

/-- The control sequence exists. -/
theorem control_is {Z : PySeq F} {U : Option (PySeq F)} {u : NDArray F} (h : Z.ControlIs U u) : ∃ U', PySeq.checkNone U Z = .ok U' ∧ U'.Is u ∧
    (U = none → U'.OfArrays) ∧ ∀ V, U = some V → U' = V := by
  cases U with
  | none =>
    refine ⟨.nd u, ?_, rfl, fun _ => trivial, fun V hV => by cases hV⟩
    simp only [PySeq.checkNone, show Z.fullLikeNan = .ok u from h, Except.bind_ok']
  | some V => exact ⟨V, rfl, h, fun h => (by cases h), fun W hW => by cases hW; rfl⟩

/-- `filter` on lists. -/
theorem filter_is {o : PyFilter F} {kf : KalmanFilter F} (h : o.Is kf) (hA : o.A.OfArrays) (hH : o.H.OfArrays) {Z : PySeq F} {Z' : NDArray F} (hZ : Z.Is Z')
    {U : Option (PySeq F)} {U' : NDArray F} (hU : Z.ControlIs U U') (hBU : ∀ V, U = some V → o.B.OneArray V) :
    (filter Z U).run o = o.withGains ((KalmanFilter.filter Z' (some U')).run kf) := by
  obtain ⟨V, hV, hVU, hnone, hsome⟩ := control_is hU
  have hB : o.B.OneArray V := by
    cases U with
    | none => exact fun k v w _ hw => .inr ((hnone rfl).item hw)
    | some W => rw [hsome W rfl]; exact hBU W rfl
  simp only [filter, KalmanFilter.filter, Py.run_bind, Py.run_self, Py.run_lift, hZ.len, hV, checkNoneAndBroadcast]
  rcases Z'.len with e | n
  · simp only [withGains, ← h.gains]
  simp only [h.size]
  rcases zip_is h.A hA h.H hH h.B hVU hB hZ h.Q h.R with ⟨e, h1, h2⟩ | ⟨rows, rows', h1, h2, hr⟩
  · simp only [h1, h2, withGains, ← h.gains]
  · simp only [h1, h2]
    exact loop_is hr 0 o kf _ _ _ _ _ _ h.size h.ident h.gains h.xk h.Pk

theorem smoothStep_is {x p xn pn : Arr F} {Ak Qk Bk uk : PyVal F} {a q b u : Arr F} (hA : Ak.Is a) (hAa : Ak.isArr = true) (hQ : Qk.Is q) (hB : Bk.Is b)
    (hu : uk.Is u) (hBu : Bk.isArr = true ∨ uk.isArr = true) : smoothStep x p Ak Qk Bk uk xn pn = KalmanFilter.smoothStep x p a q b u xn pn := by
  simp only [smoothStep, KalmanFilter.smoothStep, predict_is hA hAa (Is.arr x) hB hu hBu (Is.arr p) hQ, hA.T hAa]
  rfl

theorem smoothLoop_is {A Q B U : PySeq F} {A' Q' B' U' : NDArray F} (hA : A.Is A') (hAa : A.OfArrays) (hQ : Q.Is Q') (hB : B.Is B') (hU : U.Is U')
    (hBU : B.OneArray U) (s : ℕ) (xE PE : List (Arr F)) (ks : List ℕ) : ∀ xs Ps, smoothLoop A Q B U s xE PE ks xs Ps =
      KalmanFilter.smoothLoop A' Q' B' U' s xE PE ks xs Ps := by
  induction ks with
  | nil => exact fun _ _ => rfl
  | cons k ks ih =>
    intro xs Ps
    simp only [smoothLoop, KalmanFilter.smoothLoop]
    rcases hA.item (k + 1) with ⟨e, h1, h1'⟩ | ⟨vA, rA, h1, h1', iA⟩
    · simp only [h1, h1']; rfl
    rcases hQ.item (k + 1) with ⟨e, h2, h2'⟩ | ⟨vQ, rQ, h2, h2', iQ⟩
    · simp only [h1, h1', h2, h2']; rfl
    rcases hB.item (k + 1) with ⟨e, h3, h3'⟩ | ⟨vB, rB, h3, h3', iB⟩
    · simp only [h1, h1', h2, h2', h3, h3']; rfl
    rcases hU.item (k + 1) with ⟨e, h4, h4'⟩ | ⟨vU, rU, h4, h4', iU⟩
    · simp only [h1, h1', h2, h2', h3, h3', h4, h4']; rfl
    simp only [h1, h1', h2, h2', h3, h3', h4, h4', Except.bind_ok', smoothStep_is iA (hAa.item h1) iQ iB iU (hBU _ _ _ h3 h4), ih]

/-- `smooth` on lists. -/
theorem smooth_is {o : PyFilter F} {kf : KalmanFilter F} (h : o.Is kf) (hA : o.A.OfArrays) (hH : o.H.OfArrays) {Z : PySeq F} {Z' : NDArray F} (hZ : Z.Is Z')
    {U : Option (PySeq F)} {U' : NDArray F} (hU : Z.ControlIs U U') (hBU : ∀ V, U = some V → o.B.OneArray V) :
    (smooth Z U).run o = o.withGains ((KalmanFilter.smooth Z' (some U')).run kf) := by
  obtain ⟨V, hV, hVU, hnone, hsome⟩ := control_is hU
  have hB : o.B.OneArray V := by
    cases U with
    | none => exact fun k v w _ hw => .inr ((hnone rfl).item hw)
    | some W => rw [hsome W rfl]; exact hBU W rfl
  simp only [smooth, KalmanFilter.smooth, Py.run_bind, filter_is h hA hH hZ hU hBU]
  rcases hr : (KalmanFilter.filter Z' (some U')).run kf with ⟨e | ⟨xE, PE⟩, kf'⟩
  · rfl
  obtain ⟨g, rfl⟩ : ∃ g, kf' = { kf with kalmanGains := g } := by
    obtain ⟨g, hg⟩ := KalmanFilter.filter_state Z' (some U') kf
    rw [hr] at hg
    exact ⟨_, hg⟩
  simp only [withGains, Py.run_self, Py.run_lift, hZ.len, hV, checkNoneAndBroadcast]
  rcases Z'.len with e | n
  · rfl
  simp only [h.size]
  rcases (if n = 0 then Except.error PyErr.indexError else getRow xE (n - 1)) with e | xl
  · rfl
  simp only
  rcases (if n = 0 then Except.error PyErr.indexError else getRow PE (n - 1)) with e | Pl
  · rfl
  simp only
  rcases xl.assignVec kf.stateSize with e | xr
  · rfl
  simp only
  rcases Pl.assignMat kf.stateSize with e | Pr
  · rfl
  simp only [smoothLoop_is h.A hA h.Q h.B hVU hB]

end PyFilter

end KK
