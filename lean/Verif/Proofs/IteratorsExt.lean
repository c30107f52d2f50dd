import Verif.Proofs.IteratorsSmooth

/-! # Proofs about parameters given as iterators: the extended filter -/

set_option linter.unusedSectionVars false
set_option linter.unusedSimpArgs false

namespace KK

variable {F : Type} [Backend F]

open Param

namespace IterEkf

/-- Row `k` of `zip`, if there is one. -/
def rowAt (items : Items F) (pos : ℕ → ℕ) (U Z Q R : Param F) : ℕ → Option (ExtendedKalmanFilter.Row F) :=
  both (nth items pos · U) (both (nth items pos · Z) (both (nth items pos · Q) (nth items pos · R)))

theorem mapM_row (items : Items F) (pos : ℕ → ℕ) (U Z Q R : Param F) (k : ℕ) :
    [U, Z, Q, R].mapM (nth items pos k) =
      (rowAt items pos U Z Q R k).map fun r => [r.1, r.2.1, r.2.2.1, r.2.2.2] := by
  simp only [List.mapM_cons, List.mapM_nil, rowAt, both]
  rcases nth items pos k U with _ | u
  · rfl
  rcases nth items pos k Z with _ | z
  · rfl
  rcases nth items pos k Q with _ | q
  · rfl
  rcases nth items pos k R with _ | r
  · rfl
  rfl

def addGains (o : IterEkf F) (g : List (Arr F)) : IterEkf F := { o with kalmanGains := o.kalmanGains ++ g }

theorem filterLoop_eq (items : Items F) (pos0 : ℕ → ℕ) (U Z Q R : Param F) (hs : Separate [U, Z, Q, R])
    (c k : ℕ) (x P : Arr F) (states errors : List (Arr F)) (w : Reading (IterEkf F))
    (hpos : w.pos = posAfter items pos0 [U, Z, Q, R] k false)
    (hc : (unf (rowAt items pos0 U Z Q R) c k).length < c) :
    (filterLoop items [U, Z, Q, R] c k x P states errors).run w =
      let t := trace (ExtendedKalmanFilter.step w.obj.plain) (unf (rowAt items pos0 U Z Q R) c k) x P
      (t.result k states errors,
        { obj := w.obj.addGains t.gains,
          pos := match t.err with
            | none => posAfter items pos0 [U, Z, Q, R] (k + (unf (rowAt items pos0 U Z Q R) c k).length) true
            | some _ => posAfter items pos0 [U, Z, Q, R] (k + t.outs.length + 1) false }) := by
  induction c generalizing k x P states errors w with
  | zero => simp at hc
  | succ c ih =>
    have hm := mapM_row items pos0 U Z Q R k
    simp only [unf] at hc ⊢
    simp only [filterLoop, Py.run_bind, Param.next]
    rcases hr : rowAt items pos0 U Z Q R k with _ | ⟨uk, zk, Qk, Rk⟩
    · rw [hr] at hm
      rw [pull_stop items pos0 k _ w.pos hs hpos hm]
      simp [trace, Trace.result, overwrite, addGains]
    · rw [hr] at hm
      rw [pull_row items pos0 k _ w.pos hs hpos hm]
      simp only [hr, List.length_cons] at hc ⊢
      simp only [Py.run_bind, Py.run_lift, Py.run_self, trace, ExtendedKalmanFilter.step]
      rcases h1 : ExtendedKalmanFilter.predict w.obj.plain x (some uk) P Qk with e | ⟨xp, Pp⟩
      · simp [Trace.result, addGains]
      · simp only [update, Py.run_bind, Py.run_lift, Py.run_self]
        have hJ : w.obj.plain.jacobianH xp = w.obj.jacobianH xp := rfl
        rw [hJ]
        rcases h0 : w.obj.jacobianH xp with e | Hk
        · simp [Trace.result, addGains]
        dsimp only
        rcases h2 : ExtendedKalmanFilter.gain Hk Pp Rk with e | K
        · simp [Trace.result, addGains]
        · simp only [Py.run_mutate, Py.run_lift]
          rcases h3 : ExtendedKalmanFilter.correct w.obj.plain K Hk xp Pp zk with e | ⟨x', P'⟩
          · simp [Trace.result, addGains]
          · simp only [Except.bind_ok']
            have hS : w.obj.plain.stateSize = w.obj.stateSize := rfl
            rw [hS]
            rcases h4 : Arr.assignVec w.obj.stateSize x' with e | srow
            · simp [Trace.result, addGains]
            · simp only [Except.bind_ok']
              rcases h5 : Arr.assignMat w.obj.stateSize P' with e | erow
              · simp [Trace.result, addGains]
              · simp only [Except.bind_ok']
                rw [ih (k + 1) x' P' _ _ _ rfl (by omega)]
                have hst : ExtendedKalmanFilter.step (IterEkf.plain { w.obj with kalmanGains := w.obj.kalmanGains ++ [K] }) =
                  ExtendedKalmanFilter.step w.obj.plain := rfl
                simp only [hst]
                simp only [Trace.result, addGains, Option.toList]
                rcases (trace (ExtendedKalmanFilter.step w.obj.plain) (unf (rowAt items pos0 U Z Q R) c (k + 1)) x' P').err with _ | e
                · simp [overwrite, Nat.add_assoc, Nat.add_comm 1]
                · simp [Nat.add_assoc, Nat.add_comm 1]

theorem rowAt_stop (items : Items F) (pos : ℕ → ℕ) (U : Param F) (z : List (Arr F)) (Q R : Param F) :
    rowAt items pos U (.array (.stack z)) Q R z.length = none := by
  have hz : nth items pos z.length (.array (.stack z)) = none := by simp [nth, NDArray.rows]
  simp only [rowAt, both, hz]
  rcases nth items pos z.length U <;> rfl

theorem zipRows_asArray (items : Items F) (pos : ℕ → ℕ) (U : Param F) (z : List (Arr F)) (Q R : Param F) :
    ExtendedKalmanFilter.zipRows (U.asArray items pos z.length) (.stack z) (Q.asArray items pos z.length) (R.asArray items pos z.length) =
      match checkAll [U, .array (.stack z), Q, R] with
      | .error e => .error e
      | .ok _ => .ok (unf (rowAt items pos U (.array (.stack z)) Q R) z.length 0) := by
  have hz : (NDArray.stack z : NDArray F).iter = .ok (unf (nth items pos · (.array (.stack z))) z.length 0) :=
    congrArg _ (unf_list z z.length 0 (by omega)).symm
  simp only [ExtendedKalmanFilter.zipRows, checkAll_cons, checkAll, hz]
  rcases iter_asArray items pos z.length U with ⟨e, h1, h2, -⟩ | ⟨u, hu, h1, h2⟩ <;> rw [h1, h2]
  · rfl
  rcases iter_asArray items pos z.length Q with ⟨e, h1, h2, -⟩ | ⟨q, hq, h1, h2⟩ <;> rw [h1, h2]
  · rfl
  rcases iter_asArray items pos z.length R with ⟨e, h1, h2, -⟩ | ⟨r, hr, h1, h2⟩ <;> rw [h1, h2]
  · rfl
  simp only [checkIter, Except.bind_ok', zip_unf]
  rw [show min u (min z.length (min q r)) = z.length by omega]
  rfl

/-- `filter` on iterators: what it does, and where the iterators stand afterwards. -/
theorem filter_eq (items : Items F) (z : List (Arr F)) (U : Option (Param F)) (w : Reading (IterEkf F))
    (hs : Separate (w.obj.zipped (.stack z) U)) :
    (filter items (.array (.stack z)) U).run w =
      match checkAll (w.obj.zipped (.stack z) U) with
      | .error e => (.error e, w)
      | .ok _ =>
        let V := U.getD (.array (NDArray.stack z).fullLikeNan)
        let rows := unf (rowAt items w.pos V (.array (.stack z)) w.obj.Q w.obj.R) z.length 0
        let t := trace (ExtendedKalmanFilter.step w.obj.plain) rows w.obj.xk w.obj.Pk
        (t.result 0 (List.replicate z.length (Arr.zerosVec w.obj.stateSize))
            (List.replicate z.length (Arr.zerosMat w.obj.stateSize)),
          { obj := w.obj.addGains t.gains,
            pos := match t.err with
              | none => posAfter items w.pos (w.obj.zipped (.stack z) U) rows.length true
              | some _ => posAfter items w.pos (w.obj.zipped (.stack z) U) (t.outs.length + 1) false }) := by
  have hV : Param.orNan U (.array (.stack z)) = U.getD (.array (NDArray.stack z).fullLikeNan) := by cases U <;> rfl
  simp only [filter, Py.run_bind, Py.run_self, Py.run_lift, hV]
  rw [show ((Param.array (.stack z) : Param F).len) = .ok z.length from rfl]
  simp only [zipped] at hs ⊢
  rcases hc : checkAll [U.getD (.array (NDArray.stack z).fullLikeNan), .array (.stack z), w.obj.Q, w.obj.R] with e | ⟨⟩
  · rfl
  simp only
  have hu : unf (rowAt items w.pos (U.getD (.array (NDArray.stack z).fullLikeNan)) (.array (.stack z)) w.obj.Q w.obj.R)
      (z.length + 1) 0 = unf (rowAt items w.pos (U.getD (.array (NDArray.stack z).fullLikeNan)) (.array (.stack z)) w.obj.Q w.obj.R)
      z.length 0 := unf_stop _ z.length 0 (by rw [Nat.zero_add]; exact rowAt_stop ..) 1
  rw [filterLoop_eq items w.pos _ _ _ _ hs (z.length + 1) 0 _ _ _ _ w (by funext i; simp [posAfter])
    (by rw [hu]; exact Nat.lt_succ_of_le (unf_length_le _ _ _)), hu]
  simp only [Nat.zero_add]

/-- The call as a call on arrays. -/
theorem filter_is (items : Items F) (Z : NDArray F) (U : Option (Param F)) (w : Reading (IterEkf F))
    (hs : Separate (w.obj.zipped Z U)) :
    ((filter items (.array Z) U).run w).1 = ((ExtendedKalmanFilter.filter Z (U.map (asArray items w.pos Z.rows.length))).run
        (w.obj.asArrays items w.pos Z.rows.length)).1 ∧
      ((filter items (.array Z) U).run w).2.obj = { w.obj with
        kalmanGains := ((ExtendedKalmanFilter.filter Z (U.map (asArray items w.pos Z.rows.length))).run
          (w.obj.asArrays items w.pos Z.rows.length)).2.kalmanGains } := by
  rcases Z with ⟨d, x⟩ | z
  · refine ⟨rfl, rfl⟩
  · have hU : checkNoneAndBroadcast (U.map (asArray items w.pos z.length)) (.stack z) =
        (U.getD (.array (NDArray.stack z).fullLikeNan)).asArray items w.pos z.length := by cases U <;> rfl
    rw [filter_eq items z U w hs, ExtendedKalmanFilter.filter_eq]
    have hst : ExtendedKalmanFilter.step (w.obj.asArrays items w.pos z.length) = ExtendedKalmanFilter.step w.obj.plain := rfl
    simp only [NDArray.rows_stack, NDArray.len_stack, hU, hst]
    simp only [asArrays]
    rw [zipRows_asArray]
    simp only [zipped]
    rcases checkAll [U.getD (.array (NDArray.stack z).fullLikeNan), .array (.stack z), w.obj.Q, w.obj.R] with e | ⟨⟩
    · exact ⟨rfl, rfl⟩
    · exact ⟨rfl, rfl⟩

theorem smoothLoop_arrays (o : IterEkf F) (kf : ExtendedKalmanFilter F) (hk : ∀ g, kf.smoothStep = (o.addGains g).plain.smoothStep) (hz : kf.stateSize = o.stateSize)
    (Q U : NDArray F) (xe Pe : List (Arr F)) (ks : List ℕ) (xs Ps : List (Arr F)) :
    smoothLoop o (.array Q) (.array U) xe Pe ks xs Ps = ExtendedKalmanFilter.smoothLoop kf Q U xe Pe ks xs Ps := by
  induction ks generalizing xs Ps with
  | nil => rfl
  | cons k ks ih =>
    have h0 : kf.smoothStep = o.plain.smoothStep := hk []
    simp only [smoothLoop, ExtendedKalmanFilter.smoothLoop, Param.item, ih, h0, hz]

/-- `smooth` after its call of `filter`. -/
theorem smooth_run (items : Items F) (Z : Param F) (U : Option (Param F)) (w : Reading (IterEkf F)) :
    (smooth items Z U).run w =
      match (filter items Z U).run w with
      | (.error e, w') => (.error e, w')
      | (.ok (xe, Pe), w') => ((do
          let n ← Z.len
          let xLast ← (if n = 0 then .error .indexError else getRow xe (n - 1))
          let PLast ← (if n = 0 then .error .indexError else getRow Pe (n - 1))
          let xrow ← xLast.assignVec w'.obj.stateSize
          let Prow ← PLast.assignMat w'.obj.stateSize
          smoothLoop w'.obj w'.obj.Q (Param.orNan U Z) xe Pe (List.range (n - 1)).reverse
            ((List.replicate n (Arr.zerosVec w'.obj.stateSize)).set (n - 1) xrow)
            ((List.replicate n (Arr.zerosMat w'.obj.stateSize)).set (n - 1) Prow)), w') := by
  simp only [smooth, Py.run_bind]
  rcases (filter items Z U).run w with ⟨e | ⟨xe, Pe⟩, w'⟩
  · rfl
  simp only [Py.run_self, Py.run_lift]
  rcases Z.len with e | n
  · rfl
  simp only [Except.bind_ok']
  rcases (if n = 0 then Except.error PyErr.indexError else getRow xe (n - 1)) with e | a
  · rfl
  simp only [Except.bind_ok']
  rcases (if n = 0 then Except.error PyErr.indexError else getRow Pe (n - 1)) with e | b
  · rfl
  simp only [Except.bind_ok']
  rcases a.assignVec w'.obj.stateSize with e | c
  · rfl
  simp only [Except.bind_ok']
  rcases b.assignMat w'.obj.stateSize with e | d
  · rfl
  rfl

end IterEkf

/-- `ExtendedKalmanFilter.smooth` after its call of `filter`. -/
theorem ExtendedKalmanFilter.smooth_run (Z : NDArray F) (U : Option (NDArray F)) (kf : ExtendedKalmanFilter F) :
    (ExtendedKalmanFilter.smooth Z U).run kf =
      match (ExtendedKalmanFilter.filter Z U).run kf with
      | (.error e, w') => (.error e, w')
      | (.ok (xe, Pe), w') => ((do
          let n ← Z.len
          let xLast ← (if n = 0 then .error .indexError else getRow xe (n - 1))
          let PLast ← (if n = 0 then .error .indexError else getRow Pe (n - 1))
          let xrow ← xLast.assignVec w'.stateSize
          let Prow ← PLast.assignMat w'.stateSize
          ExtendedKalmanFilter.smoothLoop w' w'.Q (checkNoneAndBroadcast U Z) xe Pe (List.range (n - 1)).reverse
            ((List.replicate n (Arr.zerosVec w'.stateSize)).set (n - 1) xrow)
            ((List.replicate n (Arr.zerosMat w'.stateSize)).set (n - 1) Prow)), w') := by
  simp only [ExtendedKalmanFilter.smooth, Py.run_bind]
  rcases (ExtendedKalmanFilter.filter Z U).run kf with ⟨e | ⟨xe, Pe⟩, w'⟩
  · rfl
  simp only [Py.run_self, Py.run_lift]
  rcases Z.len with e | n
  · rfl
  simp only [Except.bind_ok']
  rcases (if n = 0 then Except.error PyErr.indexError else getRow xe (n - 1)) with e | a
  · rfl
  simp only [Except.bind_ok']
  rcases (if n = 0 then Except.error PyErr.indexError else getRow Pe (n - 1)) with e | b
  · rfl
  simp only [Except.bind_ok']
  rcases a.assignVec w'.stateSize with e | c
  · rfl
  simp only [Except.bind_ok']
  rcases b.assignMat w'.stateSize with e | d
  · rfl
  rfl

namespace IterEkf

/-- What `predict`, `update` and the backward step read of the object. -/
def _root_.KK.ExtendedKalmanFilter.plainly (o : ExtendedKalmanFilter F) : ExtendedKalmanFilter F :=
  { o with Q := .stack [], R := .stack [], kalmanGains := [] }

/-- Arrays for `Q` and the controls, anything for `R`: `smooth` as a call on arrays. -/
theorem smooth_is (items : Items F) (Z : NDArray F) (U : Option (NDArray F)) (w : Reading (IterEkf F)) (kf : ExtendedKalmanFilter F)
    (hkf : kf.plainly = w.obj.plain.plainly) (hQ : w.obj.Q = .array kf.Q)
    (h1 : ((filter items (.array Z) (U.map .array)).run w).1 = ((ExtendedKalmanFilter.filter Z U).run kf).1) (g' : List (Arr F))
    (h2 : ((filter items (.array Z) (U.map .array)).run w).2.obj = { w.obj with kalmanGains := g' }) :
    ((smooth items (.array Z) (U.map .array)).run w).1 = ((ExtendedKalmanFilter.smooth Z U).run kf).1 ∧
      ((smooth items (.array Z) (U.map .array)).run w).2 = ((filter items (.array Z) (U.map .array)).run w).2 := by
  rw [smooth_run, ExtendedKalmanFilter.smooth_run]
  obtain ⟨g, hg⟩ := ExtendedKalmanFilter.filter_state Z U kf
  rcases hf : (ExtendedKalmanFilter.filter Z U).run kf with ⟨r, kf'⟩
  rcases hi : (filter items (.array Z) (U.map .array)).run w with ⟨r', w'⟩
  rw [hf] at h1 hg
  rw [hi] at h1 h2
  simp only at h1 h2 hg
  subst h1
  rcases r' with e | ⟨xe, Pe⟩
  · exact ⟨rfl, rfl⟩
  simp only [and_true]
  have hV : Param.orNan (U.map .array) (.array Z) = .array (checkNoneAndBroadcast U Z) := by cases U <;> rfl
  have hz : w'.obj.stateSize = kf'.stateSize := by
    rw [h2, hg]
    exact (congrArg ExtendedKalmanFilter.stateSize hkf).symm
  have hq' : w'.obj.Q = .array kf'.Q := by rw [h2, hg]; simp [ExtendedKalmanFilter.addGains, hQ]
  have hk : ∀ g, kf'.smoothStep = (w'.obj.addGains g).plain.smoothStep := by
    intro g1
    have e1 : kf'.smoothStep = kf.plainly.smoothStep := by rw [hg]; rfl
    have e2 : (w'.obj.addGains g1).plain.smoothStep = w.obj.plain.plainly.smoothStep := by rw [h2]; rfl
    rw [e1, e2, hkf]
  rw [hV, hq', hz]
  simp only [smoothLoop_arrays w'.obj kf' hk hz.symm]
  rfl

/-- `Q` or the control sequence is an iterator and there are two or more observations: `smooth` does not return. -/
theorem smooth_iterator (items : Items F) (Z : NDArray F) (U : Option (Param F)) (w : Reading (IterEkf F))
    (kf : ExtendedKalmanFilter F) (W : Option (NDArray F)) (hkf : kf.stateSize = w.obj.stateSize)
    (h1 : ((filter items (.array Z) U).run w).1 = ((ExtendedKalmanFilter.filter Z W).run kf).1) (g : List (Arr F))
    (h2 : ((filter items (.array Z) U).run w).2.obj = { w.obj with kalmanGains := g }) (hn : 2 ≤ Z.rows.length)
    (h : ¬ w.obj.Q.IsArray ∨ ∃ V, U = some V ∧ ¬ V.IsArray) :
    ((smooth items (.array Z) U).run w).2 = ((filter items (.array Z) U).run w).2 ∧
    ∃ e, ((smooth items (.array Z) U).run w).1 = .error e ∧
      (((filter items (.array Z) U).run w).1 = .error e ∨
        (∃ o, ((filter items (.array Z) U).run w).1 = .ok o) ∧
          (e = .typeError ∨ e = .indexError ∧ ∃ a : NDArray F, w.obj.Q = .array a ∧ a.rows.length < Z.rows.length)) := by
  rw [smooth_run]
  rcases hf : (ExtendedKalmanFilter.filter Z W).run kf with ⟨r, kf'⟩
  rcases hi : (filter items (.array Z) U).run w with ⟨r', w'⟩
  rw [hf] at h1
  rw [hi] at h1 h2
  simp only at h1 h2
  subst h1
  rcases r' with e | ⟨xe, Pe⟩
  · exact ⟨rfl, e, rfl, .inl rfl⟩
  obtain ⟨n, hlen, hx, hP, hxs, hPs⟩ := ExtendedKalmanFilter.filter_rowsOk hf
  refine ⟨rfl, ?_⟩
  have hZ : Z.rows.length = n := by
    rcases Z with ⟨d, x⟩ | z
    · cases hlen
    · exact Except.ok.inj hlen
  rw [show (Param.array Z : Param F).len = .ok n from hlen]
  obtain ⟨m, rfl⟩ : ∃ m, n = m + 2 := ⟨n - 2, by omega⟩
  have hlx : m + 2 - 1 < xe.length := by omega
  have hlP : m + 2 - 1 < Pe.length := by omega
  have e1 := hxs _ (List.getElem_mem hlx)
  have e2 := hPs _ (List.getElem_mem hlP)
  have hsz : w'.obj.stateSize = kf.stateSize := by rw [h2, hkf]
  simp only [Except.bind_ok', show m + 2 ≠ 0 by omega, if_false, getRow_some (List.getElem?_eq_getElem hlx),
    getRow_some (List.getElem?_eq_getElem hlP)]
  rw [hsz, assignVec_self e1.1 e1.2, assignMat_self e2.1 e2.2]
  simp only [Except.bind_ok']
  have hrev : (List.range (m + 2 - 1)).reverse = m :: (List.range m).reverse := by
    rw [show m + 2 - 1 = m + 1 by omega, List.range_succ, List.reverse_append]; rfl
  rw [hrev]
  simp only [smoothLoop, h2]
  rcases hQ : w.obj.Q with q | i
  swap
  · exact ⟨_, rfl, .inr ⟨⟨_, rfl⟩, .inl rfl⟩⟩
  simp only [Param.item]
  have item_cases : ∀ a : NDArray F, (∃ x, a.item (m + 1) = .ok x) ∨ a.item (m + 1) = .error .indexError ∧ a.rows.length < Z.rows.length := by
    intro a
    rcases a with ⟨d, x⟩ | rows
    · exact .inr ⟨rfl, by rw [hZ]; simp [NDArray.rows]⟩
    · by_cases hr : m + 1 < rows.length
      · exact .inl ⟨rows[m + 1], by simp [NDArray.item, List.getElem?_eq_getElem hr]⟩
      · exact .inr ⟨by simp [NDArray.item, List.getElem?_eq_none (Nat.le_of_not_lt hr)], by rw [hZ]; simp only [NDArray.rows_stack]; omega⟩
  rcases item_cases q with ⟨x, hx'⟩ | ⟨hx', hl⟩
  swap
  · exact ⟨_, by rw [hx']; rfl, .inr ⟨⟨_, rfl⟩, .inr ⟨rfl, q, rfl, hl⟩⟩⟩
  rw [hx', Except.bind_ok']
  rw [hQ] at h
  simp only [IsArray, not_true, false_or] at h
  obtain ⟨V, rfl, hV⟩ := h
  rcases V with v | i
  · exact absurd trivial hV
  · exact ⟨_, rfl, .inr ⟨⟨_, rfl⟩, .inl rfl⟩⟩

end IterEkf
end KK
