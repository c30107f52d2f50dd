import Verif.Proofs.Nan
import Verif.Props.Failure

/-!
# NaN observations and controls (C09-C12, C23, C52)

`NanLaws` (NaN propagates through `+`, `-` and dot products) is the only assumption on the arithmetic.
-/

set_option linter.unusedSectionVars false

namespace KK

variable {F : Type} [Backend F]

/-! ### The assumption is met by the computable backend of the examples -/

namespace Ex

theorem foldr_nan {ι : Type} (l : List ι) (f g : ι → QN) (i : ι) (hi : i ∈ l)
    (h : lift2 (· * ·) (f i) (g i) = none) :
    l.foldr (fun l acc => lift2 (· + ·) (lift2 (· * ·) (f l) (g l)) acc) (some 0) = none := by
  induction l with
  | nil => simp at hi
  | cons a l ih =>
    simp only [List.foldr_cons]
    rcases List.mem_cons.1 hi with rfl | hi
    · rw [h]; rfl
    · rw [ih hi]; cases lift2 (· * ·) (f a) (g a) <;> rfl

instance : NanLaws QN where
  isnan_nan := rfl
  add_left a b h := by cases a <;> simp_all [Backend.isnan, Backend.add, lift2]
  add_right a b h := by cases a <;> cases b <;> simp_all [Backend.isnan, Backend.add, lift2]
  sub_left a b h := by cases a <;> simp_all [Backend.isnan, Backend.sub, lift2]
  sub_right a b h := by cases a <;> cases b <;> simp_all [Backend.isnan, Backend.sub, lift2]
  gemm_left A B i l j h := by
    have h' : A i l = none := by simpa [Backend.isnan] using h
    have := foldr_nan (List.finRange _) (fun l => A i l) (fun l => B l j) l (List.mem_finRange l)
      (by rw [h']; rfl)
    simp only [Backend.isnan, Backend.gemm, this]
    rfl
  gemm_right A B i l j h := by
    have h' : B l j = none := by simpa [Backend.isnan] using h
    have := foldr_nan (List.finRange _) (fun l => A i l) (fun l => B l j) l (List.mem_finRange l)
      (by rw [h']; cases A i l <;> rfl)
    simp only [Backend.isnan, Backend.gemm, this]
    rfl

end Ex

section
variable [NanLaws F]

theorem KalmanFilter.filter_nan {n m : ℕ} {kf kf' : KalmanFilter F} {Z : NDArray F}
    {U : Option (NDArray F)} {xs Ps : List (Arr F)} (hl : Layout n m kf Z U)
    (h : (KalmanFilter.filter Z U).run kf = (.ok (xs, Ps), kf')) (k : ℕ)
    (hk : ∃ r, (kf.zrows Z U)[k]? = some r ∧ ∀ y, NanStep m r y) (j : ℕ) (hkj : k ≤ j)
    (hj : j < kf.steps Z U) : ∃ x, xs[j]? = some x ∧ x.AllNan := by
  have he := KalmanFilter.ok_err h
  rw [KalmanFilter.filter_iter (KalmanFilter.ok_iter h)] at h
  simp only [he, Prod.mk.injEq, Except.ok.injEq] at h
  obtain ⟨⟨rfl, -⟩, -⟩ := h
  have hlen := trace_length _ _ _ _ he
  rw [KalmanFilter.zrows_length] at hlen
  have hlt : j < (kf.tr Z U).outs.length := by rw [hlen]; exact hj
  refine ⟨((kf.tr Z U).outs[j]).1, ?_, ?_⟩
  · rw [List.getElem?_append_left (by simpa using hlt), List.getElem?_map,
      List.getElem?_eq_getElem hlt]; rfl
  · have he' := he
    have hlt' := List.getElem?_eq_getElem hlt
    simp only [KalmanFilter.tr, hl.size, hl.ident] at he' hlt' ⊢
    exact KalmanFilter.trace_nan _ (KalmanFilter.mem_zrows hl) _ _ ⟨hl.x, hl.P⟩ he' k (.inr hk) j hkj _ hlt'

omit [NanLaws F] in
/-- The zipped row at a processed step. -/
theorem KalmanFilter.zrows_get {kf : KalmanFilter F} {Z : NDArray F} {U : Option (NDArray F)} {k : ℕ}
    (hk : k < kf.steps Z U) : ∃ r, (kf.zrows Z U)[k]? = some r ∧ kf.A.rows[k]? = some r.1 ∧
      kf.H.rows[k]? = some r.2.1 ∧ kf.B.rows[k]? = some r.2.2.1 ∧
      (effU U Z).rows[k]? = some r.2.2.2.1 ∧ Z.rows[k]? = some r.2.2.2.2.1 ∧
      kf.Q.rows[k]? = some r.2.2.2.2.2.1 ∧ kf.R.rows[k]? = some r.2.2.2.2.2.2 := by
  rw [← KalmanFilter.zrows_length] at hk
  refine ⟨_, List.getElem?_eq_getElem hk, ?_⟩
  have h := List.getElem?_eq_getElem hk
  generalize (kf.zrows Z U)[k] = r at h ⊢
  obtain ⟨Ak, Hk, Bk, uk, zk, Qk, Rk⟩ := r
  simp only [zrows, List.getElem?_zip_eq_some] at h
  exact h

/-! ## C11 -/

/-- C11: if some component of the observation of a processed step `k` is NaN, then every component of every
state returned for the processed steps `j ≥ k` is NaN; the rows before `k` are those of the run on `Z[:k]`,
and the covariances are those of any other successful run on data of the same length. -/
theorem C11_nan_observation (n m : ℕ) (hm : 0 < m) (kf kf' : KalmanFilter F) (Z : NDArray F)
    (U : Option (NDArray F)) (xs Ps : List (Arr F)) (hl : Layout n m kf Z U)
    (h : (KalmanFilter.filter Z U).run kf = (.ok (xs, Ps), kf')) (k : ℕ) (z : Arr F)
    (hz : Z.rows[k]? = some z) (hnan : z.SomeNan) :
    (∀ j, k ≤ j → j < kf.steps Z U → ∃ x, xs[j]? = some x ∧ x.AllNan) ∧
    (∀ Z' xs' Ps' kf'', Z.len = Z'.len → kf.steps Z' U = kf.steps Z U →
      (KalmanFilter.filter Z' U).run kf = (.ok (xs', Ps'), kf'') →
      Ps' = Ps ∧ kf''.kalmanGains = kf'.kalmanGains ∧
      (Z'.AgreeTo k Z → xs'.take k = xs.take k)) := by
  refine ⟨fun j hkj hj => ?_, fun Z' xs' Ps' kf'' hlen hst h' => ?_⟩
  · refine KalmanFilter.filter_nan hl h k ?_ j hkj hj
    obtain ⟨r, hr, -, -, -, -, hz', -⟩ := KalmanFilter.zrows_get (lt_of_le_of_lt hkj hj)
    rw [hz] at hz'
    simp only [Option.some.injEq] at hz'
    exact ⟨r, hr, fun y => .inr (.inl ⟨hm, hz' ▸ hnan⟩)⟩
  · obtain ⟨h1, h2⟩ := C08_data_independent kf kf kf' kf'' Z Z' U U xs Ps xs' Ps' rfl rfl rfl rfl rfl rfl
      rfl hlen hst.symm h h'
    refine ⟨h1.symm, ?_, fun ha => ?_⟩
    · obtain ⟨g, hg⟩ := KalmanFilter.filter_state Z U kf
      obtain ⟨g', hg'⟩ := KalmanFilter.filter_state Z' U kf
      rw [h] at hg
      rw [h'] at hg'
      simp only at hg hg'
      subst hg hg'
      simpa [KalmanFilter.addGains] using h2.symm
    · refine (C03_causal kf kf kf'' kf' Z' Z U U k xs' Ps' xs Ps rfl rfl rfl rfl rfl rfl rfl rfl rfl ha
        ?_ h' h).1
      cases U
      · trivial
      · exact rfl

/-! ## C12 -/

theorem KalmanFilter.smoothStep_nan {n : ℕ} {xk Pk Ak Qk Bk uk x P : Arr F} {r : Arr F × Arr F}
    (hx : xk.shape = [n]) (hA : Ak.shape = [n, n]) (hP : Pk.shape = [n, n])
    (hQ : Qk.shape = [n, n] ∨ Qk.shape = [])
    (hc : Bk.Blank ∨ uk.Blank ∨ ∃ p, Bk.shape = [n, p] ∧ uk.shape = [p])
    (hs : x.shape = [n]) (hn : x.AllNan)
    (hr : KalmanFilter.smoothStep xk Pk Ak Qk Bk uk x P = .ok r) : r.1.shape = [n] ∧ r.1.AllNan := by
  obtain ⟨d, xp, e, Pp, hp⟩ := KalmanFilter.predict_layout (m := n) (Hk := Ak) (zk := xk) (Rk := Qk)
    ⟨hA, hA, hc, .inl hx, hQ, hQ⟩ hx hP
  simp only [KalmanFilter.smoothStep, hp, Except.bind_ok'] at hr
  rcases h2 : Pk.matmul Ak.T with e' | pat; · simp [h2] at hr
  simp only [h2, Except.bind_ok'] at hr
  obtain ⟨dPm, Pm, rfl⟩ := Arr.eq_mat hP
  obtain ⟨dA, Am, rfl⟩ := Arr.eq_mat hA
  rw [Arr.T_mat, Arr.matmul_mm] at h2
  simp only [Except.ok.injEq] at h2
  subst h2
  simp only [Arr.T_mat, Arr.solve_mm] at hr
  rcases h3 : Backend.solve Pp.transpose (Backend.gemm Pm Am.transpose).transpose with _ | X
  · simp [h3] at hr
  simp only [h3, Except.bind_ok', Arr.T_mat] at hr
  obtain ⟨dx, h4, h4s, h4n⟩ := sub_nan (w := .vec d xp) hs rfl (.inl hn)
  simp only [h4, Except.bind_ok'] at hr
  rcases Nat.eq_zero_or_pos n with rfl | hpos
  · obtain ⟨kdx, h5, h5s⟩ := matmul_shape (M := .mat .float64 X.transpose) rfl h4s
    obtain ⟨xs, h6, h6s, h6n⟩ := add_nan hx h5s (.inl (allNan_zero hx))
    simp only [h5, h6, Except.bind_ok'] at hr
    rcases h7 : P.sub (.mat e Pp) with e' | dP; · simp only [h7, Except.bind_error', reduceCtorEq] at hr
    simp only [h7, Except.bind_ok'] at hr
    rcases h8 : dP.matmul (.mat .float64 X.transpose.transpose) with e' | dPk; · simp only [h8, Except.bind_error', reduceCtorEq] at hr
    simp only [h8, Except.bind_ok'] at hr
    rcases h9 : (Arr.mat .float64 X.transpose).matmul dPk with e' | kdPk; · simp only [h9, Except.bind_error', reduceCtorEq] at hr
    simp only [h9, Except.bind_ok'] at hr
    rcases h10 : (Arr.mat dPm Pm).add kdPk with e' | Ps; · simp only [h10, Except.bind_error', reduceCtorEq] at hr
    simp only [h10, Except.bind_ok', Except.ok.injEq] at hr
    subst hr
    exact ⟨h6s, h6n⟩
  · obtain ⟨kdx, h5, h5s, h5n⟩ := matmul_nan (M := .mat .float64 X.transpose) rfl h4s
      (AllNan.some hpos h4s h4n)
    obtain ⟨xs, h6, h6s, h6n⟩ := add_nan hx h5s (.inr h5n)
    simp only [h5, h6, Except.bind_ok'] at hr
    rcases h7 : P.sub (.mat e Pp) with e' | dP; · simp only [h7, Except.bind_error', reduceCtorEq] at hr
    simp only [h7, Except.bind_ok'] at hr
    rcases h8 : dP.matmul (.mat .float64 X.transpose.transpose) with e' | dPk; · simp only [h8, Except.bind_error', reduceCtorEq] at hr
    simp only [h8, Except.bind_ok'] at hr
    rcases h9 : (Arr.mat .float64 X.transpose).matmul dPk with e' | kdPk; · simp only [h9, Except.bind_error', reduceCtorEq] at hr
    simp only [h9, Except.bind_ok'] at hr
    rcases h10 : (Arr.mat dPm Pm).add kdPk with e' | Ps; · simp only [h10, Except.bind_error', reduceCtorEq] at hr
    simp only [h10, Except.bind_ok', Except.ok.injEq] at hr
    subst hr
    exact ⟨h6s, h6n⟩

omit [NanLaws F] in
theorem item_rows {a : NDArray F} {k : ℕ} {x : Arr F} (h : a.item k = .ok x) : a.rows[k]? = some x := by
  cases a with
  | d0 => simp [NDArray.item] at h
  | stack l =>
    simp only [NDArray.item] at h
    split at h
    · rename_i r hr; simp only [Except.ok.injEq] at h; subst h; exact hr
    · simp at h

omit [NanLaws F] in
theorem getRow_ok {l : List (Arr F)} {k : ℕ} {x : Arr F} (h : getRow l k = .ok x) : l[k]? = some x := by
  simp only [getRow] at h
  split at h
  · rename_i r hr; simp only [Except.ok.injEq] at h; subst h; exact hr
  · simp at h

/-- C12: if every parameter sequence is as long as the data and some component of some observation is NaN,
then every component of every smoothed mean is NaN. -/
theorem C12_nan_smooth (n m : ℕ) (hm : 0 < m) (kf kf' : KalmanFilter F) (Z : NDArray F)
    (U : Option (NDArray F)) (xs Ps : List (Arr F)) (hl : Layout n m kf Z U)
    (hfull : kf.steps Z U = Z.rows.length)
    (h : (KalmanFilter.smooth Z U).run kf = (.ok (xs, Ps), kf')) (k : ℕ) (z : Arr F)
    (hz : Z.rows[k]? = some z) (hnan : z.SomeNan) : ∀ x ∈ xs, x.AllNan := by
  obtain ⟨xe, Pe, x, P, l, hf, hne, hlen, hx, hP, hb, rfl, rfl⟩ := KalmanFilter.smooth_ok h
  obtain ⟨n', hn', hxl, hPl, hxs, hPs⟩ := KalmanFilter.filter_rowsOk hf
  obtain ⟨zs, rfl, hzs⟩ := NDArray.len_ok hn'
  have hk : k < zs.length := by
    by_contra hc
    rw [NDArray.rows_stack, List.getElem?_eq_none (by omega)] at hz
    simp at hz
  simp only [NDArray.rows_stack] at hfull
  have hlast : x.AllNan := by
    obtain ⟨y, hy, hyn⟩ := (C11_nan_observation n m hm kf kf' _ U xe Pe hl hf k z hz hnan).1
      (xe.length - 1) (by omega) (by omega)
    rw [hx] at hy
    simp only [Option.some.injEq] at hy
    subst hy; exact hyn
  have hxsh : x.shape = [n] := by
    have := (hxs x (List.mem_of_getElem? hx)).1
    rwa [hl.size] at this
  have := back_forall_lt (fun o => o.1.shape = [n] ∧ o.1.AllNan) ?_ ⟨hxsh, hlast⟩ hb
  · intro a ha
    obtain ⟨o, ho, rfl⟩ := List.mem_map.1 ha
    exact (this o ho).2
  · rintro k y Y r hk1 ⟨hys, hyn⟩ hr
    obtain ⟨Ak, Qk, Bk, uk, Pk, xk, y', Y', a1, a2, a3, a4, a5, a6, a7, a8, a9⟩ := KalmanFilter.body_ok hr
    obtain ⟨row, hrow, b1, b2, b3, b4, b5, b6, b7⟩ :=
      KalmanFilter.zrows_get (kf := kf) (Z := .stack zs) (U := U) (k := k + 1) (by omega)
    have hL := KalmanFilter.mem_zrows hl row (List.mem_of_getElem? hrow)
    rw [item_rows a1] at b1
    rw [item_rows a3] at b3
    rw [item_rows a4] at b4
    rw [item_rows a2] at b6
    simp only [Option.some.injEq] at b1 b3 b4 b6
    subst b1 b3 b4 b6
    have hxk : xk.shape = [n] := by
      have := (hxs xk (List.mem_of_getElem? (getRow_ok a6))).1
      rwa [hl.size] at this
    have hPk : Pk.shape = [n, n] := by
      have := (hPs Pk (List.mem_of_getElem? (getRow_ok a5))).1
      rwa [hl.size] at this
    obtain ⟨c1, c2⟩ := KalmanFilter.smoothStep_nan hxk hL.A hPk hL.Q hL.control hys hyn a7
    rw [hl.size] at a8
    obtain ⟨b, d1, d2⟩ := assignVec_nan c1 c2
    rw [d1] at a8
    simp only [Except.ok.injEq] at a8
    have := assignVec_shape d1
    exact ⟨by rw [← a8]; exact this.1, by rw [← a8]; exact d2⟩

/-! ## C23 -/

/-- C23: a control vector with some NaN component, not switched off (neither it nor `B` is entirely NaN),
makes every component of the prediction NaN, and of every state that `filter` returns from that step on. -/
theorem C23_partial_nan_control (n m : ℕ) :
    (∀ (Ak xk Bk uk Pk Qk : Arr F) (p : ℕ) (r : Arr F × Arr F), Ak.shape = [n, n] → xk.shape = [n] →
      Bk.shape = [n, p] → uk.shape = [p] → ¬ Bk.Blank →
      ¬ uk.Blank → uk.SomeNan →
      KalmanFilter.predict Ak xk (some Bk) (some uk) Pk Qk = .ok r → r.1.AllNan) ∧
    (∀ (kf kf' : KalmanFilter F) (Z : NDArray F) (U : Option (NDArray F)) (xs Ps : List (Arr F)),
      Layout n m kf Z U → (KalmanFilter.filter Z U).run kf = (.ok (xs, Ps), kf') →
      ∀ (k : ℕ) (b u : Arr F), kf.B.rows[k]? = some b → (effU U Z).rows[k]? = some u →
      ¬ b.Blank → ¬ u.Blank → u.SomeNan →
      ∀ j, k ≤ j → j < kf.steps Z U → ∃ x, xs[j]? = some x ∧ x.AllNan) := by
  refine ⟨fun Ak xk Bk uk Pk Qk p r hA hx hB hu h1 h2 h3 hr => ?_,
    fun kf kf' Z U xs Ps hl h k b u hb hu h1 h2 h3 j hkj hj => ?_⟩
  · exact KalmanFilter.predict_ctrl_nan hA hB hu hx ((Arr.isnanAll_false_iff _).2 h1)
      ((Arr.isnanAll_false_iff _).2 h2) h3 hr
  · refine KalmanFilter.filter_nan hl h k ?_ j hkj hj
    obtain ⟨r, hr, -, -, b3, b4, -⟩ := KalmanFilter.zrows_get (lt_of_le_of_lt hkj hj)
    rw [hb] at b3
    rw [hu] at b4
    simp only [Option.some.injEq] at b3 b4
    subst b3 b4
    exact ⟨r, hr, fun y => .inr (.inr ⟨(Arr.isnanAll_false_iff _).2 h1, (Arr.isnanAll_false_iff _).2 h2, h3⟩)⟩

end
/-! ### Hypotheses are met -/

-- C11, C12: the second of three observations is NaN; filter and smooth return.
example : let Z : NDArray Ex.QN := .stack ([some 1, none, some 2].map Ex.vec1)
    Layout 2 1 (Ex.cv 3) Z (some Ex.us) ∧ (Ex.cv 3).steps Z (some Ex.us) = Z.rows.length ∧
    (∃ z, Z.rows[1]? = some z ∧ z.SomeNan) ∧
    (∃ xs Ps k, (KalmanFilter.filter Z (some Ex.us)).run (Ex.cv 3) = (.ok (xs, Ps), k)) ∧
    (∃ xs Ps k, (KalmanFilter.smooth Z (some Ex.us)).run (Ex.cv 3) = (.ok (xs, Ps), k)) := by
  refine ⟨Ex.cv_layout 3 _ [some 1, some 0, some (-1)], rfl, ⟨_, rfl, (0 : Fin 1), rfl⟩, ?_, ?_⟩
  · obtain ⟨⟨a, b⟩, c, h⟩ := (Ex.returned_iff ((KalmanFilter.filter (.stack ([some 1, none, some 2].map
      Ex.vec1)) (some Ex.us)).run (Ex.cv 3))).1 (by decide +kernel)
    exact ⟨a, b, c, h⟩
  · obtain ⟨⟨a, b⟩, c, h⟩ := (Ex.returned_iff ((KalmanFilter.smooth (.stack ([some 1, none, some 2].map
      Ex.vec1)) (some Ex.us)).run (Ex.cv 3))).1 (by decide +kernel)
    exact ⟨a, b, c, h⟩

/-- Constant velocity with two control inputs (used for partially missing controls). -/
def Ex.cv2 : KalmanFilter Ex.QN :=
  { Ex.cv 3 with B := .stack (List.replicate 3 (Ex.mat2 (some (1/2)) (some 0) (some 1) (some 1))) }

/-- The second control row has one missing component. -/
def Ex.us2 : NDArray Ex.QN :=
  .stack [Ex.vec2 (some 1) (some 1), Ex.vec2 none (some 1), Ex.vec2 (some 0) (some 1)]

-- C23
example : Layout 2 1 Ex.cv2 Ex.zs (some Ex.us2) ∧
    (∃ b u, Ex.cv2.B.rows[1]? = some b ∧ (effU (some Ex.us2) Ex.zs).rows[1]? = some u ∧
      ¬ b.Blank ∧ ¬ u.Blank ∧ u.SomeNan) ∧
    1 < Ex.cv2.steps Ex.zs (some Ex.us2) ∧
    (∃ r k, (KalmanFilter.filter Ex.zs (some Ex.us2)).run Ex.cv2 = (.ok r, k)) := by
  refine ⟨⟨rfl, rfl, rfl, rfl, ?_⟩, ⟨_, _, rfl, rfl, ?_, ?_, (0 : Fin 2), rfl⟩, by decide,
    (Ex.returned_iff _).1 (by decide +kernel)⟩
  · intro k Ak Hk Bk uk zk Qk Rk hA hH hB hu hz hQ hR
    have hA := List.mem_of_getElem? hA
    have hH := List.mem_of_getElem? hH
    have hB := List.mem_of_getElem? hB
    have hu := List.mem_of_getElem? hu
    have hz := List.mem_of_getElem? hz
    have hQ := List.mem_of_getElem? hQ
    have hR := List.mem_of_getElem? hR
    simp only [Ex.cv2, Ex.cv, Ex.zs, Ex.us2, effU, checkNoneAndBroadcast, NDArray.rows_stack,
      List.mem_replicate, List.mem_cons, List.not_mem_nil, or_false] at hA hH hB hu hz hQ hR
    obtain ⟨-, rfl⟩ := hA
    obtain ⟨-, rfl⟩ := hH
    obtain ⟨-, rfl⟩ := hB
    obtain ⟨-, rfl⟩ := hQ
    obtain ⟨-, rfl⟩ := hR
    refine ⟨rfl, rfl, .inr (.inr ⟨2, rfl, ?_⟩), .inl ?_, .inl rfl, .inl rfl⟩
    · rcases hu with rfl | rfl | rfl <;> rfl
    · rcases hz with rfl | rfl | rfl <;> rfl
  · rw [← Arr.isnanAll_false_iff]; decide +kernel
  · rw [← Arr.isnanAll_false_iff]; decide +kernel

end KK
