import Verif.Props.Accept
import Verif.Proofs.Exact

/-!
# Vectors of variances in place of covariance matrices (C141)

Nothing in the library turns a vector of variances into a diagonal matrix; numpy broadcasts it.
-/

set_option linter.unusedSectionVars false
set_option linter.unusedSimpArgs false

namespace KK

variable {F : Type} [Backend F]

theorem Arr.IsBroadcast.refl_vec {n : ℕ} (d : DType) (v : Fin n → F) : (Arr.vec d v).IsBroadcast [n] (.vec d v) where
  fits := FitsShape.one.2 (.inl rfl)
  shape := rfl
  dtype := rfl
  entry := by
    rintro (_ | ⟨j, _ | ⟨k, l⟩⟩) x h
    · simp [Arr.entryAt] at h
    · simp only [Arr.entryAt, Option.dite_none_right_eq_some] at h
      obtain ⟨hj, h⟩ := h
      have : sourceIndex (Arr.vec d v).shape [j] = [j] := by
        simp only [Arr.shape, sourceIndex, List.reverse_cons, List.reverse_nil, List.nil_append, List.zip_cons_cons, List.zip_nil_left,
          List.map_cons, List.map_nil, List.cons.injEq, and_true]
        split <;> omega
      rw [this]
      simp only [Arr.entryAt, hj, dite_true]
      exact h
    · simp [Arr.entryAt] at h

/-- A vector broadcast to a matrix: every row is the vector. -/
theorem Arr.IsBroadcast.rows {n r : ℕ} (d : DType) (v : Fin n → F) :
    (Arr.vec d v).IsBroadcast [r, n] (.mat (m := r) (n := n) d fun _ j => v j) where
  fits := FitsShape.one_two.2 (.inl rfl)
  shape := rfl
  dtype := rfl
  entry := by
    rintro (_ | ⟨i, _ | ⟨j, _ | ⟨k, l⟩⟩⟩) x h
    · simp [Arr.entryAt] at h
    · simp [Arr.entryAt] at h
    · simp only [Arr.entryAt, Option.dite_none_right_eq_some] at h
      obtain ⟨⟨hi, hj⟩, h⟩ := h
      have : sourceIndex (Arr.vec d v).shape [i, j] = [j] := by
        simp only [Arr.shape, sourceIndex, List.reverse_cons, List.reverse_nil, List.nil_append, List.cons_append, List.zip_cons_cons, List.zip_nil_left,
          List.map_cons, List.map_nil, List.cons.injEq, and_true]
        split <;> omega
      rw [this]
      simp only [Arr.entryAt, hj, dite_true]
      exact h
    · simp [Arr.entryAt] at h

/-- The array of shape `(T, n)` whose rows are the given vectors. -/
def vectors {n : ℕ} (vs : List (Fin n → F)) : NDArray F := .stack (vs.map (Arr.vec .float64))

/-- The array of shape `(T, n, n)` whose `k`-th matrix has the `k`-th vector in *every row*. -/
def repeatedRows {n : ℕ} (vs : List (Fin n → F)) : NDArray F := .stack (vs.map fun v => .mat (m := n) .float64 fun _ j => v j)

theorem vectors_broadcast {n : ℕ} (vs : List (Fin n → F)) : (vectors vs).RowsBroadcast [n, n] (repeatedRows vs) := by
  refine .stack _ _ ?_
  rw [List.forall₂_map_left_iff, List.forall₂_map_right_iff]
  exact List.forall₂_same.2 fun v _ => Arr.IsBroadcast.rows _ v

theorem rowsBroadcast_self {n : ℕ} {Z : NDArray F} (hi : Z.Iterable) (h : ∀ z ∈ Z.rows, z.shape = [n]) : Z.RowsBroadcast [n] Z := by
  obtain ⟨l, rfl⟩ := hi.exists
  refine .stack _ _ (List.forall₂_same.2 fun z hz => ?_)
  obtain ⟨d, v, rfl⟩ := Arr.eq_vec (h z (by simpa using hz))
  exact Arr.IsBroadcast.refl_vec d v

/-- C141: `Q` and `R` given as vectors of variances, one per row, are accepted and mean the matrices with that vector in every row -
not diagonal matrices: same results, exceptions and gains as with those matrices. -/
theorem C141_noise_vectors {n m : ℕ} (kf : KalmanFilter F) (qs : List (Fin n → F)) (rs : List (Fin m → F)) (Z : NDArray F)
    (U : Option (NDArray F)) (hQ : kf.Q = vectors qs) (hR : kf.R = vectors rs) (hi : Z.Iterable) (hZ : ∀ z ∈ Z.rows, z.shape = [m])
    (hl : Layout n m { kf with Q := repeatedRows qs, R := repeatedRows rs } Z U) :
    (((KalmanFilter.filter Z U).run kf).1 = ((KalmanFilter.filter Z U).run { kf with Q := repeatedRows qs, R := repeatedRows rs }).1 ∧
      ((KalmanFilter.filter Z U).run kf).2.kalmanGains =
        ((KalmanFilter.filter Z U).run { kf with Q := repeatedRows qs, R := repeatedRows rs }).2.kalmanGains) ∧
    (kf.steps Z U = Z.rows.length →
      ((KalmanFilter.smooth Z U).run kf).1 = ((KalmanFilter.smooth Z U).run { kf with Q := repeatedRows qs, R := repeatedRows rs }).1) :=
  broadcast_core kf _ _ Z Z U (hQ ▸ vectors_broadcast qs) (hR ▸ vectors_broadcast rs) (rowsBroadcast_self hi hZ) (SameControls.refl Z U) hl

/-! ### The initial covariance given as a vector -/

/-- The only shapes involved: state `(n,)`, covariance `(n,)`. -/
def KalmanFilter.Flat (n : ℕ) (x P : Arr F) : Prop := x.shape = [n] ∧ P.shape = [n]

theorem Arr.matmul_vm {n m : ℕ} (d e : DType) (v : Fin n → F) (N : Matrix (Fin n) (Fin m) F) :
    (Arr.vec d v).matmul (.mat e N) = .ok (.vec (d.promote e) fun j => Backend.gemm (m := 1) (fun _ i => v i) N 0 j) := by
  simp only [matmul, dite_true]; rfl

theorem Arr.matmul_vv {n : ℕ} (d e : DType) (v w : Fin n → F) :
    (Arr.vec d v).matmul (.vec e w) = .ok (.scalar (d.promote e) (Backend.gemm (m := 1) (n := 1) (fun _ i => v i) (fun i _ => w i) 0 0)) := by
  simp only [matmul, dite_true]; rfl

/-- Documented layout of one row, except that the covariances are vectors. -/
structure FlatRow (n m : ℕ) (r : KalmanFilter.Row F) : Prop where
  A : r.1.shape = [n, n]
  H : r.2.1.shape = [m, n]
  control : r.2.2.1.Blank ∨ r.2.2.2.1.Blank ∨ ∃ p, r.2.2.1.shape = [n, p] ∧ r.2.2.2.1.shape = [p]
  z : r.2.2.2.2.1.shape = [m]
  Q : r.2.2.2.2.2.1.shape = [n] ∨ r.2.2.2.2.2.1.shape = []
  R : r.2.2.2.2.2.2.shape = [m, m]

theorem predict_flat {n : ℕ} {Ak Bk uk x P Qk : Arr F} (hA : Ak.shape = [n, n])
    (hc : Bk.Blank ∨ uk.Blank ∨ ∃ p, Bk.shape = [n, p] ∧ uk.shape = [p]) (hQ : Qk.shape = [n] ∨ Qk.shape = [])
    (hs : KalmanFilter.Flat n x P) : ∃ (d : DType) (xp : Fin n → F) (e : DType) (Pp : Fin n → F),
      KalmanFilter.predict Ak x (some Bk) (some uk) P Qk = .ok (.vec d xp, .vec e Pp) := by
  obtain ⟨dA, A, rfl⟩ := Arr.eq_mat hA
  obtain ⟨dx, x, rfl⟩ := Arr.eq_vec hs.1
  obtain ⟨dP, P, rfl⟩ := Arr.eq_vec hs.2
  have hf : FitsShape Qk.shape [n] := by
    rcases hQ with h | h <;> rw [h]
    · exact FitsShape.one.2 (.inl rfl)
    · exact FitsShape.nil _
  obtain ⟨v, hv, -⟩ := Arr.vec_op_fits hf
  rcases hb : (Bk.isnanAll || uk.isnanAll) with _ | _
  · rw [KalmanFilter.predict_ctrl hb]
    simp only [Bool.or_eq_false_iff] at hb
    rcases hc with hc | hc | ⟨p, hB, hu⟩
    · simp [← Arr.isnanAll_iff_blank, hb.1] at hc
    · simp [← Arr.isnanAll_iff_blank, hb.2] at hc
    · obtain ⟨dB, B, rfl⟩ := Arr.eq_mat hB
      obtain ⟨du, u, rfl⟩ := Arr.eq_vec hu
      simp only [Arr.T_mat, Arr.matmul_vm, Arr.matmul_mv, Except.bind_ok', Arr.add_vv, hv]
      exact ⟨_, _, _, _, rfl⟩
  · rw [KalmanFilter.predict_skip hb]
    simp only [Arr.T_mat, Arr.matmul_vm, Arr.matmul_mv, Except.bind_ok', Arr.add_vv, hv]
    exact ⟨_, _, _, _, rfl⟩

/-- A matrix minus a vector, row by row. -/
def Arr.mSubV {n : ℕ} (M : Matrix (Fin n) (Fin n) F) (v : Fin n → F) : Matrix (Fin n) (Fin n) F := fun i j => Backend.sub (M i j) (v j)

theorem Arr.assignMat_vec {n : ℕ} (d : DType) (v : Fin n → F) : (Arr.vec d v).assignMat n = .ok (.mat (m := n) .float64 fun _ j => v j) := by
  simp only [assignMat, toMat, stretch_self, Except.bind_ok']
  rfl

theorem Arr.sub_mv {n : ℕ} (d e : DType) (M : Matrix (Fin n) (Fin n) F) (v : Fin n → F) :
    (Arr.mat d M).sub (.vec e v) = .ok (.mat (d.promote e) (mSubV M v)) := by
  simp only [Arr.sub, zipWith_mat_left, zipWith2, dims2, bdim_one_right, bdim_self, Except.bind_ok', toMat_self]
  simp only [toMat, stretch_self, Except.bind_ok']
  rfl

theorem Arr.add_vm {n : ℕ} (d e : DType) (M : Matrix (Fin n) (Fin n) F) (v : Fin n → F) :
    (Arr.vec e v).add (.mat d M) = .ok (.mat (e.promote d) fun i j => Backend.add (v j) (M i j)) := by
  simp only [Arr.add, zipWith_mat_right, zipWith2, dims2, bdim_one_left, bdim_self, Except.bind_ok', toMat_self]
  simp only [toMat, stretch_self, Except.bind_ok']
  rfl

theorem gain_flat {n : ℕ} (dH e dR : DType) (H : Matrix (Fin n) (Fin n) F) (P : Fin n → F) (R : Matrix (Fin n) (Fin n) F) :
    KalmanFilter.gain (.mat dH H) (.vec e P) (.mat dR R) = .error .linAlgError ∨
    ∃ K : Fin n → F, KalmanFilter.gain (.mat dH H) (.vec e P) (.mat dR R) = .ok (.vec .float64 K) := by
  have hT : ∀ (d : DType) (v : Fin n → F), (Arr.vec d v).T = .vec d v := fun _ _ => rfl
  have hs : ∀ a b : Arr F, a.shape = [n, n] → b.shape = [n] → (do let X ← a.solve b; .ok X.T : Except PyErr (Arr F)) = .error .linAlgError ∨
      ∃ K : Fin n → F, (do let X ← a.solve b; .ok X.T : Except PyErr (Arr F)) = .ok (.vec .float64 K) := by
    intro a b ha hb
    obtain ⟨d, M, rfl⟩ := Arr.eq_mat ha
    obtain ⟨d', w, rfl⟩ := Arr.eq_vec hb
    simp only [Arr.solve, dite_true]
    split
    · exact .inl rfl
    · exact .inr ⟨_, rfl⟩
  simp only [KalmanFilter.gain, Arr.T_mat, Arr.matmul_vm, Arr.matmul_mv, Except.bind_ok', Arr.add_vm, hT]
  exact hs _ _ rfl rfl

/-- A step with vectors for covariances and as many sensors as states. -/
theorem step_flat {n : ℕ} {r : KalmanFilter.Row F} {x P : Arr F} (h : FlatRow n n r) (hs : KalmanFilter.Flat n x P) :
    KalmanFilter.step n (Arr.identity n) r x P = (none, .error .linAlgError) ∨
    ∃ (K : Fin n → F) (d : DType) (xp : Fin n → F) (e : DType) (Pp : Fin n → F) (c : F) (P' : Fin n → F) (d' : DType),
      KalmanFilter.predict r.1 x (some r.2.2.1) (some r.2.2.2.1) P r.2.2.2.2.2.1 = .ok (.vec d xp, .vec e Pp) ∧
      KalmanFilter.step n (Arr.identity n) r x P = (some (.vec .float64 K),
        .ok ((.vec .float64 fun i => Backend.add (xp i) c, .vec d' P'),
          (.vec .float64 fun i => Backend.add (xp i) c, .mat (m := n) .float64 fun _ j => P' j))) := by
  obtain ⟨Ak, Hk, Bk, uk, zk, Qk, Rk⟩ := r
  obtain ⟨hA, hH, hc, hz, hQ, hR⟩ := h
  simp only at hA hH hc hz hQ hR
  obtain ⟨d, xp, e, Pp, hp⟩ := predict_flat hA hc hQ hs
  obtain ⟨dH, H, rfl⟩ := Arr.eq_mat hH
  obtain ⟨dz, z, rfl⟩ := Arr.eq_vec hz
  obtain ⟨dR, R, rfl⟩ := Arr.eq_mat hR
  simp only [KalmanFilter.step, hp]
  rcases gain_flat dH e dR H Pp R with hg | ⟨K, hg⟩
  · left; simp only [hg]
  · right
    simp only [hg, KalmanFilter.correct, Arr.matmul_mv, Except.bind_ok', Arr.sub_vv, Arr.atleast1d_vec, Arr.matmul_vv, Arr.matmul_vm,
      identity_eq, Arr.sub_mv]
    refine ⟨K, d, xp, e, Pp, ?_⟩
    have ha : ∀ (d d' : DType) (v : Fin n → F) (c : F), (Arr.vec d v).add (.scalar d' c) = .ok (.vec (d.promote d') fun i => Backend.add (v i) c) :=
      fun _ _ _ _ => rfl
    simp only [ha, Except.bind_ok', Arr.promote_float_left, Arr.promote_float_right, Arr.matmul_mv, Arr.assignVec_vec, Arr.assignMat_vec]
    exact ⟨_, _, _, trivial, rfl⟩

/-- In a run without exception whose steps keep an invariant and write the state they hand on, step `k` starts from the state written by
step `k - 1`. -/
theorem trace_at_state {ρ : Type} {step : ρ → Arr F → Arr F → StepOut F} {Inv : Arr F → Arr F → Prop} (rs : List ρ)
    (hk : ∀ r ∈ rs, ∀ x P g xP o, Inv x P → step r x P = (g, .ok (xP, o)) → o.1 = xP.1 ∧ Inv xP.1 xP.2 ∧ ∃ K, g = some K)
    (x₀ P₀ : Arr F) (h₀ : Inv x₀ P₀) (he : (trace step rs x₀ P₀).err = none) (k : ℕ) (hlt : k < rs.length) :
    ∃ r x P K xP o, rs[k]? = some r ∧ Inv x P ∧ step r x P = (some K, .ok (xP, o)) ∧ (trace step rs x₀ P₀).outs[k]? = some o ∧
      (trace step rs x₀ P₀).gains[k]? = some K ∧ (k = 0 → x = x₀) ∧
      ∀ k', k = k' + 1 → ∃ o', (trace step rs x₀ P₀).outs[k']? = some o' ∧ o'.1 = x := by
  induction rs generalizing x₀ P₀ k with
  | nil => simp at hlt
  | cons r rs ih =>
    simp only [trace] at he ⊢
    rcases hr : step r x₀ P₀ with ⟨g, e | ⟨xP, out⟩⟩
    · simp [hr] at he
    simp only [hr] at he ⊢
    obtain ⟨ho, hinv, K, rfl⟩ := hk r (by simp) _ _ _ _ _ h₀ hr
    cases k with
    | zero => exact ⟨r, x₀, P₀, K, xP, out, rfl, h₀, hr, rfl, rfl, fun _ => rfl, fun k' h => by omega⟩
    | succ k =>
      obtain ⟨r', x, P, K', xP', o, h1, h2, h3, h4, h5, h6, h7⟩ := ih (fun r' hr' => hk r' (by simp [hr'])) _ _ hinv he k (by simpa using hlt)
      refine ⟨r', x, P, K', xP', o, by simpa using h1, h2, h3, by simpa using h4, by simpa using h5, by simp, fun k' hk' => ?_⟩
      obtain rfl : k = k' := by omega
      cases k with
      | zero => exact ⟨out, rfl, by rw [h6 rfl, ho]⟩
      | succ k => simpa using h7 k rfl

/-- A call with `Pk` of shape `(n,)` and all rows of `Q` of shape `(n,)` (or scalars); the rest as documented. -/
structure FlatCall (n m : ℕ) (kf : KalmanFilter F) (Z : NDArray F) (U : Option (NDArray F)) : Prop where
  x : kf.xk.shape = [n]
  P : kf.Pk.shape = [n]
  size : kf.stateSize = n
  ident : kf.I = Arr.identity n
  iter : kf.AllIterable Z U
  A : ∀ a ∈ kf.A.rows, a.shape = [n, n]
  H : ∀ a ∈ kf.H.rows, a.shape = [m, n]
  control : ∀ (k : ℕ) (b u : Arr F), kf.B.rows[k]? = some b → (effU U Z).rows[k]? = some u →
    b.Blank ∨ u.Blank ∨ ∃ p, b.shape = [n, p] ∧ u.shape = [p]
  z : ∀ z ∈ Z.rows, z.shape = [m]
  Q : ∀ q ∈ kf.Q.rows, q.shape = [n] ∨ q.shape = []
  R : ∀ r ∈ kf.R.rows, r.shape = [m, m]

theorem FlatCall.row {n m : ℕ} {kf : KalmanFilter F} {Z : NDArray F} {U : Option (NDArray F)} (h : FlatCall n m kf Z U)
    {r : KalmanFilter.Row F} (hr : r ∈ kf.zrows Z U) : FlatRow n m r := by
  obtain ⟨k, hk⟩ := List.mem_iff_getElem?.1 hr
  obtain ⟨h1, h2, h3, h4, h5, h6, h7⟩ := KalmanFilter.row_parts hk
  exact ⟨h.A _ (List.mem_of_getElem? h1), h.H _ (List.mem_of_getElem? h2), h.control k _ _ h3 h4, h.z _ (List.mem_of_getElem? h5),
    h.Q _ (List.mem_of_getElem? h6), h.R _ (List.mem_of_getElem? h7)⟩

/-- C141: with vectors for `Pk` and for the rows of `Q`, a number of sensors other than the number of states is rejected: ValueError at
the first row. -/
theorem C141_rejected {n m : ℕ} (kf : KalmanFilter F) (Z : NDArray F) (U : Option (NDArray F)) (h : FlatCall n m kf Z U) (hmn : m ≠ n)
    (hst : 0 < kf.steps Z U) : ∃ kf', (KalmanFilter.filter Z U).run kf = (.error .valueError, kf') ∧
      (KalmanFilter.smooth Z U).run kf = (.error .valueError, kf') := by
  obtain ⟨e, kf', rfl, h1, h2⟩ := KalmanFilter.first_step_raises h.iter hst (· = .valueError) (fun r hr => by
    obtain ⟨hA, hH, hc, hz, hQ, hR⟩ := h.row hr
    obtain ⟨Ak, Hk, Bk, uk, zk, Qk, Rk⟩ := r
    simp only at hA hH hc hz hQ hR
    obtain ⟨d, xp, e, Pp, hp⟩ := predict_flat hA hc hQ (x := kf.xk) (P := kf.Pk) ⟨h.x, h.P⟩
    obtain ⟨dH, H, rfl⟩ := Arr.eq_mat hH
    have hg : KalmanFilter.gain (.mat dH H) (.vec e Pp) Rk = .error .valueError := by
      have hne : ∀ (d d' : DType) (v : Fin m → F), (Arr.mat d H).matmul (.vec d' v) = .error .valueError := fun _ _ _ => by
        simp [Arr.matmul, Ne.symm hmn]
      simp only [KalmanFilter.gain, Arr.T_mat, Arr.matmul_vm, Except.bind_ok', hne, Except.bind_error']
    exact ⟨none, .valueError, by simp only [KalmanFilter.step, hp, hg], rfl⟩)
  exact ⟨kf', h1, h2⟩

/-- C141: with as many sensors as states such a call goes through: it returns or raises LinAlgError. -/
theorem C141_accepted {n : ℕ} (kf : KalmanFilter F) (Z : NDArray F) (U : Option (NDArray F)) (h : FlatCall n n kf Z U) :
    (∃ r kf', (KalmanFilter.filter Z U).run kf = (.ok r, kf')) ∨ ∃ kf', (KalmanFilter.filter Z U).run kf = (.error .linAlgError, kf') := by
  rw [KalmanFilter.filter_iter h.iter]
  rcases he : (kf.tr Z U).err with _ | e
  · exact .inl ⟨_, _, rfl⟩
  right
  have gen : ∀ (rs : List (KalmanFilter.Row F)) (x P : Arr F), (∀ r ∈ rs, r ∈ kf.zrows Z U) → KalmanFilter.Flat n x P →
      ∀ e, (trace (KalmanFilter.step n (Arr.identity n)) rs x P).err = some e → e = .linAlgError := by
    intro rs
    induction rs with
    | nil => intro x P _ _ e he; simp [trace] at he
    | cons r rs ih =>
      intro x P hm hs e he
      have hr := step_flat (h.row (hm r (by simp))) hs
      rcases hr with hr | ⟨K, d, xp, e', Pp, c, P', d', -, hr⟩
      · simp only [trace, hr, Option.some.injEq] at he; exact he.symm
      · simp only [trace, hr] at he
        exact ih _ _ (fun r hr => hm r (by simp [hr])) ⟨rfl, rfl⟩ e he
  have he' := he
  simp only [KalmanFilter.tr, h.size, h.ident] at he'
  have : e = .linAlgError := gen _ _ _ (fun r hr => hr) ⟨h.x, h.P⟩ e he'
  subst this
  exact ⟨_, rfl⟩

/-- C141: and what it returns is not an estimate: every gain is a vector, every component of the predicted state is corrected by the same
number, and every returned covariance matrix has equal rows. -/
theorem C141_shared_correction {n : ℕ} (kf kf' : KalmanFilter F) (Z : NDArray F) (U : Option (NDArray F)) (h : FlatCall n n kf Z U)
    (xs Ps : List (Arr F)) (hr : (KalmanFilter.filter Z U).run kf = (.ok (xs, Ps), kf')) (k : ℕ) (hk : k < kf.steps Z U) :
    (∃ K : Fin n → F, kf'.kalmanGains[kf.kalmanGains.length + k]? = some (.vec .float64 K)) ∧
    (∃ p : Fin n → F, Ps[k]? = some (.mat (m := n) .float64 fun _ j => p j)) ∧
    ∃ (Ak Bk uk Qk x P : Arr F) (d e : DType) (xp Pp : Fin n → F) (c : F),
      kf.A.rows[k]? = some Ak ∧ kf.B.rows[k]? = some Bk ∧ (effU U Z).rows[k]? = some uk ∧ kf.Q.rows[k]? = some Qk ∧
      (k = 0 → x = kf.xk) ∧ (∀ k', k = k' + 1 → xs[k']? = some x) ∧
      KalmanFilter.predict Ak x (some Bk) (some uk) P Qk = .ok (.vec d xp, .vec e Pp) ∧
      xs[k]? = some (.vec .float64 fun i => Backend.add (xp i) c) := by
  have hi := h.iter
  rw [KalmanFilter.filter_iter hi] at hr
  have he : (kf.tr Z U).err = none := by
    rcases he : (kf.tr Z U).err with _ | e
    · rfl
    · rw [he] at hr; simp at hr
  rw [he] at hr
  simp only [Prod.mk.injEq, Except.ok.injEq] at hr
  obtain ⟨⟨rfl, rfl⟩, rfl⟩ := hr
  have key : ∀ r ∈ kf.zrows Z U, ∀ x P g xP o, KalmanFilter.Flat n x P →
      KalmanFilter.step kf.stateSize kf.I r x P = (g, .ok (xP, o)) →
      (∃ (K : Fin n → F) (d : DType) (xp : Fin n → F) (e : DType) (Pp : Fin n → F) (c : F) (P' : Fin n → F),
        KalmanFilter.predict r.1 x (some r.2.2.1) (some r.2.2.2.1) P r.2.2.2.2.2.1 = .ok (.vec d xp, .vec e Pp) ∧
        g = some (.vec .float64 K) ∧ o = (.vec .float64 fun i => Backend.add (xp i) c, .mat (m := n) .float64 fun _ j => P' j)) ∧
      o.1 = xP.1 ∧ KalmanFilter.Flat n xP.1 xP.2 ∧ ∃ K, g = some K := by
    intro r hr x P g xP o hs hstep
    rw [h.size, h.ident] at hstep
    rcases step_flat (h.row hr) hs with hq | ⟨K, d, xp, e, Pp, c, P', d', hp, hq⟩
    · rw [hq] at hstep; simp at hstep
    · rw [hq] at hstep
      simp only [Prod.mk.injEq, Except.ok.injEq] at hstep
      obtain ⟨rfl, rfl, rfl⟩ := hstep
      exact ⟨⟨K, d, xp, e, Pp, c, P', hp, rfl, rfl⟩, rfl, ⟨rfl, rfl⟩, _, rfl⟩
  have hlt : k < (kf.zrows Z U).length := by rw [KalmanFilter.zrows_length]; exact hk
  obtain ⟨r, x, P, K₀, xP, o, h1, h2, h3, h4, h5, h6, h7⟩ := trace_at_state (Inv := KalmanFilter.Flat n) (kf.zrows Z U)
    (fun r hr x P g xP o hs hstep => (key r hr x P g xP o hs hstep).2) kf.xk kf.Pk ⟨h.x, h.P⟩ he k hlt
  obtain ⟨⟨K, d, xp, e, Pp, c, P', hp, hK, ho⟩, -⟩ := key r (List.mem_of_getElem? h1) _ _ _ _ _ h2 h3
  obtain ⟨e1, -, e3, e4, -, e6, -⟩ := KalmanFilter.row_parts h1
  have hl : (kf.tr Z U).outs.length = (kf.zrows Z U).length := trace_length _ _ _ _ he
  refine ⟨⟨K, ?_⟩, ⟨P', ?_⟩, r.1, r.2.2.1, r.2.2.2.1, r.2.2.2.2.2.1, x, P, d, e, xp, Pp, c, e1, e3, e4, e6, h6, ?_, hp, ?_⟩
  · simp only [KalmanFilter.addGains]
    rw [List.getElem?_append_right (by omega), Nat.add_sub_cancel_left]
    rw [← hK]
    exact h5
  · rw [List.getElem?_append_left (by rw [List.length_map, hl]; exact hlt), List.getElem?_map]
    show Option.map _ ((trace _ _ _ _).outs[k]?) = _
    rw [h4, ho]; rfl
  · intro k' hk'
    obtain ⟨o', h8, h9⟩ := h7 k' hk'
    rw [List.getElem?_append_left (by rw [List.length_map, hl]; omega), List.getElem?_map]
    show Option.map _ ((trace _ _ _ _).outs[k']?) = _
    rw [h8, ← h9]; rfl
  · rw [List.getElem?_append_left (by rw [List.length_map, hl]; exact hlt), List.getElem?_map]
    show Option.map _ ((trace _ _ _ _).outs[k]?) = _
    rw [h4, ho]; rfl

/-- C141, exact arithmetic: `predict` with a vector `p` for the covariance and a matrix `Q` returns `Q + (A (A p))` in every row, where the
vector of variances would have meant `A diag(p) A' + Q`. -/
theorem C141_initial_variances [Platform] {n : ℕ} (Ak xk Bk uk Pk Qk xp Pp : Arr Fl) (A Q : Matrix (Fin n) (Fin n) ℝ) (p : Fin n → ℝ)
    (hA : MatIs A Ak) (hP : VecIs p Pk) (hQ : MatIs Q Qk)
    (h : KalmanFilter.predict Ak xk (some Bk) (some uk) Pk Qk = .ok (xp, Pp)) :
    MatIs (fun i j => Q i j + (A.mulVec (A.mulVec p)) j) Pp := by
  obtain ⟨dA, rfl⟩ := hA
  obtain ⟨dP, rfl⟩ := hP
  obtain ⟨dQ, rfl⟩ := hQ
  have key : ∀ x : Arr Fl, (do
      let pat ← (Arr.vec dP (finV p)).matmul (Arr.mat dA (finM A)).T
      let apat ← (Arr.mat dA (finM A)).matmul pat
      let Pp ← apat.add (.mat dQ (finM Q))
      .ok (x, Pp) : Except PyErr (Arr Fl × Arr Fl)) = .ok (xp, Pp) → MatIs (fun i j => Q i j + (A.mulVec (A.mulVec p)) j) Pp := by
    intro x hx
    have hv : (Arr.vec dP (finV p)).matmul (Arr.mat dA (finM A)).T = .ok (.vec (dP.promote dA) (finV (A.mulVec p))) := by
      rw [Arr.T_mat, Arr.matmul_vm]
      congr 2
      funext i
      simp only [Backend.gemm, finM, finV, Matrix.transpose_apply, Fl.fin_mul, Fl.sum_fin, Matrix.mulVec, dotProduct, mul_comm]
    rw [hv] at hx
    simp only [Arr.fmv, Except.bind_ok', Arr.add_vm, Except.ok.injEq, Prod.mk.injEq] at hx
    obtain ⟨-, rfl⟩ := hx
    refine ⟨(dA.promote (dP.promote dA)).promote dQ, ?_⟩
    congr 1
    funext i j
    show Fl.fin _ + Fl.fin _ = Fl.fin _
    rw [Fl.fin_add, add_comm]
  rcases hb : (Bk.isnanAll || uk.isnanAll) with _ | _
  · rw [KalmanFilter.predict_ctrl hb] at h
    obtain ⟨_, -, h⟩ := Except.bind_eq_ok h
    obtain ⟨_, -, h⟩ := Except.bind_eq_ok h
    obtain ⟨_, -, h⟩ := Except.bind_eq_ok h
    exact key _ h
  · rw [KalmanFilter.predict_skip hb] at h
    obtain ⟨_, -, h⟩ := Except.bind_eq_ok h
    exact key _ h

/-! ### Non-vacuity -/

namespace Ex

/-- Two states, both measured, all covariances given as vectors of variances except `R`. -/
def flat : KalmanFilter QN where
  A := .stack (List.replicate 2 (mat2 (some 1) (some 1) (some 0) (some 1)))
  xk := vec2 (some 0) (some 1)
  B := .stack (List.replicate 2 (mat2 none none none none))
  Pk := vec2 (some 2) (some 1)
  H := .stack (List.replicate 2 (mat2 (some 1) (some 0) (some 0) (some 1)))
  Q := .stack (List.replicate 2 (vec2 (some (1/4)) (some (1/4))))
  R := .stack (List.replicate 2 (mat2 (some 1) (some 0) (some 0) (some 1)))
  stateSize := 2
  I := Arr.identity 2
  kalmanGains := []

/-- Two observations of both states. -/
def flatZ : NDArray QN := .stack [vec2 (some 1) (some 2), vec2 (some 3) (some 1)]

/-- The same with matrices. -/
def full : KalmanFilter QN :=
  { flat with Pk := mat2 (some 2) (some 0) (some 0) (some 1)
              Q := .stack (List.replicate 2 (mat2 (some (1/4)) (some 0) (some 0) (some (1/4)))) }

/-- A vector of variances in every row of `R`, matrices elsewhere. -/
def vecR : KalmanFilter QN := { full with R := vectors [![some 1, some 2], ![some 1, some 2]], Q := vectors [![some 1, some 2], ![some 1, some 2]] }

end Ex

theorem Ex.flat_call : FlatCall 2 2 Ex.flat Ex.flatZ none where
  x := rfl
  P := rfl
  size := rfl
  ident := rfl
  iter := ⟨trivial, trivial, trivial, trivial, trivial, trivial, trivial⟩
  A := by simp [Ex.flat, NDArray.rows]; rfl
  H := by simp [Ex.flat, NDArray.rows]; rfl
  control := by
    intro k b u hb hu
    left
    have := List.mem_of_getElem? hb
    simp [Ex.flat, NDArray.rows] at this
    subst this
    exact (Arr.isnanAll_iff_blank _).1 (by decide)
  z := by simp [Ex.flatZ, NDArray.rows]; exact ⟨rfl, rfl⟩
  Q := by simp [Ex.flat, NDArray.rows]; exact .inl rfl
  R := by simp [Ex.flat, NDArray.rows]; rfl

/-- C141 is met by a call that returns, as does the call with the matrices that were meant. -/
example : (∃ r kf', (KalmanFilter.filter Ex.flatZ none).run Ex.flat = (.ok r, kf')) ∧
    (∃ r kf', (KalmanFilter.filter Ex.flatZ none).run Ex.full = (.ok r, kf')) :=
  ⟨(Ex.returned_iff _).1 (by decide +kernel), (Ex.returned_iff _).1 (by decide +kernel)⟩

/-- C141_noise_vectors is met by a call that returns. -/
example : Ex.vecR.Q = vectors [![some 1, some 2], ![some 1, some 2]] ∧
    Layout 2 2 { Ex.vecR with Q := repeatedRows [![some 1, some 2], ![some 1, some 2]], R := repeatedRows [![some 1, some 2], ![some 1, some 2]] }
      Ex.flatZ none ∧ ∃ r kf', (KalmanFilter.smooth Ex.flatZ none).run Ex.vecR = (.ok r, kf') := by
  refine ⟨rfl, ⟨rfl, rfl, rfl, rfl, ?_⟩, (Ex.returned_iff _).1 (by decide +kernel)⟩
  intro k Ak Hk Bk uk zk Qk Rk h1 h2 h3 h4 h5 h6 h7
  replace h1 := List.mem_of_getElem? h1
  replace h2 := List.mem_of_getElem? h2
  replace h3 := List.mem_of_getElem? h3
  replace h5 := List.mem_of_getElem? h5
  replace h6 := List.mem_of_getElem? h6
  replace h7 := List.mem_of_getElem? h7
  simp [Ex.vecR, Ex.full, Ex.flat, NDArray.rows, repeatedRows, Ex.flatZ] at h1 h2 h3 h5 h6 h7
  subst h1 h2 h3
  refine ⟨rfl, rfl, .inl ((Arr.isnanAll_iff_blank _).1 (by decide)), ?_, ?_, ?_⟩
  · rcases h5 with rfl | rfl <;> exact .inl rfl
  · subst h6; exact .inl rfl
  · subst h7; exact .inl rfl

end KK
