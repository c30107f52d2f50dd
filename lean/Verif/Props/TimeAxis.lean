import Verif.Props.Variances
import Verif.Spec.TimeAxis
import Verif.Test.QBackend

/-!
# A parameter without its time axis (C148)

Specification: `single`, `rowCopies`, `EntrywiseProducts` (`Spec/TimeAxis.lean`).
-/

set_option linter.unusedSectionVars false
set_option linter.unusedSimpArgs false

namespace KK

variable {F : Type} [Backend F]

@[simp] theorem single_rows {r c : ℕ} (d : DType) (M : Matrix (Fin r) (Fin c) F) : (single d M).rows = List.ofFn fun i => .vec d (M i) := rfl
@[simp] theorem rowCopies_rows {r c : ℕ} (s : ℕ) (d : DType) (M : Matrix (Fin r) (Fin c) F) :
    (rowCopies s d M).rows = List.ofFn fun i => .mat (m := s) d fun _ j => M i j := rfl

theorem mem_single {r c : ℕ} {d : DType} {M : Matrix (Fin r) (Fin c) F} {a : Arr F} (h : a ∈ (single d M).rows) : ∃ v : Fin c → F, a = .vec d v := by
  obtain ⟨i, rfl⟩ := (List.mem_ofFn' _ _).1 h
  exact ⟨_, rfl⟩

theorem single_broadcast {r c s : ℕ} (d : DType) (M : Matrix (Fin r) (Fin c) F) :
    (single d M).RowsBroadcast [s, c] (rowCopies s d M) := by
  refine .stack _ _ ?_
  rw [List.ofFn_eq_map, List.ofFn_eq_map, List.forall₂_map_left_iff, List.forall₂_map_right_iff]
  exact List.forall₂_same.2 fun v _ => Arr.IsBroadcast.rows _ _

/-- As `first_step_raises`, with the gains. -/
theorem KalmanFilter.first_raises {kf : KalmanFilter F} {Z : NDArray F} {U : Option (NDArray F)}
    (hi : kf.AllIterable Z U) (hst : 0 < kf.steps Z U) (p : Option (Arr F) → PyErr → Prop)
    (h : ∀ r ∈ (kf.zrows Z U)[0]?, ∃ g e, KalmanFilter.step kf.stateSize kf.I r kf.xk kf.Pk = (g, .error e) ∧ p g e) :
    ∃ g e, p g e ∧ (KalmanFilter.filter Z U).run kf = (.error e, { kf with kalmanGains := kf.kalmanGains ++ g.toList }) ∧
      (KalmanFilter.smooth Z U).run kf = (.error e, { kf with kalmanGains := kf.kalmanGains ++ g.toList }) := by
  rw [← KalmanFilter.zrows_length] at hst
  obtain ⟨r, rs, hrs⟩ : ∃ r rs, kf.zrows Z U = r :: rs := by
    cases h : kf.zrows Z U with
    | nil => simp [h] at hst
    | cons r rs => exact ⟨r, rs, rfl⟩
  obtain ⟨g, e, he, hp⟩ := h r (by simp [hrs])
  have hf : (KalmanFilter.filter Z U).run kf = (.error e, { kf with kalmanGains := kf.kalmanGains ++ g.toList }) := by
    rw [KalmanFilter.filter_iter hi]
    simp only [KalmanFilter.tr, hrs, trace, he, KalmanFilter.addGains]
  exact ⟨g, e, hp, hf, by simp only [KalmanFilter.smooth, Py.run_bind, hf]⟩

/-- C148: if `A`, `H`, `Q`, `R` are all passed as single matrices, every call on nonempty data raises ValueError at once and leaves
the object as it was - with or without a control input, in any dimensions. -/
theorem C148_all_single {n m : ℕ} (kf : KalmanFilter F) (Z : NDArray F) (U : Option (NDArray F)) (dA dH dQ dR : DType)
    (A : Matrix (Fin n) (Fin n) F) (H : Matrix (Fin m) (Fin n) F) (Q : Matrix (Fin n) (Fin n) F) (R : Matrix (Fin m) (Fin m) F)
    (hA : kf.A = single dA A) (hH : kf.H = single dH H) (hQ : kf.Q = single dQ Q) (hR : kf.R = single dR R)
    (hx : kf.xk.shape = [n]) (hP : kf.Pk.shape = [n, n]) (hi : kf.AllIterable Z U) (hst : 0 < kf.steps Z U) :
    (KalmanFilter.filter Z U).run kf = (.error .valueError, kf) ∧ (KalmanFilter.smooth Z U).run kf = (.error .valueError, kf) := by
  obtain ⟨g, e, ⟨rfl, rfl⟩, h1, h2⟩ := KalmanFilter.first_raises hi hst (fun g e => g = none ∧ e = .valueError) (fun r hr => by
    obtain ⟨e1, e2, -, -, -, e6, -⟩ := KalmanFilter.row_parts hr
    obtain ⟨Ak, Hk, Bk, uk, zk, Qk, Rk⟩ := r
    simp only at e1 e2 e6
    obtain ⟨a, rfl⟩ := mem_single (hA ▸ List.mem_of_getElem? e1)
    obtain ⟨h, rfl⟩ := mem_single (hH ▸ List.mem_of_getElem? e2)
    obtain ⟨q, rfl⟩ := mem_single (hQ ▸ List.mem_of_getElem? e6)
    obtain ⟨dx, x, hx⟩ := Arr.eq_vec hx
    obtain ⟨dP, P, hP⟩ := Arr.eq_mat hP
    rw [hx, hP]
    have hT : ∀ (d : DType) (v : Fin n → F), (Arr.vec d v).T = .vec d v := fun _ _ => rfl
    have hg : ∀ (d : DType) (p : Fin n → F), KalmanFilter.gain (.vec dH h) (.vec d p) Rk = .error .valueError := fun d p => by
      simp only [KalmanFilter.gain, hT, Arr.matmul_vv, Except.bind_ok']
      rfl
    have hadd : ∀ (d d' : DType) (s : F) (v : Fin n → F), (Arr.scalar d s).add (.vec d' v) = .ok (.vec (d.promote d') fun i => Backend.add s (v i)) :=
      fun _ _ _ _ => rfl
    rcases hb : (Bk.isnanAll || uk.isnanAll) with _ | _
    · rcases hBu : Bk.matmul uk with e | bu
      · have := Arr.matmul_error hBu
        subst this
        refine ⟨none, .valueError, ?_, rfl, rfl⟩
        simp only [KalmanFilter.step, KalmanFilter.predict_ctrl hb, Arr.matmul_vv, Except.bind_ok', hBu, Except.bind_error']
      · refine ⟨none, .valueError, ?_, rfl, rfl⟩
        rcases hs : (Arr.scalar (dA.promote dx) (Backend.gemm (m := 1) (n := 1) (fun _ i => a i) (fun i _ => x i) 0 0)).add bu with e | s
        · have := Arr.add_error hs
          subst this
          simp only [KalmanFilter.step, KalmanFilter.predict_ctrl hb, Arr.matmul_vv, Except.bind_ok', hBu, hs, Except.bind_error']
        · simp only [KalmanFilter.step, KalmanFilter.predict_ctrl hb, Arr.matmul_vv, Except.bind_ok', hBu, hs, hT, Arr.matmul_mv, hadd, hg]
    · refine ⟨none, .valueError, ?_, rfl, rfl⟩
      simp only [KalmanFilter.step, KalmanFilter.predict_skip hb, Arr.matmul_vv, Except.bind_ok', hT, Arr.matmul_mv, hadd, hg])
  simp only [Option.toList_none, List.append_nil] at h1 h2
  exact ⟨h1, h2⟩

/-! ### Only `A` -/

theorem Arr.add_sm {n m : ℕ} (d e : DType) (s : F) (M : Matrix (Fin n) (Fin m) F) :
    (Arr.scalar d s).add (.mat e M) = .ok (.mat (d.promote e) fun i j => Backend.add s (M i j)) := by
  simp only [Arr.add, zipWith_mat_right, zipWith2, dims2, bdim_one_left, Except.bind_ok', toMat_self]
  rfl

theorem Arr.add_sv {n : ℕ} (d d' : DType) (s : F) (v : Fin n → F) :
    (Arr.scalar d s).add (.vec d' v) = .ok (.vec (d.promote d') fun i => Backend.add s (v i)) := rfl

/-- A matrix whose rows are all the given vector. -/
def copies {n : ℕ} (s : ℕ) (a : Fin n → F) : Matrix (Fin s) (Fin n) F := fun _ j => a j

/-- C148: if only `A` is passed as a single matrix and the first step has no control, the call raises at the first step: the predicted
state is a single number, which `H` cannot multiply.  The gain has been recorded by then, unless computing it raised LinAlgError. -/
theorem C148_single_A {n m : ℕ} (kf : KalmanFilter F) (Z : NDArray F) (U : Option (NDArray F)) (dA : DType) (A : Matrix (Fin n) (Fin n) F)
    (hA : kf.A = single dA A) (hl : Layout n m { kf with A := rowCopies n dA A } Z U) (hQ : ∀ q ∈ kf.Q.rows, q.shape = [n, n])
    (hc : (∀ b ∈ kf.B.rows[0]?, b.Blank) ∨ ∀ u ∈ (effU U Z).rows[0]?, u.Blank)
    (hi : kf.AllIterable Z U) (hst : 0 < kf.steps Z U) :
    ((KalmanFilter.filter Z U).run kf = (.error .linAlgError, kf) ∧ (KalmanFilter.smooth Z U).run kf = (.error .linAlgError, kf)) ∨
    ∃ K : Arr F, (KalmanFilter.filter Z U).run kf = (.error .valueError, { kf with kalmanGains := kf.kalmanGains ++ [K] }) ∧
      (KalmanFilter.smooth Z U).run kf = (.error .valueError, { kf with kalmanGains := kf.kalmanGains ++ [K] }) := by
  obtain ⟨g, e, hge, h1, h2⟩ := KalmanFilter.first_raises hi hst
    (fun g e => g = none ∧ e = .linAlgError ∨ (∃ K, g = some K) ∧ e = .valueError) (fun r hr => by
    obtain ⟨e1, e2, e3, e4, e5, e6, e7⟩ := KalmanFilter.row_parts hr
    obtain ⟨Ak, Hk, Bk, uk, zk, Qk, Rk⟩ := r
    simp only at e1 e2 e3 e4 e5 e6 e7
    have e1' : (rowCopies n dA A).rows[0]? = (List.ofFn fun i => Arr.mat (m := n) dA (copies n (A i)))[0]? := rfl
    have hlen : 0 < n := by
      rw [hA] at e1
      obtain ⟨h, -⟩ := List.getElem?_eq_some_iff.1 e1
      simpa using h
    have hrow := hl.rows 0 _ Hk Bk uk zk Qk Rk (e1'.trans (List.getElem?_eq_getElem (by simpa using hlen))) e2 e3 e4 e5 e6 e7
    obtain ⟨a, rfl⟩ := mem_single (hA ▸ List.mem_of_getElem? e1)
    obtain ⟨dH, H, rfl⟩ := Arr.eq_mat hrow.H
    obtain ⟨dQ, Q, rfl⟩ := Arr.eq_mat (hQ _ (List.mem_of_getElem? e6))
    obtain ⟨dx, x, hx⟩ := Arr.eq_vec hl.x
    obtain ⟨dP, P, hP⟩ := Arr.eq_mat hl.P
    simp only at hx hP
    rw [hx, hP]
    have hT : ∀ (d : DType) (v : Fin n → F), (Arr.vec d v).T = .vec d v := fun _ _ => rfl
    have hb : (Bk.isnanAll || uk.isnanAll) = true := by
      rw [Bool.or_eq_true]
      rcases hc with hc | hc
      · exact .inl ((Arr.isnanAll_iff_blank _).2 (hc _ e3))
      · exact .inr ((Arr.isnanAll_iff_blank _).2 (hc _ e4))
    obtain ⟨d, y, e, Pp, hp⟩ : ∃ (d : DType) (y : F) (e : DType) (Pp : Matrix (Fin n) (Fin n) F),
        KalmanFilter.predict (.vec dA a) (.vec dx x) (some Bk) (some uk) (.mat dP P) (.mat dQ Q) = .ok (.scalar d y, .mat e Pp) := by
      rw [KalmanFilter.predict_skip hb]
      simp only [Arr.matmul_vv, Except.bind_ok', hT, Arr.matmul_mv, Arr.add_sm]
      exact ⟨_, _, _, _, rfl⟩
    simp only [KalmanFilter.step, hp]
    have hR : FitsShape Rk.shape [m, m] := by
      rcases hrow.R with h | h <;> rw [h]
      · exact FitsShape.two.2 ⟨.inl rfl, .inl rfl⟩
      · exact FitsShape.nil _
    rcases gain_fits (Hk := .mat dH H) (P := .mat e Pp) rfl rfl hR with hg | ⟨K, hg⟩
    · exact ⟨none, .linAlgError, by simp only [hg], .inl ⟨rfl, rfl⟩⟩
    · refine ⟨some _, .valueError, by simp only [hg]; rfl, .inr ⟨⟨_, rfl⟩, rfl⟩⟩)
  rcases hge with ⟨rfl, rfl⟩ | ⟨⟨K, rfl⟩, rfl⟩
  · left
    simp only [Option.toList_none, List.append_nil] at h1 h2
    exact ⟨h1, h2⟩
  · exact .inr ⟨K, h1, h2⟩

theorem predict_single (hE : EntrywiseProducts F) {n p : ℕ} (dA dx dB du dP dQ : DType) (a x : Fin n → F) (B : Matrix (Fin n) (Fin p) F)
    (u : Fin p → F) (P Q : Matrix (Fin n) (Fin n) F) (hb : ((Arr.mat dB B).isnanAll || (Arr.vec du u).isnanAll) = false) :
    KalmanFilter.predict (.vec dA a) (.vec dx x) (some (.mat dB B)) (some (.vec du u)) (.mat dP P) (.mat dQ Q) =
    KalmanFilter.predict (.mat dA (copies n a)) (.vec dx x) (some (.mat dB B)) (some (.vec du u)) (.mat dP P) (.mat dQ Q) := by
  have hT : ∀ (d : DType) (v : Fin n → F), (Arr.vec d v).T = .vec d v := fun _ _ => rfl
  rw [KalmanFilter.predict_ctrl hb, KalmanFilter.predict_ctrl hb]
  simp only [Arr.matmul_vv, Except.bind_ok', hT, Arr.matmul_mv, Arr.add_sm, Arr.add_sv, Arr.T_mat, Arr.matmul_mm, Arr.add_vv, Arr.add_mm]
  congr 3
  · funext i
    exact congrArg (Backend.add · _) (hE (copies n a) (fun l _ => x l) i 0).symm
  · funext i j
    refine congrArg (Backend.add · _) ?_
    rw [hE (copies n a)]
    congr 2
    funext l _
    rw [hE P (copies n a).transpose, hE P (fun i _ => a i)]
    rfl

theorem forall₂_zip' {α α' β β' : Type} {R : α → α' → Prop} {S : β → β' → Prop} {l : List α} {l' : List α'} {m : List β} {m' : List β'}
    (h : List.Forall₂ R l l') (h' : List.Forall₂ S m m') : List.Forall₂ (fun a b => R a.1 b.1 ∧ S a.2 b.2) (l.zip m) (l'.zip m') := by
  induction h generalizing m m' with
  | nil => simp
  | cons h1 h2 ih =>
    cases h' with
    | nil => simp
    | cons h3 h4 => exact .cons ⟨h1, h3⟩ (ih h4)

theorem forall₂_refl_zip {α α' β : Type} {R : α → α' → Prop} {l : List α} {l' : List α'} (m : List β)
    (h : List.Forall₂ R l l') : List.Forall₂ (fun a b => R a.1 b.1 ∧ a.2 = b.2) (l.zip m) (l'.zip m) :=
  forall₂_zip' h (List.forall₂_same.2 fun _ _ => rfl)

theorem forall₂_mem_right {α β : Type} {R : α → β → Prop} {l : List α} {l' : List β} (h : List.Forall₂ R l l') :
    List.Forall₂ (fun a b => R a b ∧ b ∈ l') l l' := by
  induction h with
  | nil => exact .nil
  | cons h1 h2 ih => exact .cons ⟨h1, by simp⟩ (ih.imp fun a b h => ⟨h.1, by simp [h.2]⟩)

/-- C148: if only `A` is passed as a single matrix and every processed step has a control, nothing is raised for it: the result is that of the
model whose transition matrix at step `k` has the `k`-th row of `A` as each of its rows.  (In arithmetics where every dot product is
computed on its own.) -/
theorem C148_single_A_controlled (hE : EntrywiseProducts F) {n m : ℕ} (kf : KalmanFilter F) (Z : NDArray F) (U : Option (NDArray F))
    (dA : DType) (A : Matrix (Fin n) (Fin n) F) (hA : kf.A = single dA A) (hl : Layout n m { kf with A := rowCopies n dA A } Z U)
    (hQ : ∀ q ∈ kf.Q.rows, q.shape = [n, n]) (hB : ∀ b ∈ kf.B.rows, ¬ b.Blank) (hU : ∀ u ∈ (effU U Z).rows, ¬ u.Blank) :
    ((KalmanFilter.filter Z U).run kf).1 = ((KalmanFilter.filter Z U).run { kf with A := rowCopies n dA A }).1 ∧
    ((KalmanFilter.filter Z U).run kf).2.kalmanGains = ((KalmanFilter.filter Z U).run { kf with A := rowCopies n dA A }).2.kalmanGains := by
  by_cases hi : kf.AllIterable Z U
  · have hi' : ({ kf with A := rowCopies n dA A } : KalmanFilter F).AllIterable Z U :=
      ⟨trivial, hi.H, hi.B, hi.U, hi.Z, hi.Q, hi.R⟩
    have hs : kf.steps Z U = ({ kf with A := rowCopies n dA A } : KalmanFilter F).steps Z U := by
      simp [KalmanFilter.steps, hA, single_rows, rowCopies_rows]
    have hAA : List.Forall₂ (fun a b => ∃ v : Fin n → F, a = Arr.vec dA v ∧ b = .mat dA (copies n v)) kf.A.rows (rowCopies n dA A).rows := by
      rw [hA, single_rows, rowCopies_rows, List.ofFn_eq_map, List.ofFn_eq_map, List.forall₂_map_left_iff, List.forall₂_map_right_iff]
      exact List.forall₂_same.2 fun i _ => ⟨A i, rfl, rfl⟩
    have hz := forall₂_mem_right (forall₂_refl_zip (kf.H.rows.zip (kf.B.rows.zip ((effU U Z).rows.zip (Z.rows.zip (kf.Q.rows.zip kf.R.rows))))) hAA)
    have ht : kf.tr Z U = ({ kf with A := rowCopies n dA A } : KalmanFilter F).tr Z U := by
      refine trace_rel_inv _ _ _ (KalmanFilter.Shaped n) ?_ ?_ _ _ hz kf.xk kf.Pk ⟨hl.x, hl.P⟩
      · rintro ⟨Ak, Hk, Bk, uk, zk, Qk, Rk⟩ ⟨Ak', r⟩ ⟨⟨⟨v, h1, h2⟩, h3⟩, hmem⟩ x P hsh
        simp only at h1 h2 h3
        subst h1 h2 h3
        obtain ⟨k, hk⟩ := List.mem_iff_getElem?.1 hmem
        obtain ⟨e1, e2, e3, e4, e5, e6, e7⟩ := KalmanFilter.row_parts (kf := { kf with A := rowCopies n dA A }) hk
        simp only at e1 e2 e3 e4 e5 e6 e7
        have hrow := hl.rows k _ _ _ _ _ _ _ e1 e2 e3 e4 e5 e6 e7
        have h4 := hB _ (List.mem_of_getElem? e3)
        have h5 := hU _ (List.mem_of_getElem? e4)
        rcases hrow.control with h | h | ⟨p, hBs, hus⟩
        · exact absurd h h4
        · exact absurd h h5
        obtain ⟨dB, B, rfl⟩ := Arr.eq_mat hBs
        obtain ⟨du, u, rfl⟩ := Arr.eq_vec hus
        obtain ⟨dQ, Q, rfl⟩ := Arr.eq_mat (hQ _ (List.mem_of_getElem? e6))
        obtain ⟨dx, x, rfl⟩ := Arr.eq_vec hsh.1
        obtain ⟨dP, P, rfl⟩ := Arr.eq_mat hsh.2
        have hb : ((Arr.mat dB B).isnanAll || (Arr.vec du u).isnanAll) = false := by
          rw [Bool.or_eq_false_iff, ← Bool.not_eq_true, ← Bool.not_eq_true, Arr.isnanAll_iff_blank, Arr.isnanAll_iff_blank]
          exact ⟨h4, h5⟩
        simp only [KalmanFilter.step, predict_single hE dA dx dB du dP dQ v x B u P Q hb]
      · rintro r r' ⟨-, hmem⟩ x P g xP o hsh hstep
        obtain ⟨k, hk⟩ := List.mem_iff_getElem?.1 hmem
        obtain ⟨e1, e2, e3, e4, e5, e6, e7⟩ := KalmanFilter.row_parts (kf := { kf with A := rowCopies n dA A }) hk
        have e8 := hl.size
        have e9 := hl.ident
        simp only at e8 e9
        simp only [e8, e9] at hstep
        exact (KalmanFilter.step_keeps (hl.rows k _ _ _ _ _ _ _ e1 e2 e3 e4 e5 e6 e7) g xP o hsh hstep).2
    rw [KalmanFilter.filter_iter hi, KalmanFilter.filter_iter hi', ht, hs]
    exact ⟨rfl, rfl⟩
  · have h1 : (KalmanFilter.filter Z U).run kf = (.error .typeError, kf) := by
      refine (C19_scalar_parameter kf Z U ?_).1
      by_contra hc
      simp only [not_or, not_not] at hc
      obtain ⟨c1, c2, c3, c4, c5, c6, c7⟩ := hc
      exact hi ⟨c1, c2, c3, effU_iterable c6 c7, c6, c4, c5⟩
    have h2 : (KalmanFilter.filter Z U).run { kf with A := rowCopies n dA A } = (.error .typeError, { kf with A := rowCopies n dA A }) := by
      refine (C19_scalar_parameter { kf with A := rowCopies n dA A } Z U ?_).1
      by_contra hc
      simp only [not_or, not_not] at hc
      obtain ⟨-, c2, c3, c4, c5, c6, c7⟩ := hc
      exact hi ⟨hA ▸ trivial, c2, c3, effU_iterable c6 c7, c6, c4, c5⟩
    rw [h1, h2]
    exact ⟨rfl, rfl⟩

/-- C148: a parameter passed as a single matrix with `r` rows ends the processing after `r` steps; all later rows of the result are zero. -/
theorem C148_rest_zero {r c : ℕ} (kf kf' : KalmanFilter F) (Z : NDArray F) (U : Option (NDArray F)) (d : DType) (M : Matrix (Fin r) (Fin c) F)
    (hM : kf.A = single d M ∨ kf.H = single d M ∨ kf.Q = single d M ∨ kf.R = single d M) (xs Ps : List (Arr F))
    (h : (KalmanFilter.filter Z U).run kf = (.ok (xs, Ps), kf')) (k : ℕ) (hr : r ≤ k) (hk : k < Z.rows.length) :
    xs[k]? = some (.vec .float64 fun _ : Fin kf.stateSize => Backend.zero) ∧
    Ps[k]? = some (.mat .float64 fun _ _ : Fin kf.stateSize => Backend.zero) ∧
    kf'.kalmanGains.length ≤ kf.kalmanGains.length + r := by
  have hi : kf.AllIterable Z U := KalmanFilter.ok_iter h
  have hst : kf.steps Z U ≤ r := by
    simp only [KalmanFilter.steps]
    rcases hM with hM | hM | hM | hM <;> rw [hM, single_rows, List.length_ofFn] <;> omega
  rw [KalmanFilter.filter_iter hi] at h
  have he : (kf.tr Z U).err = none := by
    rcases he : (kf.tr Z U).err with _ | e
    · rfl
    · rw [he] at h; simp at h
  rw [he] at h
  simp only [Prod.mk.injEq, Except.ok.injEq] at h
  obtain ⟨⟨rfl, rfl⟩, rfl⟩ := h
  have hlen : (kf.tr Z U).outs.length = kf.steps Z U := by
    rw [← KalmanFilter.zrows_length]; exact trace_length _ _ _ _ he
  have hg : (kf.tr Z U).gains.length = kf.steps Z U := by
    rw [← KalmanFilter.zrows_length]; exact trace_gains_length _ (KalmanFilter.stepGain _ _) _ _ _ he
  refine ⟨?_, ?_, ?_⟩
  · rw [List.getElem?_append_right (by rw [List.length_map]; omega), List.getElem?_replicate, List.length_map, if_pos (by omega)]; rfl
  · rw [List.getElem?_append_right (by rw [List.length_map]; omega), List.getElem?_replicate, List.length_map, if_pos (by omega)]; rfl
  · simp only [KalmanFilter.addGains, List.length_append, hg]; omega

/-! ### Only `Q`, `R` -/

/-- C148: `Q` and `R` passed as single matrices raise nothing: step `k` works with matrices all of whose rows are the `k`-th row of `Q` and
of `R`. -/
theorem C148_single_noise {n m : ℕ} (kf : KalmanFilter F) (Z : NDArray F) (U : Option (NDArray F)) (dQ dR : DType)
    (Q : Matrix (Fin n) (Fin n) F) (R : Matrix (Fin m) (Fin m) F) (hQ : kf.Q = single dQ Q) (hR : kf.R = single dR R)
    (hi : Z.Iterable) (hZ : ∀ z ∈ Z.rows, z.shape = [m]) (hl : Layout n m { kf with Q := rowCopies n dQ Q, R := rowCopies m dR R } Z U) :
    ((KalmanFilter.filter Z U).run kf).1 = ((KalmanFilter.filter Z U).run { kf with Q := rowCopies n dQ Q, R := rowCopies m dR R }).1 ∧
    ((KalmanFilter.filter Z U).run kf).2.kalmanGains =
      ((KalmanFilter.filter Z U).run { kf with Q := rowCopies n dQ Q, R := rowCopies m dR R }).2.kalmanGains :=
  (broadcast_core kf _ _ Z Z U (hQ ▸ single_broadcast dQ Q) (hR ▸ single_broadcast dR R) (rowsBroadcast_self hi hZ)
    (SameControls.refl Z U) hl).1

/-- C148: the same for the extended filter, which takes no other sequences: nothing is raised. -/
theorem C148_ext_single_noise {n m : ℕ} (kf : ExtendedKalmanFilter F) (Z U : NDArray F) (dQ dR : DType)
    (Q : Matrix (Fin n) (Fin n) F) (R : Matrix (Fin m) (Fin m) F) (hQ : kf.Q = single dQ Q) (hR : kf.R = single dR R)
    (hi : Z.Iterable) (hZ : ∀ z ∈ Z.rows, z.shape = [m])
    (hl : ExtLayout n m { kf with Q := rowCopies n dQ Q, R := rowCopies m dR R } Z (some U)) :
    ((ExtendedKalmanFilter.filter Z (some U)).run kf).1 =
      ((ExtendedKalmanFilter.filter Z (some U)).run { kf with Q := rowCopies n dQ Q, R := rowCopies m dR R }).1 ∧
    ((ExtendedKalmanFilter.filter Z (some U)).run kf).2.kalmanGains =
      ((ExtendedKalmanFilter.filter Z (some U)).run { kf with Q := rowCopies n dQ Q, R := rowCopies m dR R }).2.kalmanGains :=
  (C139_ext_broadcast kf _ _ Z Z U (hQ ▸ single_broadcast dQ Q) (hR ▸ single_broadcast dR R) (rowsBroadcast_self hi hZ) hl).1

/-- C148: and with `Q` or `R` a single matrix of `r` rows, all rows of the result from the `r`-th on are zero. -/
theorem C148_ext_rest_zero {r c : ℕ} (kf kf' : ExtendedKalmanFilter F) (Z : NDArray F) (U : Option (NDArray F)) (d : DType)
    (M : Matrix (Fin r) (Fin c) F) (hM : kf.Q = single d M ∨ kf.R = single d M) (xs Ps : List (Arr F))
    (h : (ExtendedKalmanFilter.filter Z U).run kf = (.ok (xs, Ps), kf')) (k : ℕ) (hr : r ≤ k) (hk : k < Z.rows.length) :
    xs[k]? = some (.vec .float64 fun _ : Fin kf.stateSize => Backend.zero) ∧
    Ps[k]? = some (.mat .float64 fun _ _ : Fin kf.stateSize => Backend.zero) := by
  have hi : kf.AllIterable Z U := ExtendedKalmanFilter.ok_iter h
  have hst : kf.steps Z U ≤ r := by
    simp only [ExtendedKalmanFilter.steps]
    rcases hM with hM | hM <;> rw [hM, single_rows, List.length_ofFn] <;> omega
  rw [ExtendedKalmanFilter.filter_iter hi] at h
  have he : (kf.tr Z U).err = none := by
    rcases he : (kf.tr Z U).err with _ | e
    · rfl
    · rw [he] at h; simp at h
  rw [he] at h
  simp only [Prod.mk.injEq, Except.ok.injEq] at h
  obtain ⟨⟨rfl, rfl⟩, rfl⟩ := h
  have hlen : (kf.tr Z U).outs.length = kf.steps Z U := by
    rw [← ExtendedKalmanFilter.zrows_length]; exact trace_length _ _ _ _ he
  refine ⟨?_, ?_⟩
  · rw [List.getElem?_append_right (by rw [List.length_map]; omega), List.getElem?_replicate, List.length_map, if_pos (by omega)]; rfl
  · rw [List.getElem?_append_right (by rw [List.length_map]; omega), List.getElem?_replicate, List.length_map, if_pos (by omega)]; rfl

/-! ### Only `H` -/

theorem predict_mat {n : ℕ} {Ak Bk uk x P Qk : Arr F} (hA : Ak.shape = [n, n]) (hs : KalmanFilter.Shaped n x P)
    (hc : Bk.Blank ∨ uk.Blank ∨ ∃ p, Bk.shape = [n, p] ∧ uk.shape = [p]) (hQ : Qk.shape = [n, n] ∨ Qk.shape = []) :
    ∃ (d : DType) (xp : Fin n → F) (e : DType) (Pp : Matrix (Fin n) (Fin n) F),
      KalmanFilter.predict Ak x (some Bk) (some uk) P Qk = .ok (.vec d xp, .mat e Pp) := by
  obtain ⟨dA, A, rfl⟩ := Arr.eq_mat hA
  obtain ⟨dx, x, rfl⟩ := Arr.eq_vec hs.1
  obtain ⟨dP, P, rfl⟩ := Arr.eq_mat hs.2
  have hf : FitsShape Qk.shape [n, n] := by
    rcases hQ with h | h <;> rw [h]
    · exact FitsShape.two.2 ⟨.inl rfl, .inl rfl⟩
    · exact FitsShape.nil _
  obtain ⟨e, Pp, hPp⟩ := Arr.add_fits (dA.promote (dP.promote dA)) (Backend.gemm A (Backend.gemm P A.transpose)) hf
  rcases hb : (Bk.isnanAll || uk.isnanAll) with _ | _
  · rw [KalmanFilter.predict_ctrl hb]
    simp only [Bool.or_eq_false_iff] at hb
    rcases hc with hc | hc | ⟨p, hB, hu⟩
    · simp [← Arr.isnanAll_iff_blank, hb.1] at hc
    · simp [← Arr.isnanAll_iff_blank, hb.2] at hc
    · obtain ⟨dB, B, rfl⟩ := Arr.eq_mat hB
      obtain ⟨du, u, rfl⟩ := Arr.eq_vec hu
      simp only [Arr.T_mat, Arr.matmul_mm, hPp, Arr.matmul_mv, Except.bind_ok', Arr.add_vv]
      exact ⟨_, _, _, _, rfl⟩
  · rw [KalmanFilter.predict_skip hb]
    simp only [Arr.T_mat, Arr.matmul_mm, hPp, Arr.matmul_mv, Except.bind_ok']
    exact ⟨_, _, _, _, rfl⟩

/-- A row of the call with `H` a single matrix: everything else has the documented layout. -/
theorem singleH_row {n m : ℕ} {kf : KalmanFilter F} {Z : NDArray F} {U : Option (NDArray F)} {dH : DType} {H : Matrix (Fin m) (Fin n) F}
    (hH : kf.H = single dH H) (hl : Layout n m { kf with H := rowCopies m dH H } Z U) {k : ℕ} {r : KalmanFilter.Row F}
    (hr : (kf.zrows Z U)[k]? = some r) : ∃ (v : Fin n → F) (N : Arr F), r.2.1 = .vec dH v ∧
      RowLayout n m r.1 N r.2.2.1 r.2.2.2.1 r.2.2.2.2.1 r.2.2.2.2.2.1 r.2.2.2.2.2.2 := by
  obtain ⟨e1, e2, e3, e4, e5, e6, e7⟩ := KalmanFilter.row_parts hr
  obtain ⟨v, hv⟩ := mem_single (hH ▸ List.mem_of_getElem? e2)
  have hlen : k < m := by
    rw [hH] at e2
    obtain ⟨h, -⟩ := List.getElem?_eq_some_iff.1 e2
    simpa using h
  exact ⟨v, _, hv, hl.rows k _ _ _ _ _ _ _ e1 (List.getElem?_eq_getElem (by simpa using hlen)) e3 e4 e5 e6 e7⟩

theorem gain_singleH {n m : ℕ} (dH e dR : DType) (h : Fin n → F) (P : Matrix (Fin n) (Fin n) F) (R : Matrix (Fin m) (Fin m) F) :
    (m ≠ n → KalmanFilter.gain (.vec dH h) (.mat e P) (.mat dR R) = .error .valueError) ∧
    (m = n → KalmanFilter.gain (.vec dH h) (.mat e P) (.mat dR R) = .error .linAlgError ∨
      ∃ K : Fin n → F, KalmanFilter.gain (.vec dH h) (.mat e P) (.mat dR R) = .ok (.vec .float64 K)) := by
  have hT : ∀ (d : DType) (v : Fin n → F), (Arr.vec d v).T = .vec d v := fun _ _ => rfl
  have hs : ∀ a b : Arr F, a.shape = [m, m] → b.shape = [n] →
      (m ≠ n → (do let X ← a.solve b; .ok X.T : Except PyErr (Arr F)) = .error .valueError) ∧
      (m = n → (do let X ← a.solve b; .ok X.T : Except PyErr (Arr F)) = .error .linAlgError ∨
        ∃ K : Fin n → F, (do let X ← a.solve b; .ok X.T : Except PyErr (Arr F)) = .ok (.vec .float64 K)) := by
    intro a b ha hb
    obtain ⟨d, M, rfl⟩ := Arr.eq_mat ha
    obtain ⟨d', w, rfl⟩ := Arr.eq_vec hb
    constructor
    · intro hne
      simp only [Arr.solve, dite_true]
      rw [dif_neg (by omega)]
      rfl
    · rintro rfl
      simp only [Arr.solve, dite_true]
      split
      · exact .inl rfl
      · exact .inr ⟨_, rfl⟩
  simp only [KalmanFilter.gain, Arr.T_mat, hT, Arr.matmul_vm, Arr.matmul_vv, Arr.matmul_mv, Except.bind_ok', Arr.add_sm]
  exact hs _ _ rfl rfl

/-- C148: if only `H` is passed as a single matrix and there are not as many sensors as states, every call on nonempty data raises
ValueError at once and leaves the object as it was. -/
theorem C148_single_H {n m : ℕ} (hmn : m ≠ n) (kf : KalmanFilter F) (Z : NDArray F) (U : Option (NDArray F)) (dH : DType)
    (H : Matrix (Fin m) (Fin n) F) (hH : kf.H = single dH H) (hl : Layout n m { kf with H := rowCopies m dH H } Z U)
    (hR : ∀ r ∈ kf.R.rows, r.shape = [m, m]) (hi : kf.AllIterable Z U) (hst : 0 < kf.steps Z U) :
    (KalmanFilter.filter Z U).run kf = (.error .valueError, kf) ∧ (KalmanFilter.smooth Z U).run kf = (.error .valueError, kf) := by
  obtain ⟨g, e, ⟨rfl, rfl⟩, h1, h2⟩ := KalmanFilter.first_raises hi hst (fun g e => g = none ∧ e = .valueError) (fun r hr => by
    obtain ⟨v, N, hv, hrow⟩ := singleH_row hH hl hr
    obtain ⟨-, -, -, -, -, -, e7⟩ := KalmanFilter.row_parts hr
    obtain ⟨Ak, Hk, Bk, uk, zk, Qk, Rk⟩ := r
    simp only at hv hrow e7
    subst hv
    obtain ⟨dR, R, rfl⟩ := Arr.eq_mat (hR _ (List.mem_of_getElem? e7))
    obtain ⟨d, xp, e, Pp, hp⟩ := predict_mat hrow.A ⟨hl.x, hl.P⟩ hrow.control hrow.Q
    simp only at hp
    exact ⟨none, .valueError, by simp only [KalmanFilter.step, hp, (gain_singleH dH e dR v Pp R).1 hmn], rfl, rfl⟩)
  simp only [Option.toList_none, List.append_nil] at h1 h2
  exact ⟨h1, h2⟩

theorem Arr.sub_vs' {n : ℕ} (d d' : DType) (v : Fin n → F) (s : F) :
    (Arr.vec d v).sub (.scalar d' s) = .ok (.vec (d.promote d') fun i => Backend.sub (v i) s) := rfl

theorem Arr.add_vs' {n : ℕ} (d d' : DType) (v : Fin n → F) (s : F) :
    (Arr.vec d v).add (.scalar d' s) = .ok (.vec (d.promote d') fun i => Backend.add (v i) s) := rfl

/-- A number subtracted from every entry of a matrix. -/
def Arr.mSubS {n m : ℕ} (M : Matrix (Fin n) (Fin m) F) (s : F) : Matrix (Fin n) (Fin m) F := fun i j => Backend.sub (M i j) s

theorem Arr.sub_ms' {n m : ℕ} (d e : DType) (M : Matrix (Fin n) (Fin m) F) (s : F) :
    (Arr.mat d M).sub (.scalar e s) = .ok (.mat (d.promote e) (mSubS M s)) := by
  simp only [Arr.sub, zipWith_mat_left, zipWith2, dims2, bdim_one_right, Except.bind_ok', toMat_self]
  rfl

theorem step_singleH {n : ℕ} {dH : DType} {v : Fin n → F} {Ak N Bk uk zk Qk Rk x P : Arr F} (hrow : RowLayout n n Ak N Bk uk zk Qk Rk)
    (hz : zk.shape = [n]) (hR : Rk.shape = [n, n]) (hs : KalmanFilter.Shaped n x P) :
    KalmanFilter.step n (Arr.identity n) (Ak, .vec dH v, Bk, uk, zk, Qk, Rk) x P = (none, .error .linAlgError) ∨
    ∃ (K : Fin n → F) (d : DType) (xp : Fin n → F) (Pp : Arr F) (c : F) (P' : Matrix (Fin n) (Fin n) F),
      KalmanFilter.predict Ak x (some Bk) (some uk) P Qk = .ok (.vec d xp, Pp) ∧
      KalmanFilter.step n (Arr.identity n) (Ak, .vec dH v, Bk, uk, zk, Qk, Rk) x P = (some (.vec .float64 K),
        .ok ((.vec .float64 fun i => Backend.add (xp i) c, .mat .float64 P'),
          (.vec .float64 fun i => Backend.add (xp i) c, .mat .float64 P'))) := by
  obtain ⟨d, xp, e, Pp, hp⟩ := predict_mat hrow.A hs hrow.control hrow.Q
  obtain ⟨dR, R, rfl⟩ := Arr.eq_mat hR
  obtain ⟨dz, z, rfl⟩ := Arr.eq_vec hz
  simp only [KalmanFilter.step, hp]
  rcases (gain_singleH dH e dR v Pp R).2 rfl with hg | ⟨K, hg⟩
  · left; simp only [hg]
  · right
    simp only [hg, KalmanFilter.correct, Arr.matmul_vv, Except.bind_ok', Arr.sub_vs', Arr.atleast1d_vec, Arr.add_vs', identity_eq, Arr.sub_ms',
      Arr.matmul_mm, Arr.promote_float_left, Arr.promote_float_right, Arr.assignVec_vec, Arr.assignMat_mat]
    exact ⟨K, d, xp, _, _, _, rfl, rfl⟩

/-- C148: with as many sensors as states, a single matrix `H` is not rejected.  The call returns or raises LinAlgError; every gain it
records is a vector instead of a matrix, and each returned state is the prediction from the one before with the same number added to
every component. -/
theorem C148_single_square_H {n : ℕ} (kf : KalmanFilter F) (Z : NDArray F) (U : Option (NDArray F)) (dH : DType)
    (H : Matrix (Fin n) (Fin n) F) (hH : kf.H = single dH H) (hl : Layout n n { kf with H := rowCopies n dH H } Z U)
    (hR : ∀ r ∈ kf.R.rows, r.shape = [n, n]) (hz : ∀ z ∈ Z.rows, z.shape = [n]) (hi : kf.AllIterable Z U) :
    (∃ kf', (KalmanFilter.filter Z U).run kf = (.error .linAlgError, kf')) ∨
    ∃ xs Ps kf', (KalmanFilter.filter Z U).run kf = (.ok (xs, Ps), kf') ∧ ∀ k < kf.steps Z U,
      (∃ K : Fin n → F, kf'.kalmanGains[kf.kalmanGains.length + k]? = some (.vec .float64 K)) ∧
      ∃ (Ak Bk uk Qk x P Pp : Arr F) (d : DType) (xp : Fin n → F) (c : F),
        kf.A.rows[k]? = some Ak ∧ kf.B.rows[k]? = some Bk ∧ (effU U Z).rows[k]? = some uk ∧ kf.Q.rows[k]? = some Qk ∧
        (k = 0 → x = kf.xk) ∧ (∀ k', k = k' + 1 → xs[k']? = some x) ∧
        KalmanFilter.predict Ak x (some Bk) (some uk) P Qk = .ok (.vec d xp, Pp) ∧
        xs[k]? = some (.vec .float64 fun i => Backend.add (xp i) c) := by
  have hrows : ∀ r ∈ kf.zrows Z U, ∀ x P, KalmanFilter.Shaped n x P →
      KalmanFilter.step kf.stateSize kf.I r x P = (none, .error .linAlgError) ∨
      ∃ (K : Fin n → F) (d : DType) (xp : Fin n → F) (Pp : Arr F) (c : F) (P' : Matrix (Fin n) (Fin n) F),
        KalmanFilter.predict r.1 x (some r.2.2.1) (some r.2.2.2.1) P r.2.2.2.2.2.1 = .ok (.vec d xp, Pp) ∧
        KalmanFilter.step kf.stateSize kf.I r x P = (some (.vec .float64 K),
          .ok ((.vec .float64 fun i => Backend.add (xp i) c, .mat .float64 P'),
            (.vec .float64 fun i => Backend.add (xp i) c, .mat .float64 P'))) := by
    intro r hr x P hs
    obtain ⟨k, hk⟩ := List.mem_iff_getElem?.1 hr
    obtain ⟨v, N, hv, hrow⟩ := singleH_row hH hl hk
    obtain ⟨-, -, -, -, e5, -, e7⟩ := KalmanFilter.row_parts hk
    obtain ⟨Ak, Hk, Bk, uk, zk, Qk, Rk⟩ := r
    simp only at hv hrow e5 e7
    subst hv
    have e8 := hl.size
    have e9 := hl.ident
    simp only at e8 e9
    rw [e8, e9]
    exact step_singleH hrow (hz _ (List.mem_of_getElem? e5)) (hR _ (List.mem_of_getElem? e7)) hs
  have hx₀ : KalmanFilter.Shaped n kf.xk kf.Pk := ⟨hl.x, hl.P⟩
  rw [KalmanFilter.filter_iter hi]
  rcases he : (kf.tr Z U).err with _ | e
  · right
    refine ⟨_, _, _, rfl, fun k hk => ?_⟩
    have hlt : k < (kf.zrows Z U).length := by rw [KalmanFilter.zrows_length]; exact hk
    obtain ⟨r, x, P, K₀, xP, o, h1, h2, h3, h4, h5, h6, h7⟩ := trace_at_state (Inv := KalmanFilter.Shaped n) (kf.zrows Z U)
      (fun r hr x P g xP o hs hstep => by
        rcases hrows r hr x P hs with h | ⟨K, d, xp, Pp, c, P', -, h⟩
        · rw [h] at hstep; simp at hstep
        · rw [h] at hstep
          simp only [Prod.mk.injEq, Except.ok.injEq] at hstep
          obtain ⟨rfl, rfl, rfl⟩ := hstep
          exact ⟨rfl, ⟨rfl, rfl⟩, _, rfl⟩) kf.xk kf.Pk hx₀ he k hlt
    obtain ⟨e1, -, e3, e4, -, e6, -⟩ := KalmanFilter.row_parts h1
    have hl' : (kf.tr Z U).outs.length = (kf.zrows Z U).length := trace_length _ _ _ _ he
    rcases hrows r (List.mem_of_getElem? h1) x P h2 with h | ⟨K, d, xp, Pp, c, P', hp, h⟩
    · rw [h] at h3; simp at h3
    rw [h] at h3
    simp only [Prod.mk.injEq, Option.some.injEq, Except.ok.injEq] at h3
    obtain ⟨rfl, rfl, rfl⟩ := h3
    refine ⟨⟨K, ?_⟩, r.1, r.2.2.1, r.2.2.2.1, r.2.2.2.2.2.1, x, P, Pp, d, xp, c, e1, e3, e4, e6, h6, ?_, hp, ?_⟩
    · simp only [KalmanFilter.addGains]
      rw [List.getElem?_append_right (by omega), Nat.add_sub_cancel_left]
      exact h5
    · intro k' hk'
      obtain ⟨o', h8, h9⟩ := h7 k' hk'
      rw [List.getElem?_append_left (by rw [List.length_map, hl']; omega), List.getElem?_map]
      show Option.map _ ((trace _ _ _ _).outs[k']?) = _
      rw [h8, ← h9]; rfl
    · rw [List.getElem?_append_left (by rw [List.length_map, hl']; exact hlt), List.getElem?_map]
      show Option.map _ ((trace _ _ _ _).outs[k]?) = _
      rw [h4]; rfl
  · left
    have gen : ∀ (rs : List (KalmanFilter.Row F)) (x P : Arr F), (∀ r ∈ rs, r ∈ kf.zrows Z U) → KalmanFilter.Shaped n x P →
        ∀ e, (trace (KalmanFilter.step kf.stateSize kf.I) rs x P).err = some e → e = .linAlgError := by
      intro rs
      induction rs with
      | nil => intro x P _ _ e he; simp [trace] at he
      | cons r rs ih =>
        intro x P hm hs e he
        rcases hrows r (hm r (by simp)) x P hs with hr | ⟨K, d, xp, Pp, c, P', -, hr⟩
        · simp only [trace, hr, Option.some.injEq] at he; exact he.symm
        · simp only [trace, hr] at he
          exact ih _ _ (fun r hr => hm r (by simp [hr])) ⟨rfl, rfl⟩ e he
    obtain rfl : e = .linAlgError := gen _ _ _ (fun r hr => hr) hx₀ e he
    exact ⟨_, rfl⟩

/-! ### The hypotheses are met -/

/-- Exact arithmetic computes dot products one by one, also with NaN. -/
theorem entrywise_exact [Platform] : EntrywiseProducts Fl := fun _ _ _ _ => rfl

theorem entrywise_rational : EntrywiseProducts Ex.QN := fun _ _ _ _ => rfl

theorem Layout.withA {n m : ℕ} {kf : KalmanFilter F} {Z : NDArray F} {U : Option (NDArray F)} (h : Layout n m kf Z U) (A : NDArray F)
    (hs : ∀ a ∈ A.rows, a.shape = [n, n]) (hlen : A.rows.length ≤ kf.A.rows.length) : Layout n m { kf with A := A } Z U :=
  ⟨h.x, h.P, h.size, h.ident, fun k a _ _ _ _ _ _ h1 h2 h3 h4 h5 h6 h7 => by
    obtain ⟨hk, -⟩ := List.getElem?_eq_some_iff.1 h1
    simp only at hk
    obtain ⟨-, b, c, d, e, f⟩ := h.rows k _ _ _ _ _ _ _ (List.getElem?_eq_getElem (by omega)) h2 h3 h4 h5 h6 h7
    exact ⟨hs _ (List.mem_of_getElem? h1), b, c, d, e, f⟩⟩

theorem Layout.withH {n m : ℕ} {kf : KalmanFilter F} {Z : NDArray F} {U : Option (NDArray F)} (h : Layout n m kf Z U) (H : NDArray F)
    (hs : ∀ a ∈ H.rows, a.shape = [m, n]) (hlen : H.rows.length ≤ kf.H.rows.length) : Layout n m { kf with H := H } Z U :=
  ⟨h.x, h.P, h.size, h.ident, fun k _ a _ _ _ _ _ h1 h2 h3 h4 h5 h6 h7 => by
    obtain ⟨hk, -⟩ := List.getElem?_eq_some_iff.1 h2
    simp only at hk
    obtain ⟨b, -, c, d, e, f⟩ := h.rows k _ _ _ _ _ _ _ h1 (List.getElem?_eq_getElem (by omega)) h3 h4 h5 h6 h7
    exact ⟨b, hs _ (List.mem_of_getElem? h2), c, d, e, f⟩⟩

theorem Layout.withNoise {n m : ℕ} {kf : KalmanFilter F} {Z : NDArray F} {U : Option (NDArray F)} (h : Layout n m kf Z U) (Q R : NDArray F)
    (hs : ∀ a ∈ Q.rows, a.shape = [n, n]) (hs' : ∀ a ∈ R.rows, a.shape = [m, m]) (hlen : Q.rows.length ≤ kf.Q.rows.length)
    (hlen' : R.rows.length ≤ kf.R.rows.length) : Layout n m { kf with Q := Q, R := R } Z U :=
  ⟨h.x, h.P, h.size, h.ident, fun k _ _ _ _ _ _ _ h1 h2 h3 h4 h5 h6 h7 => by
    obtain ⟨hk, -⟩ := List.getElem?_eq_some_iff.1 h6
    obtain ⟨hk', -⟩ := List.getElem?_eq_some_iff.1 h7
    simp only at hk hk'
    obtain ⟨b, c, d, e, -, -⟩ := h.rows k _ _ _ _ _ _ _ h1 h2 h3 h4 h5 (List.getElem?_eq_getElem (by omega)) (List.getElem?_eq_getElem (by omega))
    exact ⟨b, c, d, e, .inl (hs _ (List.mem_of_getElem? h6)), .inl (hs' _ (List.mem_of_getElem? h7))⟩⟩

theorem rowCopies_shape {r c s : ℕ} {d : DType} {M : Matrix (Fin r) (Fin c) F} {a : Arr F} (h : a ∈ (rowCopies s d M).rows) : a.shape = [s, c] := by
  obtain ⟨i, rfl⟩ := (List.mem_ofFn' _ _).1 h
  rfl

namespace Ex

/-- Constant velocity, position observed, as single matrices. -/
def cvA : Matrix (Fin 2) (Fin 2) QN := fun i j => if i = 1 ∧ j = 0 then some 0 else some 1
def cvH : Matrix (Fin 1) (Fin 2) QN := fun _ j => if j = 0 then some 1 else some 0
def cvQ : Matrix (Fin 2) (Fin 2) QN := fun i j => if i = j then some (1/4) else some 0
def cvR : Matrix (Fin 1) (Fin 1) QN := fun _ _ => some 1

def singleA : KalmanFilter QN := { cv 3 with A := single .float64 cvA }
def singleH : KalmanFilter QN := { cv 3 with H := single .float64 cvH }
def singleQR : KalmanFilter QN := { cv 3 with Q := single .float64 cvQ, R := single .float64 cvR }
def singles : KalmanFilter QN :=
  { cv 3 with A := single .float64 cvA, H := single .float64 cvH, Q := single .float64 cvQ, R := single .float64 cvR }

end Ex

/-- C148: all four. -/
example : (KalmanFilter.filter Ex.zs (some Ex.us)).run Ex.singles = (.error .valueError, Ex.singles) :=
  (C148_all_single Ex.singles Ex.zs (some Ex.us) .float64 .float64 .float64 .float64 Ex.cvA Ex.cvH Ex.cvQ Ex.cvR rfl rfl rfl rfl rfl rfl
    ⟨trivial, trivial, trivial, trivial, trivial, trivial, trivial⟩ (by decide)).1

/-- No control. -/
def Ex.blanks : NDArray Ex.QN := .stack (([none, none, none] : List Ex.QN).map Ex.vec1)

theorem Ex.cv_blanks : Layout 2 1 (Ex.cv 3) Ex.zs (some Ex.blanks) := Ex.cv_layout 3 [some 1, some 3, some 2] [none, none, none]

theorem Ex.cv_us : Layout 2 1 (Ex.cv 3) Ex.zs (some Ex.us) := Ex.cv_layout 3 [some 1, some 3, some 2] [some 1, some 0, some (-1)]

/-- C148: `A` only, no control: the call raises ValueError with one gain recorded. -/
example : ∃ kf', (KalmanFilter.filter Ex.zs (some Ex.blanks)).run Ex.singleA = (.error .valueError, kf') ∧ kf'.kalmanGains.length = 1 := by
  have hl : Layout 2 1 { Ex.singleA with A := rowCopies 2 .float64 Ex.cvA } Ex.zs (some Ex.blanks) :=
    Ex.cv_blanks.withA _ (fun a h => rowCopies_shape h) (by decide)
  rcases C148_single_A Ex.singleA Ex.zs (some Ex.blanks) .float64 Ex.cvA rfl hl (by simp [Ex.singleA, Ex.cv, NDArray.rows]; rfl)
    (.inr (by
      intro u hu
      obtain rfl : Ex.vec1 none = u := by simpa [checkNoneAndBroadcast, Ex.blanks, NDArray.rows] using hu
      exact (Arr.isnanAll_iff_blank _).1 (by decide)))
    ⟨trivial, trivial, trivial, trivial, trivial, trivial, trivial⟩ (by decide) with ⟨h, -⟩ | ⟨K, h, -⟩
  · exact absurd (show Ex.raised ((KalmanFilter.filter Ex.zs (some Ex.blanks)).run Ex.singleA) = some .linAlgError by rw [h]; rfl)
      (by decide +kernel)
  · exact ⟨_, h, rfl⟩

/-- C148: `A` only, with controls: a call that returns, with the wrong model; the third row of the result is zero. -/
example : (∃ xs Ps kf', (KalmanFilter.filter Ex.zs (some Ex.us)).run Ex.singleA = (.ok (xs, Ps), kf') ∧
      xs[2]? = some (.vec .float64 fun _ : Fin 2 => (some 0 : Ex.QN))) ∧
    ((KalmanFilter.filter Ex.zs (some Ex.us)).run Ex.singleA).1 =
      ((KalmanFilter.filter Ex.zs (some Ex.us)).run { Ex.singleA with A := rowCopies 2 .float64 Ex.cvA }).1 := by
  have hl : Layout 2 1 { Ex.singleA with A := rowCopies 2 .float64 Ex.cvA } Ex.zs (some Ex.us) :=
    Ex.cv_us.withA _ (fun a h => rowCopies_shape h) (by decide)
  constructor
  · obtain ⟨⟨xs, Ps⟩, kf', h⟩ := (Ex.returned_iff ((KalmanFilter.filter Ex.zs (some Ex.us)).run Ex.singleA)).1 (by decide +kernel)
    exact ⟨xs, Ps, kf', h, (C148_rest_zero Ex.singleA kf' Ex.zs (some Ex.us) .float64 Ex.cvA (.inl rfl) xs Ps h 2 (by omega) (by decide)).1⟩
  · refine (C148_single_A_controlled entrywise_rational Ex.singleA Ex.zs (some Ex.us) .float64 Ex.cvA rfl hl
      (by simp [Ex.singleA, Ex.cv, NDArray.rows]; rfl) ?_ ?_).1
    · intro b hb
      obtain rfl : b = Ex.col2 (some (1/2)) (some 1) := by simpa [Ex.singleA, Ex.cv, NDArray.rows] using hb
      rw [← Arr.isnanAll_iff_blank]; decide
    · intro u hu
      have : u = Ex.vec1 (some 1) ∨ u = Ex.vec1 (some 0) ∨ u = Ex.vec1 (some (-1)) := by
        simpa [checkNoneAndBroadcast, Ex.us, NDArray.rows] using hu
      rcases this with rfl | rfl | rfl <;> (rw [← Arr.isnanAll_iff_blank]; decide)

/-- C148: `H` only, one sensor and two states. -/
example : (KalmanFilter.filter Ex.zs (some Ex.us)).run Ex.singleH = (.error .valueError, Ex.singleH) :=
  (C148_single_H (by decide) Ex.singleH Ex.zs (some Ex.us) .float64 Ex.cvH rfl (Ex.cv_us.withH _ (fun a h => rowCopies_shape h) (by decide))
    (by simp [Ex.singleH, Ex.cv, NDArray.rows]; rfl) ⟨trivial, trivial, trivial, trivial, trivial, trivial, trivial⟩ (by decide)).1

/-- C148: `Q` and `R` only: a call that returns. -/
example : (∃ r kf', (KalmanFilter.filter Ex.zs (some Ex.us)).run Ex.singleQR = (.ok r, kf')) ∧
    ((KalmanFilter.filter Ex.zs (some Ex.us)).run Ex.singleQR).1 = ((KalmanFilter.filter Ex.zs (some Ex.us)).run
      { Ex.singleQR with Q := rowCopies 2 .float64 Ex.cvQ, R := rowCopies 1 .float64 Ex.cvR }).1 :=
  ⟨(Ex.returned_iff _).1 (by decide +kernel),
    (C148_single_noise Ex.singleQR Ex.zs (some Ex.us) .float64 .float64 Ex.cvQ Ex.cvR rfl rfl trivial (by simp [Ex.zs, NDArray.rows]; exact ⟨rfl, rfl, rfl⟩)
      (Ex.cv_us.withNoise _ _ (fun a h => rowCopies_shape h) (fun a h => rowCopies_shape h) (by decide) (by decide))).1⟩

/-- C148: the extended filter with `Q`, `R` single matrices: a call that returns. -/
example : ExtLayout 2 1 { Ex.pushed (Ex.vec2 none none) (Ex.vec1 none) 0 with Q := rowCopies 2 .float64 Ex.cvQ, R := rowCopies 1 .float64 Ex.cvR }
      (.stack (([some 1, some 3, some 2] : List Ex.QN).map Ex.vec1)) (some Ex.us) ∧
    ∃ r kf', (ExtendedKalmanFilter.filter Ex.zs (some Ex.us)).run
      { Ex.pushed (Ex.vec2 none none) (Ex.vec1 none) 0 with Q := single .float64 Ex.cvQ, R := single .float64 Ex.cvR } = (.ok r, kf') := by
  refine ⟨?_, (Ex.returned_iff _).1 (by decide +kernel)⟩
  obtain ⟨h1, h2, h3, h4, h5, h6, h7, h8, h9, -, -⟩ := Ex.pushed_layout (Ex.mat2 none none none none) (Ex.mat1 none) 0
    [some 1, some 3, some 2] (some Ex.us) (.inl rfl) (.inl rfl)
  exact ⟨h1, h2, h3, h4, h5, h6, h7, h8, h9, fun a h => .inl (rowCopies_shape h), fun a h => .inl (rowCopies_shape h)⟩

/-- C148: both states observed and `H` a single matrix: a call that returns. -/
example : Layout 2 2 { Ex.full with H := rowCopies 2 .float64 Ex.cvA } Ex.flatZ none ∧
    ∃ r kf', (KalmanFilter.filter Ex.flatZ none).run { Ex.full with H := single .float64 Ex.cvA } = (.ok r, kf') := by
  refine ⟨⟨rfl, rfl, rfl, rfl, ?_⟩, (Ex.returned_iff _).1 (by decide +kernel)⟩
  intro k Ak Hk Bk uk zk Qk Rk h1 h2 h3 h4 h5 h6 h7
  replace h1 := List.mem_of_getElem? h1
  replace h2 := rowCopies_shape (List.mem_of_getElem? h2)
  replace h3 := List.mem_of_getElem? h3
  replace h5 := List.mem_of_getElem? h5
  replace h6 := List.mem_of_getElem? h6
  replace h7 := List.mem_of_getElem? h7
  simp [Ex.full, Ex.flat, NDArray.rows, Ex.flatZ] at h1 h3 h5 h6 h7
  subst h1 h3 h6 h7
  refine ⟨rfl, h2, .inl ((Arr.isnanAll_iff_blank _).1 (by decide)), ?_, .inl rfl, .inl rfl⟩
  rcases h5 with rfl | rfl <;> exact .inl rfl

end KK
