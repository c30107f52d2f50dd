import Verif.Proofs.Layout

/-! # NaN propagation through the array operations and through one step -/

set_option linter.unusedSectionVars false

namespace KK

variable {F : Type} [Backend F] [NanLaws F]

theorem matmul_nan {m k : ℕ} {M w : Arr F} (hM : M.shape = [m, k]) (hw : w.shape = [k])
    (h : w.SomeNan) : ∃ y, M.matmul w = .ok y ∧ y.shape = [m] ∧ y.AllNan := by
  obtain ⟨d, M, rfl⟩ := Arr.eq_mat hM
  obtain ⟨e, w, rfl⟩ := Arr.eq_vec hw
  obtain ⟨i, hi⟩ := h
  refine ⟨_, Arr.matmul_mv _ _ _ _, rfl, fun j => ?_⟩
  exact NanLaws.gemm_right M (fun i _ => w i) j i 0 hi

omit [NanLaws F] in
theorem matmul_shape {m k : ℕ} {M w : Arr F} (hM : M.shape = [m, k]) (hw : w.shape = [k]) :
    ∃ y, M.matmul w = .ok y ∧ y.shape = [m] := by
  obtain ⟨d, M, rfl⟩ := Arr.eq_mat hM
  obtain ⟨e, w, rfl⟩ := Arr.eq_vec hw
  exact ⟨_, Arr.matmul_mv _ _ _ _, rfl⟩

theorem add_nan {n : ℕ} {v w : Arr F} (hv : v.shape = [n]) (hw : w.shape = [n])
    (h : v.AllNan ∨ w.AllNan) : ∃ y, v.add w = .ok y ∧ y.shape = [n] ∧ y.AllNan := by
  obtain ⟨d, v, rfl⟩ := Arr.eq_vec hv
  obtain ⟨e, w, rfl⟩ := Arr.eq_vec hw
  refine ⟨_, Arr.add_vv _ _ _ _, rfl, fun i => ?_⟩
  rcases h with h | h
  · exact NanLaws.add_left _ _ (h i)
  · exact NanLaws.add_right _ _ (h i)

theorem sub_nan {n : ℕ} {v w : Arr F} (hv : v.shape = [n]) (hw : w.shape = [n])
    (h : v.AllNan ∨ w.AllNan) : ∃ y, v.sub w = .ok y ∧ y.shape = [n] ∧ y.AllNan := by
  obtain ⟨d, v, rfl⟩ := Arr.eq_vec hv
  obtain ⟨e, w, rfl⟩ := Arr.eq_vec hw
  refine ⟨_, Arr.sub_vv _ _ _ _, rfl, fun i => ?_⟩
  rcases h with h | h
  · exact NanLaws.sub_left _ _ (h i)
  · exact NanLaws.sub_right _ _ (h i)

theorem residual_nan {m : ℕ} (hm : 0 < m) {z y : Arr F} (hz : z.shape = [m] ∨ z.shape = [])
    (hy : y.shape = [m]) (h : z.SomeNan) :
    ∃ r, z.sub y = .ok r ∧ r.shape = [m] ∧ r.SomeNan := by
  obtain ⟨dy, y, rfl⟩ := Arr.eq_vec hy
  rcases hz with hz | hz
  · obtain ⟨dz, z, rfl⟩ := Arr.eq_vec hz
    obtain ⟨i, hi⟩ := h
    exact ⟨_, Arr.sub_vv _ _ _ _, rfl, i, NanLaws.sub_left _ _ hi⟩
  · obtain ⟨dz, z, rfl⟩ := Arr.eq_scalar hz
    exact ⟨_, Arr.sub_sv _ _ _ _, rfl, ⟨0, hm⟩, NanLaws.sub_left _ _ h⟩

theorem AllNan.some {n : ℕ} (hn : 0 < n) {a : Arr F} (hs : a.shape = [n]) (h : a.AllNan) :
    a.SomeNan := by
  obtain ⟨d, v, rfl⟩ := Arr.eq_vec hs
  exact ⟨⟨0, hn⟩, h ⟨0, hn⟩⟩

theorem allNan_zero {a : Arr F} (hs : a.shape = [0]) : a.AllNan := by
  obtain ⟨d, v, rfl⟩ := Arr.eq_vec hs
  exact fun i => i.elim0

theorem assignVec_nan {n : ℕ} {a : Arr F} (hs : a.shape = [n]) (h : a.AllNan) :
    ∃ b, a.assignVec n = .ok b ∧ b.AllNan := by
  obtain ⟨d, v, rfl⟩ := Arr.eq_vec hs
  exact ⟨_, Arr.assignVec_vec _ _, h⟩

/-- A NaN mean stays NaN through `predict`. -/
theorem KalmanFilter.predict_nan {n m : ℕ} {Ak Hk Bk uk zk Qk Rk x P : Arr F} {r : Arr F × Arr F}
    (h : RowLayout n m Ak Hk Bk uk zk Qk Rk) (hx : x.shape = [n]) (hP : P.shape = [n, n]) (hn : x.AllNan)
    (hr : KalmanFilter.predict Ak x (some Bk) (some uk) P Qk = .ok r) : r.1.AllNan := by
  rcases Nat.eq_zero_or_pos n with rfl | hpos
  · obtain ⟨d, xp, e, Pp, hp⟩ := KalmanFilter.predict_layout h hx hP
    rw [hp] at hr
    simp only [Except.ok.injEq] at hr
    subst hr
    exact fun i => i.elim0
  · obtain ⟨ax, hax, hs, hnan⟩ := matmul_nan h.A hx (AllNan.some hpos hx hn)
    rcases hb : (Bk.isnanAll || uk.isnanAll) with _ | _
    · rw [KalmanFilter.predict_ctrl hb] at hr
      simp only [Bool.or_eq_false_iff] at hb
      rcases h.control' with hc | hc | ⟨p, hB, hu⟩
      · simp [hb.1] at hc
      · simp [hb.2] at hc
      · obtain ⟨dB, B, rfl⟩ := Arr.eq_mat hB
        obtain ⟨du, u, rfl⟩ := Arr.eq_vec hu
        simp only [hax, Arr.matmul_mv, Except.bind_ok'] at hr
        obtain ⟨y, hy, hys, hyn⟩ := add_nan (w := .vec (dB.promote du) fun i =>
          Backend.gemm (n := 1) B (fun i _ => u i) i 0) hs rfl (.inl hnan)
        simp only [hy, Except.bind_ok'] at hr
        rcases h1 : P.matmul Ak.T with e | pat; · simp [h1] at hr
        rcases h2 : Ak.matmul pat with e | apat; · simp [h1, h2] at hr
        rcases h3 : apat.add Qk with e | Pp; · simp [h1, h2, h3] at hr
        simp only [h1, h2, h3, Except.bind_ok', Except.ok.injEq] at hr
        subst hr
        exact hyn
    · rw [KalmanFilter.predict_skip hb] at hr
      simp only [hax, Except.bind_ok'] at hr
      rcases h1 : P.matmul Ak.T with e | pat; · simp [h1] at hr
      rcases h2 : Ak.matmul pat with e | apat; · simp [h1, h2] at hr
      rcases h3 : apat.add Qk with e | Pp; · simp [h1, h2, h3] at hr
      simp only [h1, h2, h3, Except.bind_ok', Except.ok.injEq] at hr
      subst hr
      exact hnan

/-- A partly NaN control makes the prediction NaN. -/
theorem KalmanFilter.predict_ctrl_nan {n p : ℕ} {Ak Bk uk Qk x P : Arr F} {r : Arr F × Arr F}
    (hA : Ak.shape = [n, n]) (hB : Bk.shape = [n, p]) (hu : uk.shape = [p]) (hx : x.shape = [n])
    (hBn : Bk.isnanAll = false) (hun : uk.isnanAll = false) (hn : uk.SomeNan)
    (hr : KalmanFilter.predict Ak x (some Bk) (some uk) P Qk = .ok r) : r.1.AllNan := by
  rw [KalmanFilter.predict_ctrl (by simp [hBn, hun])] at hr
  obtain ⟨bu, hbu, hs, hnan⟩ := matmul_nan hB hu hn
  obtain ⟨ax, hax, hsa⟩ := matmul_shape hA hx
  simp only [hbu, hax, Except.bind_ok'] at hr
  obtain ⟨y, hy, hys, hyn⟩ := add_nan hsa hs (.inr hnan)
  simp only [hy, Except.bind_ok'] at hr
  rcases h1 : P.matmul Ak.T with e | pat; · simp [h1] at hr
  rcases h2 : Ak.matmul pat with e | apat; · simp [h1, h2] at hr
  rcases h3 : apat.add Qk with e | Pp; · simp [h1, h2, h3] at hr
  simp only [h1, h2, h3, Except.bind_ok', Except.ok.injEq] at hr
  subst hr
  exact hyn

/-- A NaN prior mean, or a NaN anywhere in the observation, makes the whole posterior mean NaN. -/
theorem KalmanFilter.correct_nan {n m : ℕ} {I K Hk zk x P : Arr F} {r : Arr F × Arr F}
    (hK : K.shape = [n, m]) (hH : Hk.shape = [m, n]) (hx : x.shape = [n])
    (hz : zk.shape = [m] ∨ zk.shape = []) (h : x.AllNan ∨ 0 < m ∧ zk.SomeNan)
    (hr : KalmanFilter.correct I K Hk x P zk = .ok r) : r.1.AllNan := by
  obtain ⟨dx, xv, rfl⟩ := Arr.eq_vec hx
  obtain ⟨dH, H, rfl⟩ := Arr.eq_mat hH
  have key : ∃ res corr y, zk.sub (.vec (dH.promote dx) fun i =>
      Backend.gemm (n := 1) H (fun i _ => xv i) i 0) = .ok res ∧ K.matmul res.atleast1d = .ok corr ∧
      (Arr.vec dx xv).add corr = .ok y ∧ y.AllNan := by
    rcases h with h | ⟨hm, h⟩
    · obtain ⟨d, v, hv⟩ := residual_layout (y := .vec (dH.promote dx) fun i =>
        Backend.gemm (n := 1) H (fun i _ => xv i) i 0) hz rfl
      obtain ⟨dK, K, rfl⟩ := Arr.eq_mat hK
      obtain ⟨y, hy, -, hyn⟩ := add_nan (w := .vec (dK.promote d) fun i =>
        Backend.gemm (n := 1) K (fun i _ => v i) i 0) hx rfl (.inl h)
      exact ⟨_, _, y, hv, by rw [Arr.atleast1d_vec, Arr.matmul_mv], hy, hyn⟩
    · obtain ⟨res, hres, hs, hnan⟩ := residual_nan hm (y := .vec (dH.promote dx) fun i =>
        Backend.gemm (n := 1) H (fun i _ => xv i) i 0) hz rfl h
      obtain ⟨corr, hc, hcs, hcn⟩ := matmul_nan hK hs hnan
      obtain ⟨y, hy, -, hyn⟩ := add_nan hx hcs (.inr hcn)
      refine ⟨res, corr, y, hres, ?_, hy, hyn⟩
      rw [Arr.atleast1d_shape (by rw [hs]; simp)]
      exact hc
  obtain ⟨res, corr, y, h1, h2, h3, h4⟩ := key
  simp only [KalmanFilter.correct, Arr.matmul_mv, Except.bind_ok', h1, h2, h3] at hr
  rcases h5 : K.matmul (.mat dH H) with e | kh; · simp [h5] at hr
  simp only [h5, Except.bind_ok'] at hr
  rcases h6 : I.sub kh with e | ikh; · simp [h6] at hr
  simp only [h6, Except.bind_ok'] at hr
  rcases h7 : ikh.matmul P with e | Pp; · simp [h7] at hr
  simp only [h7, Except.bind_ok', Except.ok.injEq] at hr
  subst hr
  exact h4

/-- What makes a step's posterior mean NaN. -/
def NanStep (m : ℕ) (r : KalmanFilter.Row F) (x : Arr F) : Prop :=
  x.AllNan ∨ (0 < m ∧ r.2.2.2.2.1.SomeNan) ∨
    (r.2.2.1.isnanAll = false ∧ r.2.2.2.1.isnanAll = false ∧ r.2.2.2.1.SomeNan)

theorem KalmanFilter.step_nan {n m : ℕ} {r : KalmanFilter.Row F} {x P : Arr F}
    (h : RowLayout n m r.1 r.2.1 r.2.2.1 r.2.2.2.1 r.2.2.2.2.1 r.2.2.2.2.2.1 r.2.2.2.2.2.2)
    (hs : KalmanFilter.Shaped n x P) (hn : NanStep m r x) (g xP o)
    (hr : KalmanFilter.step n (Arr.identity n) r x P = (g, .ok (xP, o))) : xP.1.AllNan := by
  obtain ⟨Ak, Hk, Bk, uk, zk, Qk, Rk⟩ := r
  simp only at h
  obtain ⟨d, xp, e, Pp, hp⟩ := KalmanFilter.predict_layout h hs.1 hs.2
  simp only [KalmanFilter.step, hp] at hr
  rcases gain_layout (P := .mat e Pp) h.H rfl h.R with hg | ⟨K, hg⟩
  · simp [hg] at hr
  simp only [hg, Prod.mk.injEq] at hr
  obtain ⟨-, hr⟩ := hr
  rcases hc : KalmanFilter.correct (Arr.identity n) (.mat .float64 K) Hk (.vec d xp) (.mat e Pp) zk
    with e' | r'
  · simp [hc] at hr
  have hres : r'.1.AllNan := by
    refine KalmanFilter.correct_nan (n := n) (m := m) rfl h.H rfl h.z ?_ hc
    rcases hn with hn | hn | ⟨h1, h2, h3⟩
    · exact .inl (KalmanFilter.predict_nan h hs.1 hs.2 hn hp)
    · exact .inr hn
    · rcases h.control' with hc' | hc' | ⟨p, hB, hu⟩
      · rw [h1] at hc'; simp at hc'
      · rw [h2] at hc'; simp at hc'
      · exact .inl (KalmanFilter.predict_ctrl_nan h.A hB hu hs.1 h1 h2 h3 hp)
  simp only [hc, Except.bind_ok'] at hr
  rcases h5 : r'.1.assignVec n with e' | srow; · simp [h5] at hr
  simp only [h5, Except.bind_ok'] at hr
  rcases h6 : r'.2.assignMat n with e' | erow; · simp [h6] at hr
  simp only [h6, Except.bind_ok', Except.ok.injEq, Prod.mk.injEq] at hr
  rw [← hr.1]
  exact hres

/-- Once a step has made the mean NaN, all later rows are NaN. -/
theorem KalmanFilter.trace_nan {n m : ℕ} (rs : List (KalmanFilter.Row F))
    (hl : ∀ r ∈ rs, RowLayout n m r.1 r.2.1 r.2.2.1 r.2.2.2.1 r.2.2.2.2.1 r.2.2.2.2.2.1 r.2.2.2.2.2.2)
    (x P : Arr F) (hs : KalmanFilter.Shaped n x P)
    (he : (trace (KalmanFilter.step n (Arr.identity n)) rs x P).err = none) (k : ℕ)
    (hk : x.AllNan ∨ ∃ r, rs[k]? = some r ∧ ∀ y, NanStep m r y) (j : ℕ) (hkj : k ≤ j) (o)
    (ho : (trace (KalmanFilter.step n (Arr.identity n)) rs x P).outs[j]? = some o) : o.1.AllNan := by
  induction rs generalizing x P k j with
  | nil => simp [trace] at ho
  | cons r rs ih =>
    simp only [trace] at he ho
    rcases hr : KalmanFilter.step n (Arr.identity n) r x P with ⟨g, e | ⟨xP, out⟩⟩
    · simp [hr] at he
    simp only [hr] at he ho
    obtain ⟨rfl, hs'⟩ := KalmanFilter.step_keeps (hl r (by simp)) g xP out hs hr
    have hl' : ∀ r ∈ rs, _ := fun r' hr' => hl r' (by simp [hr'])
    by_cases hnow : x.AllNan ∨ k = 0
    · have hxP : out.1.AllNan := by
        refine KalmanFilter.step_nan (hl r (by simp)) hs ?_ g out out hr
        rcases hk with hk | ⟨r', hr', hn⟩
        · exact .inl hk
        · rcases hnow with hnow | rfl
          · exact .inl hnow
          · simp at hr'; subst hr'; exact hn x
      cases j with
      | zero => simp at ho; subst ho; exact hxP
      | succ j =>
        simp only [List.getElem?_cons_succ] at ho
        exact ih hl' out.1 out.2 hs' he 0 (.inl hxP) j (by omega) ho
    · push Not at hnow
      rcases hk with hk | ⟨r', hr', hn⟩
      · exact absurd hk hnow.1
      obtain ⟨k', rfl⟩ : ∃ k', k = k' + 1 := ⟨k - 1, by omega⟩
      obtain ⟨j', rfl⟩ : ∃ j', j = j' + 1 := ⟨j - 1, by omega⟩
      simp only [List.getElem?_cons_succ] at ho hr'
      exact ih hl' out.1 out.2 hs' he k' (.inr ⟨r', hr', hn⟩) j' (by omega) ho

end KK
