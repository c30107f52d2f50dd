import Verif.Proofs.Skipping

/-!
# C149, C150: subclasses
-/

set_option linter.unusedSectionVars false
set_option linter.unusedSimpArgs false

namespace KK

open Matrix

section
variable {σ F : Type} [Backend F]

/-! ### C149: subclasses that only add something -/

/-- C149: on an instance of a subclass of `KalmanFilter` whose `predict` and `update` only add something, `filter` returns and
raises what it does on a `KalmanFilter` with the same attributes, leaves the inherited attributes as it does there, and keeps
what the overriding methods keep. -/
theorem C149_filter {M : Methods σ F} {J : Instance σ (KalmanFilter F) → Prop} (h : M.Extends J) (Z : NDArray F)
    (U : Option (NDArray F)) (s : Instance σ (KalmanFilter F)) (hj : J s) :
    let after := (M.filter Z U).run s
    let inherited := (KalmanFilter.filter Z U).run s.base
    after.1 = inherited.1 ∧ after.2.base = inherited.2 ∧ J after.2 := by
  obtain ⟨h1, h2, -, h3⟩ := h.filter Z U s hj
  exact ⟨h1, h2, h3⟩

/-- C149, `smooth`. -/
theorem C149_smooth {M : Methods σ F} {J : Instance σ (KalmanFilter F) → Prop} (h : M.Extends J) (Z : NDArray F)
    (U : Option (NDArray F)) (s : Instance σ (KalmanFilter F)) (hj : J s) :
    let after := (M.smooth Z U).run s
    let inherited := (KalmanFilter.smooth Z U).run s.base
    after.1 = inherited.1 ∧ after.2.base = inherited.2 ∧ J after.2 := by
  obtain ⟨h1, h2, -, h3⟩ := h.smooth Z U s hj
  exact ⟨h1, h2, h3⟩

/-- C149, extended class. -/
theorem C149_ext_filter {M : ExtMethods σ F} {J : Instance σ (ExtendedKalmanFilter F) → Prop} (h : M.Extends J) (Z : NDArray F)
    (U : Option (NDArray F)) (s : Instance σ (ExtendedKalmanFilter F)) (hj : J s) :
    let after := (M.filter Z U).run s
    let inherited := (ExtendedKalmanFilter.filter Z U).run s.base
    after.1 = inherited.1 ∧ after.2.base = inherited.2 ∧ J after.2 := by
  obtain ⟨h1, h2, -, h3⟩ := h.filter Z U s hj
  exact ⟨h1, h2, h3⟩

/-- C149, extended class, `smooth`. -/
theorem C149_ext_smooth {M : ExtMethods σ F} {J : Instance σ (ExtendedKalmanFilter F) → Prop} (h : M.Extends J) (Z : NDArray F)
    (U : Option (NDArray F)) (s : Instance σ (ExtendedKalmanFilter F)) (hj : J s) :
    let after := (M.smooth Z U).run s
    let inherited := (ExtendedKalmanFilter.smooth Z U).run s.base
    after.1 = inherited.1 ∧ after.2.base = inherited.2 ∧ J after.2 := by
  obtain ⟨h1, h2, -, h3⟩ := h.smooth Z U s hj
  exact ⟨h1, h2, h3⟩

/-- C149: a subclass that overrides nothing, or calls the inherited method through `super()`, is such a subclass, whatever attributes it
adds: these stay as they are. -/
theorem C149_plain (Z : NDArray F) (U : Option (NDArray F)) (s : Instance σ (KalmanFilter F)) :
    ((Methods.plain.filter Z U).run s).1 = ((KalmanFilter.filter Z U).run s.base).1 ∧
    ((Methods.plain.filter Z U).run s).2 = ⟨((KalmanFilter.filter Z U).run s.base).2, s.own⟩ ∧
    ((Methods.plain.smooth Z U).run s).1 = ((KalmanFilter.smooth Z U).run s.base).1 ∧
    ((Methods.plain.smooth Z U).run s).2 = ⟨((KalmanFilter.smooth Z U).run s.base).2, s.own⟩ := by
  have hx : (Methods.plain : Methods σ F).Extends (fun t => t.own = s.own) :=
    ⟨fun _ _ _ _ _ _ _ h => ⟨rfl, rfl, h⟩, fun _ _ _ _ _ _ h => ⟨rfl, rfl, h⟩⟩
  obtain ⟨h1, h2, h3⟩ := C149_filter hx Z U s rfl
  obtain ⟨k1, k2, k3⟩ := C149_smooth hx Z U s rfl
  exact ⟨h1, by rw [← h2, ← h3], k1, by rw [← k2, ← k3]⟩

/-- C149, extended class. -/
theorem C149_ext_plain (Z : NDArray F) (U : Option (NDArray F)) (s : Instance σ (ExtendedKalmanFilter F)) :
    ((ExtMethods.plain.filter Z U).run s).1 = ((ExtendedKalmanFilter.filter Z U).run s.base).1 ∧
    ((ExtMethods.plain.filter Z U).run s).2 = ⟨((ExtendedKalmanFilter.filter Z U).run s.base).2, s.own⟩ ∧
    ((ExtMethods.plain.smooth Z U).run s).1 = ((ExtendedKalmanFilter.smooth Z U).run s.base).1 ∧
    ((ExtMethods.plain.smooth Z U).run s).2 = ⟨((ExtendedKalmanFilter.smooth Z U).run s.base).2, s.own⟩ := by
  have hx : (ExtMethods.plain : ExtMethods σ F).Extends (fun t => t.own = s.own) :=
    ⟨fun _ _ _ _ _ h => ⟨rfl, rfl, h⟩, fun _ _ _ _ _ h => ⟨rfl, rfl, h⟩⟩
  obtain ⟨h1, h2, h3⟩ := C149_ext_filter hx Z U s rfl
  obtain ⟨k1, k2, k3⟩ := C149_ext_smooth hx Z U s rfl
  exact ⟨h1, by rw [← h2, ← h3], k1, by rw [← k2, ← k3]⟩

/-! ### C150: subclasses that skip missing measurements -/

theorem Rows.length {n : ℕ} {out rows : List (Arr F × Arr F)} (h : Rows n out rows) : out.length = rows.length := List.Forall₂.length_eq h

/-- C150: in any arithmetic, for data in the documented layout, `filter` of a subclass whose `update` returns its arguments when
the measurement is missing is the loop that calls `predict` at every time and `update` at the times with a measurement: it raises
the same exception, or its rows are what that loop collects; it leaves the inherited attributes as that loop does (in particular
no gain is recorded at a time without measurement). -/
theorem C150_skipping {n m : ℕ} (missing : Arr F → Bool) (kf : KalmanFilter F) (o : σ) (Z : NDArray F) (U : Option (NDArray F))
    (hi : kf.AllIterable Z U) (hl : Layout n m kf Z U) :
    let hand := (KalmanFilter.byHand Z (effU U Z) (seenBy missing Z) (List.range (kf.steps Z U)) kf.xk kf.Pk).run kf
    let r := ((Methods.skipping missing).filter Z U).run ⟨kf, o⟩
    (∀ e, hand.1 = .error e → r.1 = .error e) ∧
    (∀ out, hand.1 = .ok out → ∃ a, r.1 = .ok a ∧ WrittenTo Z.rows.length n out a) ∧
    r.2 = ⟨hand.2, o⟩ := by
  intro hand r
  obtain ⟨z, hz⟩ := hi.Z.exists
  have hn : Z.len = .ok Z.rows.length := by rw [hz]; rfl
  have hr : r = ((Methods.skipping missing).filterLoop n 0 ((kf.zrows Z U).drop 0) kf.xk kf.Pk
      (List.replicate Z.rows.length (Arr.zerosVec n)) (List.replicate Z.rows.length (Arr.zerosMat n))).run ⟨kf, o⟩ := by
    simp only [r, Methods.filter, Py.run_bind, Instance.attrs, Py.run_lift, hn, KalmanFilter.zipRows_iter hi, hl.size, List.drop_zero]
  obtain ⟨h1, h2⟩ := KalmanFilter.skip_loop (n := n) (m := m) missing o Z U (kf.steps Z U) 0 kf kf.xk kf.Pk
    (List.replicate Z.rows.length (Arr.zerosVec n)) (List.replicate Z.rows.length (Arr.zerosMat n))
    (by rw [KalmanFilter.zrows_length]; omega) hl ⟨hl.x, hl.P⟩
  rw [← hr, ← List.range_eq_range'] at h1 h2
  change ∀ e, hand.1 = _ → _ at h1
  change ∀ out, hand.1 = _ → _ at h2
  rcases hh : hand.1 with e | out
  · rw [h1 e hh]
    exact ⟨fun e' he => by simpa using he, fun out he => by simp at he, rfl⟩
  · obtain ⟨rows, h3, h4, h5⟩ := h2 out hh
    have := kf.steps_le Z U
    rw [overwrite_zero_replicate _ _ _ (by simp [h4, this]), overwrite_zero_replicate _ _ _ (by simp [h4, this])] at h5
    rw [h5]
    refine ⟨fun e he => by simp at he, fun out' he => ⟨_, rfl, rows, ?_, by simp⟩, rfl⟩
    simp only [Except.ok.injEq] at he
    exact he ▸ h3

/-- C150, extended class. -/
theorem C150_ext_skipping {n m : ℕ} (missing : Arr F → Bool) (kf : ExtendedKalmanFilter F) (o : σ) (Z : NDArray F)
    (U : Option (NDArray F)) (hi : kf.AllIterable Z U) (hl : ExtLayout n m kf Z U) :
    let hand := (ExtendedKalmanFilter.byHand Z (effU U Z) (seenBy missing Z) (List.range (kf.steps Z U)) kf.xk kf.Pk).run kf
    let r := ((ExtMethods.skipping missing).filter Z U).run ⟨kf, o⟩
    (∀ e, hand.1 = .error e → r.1 = .error e) ∧
    (∀ out, hand.1 = .ok out → ∃ a, r.1 = .ok a ∧ WrittenTo Z.rows.length n out a) ∧
    r.2 = ⟨hand.2, o⟩ := by
  intro hand r
  obtain ⟨z, hz⟩ := hi.Z.exists
  have hn : Z.len = .ok Z.rows.length := by rw [hz]; rfl
  have hr : r = ((ExtMethods.skipping missing).filterLoop n 0 ((kf.zrows Z U).drop 0) kf.xk kf.Pk
      (List.replicate Z.rows.length (Arr.zerosVec n)) (List.replicate Z.rows.length (Arr.zerosMat n))).run ⟨kf, o⟩ := by
    simp only [r, ExtMethods.filter, Py.run_bind, Instance.attrs, Py.run_lift, hn, ExtendedKalmanFilter.zipRows_iter hi, hl.size,
      List.drop_zero]
  obtain ⟨h1, h2⟩ := ExtendedKalmanFilter.skip_loop (n := n) (m := m) missing o Z U (kf.steps Z U) 0 kf kf.xk kf.Pk
    (List.replicate Z.rows.length (Arr.zerosVec n)) (List.replicate Z.rows.length (Arr.zerosMat n))
    (by rw [ExtendedKalmanFilter.zrows_length]; omega) hl ⟨hl.x, hl.P⟩
  rw [← hr, ← List.range_eq_range'] at h1 h2
  change ∀ e, hand.1 = _ → _ at h1
  change ∀ out, hand.1 = _ → _ at h2
  rcases hh : hand.1 with e | out
  · rw [h1 e hh]
    exact ⟨fun e' he => by simpa using he, fun out he => by simp at he, rfl⟩
  · obtain ⟨rows, h3, h4, h5⟩ := h2 out hh
    have := kf.steps_le Z U
    rw [overwrite_zero_replicate _ _ _ (by simp [h4, this]), overwrite_zero_replicate _ _ _ (by simp [h4, this])] at h5
    rw [h5]
    refine ⟨fun e he => by simp at he, fun out' he => ⟨_, rfl, rows, ?_, by simp⟩, rfl⟩
    simp only [Except.ok.injEq] at he
    exact he ▸ h3

/-! ### data with the missing measurements filled in -/

variable {missing : Arr F → Bool} {Z Zf : NDArray F}

theorem Arr.fullLikeNan_congr {a b : Arr F} (hs : a.shape = b.shape) (hd : a.dtype = b.dtype) : a.fullLikeNan = b.fullLikeNan := by
  cases a <;> cases b <;> simp_all [Arr.shape, Arr.dtype, Arr.fullLikeNan]
  all_goals first | (obtain ⟨rfl, rfl⟩ := hs; rfl) | (subst hs; rfl)

theorem Fills.effU (h : Fills missing Z Zf) (U : Option (NDArray F)) : effU U Z = effU U Zf := by
  obtain ⟨zs, fs, rfl, rfl, h⟩ := h
  cases U with
  | some U => rfl
  | none =>
    simp only [KK.effU, checkNoneAndBroadcast, NDArray.fullLikeNan, NDArray.stack.injEq]
    induction h with
    | nil => rfl
    | cons a _ ih => simp [ih, Arr.fullLikeNan_congr a.1 a.2.1]

theorem Fills.length (h : Fills missing Z Zf) : Z.rows.length = Zf.rows.length := by
  obtain ⟨zs, fs, rfl, rfl, h⟩ := h
  exact h.length_eq

theorem Fills.row (h : Fills missing Z Zf) {k : ℕ} {z f : Arr F} (h1 : Z.rows[k]? = some z) (h2 : Zf.rows[k]? = some f) :
    z.shape = f.shape ∧ z.dtype = f.dtype ∧ (missing z = false → z = f) := by
  obtain ⟨zs, fs, rfl, rfl, h⟩ := h
  simp only [NDArray.rows] at h1 h2
  induction h generalizing k with
  | nil => simp at h1
  | cons a _ ih =>
    cases k with
    | zero =>
      simp only [List.getElem?_cons_zero, Option.some.injEq] at h1 h2
      subst h1 h2; exact a
    | succ k => exact ih h1 h2

/-- The loop written by hand does not look at the missing measurements. -/
theorem Fills.byHand (h : Fills missing Z Zf) (U : NDArray F) (ks : List ℕ) (x P : Arr F) (kf : KalmanFilter F) :
    (KalmanFilter.byHand Z U (seenBy missing Z) ks x P).run kf = (KalmanFilter.byHand Zf U (seenBy missing Z) ks x P).run kf := by
  have hitem : ∀ k, seenBy missing Z k = true → Z.item k = Zf.item k := by
    intro k hk
    rcases hz : Z.rows[k]? with _ | z
    · simp [seenBy, hz] at hk
    simp only [seenBy, hz, Bool.not_eq_true'] at hk
    have : k < Zf.rows.length := by
      rw [← h.length]; exact (List.getElem?_eq_some_iff.1 hz).1
    have hf := List.getElem?_eq_getElem this
    rw [item_eq hz, item_eq hf, (h.row hz hf).2.2 hk]
  congr 1
  induction ks generalizing x P with
  | nil => rfl
  | cons k ks ih =>
    simp only [KalmanFilter.byHand, ih]
    rcases hs : seenBy missing Z k with _ | _
    · rfl
    · simp only [hitem k hs]

end

/-! ### exact arithmetic -/

section
variable [Platform] {σ : Type} {n m : ℕ}

theorem StepIs.layout {s : LinStep n m} {Ak Hk Bk uk zk Qk Rk : Arr Fl} (h : StepIs s Ak Hk Bk uk zk Qk Rk) :
    RowLayout n m Ak Hk Bk uk zk Qk Rk := by
  obtain ⟨⟨dA, rfl⟩, ⟨dH, rfl⟩, hc, hz, hQ, hR⟩ := h
  refine ⟨rfl, rfl, ?_, ?_, ?_, ?_⟩
  · rcases hc with ⟨h | h, -⟩ | ⟨p, B, u, ⟨dB, rfl⟩, ⟨du, rfl⟩, -⟩
    · exact .inl h
    · exact .inr (.inl h)
    · exact .inr (.inr ⟨p, rfl, rfl⟩)
  · rcases hz with ⟨d, rfl⟩ | ⟨d, r, rfl, -⟩
    · exact .inl rfl
    · exact .inr rfl
  · rcases hQ with ⟨d, rfl⟩ | ⟨d, r, rfl, -⟩
    · exact .inl rfl
    · exact .inr rfl
  · rcases hR with ⟨d, rfl⟩ | ⟨d, r, rfl, -⟩
    · exact .inl rfl
    · exact .inr rfl

variable {kf : KalmanFilter Fl} {Z Zf : NDArray Fl} {U : Option (NDArray Fl)} {b : Belief n} {ss : List (LinStep n m)}
  {missing : Arr Fl → Bool}

theorem Fills.iterable (h : Fills missing Z Zf) : Z.Iterable := by
  obtain ⟨zs, fs, rfl, rfl, h⟩ := h
  trivial

theorem Fills.allIterable (h : Fills missing Z Zf) (hi : kf.AllIterable Zf U) : kf.AllIterable Z U :=
  ⟨hi.A, hi.H, hi.B, (h.effU U).symm ▸ hi.U, h.iterable, hi.Q, hi.R⟩

theorem Fills.steps (h : Fills missing Z Zf) : kf.steps Z U = kf.steps Zf U := by
  simp only [KalmanFilter.steps, h.effU U, h.length]

theorem Fills.layout (h : Fills missing Z Zf) (hr : Represents kf Zf U b ss) (hx : VecIs b.x kf.xk) : Layout n m kf Z U := by
  obtain ⟨d, hx⟩ := hx
  obtain ⟨e, hP⟩ := hr.P
  refine ⟨by rw [hx]; rfl, by rw [hP]; rfl, hr.size, hr.ident, ?_⟩
  intro k Ak Hk Bk uk zk Qk Rk h1 h2 h3 h4 h5 h6 h7
  rw [h.effU U] at h4
  have hk : k < Zf.rows.length := by
    rw [← h.length]; exact (List.getElem?_eq_some_iff.1 h5).1
  have h5' := List.getElem?_eq_getElem hk
  have hks : k < ss.length := by
    have g1 := (List.getElem?_eq_some_iff.1 h1).1
    have g2 := (List.getElem?_eq_some_iff.1 h2).1
    have g3 := (List.getElem?_eq_some_iff.1 h3).1
    have g4 := (List.getElem?_eq_some_iff.1 h4).1
    have g6 := (List.getElem?_eq_some_iff.1 h6).1
    have g7 := (List.getElem?_eq_some_iff.1 h7).1
    rw [hr.len]; simp only [KalmanFilter.steps]; omega
  have hl := (hr.rows k _ _ _ _ _ _ _ _ (List.getElem?_eq_getElem hks) h1 h2 h3 h4 h5' h6 h7).layout
  exact ⟨hl.A, hl.H, hl.control, by rw [(h.row h5 h5').1]; exact hl.z, hl.Q, hl.R⟩

/-- The first rows of the arrays written for exact values. -/
theorem WrittenTo.exact {len : ℕ} {bs : List (Belief n)} {out : List (Arr Fl × Arr Fl)} {a : List (Arr Fl) × List (Arr Fl)}
    (hw : WrittenTo len n out a) (hf : List.Forall₂ (fun (q : Belief n) o => VecIs q.x o.1 ∧ MatIs q.P o.2) bs out) :
    a = (bs.map stateRow ++ List.replicate (len - bs.length) (Arr.zerosVec n),
      bs.map covRow ++ List.replicate (len - bs.length) (Arr.zerosMat n)) := by
  obtain ⟨rows, h1, rfl⟩ := hw
  have : bs.map (fun q => (stateRow q, covRow q)) = rows := by
    induction hf generalizing rows with
    | nil => cases h1; rfl
    | @cons q o bs out hq hf ih =>
      cases h1 with
      | @cons _ row _ rows ha hr =>
        obtain ⟨⟨d, hd⟩, ⟨e, he⟩⟩ := hq
        rw [hd, he, Arr.assignVec_vec, Arr.assignMat_mat] at ha
        obtain ⟨h2, h3⟩ := ha
        simp only [Except.ok.injEq] at h2 h3
        rw [List.map_cons, ih _ hr]
        simp only [stateRow, covRow, h2, h3]
  subst this
  simp [List.map_map, Function.comp_def]

omit [Platform] in
theorem maskFrom_getElem? (seen : ℕ → Bool) (j : ℕ) (ss : List (LinStep n m)) (k : ℕ) :
    (maskFrom seen j ss)[k]? = ss[k]?.map fun s => if seen (j + k) then s else { s with H := 0 } := by
  induction ss generalizing j k with
  | nil => simp [maskFrom]
  | cons s ss ih =>
    cases k with
    | zero => simp [maskFrom]
    | succ k => simp only [maskFrom, List.getElem?_cons_succ, ih, show j + 1 + k = j + (k + 1) by omega]

omit [Platform] in
theorem maskFrom_length (seen : ℕ → Bool) (j : ℕ) (ss : List (LinStep n m)) : (maskFrom seen j ss).length = ss.length := by
  induction ss generalizing j with
  | nil => rfl
  | cons s ss ih => simp [maskFrom, ih]

/-- The filter with zero measurement matrices at the times without measurement. -/
noncomputable def maskH (m n : ℕ) (seen : ℕ → Bool) (kf : KalmanFilter Fl) : KalmanFilter Fl :=
  { kf with H := .stack (kf.H.rows.mapIdx fun k a => if seen k then a else .mat .float64 (finM (0 : Matrix (Fin m) (Fin n) ℝ))) }

theorem maskH_represents (h : Represents kf Z U b ss) (seen : ℕ → Bool) :
    Represents (maskH m n seen kf) Z U b (maskFrom seen 0 ss) where
  iter := ⟨h.iter.A, trivial, h.iter.B, h.iter.U, h.iter.Z, h.iter.Q, h.iter.R⟩
  len := by
    rw [maskFrom_length, h.len]
    simp [KalmanFilter.steps, maskH, NDArray.rows]
  size := h.size
  ident := h.ident
  x := h.x
  P := h.P
  rows k s Ak Hk Bk uk zk Qk Rk hs h1 h2 h3 h4 h5 h6 h7 := by
    rw [maskFrom_getElem?, Option.map_eq_some_iff] at hs
    obtain ⟨t, ht, rfl⟩ := hs
    simp only [maskH, NDArray.rows, List.getElem?_mapIdx, Option.map_eq_some_iff] at h2
    obtain ⟨a, ha, rfl⟩ := h2
    have hst := h.rows k t Ak a Bk uk zk Qk Rk ht h1 ha h3 h4 h5 h6 h7
    rw [Nat.zero_add]
    split
    · exact hst
    · exact ⟨hst.A, ⟨_, rfl⟩, hst.ctrl, hst.z, hst.Q, hst.R⟩
  col := h.col

/-- C150, exact arithmetic: `filter` of the subclass on data with missing measurements raises or returns the same arrays as
`KalmanFilter.filter` on the model with `H = 0` at the times without measurement (whatever the data are there, and for any
invertible `R`), and records the gains of the times with a measurement. -/
theorem C150_missing_filter (missing : Arr Fl → Bool) (kf kf' : KalmanFilter Fl) (o : σ) (Z Zf Z' : NDArray Fl)
    (U U' : Option (NDArray Fl)) (b : Belief n) (ss : List (LinStep n m)) (hx : VecIs b.x kf.xk) (hR : ∀ s ∈ ss, s.R.det ≠ 0)
    (h : Represents kf Zf U b ss) (hf : Fills missing Z Zf) (hlen : Z'.rows.length = Z.rows.length)
    (h' : Represents kf' Z' U' b (maskFrom (seenBy missing Z) 0 ss)) :
    let sub := ((Methods.skipping missing).filter Z U).run ⟨kf, o⟩
    let std := (KalmanFilter.filter Z' U').run kf'
    sub.1 = std.1 ∧
    ∀ a, std.1 = .ok a → ∃ Ks : List (Matrix (Fin n) (Fin m) ℝ), Ks.length = ss.length ∧
      std.2 = { kf' with kalmanGains := kf'.kalmanGains ++ Ks.map gainRow } ∧
      sub.2 = ⟨{ kf with kalmanGains := kf.kalmanGains ++ (seenFrom (seenBy missing Z) 0 Ks).map gainRow }, o⟩ := by
  intro sub std
  obtain ⟨s1, s2, s3⟩ := C150_skipping missing kf o Z U (hf.allIterable h.iter) (hf.layout h hx)
  rw [hf.byHand, hf.effU, hf.steps, ← h.len] at s1 s2 s3
  obtain ⟨m1, m2⟩ := mask_exact h (seenBy missing Z) ss 0 [] b kf.xk kf.Pk rfl hx h.P
  rw [KalmanFilter.addGains_nil, ← List.range_eq_range'] at m1 m2
  by_cases hs : Solvable b (maskFrom (seenBy missing Z) 0 ss)
  · obtain ⟨out, e1, e2⟩ := m1 hs
    rw [e1] at s1 s2 s3
    obtain ⟨a, ha, hw⟩ := s2 out rfl
    have e4 : std = _ := h'.returns hs
    have hb := hw.exact e2
    rw [e4]
    refine ⟨?_, fun _ _ => ⟨_, ?_, rfl, s3⟩⟩
    · change sub.1 = _
      rw [show sub.1 = .ok a from ha, hb, hlen]
    · rw [gainsOf_length, maskFrom_length]
  · obtain ⟨k, e1⟩ := m2 hR hs
    obtain ⟨k', e2⟩ := h'.singular hs
    have e4 : std = (.error .linAlgError, k') := e2
    rw [e4]
    rw [e1] at s1
    exact ⟨s1 _ rfl, fun a ha => by simp at ha⟩

theorem skipping_smoothLoop {F : Type} [Backend F] (missing : Arr F → Bool) (o : σ) (A Q B U : NDArray F)
    (xEst PEst : List (Arr F)) (ks : List ℕ) (xs Ps : List (Arr F)) (kf : KalmanFilter F) :
    (((Methods.skipping missing).smoothLoop kf.stateSize A Q B U xEst PEst ks xs Ps).run (⟨kf, o⟩ : Instance σ (KalmanFilter F))) =
      (KalmanFilter.smoothLoop A Q B U kf.stateSize xEst PEst ks xs Ps, ⟨kf, o⟩) := by
  have hp : (Methods.plain : Methods σ F).Extends (fun t => t.own = o) :=
    ⟨fun _ _ _ _ _ _ _ h => ⟨rfl, rfl, h⟩, fun _ _ _ _ _ _ h => ⟨rfl, rfl, h⟩⟩
  have he : (Methods.skipping missing : Methods σ F).smoothLoop kf.stateSize A Q B U xEst PEst ks xs Ps =
      (Methods.plain : Methods σ F).smoothLoop kf.stateSize A Q B U xEst PEst ks xs Ps := by
    induction ks generalizing xs Ps with
    | nil => rfl
    | cons k ks ih => simp only [Methods.smoothLoop, ih]; rfl
  rw [he]
  obtain ⟨h1, h2, -, h3⟩ := hp.smoothLoop kf.stateSize A Q B U xEst PEst ks xs Ps ⟨kf, o⟩ kf ⟨rfl, rfl, rfl⟩
  generalize ((Methods.plain : Methods σ F).smoothLoop kf.stateSize A Q B U xEst PEst ks xs Ps).run ⟨kf, o⟩ = r at h1 h2 h3
  obtain ⟨r1, r2, r3⟩ := r
  simp only [Py.run_lift] at h1 h2 h3
  rw [h1, h2, h3]

theorem skipping_smooth {F : Type} [Backend F] (missing : Arr F → Bool) (o : σ) {Z Zf : NDArray F} (hf : Fills missing Z Zf)
    (U : Option (NDArray F)) (kf kf' k1 : KalmanFilter F)
    (h1 : (((Methods.skipping missing).filter Z U).run (⟨kf, o⟩ : Instance σ (KalmanFilter F))) =
      (((KalmanFilter.filter Zf U).run kf').1, ⟨k1, o⟩))
    (h2 : ∀ r, ((KalmanFilter.filter Zf U).run kf').1 = .ok r → k1.A = ((KalmanFilter.filter Zf U).run kf').2.A ∧
      k1.Q = ((KalmanFilter.filter Zf U).run kf').2.Q ∧ k1.B = ((KalmanFilter.filter Zf U).run kf').2.B ∧
      k1.stateSize = ((KalmanFilter.filter Zf U).run kf').2.stateSize) :
    (((Methods.skipping missing).smooth Z U).run (⟨kf, o⟩ : Instance σ (KalmanFilter F))) =
      (((KalmanFilter.smooth Zf U).run kf').1, ⟨k1, o⟩) := by
  simp only [Methods.smooth, KalmanFilter.smooth, Py.run_bind (Methods.filter _ Z U), Py.run_bind (KalmanFilter.filter Zf U), h1]
  rcases hq : (KalmanFilter.filter Zf U).run kf' with ⟨e | a, v⟩
  · rfl
  obtain ⟨e1, e2, e3, e4⟩ := h2 a (by rw [hq])
  rw [hq] at e1 e2 e3 e4
  simp only at e1 e2 e3 e4
  have hl : Z.len = Zf.len := by
    obtain ⟨zs, fs, rfl, rfl, h⟩ := hf
    simp [NDArray.len, h.length_eq]
  simp only [Py.run_bind, Instance.attrs, Py.run_self, Py.run_lift, hl]
  rcases Zf.len with e | len
  · rfl
  simp only [Stateful.lastRow, ← e1, ← e2, ← e3, ← e4]
  rcases (if len = 0 then .error .indexError else getRow a.1 (len - 1) : Except PyErr (Arr F)) with e | x
  · rfl
  simp only
  rcases (if len = 0 then .error .indexError else getRow a.2 (len - 1) : Except PyErr (Arr F)) with e | P
  · rfl
  simp only
  rcases x.assignVec k1.stateSize with e | xr
  · rfl
  simp only
  rcases P.assignMat k1.stateSize with e | Pr
  · rfl
  simp only
  rw [skipping_smoothLoop, show checkNoneAndBroadcast U Z = checkNoneAndBroadcast U Zf from hf.effU U]

/-- C150, exact arithmetic, `smooth`: the subclass raises or returns the same arrays as `KalmanFilter.smooth` on the model with
`H = 0` at the times without measurement. -/
theorem C150_missing_smooth (missing : Arr Fl → Bool) (kf kf' : KalmanFilter Fl) (o : σ) (Z Zf Z' : NDArray Fl)
    (U U' : Option (NDArray Fl)) (b : Belief n) (ss : List (LinStep n m)) (hx : VecIs b.x kf.xk) (hR : ∀ s ∈ ss, s.R.det ≠ 0)
    (hfull : ss.length = Z.rows.length) (hne : ss ≠ [])
    (h : Represents kf Zf U b ss) (hf : Fills missing Z Zf) (hlen : Z'.rows.length = Z.rows.length)
    (h' : Represents kf' Z' U' b (maskFrom (seenBy missing Z) 0 ss)) :
    let sub := ((Methods.skipping missing).smooth Z U).run ⟨kf, o⟩
    let std := (KalmanFilter.smooth Z' U').run kf'
    sub.1 = std.1 ∧
    ∀ a, std.1 = .ok a → ∃ Ks : List (Matrix (Fin n) (Fin m) ℝ), Ks.length = ss.length ∧
      std.2 = { kf' with kalmanGains := kf'.kalmanGains ++ Ks.map gainRow } ∧
      sub.2 = ⟨{ kf with kalmanGains := kf.kalmanGains ++ (seenFrom (seenBy missing Z) 0 Ks).map gainRow }, o⟩ := by
  intro sub std
  have hm := maskH_represents h (seenBy missing Z)
  have hne' : maskFrom (seenBy missing Z) 0 ss ≠ [] := by
    intro h0
    have := congrArg List.length h0
    rw [maskFrom_length] at this
    exact hne (List.length_eq_zero_iff.1 this)
  have hfull1 : (maskFrom (seenBy missing Z) 0 ss).length = Zf.rows.length := by rw [maskFrom_length, hfull, hf.length]
  have hfull2 : (maskFrom (seenBy missing Z) 0 ss).length = Z'.rows.length := by rw [maskFrom_length, hfull, hlen]
  obtain ⟨f1, f3⟩ := C150_missing_filter missing kf _ o Z Zf Zf U U b ss hx hR h hf hf.length.symm hm
  obtain ⟨f0, f2⟩ := C150_missing_filter missing kf kf' o Z Zf Z' U U' b ss hx hR h hf hlen h'
  obtain ⟨-, -, f4⟩ := C150_skipping missing kf o Z U (hf.allIterable h.iter) (hf.layout h hx)
  obtain ⟨k1, hk1⟩ : ∃ k1, (((Methods.skipping missing).filter Z U).run (⟨kf, o⟩ : Instance σ (KalmanFilter Fl))).2 = ⟨k1, o⟩ :=
    ⟨_, f4⟩
  have hsub := skipping_smooth missing o hf U kf (maskH m n (seenBy missing Z) kf) k1 (Prod.ext f1 hk1) (by
    intro r hr
    obtain ⟨Ks, -, g1, g2⟩ := f3 r hr
    rw [hk1] at g2
    rw [g1]
    simp only [Instance.mk.injEq, and_true] at g2
    rw [g2]
    exact ⟨rfl, rfl, rfl, rfl⟩)
  have hsame : ((KalmanFilter.smooth Zf U).run (maskH m n (seenBy missing Z) kf)).1 = std.1 := by
    by_cases hs : Solvable b (maskFrom (seenBy missing Z) 0 ss) ∧ SmoothSolvable b (maskFrom (seenBy missing Z) 0 ss)
    · rw [show std = _ from h'.smoothReturns hfull2 hne' hs.1 hs.2, show _ = _ from hm.smoothReturns hfull1 hne' hs.1 hs.2]
    · obtain ⟨k, hk⟩ := hm.smoothSingular hfull1 hne' hs
      obtain ⟨k', hk'⟩ := h'.smoothSingular hfull2 hne' hs
      rw [hk, show std = _ from hk']
  refine ⟨by rw [show sub = _ from hsub, hsame], fun a ha => ?_⟩
  have hst : std = _ := KalmanFilter.smooth_eq Z' U' kf'
  rcases hq : (KalmanFilter.filter Z' U').run kf' with ⟨e | r, v⟩
  · rw [hq] at hst; rw [hst] at ha; simp at ha
  · rw [hq] at hst f2
    obtain ⟨Ks, g0, g1, g2⟩ := f2 r rfl
    refine ⟨Ks, g0, ?_, ?_⟩
    · rw [hst]; exact g1
    · rw [show sub = _ from hsub, ← hk1]; exact g2

/-! ### the hypotheses are met -/

/-- Constant velocity, any data, NaN at any times: the exact statements apply, and nothing raises. -/
example (uz : List (ℝ × ℝ)) (hne : uz ≠ []) (lost : ℕ → Bool) :
    let ss := Ex.cvSteps uz
    let Z : NDArray Fl := .stack ((Ex.encZ ss).rows.mapIdx fun k z => if lost k then z.fullLikeNan else z)
    let ms := maskFrom (seenBy Arr.isnanAll Z) 0 ss
    VecIs Ex.cvBelief.x (Ex.encode Ex.cvBelief ss).xk ∧ (∀ s ∈ ss, s.R.det ≠ 0) ∧ ss.length = Z.rows.length ∧ ss ≠ [] ∧
    Represents (Ex.encode Ex.cvBelief ss) (Ex.encZ ss) (some (Ex.encU ss)) Ex.cvBelief ss ∧
    Fills Arr.isnanAll Z (Ex.encZ ss) ∧ (Ex.encZ ms).rows.length = Z.rows.length ∧
    Represents (Ex.encode Ex.cvBelief ms) (Ex.encZ ms) (some (Ex.encU ms)) Ex.cvBelief ms ∧
    Solvable Ex.cvBelief ms := by
  intro ss Z ms
  have hlen : ss.length = Z.rows.length := by simp [Z, NDArray.rows, Ex.encZ]
  refine ⟨⟨_, rfl⟩, fun s hs => posDef_det_ne (Ex.cv_pdStep uz s hs).2.1, hlen, ?_, Ex.encode_represents _ _, ?_, ?_,
    Ex.encode_represents _ _, solvable_pd _ _ Ex.cv_posDef ?_⟩
  · intro h
    have := congrArg List.length h
    simp [ss, Ex.cvSteps] at this
    exact hne this
  · refine ⟨_, _, rfl, rfl, ?_⟩
    refine forall₂_of_get _ _ _ (by simp [NDArray.rows, Ex.encZ]) ?_
    intro k z f hz hf
    simp only [List.getElem?_mapIdx, Ex.encZ, NDArray.rows, hf, Option.map_some, Option.some.injEq] at hz
    subst hz
    simp only [List.getElem?_map, Option.map_eq_some_iff] at hf
    obtain ⟨s, -, rfl⟩ := hf
    split
    · refine ⟨rfl, rfl, fun h => ?_⟩
      simp [Arr.isnanAll, Arr.fullLikeNan, Arr.nanFill, Arr.isnanEntry, Backend.isnan, Backend.nan] at h
    · exact ⟨rfl, rfl, fun _ => rfl⟩
  · rw [← hlen]; simp [Ex.encZ, NDArray.rows, ms, maskFrom_length]
  · have : ∀ (seen : ℕ → Bool) (ss : List (LinStep 2 1)) (j : ℕ), (∀ s ∈ ss, PdStep s) → ∀ s ∈ maskFrom seen j ss, PdStep s := by
      intro seen ss
      induction ss with
      | nil => intro j _ s hs; simp [maskFrom] at hs
      | cons t ss ih =>
        intro j ht s hs
        simp only [maskFrom, List.mem_cons] at hs
        rcases hs with rfl | hs
        · have := ht t (by simp)
          split
          · exact this
          · exact ⟨this.1, this.2.1, this.2.2⟩
        · exact ih (j + 1) (fun s hs => ht s (by simp [hs])) s hs
    exact this _ ss 0 (Ex.cv_pdStep uz)

end

namespace Ex

/-- A subclass that counts the calls of `update` that return. -/
def counting : Methods ℕ QN where
  predict := Methods.plain.predict
  update Hk xk Pk zk Rk := do
    let r ← Methods.plain.update Hk xk Pk zk Rk
    Py.mutate fun s => { s with own := s.own + 1 }
    Py.pure r

/-- The same for the extended class. -/
def extCounting : ExtMethods ℕ QN where
  predict := ExtMethods.plain.predict
  update xk Pk zk Rk := do
    let r ← ExtMethods.plain.update xk Pk zk Rk
    Py.mutate fun s => { s with own := s.own + 1 }
    Py.pure r

/-- Three measurements, the second lost. -/
def lost : NDArray QN := .stack [vec1 (some 1), vec1 none, vec1 (some 2)]

/-- The counter and the number of recorded gains. -/
def tally {α : Type} (r : Except PyErr α × Instance ℕ (KalmanFilter QN)) : Option (ℕ × ℕ) :=
  match r with
  | (.ok _, s) => some (s.own, s.base.kalmanGains.length)
  | _ => none

/-- The counter and the number of recorded gains. -/
def extTally {α : Type} (r : Except PyErr α × Instance ℕ (ExtendedKalmanFilter QN)) : Option (ℕ × ℕ) :=
  match r with
  | (.ok _, s) => some (s.own, s.base.kalmanGains.length)
  | _ => none

end Ex

/-- The counting subclass only adds something, and never counts more calls than there are gains. -/
example : Ex.counting.Extends (fun s => s.own ≤ s.base.kalmanGains.length) where
  predict _ _ _ _ _ _ _ h := ⟨rfl, rfl, h⟩
  update Hk xk Pk zk Rk s h := by
    simp only [Ex.counting, Methods.plain, Instance.inherited, Py.run_bind, KalmanFilter.update, Py.run_lift, Py.run_self]
    rcases KalmanFilter.gain Hk Pk Rk with e | K
    · exact ⟨rfl, rfl, h⟩
    simp only [Py.run_mutate]
    rcases KalmanFilter.correct s.base.I K Hk xk Pk zk with e | r
    · refine ⟨rfl, rfl, ?_⟩
      simp only [List.length_append, List.length_singleton]; omega
    · refine ⟨rfl, rfl, ?_⟩
      simp only [Py.run_pure', List.length_append, List.length_singleton]; omega

/-- On three measurements it counts three calls, and a call of `smooth` is one more run of the filter. -/
example : Ex.tally ((Ex.counting.filter Ex.zs (some Ex.us)).run ⟨Ex.cv 3, 0⟩) = some (3, 3) ∧
    Ex.tally ((Ex.counting.smooth Ex.zs (some Ex.us)).run ⟨Ex.cv 3, 0⟩) = some (3, 3) := by
  decide +kernel

example : Ex.extTally ((Ex.extCounting.filter Ex.zs (some Ex.us)).run ⟨Ex.ecv 3, 0⟩) = some (3, 3) ∧
    Ex.extTally ((Ex.extCounting.smooth Ex.zs (some Ex.us)).run ⟨Ex.ecv 3, 0⟩) = some (3, 3) := by
  decide +kernel

/-- Three measurements with the second one NaN: the data have the documented layout, and the subclass records two gains, while
`KalmanFilter` itself records three. -/
example : (Ex.cv 3).AllIterable Ex.lost (some Ex.us) ∧ Layout 2 1 (Ex.cv 3) Ex.lost (some Ex.us) ∧
    Ex.tally (((Methods.skipping Arr.isnanAll).filter Ex.lost (some Ex.us)).run ⟨Ex.cv 3, 0⟩) = some (0, 2) ∧
    Ex.tally ((Methods.plain.filter Ex.lost (some Ex.us)).run ⟨Ex.cv 3, 0⟩) = some (0, 3) := by
  refine ⟨⟨trivial, trivial, trivial, trivial, trivial, trivial, trivial⟩, ?_, by decide +kernel, by decide +kernel⟩
  exact Ex.cv_layout 3 [some 1, none, some 2] [some 1, some 0, some (-1)]

example : (Ex.pushed Ex.q2 Ex.r1 3).AllIterable Ex.lost (some Ex.us) ∧
    ExtLayout 2 1 (Ex.pushed Ex.q2 Ex.r1 3) Ex.lost (some Ex.us) ∧
    Ex.extTally (((ExtMethods.skipping Arr.isnanAll).filter Ex.lost (some Ex.us)).run ⟨Ex.pushed Ex.q2 Ex.r1 3, 0⟩) = some (0, 2) := by
  refine ⟨⟨trivial, trivial, trivial, trivial⟩, Ex.pushed_layout _ _ 3 [some 1, none, some 2] _ (.inl rfl) (.inl rfl),
    by decide +kernel⟩

end KK
