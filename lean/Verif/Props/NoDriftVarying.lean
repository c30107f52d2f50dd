import Verif.Proofs.RoundBackVarying
import Verif.Props.NoDriftSmooth
import Verif.Props.LagVarying

/-!
# C125-C126: rounding errors do not accumulate when the model changes from step to step
-/

set_option linter.unusedSectionVars false

namespace KK

open Matrix
open scoped Matrix.Norms.Elementwise

section
variable {n m : ℕ}

theorem gainsOf_get {b : Belief n} {ss : List (LinStep n m)} {k : ℕ} {K : Matrix (Fin n) (Fin m) ℝ} (h : (gainsOf b ss)[k]? = some K) :
    ∃ s, ss[k]? = some s ∧ K = s.gainAt (lastOf b (ss.take k)).P := by
  induction ss generalizing b k with
  | nil => simp [gainsOf] at h
  | cons s ss ih =>
    cases k with
    | zero =>
      simp only [gainsOf, List.getElem?_cons_zero, Option.some.injEq] at h
      exact ⟨s, rfl, h.symm⟩
    | succ k =>
      simp only [gainsOf, List.getElem?_cons_succ] at h
      obtain ⟨s', h1, h2⟩ := ih h
      exact ⟨s', h1, h2⟩

variable [P : Platform]

/-- A run of `filter` in an accurate arithmetic, on data for which errors stay small. -/
theorem filter_near_of (D X : ℝ) {δ ε : ℝ} (hδ : 0 < δ) (hε : 0 < ε) :
    ∃ η > 0, ∀ (b : Belief n) (ss : List (LinStep n m)) (kf : KalmanFilter Fl) (Z : NDArray Fl) (U : Option (NDArray Fl)),
      StaysNear δ (ε / 2) X b ss → Represents kf Z U b ss → InputsWithin D kf Z U →
      ∀ (B : Backend Fl) kf₁ Z₁ U₁, Accurate P.nanInt η B → kf.Close η kf₁ → Z.Close η Z₁ → CloseOpt η U U₁ →
        ∃ (b' : ℕ → Belief n) (Ks : ℕ → Matrix (Fin n) (Fin m) ℝ), (@KalmanFilter.filter Fl B Z₁ U₁).run kf₁ =
          (.ok (((List.range ss.length).map fun i => stateRow (b' (i + 1))) ++
              List.replicate (Z.rows.length - ss.length) (@Arr.zerosVec Fl B n),
            ((List.range ss.length).map fun i => covRow (b' (i + 1))) ++
              List.replicate (Z.rows.length - ss.length) (@Arr.zerosMat Fl B n)),
            { kf₁ with kalmanGains := kf₁.kalmanGains ++ (List.range ss.length).map fun i => gainRow (Ks i) }) ∧
          ∀ (i : ℕ) (s : LinStep n m), ss[i]? = some s → BeliefNear ε (b' (i + 1)) (lastOf b (ss.take (i + 1))) ∧
            ∀ j k, |Ks i j k - s.gainAt (lastOf b (ss.take i)).P j k| ≤ ε := by
  obtain ⟨η₁, hη₁, hrun⟩ := run_near_of (n := n) (m := m) P.nanInt D X hδ hε
  refine ⟨min η₁ ε, lt_min hη₁ hε, fun b ss kf Z U hX hrep hin => ?_⟩
  have hs := hrep.strict
  have hiter := hrep.iter
  have hsize := hrep.size
  have hcarr := hrep.carried
  have i1 := hiter.A
  have i2 := hiter.H
  have i3 := hiter.B
  have i5 := hiter.Z
  have i6 := hiter.Q
  have i7 := hiter.R
  have i4 := @KalmanFilter.AllIterable.U Fl (exactB P.nanInt) _ _ _ (@Represents.iter n m (strict P.nanInt) kf Z U b ss hs)
  have hident := @Represents.ident n m (strict P.nanInt) kf Z U b ss hs
  have hrows := @Represents.rowsIs (strict P.nanInt) n m kf Z U b ss hs
  have hsmall := rows_small hin
  intro B kf₁ Z₁ U₁ hB hk hZ hU
  have hη : 0 < min η₁ ε := lt_min hη₁ hε
  have hle : min η₁ ε ≤ η₁ := min_le_left _ _
  have hEU := effU_close hη.le hB hZ hU
  have hiter₁ : @KalmanFilter.AllIterable Fl B kf₁ Z₁ U₁ :=
    @KalmanFilter.AllIterable.mk Fl B kf₁ Z₁ U₁ (hk.A.iterable i1) (hk.H.iterable i2) (hk.B.iterable i3)
      (hEU.iterable i4) (hZ.iterable i5) (hk.Q.iterable i6) (hk.R.iterable i7)
  have hcl := zrows_close hη.le hB hk hZ hU
  obtain ⟨b₀, hc₀, hn₀⟩ := hcarr.of_close hk.xk hk.Pk
  have hI : (@Arr.identity Fl (exactB P.nanInt) n).Close η₁ kf₁.I := by
    have := hk.I.mono hle
    rw [hident] at this; exact this
  obtain ⟨b', Ks, t1, t2, t3, t4⟩ := hrun B b ss _ _ b₀ kf₁.xk kf₁.Pk kf₁.I _ hX (hB.mono hη hle) hrows hsmall
    (hcl.imp fun _ _ h => h.mono hle) hI hc₀ ⟨fun i => (hn₀.1 i).trans hle, fun i j => (hn₀.2 i j).trans hle⟩
    (fun hq r hr => by
      rcases hq with hq | hq
      · exact .inl hq
      · exact .inr (hq _ (@zrows_z (strict P.nanInt) _ _ _ _ hr)))
  have hsz : kf₁.stateSize = n := hk.stateSize.trans hsize
  have hZl : Z₁.rows.length = Z.rows.length := hZ.rows.length_eq.symm
  have hst : @KalmanFilter.steps Fl B kf₁ Z₁ U₁ = ss.length := by
    rw [← @KalmanFilter.zrows_length Fl B, ← hcl.length_eq, ← hrows.length_eq]
  have hrunk := @KalmanFilter.filter_iter Fl B kf₁ Z₁ U₁ hiter₁
  have htr : @KalmanFilter.tr Fl B kf₁ Z₁ U₁ =
      trace (@KalmanFilter.step Fl B n kf₁.I) (@KalmanFilter.zrows Fl B kf₁ Z₁ U₁) kf₁.xk kf₁.Pk := by
    rw [KalmanFilter.tr, hsz]
  rw [htr, t1, t2, t3, hst, hZl, hsz] at hrunk
  refine ⟨b', Ks, hrunk.trans ?_, t4⟩
  simp only [List.map_map]
  rfl

/-- A run of `filter` in an accurate arithmetic, on data for which errors stay small, returns nearly the textbook results. -/
theorem filter_within_of (D X : ℝ) {δ ε : ℝ} (hδ : 0 < δ) (hε : 0 < ε) :
    ∃ η > 0, ∀ (b : Belief n) (ss : List (LinStep n m)) (kf : KalmanFilter Fl) (Z : NDArray Fl) (U : Option (NDArray Fl)),
      StaysNear δ (ε / 2) X b ss → Represents kf Z U b ss → InputsWithin D kf Z U →
      ∀ (B : Backend Fl) kf₁ Z₁ U₁, Accurate P.nanInt η B → kf.Close η kf₁ → Z.Close η Z₁ → CloseOpt η U U₁ →
        FilterWithin ε B kf₁ Z₁ U₁
          ((filtered b ss).map stateRow ++ List.replicate (Z.rows.length - ss.length) (Arr.zerosVec n))
          ((filtered b ss).map covRow ++ List.replicate (Z.rows.length - ss.length) (Arr.zerosMat n))
          (kf.kalmanGains ++ (gainsOf b ss).map gainRow) := by
  obtain ⟨η₁, hη₁, hrun⟩ := filter_near_of (n := n) (m := m) D X hδ hε
  refine ⟨min η₁ ε, lt_min hη₁ hε, fun b ss kf Z U hX hrep hin B kf₁ Z₁ U₁ hB hk hZ hU => ?_⟩
  have hη : 0 < min η₁ ε := lt_min hη₁ hε
  have hle : min η₁ ε ≤ η₁ := min_le_left _ _
  obtain ⟨b', Ks, hrunk, t4⟩ := hrun b ss kf Z U hX hrep hin B kf₁ Z₁ U₁ (hB.mono hη hle) (hk.mono hle) (hZ.mono hle) (hU.mono hle)
  have hz : B.zero = (exactB P.nanInt).zero := hB.zero
  have hget : ∀ (k : ℕ) (q : Belief n), (filtered b ss)[k]? = some q → BeliefNear ε (b' (k + 1)) q := fun k q hq => by
    obtain ⟨h1, rfl⟩ := filtered_lastOf hq
    exact (t4 k _ (List.getElem?_eq_getElem h1)).1
  have hzv : (Arr.zerosVec n : Arr Fl).Close ε (@Arr.zerosVec Fl B n) := by
    refine ⟨_, rfl, fun i => ?_⟩
    show Fl.Close ε _ B.zero
    rw [hz]; exact Fl.close_self hε.le _
  have hzm : (Arr.zerosMat n : Arr Fl).Close ε (@Arr.zerosMat Fl B n) := by
    refine ⟨_, rfl, fun i j => ?_⟩
    show Fl.Close ε _ B.zero
    rw [hz]; exact Fl.close_self hε.le _
  refine ⟨_, _, _, hrunk, ?_, ?_, ?_⟩
  · refine forall₂_append' ?_ (forall₂_replicate hzv _)
    refine forall₂_map_range (by rw [List.length_map, filtered_length]) fun k a ha => ?_
    rw [List.getElem?_map, Option.map_eq_some_iff] at ha
    obtain ⟨q, hq, rfl⟩ := ha
    exact stateRow_close (hget k q hq)
  · refine forall₂_append' ?_ (forall₂_replicate hzm _)
    refine forall₂_map_range (by rw [List.length_map, filtered_length]) fun k a ha => ?_
    rw [List.getElem?_map, Option.map_eq_some_iff] at ha
    obtain ⟨q, hq, rfl⟩ := ha
    exact covRow_close (hget k q hq)
  · refine forall₂_append' (hk.kalmanGains.imp fun _ _ h => h.mono (min_le_right _ _)) ?_
    refine forall₂_map_range (by rw [List.length_map, gainsOf_length]) fun k a ha => ?_
    rw [List.getElem?_map, Option.map_eq_some_iff] at ha
    obtain ⟨K, hK, rfl⟩ := ha
    obtain ⟨s, hs, rfl⟩ := gainsOf_get hK
    exact gainRow_close (t4 k s hs).2


/-- The data of a run on bounded inputs are bounded. -/
theorem data_within {D : ℝ} {b : Belief n} {ss : List (LinStep n m)} {kf : KalmanFilter Fl} {Z : NDArray Fl} {U : Option (NDArray Fl)}
    (hrep : Represents kf Z U b ss) (hin : InputsWithin D kf Z U) :
    ∀ (l : ℕ) (s : LinStep n m), ss[l]? = some s → ‖s.z‖ ≤ |D| + |D| * |D| * |D| ∧ ‖s.c‖ ≤ |D| + |D| * |D| * |D| := by
  intro l s hs
  have hrows := @Represents.rowsIs (strict P.nanInt) n m kf Z U b ss hrep.strict
  have hl : l < ss.length := (List.getElem?_eq_some_iff.1 hs).1
  have h2 := (List.forall₂_iff_get.1 hrows).2 l hl (by rw [← hrows.length_eq]; exact hl)
  have e : ss.get ⟨l, hl⟩ = s := by
    have := (List.getElem?_eq_some_iff.1 hs).2; simpa using this
  rw [e] at h2
  exact data_small h2 (rows_small hin _ (List.get_mem _ _))

/-- **C125**.  Models that change from step to step, whose matrices are bounded by `a`, whose measurement noise is at least `r`, and
in which every stretch of `N` steps is observable and controllable with margin `γ`; initial covariances at most `p`, and a bound
`D` on the initial state and on the entries (and dimensions) of the arrays given to the filter.  For every `ε` there is one `η`
such that every run, of every such model, from every such initial belief, on such data, however long, in every arithmetic that is
accurate to `η`, on inputs within `η` of the model, returns, and every state, covariance and recorded gain is within `ε` of the
textbook filter in exact arithmetic. -/
theorem C125_no_drift_varying {N : ℕ} {a r γ : ℝ} (hN : 0 < N) (ha : 0 ≤ a) (hr : 0 < r) (hγ : 0 < γ) (p D : ℝ) {ε : ℝ} (hε : 0 < ε) :
    ∃ η > 0, ∀ (b : Belief n) (ss : List (LinStep n m)) (kf : KalmanFilter Fl) (Z : NDArray Fl) (U : Option (NDArray Fl)),
      Represents kf Z U b ss → UniformModel N a r γ ss → Between 0 p b.P → (∀ i, |b.x i| ≤ D) → InputsWithin D kf Z U →
      ∀ (B : Backend Fl) kf₁ Z₁ U₁, Accurate P.nanInt η B → kf.Close η kf₁ → Z.Close η Z₁ → CloseOpt η U U₁ →
        FilterWithin ε B kf₁ Z₁ U₁
          ((filtered b ss).map stateRow ++ List.replicate (Z.rows.length - ss.length) (Arr.zerosVec n))
          ((filtered b ss).map covRow ++ List.replicate (Z.rows.length - ss.length) (Arr.zerosMat n))
          (kf.kalmanGains ++ (gainsOf b ss).map gainRow) := by
  obtain ⟨lo, hi, M⟩ := exists_margins n m N hN ha hr hγ
  obtain ⟨C, ρ, g, c, hC, h0, h1, hg, hc, hset⟩ := M.settled_start p
  obtain ⟨δ, hδ, X, hX⟩ := stay_near_var (n := n) (m := m) ha hr hC h0 h1 hg hc (abs_nonneg D)
    (D := |D| + |D| * |D| * |D|) (by positivity) (half_pos hε)
  obtain ⟨η, hη, h⟩ := filter_within_of (n := n) (m := m) D X hδ hε
  refine ⟨η, hη, fun b ss kf Z U hrep hu hP hx hin => h b ss kf Z U ?_ hrep hin⟩
  refine hX b ss (hset ss hu b.P hP) ?_ (data_within hrep hin)
  exact (abs_le_iff_norm (abs_nonneg D)).1 fun i => (hx i).trans (le_abs_self D)

/-- **C125** in binary floating point: a number of binary digits that suffices for all such models and runs of any length. -/
theorem C125_binary {N : ℕ} {a r γ : ℝ} (hN : 0 < N) (ha : 0 ≤ a) (hr : 0 < r) (hγ : 0 < γ) (p D : ℝ) {ε : ℝ} (hε : 0 < ε) :
    ∃ p₀ : ℕ, ∃ η > 0, ∀ (b : Belief n) (ss : List (LinStep n m)) (kf : KalmanFilter Fl) (Z : NDArray Fl) (U : Option (NDArray Fl)),
      Represents kf Z U b ss → UniformModel N a r γ ss → Between 0 p b.P → (∀ i, |b.x i| ≤ D) → InputsWithin D kf Z U →
      ∀ (q : ℕ) (emin : ℤ) (M : ℝ) (f : FloatUnit) kf₁ Z₁ U₁, p₀ ≤ q → emin ≤ 0 → 2 ^ p₀ ≤ M → f.fl = binary q emin M → f.Valid →
        kf.Close η kf₁ → Z.Close η Z₁ → CloseOpt η U U₁ →
        FilterWithin ε (floatB P.nanInt f) kf₁ Z₁ U₁
          ((filtered b ss).map stateRow ++ List.replicate (Z.rows.length - ss.length) (Arr.zerosVec n))
          ((filtered b ss).map covRow ++ List.replicate (Z.rows.length - ss.length) (Arr.zerosMat n))
          (kf.kalmanGains ++ (gainsOf b ss).map gainRow) := by
  obtain ⟨η, hη, h⟩ := C125_no_drift_varying (n := n) (m := m) hN ha hr hγ p D hε
  obtain ⟨δ, hδ, g⟩ := Precise.accurate P.nanInt hη
  obtain ⟨p₀, hp⟩ := binary_precise hδ
  exact ⟨p₀, η, hη, fun b ss kf Z U hrep hu hP hx hin q emin M f kf₁ Z₁ U₁ h1 h2 h3 h4 h5 =>
    h b ss kf Z U hrep hu hP hx hin _ kf₁ Z₁ U₁ (g f (hp q emin M f h1 h2 h3 h4 h5))⟩

/-- Late covariances are not small. -/
theorem Margins.late {N : ℕ} {a r γ lo hi : ℝ} (M : Margins n m N a r γ lo hi) {P : Matrix (Fin n) (Fin n) ℝ} (hP : P.PosSemidef)
    {ss : List (LinStep n m)} (h : UniformModel N a r γ ss) (k : ℕ) (hk : N ≤ k) (hkl : k ≤ ss.length) :
    (covRun P (ss.take k) - lo • (1 : Matrix (Fin n) (Fin n) ℝ)).PosSemidef :=
  (M.between (h.mono (List.take_prefix _ _).isInfix) (by rw [List.length_take]; omega) hP).1

/-- Predicted covariances that are at least `κ` in the first `N` steps remain bounded below. -/
theorem Margins.priorAtLeast {N : ℕ} {a r γ lo hi κ : ℝ} (M : Margins n m N a r γ lo hi) {b : Belief n} (hP : b.P.PosSemidef)
    {ss : List (LinStep n m)} (h : UniformModel N a r γ ss)
    (hpr : ∀ (k : ℕ) (s : LinStep n m), 0 < k → k < N → ss[k]? = some s →
      ((s.predict (lastOf b (ss.take k))).P - κ • (1 : Matrix (Fin n) (Fin n) ℝ)).PosSemidef) :
    PriorAtLeast (min κ lo) b.P ss := by
  intro k s hk hs
  rcases Nat.lt_or_ge k N with hkN | hkN
  · have := hpr k s hk hkN hs
    have e : (s.predict (lastOf b (ss.take k))).P = priorCov s.A (covRun b.P (ss.take k)) s.Q := by
      rw [← lastOf_covRun]; rfl
    rw [e] at this
    exact lower_mono (min_le_left _ _) this
  · have hkl := (List.getElem?_eq_some_iff.1 hs).1
    have hn := h.noisy M s (List.mem_of_getElem? hs)
    have hpsd : (covRun b.P (ss.take k)).PosSemidef := covRun_psd (fun t ht => h.noisy M t (List.mem_of_mem_take ht)) hP
    have hp := priorCov_posSemidef (A := s.A) hpsd hn.1
    have hl := M.late hP h (k + 1) (by omega) (by omega)
    rw [covRun_take_succ b.P hs] at hl
    exact lower_mono (min_le_right _ _) (psd_trans hl
      (postCov_le hp hn.2.posSemidef (posDef_det_ne (innovCov_posDef (H := s.H) hp hn.2))))

/-- **C126**.  Models as in C125, initial covariances at most `p`, a bound `D` on the initial state and the arrays, and a bound `κ > 0`
below the predicted covariances of the steps before the `N`-th (later ones need no assumption; the smoother has to invert them).
For every `ε` there is one `η` such that every call of `smooth`, on every such model and data, however long, in every arithmetic
accurate to `η`, on inputs within `η` of the model, returns, with every smoothed state and covariance and every recorded gain within
`ε` of the textbook smoother in exact arithmetic. -/
theorem C126_no_drift_smooth_varying {N : ℕ} {a r γ κ : ℝ} (hN0 : 0 < N) (ha : 0 ≤ a) (hr : 0 < r) (hγ : 0 < γ) (hκ : 0 < κ) (p D : ℝ)
    {ε : ℝ} (hε : 0 < ε) :
    ∃ η > 0, ∀ (b : Belief n) (ss : List (LinStep n m)) (kf : KalmanFilter Fl) (Z : NDArray Fl) (U : Option (NDArray Fl)),
      Represents kf Z U b ss → ss.length = Z.rows.length → ss ≠ [] → UniformModel N a r γ ss → Between 0 p b.P → (∀ i, |b.x i| ≤ D) →
      (∀ (k : ℕ) (s : LinStep n m), 0 < k → k < N → ss[k]? = some s →
        ((s.predict (lastOf b (ss.take k))).P - κ • (1 : Matrix (Fin n) (Fin n) ℝ)).PosSemidef) →
      InputsWithin D kf Z U →
      ∀ (B : Backend Fl) kf₁ Z₁ U₁, Accurate P.nanInt η B → kf.Close η kf₁ → Z.Close η Z₁ → CloseOpt η U U₁ →
        SmoothWithin ε B kf₁ Z₁ U₁ ((smoothed b ss).map stateRow) ((smoothed b ss).map covRow)
          (kf.kalmanGains ++ (gainsOf b ss).map gainRow) := by
  obtain ⟨lo, hi, M⟩ := exists_margins n m N hN0 ha hr hγ
  obtain ⟨C, ρ, g, c₀, hC, h0, h1, hg, hc₀, hset⟩ := M.settled_start p
  obtain ⟨δ, hδ, X, c, hc', hX⟩ := back_near_var (n := n) (m := m) N ha hr hC h0 h1 hg hc₀ (lt_min hκ M.plo) M.plo (abs_nonneg D)
    (D := |D| + |D| * |D| * |D|) (by positivity) hε
  obtain ⟨η₂, hη₂, hback⟩ := one_back (n := n) (m := m) P.nanInt (max D X) hc' hδ
  have hε₁ : 0 < min (min η₂ δ) ε := lt_min (lt_min hη₂ hδ) hε
  obtain ⟨δ₁, hδ₁, X₁, hF⟩ := stay_near_var (n := n) (m := m) ha hr hC h0 h1 hg hc₀ (abs_nonneg D)
    (D := |D| + |D| * |D| * |D|) (by positivity) (half_pos hε₁)
  obtain ⟨η₁, hη₁, hfil⟩ := filter_near_of (n := n) (m := m) D X₁ hδ₁ hε₁
  have hη : 0 < min (min η₁ η₂) ε := lt_min (lt_min hη₁ hη₂) hε
  have hle1 : min (min η₁ η₂) ε ≤ η₁ := (min_le_left _ _).trans (min_le_left _ _)
  have hle2 : min (min η₁ η₂) ε ≤ η₂ := (min_le_left _ _).trans (min_le_right _ _)
  refine ⟨min (min η₁ η₂) ε, hη, fun b ss kf Z U hrep hfull hne hu hP hx hpr hin => ?_⟩
  have hbx : ‖b.x‖ ≤ |D| := (abs_le_iff_norm (abs_nonneg D)).1 fun i => (hx i).trans (le_abs_self D)
  have hset' := hset ss hu b.P hP
  have hpsd : b.P.PosSemidef := by simpa using hP.1
  have hsize := hrep.size
  have hs := hrep.strict
  have hrows := @Represents.rowsIs (strict P.nanInt) n m kf Z U b ss hs
  have hsmall := rows_small hin
  intro B kf₁ Z₁ U₁ hB hk hZ hU
  obtain ⟨b', Ks, hrun, hnear⟩ := hfil b ss kf Z U (hF b ss hset' hbx (data_within hrep hin)) hrep hin B kf₁ Z₁ U₁ (hB.mono hη hle1) (hk.mono hle1) (hZ.mono hle1) (hU.mono hle1)
  rw [hfull, Nat.sub_self, List.replicate_zero, List.append_nil, List.replicate_zero, List.append_nil, ← hfull] at hrun
  have hcl := zrows_close hη.le hB hk hZ hU
  have hlen : ss.length = (@KalmanFilter.zrows Fl (exactB P.nanInt) kf Z U).length := hrows.length_eq
  have hlen₁ := hcl.length_eq
  obtain ⟨N', hN⟩ : ∃ N', ss.length = N' + 1 := ⟨ss.length - 1, by have := List.length_pos_iff.2 hne; omega⟩
  have hsz : kf₁.stateSize = n := hk.stateSize.trans hsize
  have hnear' : ∀ i < ss.length, BeliefNear (min (min η₂ δ) ε) (b' (i + 1)) (lastOf b (ss.take (i + 1))) := fun i hi =>
    (hnear i _ (List.getElem?_eq_getElem hi)).1
  obtain ⟨hfb, hstay⟩ := hX b ss hset' (M.priorAtLeast hpsd hu hpr) (M.late hpsd hu) hbx (data_within hrep hin)
  -- the backward pass
  obtain ⟨xe, hxe⟩ : ∃ xe : List (Arr Fl), xe = (List.range ss.length).map fun i => stateRow (b' (i + 1)) := ⟨_, rfl⟩
  obtain ⟨Pe, hPe⟩ : ∃ Pe : List (Arr Fl), Pe = (List.range ss.length).map fun i => covRow (b' (i + 1)) := ⟨_, rfl⟩
  have main : ∀ L ≤ N', ∃ q : ℕ → Belief n, q 0 = b' ss.length ∧
      (∀ i < L, @KalmanFilter.body Fl B kf₁.A kf₁.Q kf₁.B (@effU Fl B U₁ Z₁) kf₁.stateSize xe Pe (N' - 1 - i) (stateRow (q i))
        (covRow (q i)) = .ok (beliefRows (q (i + 1)))) ∧
      ∀ (i : ℕ) (s : LinStep n m), i < L → ss[ss.length - 1 - i]? = some s →
        ‖toE (q (i + 1)) - toE (rtsStep (lastOf b (ss.take (ss.length - 1 - i))) s (q i))‖ ≤ δ := by
    intro L
    induction L with
    | zero => exact fun _ => ⟨fun _ => b' ss.length, rfl, fun i hi => absurd hi (by omega), fun i s hi => absurd hi (by omega)⟩
    | succ L ih =>
      intro hM
      obtain ⟨q, hq0, hq1, hq2⟩ := ih (by omega)
      have hqM := (hstay q L (by omega) (by
        rw [hq0, hN]
        have := hnear' N' (by omega)
        rw [← hN, List.take_length] at this
        rw [← hN]
        exact ((BeliefNear.toE hδ.le).1 (this.mono ((min_le_left _ _).trans (min_le_right _ _))))) hq2 L le_rfl).2
      -- the arrays
      obtain ⟨k, hk'⟩ : ∃ k, k = N' - 1 - L := ⟨_, rfl⟩
      have hkN : k + 1 = ss.length - 1 - L := by omega
      obtain ⟨s, hs⟩ : ∃ s, ss[k + 1]? = some s := ⟨_, List.getElem?_eq_getElem (by omega)⟩
      obtain ⟨r, hr⟩ : ∃ r, (@KalmanFilter.zrows Fl (exactB P.nanInt) kf Z U)[k + 1]? = some r :=
        ⟨_, List.getElem?_eq_getElem (by omega)⟩
      obtain ⟨r₁, hr₁⟩ : ∃ r, (@KalmanFilter.zrows Fl B kf₁ Z₁ U₁)[k + 1]? = some r := ⟨_, List.getElem?_eq_getElem (by omega)⟩
      have hsr : @RowIs (strict P.nanInt) n m s r := by
        have h2 := (List.forall₂_iff_get.1 hrows).2 (k + 1) (by omega) (by omega)
        have e1 := (List.getElem?_eq_some_iff.1 hs).2
        have e2 := (List.getElem?_eq_some_iff.1 hr).2
        simp only [List.get_eq_getElem] at h2
        rwa [e1, e2] at h2
      have hrr : RowClose (min (min η₁ η₂) ε) r r₁ := by
        have h2 := (List.forall₂_iff_get.1 hcl).2 (k + 1) (by omega) (by omega)
        have e1 := (List.getElem?_eq_some_iff.1 hr).2
        have e2 := (List.getElem?_eq_some_iff.1 hr₁).2
        simp only [List.get_eq_getElem] at h2
        rwa [e1, e2] at h2
      obtain ⟨g1, g2, g3⟩ := hfb k s hs
      have hwq : BeliefWithin (max D X) (q L) := by
        have e1 := (norm_fst_le (toE (q L))).trans hqM
        have e2 := (norm_snd_le (toE (q L))).trans hqM
        exact .of_norm (e1.trans (le_max_right _ _)) (e2.trans (le_max_right _ _))
      obtain ⟨q', hstep, hqn⟩ := hback B s (lastOf b (ss.take (k + 1))) (b' (k + 1)) (q L) r r₁ (hB.mono hη hle2) hsr
        ((hsmall r (List.mem_of_getElem? hr)).mono (le_max_left _ _)) (hrr.mono hle2)
        (.of_norm (g1.trans (le_max_right _ _)) (g2.trans (le_max_right _ _)))
        ((hnear' k (by omega)).mono ((min_le_left _ _).trans (min_le_left _ _))) hwq g3
      obtain ⟨a1, a2, a3, a4, a5, a6, a7⟩ := r₁
      simp only [KalmanFilter.zrows, List.getElem?_zip_eq_some] at hr₁
      obtain ⟨i1, -, i3, i4, -, i6, -⟩ := hr₁
      have hbody : @KalmanFilter.body Fl B kf₁.A kf₁.Q kf₁.B (@effU Fl B U₁ Z₁) kf₁.stateSize xe Pe k (stateRow (q L))
          (covRow (q L)) = .ok (beliefRows q') := by
        have hx1 : getRow xe k = .ok (stateRow (b' (k + 1))) := getRow_some (by
          rw [hxe, List.getElem?_map, List.getElem?_range (by omega)]; rfl)
        have hx2 : getRow Pe k = .ok (covRow (b' (k + 1))) := getRow_some (by
          rw [hPe, List.getElem?_map, List.getElem?_range (by omega)]; rfl)
        simp only [KalmanFilter.body, item_of_rows i1, item_of_rows i3, item_of_rows i4, item_of_rows i6, hx1, hx2,
          Except.bind_ok', hstep, beliefRows, hsz]
        simp only [stateRow, covRow, Arr.assignVec_vec, Arr.assignMat_mat, Except.bind_ok']
      refine ⟨fun i => if i = L + 1 then q' else q i, by simp [hq0], fun i hi => ?_, fun i s' hi hs' => ?_⟩
      · rcases Nat.lt_or_ge i L with hlt | hge
        · beta_reduce
          rw [if_neg (show ¬ i = L + 1 by omega), if_neg (show ¬ i + 1 = L + 1 by omega)]
          exact hq1 i hlt
        · obtain rfl : i = L := by omega
          beta_reduce
          rw [if_neg (show ¬ i = i + 1 by omega), if_pos rfl, ← hk']
          exact hbody
      · rcases Nat.lt_or_ge i L with hlt | hge
        · beta_reduce
          rw [if_neg (show ¬ i = L + 1 by omega), if_neg (show ¬ i + 1 = L + 1 by omega)]
          exact hq2 i s' hlt hs'
        · obtain rfl : i = L := by omega
          beta_reduce
          rw [if_neg (show ¬ i = i + 1 by omega), if_pos rfl]
          rw [← hkN] at hs' ⊢
          obtain rfl : s' = s := by rw [hs] at hs'; exact (Option.some.inj hs').symm
          exact (BeliefNear.toE hδ.le).1 hqn
  obtain ⟨q, hq0, hq1, hq2⟩ := main N' le_rfl
  have hfin := hstay q N' (by omega) (by
    rw [hq0, hN]
    have := hnear' N' (by omega)
    rw [← hN, List.take_length] at this
    rw [← hN]
    exact ((BeliefNear.toE hδ.le).1 (this.mono ((min_le_left _ _).trans (min_le_right _ _))))) hq2
  have hbk := back_rows (@KalmanFilter.body Fl B kf₁.A kf₁.Q kf₁.B (@effU Fl B U₁ Z₁) kf₁.stateSize xe Pe) N' q hq1
  have hsm := @KalmanFilter.smooth_eq Fl B Z₁ U₁ kf₁
  rw [hrun, ← hxe, ← hPe] at hsm
  have hlx : xe.length - 1 = N' := by rw [hxe]; simp [hN]
  have e1 : xe[N']? = some (stateRow (q 0)) := by
    rw [hxe, List.getElem?_map, List.getElem?_range (by omega), hq0, hN]; rfl
  have e2 : Pe[N']? = some (covRow (q 0)) := by
    rw [hPe, List.getElem?_map, List.getElem?_range (by omega), hq0, hN]; rfl
  simp only [hlx, e1, e2] at hsm
  have hbk' : back (@KalmanFilter.body Fl B kf₁.A kf₁.Q kf₁.B (@checkNoneAndBroadcast Fl B U₁ Z₁) kf₁.stateSize xe Pe) N'
      (stateRow (q 0), covRow (q 0)) = .ok ((List.range (N' + 1)).map fun j => beliefRows (q (N' - j))) := hbk
  rw [hbk'] at hsm
  have hget : ∀ (k : ℕ) (p : Belief n), (smoothed b ss)[k]? = some p → BeliefNear ε (q (N' - k)) p := fun k p hp => by
    obtain ⟨h1, rfl⟩ := smoothed_get hp
    have := (hfin (N' - k) (by omega)).1
    rw [show ss.length - (N' - k) = k + 1 by omega] at this
    exact (BeliefNear.toE hε.le).2 this
  refine ⟨_, _, _, hsm, ?_, ?_, ?_⟩
  · rw [List.map_map]
    refine forall₂_map_range (by rw [List.length_map, smoothed_length, hN]) fun k a ha => ?_
    rw [List.getElem?_map, Option.map_eq_some_iff] at ha
    obtain ⟨p, hp, rfl⟩ := ha
    exact stateRow_close (hget k p hp)
  · rw [List.map_map]
    refine forall₂_map_range (by rw [List.length_map, smoothed_length, hN]) fun k a ha => ?_
    rw [List.getElem?_map, Option.map_eq_some_iff] at ha
    obtain ⟨p, hp, rfl⟩ := ha
    exact covRow_close (hget k p hp)
  · refine forall₂_append' (hk.kalmanGains.imp fun _ _ h => h.mono (min_le_right _ _)) ?_
    refine forall₂_map_range (by rw [List.length_map, gainsOf_length]) fun k a ha => ?_
    rw [List.getElem?_map, Option.map_eq_some_iff] at ha
    obtain ⟨K, hK, rfl⟩ := ha
    obtain ⟨s, hs, rfl⟩ := gainsOf_get hK
    exact gainRow_close fun i j => ((hnear k s hs).2 i j).trans (min_le_right _ _)

/-- **C126** in binary floating point: a number of binary digits that suffices for all such models and data of any length. -/
theorem C126_binary {N : ℕ} {a r γ κ : ℝ} (hN : 0 < N) (ha : 0 ≤ a) (hr : 0 < r) (hγ : 0 < γ) (hκ : 0 < κ) (p D : ℝ) {ε : ℝ} (hε : 0 < ε) :
    ∃ p₀ : ℕ, ∃ η > 0, ∀ (b : Belief n) (ss : List (LinStep n m)) (kf : KalmanFilter Fl) (Z : NDArray Fl) (U : Option (NDArray Fl)),
      Represents kf Z U b ss → ss.length = Z.rows.length → ss ≠ [] → UniformModel N a r γ ss → Between 0 p b.P → (∀ i, |b.x i| ≤ D) →
      (∀ (k : ℕ) (s : LinStep n m), 0 < k → k < N → ss[k]? = some s →
        ((s.predict (lastOf b (ss.take k))).P - κ • (1 : Matrix (Fin n) (Fin n) ℝ)).PosSemidef) →
      InputsWithin D kf Z U →
      ∀ (q : ℕ) (emin : ℤ) (M : ℝ) (f : FloatUnit) kf₁ Z₁ U₁, p₀ ≤ q → emin ≤ 0 → 2 ^ p₀ ≤ M → f.fl = binary q emin M → f.Valid →
        kf.Close η kf₁ → Z.Close η Z₁ → CloseOpt η U U₁ →
        SmoothWithin ε (floatB P.nanInt f) kf₁ Z₁ U₁ ((smoothed b ss).map stateRow) ((smoothed b ss).map covRow)
          (kf.kalmanGains ++ (gainsOf b ss).map gainRow) := by
  obtain ⟨η, hη, h⟩ := C126_no_drift_smooth_varying (n := n) (m := m) hN ha hr hγ hκ p D hε
  obtain ⟨δ, hδ, g⟩ := Precise.accurate P.nanInt hη
  obtain ⟨p₀, hp⟩ := binary_precise hδ
  exact ⟨p₀, η, hη, fun b ss kf Z U hrep hfull hne hu hP hx hpr hin q emin M f kf₁ Z₁ U₁ h1 h2 h3 h4 h5 =>
    h b ss kf Z U hrep hfull hne hu hP hx hpr hin _ kf₁ Z₁ U₁ (g f (hp q emin M f h1 h2 h3 h4 h5))⟩

end

/-- Position and velocity sampled at irregular times: the arrays are within 20. -/
theorem Ex.irr_within [P : Platform] (l : List (ℝ × ℝ)) (hd : ∀ q ∈ l, (1 ≤ q.1 ∧ q.1 ≤ 2) ∧ |q.2| ≤ 10) (b : Belief 2) :
    InputsWithin 20 (Ex.encode b (l.map fun q => Ex.irrStep q.1 q.2)) (Ex.encZ (l.map fun q => Ex.irrStep q.1 q.2))
      (some (Ex.encU (l.map fun q => Ex.irrStep q.1 q.2))) := by
  intro x hx
  simp only [Ex.encode, Ex.encZ, Ex.encU, effU, checkNoneAndBroadcast, NDArray.rows, List.map_map, List.mem_map, Function.comp] at hx
  rcases hx with ⟨q, hq, rfl⟩ | ⟨q, hq, rfl⟩ | ⟨q, hq, rfl⟩ | ⟨q, hq, rfl⟩ | ⟨q, hq, rfl⟩ | ⟨q, hq, rfl⟩ | ⟨q, hq, rfl⟩ <;>
    obtain ⟨⟨g1, g2⟩, g3⟩ := hd q hq <;> have g4 : |q.1| ≤ 2 := abs_le.2 ⟨by linarith, g2⟩ <;> refine ⟨?_, ?_⟩ <;>
    simp [Arr.Within, Arr.shape, finM, finV, colM, Ex.irrStep, Fl.toReal, Fin.forall_fin_two] <;> norm_num <;>
    first | (constructor <;> linarith) | linarith

/-- Position and velocity sampled at irregular times, measurements at most 10, from any covariance at most 5: some number of binary
digits suffices for three decimal digits in all such runs, of any length, of the filter and of the smoother. -/
example : ∃ p₀ : ℕ, ∀ (b : Belief 2) (l : List (ℝ × ℝ)) (p : ℕ) (emin : ℤ) (M : ℝ) (a : FloatUnit),
    (∀ q ∈ l, (1 ≤ q.1 ∧ q.1 ≤ 2) ∧ |q.2| ≤ 10) → Between 0 5 b.P → (∀ i, |b.x i| ≤ 20) → l ≠ [] →
    p₀ ≤ p → emin ≤ 0 → 2 ^ p₀ ≤ M → a.fl = binary p emin M → a.Valid →
    let ss := l.map fun q => Ex.irrStep q.1 q.2
    FilterWithin 0.001 (floatB 0 a) (@Ex.encode 2 1 (strict 0) b ss) (Ex.encZ ss) (some (Ex.encU ss))
      ((filtered b ss).map stateRow) ((filtered b ss).map covRow) ((gainsOf b ss).map gainRow) ∧
    SmoothWithin 0.001 (floatB 0 a) (@Ex.encode 2 1 (strict 0) b ss) (Ex.encZ ss) (some (Ex.encU ss))
      ((smoothed b ss).map stateRow) ((smoothed b ss).map covRow) ((gainsOf b ss).map gainRow) := by
  letI : Platform := strict 0
  obtain ⟨p₁, η₁, hη₁, h₁⟩ := C125_binary (n := 2) (m := 1) (N := 2) (a := 2) (r := 1) (γ := 1 / 4) (by norm_num) (by norm_num)
    (by norm_num) (by norm_num) 5 20 (ε := 0.001) (by norm_num)
  obtain ⟨p₂, η₂, hη₂, h₂⟩ := C126_binary (n := 2) (m := 1) (N := 2) (a := 2) (r := 1) (γ := 1 / 4) (κ := 1) (by norm_num) (by norm_num)
    (by norm_num) (by norm_num) (by norm_num) 5 20 (ε := 0.001) (by norm_num)
  refine ⟨max p₁ p₂, fun b l p emin M a hd hb hx hne h1 h2 h3 h4 h5 => ?_⟩
  have hM1 : (2 : ℝ) ^ p₁ ≤ M := (pow_le_pow_right₀ one_le_two (le_max_left p₁ p₂)).trans h3
  have hM2 : (2 : ℝ) ^ p₂ ≤ M := (pow_le_pow_right₀ one_le_two (le_max_right p₁ p₂)).trans h3
  have hu := Ex.irr_uniform l fun q hq => (hd q hq).1
  have hin := Ex.irr_within l hd b
  have hpsd : b.P.PosSemidef := by simpa using hb.1
  refine ⟨?_, ?_⟩
  · have := h₁ b (l.map fun q => Ex.irrStep q.1 q.2) _ _ _ (Ex.encode_represents b _) hu hb hx hin p emin M a _ _ _
      ((le_max_left _ _).trans h1) h2 hM1 h4 h5 (KalmanFilter.close_refl hη₁.le _) (NDArray.close_refl hη₁.le _)
      ⟨_, rfl, NDArray.close_refl hη₁.le _⟩
    simp only [Ex.encZ_length, Nat.sub_self, List.replicate_zero, List.append_nil] at this
    exact this
  · have hpri : ∀ (k : ℕ) (s : LinStep 2 1), 0 < k → k < 2 → (l.map fun q => Ex.irrStep q.1 q.2)[k]? = some s →
        ((s.predict (lastOf b ((l.map fun q => Ex.irrStep q.1 q.2).take k))).P - (1 : ℝ) • (1 : Matrix (Fin 2) (Fin 2) ℝ)).PosSemidef := by
      intro k s _ _ hs
      obtain ⟨q, hq, rfl⟩ := List.mem_map.1 (List.mem_of_getElem? hs)
      have hp : (covRun b.P ((l.map fun q => Ex.irrStep q.1 q.2).take k)).PosSemidef :=
        covRun_psd (fun t ht => (hu.tame t (List.mem_of_mem_take ht)).noisy one_pos) hpsd
      have hq1 : ((Ex.irrStep q.1 q.2).Q - (1 : ℝ) • (1 : Matrix (Fin 2) (Fin 2) ℝ)).PosSemidef := by
        have := (hd q hq).1.1
        refine psd_two ?_ ?_ ?_ ?_ <;> simp [Ex.irrStep] <;> nlinarith
      have e : ((Ex.irrStep q.1 q.2).predict (lastOf b ((l.map fun q => Ex.irrStep q.1 q.2).take k))).P =
          (Ex.irrStep q.1 q.2).A * covRun b.P ((l.map fun q => Ex.irrStep q.1 q.2).take k) * (Ex.irrStep q.1 q.2).Aᵀ +
            (Ex.irrStep q.1 q.2).Q := by rw [← lastOf_covRun]; rfl
      rw [e, add_sub_assoc]
      exact (posSemidef_conj hp _).add hq1
    have hne' : (l.map fun q => Ex.irrStep q.1 q.2) ≠ [] := by simpa using hne
    have hrep := Ex.encode_represents b (l.map fun q => Ex.irrStep q.1 q.2)
    generalize (l.map fun q => Ex.irrStep q.1 q.2) = ss at *
    have := h₂ b ss _ _ _ hrep (Ex.encZ_length _).symm hne' hu hb hx hpri hin p emin M a _ _ _
      ((le_max_right _ _).trans h1) h2 hM2 h4 h5 (KalmanFilter.close_refl hη₂.le _) (NDArray.close_refl hη₂.le _)
      ⟨_, rfl, NDArray.close_refl hη₂.le _⟩
    exact this

end KK
