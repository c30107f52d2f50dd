import Verif.Proofs.RoundBack

/-!
# C114: rounding errors do not accumulate in the smoother either
-/

set_option linter.unusedSectionVars false

namespace KK

open Matrix
open scoped Matrix.Norms.Elementwise

section
variable {n m : ℕ}

/-- The backward loop, row by row. -/
theorem back_rows (body : ℕ → Arr Fl → Arr Fl → Except PyErr (Arr Fl × Arr Fl)) (N : ℕ) (q : ℕ → Belief n)
    (h : ∀ i < N, body (N - 1 - i) (stateRow (q i)) (covRow (q i)) = .ok (beliefRows (q (i + 1)))) :
    back body N (beliefRows (q 0)) = .ok ((List.range (N + 1)).map fun j => beliefRows (q (N - j))) := by
  induction N generalizing q with
  | zero => rfl
  | succ N ih =>
    have h1 : body N (beliefRows (q 0)).1 (beliefRows (q 0)).2 = .ok (beliefRows (q 1)) := h 0 (by omega)
    have h2 := ih (fun i => q (i + 1)) fun i hi => by
      have := h (i + 1) (by omega)
      rwa [show N + 1 - 1 - (i + 1) = N - 1 - i by omega] at this
    simp only [back, h1, Except.bind_ok', h2]
    rw [List.range_succ (n := N + 1), List.map_append, List.map_singleton, Nat.sub_self]
    refine congrArg Except.ok (congrArg (· ++ _) (List.map_congr_left fun j hj => ?_))
    have := List.mem_range.1 hj
    rw [show N + 1 - j = N - j + 1 by omega]

theorem BeliefNear.toE {δ : ℝ} (hδ : 0 ≤ δ) {b b' : Belief n} : BeliefNear δ b b' ↔ ‖toE b - toE b'‖ ≤ δ := by
  rw [BeliefNear.norm hδ, Prod.norm_def, max_le_iff]; rfl

theorem BeliefNear.mono {δ δ' : ℝ} (h : δ ≤ δ') {b b' : Belief n} (hb : BeliefNear δ b b') : BeliefNear δ' b b' :=
  ⟨fun i => (hb.1 i).trans h, fun i j => (hb.2 i j).trans h⟩

theorem RowSmall.mono {D D' : ℝ} (h : D ≤ D') {r : KalmanFilter.Row Fl} (hr : RowSmall D r) : RowSmall D' r := by
  have key : ∀ a : Arr Fl, a.Small D → a.Small D' := fun a ha => by
    refine ⟨?_, fun k hk => (ha.2 k hk).trans h⟩
    cases a with
    | scalar d x => exact ha.1.trans h
    | vec d x => exact fun i => (ha.1 i).trans h
    | mat d x => exact fun i j => (ha.1 i j).trans h
  obtain ⟨k1, k2, k3, k4, k5, k6, k7⟩ := hr
  exact ⟨key _ k1, key _ k2, key _ k3, key _ k4, key _ k5, key _ k6, key _ k7⟩

theorem BeliefWithin.of_norm {X : ℝ} {b : Belief n} (h1 : ‖b.x‖ ≤ X) (h2 : ‖b.P‖ ≤ X) : BeliefWithin X b :=
  ⟨fun i => (norm_le_pi_norm b.x i).trans h1, fun i j => (entry_le_norm b.P i j).trans h2⟩

variable [P : Platform]

theorem no_drift_smooth (A Q : Matrix (Fin n) (Fin n) ℝ) (H : Matrix (Fin m) (Fin n) ℝ) (R : Matrix (Fin m) (Fin m) ℝ)
    (hQ : Q.PosSemidef) (hR : R.PosDef) (b : Belief n) (hP : b.P.PosSemidef)
    (hS : SettlesBack A Q H R b.P)
    (D : ℝ) {ε : ℝ} (hε : 0 < ε) :
    ∃ η > 0, ∀ (ss : List (LinStep n m)) (kf : KalmanFilter Fl) (Z : NDArray Fl) (U : Option (NDArray Fl)),
      Represents kf Z U b ss → ss.length = Z.rows.length → ss ≠ [] → ConstantModel A H Q R ss → SmoothSolvable b ss →
      InputsWithin D kf Z U →
      ∀ (B : Backend Fl) kf₁ Z₁ U₁, Accurate P.nanInt η B → kf.Close η kf₁ → Z.Close η Z₁ → CloseOpt η U U₁ →
        SmoothWithin ε B kf₁ Z₁ U₁ ((smoothed b ss).map stateRow) ((smoothed b ss).map covRow)
          (kf.kalmanGains ++ (gainsOf b ss).map gainRow) := by
  obtain ⟨δ, hδ, X, c, hc', hX⟩ := back_near (A := A) (H := H) b hS (D := |D| + |D| * |D| * |D|) (by positivity) hε
  obtain ⟨η₂, hη₂, hback⟩ := one_back (n := n) (m := m) P.nanInt (max D X) hc' hδ
  have hε₁ : 0 < min (min η₂ δ) ε := lt_min (lt_min hη₂ hδ) hε
  obtain ⟨η₁, hη₁, hfil⟩ := filter_near A Q H R hQ hR b hP hS.fwd D hε₁
  have hη : 0 < min (min η₁ η₂) ε := lt_min (lt_min hη₁ hη₂) hε
  have hle1 : min (min η₁ η₂) ε ≤ η₁ := (min_le_left _ _).trans (min_le_left _ _)
  have hle2 : min (min η₁ η₂) ε ≤ η₂ := (min_le_left _ _).trans (min_le_right _ _)
  refine ⟨min (min η₁ η₂) ε, hη, fun ss kf Z U hrep hfull hne hcm hsol hin => ?_⟩
  have hsize := hrep.size
  have hs := hrep.strict
  have hrows := @Represents.rowsIs (strict P.nanInt) n m kf Z U b ss hs
  have hsmall := rows_small hin
  intro B kf₁ Z₁ U₁ hB hk hZ hU
  obtain ⟨b', Ks, hrun, hnear⟩ := hfil ss kf Z U hrep hcm hin B kf₁ Z₁ U₁ (hB.mono hη hle1) (hk.mono hle1) (hZ.mono hle1) (hU.mono hle1)
  rw [hfull, Nat.sub_self, List.replicate_zero, List.append_nil, List.replicate_zero, List.append_nil, ← hfull] at hrun
  have hcl := zrows_close hη.le hB hk hZ hU
  have hlen : ss.length = (@KalmanFilter.zrows Fl (exactB P.nanInt) kf Z U).length := hrows.length_eq
  have hlen₁ := hcl.length_eq
  obtain ⟨N, hN⟩ : ∃ N, ss.length = N + 1 := ⟨ss.length - 1, by have := List.length_pos_iff.2 hne; omega⟩
  have hsz : kf₁.stateSize = n := hk.stateSize.trans hsize
  have hdat : ∀ (l : ℕ) (s : LinStep n m), ss[l]? = some s → ‖s.z‖ ≤ |D| + |D| * |D| * |D| ∧ ‖s.c‖ ≤ |D| + |D| * |D| * |D| := by
    intro l s hs
    have hl : l < ss.length := (List.getElem?_eq_some_iff.1 hs).1
    have h2 := (List.forall₂_iff_get.1 hrows).2 l hl (by omega)
    have e : ss.get ⟨l, hl⟩ = s := by
      have := (List.getElem?_eq_some_iff.1 hs).2; simpa using this
    rw [e] at h2
    exact data_small h2 (hsmall _ (List.get_mem _ _))
  obtain ⟨hfb, hstay⟩ := hX ss hcm hdat hsol
  -- the backward pass
  obtain ⟨xe, hxe⟩ : ∃ xe : List (Arr Fl), xe = (List.range ss.length).map fun i => stateRow (b' (i + 1)) := ⟨_, rfl⟩
  obtain ⟨Pe, hPe⟩ : ∃ Pe : List (Arr Fl), Pe = (List.range ss.length).map fun i => covRow (b' (i + 1)) := ⟨_, rfl⟩
  have main : ∀ M ≤ N, ∃ q : ℕ → Belief n, q 0 = b' ss.length ∧
      (∀ i < M, @KalmanFilter.body Fl B kf₁.A kf₁.Q kf₁.B (@effU Fl B U₁ Z₁) kf₁.stateSize xe Pe (N - 1 - i) (stateRow (q i))
        (covRow (q i)) = .ok (beliefRows (q (i + 1)))) ∧
      ∀ (i : ℕ) (s : LinStep n m), i < M → ss[ss.length - 1 - i]? = some s →
        ‖toE (q (i + 1)) - toE (rtsStep (lastOf b (ss.take (ss.length - 1 - i))) s (q i))‖ ≤ δ := by
    intro M
    induction M with
    | zero => exact fun _ => ⟨fun _ => b' ss.length, rfl, fun i hi => absurd hi (by omega), fun i s hi => absurd hi (by omega)⟩
    | succ M ih =>
      intro hM
      obtain ⟨q, hq0, hq1, hq2⟩ := ih (by omega)
      have hqM := (hstay q M (by omega) (by
        rw [hq0, hN]
        have := (hnear N (by omega)).1
        rw [← hN, List.take_length] at this
        rw [← hN]
        exact ((BeliefNear.toE hδ.le).1 (this.mono ((min_le_left _ _).trans (min_le_right _ _))))) hq2 M le_rfl).2
      -- the arrays
      obtain ⟨k, hk'⟩ : ∃ k, k = N - 1 - M := ⟨_, rfl⟩
      have hkN : k + 1 = ss.length - 1 - M := by omega
      obtain ⟨s, hs⟩ : ∃ s, ss[k + 1]? = some s := ⟨_, List.getElem?_eq_getElem (by omega)⟩
      obtain ⟨r, hr⟩ : ∃ r, (@KalmanFilter.zrows Fl (exactB P.nanInt) kf Z U)[k + 1]? = some r :=
        ⟨_, List.getElem?_eq_getElem (by omega)⟩
      obtain ⟨r₁, hr₁⟩ : ∃ r, (@KalmanFilter.zrows Fl B kf₁ Z₁ U₁)[k + 1]? = some r := ⟨_, List.getElem?_eq_getElem (by omega)⟩
      have hsr : @RowIs (strict P.nanInt) n m s r := by
        have h2 := (List.forall₂_iff_get.1 hrows).2 (k + 1) (by omega) (by omega)
        have e1 := (List.getElem?_eq_some_iff.1 hs).2
        have e2 := (List.getElem?_eq_some_iff.1 hr).2
        simp only [List.get_eq_getElem] at h2
        rwa [e1, e2] at h2
      have hrr : RowClose (min (min η₁ η₂) ε) r r₁ := by
        have h2 := (List.forall₂_iff_get.1 hcl).2 (k + 1) (by omega) (by omega)
        have e1 := (List.getElem?_eq_some_iff.1 hr).2
        have e2 := (List.getElem?_eq_some_iff.1 hr₁).2
        simp only [List.get_eq_getElem] at h2
        rwa [e1, e2] at h2
      obtain ⟨g1, g2, g3⟩ := hfb k s hs
      have hwq : BeliefWithin (max D X) (q M) := by
        have e1 := (norm_fst_le (toE (q M))).trans hqM
        have e2 := (norm_snd_le (toE (q M))).trans hqM
        exact .of_norm (e1.trans (le_max_right _ _)) (e2.trans (le_max_right _ _))
      obtain ⟨q', hstep, hqn⟩ := hback B s (lastOf b (ss.take (k + 1))) (b' (k + 1)) (q M) r r₁ (hB.mono hη hle2) hsr
        ((hsmall r (List.mem_of_getElem? hr)).mono (le_max_left _ _)) (hrr.mono hle2)
        (.of_norm (g1.trans (le_max_right _ _)) (g2.trans (le_max_right _ _)))
        ((hnear k (by omega)).1.mono ((min_le_left _ _).trans (min_le_left _ _))) hwq g3
      obtain ⟨a1, a2, a3, a4, a5, a6, a7⟩ := r₁
      simp only [KalmanFilter.zrows, List.getElem?_zip_eq_some] at hr₁
      obtain ⟨i1, -, i3, i4, -, i6, -⟩ := hr₁
      have hbody : @KalmanFilter.body Fl B kf₁.A kf₁.Q kf₁.B (@effU Fl B U₁ Z₁) kf₁.stateSize xe Pe k (stateRow (q M))
          (covRow (q M)) = .ok (beliefRows q') := by
        have hx1 : getRow xe k = .ok (stateRow (b' (k + 1))) := getRow_some (by
          rw [hxe, List.getElem?_map, List.getElem?_range (by omega)]; rfl)
        have hx2 : getRow Pe k = .ok (covRow (b' (k + 1))) := getRow_some (by
          rw [hPe, List.getElem?_map, List.getElem?_range (by omega)]; rfl)
        simp only [KalmanFilter.body, item_of_rows i1, item_of_rows i3, item_of_rows i4, item_of_rows i6, hx1, hx2,
          Except.bind_ok', hstep, beliefRows, hsz]
        simp only [stateRow, covRow, Arr.assignVec_vec, Arr.assignMat_mat, Except.bind_ok']
      refine ⟨fun i => if i = M + 1 then q' else q i, by simp [hq0], fun i hi => ?_, fun i s' hi hs' => ?_⟩
      · rcases Nat.lt_or_ge i M with hlt | hge
        · beta_reduce
          rw [if_neg (show ¬ i = M + 1 by omega), if_neg (show ¬ i + 1 = M + 1 by omega)]
          exact hq1 i hlt
        · obtain rfl : i = M := by omega
          beta_reduce
          rw [if_neg (show ¬ i = i + 1 by omega), if_pos rfl, ← hk']
          exact hbody
      · rcases Nat.lt_or_ge i M with hlt | hge
        · beta_reduce
          rw [if_neg (show ¬ i = M + 1 by omega), if_neg (show ¬ i + 1 = M + 1 by omega)]
          exact hq2 i s' hlt hs'
        · obtain rfl : i = M := by omega
          beta_reduce
          rw [if_neg (show ¬ i = i + 1 by omega), if_pos rfl]
          rw [← hkN] at hs' ⊢
          obtain rfl : s' = s := by rw [hs] at hs'; exact (Option.some.inj hs').symm
          exact (BeliefNear.toE hδ.le).1 hqn
  obtain ⟨q, hq0, hq1, hq2⟩ := main N le_rfl
  have hfin := hstay q N (by omega) (by
    rw [hq0, hN]
    have := (hnear N (by omega)).1
    rw [← hN, List.take_length] at this
    rw [← hN]
    exact ((BeliefNear.toE hδ.le).1 (this.mono ((min_le_left _ _).trans (min_le_right _ _))))) hq2
  have hbk := back_rows (@KalmanFilter.body Fl B kf₁.A kf₁.Q kf₁.B (@effU Fl B U₁ Z₁) kf₁.stateSize xe Pe) N q hq1
  have hsm := @KalmanFilter.smooth_eq Fl B Z₁ U₁ kf₁
  rw [hrun, ← hxe, ← hPe] at hsm
  have hlx : xe.length - 1 = N := by rw [hxe]; simp [hN]
  have e1 : xe[N]? = some (stateRow (q 0)) := by
    rw [hxe, List.getElem?_map, List.getElem?_range (by omega), hq0, hN]; rfl
  have e2 : Pe[N]? = some (covRow (q 0)) := by
    rw [hPe, List.getElem?_map, List.getElem?_range (by omega), hq0, hN]; rfl
  simp only [hlx, e1, e2] at hsm
  have hbk' : back (@KalmanFilter.body Fl B kf₁.A kf₁.Q kf₁.B (@checkNoneAndBroadcast Fl B U₁ Z₁) kf₁.stateSize xe Pe) N
      (stateRow (q 0), covRow (q 0)) = .ok ((List.range (N + 1)).map fun j => beliefRows (q (N - j))) := hbk
  rw [hbk'] at hsm
  have hget : ∀ (k : ℕ) (p : Belief n), (smoothed b ss)[k]? = some p → BeliefNear ε (q (N - k)) p := fun k p hp => by
    obtain ⟨h1, rfl⟩ := smoothed_get hp
    have := (hfin (N - k) (by omega)).1
    rw [show ss.length - (N - k) = k + 1 by omega] at this
    exact (BeliefNear.toE hε.le).2 this
  refine ⟨_, _, _, hsm, ?_, ?_, ?_⟩
  · rw [List.map_map]
    refine forall₂_map_range (by rw [List.length_map, smoothed_length, hN]) fun k a ha => ?_
    rw [List.getElem?_map, Option.map_eq_some_iff] at ha
    obtain ⟨p, hp, rfl⟩ := ha
    exact stateRow_close (hget k p hp)
  · rw [List.map_map]
    refine forall₂_map_range (by rw [List.length_map, smoothed_length, hN]) fun k a ha => ?_
    rw [List.getElem?_map, Option.map_eq_some_iff] at ha
    obtain ⟨p, hp, rfl⟩ := ha
    exact covRow_close (hget k p hp)
  · refine forall₂_append' (hk.kalmanGains.imp fun _ _ h => h.mono (min_le_right _ _)) ?_
    refine forall₂_map_range (by rw [List.length_map, gainsOf_length]) fun k a ha => ?_
    rw [List.getElem?_map, Option.map_eq_some_iff] at ha
    obtain ⟨K, hK, rfl⟩ := ha
    have hk' : k < ss.length := by
      have := (List.getElem?_eq_some_iff.1 hK).1
      rwa [gainsOf_length] at this
    rw [gainsOf_const hcm b k K hK]
    exact gainRow_close fun i j => ((hnear k hk').2 i j).trans (min_le_right _ _)

/-- **C114**.  A constant, observable, controllable model with PSD `Q`, PD `R` and PSD initial covariance, and a bound `D` on the
entries (and dimensions) of the arrays.  For every `ε` there is one `η` such that every call of `smooth` on such data for which
the textbook smoother exists, however long, in every arithmetic accurate to `η`, on inputs within `η` of the model, returns, with
every smoothed state and covariance and every recorded gain within `ε` of the textbook smoother in exact arithmetic. -/
theorem C114_no_drift_smooth (A Q : Matrix (Fin n) (Fin n) ℝ) (H : Matrix (Fin m) (Fin n) ℝ) (R : Matrix (Fin m) (Fin m) ℝ)
    (hQ : Q.PosSemidef) (hR : R.PosDef) (hc : Controllable A Q) (ho : Observable A H) (b : Belief n) (hP : b.P.PosSemidef)
    (D : ℝ) {ε : ℝ} (hε : 0 < ε) :
    ∃ η > 0, ∀ (ss : List (LinStep n m)) (kf : KalmanFilter Fl) (Z : NDArray Fl) (U : Option (NDArray Fl)),
      Represents kf Z U b ss → ss.length = Z.rows.length → ss ≠ [] → ConstantModel A H Q R ss → SmoothSolvable b ss →
      InputsWithin D kf Z U →
      ∀ (B : Backend Fl) kf₁ Z₁ U₁, Accurate P.nanInt η B → kf.Close η kf₁ → Z.Close η Z₁ → CloseOpt η U U₁ →
        SmoothWithin ε B kf₁ Z₁ U₁ ((smoothed b ss).map stateRow) ((smoothed b ss).map covRow)
          (kf.kalmanGains ++ (gainsOf b ss).map gainRow) :=
  no_drift_smooth A Q H R hQ hR b hP (.of_observable hQ hR hc ho hP) D hε

/-- **C114** in binary floating point: a number of binary digits that suffices for runs of any length. -/
theorem C114_binary (A Q : Matrix (Fin n) (Fin n) ℝ) (H : Matrix (Fin m) (Fin n) ℝ) (R : Matrix (Fin m) (Fin m) ℝ)
    (hQ : Q.PosSemidef) (hR : R.PosDef) (hc : Controllable A Q) (ho : Observable A H) (b : Belief n) (hP : b.P.PosSemidef)
    (D : ℝ) {ε : ℝ} (hε : 0 < ε) :
    ∃ p₀ : ℕ, ∃ η > 0, ∀ (ss : List (LinStep n m)) (kf : KalmanFilter Fl) (Z : NDArray Fl) (U : Option (NDArray Fl)),
      Represents kf Z U b ss → ss.length = Z.rows.length → ss ≠ [] → ConstantModel A H Q R ss → SmoothSolvable b ss →
      InputsWithin D kf Z U →
      ∀ (p : ℕ) (emin : ℤ) (M : ℝ) (a : FloatUnit) kf₁ Z₁ U₁, p₀ ≤ p → emin ≤ 0 → 2 ^ p₀ ≤ M → a.fl = binary p emin M → a.Valid →
        kf.Close η kf₁ → Z.Close η Z₁ → CloseOpt η U U₁ →
        SmoothWithin ε (floatB P.nanInt a) kf₁ Z₁ U₁ ((smoothed b ss).map stateRow) ((smoothed b ss).map covRow)
          (kf.kalmanGains ++ (gainsOf b ss).map gainRow) := by
  obtain ⟨η, hη, h⟩ := C114_no_drift_smooth A Q H R hQ hR hc ho b hP D hε
  obtain ⟨δ, hδ, g⟩ := Precise.accurate P.nanInt hη
  obtain ⟨p₀, hp⟩ := binary_precise hδ
  exact ⟨p₀, η, hη, fun ss kf Z U hr hfull hne hcm hsol hin p emin M a kf₁ Z₁ U₁ h1 h2 h3 h4 h5 =>
    h ss kf Z U hr hfull hne hcm hsol hin _ kf₁ Z₁ U₁ (g a (hp p emin M a h1 h2 h3 h4 h5))⟩

end

/-- The constant-velocity model with observations and controls at most 10: some number of binary digits suffices for three decimal
digits in the smoother on data of any length. -/
example : ∃ p₀ : ℕ, ∀ (uz : List (ℝ × ℝ)) (p : ℕ) (emin : ℤ) (M : ℝ) (a : FloatUnit), uz ≠ [] → (∀ q ∈ uz, |q.1| ≤ 10 ∧ |q.2| ≤ 10) →
    p₀ ≤ p → emin ≤ 0 → 2 ^ p₀ ≤ M → a.fl = binary p emin M → a.Valid →
    SmoothWithin 0.001 (floatB 0 a) (@Ex.encode 2 1 (strict 0) Ex.cvBelief (Ex.cvSteps uz)) (Ex.encZ (Ex.cvSteps uz))
      (some (Ex.encU (Ex.cvSteps uz)))
      ((smoothed Ex.cvBelief (Ex.cvSteps uz)).map stateRow) ((smoothed Ex.cvBelief (Ex.cvSteps uz)).map covRow)
      ((gainsOf Ex.cvBelief (Ex.cvSteps uz)).map gainRow) := by
  letI : Platform := strict 0
  obtain ⟨p₀, η, hη, h⟩ := C114_binary (Ex.cvStep 0 0).A (Ex.cvStep 0 0).Q (Ex.cvStep 0 0).H (Ex.cvStep 0 0).R
    (Ex.cvStep_Q 0 0).posSemidef (Ex.cvStep_R 0 0) Ex.cv_controllable Ex.cv_observable Ex.cvBelief Ex.cv_posDef.posSemidef 20
    (ε := 0.001) (by norm_num)
  refine ⟨p₀, fun uz p emin M a hne hd h1 h2 h3 h4 h5 => ?_⟩
  refine h (Ex.cvSteps uz) _ _ _ (Ex.encode_represents Ex.cvBelief (Ex.cvSteps uz)) (Ex.encZ_length _).symm
    (by simpa [Ex.cvSteps] using hne) ?_ (smoothSolvable_pd _ _ Ex.cv_posDef (Ex.cv_pdStep uz)) ?_ p emin M a _ _ _ h1 h2 h3 h4 h5
    (KalmanFilter.close_refl hη.le _) (NDArray.close_refl hη.le _) ⟨_, rfl, NDArray.close_refl hη.le _⟩
  · intro s hs
    simp only [Ex.cvSteps, List.mem_map] at hs
    obtain ⟨p, -, rfl⟩ := hs
    exact ⟨rfl, rfl, rfl, rfl⟩
  · intro x hx
    simp only [Ex.encode, Ex.encZ, Ex.encU, Ex.cvSteps, effU, checkNoneAndBroadcast, NDArray.rows, List.map_map, List.mem_map,
      Function.comp] at hx
    rcases hx with ⟨q, hq, rfl⟩ | ⟨q, hq, rfl⟩ | ⟨q, hq, rfl⟩ | ⟨q, hq, rfl⟩ | ⟨q, hq, rfl⟩ | ⟨q, hq, rfl⟩ | ⟨q, hq, rfl⟩ <;>
      obtain ⟨g1, g2⟩ := hd q hq <;> refine ⟨?_, ?_⟩ <;>
      simp [Arr.Within, Arr.shape, finM, finV, colM, Ex.cvStep, Fl.toReal, Fin.forall_fin_two, abs_div] <;> norm_num <;> first | (constructor <;> linarith) | linarith

end KK
