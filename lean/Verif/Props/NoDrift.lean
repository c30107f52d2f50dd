import Verif.Proofs.RoundRun
import Verif.Props.Float

/-!
# C108: rounding errors do not accumulate

C86 and C94 give, for each run, an accuracy that suffices for it.  For an observable and controllable constant model one
accuracy suffices for runs of any length: the errors of the single steps do not add up.
-/

set_option linter.unusedSectionVars false

namespace KK

open Matrix

section
variable {n m : ℕ}

theorem forall₂_map_range {α β : Type} {p : α → β → Prop} {l : List α} {N : ℕ} {f : ℕ → β} (hl : l.length = N)
    (h : ∀ (k : ℕ) (a : α), l[k]? = some a → p a (f k)) : List.Forall₂ p l ((List.range N).map f) := by
  refine List.forall₂_iff_get.2 ⟨by simpa using hl, fun i h1 h2 => ?_⟩
  have := h i l[i] (List.getElem?_eq_getElem h1)
  simpa using this

theorem stateRow_close {ε : ℝ} {q b : Belief n} (h : BeliefNear ε b q) : (stateRow q).Close ε (stateRow b) :=
  ⟨_, rfl, fun i => ⟨rfl, by rw [abs_sub_comm]; exact h.1 i⟩⟩

theorem covRow_close {ε : ℝ} {q b : Belief n} (h : BeliefNear ε b q) : (covRow q).Close ε (covRow b) :=
  ⟨_, rfl, fun i j => ⟨rfl, by rw [abs_sub_comm]; exact h.2 i j⟩⟩

theorem gainRow_close {ε : ℝ} {K K' : Matrix (Fin n) (Fin m) ℝ} (h : ∀ i j, |K i j - K' i j| ≤ ε) : (gainRow K').Close ε (gainRow K) :=
  ⟨_, rfl, fun i j => ⟨rfl, by rw [abs_sub_comm]; exact h i j⟩⟩

theorem forall₂_append' {α β : Type} {p : α → β → Prop} {a c : List α} {b d : List β} (h : List.Forall₂ p a b) (h' : List.Forall₂ p c d) :
    List.Forall₂ p (a ++ c) (b ++ d) := by
  induction h with
  | nil => exact h'
  | cons h1 _ ih => exact .cons h1 ih

theorem forall₂_replicate {α β : Type} {p : α → β → Prop} {a : α} {b : β} (h : p a b) (k : ℕ) :
    List.Forall₂ p (List.replicate k a) (List.replicate k b) := by
  induction k with
  | zero => exact .nil
  | succ k ih => exact .cons h ih

variable [P : Platform]

/-- The rows of bounded inputs. -/
theorem rows_small {D : ℝ} {kf : KalmanFilter Fl} {Z : NDArray Fl} {U : Option (NDArray Fl)} (hin : InputsWithin D kf Z U) :
    ∀ r ∈ @KalmanFilter.zrows Fl (exactB P.nanInt) kf Z U, RowSmall D r := by
  rintro ⟨a1, a2, a3, a4, a5, a6, a7⟩ hr
  obtain ⟨k, hk⟩ := List.mem_iff_getElem?.1 hr
  simp only [KalmanFilter.zrows, List.getElem?_zip_eq_some] at hk
  obtain ⟨h1, h2, h3, h4, h5, h6, h7⟩ := hk
  have e : @effU Fl (exactB P.nanInt) U Z = effU U Z := effU_strict U Z
  rw [e] at h4
  exact ⟨hin _ (.inl (List.mem_of_getElem? h1)), hin _ (.inr (.inl (List.mem_of_getElem? h2))),
    hin _ (.inr (.inr (.inl (List.mem_of_getElem? h3)))), hin _ (.inr (.inr (.inr (.inl (List.mem_of_getElem? h4))))),
    hin _ (.inr (.inr (.inr (.inr (.inl (List.mem_of_getElem? h5)))))),
    hin _ (.inr (.inr (.inr (.inr (.inr (.inl (List.mem_of_getElem? h6))))))),
    hin _ (.inr (.inr (.inr (.inr (.inr (.inr (List.mem_of_getElem? h7)))))))⟩

/-- A run of `filter` in an accurate arithmetic. -/
theorem filter_near (A Q : Matrix (Fin n) (Fin n) ℝ) (H : Matrix (Fin m) (Fin n) ℝ) (R : Matrix (Fin m) (Fin m) ℝ)
    (hQ : Q.PosSemidef) (hR : R.PosDef) (b : Belief n) (hP : b.P.PosSemidef)
    (hS : Settles A Q H R b.P)
    (D : ℝ) {ε : ℝ} (hε : 0 < ε) :
    ∃ η > 0, ∀ (ss : List (LinStep n m)) (kf : KalmanFilter Fl) (Z : NDArray Fl) (U : Option (NDArray Fl)),
      Represents kf Z U b ss → ConstantModel A H Q R ss → InputsWithin D kf Z U →
      ∀ (B : Backend Fl) kf₁ Z₁ U₁, Accurate P.nanInt η B → kf.Close η kf₁ → Z.Close η Z₁ → CloseOpt η U U₁ →
        ∃ (b' : ℕ → Belief n) (Ks : ℕ → Matrix (Fin n) (Fin m) ℝ), (@KalmanFilter.filter Fl B Z₁ U₁).run kf₁ =
          (.ok (((List.range ss.length).map fun i => stateRow (b' (i + 1))) ++
              List.replicate (Z.rows.length - ss.length) (@Arr.zerosVec Fl B n),
            ((List.range ss.length).map fun i => covRow (b' (i + 1))) ++
              List.replicate (Z.rows.length - ss.length) (@Arr.zerosMat Fl B n)),
            { kf₁ with kalmanGains := kf₁.kalmanGains ++ (List.range ss.length).map fun i => gainRow (Ks i) }) ∧
          ∀ i < ss.length, BeliefNear ε (b' (i + 1)) (lastOf b (ss.take (i + 1))) ∧
            ∀ j k, |Ks i j k - ownGains A Q H R b.P i j k| ≤ ε := by
  obtain ⟨η₁, hη₁, hrun⟩ := run_near (A := A) (H := H) P.nanInt hQ hR b hP hS D hε
  refine ⟨min η₁ ε, lt_min hη₁ hε, fun ss kf Z U hrep hcm hin => ?_⟩
  have hs := hrep.strict
  have hiter := hrep.iter
  have hsize := hrep.size
  have hcarr := hrep.carried
  have i1 := hiter.A
  have i2 := hiter.H
  have i3 := hiter.B
  have i5 := hiter.Z
  have i6 := hiter.Q
  have i7 := hiter.R
  have i4 := @KalmanFilter.AllIterable.U Fl (exactB P.nanInt) _ _ _ (@Represents.iter n m (strict P.nanInt) kf Z U b ss hs)
  have hident := @Represents.ident n m (strict P.nanInt) kf Z U b ss hs
  have hrows := @Represents.rowsIs (strict P.nanInt) n m kf Z U b ss hs
  have hsmall := rows_small hin
  intro B kf₁ Z₁ U₁ hB hk hZ hU
  have hη : 0 < min η₁ ε := lt_min hη₁ hε
  have hle : min η₁ ε ≤ η₁ := min_le_left _ _
  have hEU := effU_close hη.le hB hZ hU
  have hiter₁ : @KalmanFilter.AllIterable Fl B kf₁ Z₁ U₁ :=
    @KalmanFilter.AllIterable.mk Fl B kf₁ Z₁ U₁ (hk.A.iterable i1) (hk.H.iterable i2) (hk.B.iterable i3)
      (hEU.iterable i4) (hZ.iterable i5) (hk.Q.iterable i6) (hk.R.iterable i7)
  have hcl := zrows_close hη.le hB hk hZ hU
  obtain ⟨b₀, hc₀, hn₀⟩ := hcarr.of_close hk.xk hk.Pk
  have hI : (@Arr.identity Fl (exactB P.nanInt) n).Close η₁ kf₁.I := by
    have := hk.I.mono hle
    rw [hident] at this; exact this
  obtain ⟨b', Ks, t1, t2, t3, t4⟩ := hrun B ss _ _ b₀ kf₁.xk kf₁.Pk kf₁.I _ (hB.mono hη hle) hrows hcm hsmall
    (hcl.imp fun _ _ h => h.mono hle) hI hc₀ ⟨fun i => (hn₀.1 i).trans hle, fun i j => (hn₀.2 i j).trans hle⟩
    (fun hq r hr => by
      rcases hq with hq | hq
      · exact .inl hq
      · exact .inr (hq _ (@zrows_z (strict P.nanInt) _ _ _ _ hr)))
  have hsz : kf₁.stateSize = n := hk.stateSize.trans hsize
  have hZl : Z₁.rows.length = Z.rows.length := hZ.rows.length_eq.symm
  have hst : @KalmanFilter.steps Fl B kf₁ Z₁ U₁ = ss.length := by
    rw [← @KalmanFilter.zrows_length Fl B, ← hcl.length_eq, ← hrows.length_eq]
  have hrunk := @KalmanFilter.filter_iter Fl B kf₁ Z₁ U₁ hiter₁
  have htr : @KalmanFilter.tr Fl B kf₁ Z₁ U₁ =
      trace (@KalmanFilter.step Fl B n kf₁.I) (@KalmanFilter.zrows Fl B kf₁ Z₁ U₁) kf₁.xk kf₁.Pk := by
    rw [KalmanFilter.tr, hsz]
  rw [htr, t1, t2, t3, hst, hZl, hsz] at hrunk
  refine ⟨b', Ks, hrunk.trans ?_, t4⟩
  simp only [List.map_map]
  rfl

theorem no_drift (A Q : Matrix (Fin n) (Fin n) ℝ) (H : Matrix (Fin m) (Fin n) ℝ) (R : Matrix (Fin m) (Fin m) ℝ)
    (hQ : Q.PosSemidef) (hR : R.PosDef) (b : Belief n) (hP : b.P.PosSemidef)
    (hS : Settles A Q H R b.P)
    (D : ℝ) {ε : ℝ} (hε : 0 < ε) :
    ∃ η > 0, ∀ (ss : List (LinStep n m)) (kf : KalmanFilter Fl) (Z : NDArray Fl) (U : Option (NDArray Fl)),
      Represents kf Z U b ss → ConstantModel A H Q R ss → InputsWithin D kf Z U →
      ∀ (B : Backend Fl) kf₁ Z₁ U₁, Accurate P.nanInt η B → kf.Close η kf₁ → Z.Close η Z₁ → CloseOpt η U U₁ →
        FilterWithin ε B kf₁ Z₁ U₁
          ((filtered b ss).map stateRow ++ List.replicate (Z.rows.length - ss.length) (Arr.zerosVec n))
          ((filtered b ss).map covRow ++ List.replicate (Z.rows.length - ss.length) (Arr.zerosMat n))
          (kf.kalmanGains ++ (gainsOf b ss).map gainRow) := by
  obtain ⟨η₁, hη₁, hrun⟩ := filter_near A Q H R hQ hR b hP hS D hε
  refine ⟨min η₁ ε, lt_min hη₁ hε, fun ss kf Z U hrep hcm hin B kf₁ Z₁ U₁ hB hk hZ hU => ?_⟩
  have hη : 0 < min η₁ ε := lt_min hη₁ hε
  have hle : min η₁ ε ≤ η₁ := min_le_left _ _
  obtain ⟨b', Ks, hrunk, t4⟩ := hrun ss kf Z U hrep hcm hin B kf₁ Z₁ U₁ (hB.mono hη hle) (hk.mono hle) (hZ.mono hle) (hU.mono hle)
  have hz : B.zero = (exactB P.nanInt).zero := hB.zero
  have hget : ∀ (k : ℕ) (q : Belief n), (filtered b ss)[k]? = some q → BeliefNear ε (b' (k + 1)) q := fun k q hq => by
    obtain ⟨h1, rfl⟩ := filtered_lastOf hq
    exact (t4 k h1).1
  have hzv : (Arr.zerosVec n : Arr Fl).Close ε (@Arr.zerosVec Fl B n) := by
    refine ⟨_, rfl, fun i => ?_⟩
    show Fl.Close ε _ B.zero
    rw [hz]; exact Fl.close_self hε.le _
  have hzm : (Arr.zerosMat n : Arr Fl).Close ε (@Arr.zerosMat Fl B n) := by
    refine ⟨_, rfl, fun i j => ?_⟩
    show Fl.Close ε _ B.zero
    rw [hz]; exact Fl.close_self hε.le _
  refine ⟨_, _, _, hrunk, ?_, ?_, ?_⟩
  · refine forall₂_append' ?_ (forall₂_replicate hzv _)
    refine forall₂_map_range (by rw [List.length_map, filtered_length]) fun k a ha => ?_
    rw [List.getElem?_map, Option.map_eq_some_iff] at ha
    obtain ⟨q, hq, rfl⟩ := ha
    exact stateRow_close (hget k q hq)
  · refine forall₂_append' ?_ (forall₂_replicate hzm _)
    refine forall₂_map_range (by rw [List.length_map, filtered_length]) fun k a ha => ?_
    rw [List.getElem?_map, Option.map_eq_some_iff] at ha
    obtain ⟨q, hq, rfl⟩ := ha
    exact covRow_close (hget k q hq)
  · refine forall₂_append' (hk.kalmanGains.imp fun _ _ h => h.mono (min_le_right _ _)) ?_
    refine forall₂_map_range (by rw [List.length_map, gainsOf_length]) fun k a ha => ?_
    rw [List.getElem?_map, Option.map_eq_some_iff] at ha
    obtain ⟨K, hK, rfl⟩ := ha
    have hk' : k < ss.length := by
      have := (List.getElem?_eq_some_iff.1 hK).1
      rwa [gainsOf_length] at this
    rw [gainsOf_const hcm b k K hK]
    exact gainRow_close (t4 k hk').2

/-- **C108**.  A constant, observable, controllable model with PSD `Q`, PD `R` and PSD initial covariance, and a bound `D` on the
entries (and dimensions) of the arrays given to the filter.  For every `ε` there is one `η` such that *every* run on such data,
however long, in every arithmetic that is accurate to `η`, on inputs within `η` of the model, returns, and every state, covariance
and recorded gain is within `ε` of the textbook filter in exact arithmetic. -/
theorem C108_no_drift (A Q : Matrix (Fin n) (Fin n) ℝ) (H : Matrix (Fin m) (Fin n) ℝ) (R : Matrix (Fin m) (Fin m) ℝ)
    (hQ : Q.PosSemidef) (hR : R.PosDef) (hc : Controllable A Q) (ho : Observable A H) (b : Belief n) (hP : b.P.PosSemidef)
    (D : ℝ) {ε : ℝ} (hε : 0 < ε) :
    ∃ η > 0, ∀ (ss : List (LinStep n m)) (kf : KalmanFilter Fl) (Z : NDArray Fl) (U : Option (NDArray Fl)),
      Represents kf Z U b ss → ConstantModel A H Q R ss → InputsWithin D kf Z U →
      ∀ (B : Backend Fl) kf₁ Z₁ U₁, Accurate P.nanInt η B → kf.Close η kf₁ → Z.Close η Z₁ → CloseOpt η U U₁ →
        FilterWithin ε B kf₁ Z₁ U₁
          ((filtered b ss).map stateRow ++ List.replicate (Z.rows.length - ss.length) (Arr.zerosVec n))
          ((filtered b ss).map covRow ++ List.replicate (Z.rows.length - ss.length) (Arr.zerosMat n))
          (kf.kalmanGains ++ (gainsOf b ss).map gainRow) :=
  no_drift A Q H R hQ hR b hP (.of_observable hQ hR hc ho hP) D hε

/-- **C108** in binary floating point: a number of binary digits that suffices for runs of any length. -/
theorem C108_binary (A Q : Matrix (Fin n) (Fin n) ℝ) (H : Matrix (Fin m) (Fin n) ℝ) (R : Matrix (Fin m) (Fin m) ℝ)
    (hQ : Q.PosSemidef) (hR : R.PosDef) (hc : Controllable A Q) (ho : Observable A H) (b : Belief n) (hP : b.P.PosSemidef)
    (D : ℝ) {ε : ℝ} (hε : 0 < ε) :
    ∃ p₀ : ℕ, ∃ η > 0, ∀ (ss : List (LinStep n m)) (kf : KalmanFilter Fl) (Z : NDArray Fl) (U : Option (NDArray Fl)),
      Represents kf Z U b ss → ConstantModel A H Q R ss → InputsWithin D kf Z U →
      ∀ (p : ℕ) (emin : ℤ) (M : ℝ) (a : FloatUnit) kf₁ Z₁ U₁, p₀ ≤ p → emin ≤ 0 → 2 ^ p₀ ≤ M → a.fl = binary p emin M → a.Valid →
        kf.Close η kf₁ → Z.Close η Z₁ → CloseOpt η U U₁ →
        FilterWithin ε (floatB P.nanInt a) kf₁ Z₁ U₁
          ((filtered b ss).map stateRow ++ List.replicate (Z.rows.length - ss.length) (Arr.zerosVec n))
          ((filtered b ss).map covRow ++ List.replicate (Z.rows.length - ss.length) (Arr.zerosMat n))
          (kf.kalmanGains ++ (gainsOf b ss).map gainRow) := by
  obtain ⟨η, hη, h⟩ := C108_no_drift A Q H R hQ hR hc ho b hP D hε
  obtain ⟨δ, hδ, g⟩ := Precise.accurate P.nanInt hη
  obtain ⟨p₀, hp⟩ := binary_precise hδ
  exact ⟨p₀, η, hη, fun ss kf Z U hr hcm hin p emin M a kf₁ Z₁ U₁ h1 h2 h3 h4 h5 =>
    h ss kf Z U hr hcm hin _ kf₁ Z₁ U₁ (g a (hp p emin M a h1 h2 h3 h4 h5))⟩

end

/-- The constant-velocity model with observations and controls at most 10: some number of binary digits suffices for three decimal
digits in runs of any length. -/
example : ∃ p₀ : ℕ, ∀ (uz : List (ℝ × ℝ)) (p : ℕ) (emin : ℤ) (M : ℝ) (a : FloatUnit), (∀ q ∈ uz, |q.1| ≤ 10 ∧ |q.2| ≤ 10) →
    p₀ ≤ p → emin ≤ 0 → 2 ^ p₀ ≤ M → a.fl = binary p emin M → a.Valid →
    FilterWithin 0.001 (floatB 0 a) (@Ex.encode 2 1 (strict 0) Ex.cvBelief (Ex.cvSteps uz)) (Ex.encZ (Ex.cvSteps uz))
      (some (Ex.encU (Ex.cvSteps uz)))
      ((filtered Ex.cvBelief (Ex.cvSteps uz)).map stateRow) ((filtered Ex.cvBelief (Ex.cvSteps uz)).map covRow)
      ((gainsOf Ex.cvBelief (Ex.cvSteps uz)).map gainRow) := by
  letI : Platform := strict 0
  obtain ⟨p₀, η, hη, h⟩ := C108_binary (Ex.cvStep 0 0).A (Ex.cvStep 0 0).Q (Ex.cvStep 0 0).H (Ex.cvStep 0 0).R
    (Ex.cvStep_Q 0 0).posSemidef (Ex.cvStep_R 0 0) Ex.cv_controllable Ex.cv_observable Ex.cvBelief Ex.cv_posDef.posSemidef 20
    (ε := 0.001) (by norm_num)
  refine ⟨p₀, fun uz p emin M a hd h1 h2 h3 h4 h5 => ?_⟩
  have := h (Ex.cvSteps uz) _ _ _ (Ex.encode_represents Ex.cvBelief (Ex.cvSteps uz)) ?_ ?_ p emin M a _ _ _ h1 h2 h3 h4 h5
    (KalmanFilter.close_refl hη.le _) (NDArray.close_refl hη.le _) ⟨_, rfl, NDArray.close_refl hη.le _⟩
  · simp only [Ex.encZ_length, Nat.sub_self, List.replicate_zero, List.append_nil] at this
    exact this
  · intro s hs
    simp only [Ex.cvSteps, List.mem_map] at hs
    obtain ⟨p, -, rfl⟩ := hs
    exact ⟨rfl, rfl, rfl, rfl⟩
  · intro x hx
    simp only [Ex.encode, Ex.encZ, Ex.encU, Ex.cvSteps, effU, checkNoneAndBroadcast, NDArray.rows, List.map_map, List.mem_map,
      Function.comp] at hx
    rcases hx with ⟨q, hq, rfl⟩ | ⟨q, hq, rfl⟩ | ⟨q, hq, rfl⟩ | ⟨q, hq, rfl⟩ | ⟨q, hq, rfl⟩ | ⟨q, hq, rfl⟩ | ⟨q, hq, rfl⟩ <;>
      obtain ⟨g1, g2⟩ := hd q hq <;> refine ⟨?_, ?_⟩ <;>
      simp [Arr.Within, Arr.shape, finM, finV, colM, Ex.cvStep, Fl.toReal, Fin.forall_fin_two, abs_div] <;> norm_num <;> first | (constructor <;> linarith) | linarith

end KK
