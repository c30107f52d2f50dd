import Verif.Proofs.RoundVarying
import Verif.Proofs.ExtSmoothObserver

/-!
# One step of the extended loop under an accurate arithmetic, uniformly over bounded data
-/

set_option linter.unusedSectionVars false

namespace KK

open Matrix Filter Topology

/-- An object whose callbacks return given arrays. -/
def constKF (yA yF yH yh I : Arr Fl) (s : ℕ) : ExtendedKalmanFilter Fl where
  f := fun _ _ => .ok yF
  jacobianA := fun _ _ => .ok yA
  xk := I
  Pk := I
  h := fun _ => .ok yh
  jacobianH := fun _ => .ok yH
  Q := .stack []
  R := .stack []
  stateSize := s
  I := I
  kalmanGains := []

/-- A step only uses four values of the callbacks. -/
theorem step_constKF (B : Backend Fl) {kf : ExtendedKalmanFilter Fl} {uk zk Qk Rk x P yA yF yH yh : Arr Fl}
    (hA : kf.jacobianA x (some uk) = .ok yA) (hF : kf.f x (some uk) = .ok yF) (hH : kf.jacobianH yF = .ok yH) (hh : kf.h yF = .ok yh) :
    @ExtendedKalmanFilter.step Fl B kf (uk, zk, Qk, Rk) x P =
      @ExtendedKalmanFilter.step Fl B (constKF yA yF yH yh kf.I kf.stateSize) (uk, zk, Qk, Rk) x P := by
  have hp : ∀ k : ExtendedKalmanFilter Fl, k.jacobianA x (some uk) = .ok yA → k.f x (some uk) = .ok yF →
      @ExtendedKalmanFilter.predict Fl B k x (some uk) P Qk = (do
        let pat ← @Arr.matmul Fl B P yA.T
        let apat ← @Arr.matmul Fl B yA pat
        let PkPrior ← @Arr.add Fl B apat Qk
        .ok (yF, PkPrior)) := fun k h1 h2 => by
    simp only [ExtendedKalmanFilter.predict, h1, h2, Except.bind_ok']
  have e1 := hp kf hA hF
  have e2 := hp (constKF yA yF yH yh kf.I kf.stateSize) rfl rfl
  simp only [ExtendedKalmanFilter.step]
  rw [e1, e2]
  rcases h1 : @Arr.matmul Fl B P yA.T with e | pat
  · rfl
  simp only [Except.bind_ok']
  rcases h2 : @Arr.matmul Fl B yA pat with e | apat
  · rfl
  simp only [Except.bind_ok']
  rcases h3 : @Arr.add Fl B apat Qk with e | Pp
  · rfl
  simp only [Except.bind_ok', hH]
  have e3 : (constKF yA yF yH yh kf.I kf.stateSize).jacobianH yF = .ok yH := rfl
  have e4 : ∀ K, @ExtendedKalmanFilter.correct Fl B kf K yH yF Pp zk =
      @ExtendedKalmanFilter.correct Fl B (constKF yA yF yH yh kf.I kf.stateSize) K yH yF Pp zk := fun K => by
    simp only [ExtendedKalmanFilter.correct, hh, constKF]
  simp only [e3, e4]
  rfl

section
variable {ι : Type} {l : Filter ι} {nanInt : ℝ} {B : ι → Backend Fl} (hB : Consistent l nanInt B)

theorem constKF_T {yA yF yH yh I : ι → Arr Fl} {yA' yF' yH' yh' I' : Arr Fl} (s : ℕ) (hA : ArrT l yA yA') (hF : ArrT l yF yF')
    (hH : ArrT l yH yH') (hh : ArrT l yh yh') (hI : ArrT l I I') :
    EKFT l (fun i => constKF (yA i) (yF i) (yH i) (yh i) (I i) s) (constKF yA' yF' yH' yh' I' s) where
  f _ _ _ _ _ _ := ET.ok hF
  jacobianA _ _ _ _ _ _ := ET.ok hA
  h _ _ _ := ET.ok hh
  jacobianH _ _ _ := ET.ok hH
  xk := hI
  Pk := hI
  Q := ⟨fun _ => [], ⟨[], .nil, .of_forall fun _ => rfl⟩, .of_forall fun _ => rfl⟩
  R := ⟨fun _ => [], ⟨[], .nil, .of_forall fun _ => rfl⟩, .of_forall fun _ => rfl⟩
  stateSize := .of_forall fun _ => rfl
  I := hI
  kalmanGains := ⟨[], .nil, .of_forall fun _ => rfl⟩

include hB

/-- The loop body of the extended filter. -/
theorem ext_step_T (s : ℕ) {yA yF yH yh I x P uk zk Qk Rk : ι → Arr Fl} {yA' yF' yH' yh' I' x' P' uk' zk' Qk' Rk' : Arr Fl}
    (hA : ArrT l yA yA') (hF : ArrT l yF yF') (hH : ArrT l yH yH') (hh : ArrT l yh yh') (hI : ArrT l I I') (hx : ArrT l x x')
    (hP : ArrT l P P') (hu : ArrT l uk uk') (hz : ArrT l zk zk') (hQ : ArrT l Qk Qk') (hR : ArrT l Rk Rk') {K y X v V : Arr Fl}
    (h : @ExtendedKalmanFilter.step Fl (exactB nanInt) (constKF yA' yF' yH' yh' I' s) (uk', zk', Qk', Rk') x' P' =
      (some K, .ok ((y, X), (v, V)))) :
    ∃ K₁ y₁ X₁ v₁ V₁ : ι → Arr Fl, ArrT l K₁ K ∧ ArrT l y₁ y ∧ ArrT l X₁ X ∧ ArrT l v₁ v ∧ ArrT l V₁ V ∧
      ∀ᶠ i in l, @ExtendedKalmanFilter.step Fl (B i) (constKF (yA i) (yF i) (yH i) (yh i) (I i) s) (uk i, zk i, Qk i, Rk i) (x i) (P i) =
          (some (K₁ i), .ok ((y₁ i, X₁ i), (v₁ i, V₁ i))) ∧
        (y₁ i).assignVec s = .ok (v₁ i) ∧ (X₁ i).assignMat s = .ok (V₁ i) := by
  have hS := constKF_T (l := l) s hA hF hH hh hI
  simp only [ExtendedKalmanFilter.step] at h
  split at h
  · simp at h
  rename_i xp Pp e1
  obtain ⟨p, hp, hp'⟩ := ext_predict_T hB hS hx hu hP hQ _ e1
  have hxp : xp = yF' := by
    have e : @ExtendedKalmanFilter.predict Fl (exactB nanInt) (constKF yA' yF' yH' yh' I' s) x' (some uk') P' Qk' = (do
        let pat ← @Arr.matmul Fl (exactB nanInt) P' yA'.T
        let apat ← @Arr.matmul Fl (exactB nanInt) yA' pat
        let PkPrior ← @Arr.add Fl (exactB nanInt) apat Qk'
        .ok (yF', PkPrior)) := rfl
    rw [e] at e1
    rcases h1 : @Arr.matmul Fl (exactB nanInt) P' yA'.T with e | pat
    · rw [h1] at e1; cases e1
    simp only [h1, Except.bind_ok'] at e1
    rcases h2 : @Arr.matmul Fl (exactB nanInt) yA' pat with e | apat
    · rw [h2] at e1; cases e1
    simp only [h2, Except.bind_ok'] at e1
    rcases h3 : @Arr.add Fl (exactB nanInt) apat Qk' with e | Pp
    · rw [h3] at e1; cases e1
    simp only [h3, Except.bind_ok', Except.ok.injEq, Prod.mk.injEq] at e1
    exact e1.1.symm
  have eH : (constKF yA' yF' yH' yh' I' s).jacobianH xp = .ok yH' := rfl
  rw [eH] at h
  simp only at h
  split at h
  · simp at h
  rename_i K' e2
  obtain ⟨k, hk, hk'⟩ := ext_gain_T hB hH hp.2 hR _ e2
  simp only [Prod.mk.injEq, Option.some.injEq] at h
  obtain ⟨rfl, h⟩ := h
  rcases e3 : @ExtendedKalmanFilter.correct Fl (exactB nanInt) (constKF yA' yF' yH' yh' I' s) K' yH' xp Pp zk' with _ | q
  · rw [e3] at h; simp at h
  rw [e3] at h
  simp only [Except.bind_ok'] at h
  obtain ⟨q₁, hq, hq'⟩ := ext_correct_T hB hS hk hH hp.1 hp.2 hz _ e3
  rcases e4 : q.1.assignVec s with _ | w
  · have e4' : q.1.assignVec (constKF yA' yF' yH' yh' I' s).stateSize = .error _ := e4
    rw [e4'] at h; simp at h
  have e4' : q.1.assignVec (constKF yA' yF' yH' yh' I' s).stateSize = .ok w := e4
  rw [e4'] at h
  simp only [Except.bind_ok'] at h
  rcases e5 : q.2.assignMat s with _ | W
  · have e5' : q.2.assignMat (constKF yA' yF' yH' yh' I' s).stateSize = .error _ := e5
    rw [e5'] at h; simp at h
  have e5' : q.2.assignMat (constKF yA' yF' yH' yh' I' s).stateSize = .ok W := e5
  rw [e5'] at h
  simp only [Except.bind_ok', Except.ok.injEq, Prod.mk.injEq] at h
  obtain ⟨rfl, rfl, rfl⟩ := h
  obtain ⟨w₁, hw, hw'⟩ := assignVec_T s hq.1 _ e4
  obtain ⟨W₁, hW, hW'⟩ := assignMat_T s hq.2 _ e5
  refine ⟨k, fun i => (q₁ i).1, fun i => (q₁ i).2, w₁, W₁, hk, hq.1, hq.2, hw, hW, ?_⟩
  filter_upwards [hp', hk', hq', hw', hW'] with i g1 g2 g3 g4 g5
  refine ⟨?_, g4, g5⟩
  have gH : (constKF (yA i) (yF i) (yH i) (yh i) (I i) s).jacobianH (p i).1 = .ok (yH i) := rfl
  have g4' : (q₁ i).1.assignVec (constKF (yA i) (yF i) (yH i) (yh i) (I i) s).stateSize = .ok (w₁ i) := g4
  have g5' : (q₁ i).2.assignMat (constKF (yA i) (yF i) (yH i) (yh i) (I i) s).stateSize = .ok (W₁ i) := g5
  simp only [ExtendedKalmanFilter.step, g1, gH, g2, g3, Except.bind_ok', g4', g5']

end

section
variable {n m : ℕ}

/-- The step with the values `A`, `F`, `H`, `h` of the callbacks. -/
def constStep (A : Matrix (Fin n) (Fin n) ℝ) (F : Fin n → ℝ) (H : Matrix (Fin m) (Fin n) ℝ) (h : Fin m → ℝ) (Q : Matrix (Fin n) (Fin n) ℝ)
    (R : Matrix (Fin m) (Fin m) ℝ) (z : Fin m → ℝ) : ExtStep n m := ⟨fun _ => F, fun _ => A, fun _ => h, fun _ => H, Q, R, z⟩

theorem ObsOrVec.lim {v : ℕ → Fin m → ℝ} {f : ℕ → Arr Fl} {a : Arr Fl}
    (h : ∀ i, VecIs (v i) (f i) ∨ m = 1 ∧ ObsIs (v i) (f i)) (ha : ArrT (hyperfilter ℕ : Filter ℕ) f a) :
    ∃ w, (VecIs w a ∨ m = 1 ∧ ObsIs w a) ∧ Tendsto v (hyperfilter ℕ) (𝓝 w) := by
  rcases Ultrafilter.eventually_or.1 (Eventually.of_forall h : ∀ᶠ i in (hyperfilter ℕ : Filter ℕ), _) with h | h
  · obtain ⟨w, h1, h2⟩ := VecIs.lim h ha
    exact ⟨w, .inl h1, h2⟩
  · obtain ⟨w, h1, h2⟩ := ObsIs.lim (h.mono fun i hi => hi.2) ha
    obtain ⟨i, hi⟩ := h.exists
    exact ⟨w, .inr ⟨hi.1, h1⟩, h2⟩

/-- Arrays that a step reads: the values of the four callbacks and the rows of `Z`, `Q`, `R`. -/
structure StepArrays (D : ℝ) (A : Matrix (Fin n) (Fin n) ℝ) (F : Fin n → ℝ) (H : Matrix (Fin m) (Fin n) ℝ) (h : Fin m → ℝ)
    (Q : Matrix (Fin n) (Fin n) ℝ) (R : Matrix (Fin m) (Fin m) ℝ) (z : Fin m → ℝ) (yA yF yH yh zk Qk Rk : Arr Fl) : Prop where
  A : MatIs A yA
  F : VecIs F yF
  H : MatIs H yH
  h : VecIs h yh ∨ m = 1 ∧ ObsIs h yh
  Q : NoiseIs Q Qk
  R : NoiseIs R Rk
  z : ObsIs z zk
  sA : yA.Small D
  sF : yF.Small D
  sH : yH.Small D
  sh : yh.Small D
  sQ : Qk.Small D
  sR : Rk.Small D
  sz : zk.Small D

set_option maxHeartbeats 1000000 in
/-- One step of the loop, from a belief that is not too large and whose innovation covariance is not close to singular:
an accurate arithmetic returns a belief near the textbook one for the values of the callbacks. -/
theorem ext_one_step (nanInt D : ℝ) {c δ : ℝ} (hc : 0 < c) (hδ : 0 < δ) : ∃ η > 0, ∀ (B : Backend Fl)
    (A : Matrix (Fin n) (Fin n) ℝ) (F : Fin n → ℝ) (H : Matrix (Fin m) (Fin n) ℝ) (h : Fin m → ℝ)
    (Q : Matrix (Fin n) (Fin n) ℝ) (R : Matrix (Fin m) (Fin m) ℝ) (z : Fin m → ℝ) (b : Belief n)
    (yA yF yH yh uk zk Qk Rk yA₁ yF₁ yH₁ yh₁ zk₁ Qk₁ Rk₁ x P I₁ : Arr Fl), Accurate nanInt η B →
    StepArrays D A F H h Q R z yA yF yH yh zk Qk Rk →
    yA.Close η yA₁ → yF.Close η yF₁ → yH.Close η yH₁ → yh.Close η yh₁ → zk.Close η zk₁ → Qk.Close η Qk₁ → Rk.Close η Rk₁ →
    (@Arr.identity Fl (exactB nanInt) n).Close η I₁ → uk.Small D → VecIs b.x x → MatIs b.P P → BeliefWithin D b →
    c ≤ |(innovCov H (priorCov A b.P Q) R).det| →
    ∃ (K : Matrix (Fin n) (Fin m) ℝ) (b' : Belief n) (x' P' : Arr Fl),
      @ExtendedKalmanFilter.step Fl B (constKF yA₁ yF₁ yH₁ yh₁ I₁ n) (uk, zk₁, Qk₁, Rk₁) x P =
        (some (gainRow K), .ok ((x', P'), (stateRow b', covRow b'))) ∧
      VecIs b'.x x' ∧ MatIs b'.P P' ∧ BeliefNear δ b' ((constStep A F H h Q R z).next b) := by
  letI : Platform := strict nanInt
  by_contra hcon
  have hn := fun k => eta_of_seq hcon k
  push Not at hn
  choose B A F H h Q R z b yA yF yH yh uk zk Qk Rk yA₁ yF₁ yH₁ yh₁ zk₁ Qk₁ Rk₁ x P I₁ hB hst c1 c2 c3 c4 c5 c6 c7 hI hu hbx hbP hbw hdet hbad
    using hn
  set l : Filter ℕ := (hyperfilter ℕ : Filter ℕ) with hl
  have hη : Tendsto (fun k : ℕ => (1 : ℝ) / ((k : ℝ) + 1)) l (𝓝 0) := hyper_tendsto seq_tendsto
  have Sm := fun i => carried_small (colOk := True) (⟨hbP i, .inl (hbx i)⟩ : Carried (b i) (x i) (P i) True) (hbw i)
  obtain ⟨xL, hx⟩ := ultra_arr (l := hyperfilter ℕ) (.of_forall fun i => (Sm i).1)
  obtain ⟨PL, hP⟩ := ultra_arr (l := hyperfilter ℕ) (.of_forall fun i => (Sm i).2)
  obtain ⟨a1, h1⟩ := ultra_arr (l := hyperfilter ℕ) (.of_forall fun i => (hst i).sA)
  obtain ⟨a2, h2⟩ := ultra_arr (l := hyperfilter ℕ) (.of_forall fun i => (hst i).sF)
  obtain ⟨a3, h3⟩ := ultra_arr (l := hyperfilter ℕ) (.of_forall fun i => (hst i).sH)
  obtain ⟨a4, h4⟩ := ultra_arr (l := hyperfilter ℕ) (.of_forall fun i => (hst i).sh)
  obtain ⟨a5, h5⟩ := ultra_arr (l := hyperfilter ℕ) (.of_forall fun i => (hst i).sz)
  obtain ⟨a6, h6⟩ := ultra_arr (l := hyperfilter ℕ) (.of_forall fun i => (hst i).sQ)
  obtain ⟨a7, h7⟩ := ultra_arr (l := hyperfilter ℕ) (.of_forall fun i => (hst i).sR)
  obtain ⟨a8, h8⟩ := ultra_arr (l := hyperfilter ℕ) (.of_forall fun i => hu i)
  have hI₁ : ArrT l I₁ (@Arr.identity Fl (exactB nanInt) n) := Arr.Close.T seq_pos hη hI
  have hI₀ : ArrT l (fun _ => @Arr.identity Fl (exactB nanInt) n) (@Arr.identity Fl (exactB nanInt) n) :=
    Arr.Close.T seq_pos hη fun i => Arr.close_refl (seq_pos i).le _
  obtain ⟨sA, m1, t1⟩ := MatIs.lim (F := l) (.of_forall fun i => (hst i).A) h1
  obtain ⟨sF, m2, t2⟩ := VecIs.lim (F := l) (.of_forall fun i => (hst i).F) h2
  obtain ⟨sH, m3, t3⟩ := MatIs.lim (F := l) (.of_forall fun i => (hst i).H) h3
  obtain ⟨sh, m4, t4⟩ := ObsOrVec.lim (fun i => (hst i).h) h4
  obtain ⟨sz, m5, t5⟩ := ObsIs.lim (l := hyperfilter ℕ) (.of_forall fun i => (hst i).z) h5
  obtain ⟨sQ, m6, t6⟩ := NoiseIs.lim (l := hyperfilter ℕ) (.of_forall fun i => (hst i).Q) h6
  obtain ⟨sR, m7, t7⟩ := NoiseIs.lim (l := hyperfilter ℕ) (.of_forall fun i => (hst i).R) h7
  obtain ⟨bx, m8, t8⟩ := VecIs.lim (F := l) (.of_forall hbx) hx
  obtain ⟨bP, m9, t9⟩ := MatIs.lim (F := l) (.of_forall hbP) hP
  have isStep : ∀ {A : Matrix (Fin n) (Fin n) ℝ} {F : Fin n → ℝ} {H : Matrix (Fin m) (Fin n) ℝ} {h : Fin m → ℝ}
      {Q : Matrix (Fin n) (Fin n) ℝ} {R : Matrix (Fin m) (Fin m) ℝ} {z : Fin m → ℝ} {yA yF yH yh uk zk Qk Rk : Arr Fl},
      MatIs A yA → VecIs F yF → MatIs H yH → (VecIs h yh ∨ m = 1 ∧ ObsIs h yh) → ObsIs z zk → NoiseIs Q Qk → NoiseIs R Rk →
      ExtStepIs (constKF yA yF yH yh (Arr.identity n) n) (constStep A F H h Q R z) uk zk Qk Rk :=
    fun h1 h2 h3 h4 h5 h6 h7 => ⟨fun _ _ _ => ⟨_, rfl, h2⟩, fun _ _ _ => ⟨_, rfl, h1⟩, fun _ _ _ => ⟨_, rfl, h4⟩,
      fun _ _ _ => ⟨_, rfl, h3⟩, h5, h6, h7⟩
  have hdL : (innovCov sH (priorCov sA bP sQ) sR).det ≠ 0 := by
    have := (det_continuous.tendsto (sA, sH, sQ, sR, bP)).comp
      (t1.prodMk_nhds (t3.prodMk_nhds (t6.prodMk_nhds (t7.prodMk_nhds t9))))
    have hge := ge_of_tendsto this.abs (.of_forall hdet)
    intro h0
    have : c ≤ |(0 : ℝ)| := by rw [← h0]; exact hge
    rw [abs_zero] at this; linarith
  have hexL := (extStep_exact (kf := constKF a1 a2 a3 a4 (Arr.identity n) n) (s := constStep sA sF sH sh sQ sR sz) (r := (a8, a5, a6, a7))
    (b := ⟨bx, bP⟩) (x := xL) (P := PL) (isStep m1 m2 m3 m4 m5 m6 m7) rfl rfl m8 m9).2 hdL
  obtain ⟨K₁, y₁, X₁, v₁, V₁, k1, k2, k3, k5, k6, k4⟩ := ext_step_T (Accurate.consistent seq_pos hη hB) n
    (h1.transfer hη (.of_forall c1)) (h2.transfer hη (.of_forall c2)) (h3.transfer hη (.of_forall c3)) (h4.transfer hη (.of_forall c4))
    hI₁ hx hP h8 (h5.transfer hη (.of_forall c5)) (h6.transfer hη (.of_forall c6)) (h7.transfer hη (.of_forall c7)) hexL
  obtain ⟨K₂, y₂, X₂, v₂, V₂, j1, -, -, j2, j3, j4⟩ := ext_step_T (exact_consistent nanInt) n h1 h2 h3 h4 hI₀ hx hP h8 h5 h6 h7 hexL
  have hdi : ∀ i, (innovCov (H i) (priorCov (A i) (b i).P (Q i)) (R i)).det ≠ 0 := fun i h0 => by
    have := hdet i
    rw [h0, abs_zero] at this; linarith
  have hex := fun i => (extStep_exact (kf := constKF (yA i) (yF i) (yH i) (yh i) (Arr.identity n) n)
    (s := constStep (A i) (F i) (H i) (h i) (Q i) (R i) (z i)) (r := (uk i, zk i, Qk i, Rk i)) (b := b i) (x := x i) (P := P i)
    (isStep (hst i).A (hst i).F (hst i).H (hst i).h (hst i).z (hst i).Q (hst i).R) rfl rfl (hbx i) (hbP i)).2 (hdi i)
  have hE : ∀ᶠ i in l, v₂ i = stateRow ((constStep (A i) (F i) (H i) (h i) (Q i) (R i) (z i)).next (b i)) ∧
      V₂ i = covRow ((constStep (A i) (F i) (H i) (h i) (Q i) (R i) (z i)).next (b i)) := by
    filter_upwards [j4] with i hi
    have e := (hex i).symm.trans hi.1
    simp only [Prod.mk.injEq, Option.some.injEq, Except.ok.injEq] at e
    exact ⟨e.2.2.1.symm, e.2.2.2.symm⟩
  obtain ⟨w1, q1, u1⟩ := VecIs.lim (v := fun i => ((constStep (A i) (F i) (H i) (h i) (Q i) (R i) (z i)).next (b i)).x)
    (hE.mono fun i hi => ⟨_, hi.1⟩) j2
  obtain ⟨w2, q2, u2⟩ := MatIs.lim (M := fun i => ((constStep (A i) (F i) (H i) (h i) (Q i) (R i) (z i)).next (b i)).P)
    (hE.mono fun i hi => ⟨_, hi.2⟩) j3
  have d1 := VecIs.inj q1
  have d2 := MatIs.inj q2
  subst d1 d2
  obtain ⟨Kr, g1, -⟩ := ArrT.matEq k1
  obtain ⟨Pr, g3, g4⟩ := ArrT.matIs k3 ⟨_, rfl⟩
  obtain ⟨xr, g5, g6⟩ := ArrT.vecIs k2 ⟨_, rfl⟩
  have n1 := tendsto_near g6 u1 hδ
  have n2 : ∀ᶠ i in l, ∀ k, ∀ j, |Pr i k j - ((constStep (A i) (F i) (H i) (h i) (Q i) (R i) (z i)).next (b i)).P k j| ≤ δ :=
    eventually_all.2 fun k => tendsto_near (tendsto_pi_nhds.1 g4 k) (tendsto_pi_nhds.1 u2 k) hδ
  have hfin : ∀ᶠ i in l, False := by
    filter_upwards [g1, g3, g5, n1, n2, k4] with i e1 e3 e5 f1 f2 e4
    refine hbad i (Kr i) ⟨xr i, Pr i⟩ (y₁ i) (X₁ i) ?_ e5 e3 ⟨f1, f2⟩
    obtain ⟨d, e3⟩ := e3
    obtain ⟨d', e5⟩ := e5
    have e6 := e4.2.2
    rw [e3, Arr.assignMat_mat, Except.ok.injEq] at e6
    have e7 := e4.2.1
    rw [e5, Arr.assignVec_vec, Except.ok.injEq] at e7
    rw [e4.1, e1, ← e6, ← e7]; rfl
  exact hfin.exists.choose_spec

end

end KK
