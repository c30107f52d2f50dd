import Verif.Proofs.ApproxExt
import Verif.Proofs.Transfer
import Verif.Props.Examples
import Verif.Test.FixedPoint
import Verif.Test.Encode

/-!
# C86, C87: rounding and measurement of the inputs

`exactB nanInt` is exact real arithmetic (with LinAlgError for linear systems that contain NaN).  The arithmetic `B`, the
filter object `kf₁`, the observations `Z₁` and the controls `U₁` are what is really there: rounded values and an
arithmetic that rounds.
-/

set_option linter.unusedSectionVars false

namespace KK

open Matrix Filter Topology

/-- The results of a call under the arithmetic `B` are within `ε` of the rows `xs`, `Ps` and of the recorded gains `gs`. -/
def FilterWithin (ε : ℝ) (B : Backend Fl) (kf : KalmanFilter Fl) (Z : NDArray Fl) (U : Option (NDArray Fl))
    (xs Ps gs : List (Arr Fl)) : Prop :=
  ∃ xs₁ Ps₁ kf₁, (@KalmanFilter.filter Fl B Z U).run kf = (.ok (xs₁, Ps₁), kf₁) ∧
    List.Forall₂ (Arr.Close ε) xs xs₁ ∧ List.Forall₂ (Arr.Close ε) Ps Ps₁ ∧
    List.Forall₂ (Arr.Close ε) gs kf₁.kalmanGains

/-- The same for `smooth`. -/
def SmoothWithin (ε : ℝ) (B : Backend Fl) (kf : KalmanFilter Fl) (Z : NDArray Fl) (U : Option (NDArray Fl))
    (xs Ps gs : List (Arr Fl)) : Prop :=
  ∃ xs₁ Ps₁ kf₁, (@KalmanFilter.smooth Fl B Z U).run kf = (.ok (xs₁, Ps₁), kf₁) ∧
    List.Forall₂ (Arr.Close ε) xs xs₁ ∧ List.Forall₂ (Arr.Close ε) Ps Ps₁ ∧
    List.Forall₂ (Arr.Close ε) gs kf₁.kalmanGains

/-- **C86** (`filter`).  If the exact run returns, then for every `ε` there is an accuracy `η` such that every
arithmetic accurate to `η`, on inputs within `η` of the given ones, also returns, with every entry of the states,
the covariances and the recorded gains within `ε` of the exact one, and NaN exactly where the exact run has NaN. -/
theorem C86_filter_consistent (nanInt : ℝ) (kf : KalmanFilter Fl) (Z : NDArray Fl) (U : Option (NDArray Fl))
    {xs Ps : List (Arr Fl)} {kf' : KalmanFilter Fl}
    (h : (@KalmanFilter.filter Fl (exactB nanInt) Z U).run kf = (.ok (xs, Ps), kf')) {ε : ℝ} (hε : 0 < ε) :
    ∃ η > 0, ∀ B kf₁ Z₁ U₁, Accurate nanInt η B → kf.Close η kf₁ → Z.Close η Z₁ → CloseOpt η U U₁ →
      FilterWithin ε B kf₁ Z₁ U₁ xs Ps kf'.kalmanGains := by
  by_contra hc
  have hn := fun k => eta_of_seq hc k
  push Not at hn
  choose B kf₁ Z₁ U₁ h1 h2 h3 h4 h5 using hn
  have hB := Accurate.consistent seq_pos seq_tendsto h1
  obtain ⟨f, S', hf, hS', he⟩ := filter_T hB (NDArray.Close.T seq_pos seq_tendsto h3) (CloseOpt.T seq_pos seq_tendsto h4)
    kf₁ kf (KalmanFilter.Close.T seq_pos seq_tendsto h2) _ _ h
  obtain ⟨k, h6, h7, h8, h9⟩ := (he.and ((hf.1.close hε).and ((hf.2.close hε).and (hS'.kalmanGains.close hε)))).exists
  exact h5 k ⟨_, _, _, h6, h7, h8, h9⟩

/-- **C86** (`smooth`). -/
theorem C86_smooth_consistent (nanInt : ℝ) (kf : KalmanFilter Fl) (Z : NDArray Fl) (U : Option (NDArray Fl))
    {xs Ps : List (Arr Fl)} {kf' : KalmanFilter Fl}
    (h : (@KalmanFilter.smooth Fl (exactB nanInt) Z U).run kf = (.ok (xs, Ps), kf')) {ε : ℝ} (hε : 0 < ε) :
    ∃ η > 0, ∀ B kf₁ Z₁ U₁, Accurate nanInt η B → kf.Close η kf₁ → Z.Close η Z₁ → CloseOpt η U U₁ →
      SmoothWithin ε B kf₁ Z₁ U₁ xs Ps kf'.kalmanGains := by
  by_contra hc
  have hn := fun k => eta_of_seq hc k
  push Not at hn
  choose B kf₁ Z₁ U₁ h1 h2 h3 h4 h5 using hn
  have hB := Accurate.consistent seq_pos seq_tendsto h1
  obtain ⟨f, S', hf, hS', he⟩ := smooth_T hB (NDArray.Close.T seq_pos seq_tendsto h3) (CloseOpt.T seq_pos seq_tendsto h4)
    kf₁ kf (KalmanFilter.Close.T seq_pos seq_tendsto h2) _ _ h
  obtain ⟨k, h6, h7, h8, h9⟩ := (he.and ((hf.1.close hε).and ((hf.2.close hε).and (hS'.kalmanGains.close hε)))).exists
  exact h5 k ⟨_, _, _, h6, h7, h8, h9⟩

theorem effU_strict [P : Platform] (U : Option (NDArray Fl)) (Z : NDArray Fl) :
    @effU Fl (@instBackendFlOfPlatform (KK.strict P.nanInt)) U Z = effU U Z := by
  cases U with
  | some U => rfl
  | none =>
    cases Z with
    | d0 d x => cases d <;> rfl
    | stack rows =>
      show NDArray.stack _ = NDArray.stack _
      refine congrArg NDArray.stack (List.map_congr_left fun a _ => ?_)
      cases a with
      | scalar d x => cases d <;> rfl
      | vec d x => cases d <;> rfl
      | mat d x => cases d <;> rfl

theorem Represents.strict [P : Platform] {n m : ℕ} {kf : KalmanFilter Fl} {Z : NDArray Fl} {U : Option (NDArray Fl)}
    {b : Belief n} {ss : List (LinStep n m)} (h : Represents kf Z U b ss) :
    @Represents n m (KK.strict P.nanInt) kf Z U b ss := by
  have hU : (@effU Fl (@instBackendFlOfPlatform (KK.strict P.nanInt)) U Z).Iterable := by
    rw [effU_strict]; exact h.iter.U
  refine @Represents.mk n m (KK.strict P.nanInt) kf Z U b ss
    (@KalmanFilter.AllIterable.mk Fl (@instBackendFlOfPlatform (KK.strict P.nanInt)) kf Z U
      h.iter.A h.iter.H h.iter.B hU h.iter.Z h.iter.Q h.iter.R) ?_ h.size h.ident h.x h.P ?_ h.col
  · have := h.len
    simp only [KalmanFilter.steps] at this ⊢
    rw [effU_strict]; exact this
  · intro k s Ak Hk Bk uk zk Qk Rk h1 h2 h3 h4 h5 h6 h7 h8
    rw [effU_strict] at h5
    obtain ⟨a1, a2, a3, a4, a5, a6⟩ := h.rows k s Ak Hk Bk uk zk Qk Rk h1 h2 h3 h4 h5 h6 h7 h8
    have hbl : ∀ a : Arr Fl, a.Blank → @Arr.Blank Fl (@instBackendFlOfPlatform (KK.strict P.nanInt)) a := by
      intro a ha
      cases a <;> exact ha
    have a3' : @CtrlIs (KK.strict P.nanInt) n s.c Bk uk := by
      rcases a3 with ⟨h9, h10⟩ | h9
      · exact .inl ⟨h9.imp (hbl _) (hbl _), h10⟩
      · exact .inr h9
    exact @StepIs.mk n m (KK.strict P.nanInt) s Ak Hk Bk uk zk Qk Rk a1 a2 a3' a4 a5 a6

/-- **C86**, against the textbook recursion: the rows are within `ε` of the textbook means and covariances. -/
theorem C86_filter_textbook [P : Platform] {n m : ℕ} (kf : KalmanFilter Fl) (Z : NDArray Fl) (U : Option (NDArray Fl))
    (b : Belief n) (ss : List (LinStep n m)) (h : Represents kf Z U b ss) (hs : Solvable b ss) {ε : ℝ} (hε : 0 < ε) :
    ∃ η > 0, ∀ B kf₁ Z₁ U₁, Accurate P.nanInt η B → kf.Close η kf₁ → Z.Close η Z₁ → CloseOpt η U U₁ →
      FilterWithin ε B kf₁ Z₁ U₁
        ((filtered b ss).map stateRow ++ List.replicate (Z.rows.length - ss.length) (Arr.zerosVec n))
        ((filtered b ss).map covRow ++ List.replicate (Z.rows.length - ss.length) (Arr.zerosMat n))
        (kf.kalmanGains ++ (gainsOf b ss).map gainRow) := by
  have h1 := @Represents.returns _ _ (KK.strict P.nanInt) _ _ _ _ _ h.strict hs
  simp only [FilterReturns, filtered_length] at h1
  exact C86_filter_consistent P.nanInt kf Z U h1 hε

/-- **C86**, against the Rauch-Tung-Striebel recursion. -/
theorem C86_smooth_rts [P : Platform] {n m : ℕ} (kf : KalmanFilter Fl) (Z : NDArray Fl) (U : Option (NDArray Fl))
    (b : Belief n) (ss : List (LinStep n m)) (h : Represents kf Z U b ss) (hfull : ss.length = Z.rows.length)
    (hne : ss ≠ []) (hs : Solvable b ss) (hsm : SmoothSolvable b ss) {ε : ℝ} (hε : 0 < ε) :
    ∃ η > 0, ∀ B kf₁ Z₁ U₁, Accurate P.nanInt η B → kf.Close η kf₁ → Z.Close η Z₁ → CloseOpt η U U₁ →
      SmoothWithin ε B kf₁ Z₁ U₁ ((smoothed b ss).map stateRow) ((smoothed b ss).map covRow)
        (kf.kalmanGains ++ (gainsOf b ss).map gainRow) := by
  have h1 := @Represents.smoothReturns _ _ (KK.strict P.nanInt) _ _ _ _ _ h.strict hfull hne hs hsm
  exact C86_smooth_consistent P.nanInt kf Z U h1 hε

/-- Exact arithmetic is accurate. -/
theorem exactB_accurate (nanInt : ℝ) {η : ℝ} (hη : 0 < η) : Accurate nanInt η (exactB nanInt) where
  zero := rfl
  one := rfl
  nan := rfl
  nanInt := rfl
  isnan _ := rfl
  add_nan x y hxy := by
    rcases hxy with rfl | rfl
    · exact Fl.nan_add y
    · exact Fl.add_nan x
  add x y _ _ := ⟨x + y, rfl, by simpa using hη.le⟩
  sub_nan x y hxy := by
    rcases hxy with rfl | rfl
    · exact Fl.nan_sub y
    · exact Fl.sub_nan x
  sub x y _ _ := ⟨x - y, rfl, by simpa using hη.le⟩
  gemm_nan S T i j k hk := by
    refine Fl.sum_nan _ _ (Finset.mem_univ k) ?_
    rcases hk with hk | hk <;> simp [hk]
  gemm := by
    intro m k n S T i j x y _ hxy
    refine ⟨∑ l, x l * y l, ?_, by simpa using hη.le⟩
    show ∑ l, S i l * T l j = _
    rw [← @Fl.sum_fin (strict nanInt)]
    exact Finset.sum_congr rfl fun l _ => by rw [(hxy l).1, (hxy l).2.1]; rfl
  solve := by
    intro n k S T _ _ _ _ hdet
    have hd : S.det ≠ 0 := fun h0 => by rw [h0, abs_zero] at hdet; linarith
    have e1 : (finM S).map Fl.toReal = S := rfl
    have e2 : (finM T).map Fl.toReal = T := rfl
    refine ⟨S⁻¹ * T, ?_, fun i j => by simpa using hη.le⟩
    show @exactSolve (strict nanInt) _ _ (finM S) (finM T) = _
    simp only [exactSolve, e1, e2]
    rw [if_pos ⟨fun _ _ => rfl, fun _ _ => rfl⟩, if_neg hd]
    rfl

/-- **C86**, exact arithmetic: the results depend continuously on the inputs; in particular inputs near ones for which
the call returns cannot raise. -/
theorem C86_filter_continuous (nanInt : ℝ) (kf : KalmanFilter Fl) (Z : NDArray Fl) (U : Option (NDArray Fl))
    {xs Ps : List (Arr Fl)} {kf' : KalmanFilter Fl}
    (h : (@KalmanFilter.filter Fl (exactB nanInt) Z U).run kf = (.ok (xs, Ps), kf')) {ε : ℝ} (hε : 0 < ε) :
    ∃ δ > 0, ∀ kf₁ Z₁ U₁, kf.Close δ kf₁ → Z.Close δ Z₁ → CloseOpt δ U U₁ →
      FilterWithin ε (exactB nanInt) kf₁ Z₁ U₁ xs Ps kf'.kalmanGains := by
  obtain ⟨η, hη, h1⟩ := C86_filter_consistent nanInt kf Z U h hε
  exact ⟨η, hη, fun kf₁ Z₁ U₁ => h1 _ kf₁ Z₁ U₁ (exactB_accurate nanInt hη)⟩

/-- **C86**, exact arithmetic, `smooth`. -/
theorem C86_smooth_continuous (nanInt : ℝ) (kf : KalmanFilter Fl) (Z : NDArray Fl) (U : Option (NDArray Fl))
    {xs Ps : List (Arr Fl)} {kf' : KalmanFilter Fl}
    (h : (@KalmanFilter.smooth Fl (exactB nanInt) Z U).run kf = (.ok (xs, Ps), kf')) {ε : ℝ} (hε : 0 < ε) :
    ∃ δ > 0, ∀ kf₁ Z₁ U₁, kf.Close δ kf₁ → Z.Close δ Z₁ → CloseOpt δ U U₁ →
      SmoothWithin ε (exactB nanInt) kf₁ Z₁ U₁ xs Ps kf'.kalmanGains := by
  obtain ⟨η, hη, h1⟩ := C86_smooth_consistent nanInt kf Z U h hε
  exact ⟨η, hη, fun kf₁ Z₁ U₁ => h1 _ kf₁ Z₁ U₁ (exactB_accurate nanInt hη)⟩

/-! ### the extended filter -/

/-- The results of a call of the extended filter under the arithmetic `B`. -/
def ExtFilterWithin (ε : ℝ) (B : Backend Fl) (kf : ExtendedKalmanFilter Fl) (Z : NDArray Fl) (U : Option (NDArray Fl))
    (xs Ps gs : List (Arr Fl)) : Prop :=
  ∃ xs₁ Ps₁ kf₁, (@ExtendedKalmanFilter.filter Fl B Z U).run kf = (.ok (xs₁, Ps₁), kf₁) ∧
    List.Forall₂ (Arr.Close ε) xs xs₁ ∧ List.Forall₂ (Arr.Close ε) Ps Ps₁ ∧
    List.Forall₂ (Arr.Close ε) gs kf₁.kalmanGains

/-- The same for `smooth`. -/
def ExtSmoothWithin (ε : ℝ) (B : Backend Fl) (kf : ExtendedKalmanFilter Fl) (Z : NDArray Fl) (U : Option (NDArray Fl))
    (xs Ps gs : List (Arr Fl)) : Prop :=
  ∃ xs₁ Ps₁ kf₁, (@ExtendedKalmanFilter.smooth Fl B Z U).run kf = (.ok (xs₁, Ps₁), kf₁) ∧
    List.Forall₂ (Arr.Close ε) xs xs₁ ∧ List.Forall₂ (Arr.Close ε) Ps Ps₁ ∧
    List.Forall₂ (Arr.Close ε) gs kf₁.kalmanGains

/-- **C87** (`ExtendedKalmanFilter.filter`).  If the callbacks are continuous and the exact run returns, then an
arithmetic accurate to `η`, callbacks that compute the given ones to accuracy `η` and inputs within `η` give results
within `ε`. -/
theorem C87_ext_filter_consistent (nanInt : ℝ) (kf : ExtendedKalmanFilter Fl) (hk : kf.ContinuousCallbacks)
    (Z : NDArray Fl) (U : Option (NDArray Fl)) {xs Ps : List (Arr Fl)} {kf' : ExtendedKalmanFilter Fl}
    (h : (@ExtendedKalmanFilter.filter Fl (exactB nanInt) Z U).run kf = (.ok (xs, Ps), kf')) {ε : ℝ} (hε : 0 < ε) :
    ∃ η > 0, ∀ B kf₁ Z₁ U₁, Accurate nanInt η B → kf.Close η kf₁ → Z.Close η Z₁ → CloseOpt η U U₁ →
      ExtFilterWithin ε B kf₁ Z₁ U₁ xs Ps kf'.kalmanGains := by
  by_contra hc
  have hn := fun k => eta_of_seq hc k
  push Not at hn
  choose B kf₁ Z₁ U₁ h1 h2 h3 h4 h5 using hn
  have hB := Accurate.consistent seq_pos seq_tendsto h1
  obtain ⟨f, S', hf, hS', he⟩ := ext_filter_T hB (NDArray.Close.T seq_pos seq_tendsto h3)
    (CloseOpt.T seq_pos seq_tendsto h4) kf₁ kf (ExtendedKalmanFilter.Close.T seq_pos seq_tendsto hk h2) _ _ h
  obtain ⟨k, h6, h7, h8, h9⟩ := (he.and ((hf.1.close hε).and ((hf.2.close hε).and (hS'.kalmanGains.close hε)))).exists
  exact h5 k ⟨_, _, _, h6, h7, h8, h9⟩

/-- **C87** (`ExtendedKalmanFilter.smooth`). -/
theorem C87_ext_smooth_consistent (nanInt : ℝ) (kf : ExtendedKalmanFilter Fl) (hk : kf.ContinuousCallbacks)
    (Z : NDArray Fl) (U : Option (NDArray Fl)) {xs Ps : List (Arr Fl)} {kf' : ExtendedKalmanFilter Fl}
    (h : (@ExtendedKalmanFilter.smooth Fl (exactB nanInt) Z U).run kf = (.ok (xs, Ps), kf')) {ε : ℝ} (hε : 0 < ε) :
    ∃ η > 0, ∀ B kf₁ Z₁ U₁, Accurate nanInt η B → kf.Close η kf₁ → Z.Close η Z₁ → CloseOpt η U U₁ →
      ExtSmoothWithin ε B kf₁ Z₁ U₁ xs Ps kf'.kalmanGains := by
  by_contra hc
  have hn := fun k => eta_of_seq hc k
  push Not at hn
  choose B kf₁ Z₁ U₁ h1 h2 h3 h4 h5 using hn
  have hB := Accurate.consistent seq_pos seq_tendsto h1
  obtain ⟨f, S', hf, hS', he⟩ := ext_smooth_T hB (NDArray.Close.T seq_pos seq_tendsto h3)
    (CloseOpt.T seq_pos seq_tendsto h4) kf₁ kf (ExtendedKalmanFilter.Close.T seq_pos seq_tendsto hk h2) _ _ h
  obtain ⟨k, h6, h7, h8, h9⟩ := (he.and ((hf.1.close hε).and ((hf.2.close hε).and (hS'.kalmanGains.close hε)))).exists
  exact h5 k ⟨_, _, _, h6, h7, h8, h9⟩

/-! ### the pendulum examples -/

theorem continuous_of_T {g : Arr Fl → Except PyErr (Arr Fl)}
    (h : ∀ (X : ℕ → Arr Fl) x, ArrT atTop X x → ET atTop (ArrT atTop) (fun i => g (X i)) (g x)) :
    ContinuousAtReturns g := by
  intro x y hy ε hε
  by_contra hc
  have hn := fun k => eta_of_seq hc k
  push Not at hn
  choose X h1 h2 using hn
  obtain ⟨f, hf, he⟩ := h X x (Arr.Close.T seq_pos seq_tendsto h1) y hy
  obtain ⟨k, h3, h4⟩ := (he.and (hf.close hε)).exists
  exact h2 k _ h3 h4

theorem continuous₂_of_T {g : Arr Fl → Option (Arr Fl) → Except PyErr (Arr Fl)}
    (h : ∀ (X U : ℕ → Arr Fl) x u, ArrT atTop X x → ArrT atTop U u →
      ET atTop (ArrT atTop) (fun i => g (X i) (some (U i))) (g x (some u))) : ContinuousAtReturns₂ g := by
  intro x u y hy ε hε
  by_contra hc
  have hn := fun k => eta_of_seq hc k
  push Not at hn
  choose X U h1 h1' h2 using hn
  obtain ⟨f, hf, he⟩ := h X U x u (Arr.Close.T seq_pos seq_tendsto h1) (Arr.Close.T seq_pos seq_tendsto h1') y hy
  obtain ⟨k, h3, h4⟩ := (he.and (hf.close hε)).exists
  exact h2 k _ h3 h4

section
variable {ι : Type} {l : Filter ι}

theorem FlT.exactOp {op : Fl → Fl → Fl} {φ : ℝ → ℝ → ℝ} (h1 : ∀ x y, op (.fin x) (.fin y) = .fin (φ x y))
    (h2 : ∀ y, op .nan y = .nan) (h3 : ∀ x, op x .nan = .nan)
    (hφ : ∀ (f g : ι → ℝ) a b, Tendsto f l (𝓝 a) → Tendsto g l (𝓝 b) → Tendsto (fun i => φ (f i) (g i)) l (𝓝 (φ a b)))
    {f g : ι → Fl} {a b : Fl} (hf : FlT l f a) (hg : FlT l g b) : FlT l (fun i => op (f i) (g i)) (op a b) := by
  cases a with
  | nan => rw [h2]; exact FlT.nan.2 ((FlT.nan.1 hf).mono fun i h => by rw [h, h2])
  | fin x =>
    cases b with
    | nan => rw [h3]; exact FlT.nan.2 ((FlT.nan.1 hg).mono fun i h => by rw [h, h3])
    | fin y =>
      rw [h1]
      refine (FlT.of_fin (hφ _ _ _ _ hf.fin.2 hg.fin.2)).congr ?_
      filter_upwards [hf.fin.1, hg.fin.1] with i h4 h5
      conv_lhs => rw [h4, h5, h1]

theorem FlT.exactFun {op : Fl → Fl} {φ : ℝ → ℝ} (h1 : ∀ x, op (.fin x) = .fin (φ x)) (h2 : op .nan = .nan)
    (hφ : Continuous φ) {f : ι → Fl} {a : Fl} (hf : FlT l f a) : FlT l (fun i => op (f i)) (op a) := by
  cases a with
  | nan => rw [h2]; exact FlT.nan.2 ((FlT.nan.1 hf).mono fun i h => by rw [h, h2])
  | fin x =>
    rw [h1]
    refine (FlT.of_fin ((hφ.tendsto x).comp hf.fin.2)).congr ?_
    filter_upwards [hf.fin.1] with i h4
    conv_lhs => rw [h4, h1]
    rfl

theorem FlT.add {f g : ι → Fl} {a b : Fl} (hf : FlT l f a) (hg : FlT l g b) : FlT l (fun i => f i + g i) (a + b) :=
  FlT.exactOp Fl.fin_add Fl.nan_add Fl.add_nan (fun _ _ _ _ h1 h2 => h1.add h2) hf hg

theorem FlT.sub {f g : ι → Fl} {a b : Fl} (hf : FlT l f a) (hg : FlT l g b) : FlT l (fun i => f i - g i) (a - b) :=
  FlT.exactOp Fl.fin_sub Fl.nan_sub Fl.sub_nan (fun _ _ _ _ h1 h2 => h1.sub h2) hf hg

theorem FlT.mul {f g : ι → Fl} {a b : Fl} (hf : FlT l f a) (hg : FlT l g b) : FlT l (fun i => f i * g i) (a * b) :=
  FlT.exactOp Fl.fin_mul Fl.nan_mul Fl.mul_nan (fun _ _ _ _ h1 h2 => h1.mul h2) hf hg

theorem FlT.sin {f : ι → Fl} {a : Fl} (hf : FlT l f a) :
    FlT l (fun i => Examples.npSin (f i)) (Examples.npSin a) :=
  FlT.exactFun (fun _ => rfl) rfl Real.continuous_sin hf

theorem FlT.cos {f : ι → Fl} {a : Fl} (hf : FlT l f a) :
    FlT l (fun i => Examples.npCos (f i)) (Examples.npCos a) :=
  FlT.exactFun (fun _ => rfl) rfl Real.continuous_cos hf

theorem item1_T {X : ι → Arr Fl} {x : Arr Fl} (h : ArrT l X x) (k : ℕ) :
    ET l (FlT l) (fun i => Examples.item1 (X i) k) (Examples.item1 x k) := by
  cases x with
  | scalar d x => exact ET.error
  | mat d x => exact ET.error
  | @vec d n x =>
    obtain ⟨g, hg, he⟩ := h
    refine ET.congr (Y := fun i => Examples.item1 (.vec d (g i)) k) ?_ (he.mono fun i h => by rw [h])
    by_cases hk : k < n
    · simp only [Examples.item1, dif_pos hk]; exact ET.ok (hg _)
    · simp only [Examples.item1, dif_neg hk]; exact ET.error

/-- The callbacks of the pendulum examples are continuous. -/
theorem pendulum_continuous (dt g : ℝ) : ContinuousAtReturns₂ (Examples.pendF dt g) ∧
    ContinuousAtReturns₂ (Examples.pendJA dt g) ∧ ContinuousAtReturns Examples.pendH ∧
    ContinuousAtReturns Examples.pendJH := by
  refine ⟨continuous₂_of_T fun X U x u hX _ => ?_, continuous₂_of_T fun X U x u hX _ => ?_,
    continuous_of_T fun X x hX => ?_, continuous_of_T fun X x hX => ?_⟩
  · refine ET.bind (item1_T hX 0) fun f a h0 => ET.bind (item1_T hX 1) fun f' a' h1 => ET.ok ⟨_, fun k => ?_, .of_forall fun _ => rfl⟩
    fin_cases k
    · exact h0.add ((FlT.const _).mul h1)
    · exact h1.sub (((FlT.const _).mul (FlT.const _)).mul h0.sin)
  · refine ET.bind (item1_T hX 0) fun f a h0 => ET.ok ⟨_, fun k j => ?_, .of_forall fun _ => rfl⟩
    fin_cases k <;> fin_cases j
    · exact FlT.const _
    · exact FlT.const _
    · exact ((FlT.const _).mul h0.cos).mul (FlT.const _)
    · exact FlT.const _
  · exact ET.bind (item1_T hX 0) fun f a h0 => ET.ok ⟨_, h0.sin, .of_forall fun _ => rfl⟩
  · refine ET.bind (item1_T hX 0) fun f a h0 => ET.ok ⟨_, fun k j => ?_, .of_forall fun _ => rfl⟩
    fin_cases k; fin_cases j
    · exact h0.cos
    · exact FlT.const _

end

/-- **C87** (pendulum): both pendulum examples, with any observations, computed in an accurate arithmetic with accurate
sine and cosine from accurate inputs, return filtered and smoothed estimates within `ε` of the exact extended filter
and smoother. -/
theorem C87_pendulum_consistent (nanInt dt g c p rk a0 a1 : ℝ) (d : DType) (zs : List ℝ) (hdt : 0 < dt) (hc : 0 < c)
    (hp : 0 < p) (hr : 0 < rk) (hne : zs ≠ []) {ε : ℝ} (hε : 0 < ε) :
    ∃ kf, @Examples.pendulum (strict nanInt) dt g c p rk a0 a1 zs.length = .ok kf ∧
    (∃ η > 0, ∀ B kf₁ Z₁ U₁, Accurate nanInt η B → kf.Close η kf₁ → (Examples.data d zs).Close η Z₁ →
      CloseOpt η none U₁ →
      ExtFilterWithin ε B kf₁ Z₁ U₁
        ((extFiltered (Examples.pendBelief p a0 a1) (zs.map (Examples.pendStep dt g c rk))).map stateRow)
        ((extFiltered (Examples.pendBelief p a0 a1) (zs.map (Examples.pendStep dt g c rk))).map covRow)
        ((extGainsOf (Examples.pendBelief p a0 a1) (zs.map (Examples.pendStep dt g c rk))).map gainRow)) ∧
    ∃ η > 0, ∀ B kf₁ Z₁ U₁, Accurate nanInt η B → kf.Close η kf₁ → (Examples.data d zs).Close η Z₁ →
      CloseOpt η none U₁ →
      ExtSmoothWithin ε B kf₁ Z₁ U₁
        ((extSmoothed (Examples.pendBelief p a0 a1) (zs.map (Examples.pendStep dt g c rk))).map stateRow)
        ((extSmoothed (Examples.pendBelief p a0 a1) (zs.map (Examples.pendStep dt g c rk))).map covRow)
        ((extGainsOf (Examples.pendBelief p a0 a1) (zs.map (Examples.pendStep dt g c rk))).map gainRow) := by
  letI : Platform := strict nanInt
  obtain ⟨kf, hk, hrep⟩ := Examples.pendulum_represents dt g c p rk a0 a1 d zs
  refine ⟨kf, hk, ?_⟩
  have hl : (Examples.data d zs).rows.length = zs.length := by simp [Examples.data, NDArray.rows]
  have hP := Examples.pendBelief_posDef hp a0 a1
  have hQ : ∀ s ∈ zs.map (Examples.pendStep dt g c rk), s.Q.PosDef := by
    intro s hs; obtain ⟨z, -, rfl⟩ := List.mem_map.1 hs; exact Examples.pendQ_posDef hdt hc g rk z
  have hR : ∀ s ∈ zs.map (Examples.pendStep dt g c rk), s.R.PosDef := by
    intro s hs; obtain ⟨z, -, rfl⟩ := List.mem_map.1 hs; exact posDef_one hr
  have hs := extSolvable_psd hP.posSemidef (fun s hs => (hQ s hs).posSemidef) hR
  have hsm : ExtSmoothSolvable (Examples.pendBelief p a0 a1) (zs.map (Examples.pendStep dt g c rk)) := by
    rw [extSmoothSolvable_iff]
    exact smoothSolvable_pd _ _ hP fun s hs =>
      ⟨(linRun_forall _ _ (fun Q _ => Q.PosDef) hQ s hs).posSemidef, linRun_forall _ _ (fun _ R => R.PosDef) hR s hs,
        .inr (linRun_forall _ _ (fun Q _ => Q.PosDef) hQ s hs)⟩
  have hc : kf.ContinuousCallbacks := by
    obtain ⟨c1, c2, c3, c4⟩ := pendulum_continuous dt g
    cases hk
    exact ⟨c1, c2, c3, c4⟩
  have hg : kf.kalmanGains = [] := by cases hk; rfl
  have hf := C51_filter_textbook kf _ none _ _ hrep hs
  have hsf := (C51_smooth_textbook kf _ none _ _ hrep (by simp [hl]) (by simpa using hne)).1 hs hsm
  simp only [hl, List.length_map, Nat.sub_self, List.replicate_zero, List.append_nil] at hf
  have e1 := C87_ext_filter_consistent nanInt kf hc _ _ hf hε
  have e2 := C87_ext_smooth_consistent nanInt kf hc _ _ hsf hε
  simp only [hg, List.nil_append] at e1 e2
  exact ⟨e1, e2⟩

/-! ### the hypotheses are met -/

theorem Fl.close_refl {ε : ℝ} (hε : 0 ≤ ε) (x : Fl) : x.Close ε x := ⟨rfl, by simpa using hε⟩

theorem Arr.close_refl {ε : ℝ} (hε : 0 ≤ ε) (x : Arr Fl) : x.Close ε x := by
  cases x with
  | scalar d x => exact ⟨x, rfl, Fl.close_refl hε x⟩
  | vec d x => exact ⟨x, rfl, fun _ => Fl.close_refl hε _⟩
  | mat d x => exact ⟨x, rfl, fun _ _ => Fl.close_refl hε _⟩

theorem closeList_refl {ε : ℝ} (hε : 0 ≤ ε) (L : List (Arr Fl)) : List.Forall₂ (Arr.Close ε) L L :=
  List.forall₂_same.2 fun x _ => Arr.close_refl hε x

theorem NDArray.close_refl {ε : ℝ} (hε : 0 ≤ ε) (x : NDArray Fl) : x.Close ε x := by
  cases x with
  | d0 d x => exact ⟨x, rfl, Fl.close_refl hε x⟩
  | stack rows => exact ⟨rows, rfl, closeList_refl hε rows⟩

theorem KalmanFilter.close_refl {ε : ℝ} (hε : 0 ≤ ε) (x : KalmanFilter Fl) : x.Close ε x :=
  ⟨NDArray.close_refl hε _, Arr.close_refl hε _, NDArray.close_refl hε _, Arr.close_refl hε _, NDArray.close_refl hε _,
    NDArray.close_refl hε _, NDArray.close_refl hε _, rfl, Arr.close_refl hε _, closeList_refl hε _⟩

/-- C86 is not vacuous: the constant-velocity model filtered in fixed-point arithmetic with a small enough step, for
three data, is within a thousandth of the textbook filter. -/
example (z₁ z₂ z₃ : ℝ) : ∃ u > 0, FilterWithin 0.001 (Ex.fixedPoint 0 u)
    (@Ex.encode 2 1 (strict 0) Ex.cvBelief [Ex.cvStep 0 z₁, Ex.cvStep 1 z₂, Ex.cvStep 0 z₃])
    (Ex.encZ [Ex.cvStep 0 z₁, Ex.cvStep 1 z₂, Ex.cvStep 0 z₃])
    (some (Ex.encU [Ex.cvStep 0 z₁, Ex.cvStep 1 z₂, Ex.cvStep 0 z₃]))
    ((filtered Ex.cvBelief [Ex.cvStep 0 z₁, Ex.cvStep 1 z₂, Ex.cvStep 0 z₃]).map stateRow)
    ((filtered Ex.cvBelief [Ex.cvStep 0 z₁, Ex.cvStep 1 z₂, Ex.cvStep 0 z₃]).map covRow)
    ((gainsOf Ex.cvBelief [Ex.cvStep 0 z₁, Ex.cvStep 1 z₂, Ex.cvStep 0 z₃]).map gainRow) := by
  letI : Platform := strict 0
  have hs : Solvable Ex.cvBelief [Ex.cvStep 0 z₁, Ex.cvStep 1 z₂, Ex.cvStep 0 z₃] := by
    refine solvable_psd Ex.cv_posDef.posSemidef ?_ ?_ <;> intro s hs <;>
      simp only [List.mem_cons, List.not_mem_nil, or_false] at hs <;> rcases hs with rfl | rfl | rfl
    exacts [(Ex.cvStep_Q _ _).posSemidef, (Ex.cvStep_Q _ _).posSemidef, (Ex.cvStep_Q _ _).posSemidef, Ex.cvStep_R _ _, Ex.cvStep_R _ _, Ex.cvStep_R _ _]
  obtain ⟨η, hη, h⟩ := C86_filter_textbook _ _ _ _ _
    (Ex.encode_represents Ex.cvBelief [Ex.cvStep 0 z₁, Ex.cvStep 1 z₂, Ex.cvStep 0 z₃]) hs
    (ε := 0.001) (by norm_num)
  have hu : 0 < min η (η ^ 2 / 2) := by positivity
  refine ⟨min η (η ^ 2 / 2), hu, ?_⟩
  have := h (Ex.fixedPoint 0 (min η (η ^ 2 / 2))) _ _ _
    (Ex.fixedPoint_accurate 0 hη hu (min_le_left _ _) (by linarith [min_le_right η (η ^ 2 / 2)]))
    (KalmanFilter.close_refl hη.le _) (NDArray.close_refl hη.le _) ⟨_, rfl, NDArray.close_refl hη.le _⟩
  simpa [Ex.encZ, NDArray.rows, Ex.encode] using this

end KK
