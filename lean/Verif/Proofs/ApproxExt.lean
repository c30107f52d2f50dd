import Verif.Proofs.ApproxEps

/-!
# The extended filter under a sequence of arithmetics and callbacks that converges to the exact one
-/

set_option linter.unusedSectionVars false

namespace KK

open Matrix Filter Topology

variable {ι : Type} {l : Filter ι}

structure EKFT (l : Filter ι) (S : ι → ExtendedKalmanFilter Fl) (s : ExtendedKalmanFilter Fl) : Prop where
  f : ∀ X U x u, ArrT l X x → ArrT l U u → ET l (ArrT l) (fun i => (S i).f (X i) (some (U i))) (s.f x (some u))
  jacobianA : ∀ X U x u, ArrT l X x → ArrT l U u →
    ET l (ArrT l) (fun i => (S i).jacobianA (X i) (some (U i))) (s.jacobianA x (some u))
  h : ∀ X x, ArrT l X x → ET l (ArrT l) (fun i => (S i).h (X i)) (s.h x)
  jacobianH : ∀ X x, ArrT l X x → ET l (ArrT l) (fun i => (S i).jacobianH (X i)) (s.jacobianH x)
  xk : ArrT l (fun i => (S i).xk) s.xk
  Pk : ArrT l (fun i => (S i).Pk) s.Pk
  Q : NDT l (fun i => (S i).Q) s.Q
  R : NDT l (fun i => (S i).R) s.R
  stateSize : ∀ᶠ i in l, (S i).stateSize = s.stateSize
  I : ArrT l (fun i => (S i).I) s.I
  kalmanGains : ListT l (ArrT l) (fun i => (S i).kalmanGains) s.kalmanGains

section run
variable {nanInt : ℝ} {B : ι → Backend Fl} (hB : Consistent l nanInt B)
include hB

theorem ext_predict_T {S : ι → ExtendedKalmanFilter Fl} {s : ExtendedKalmanFilter Fl} (hS : EKFT l S s)
    {x uk P Qk : ι → Arr Fl} {x' uk' P' Qk' : Arr Fl} (hx : ArrT l x x') (hu : ArrT l uk uk') (hP : ArrT l P P')
    (hQ : ArrT l Qk Qk') :
    ET l (PairT (ArrT l) (ArrT l))
      (fun i => @ExtendedKalmanFilter.predict Fl (B i) (S i) (x i) (some (uk i)) (P i) (Qk i))
      (@ExtendedKalmanFilter.predict Fl (exactB nanInt) s x' (some uk') P' Qk') :=
  ET.bind (hS.jacobianA _ _ _ _ hx hu) fun _ _ hA => ET.bind (hS.f _ _ _ _ hx hu) fun _ _ h3 =>
    ET.bind (matmul_T hB hP (T_T hA)) fun _ _ h4 =>
    ET.bind (matmul_T hB hA h4) fun _ _ h5 => ET.bind (add_T hB h5 hQ) fun _ _ h6 => ET.ok ⟨h3, h6⟩

theorem ext_gain_T {Hk P Rk : ι → Arr Fl} {Hk' P' Rk' : Arr Fl} (hH : ArrT l Hk Hk') (hP : ArrT l P P')
    (hR : ArrT l Rk Rk') :
    ET l (ArrT l) (fun i => @ExtendedKalmanFilter.gain Fl (B i) (Hk i) (P i) (Rk i))
      (@ExtendedKalmanFilter.gain Fl (exactB nanInt) Hk' P' Rk') :=
  ET.bind (matmul_T hB hP (T_T hH)) fun _ _ h1 => ET.bind (matmul_T hB hH h1) fun _ _ h2 =>
    ET.bind (add_T hB h2 hR) fun _ _ h3 => ET.bind (matmul_T hB hH (T_T hP)) fun _ _ h4 =>
    ET.bind (solve_T hB (T_T h3) h4) fun _ _ h5 => ET.ok (T_T h5)

theorem ext_correct_T {S : ι → ExtendedKalmanFilter Fl} {s : ExtendedKalmanFilter Fl} (hS : EKFT l S s)
    {K Hk x P z : ι → Arr Fl} {K' Hk' x' P' z' : Arr Fl} (hK : ArrT l K K')
    (hH : ArrT l Hk Hk') (hx : ArrT l x x') (hP : ArrT l P P') (hz : ArrT l z z') :
    ET l (PairT (ArrT l) (ArrT l))
      (fun i => @ExtendedKalmanFilter.correct Fl (B i) (S i) (K i) (Hk i) (x i) (P i) (z i))
      (@ExtendedKalmanFilter.correct Fl (exactB nanInt) s K' Hk' x' P' z') :=
  ET.bind (hS.h _ _ hx) fun _ _ h1 => ET.bind (sub_T hB hz h1) fun _ _ h2 =>
    ET.bind (matmul_T hB hK (atleast1d_T h2)) fun _ _ h3 => ET.bind (add_T hB hx h3) fun _ _ h4 =>
    ET.bind (matmul_T hB hK hH) fun _ _ h5 => ET.bind (sub_T hB hS.I h5) fun _ _ h6 =>
    ET.bind (matmul_T hB h6 hP) fun _ _ h7 => ET.ok ⟨h4, h7⟩

theorem ext_update_T {x P z Rk : ι → Arr Fl} {x' P' z' Rk' : Arr Fl}
    (hx : ArrT l x x') (hP : ArrT l P P') (hz : ArrT l z z') (hR : ArrT l Rk Rk') :
    PT l (EKFT l) (PairT (ArrT l) (ArrT l)) (fun i => @ExtendedKalmanFilter.update Fl (B i) (x i) (P i) (z i) (Rk i))
      (@ExtendedKalmanFilter.update Fl (exactB nanInt) x' P' z' Rk') :=
  PT.bind PT.self fun _ _ hS => PT.bind (PT.lift (hS.jacobianH _ _ hx)) fun _ _ hH =>
  PT.bind (PT.lift (ext_gain_T hB hH hP hR)) fun f a hK =>
    PT.bind (PT.mutate (l := l) (rs := EKFT l)
      (F := fun i (kf : ExtendedKalmanFilter Fl) => { kf with kalmanGains := kf.kalmanGains ++ [f i] })
      (f := fun kf : ExtendedKalmanFilter Fl => { kf with kalmanGains := kf.kalmanGains ++ [a] }) fun S s hS =>
      ⟨hS.f, hS.jacobianA, hS.h, hS.jacobianH, hS.xk, hS.Pk, hS.Q, hS.R, hS.stateSize, hS.I,
        hS.kalmanGains.append (ListT.single hK)⟩) fun _ _ _ =>
    PT.lift (ext_correct_T hB hS hK hH hx hP hz)

/-- One element of the zipped sequences. -/
abbrev ExtRowT (l : Filter ι) : (ι → ExtendedKalmanFilter.Row Fl) → ExtendedKalmanFilter.Row Fl → Prop :=
  PairT (ArrT l) (PairT (ArrT l) (PairT (ArrT l) (ArrT l)))

theorem ext_filterLoop_T (k : ℕ) {rows : ι → List (ExtendedKalmanFilter.Row Fl)} {rows' : List (ExtendedKalmanFilter.Row Fl)}
    (hr : ListT l (ExtRowT l) rows rows') {x P : ι → Arr Fl} {x' P' : Arr Fl} (hx : ArrT l x x') (hP : ArrT l P P')
    {st er : ι → List (Arr Fl)} {st' er' : List (Arr Fl)} (hs : ListT l (ArrT l) st st') (he : ListT l (ArrT l) er er') :
    PT l (EKFT l) (PairT (ListT l (ArrT l)) (ListT l (ArrT l)))
      (fun i => @ExtendedKalmanFilter.filterLoop Fl (B i) k (rows i) (x i) (P i) (st i) (er i))
      (@ExtendedKalmanFilter.filterLoop Fl (exactB nanInt) k rows' x' P' st' er') := by
  obtain ⟨gs, hgs, hrows⟩ := hr
  refine PT.congr (Y := fun i => @ExtendedKalmanFilter.filterLoop Fl (B i) k (gs.map fun g => g i) (x i) (P i) (st i) (er i)) ?_
    (by filter_upwards [hrows] with i h1; rw [h1])
  clear hrows
  induction hgs generalizing k x P x' P' st er st' er' with
  | nil => exact PT.pure ⟨hs, he⟩
  | cons h1 h2 ih =>
    rename_i g row gs rows'
    obtain ⟨uk, zk, Qk, Rk⟩ := row
    obtain ⟨hu, hz, hQ, hR⟩ := h1
    refine PT.bind PT.self fun S s hS => ?_
    refine PT.bind (PT.lift (ext_predict_T hB hS hx hu hP hQ)) fun f a h3 => ?_
    obtain ⟨a1, a2⟩ := a
    refine PT.bind (ext_update_T hB h3.1 h3.2 hz hR) fun f' b h4 => ?_
    obtain ⟨b1, b2⟩ := b
    have hv := assignVec_T s.stateSize h4.1
    have hm := assignMat_T s.stateSize h4.2
    refine PT.bind (PT.lift (hv.congr (by filter_upwards [hS.stateSize] with i h; rw [h]))) fun f3 c h5 => ?_
    refine PT.bind (PT.lift (hm.congr (by filter_upwards [hS.stateSize] with i h; rw [h]))) fun f4 d h6 => ?_
    exact ih (k + 1) h4.1 h4.2 (hs.set k h5) (he.set k h6)

omit hB in
theorem ext_zipRows_T {U Z Q R : ι → NDArray Fl} {U' Z' Q' R' : NDArray Fl} (hU : NDT l U U') (hZ : NDT l Z Z')
    (hQ : NDT l Q Q') (hR : NDT l R R') :
    ET l (ListT l (ExtRowT l)) (fun i => ExtendedKalmanFilter.zipRows (U i) (Z i) (Q i) (R i))
      (ExtendedKalmanFilter.zipRows U' Z' Q' R') :=
  ET.bind (iter_T hU) fun _ _ h4 => ET.bind (iter_T hZ) fun _ _ h5 => ET.bind (iter_T hQ) fun _ _ h6 =>
    ET.bind (iter_T hR) fun _ _ h7 => ET.ok (h4.zip (h5.zip (h6.zip h7)))

theorem ext_filter_T {Z : ι → NDArray Fl} {z : NDArray Fl} {U : ι → Option (NDArray Fl)} {u : Option (NDArray Fl)}
    (hZ : NDT l Z z) (hU : OptT (NDT l) l U u) :
    PT l (EKFT l) (PairT (ListT l (ArrT l)) (ListT l (ArrT l)))
      (fun i => @ExtendedKalmanFilter.filter Fl (B i) (Z i) (U i))
      (@ExtendedKalmanFilter.filter Fl (exactB nanInt) z u) := by
  refine PT.bind PT.self fun S s hS => PT.bind (PT.lift (len_T hZ)) fun f n hn => ?_
  refine PT.bind (PT.lift (ext_zipRows_T (check_T hB hU hZ) hZ hS.Q hS.R)) fun rows rows' hr => ?_
  refine ext_filterLoop_T hB 0 hr hS.xk hS.Pk ?_ ?_
  · refine ListT.congr (ListT.replicate n (zerosVec_T hB s.stateSize)) ?_
    filter_upwards [hn, hS.stateSize] with i h1 h2; rw [h1, h2]
  · refine ListT.congr (ListT.replicate n (zerosMat_T hB s.stateSize)) ?_
    filter_upwards [hn, hS.stateSize] with i h1 h2; rw [h1, h2]

theorem ext_smoothStep_T {S : ι → ExtendedKalmanFilter Fl} {s : ExtendedKalmanFilter Fl} (hS : EKFT l S s)
    {x P Qk uk xn Pn : ι → Arr Fl} {x' P' Qk' uk' xn' Pn' : Arr Fl}
    (hx : ArrT l x x') (hP : ArrT l P P') (hQ : ArrT l Qk Qk')
    (hu : ArrT l uk uk') (hxn : ArrT l xn xn') (hPn : ArrT l Pn Pn') :
    ET l (PairT (ArrT l) (ArrT l))
      (fun i => @ExtendedKalmanFilter.smoothStep Fl (B i) (S i) (x i) (P i) (Qk i) (uk i) (xn i) (Pn i))
      (@ExtendedKalmanFilter.smoothStep Fl (exactB nanInt) s x' P' Qk' uk' xn' Pn') := by
  refine ET.bind (ext_predict_T hB hS hx hu hP hQ) fun f a h1 => ?_
  obtain ⟨a1, a2⟩ := a
  exact ET.bind (hS.jacobianA _ _ _ _ hx hu) fun _ _ hA =>
    ET.bind (matmul_T hB hP (T_T hA)) fun _ _ h2 => ET.bind (solve_T hB (T_T h1.2) (T_T h2)) fun _ _ h3 =>
    ET.bind (sub_T hB hxn h1.1) fun _ _ h4 => ET.bind (matmul_T hB (T_T h3) h4) fun _ _ h5 =>
    ET.bind (add_T hB hx h5) fun _ _ h6 => ET.bind (sub_T hB hPn h1.2) fun _ _ h7 =>
    ET.bind (matmul_T hB h7 (T_T (T_T h3))) fun _ _ h8 => ET.bind (matmul_T hB (T_T h3) h8) fun _ _ h9 =>
    ET.bind (add_T hB hP h9) fun _ _ h10 => ET.ok ⟨h6, h10⟩

theorem ext_smoothLoop_T {S : ι → ExtendedKalmanFilter Fl} {s : ExtendedKalmanFilter Fl} (hS : EKFT l S s)
    {Q U : ι → NDArray Fl} {Q' U' : NDArray Fl} (hQ : NDT l Q Q') (hU : NDT l U U')
    {xe Pe : ι → List (Arr Fl)} {xe' Pe' : List (Arr Fl)} (hxe : ListT l (ArrT l) xe xe') (hPe : ListT l (ArrT l) Pe Pe')
    (ks : List ℕ) {xs Ps : ι → List (Arr Fl)} {xs' Ps' : List (Arr Fl)} (hxs : ListT l (ArrT l) xs xs')
    (hPs : ListT l (ArrT l) Ps Ps') :
    ET l (PairT (ListT l (ArrT l)) (ListT l (ArrT l)))
      (fun i => @ExtendedKalmanFilter.smoothLoop Fl (B i) (S i) (Q i) (U i) (xe i) (Pe i) ks (xs i) (Ps i))
      (@ExtendedKalmanFilter.smoothLoop Fl (exactB nanInt) s Q' U' xe' Pe' ks xs' Ps') := by
  induction ks generalizing xs Ps xs' Ps' with
  | nil => exact ET.ok ⟨hxs, hPs⟩
  | cons k ks ih =>
    refine ET.bind (item_T hQ (k + 1)) fun _ _ h2 => ET.bind (item_T hU (k + 1)) fun _ _ h4 =>
      ET.bind (getRow_T hPe k) fun _ _ h5 => ET.bind (getRow_T hxe k) fun _ _ h6 =>
      ET.bind (getRow_T hxs (k + 1)) fun _ _ h7 => ET.bind (getRow_T hPs (k + 1)) fun _ _ h8 =>
      ET.bind (ext_smoothStep_T hB hS h6 h5 h2 h4 h7 h8) fun f a h9 => ?_
    obtain ⟨a1, a2⟩ := a
    refine ET.bind ((assignVec_T s.stateSize h9.1).congr (by filter_upwards [hS.stateSize] with i h; rw [h])) fun _ _ h10 => ?_
    refine ET.bind ((assignMat_T s.stateSize h9.2).congr (by filter_upwards [hS.stateSize] with i h; rw [h])) fun _ _ h11 => ?_
    exact ih (hxs.set k h10) (hPs.set k h11)

theorem ext_smooth_T {Z : ι → NDArray Fl} {z : NDArray Fl} {U : ι → Option (NDArray Fl)} {u : Option (NDArray Fl)}
    (hZ : NDT l Z z) (hU : OptT (NDT l) l U u) :
    PT l (EKFT l) (PairT (ListT l (ArrT l)) (ListT l (ArrT l)))
      (fun i => @ExtendedKalmanFilter.smooth Fl (B i) (Z i) (U i))
      (@ExtendedKalmanFilter.smooth Fl (exactB nanInt) z u) := by
  refine PT.bind (ext_filter_T hB hZ hU) fun e e' he => ?_
  obtain ⟨xe', Pe'⟩ := e'
  refine PT.bind PT.self fun S s hS => PT.bind (PT.lift (len_T hZ)) fun f n hn => ?_
  have hrow : ∀ {L : ι → List (Arr Fl)} {a : List (Arr Fl)}, ListT l (ArrT l) L a →
      ET l (ArrT l) (fun i => if f i = 0 then .error .indexError else getRow (L i) (f i - 1))
        (if n = 0 then .error .indexError else getRow a (n - 1)) := by
    intro L a hL
    by_cases h0 : n = 0
    · rw [if_pos h0]; exact ET.error
    · rw [if_neg h0]
      refine ET.congr (getRow_T hL (n - 1)) ?_
      filter_upwards [hn] with i h1; rw [h1, if_neg h0]
  refine PT.bind (PT.lift (hrow he.1)) fun _ _ h1 => PT.bind (PT.lift (hrow he.2)) fun _ _ h2 => ?_
  refine PT.bind (PT.lift ((assignVec_T s.stateSize h1).congr
    (by filter_upwards [hS.stateSize] with i h; rw [h]))) fun f3 x3 h3 => ?_
  refine PT.bind (PT.lift ((assignMat_T s.stateSize h2).congr
    (by filter_upwards [hS.stateSize] with i h; rw [h]))) fun f4 x4 h4 => ?_
  have hx0 : ListT l (ArrT l) (fun i => (List.replicate (f i) (@Arr.zerosVec Fl (B i) (S i).stateSize)).set (f i - 1) (f3 i))
      ((List.replicate n (@Arr.zerosVec Fl (exactB nanInt) s.stateSize)).set (n - 1) x3) := by
    refine ListT.congr ((ListT.replicate n (zerosVec_T hB s.stateSize)).set (n - 1) h3) ?_
    filter_upwards [hn, hS.stateSize] with i h1 h2; rw [h1, h2]
  have hP0 : ListT l (ArrT l) (fun i => (List.replicate (f i) (@Arr.zerosMat Fl (B i) (S i).stateSize)).set (f i - 1) (f4 i))
      ((List.replicate n (@Arr.zerosMat Fl (exactB nanInt) s.stateSize)).set (n - 1) x4) := by
    refine ListT.congr ((ListT.replicate n (zerosMat_T hB s.stateSize)).set (n - 1) h4) ?_
    filter_upwards [hn, hS.stateSize] with i h1 h2; rw [h1, h2]
  refine PT.lift (ET.congr (ext_smoothLoop_T hB hS hS.Q (check_T hB hU hZ) he.1 he.2
    (List.range (n - 1)).reverse hx0 hP0) ?_)
  filter_upwards [hn] with i h; rw [h]

end run

/-! ### continuous callbacks -/

theorem Fl.Close.trans {a b : ℝ} {x y z : Fl} (h : x.Close a y) (h' : y.Close b z) : x.Close (a + b) z :=
  ⟨h.1.trans h'.1, (abs_sub_le _ _ _).trans (add_le_add h.2 h'.2)⟩

theorem Fl.Close.mono {a b : ℝ} (hab : a ≤ b) {x y : Fl} (h : x.Close a y) : x.Close b y := ⟨h.1, h.2.trans hab⟩

theorem Arr.Close.mono {a b : ℝ} (hab : a ≤ b) {x y : Arr Fl} (h : x.Close a y) : x.Close b y := by
  cases x with
  | scalar d x => obtain ⟨y, rfl, h⟩ := h; exact ⟨y, rfl, h.mono hab⟩
  | vec d x => obtain ⟨y, rfl, h⟩ := h; exact ⟨y, rfl, fun i => (h i).mono hab⟩
  | mat d x => obtain ⟨y, rfl, h⟩ := h; exact ⟨y, rfl, fun i j => (h i j).mono hab⟩

theorem closeList_mono {a b : ℝ} (hab : a ≤ b) {x y : List (Arr Fl)} (h : List.Forall₂ (Arr.Close a) x y) :
    List.Forall₂ (Arr.Close b) x y := h.imp fun _ _ h => h.mono hab

theorem NDArray.Close.mono {a b : ℝ} (hab : a ≤ b) {x y : NDArray Fl} (h : x.Close a y) : x.Close b y := by
  cases x with
  | d0 d x => obtain ⟨y, rfl, h⟩ := h; exact ⟨y, rfl, h.mono hab⟩
  | stack rows => obtain ⟨y, rfl, h⟩ := h; exact ⟨y, rfl, closeList_mono hab h⟩

theorem CloseOpt.mono {a b : ℝ} (hab : a ≤ b) {x y : Option (NDArray Fl)} (h : CloseOpt a x y) : CloseOpt b x y := by
  cases x with
  | none => exact h
  | some x => obtain ⟨y, rfl, h⟩ := h; exact ⟨y, rfl, h.mono hab⟩

theorem KalmanFilter.Close.mono {a b : ℝ} (hab : a ≤ b) {x y : KalmanFilter Fl} (h : x.Close a y) : x.Close b y :=
  ⟨h.A.mono hab, h.xk.mono hab, h.B.mono hab, h.Pk.mono hab, h.H.mono hab, h.Q.mono hab, h.R.mono hab, h.stateSize,
    h.I.mono hab, closeList_mono hab h.kalmanGains⟩

theorem Arr.Close.trans {a b : ℝ} {x y z : Arr Fl} (h : x.Close a y) (h' : y.Close b z) : x.Close (a + b) z := by
  cases x with
  | scalar d x => obtain ⟨y, rfl, h⟩ := h; obtain ⟨z, rfl, h'⟩ := h'; exact ⟨z, rfl, h.trans h'⟩
  | vec d x => obtain ⟨y, rfl, h⟩ := h; obtain ⟨z, rfl, h'⟩ := h'; exact ⟨z, rfl, fun i => (h i).trans (h' i)⟩
  | mat d x => obtain ⟨y, rfl, h⟩ := h; obtain ⟨z, rfl, h'⟩ := h'; exact ⟨z, rfl, fun i j => (h i j).trans (h' i j)⟩

theorem FlT.of_close {f : ι → Fl} {a : Fl} (h : ∀ ε > 0, ∀ᶠ i in l, a.Close ε (f i)) : FlT l f a := by
  refine ⟨(h 1 one_pos).mono fun i h => h.1.symm, Metric.tendsto_nhds.2 fun ε hε => ?_⟩
  filter_upwards [h (ε / 2) (by positivity)] with i hi
  rw [Real.dist_eq, abs_sub_comm]
  exact lt_of_le_of_lt hi.2 (by linarith)

theorem eventually_choose {α : Type} [Nonempty α] {p : ι → α → Prop} (h : ∀ᶠ i in l, ∃ a, p i a) :
    ∃ f : ι → α, ∀ᶠ i in l, p i (f i) :=
  ⟨fun i => Classical.epsilon (p i), h.mono fun _ hi => Classical.epsilon_spec hi⟩

theorem ArrT.of_close {f : ι → Arr Fl} {a : Arr Fl} (h : ∀ ε > 0, ∀ᶠ i in l, a.Close ε (f i)) : ArrT l f a := by
  cases a with
  | scalar d x =>
    have : Nonempty Fl := ⟨.nan⟩
    obtain ⟨g, hg⟩ := eventually_choose (p := fun i (y : Fl) => f i = .scalar d y)
      ((h 1 one_pos).mono fun i hi => by obtain ⟨y, h1, -⟩ := hi; exact ⟨y, h1⟩)
    refine ⟨g, FlT.of_close fun ε hε => ?_, hg⟩
    filter_upwards [hg, h ε hε] with i h1 h2
    obtain ⟨y, h3, h4⟩ := h2
    rw [h1] at h3; injection h3 with _ h5; rw [h5]; exact h4
  | @vec d n x =>
    have : Nonempty (Fin n → Fl) := ⟨fun _ => .nan⟩
    obtain ⟨g, hg⟩ := eventually_choose (p := fun i (y : Fin n → Fl) => f i = .vec d y)
      ((h 1 one_pos).mono fun i hi => by obtain ⟨y, h1, -⟩ := hi; exact ⟨y, h1⟩)
    refine ⟨g, fun k => FlT.of_close fun ε hε => ?_, hg⟩
    filter_upwards [hg, h ε hε] with i h1 h2
    obtain ⟨y, h3, h4⟩ := h2
    rw [h1] at h3
    obtain rfl : g i = y := by simpa using h3
    exact h4 k
  | @mat d m n x =>
    have : Nonempty (Matrix (Fin m) (Fin n) Fl) := ⟨fun _ _ => .nan⟩
    obtain ⟨g, hg⟩ := eventually_choose (p := fun i (y : Matrix (Fin m) (Fin n) Fl) => f i = .mat d y)
      ((h 1 one_pos).mono fun i hi => by obtain ⟨y, h1, -⟩ := hi; exact ⟨y, h1⟩)
    refine ⟨g, fun k j => FlT.of_close fun ε hε => ?_, hg⟩
    filter_upwards [hg, h ε hε] with i h1 h2
    obtain ⟨y, h3, h4⟩ := h2
    rw [h1] at h3
    obtain rfl : g i = y := by simpa using h3
    exact h4 k j

theorem ET.of_close {W : ι → Except PyErr (Arr Fl)} {w : Except PyErr (Arr Fl)}
    (h : ∀ y, w = .ok y → ∀ ε > 0, ∀ᶠ i in l, ∃ y', W i = .ok y' ∧ y.Close ε y') : ET l (ArrT l) W w := by
  intro y hy
  have : Nonempty (Arr Fl) := ⟨y⟩
  obtain ⟨g, hg⟩ := eventually_choose ((h y hy 1 one_pos).mono fun i ⟨y', h1, _⟩ => (⟨y', h1⟩ : ∃ y', W i = .ok y'))
  refine ⟨g, ArrT.of_close fun ε hε => ?_, hg⟩
  filter_upwards [hg, h y hy ε hε] with i h1 ⟨y', h2, h3⟩
  rw [h1] at h2; injection h2 with h2; rw [h2]; exact h3

section
variable {η : ι → ℝ} (hη0 : ∀ i, 0 < η i) (hη : Tendsto η l (𝓝 0))
include hη0 hη

theorem within_T {X : ι → Arr Fl} {x : Arr Fl} (hX : ArrT l X x) : ∀ᶠ i in l, (X i).Within (1 / η i) := by
  cases x with
  | scalar d x =>
    obtain ⟨g, hg, he⟩ := hX
    filter_upwards [he, abs_le_inv hη0 hη hg.2] with i h1 h2; rw [h1]; exact h2
  | vec d x =>
    obtain ⟨g, hg, he⟩ := hX
    filter_upwards [he, eventually_all.2 fun k => abs_le_inv hη0 hη (hg k).2] with i h1 h2; rw [h1]; exact h2
  | mat d x =>
    obtain ⟨g, hg, he⟩ := hX
    filter_upwards [he, eventually_all.2 fun k => eventually_all.2 fun j => abs_le_inv hη0 hη (hg k j).2] with i h1 h2
    rw [h1]; exact h2

theorem callback_T {g : Arr Fl → Except PyErr (Arr Fl)} {G : ι → Arr Fl → Except PyErr (Arr Fl)}
    (hc : ContinuousAtReturns g) (hG : ∀ i, Computes (η i) g (G i)) {X : ι → Arr Fl} {x : Arr Fl} (hX : ArrT l X x) :
    ET l (ArrT l) (fun i => G i (X i)) (g x) := by
  refine ET.of_close fun y hy ε hε => ?_
  obtain ⟨δ, hδ, h1⟩ := hc x y hy (ε / 2) (by positivity)
  filter_upwards [hX.close hδ, within_T hη0 hη hX, hη.eventually (gt_mem_nhds (half_pos hε))] with i h2 h3 h4
  obtain ⟨y', h5, h6⟩ := h1 _ h2
  obtain ⟨y'', h7, h8⟩ := hG i _ _ h3 h5
  exact ⟨y'', h7, (h6.trans h8).mono (by linarith)⟩

theorem callback₂_T {g : Arr Fl → Option (Arr Fl) → Except PyErr (Arr Fl)}
    {G : ι → Arr Fl → Option (Arr Fl) → Except PyErr (Arr Fl)}
    (hc : ContinuousAtReturns₂ g) (hG : ∀ i, Computes₂ (η i) g (G i)) {X U : ι → Arr Fl} {x u : Arr Fl}
    (hX : ArrT l X x) (hU : ArrT l U u) : ET l (ArrT l) (fun i => G i (X i) (some (U i))) (g x (some u)) := by
  refine ET.of_close fun y hy ε hε => ?_
  obtain ⟨δ, hδ, h1⟩ := hc x u y hy (ε / 2) (by positivity)
  filter_upwards [hX.close hδ, within_T hη0 hη hX, hU.close hδ, within_T hη0 hη hU,
    hη.eventually (gt_mem_nhds (half_pos hε))] with i h2 h3 h2' h3' h4
  obtain ⟨y', h5, h6⟩ := h1 _ _ h2 h2'
  obtain ⟨y'', h7, h8⟩ := hG i _ _ _ h3 h3' h5
  exact ⟨y'', h7, (h6.trans h8).mono (by linarith)⟩

theorem ExtendedKalmanFilter.Close.T {S : ι → ExtendedKalmanFilter Fl} {s : ExtendedKalmanFilter Fl}
    (hc : s.ContinuousCallbacks) (h : ∀ i, s.Close (η i) (S i)) : EKFT l S s :=
  ⟨fun _ _ _ _ hX hU => callback₂_T hη0 hη hc.f (fun i => (h i).f) hX hU,
    fun _ _ _ _ hX hU => callback₂_T hη0 hη hc.jacobianA (fun i => (h i).jacobianA) hX hU,
    fun _ _ hX => callback_T hη0 hη hc.h (fun i => (h i).h) hX,
    fun _ _ hX => callback_T hη0 hη hc.jacobianH (fun i => (h i).jacobianH) hX,
    Arr.Close.T hη0 hη fun i => (h i).xk, Arr.Close.T hη0 hη fun i => (h i).Pk,
    NDArray.Close.T hη0 hη fun i => (h i).Q, NDArray.Close.T hη0 hη fun i => (h i).R,
    .of_forall fun i => (h i).stateSize, Arr.Close.T hη0 hη fun i => (h i).I,
    closeList_T hη0 hη fun i => (h i).kalmanGains⟩

end

end KK
