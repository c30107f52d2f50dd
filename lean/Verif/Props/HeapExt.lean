import Verif.Proofs.HeapExtFrame
import Verif.Test.QBackend

/-! # C78-C81: memory and the extended filter

`Model/HeapExt.lean` is the code with references, with callbacks that run on the same memory; `Spec/HeapExt.lean` says what
is asked of the callbacks. -/

set_option linter.unusedSectionVars false

namespace KK

variable {F : Type} [Backend F]

/-! ## C78 -/

/-- C78: if the callbacks write only arrays in `W`, then `m` changes no array that existed before the call and is not in
`W`, keeps every attribute except that it appends to `kalman_gains`, and what it appends does not share memory with older
arrays.  Whether it returns or raises (also when a callback raises). -/
def WritesOnlyScratch {α : Type} (W : Set ℕ) (m : EM F α) : Prop :=
  ∀ st : EState F, Quiet W st.self →
    (∀ r < st.heap.length, r ∉ W → (m.run st).2.heap[r]? = st.heap[r]?) ∧
    ∃ gs, (m.run st).2.self = { st.self with kalmanGains := st.self.kalmanGains ++ gs } ∧
      ∀ v ∈ gs, st.heap.length ≤ v.cell

theorem ETame.writes {α : Type} {W : Set ℕ} {m : EM F α} {P : ℕ → α → Prop} (x : ∀ n, ETame n W m (P n)) :
    WritesOnlyScratch W m := fun st hq => ⟨(x _ st le_rfl hq).1.2, (x _ st le_rfl hq).2.1⟩

/-- C78 for `filter`. -/
theorem C78_filter_writes_only_scratch (W : Set ℕ) (Z : ℕ) (U : Option ℕ) : WritesOnlyScratch (F := F) W (HEkf.filter Z U) :=
  ETame.writes fun _ => HEkf.etame_filter Z U

/-- C78 for `smooth`. -/
theorem C78_smooth_writes_only_scratch (W : Set ℕ) (Z : ℕ) (U : Option ℕ) : WritesOnlyScratch (F := F) W (HEkf.smooth Z U) :=
  ETame.writes fun _ => HEkf.etame_smooth Z U

/-- C78 for `update`. -/
theorem C78_update_writes_only_scratch (W : Set ℕ) (xk Pk zk Rk : View) :
    WritesOnlyScratch (F := F) W (HEkf.update xk Pk zk Rk) :=
  ETame.writes fun _ => HEkf.etame_update _ _ _ _

/-- C78 for `predict`, which moreover records no gain. -/
theorem C78_predict_writes_only_scratch (W : Set ℕ) (xk : View) (uk : Option View) (Pk Qk : View) (st : EState F)
    (hq : Quiet W st.self) :
    (∀ r < st.heap.length, r ∉ W →
      ((EM.onHeap (HEkf.predict st.self xk uk Pk Qk)).run st).2.heap[r]? = st.heap[r]?) ∧
    ((EM.onHeap (HEkf.predict st.self xk uk Pk Qk)).run st).2.self = st.self :=
  ⟨(HEkf.htame_predict (n := st.heap.length) hq xk uk Pk Qk st.heap le_rfl).1.2, rfl⟩

/-- C78 for the constructor: it changes no existing array, and calls no callback. -/
theorem C78_new_writes_nothing_old (xk Pk : View) (Q R : ℕ) (f : View → Option View → HeapM F View)
    (h : View → HeapM F View) (jA : View → Option View → HeapM F View) (jH : View → HeapM F View) (st : EState F) (r : ℕ)
    (hr : r < st.heap.length) : ((HEkf.new xk Pk Q R f h jA jH).run st).2.heap[r]? = st.heap[r]? := by
  unfold HEkf.new
  rw [HFilter.run_bind]
  have e : (EM.onHeap (HeapM.get xk)).run st = ((HeapM.get xk).run st.heap |>.1, st) := by
    simp only [EM.onHeap, HeapM.get]
    split <;> rfl
  rw [e]
  rcases ((HeapM.get xk).run st.heap).1 with e | x
  · rfl
  dsimp only
  rw [HFilter.run_bind]
  rcases HEkf.chooseSize x with e | n
  · rfl
  · show (st.heap ++ [_])[r]? = _
    rw [List.getElem?_append_left hr]

/-! ## C79 -/

/-- C79: the call `m` on the object `o` acts as `p` does on values: it returns if and only if `p` returns and raises the
same exception otherwise; its results are two different new arrays that hold what `p` returns; the gains it records hold
what `p` records, each in a new array of its own, and share no memory with the results. -/
def EReturnsNewArrays (h : Heap F) (o : HEkf F) (kf : ExtendedKalmanFilter F) (m : EM F (ℕ × ℕ))
    (p : Py (ExtendedKalmanFilter F) (List (Arr F) × List (Arr F))) : Prop :=
  ∃ gs vals, (m.run ⟨h, o⟩).2.self.kalmanGains = o.kalmanGains ++ gs ∧
    (p.run kf).2.kalmanGains = kf.kalmanGains ++ vals ∧
    List.Forall₂ (fun v a => h.length ≤ v.cell ∧ (m.run ⟨h, o⟩).2.heap.deref v = some a) gs vals ∧
    (gs.map View.cell).Nodup ∧
    Alike (fun a b => h.length ≤ a.1 ∧ h.length ≤ a.2 ∧ a.1 ≠ a.2 ∧
        (m.run ⟨h, o⟩).2.heap.seqAt a.1 = some (.stack b.1) ∧ (m.run ⟨h, o⟩).2.heap.seqAt a.2 = some (.stack b.2) ∧
        ∀ v ∈ gs, v.cell ≠ a.1 ∧ v.cell ≠ a.2)
      (m.run ⟨h, o⟩).1 (p.run kf).1

theorem Gains.both {n : ℕ} {h : Heap F} {gs : List View} {vals : List (Arr F)} (x : Gains n h gs vals) :
    List.Forall₂ (fun v a => n ≤ v.cell ∧ h.deref v = some a) gs vals := by
  obtain ⟨x1, x2, -⟩ := x
  induction x1 with
  | nil => exact .nil
  | cons h1 _ ih =>
    exact .cons ⟨(x2 _ (by simp)).1, h1⟩ (ih fun v hv => x2 v (by simp [hv]))

theorem Gains.nodup {n : ℕ} {h : Heap F} {gs : List View} {vals : List (Arr F)} (x : Gains n h gs vals) :
    (gs.map View.cell).Nodup := by
  rw [List.Nodup, List.pairwise_map]
  exact x.apart.imp fun h => by omega

theorem ESim.returns {S : Set ℕ} {h : Heap F} {o : HEkf F} {kf : ExtendedKalmanFilter F} {m : EM F (ℕ × ℕ)}
    {p : Py (ExtendedKalmanFilter F) (List (Arr F) × List (Arr F))} {R : Heap F → ℕ × ℕ → List (Arr F) × List (Arr F) → Prop}
    {gs : List View} {vals : List (Arr F)} (x : ESim S h o kf m p R gs vals)
    (hR : ∀ h' a b, R h' a b → HFilter.NewOut h.length h' a b ∧ ∀ v ∈ gs, v.cell ≠ a.1 ∧ v.cell ≠ a.2) :
    EReturnsNewArrays h o kf m p := by
  refine ⟨gs, vals, by rw [x.self], by rw [x.vself], x.gains.both, x.gains.nodup, x.out.imp fun a b r => ?_⟩
  obtain ⟨⟨x1, x2, x3, x4, x5⟩, x6⟩ := hR _ a b r
  exact ⟨x1, x2, x3, x4, x5, x6⟩

/-- An optional sequence argument that is no scratch array. -/
def NotScratch (W : Set ℕ) (U : Option ℕ) : Prop := ∀ r, U = some r → r ∉ W

theorem SeqHas.of {W : Set ℕ} {h : Heap F} {U : Option ℕ} {u : Option (NDArray F)} (hU : SeqArg h U u)
    (hU' : NotScratch W U) : SeqHas W h U u := by
  rcases U with _ | U <;> rcases u with _ | u
  · exact ⟨hU, by simp⟩
  · exact hU.elim
  · exact hU.elim
  · exact ⟨hU, hU'⟩

/-- C79 for `filter`. -/
theorem C79_filter_returns_new_arrays (n : ℕ) (W : Scratch) (hW : W.Private n) (h0 h : Heap F) (o : HEkf F)
    (kf : ExtendedKalmanFilter F) (hc : CallbacksAre n W h0 o kf) (ha : Agrees n W.all h0 h) (ho : EObjIs W.all h o kf)
    (Z : ℕ) (z : NDArray F) (hZ : h.seqAt Z = some z) (hZ' : Z ∉ W.all) (U : Option ℕ) (u : Option (NDArray F))
    (hU : SeqArg h U u) (hU' : NotScratch W.all U) :
    EReturnsNewArrays h o kf (HEkf.filter Z U) (ExtendedKalmanFilter.filter z u) := by
  obtain ⟨gs, vals, x⟩ := HEkf.esim_filter hW hc ha ho ⟨hZ', hZ⟩ (SeqHas.of hU hU')
  refine x.returns fun h' a b r => ?_
  obtain ⟨rfl, r1, r2⟩ := r
  exact ⟨⟨le_rfl, by simp, by simp, r1⟩, r2⟩

/-- C79 for `smooth`. -/
theorem C79_smooth_returns_new_arrays (n : ℕ) (W : Scratch) (hW : W.Private n) (h0 h : Heap F) (o : HEkf F)
    (kf : ExtendedKalmanFilter F) (hc : CallbacksAre n W h0 o kf) (ha : Agrees n W.all h0 h) (ho : EObjIs W.all h o kf)
    (Z : ℕ) (z : NDArray F) (hZ : h.seqAt Z = some z) (hZ' : Z ∉ W.all) (U : Option ℕ) (u : Option (NDArray F))
    (hU : SeqArg h U u) (hU' : NotScratch W.all U) :
    EReturnsNewArrays h o kf (HEkf.smooth Z U) (ExtendedKalmanFilter.smooth z u) := by
  obtain ⟨gs, vals, x⟩ := HEkf.esim_smooth hW hc ha ho ⟨hZ', hZ⟩ (SeqHas.of hU hU')
  exact x.returns fun h' a b r => r

/-- C79 for `predict`: the predicted covariance is a new array; the predicted state is whatever array `f` returned, with
the right value, and no scratch array except perhaps one of `f`. -/
theorem C79_predict_values (n : ℕ) (W : Scratch) (hW : W.Private n) (h0 h : Heap F) (o : HEkf F)
    (kf : ExtendedKalmanFilter F) (hc : CallbacksAre n W h0 o kf) (ha : Agrees n W.all h0 h) (vx vP vQ : View)
    (vu : Option View) (x P Q : Arr F) (u : Option (Arr F)) (hx : h.deref vx = some x) (hx' : vx.cell ∉ W.all)
    (hu : ViewArg h vu u) (hu' : ∀ y, vu = some y → y.cell ∉ W.all) (hP : h.deref vP = some P) (hP' : vP.cell ∉ W.all)
    (hQ : h.deref vQ = some Q) (hQ' : vQ.cell ∉ W.all) :
    Alike (fun a b => ((HEkf.predict o vx vu vP vQ).run h).2.deref a.1 = some b.1 ∧
        (a.1.cell ∈ W.all → a.1.cell ∈ W.f) ∧ h.length ≤ a.2.cell ∧
        ((HEkf.predict o vx vu vP vQ).run h).2.deref a.2 = some b.2)
      ((HEkf.predict o vx vu vP vQ).run h).1 (ExtendedKalmanFilter.predict kf x u P Q) :=
  (HEkf.hsim_predict hW hc ha ⟨hx', hx⟩ ⟨hu, hu'⟩ ⟨hP', hP⟩ ⟨hQ', hQ⟩).2.imp fun _ _ r => ⟨r.1.1, r.1.2, r.2.1, r.2.2⟩

/-- C79 for `update`: both results are new arrays with the values of `update`.  The state passed may be a scratch array of
`f`, as after `predict`. -/
theorem C79_update_returns_new_arrays (n : ℕ) (W : Scratch) (hW : W.Private n) (h0 h : Heap F) (o : HEkf F)
    (kf : ExtendedKalmanFilter F) (hc : CallbacksAre n W h0 o kf) (ha : Agrees n W.all h0 h) (ho : EObjIs W.all h o kf)
    (vx vP vz vR : View) (x P z R : Arr F) (hx : h.deref vx = some x) (hx' : vx.cell ∈ W.all → vx.cell ∈ W.f)
    (hP : h.deref vP = some P) (hP' : vP.cell ∉ W.all) (hz : h.deref vz = some z) (hz' : vz.cell ∉ W.all)
    (hR : h.deref vR = some R) (hR' : vR.cell ∉ W.all) :
    Alike (fun a b => h.length ≤ a.1.cell ∧ h.length ≤ a.2.cell ∧
        ((HEkf.update vx vP vz vR).run ⟨h, o⟩).2.heap.deref a.1 = some b.1 ∧
        ((HEkf.update vx vP vz vR).run ⟨h, o⟩).2.heap.deref a.2 = some b.2)
      ((HEkf.update vx vP vz vR).run ⟨h, o⟩).1 ((ExtendedKalmanFilter.update x P z R).run kf).1 := by
  obtain ⟨gs, vals, r⟩ := HEkf.esims_update hW hc ha ⟨ho.I', ho.I⟩ hx hx' ⟨hP', hP⟩ ⟨hz', hz⟩ ⟨hR', hR⟩
  exact r.out.imp fun a b r => ⟨r.1.1, r.2.1, r.1.2, r.2.2⟩

/-! ## C80 -/

/-- All the arrays the object refers to are numbered below `n`. -/
structure EBelow (n : ℕ) (o : HEkf F) : Prop where
  Q : o.Q < n
  R : o.R < n
  xk : o.xk.cell < n
  Pk : o.Pk.cell < n
  I : o.I.cell < n

theorem CallbacksAre.quiet {n : ℕ} {W : Scratch} {h0 : Heap F} {o : HEkf F} {kf : ExtendedKalmanFilter F}
    (x : CallbacksAre n W h0 o kf) : Quiet W.all o where
  f v u h := ⟨(x.f.writes v u h).grows, fun r hr hW => (x.f.writes v u h).same r hr fun q => hW (HEkf.f_sub q)⟩
  jacobianA v u h :=
    ⟨(x.jacobianA.writes v u h).grows, fun r hr hW => (x.jacobianA.writes v u h).same r hr fun q => hW (HEkf.A_sub q)⟩
  h v h := ⟨(x.h.writes v h).grows, fun r hr hW => (x.h.writes v h).same r hr fun q => hW (HEkf.h_sub q)⟩
  jacobianH v h :=
    ⟨(x.jacobianH.writes v h).grows, fun r hr hW => (x.jacobianH.writes v h).same r hr fun q => hW (HEkf.H_sub q)⟩

theorem Quiet.gained {W : Set ℕ} {o : HEkf F} (x : Quiet W o) (gs : List View) : Quiet W { o with kalmanGains := gs } :=
  ⟨x.f, x.jacobianA, x.h, x.jacobianH⟩

theorem EUserAct.run_keeps {n : ℕ} {W : Set ℕ} (a : EUserAct F) (ha : a.Above n W) (st : EState F)
    (hn : n ≤ st.heap.length) (hq : Quiet W st.self) :
    n ≤ (a.run st).heap.length ∧ (∀ r < n, r ∉ W → (a.run st).heap[r]? = st.heap[r]?) ∧
      ∃ gs, (a.run st).self = { st.self with kalmanGains := gs } := by
  rcases a with ⟨Z, U⟩ | ⟨Z, U⟩ | ⟨a1, a2, a3, a4⟩ | ⟨a1, a2, a3, a4⟩ | c | ⟨r, c⟩
  · obtain ⟨⟨h1, h2⟩, ⟨gs, h3, -⟩, -⟩ := HEkf.etame_filter (n := n) (W := W) Z U st hn hq
    exact ⟨h1, h2, _, h3⟩
  · obtain ⟨⟨h1, h2⟩, ⟨gs, h3, -⟩, -⟩ := HEkf.etame_smooth (n := n) (W := W) Z U st hn hq
    exact ⟨h1, h2, _, h3⟩
  · obtain ⟨⟨h1, h2⟩, -⟩ := HEkf.htame_predict (n := n) hq a1 a2 a3 a4 st.heap hn
    exact ⟨h1, h2, st.self.kalmanGains, rfl⟩
  · obtain ⟨⟨h1, h2⟩, ⟨gs, h3, -⟩, -⟩ := HEkf.etame_update (n := n) (W := W) a1 a2 a3 a4 st hn hq
    exact ⟨h1, h2, _, h3⟩
  · refine ⟨by simp [EUserAct.run]; omega, fun r hr _ => ?_, st.self.kalmanGains, rfl⟩
    show (st.heap ++ [c])[r]? = _
    rw [List.getElem?_append_left (by omega)]
  · refine ⟨by simpa [EUserAct.run] using hn, fun q hq' hW => ?_, st.self.kalmanGains, rfl⟩
    refine List.getElem?_set_ne ?_
    rintro rfl
    rcases ha with ha | ha
    · omega
    · exact hW ha

theorem EUserAct.runAll_keeps {n : ℕ} {W : Set ℕ} (acts : List (EUserAct F)) (ha : ∀ a ∈ acts, a.Above n W) (st : EState F)
    (hn : n ≤ st.heap.length) (hq : Quiet W st.self) :
    n ≤ (runAll acts st).heap.length ∧ (∀ r < n, r ∉ W → (runAll acts st).heap[r]? = st.heap[r]?) ∧
      ∃ gs, (runAll acts st).self = { st.self with kalmanGains := gs } := by
  induction acts generalizing st with
  | nil => exact ⟨hn, fun _ _ _ => rfl, _, rfl⟩
  | cons a rest ih =>
    obtain ⟨h1, h2, gs, h3⟩ := run_keeps a (ha a (by simp)) st hn hq
    obtain ⟨k1, k2, gs', k3⟩ := ih (fun b hb => ha b (by simp [hb])) (a.run st) h1 (by rw [h3]; exact hq.gained gs)
    refine ⟨k1, fun r hr hW => (k2 r hr hW).trans (h2 r hr hW), gs', ?_⟩
    show (runAll rest (a.run st)).self = _
    rw [k3, h3]

/-- After any history that writes only scratch arrays and arrays numbered `n` or later, the object holds the same values
and its callbacks are what they were. -/
theorem EUserAct.runAll_obj {n : ℕ} {W : Scratch} {h0 h : Heap F} {o : HEkf F} {kf : ExtendedKalmanFilter F}
    (hc : CallbacksAre n W h0 o kf) (hg : Agrees n W.all h0 h) (ho : EObjIs W.all h o kf) (hb : EBelow n o)
    (acts : List (EUserAct F)) (ha : ∀ a ∈ acts, a.Above n W.all) :
    CallbacksAre n W h0 (runAll acts ⟨h, o⟩).self kf ∧ Agrees n W.all h0 (runAll acts ⟨h, o⟩).heap ∧
      EObjIs W.all (runAll acts ⟨h, o⟩).heap (runAll acts ⟨h, o⟩).self kf := by
  obtain ⟨h1, h2, gs, h3⟩ := runAll_keeps acts ha ⟨h, o⟩ hg.1 hc.quiet
  dsimp only at h2 h3
  have sq : ∀ {r : ℕ} {a : NDArray F}, r < n → r ∉ W.all → h.seqAt r = some a →
      (runAll acts ⟨h, o⟩).heap.seqAt r = some a :=
    fun hr hr' e => by rw [HFilter.seqAt_congr (h2 _ hr hr')]; exact e
  have dr : ∀ {v : View} {a : Arr F}, v.cell < n → v.cell ∉ W.all → h.deref v = some a →
      (runAll acts ⟨h, o⟩).heap.deref v = some a :=
    fun hr hr' e => by rw [deref_congr (h2 _ hr hr')]; exact e
  rw [h3]
  exact ⟨⟨hc.f, hc.jacobianA, hc.h, hc.jacobianH⟩, ⟨h1, fun r hr hr' => (h2 r hr hr').trans (hg.2 r hr hr')⟩,
    sq hb.Q ho.Q' ho.Q, sq hb.R ho.R' ho.R, dr hb.xk ho.xk' ho.xk, dr hb.Pk ho.Pk' ho.Pk, dr hb.I ho.I' ho.I, ho.size,
    ho.Q', ho.R', ho.xk', ho.Pk', ho.I'⟩

/-- C80: let the object hold the values `kf` in arrays numbered below `n`.  Whatever calls follow, and whatever is written
into scratch arrays and into arrays numbered `n` or later - in particular into arrays returned by earlier calls and into
recorded gains - a later `filter` returns what `filter` on the values `kf` returns. -/
theorem C80_filter_after_scribbles (n : ℕ) (W : Scratch) (hW : W.Private n) (h0 h : Heap F) (o : HEkf F)
    (kf : ExtendedKalmanFilter F) (hc : CallbacksAre n W h0 o kf) (hg : Agrees n W.all h0 h) (ho : EObjIs W.all h o kf)
    (hb : EBelow n o) (acts : List (EUserAct F)) (ha : ∀ a ∈ acts, a.Above n W.all) (Z : ℕ) (z : NDArray F)
    (hZ : (EUserAct.runAll acts ⟨h, o⟩).heap.seqAt Z = some z) (hZ' : Z ∉ W.all) (U : Option ℕ) (u : Option (NDArray F))
    (hU : SeqArg (EUserAct.runAll acts ⟨h, o⟩).heap U u) (hU' : NotScratch W.all U) :
    EReturnsNewArrays (EUserAct.runAll acts ⟨h, o⟩).heap (EUserAct.runAll acts ⟨h, o⟩).self kf (HEkf.filter Z U)
      (ExtendedKalmanFilter.filter z u) := by
  obtain ⟨x1, x2, x3⟩ := EUserAct.runAll_obj hc hg ho hb acts ha
  exact C79_filter_returns_new_arrays n W hW h0 _ _ kf x1 x2 x3 Z z hZ hZ' U u hU hU'

/-- C80 for `smooth`. -/
theorem C80_smooth_after_scribbles (n : ℕ) (W : Scratch) (hW : W.Private n) (h0 h : Heap F) (o : HEkf F)
    (kf : ExtendedKalmanFilter F) (hc : CallbacksAre n W h0 o kf) (hg : Agrees n W.all h0 h) (ho : EObjIs W.all h o kf)
    (hb : EBelow n o) (acts : List (EUserAct F)) (ha : ∀ a ∈ acts, a.Above n W.all) (Z : ℕ) (z : NDArray F)
    (hZ : (EUserAct.runAll acts ⟨h, o⟩).heap.seqAt Z = some z) (hZ' : Z ∉ W.all) (U : Option ℕ) (u : Option (NDArray F))
    (hU : SeqArg (EUserAct.runAll acts ⟨h, o⟩).heap U u) (hU' : NotScratch W.all U) :
    EReturnsNewArrays (EUserAct.runAll acts ⟨h, o⟩).heap (EUserAct.runAll acts ⟨h, o⟩).self kf (HEkf.smooth Z U)
      (ExtendedKalmanFilter.smooth z u) := by
  obtain ⟨x1, x2, x3⟩ := EUserAct.runAll_obj hc hg ho hb acts ha
  exact C79_smooth_returns_new_arrays n W hW h0 _ _ kf x1 x2 x3 Z z hZ hZ' U u hU hU'

/-- C80: arrays numbered below `n` that are no scratch arrays - arguments and captured constants the user keeps - still hold
their values after any such history, whatever the callbacks compute. -/
theorem C80_old_arrays_intact (n : ℕ) (W : Set ℕ) (h : Heap F) (o : HEkf F) (hq : Quiet W o) (hn : n ≤ h.length)
    (acts : List (EUserAct F)) (ha : ∀ a ∈ acts, a.Above n W) (r : ℕ) (hr : r < n) (hr' : r ∉ W) :
    (EUserAct.runAll acts ⟨h, o⟩).heap[r]? = h[r]? :=
  (EUserAct.runAll_keeps acts ha ⟨h, o⟩ hn hq).2.1 r hr hr'

/-! ## C81 -/

theorem enew_eq (x P : Arr F) (Q R : NDArray F) (f : Arr F → Option (Arr F) → Except PyErr (Arr F))
    (h : Arr F → Except PyErr (Arr F)) (jA : Arr F → Option (Arr F) → Except PyErr (Arr F))
    (jH : Arr F → Except PyErr (Arr F)) :
    ExtendedKalmanFilter.new x P Q R f h jA jH = HEkf.chooseSize x >>= fun n =>
      .ok { f := f, jacobianA := jA, xk := x, Pk := P, h := h, jacobianH := jH, Q := Q, R := R, stateSize := n,
            I := Arr.identity n, kalmanGains := [] } := by
  unfold ExtendedKalmanFilter.new HEkf.chooseSize
  rcases x.shape with _ | ⟨n, l⟩ <;> rfl

/-- C81: the constructor raises exactly when it does on values; otherwise the new object holds the caller's own arrays, not
copies, the caller's own callbacks, and a new identity. -/
theorem C81_constructor_keeps_references (h : Heap F) (o0 : HEkf F) (W : Set ℕ) (hW : ∀ r ∈ W, r < h.length) (xk Pk : View)
    (Q R : ℕ) (f : View → Option View → HeapM F View) (g : View → HeapM F View) (jA : View → Option View → HeapM F View)
    (jH : View → HeapM F View) (f' : Arr F → Option (Arr F) → Except PyErr (Arr F)) (g' : Arr F → Except PyErr (Arr F))
    (jA' : Arr F → Option (Arr F) → Except PyErr (Arr F)) (jH' : Arr F → Except PyErr (Arr F)) (x P : Arr F) (q r : NDArray F)
    (hx : h.deref xk = some x) (hP : h.deref Pk = some P) (hQ : h.seqAt Q = some q) (hR : h.seqAt R = some r)
    (hx' : xk.cell ∉ W) (hP' : Pk.cell ∉ W) (hQ' : Q ∉ W) (hR' : R ∉ W) :
    Alike (fun o kf =>
        ((HEkf.new xk Pk Q R f g jA jH).run ⟨h, o0⟩).2.self = o ∧
        EObjIs W ((HEkf.new xk Pk Q R f g jA jH).run ⟨h, o0⟩).2.heap o kf ∧ kf.kalmanGains = [] ∧ o.kalmanGains = [] ∧
        o.xk = xk ∧ o.Pk = Pk ∧ o.Q = Q ∧ o.R = R ∧ o.f = f ∧ o.h = g ∧ o.jacobianA = jA ∧ o.jacobianH = jH ∧
        kf.f = f' ∧ kf.h = g' ∧ kf.jacobianA = jA' ∧ kf.jacobianH = jH' ∧ h.length ≤ o.I.cell)
      ((HEkf.new xk Pk Q R f g jA jH).run ⟨h, o0⟩).1 (ExtendedKalmanFilter.new x P q r f' g' jA' jH') := by
  rw [enew_eq]
  have g1 : (EM.onHeap (HeapM.get xk)).run (⟨h, o0⟩ : EState F) = (.ok x, ⟨h, o0⟩) := by
    simp [EM.onHeap, HeapM.get, hx]
  have run : (HEkf.new xk Pk Q R f g jA jH).run ⟨h, o0⟩ = match HEkf.chooseSize x with
      | .error e => (.error e, ⟨h, o0⟩)
      | .ok n => (.ok ⟨f, jA, xk, Pk, g, jH, Q, R, n, .whole h.length, []⟩,
          ⟨h ++ [.arr (Arr.identity n)], ⟨f, jA, xk, Pk, g, jH, Q, R, n, .whole h.length, []⟩⟩) := by
    unfold HEkf.new
    rw [HFilter.run_bind, g1]
    dsimp only
    rw [HFilter.run_bind]
    rcases HEkf.chooseSize x with e | n <;> rfl
  rw [run]
  rcases HEkf.chooseSize x with e | n
  · exact (rfl : e = e)
  · have f2 : Frame ∅ h (h ++ [Cell.arr (Arr.identity n)]) := Frame.append _ _ _
    have sq : ∀ {r : ℕ} {c : NDArray F}, h.seqAt r = some c →
        Heap.seqAt (h ++ [Cell.arr (Arr.identity n)]) r = some c := fun e => (HasSeq.mono f2 ⟨by simp, e⟩).2
    refine ⟨rfl, ⟨sq hQ, sq hR, (Has.mono f2 ⟨by simp, hx⟩).2, (Has.mono f2 ⟨by simp, hP⟩).2, by simp [Heap.deref], rfl,
      hQ', hR', hx', hP', fun hr => ?_⟩, rfl, rfl, rfl, rfl, rfl, rfl, rfl, rfl, rfl, rfl, rfl, rfl, rfl, rfl, le_rfl⟩
    exact absurd (hW _ hr) (by simp [View.cell])

/-- C81: in-place changes to the caller's arrays after construction act on the object.  Suppose the construction returned
the object `o`, then the memory changed to `h'`: arrays that existed before the construction may hold new values (the state
of the same shape), the identity the constructor made is as it was.  Then `o` holds exactly the values of an object
constructed from the new values. -/
theorem C81_in_place_change_is_seen (h h' : Heap F) (o0 o : HEkf F) (st : EState F) (W : Set ℕ) (hW : ∀ r ∈ W, r < h.length)
    (xk Pk : View) (Q R : ℕ) (f : View → Option View → HeapM F View) (g : View → HeapM F View)
    (jA : View → Option View → HeapM F View) (jH : View → HeapM F View)
    (f' : Arr F → Option (Arr F) → Except PyErr (Arr F)) (g' : Arr F → Except PyErr (Arr F))
    (jA' : Arr F → Option (Arr F) → Except PyErr (Arr F)) (jH' : Arr F → Except PyErr (Arr F)) (x x' P P' : Arr F)
    (q q' r r' : NDArray F) (hx : h.deref xk = some x) (hP : h.deref Pk = some P) (hQ : h.seqAt Q = some q)
    (hR : h.seqAt R = some r) (wx : xk.cell ∉ W) (wP : Pk.cell ∉ W) (wQ : Q ∉ W) (wR : R ∉ W)
    (made : (HEkf.new xk Pk Q R f g jA jH).run ⟨h, o0⟩ = (.ok o, st))
    (hown : ∀ r, h.length ≤ r → r < st.heap.length → h'[r]? = st.heap[r]?)
    (hx' : h'.deref xk = some x') (hP' : h'.deref Pk = some P') (hQ' : h'.seqAt Q = some q')
    (hR' : h'.seqAt R = some r') (fx : x'.shape = x.shape) :
    ∃ kf, ExtendedKalmanFilter.new x' P' q' r' f' g' jA' jH' = .ok kf ∧ EObjIs W h' o kf := by
  have key := C81_constructor_keeps_references h o0 W hW xk Pk Q R f g jA jH f' g' jA' jH' x P q r hx hP hQ hR wx wP wQ wR
  rw [made] at key
  rcases hn : HEkf.chooseSize x with e | n
  · rw [enew_eq, hn] at key
    exact absurd key (by simp [Alike, bind, Except.bind])
  have hn' : HEkf.chooseSize x' = .ok n := by
    rw [← hn]
    simp only [HEkf.chooseSize, fx]
  rw [enew_eq, hn] at key
  obtain ⟨-, k1, -, -, rfl, rfl, rfl, rfl, -, -, -, -, -, -, -, -, kI⟩ := key
  rw [enew_eq, hn']
  refine ⟨_, rfl, hQ', hR', hx', hP', ?_, k1.size, k1.Q', k1.R', k1.xk', k1.Pk', k1.I'⟩
  rw [deref_congr (hown _ kI (deref_lt k1.I)), k1.I]

/-! ## A concrete memory and callbacks in four styles

Cell 0 is the sequence `[[[1]], [[1]]]`, passed as `Q` and `R`; 1 is `x0`, 2 is `P0`, 3 the data, 4 a scratch array of `f`, 5
a constant matrix captured by `jacobian_A`.  `f` returns its scratch array, `jacobian_A` the captured array, `h` its argument,
`jacobian_H` a new array. -/

namespace Ex

def xmem : Heap QN := [.seq (.stack [mat1 (some 1), mat1 (some 1)]), .arr (vec1 (some 0)), .arr (mat1 (some 1)),
  .seq (.stack [vec1 (some 3), vec1 (some 5)]), .arr (vec1 none), .arr (mat1 (some 1))]

/-- `def f(x, u): buf[:] = x + 1; return buf`. -/
def xf (v : View) (_ : Option View) : HeapM QN View := do
  let a ← HeapM.get v
  let b ← Py.lift (a.add (vec1 (some 1)))
  ⟨fun h => (.ok (.whole 4), h.set 4 (.arr b))⟩

/-- `lambda x, u: CONST`. -/
def xjA (_ : View) (_ : Option View) : HeapM QN View := Py.lift (.ok (.whole 5))

/-- `lambda x: x`. -/
def xh (v : View) : HeapM QN View := Py.lift (.ok v)

/-- `lambda x: np.array([[1.]])`. -/
def xjH (_ : View) : HeapM QN View := HeapM.new (mat1 (some 1))

def xblank : HEkf QN := ⟨xf, xjA, .whole 1, .whole 2, xh, xjH, 0, 0, 0, .whole 1, []⟩

def xnew : EM QN (HEkf QN) := HEkf.new (.whole 1) (.whole 2) 0 0 xf xh xjA xjH

/-- Memory and object after the construction; the identity is cell 6. -/
def xst : EState QN := (xnew.run ⟨xmem, xblank⟩).2

/-- The values. -/
def xkf : ExtendedKalmanFilter QN :=
  { f := fun x _ => x.add (vec1 (some 1)), jacobianA := fun _ _ => .ok (mat1 (some 1)), xk := vec1 (some 0),
    Pk := mat1 (some 1), h := fun x => .ok x, jacobianH := fun _ => .ok (mat1 (some 1)),
    Q := .stack [mat1 (some 1), mat1 (some 1)], R := .stack [mat1 (some 1), mat1 (some 1)], stateSize := 1,
    I := Arr.identity 1, kalmanGains := [] }

/-- Only `f` has a scratch array. -/
def xW : Scratch := ⟨{4}, ∅, ∅, ∅⟩

theorem xW_all : xW.all = {4} := by simp [xW, Scratch.all]

-- the hypotheses of C79 and C80
theorem xprivate : xW.Private 7 where
  old r hr := by rw [xW_all, Set.mem_singleton_iff] at hr; omega
  fA := by simp [xW]
  fh := by simp [xW]
  fH := by simp [xW]
  Ah := by simp [xW]
  AH := by simp [xW]
  hH := by simp [xW]

theorem xf_run (v : View) (u : Option View) (h : Heap QN) : (xf v u).run h = match h.deref v with
    | none => (.error .typeError, h)
    | some a => match a.add (vec1 (some 1)) with
      | .error e => (.error e, h)
      | .ok b => (.ok (.whole 4), h.set 4 (.arr b)) := by
  unfold xf
  rw [HFilter.run_bind]
  rcases hd : h.deref v with _ | a
  · simp [HeapM.get, hd]
  · rw [hrun_get hd]
    dsimp only
    rw [HFilter.run_bind]
    rcases a.add (vec1 (some 1)) with e | b <;> rfl

theorem xcallbacks : CallbacksAre 7 xW xst.heap xst.self xkf := by
  refine ⟨⟨fun v u h => ?_, fun v u h a b hg hv hw hu hu' => ?_⟩, ⟨fun v u h => ?_, fun v u h a b hg hv hw hu hu' => ?_⟩,
    ⟨fun v h => ?_, fun v h a hg hv hw => ?_⟩, ⟨fun v h => ?_, fun v h a hg hv hw => ?_⟩⟩
  · show WritesOnly xW.f h ((xf v u).run h).2
    rw [xf_run]
    split
    · exact ⟨le_rfl, fun _ _ _ => rfl⟩
    · split
      · exact ⟨le_rfl, fun _ _ _ => rfl⟩
      · refine ⟨by simp, fun r hr hr' => List.getElem?_set_ne ?_⟩
        rintro rfl
        exact hr' rfl
  · show Alike _ ((xf v u).run h).1 (a.add (vec1 (some 1)))
    have e := xf_run v u h
    rw [hv] at e
    dsimp only at e
    change Alike (fun r b => ((xf v u).run h).2.deref r = some b ∧ _) _ _
    rw [e]
    rcases a.add (vec1 (some 1)) with e | b
    · exact (rfl : e = e)
    · refine ⟨?_, fun _ => .inl rfl⟩
      have : 4 < h.length := by have := hg.1; omega
      simp [Heap.deref, this]
  · exact ⟨le_rfl, fun _ _ _ => rfl⟩
  · refine ⟨?_, fun hr => ?_⟩
    · show h.deref (.whole 5) = _
      simp only [Heap.deref]
      rw [hg.2 5 (by omega) (by rw [xW_all]; simp)]
      rfl
    · rw [xW_all] at hr
      exact absurd hr (by decide)
  · exact ⟨le_rfl, fun _ _ _ => rfl⟩
  · exact ⟨hv, fun _ => .inr rfl⟩
  · refine ⟨by show h.length ≤ (h ++ [_]).length; simp, fun r hr _ => ?_⟩
    show (h ++ [_])[r]? = _
    rw [List.getElem?_append_left hr]
  · refine ⟨?_, fun hr => ?_⟩
    · show Heap.deref (h ++ [.arr (mat1 (some 1))]) (.whole h.length) = _
      simp [Heap.deref]
    · rw [xW_all, Set.mem_singleton_iff] at hr
      have := hg.1
      change h.length = 4 at hr
      omega

theorem xobj : EObjIs xW.all xst.heap xst.self xkf := by
  rw [xW_all]
  refine ⟨rfl, rfl, rfl, rfl, rfl, rfl, ?_, ?_, ?_, ?_, ?_⟩ <;> rw [Set.mem_singleton_iff] <;> decide +kernel

example : Agrees 7 xW.all xst.heap xst.heap ∧ EBelow 7 xst.self ∧ 3 ∉ xW.all := by
  refine ⟨⟨by decide +kernel, fun _ _ _ => rfl⟩, ⟨?_, ?_, ?_, ?_, ?_⟩, ?_⟩
  all_goals first | decide +kernel | (rw [xW_all]; decide)

-- the hypothesis of C78: here the only array written besides new ones is the scratch array
example : Quiet {4} xst.self := by rw [← xW_all]; exact xcallbacks.quiet

/-- First entry of row `k` of the first result. -/
def xentry (k : ℕ) (r : Except PyErr (ℕ × ℕ) × EState QN) : QN :=
  match r.1 with
  | .ok p => match r.2.heap.deref (.row p.1 k) with
    | some (.vec (n := _ + 1) _ x) => x 0
    | _ => none
  | .error _ => none

/-- First entry of row `k` of the first result of the value model. -/
def ventry (k : ℕ) (r : Except PyErr (List (Arr QN) × List (Arr QN)) × ExtendedKalmanFilter QN) : QN :=
  match r.1 with
  | .ok p => match p.1[k]? with
    | some (.vec (n := _ + 1) _ x) => x 0
    | _ => none
  | .error _ => none

-- the calls return, with the values of the value model
example : returned (xnew.run ⟨xmem, xblank⟩) = true ∧ returned ((HEkf.filter 3 none).run xst) = true ∧
    returned ((HEkf.smooth 3 none).run xst) = true := by refine ⟨?_, ?_, ?_⟩ <;> decide +kernel
example : xentry 0 ((HEkf.filter 3 none).run xst) = some (7 / 3) ∧
    ventry 0 ((ExtendedKalmanFilter.filter (.stack [vec1 (some 3), vec1 (some 5)]) none).run xkf) = some (7 / 3) := by
  constructor <;> decide +kernel

/-- Results overwritten, scratch array overwritten, further calls. -/
def xacts : List (EUserAct QN) := [.filter 3 none, .write 7 (.arr (vec1 none)), .write 8 (.arr (vec1 none)),
  .write 4 (.arr (mat1 none)), .predict (.whole 1) none (.whole 2) (.row 0 0), .update (.whole 3) (.whole 3) (.whole 3) (.whole 3),
  .smooth 3 none]

example : ∀ a ∈ xacts, a.Above 7 xW.all := by
  intro a ha
  rw [xW_all]
  simp only [xacts, List.mem_cons, List.not_mem_nil, or_false] at ha
  rcases ha with rfl | rfl | rfl | rfl | rfl | rfl | rfl <;> simp [EUserAct.Above]
example : xentry 0 ((HEkf.filter 3 none).run (EUserAct.runAll xacts xst)) = some (7 / 3) := by decide +kernel

-- writing into the captured matrix, which is no scratch array, does change later results
example : xentry 0 ((HEkf.filter 3 none).run (EUserAct.runAll [.write 5 (.arr (mat1 (some 2)))] xst)) = some (8 / 3) := by
  decide +kernel

/-! ### What the hypotheses exclude -/

/-- `def f(x, u): x += 1; return x` - changes its argument in place. -/
def xfInPlace (v : View) (_ : Option View) : HeapM QN View := do
  let a ← HeapM.get v
  let b ← Py.lift (a.add (vec1 (some 1)))
  ⟨fun h => match v with
    | .whole r => (.ok v, h.set r (.arr b))
    | .row r k => match h.seqAt r with
      | some (.stack rows) => (.ok v, h.set r (.seq (.stack (rows.set k b))))
      | _ => (.error .typeError, h)
    | _ => (.error .typeError, h)⟩

def xst2 : EState QN := { xst with self := { xst.self with f := xfInPlace } }

-- the first run is right, but it moved the initial state: the second run, on the same data, starts at 1
example : xentry 0 ((HEkf.filter 3 none).run xst2) = some (7 / 3) ∧
    xentry 0 ((HEkf.filter 3 none).run ((HEkf.filter 3 none).run xst2).2) = some (8 / 3) := by
  constructor <;> decide +kernel
-- and `smooth` is wrong at once: the backward pass moves the filtered states while it uses them
example : xentry 0 ((HEkf.smooth 3 none).run xst) = some (11 / 4) ∧
    xentry 0 ((HEkf.smooth 3 none).run xst2) = some (15 / 4) := by constructor <;> decide +kernel

/-- `def h(x): buf[:] = x + x; return buf` - with the scratch array of `f`. -/
def xhShared (v : View) : HeapM QN View := do
  let a ← HeapM.get v
  let b ← Py.lift (a.add a)
  ⟨fun h => (.ok (.whole 4), h.set 4 (.arr b))⟩

/-- The same with a new array for the result. -/
def xhOwn (v : View) : HeapM QN View := do
  let a ← HeapM.get v
  let b ← Py.lift (a.add a)
  HeapM.new b

-- a scratch array shared by `f` and `h`: the predicted state is overwritten by the predicted measurement
example : xentry 0 ((HEkf.filter 3 none).run { xst with self := { xst.self with h := xhOwn } }) = some (5 / 3) ∧
    xentry 0 ((HEkf.filter 3 none).run { xst with self := { xst.self with h := xhShared } }) = some (8 / 3) := by
  constructor <;> decide +kernel

-- the hypotheses of C81_in_place_change_is_seen: the construction returns, shapes agree
example : ∃ o st, xnew.run ⟨xmem, xblank⟩ = (.ok o, st) := (returned_iff _).mp (by decide +kernel)
example : (vec1 (some 7) : Arr QN).shape = (vec1 (some 0)).shape := rfl

end Ex

end KK
