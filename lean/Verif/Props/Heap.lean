import Verif.Proofs.HeapApart
import Verif.Proofs.HeapFrame
import Verif.Proofs.HeapSmooth
import Verif.Test.QBackend

/-! # C62-C65: memory

`Model/Heap.lean` is the code with references; `Spec/Heap.lean` says what the memory holds. -/

set_option linter.unusedSectionVars false

namespace KK

variable {F : Type} [Backend F]

/-! ## C62 -/

/-- C62: `m` changes no array that existed before the call, keeps every attribute except that it appends to
`kalman_gains`, and what it appends does not share memory with older arrays.  Whether it returns or raises. -/
def WritesNothingOld {α : Type} (m : HM F α) : Prop :=
  ∀ st : HState F, (∀ r < st.heap.length, (m.run st).2.heap[r]? = st.heap[r]?) ∧
    ∃ gs, (m.run st).2.self = { st.self with kalmanGains := st.self.kalmanGains ++ gs } ∧
      ∀ v ∈ gs, st.heap.length ≤ v.cell

theorem Tame.writesNothing {α : Type} {m : HM F α} {P : ℕ → α → Prop} (x : ∀ n, Tame n m (P n)) : WritesNothingOld m :=
  fun st => ⟨(x _ st le_rfl).1.2, (x _ st le_rfl).2.1⟩

/-- C62 for `filter`. -/
theorem C62_filter_writes_nothing_old (Z : ℕ) (U : Option ℕ) : WritesNothingOld (F := F) (HFilter.filter Z U) :=
  Tame.writesNothing fun _ => HFilter.tame_filter Z U

/-- C62 for `smooth`. -/
theorem C62_smooth_writes_nothing_old (Z : ℕ) (U : Option ℕ) : WritesNothingOld (F := F) (HFilter.smooth Z U) :=
  Tame.writesNothing fun _ => HFilter.tame_smooth Z U

/-- C62 for `predict`. -/
theorem C62_predict_writes_nothing_old (Ak xk Bk uk Pk Qk : View) :
    WritesNothingOld (F := F) (HFilter.predict Ak xk Bk uk Pk Qk) :=
  Tame.writesNothing fun _ => HFilter.tame_predict _ _ _ _ _ _

/-- C62 for `update`. -/
theorem C62_update_writes_nothing_old (Hk xk Pk zk Rk : View) :
    WritesNothingOld (F := F) (HFilter.update Hk xk Pk zk Rk) :=
  Tame.writesNothing fun _ => HFilter.tame_update _ _ _ _ _

/-- C62 for the constructor: it changes no existing array. -/
theorem C62_new_writes_nothing_old (A : ℕ) (xk : View) (B : Option ℕ) (Pk : View) (H Q R : ℕ) (stateSize : Option ℤ)
    (st : HState F) (r : ℕ) (hr : r < st.heap.length) :
    ((HFilter.new A xk B Pk H Q R stateSize).run st).2.heap[r]? = st.heap[r]? := by
  unfold HFilter.new
  obtain ⟨⟨t1, t2⟩, -, -⟩ := HFilter.tame_check (F := F) (n := st.heap.length) B A st le_rfl
  rw [HFilter.run_bind]
  rcases hb : (HFilter.checkNoneAndBroadcast B A).run st with ⟨e | B', st1⟩ <;> rw [hb] at t1 t2 <;> dsimp only at t1 t2 ⊢
  · exact t2 r hr
  obtain ⟨⟨g1, g2⟩, -, -⟩ := Tame.get (F := F) (n := st.heap.length) xk st1 t1
  rw [HFilter.run_bind]
  rcases hx : (HM.get xk).run st1 with ⟨e | x, st2⟩ <;> rw [hx] at g1 g2 <;> dsimp only at g1 g2 ⊢
  · exact (g2 r hr).trans (t2 r hr)
  rw [HFilter.run_bind]
  generalize hy : (Py.lift _ : HM F ℕ) = y
  obtain ⟨v, rfl⟩ : ∃ v, y = Py.lift v := ⟨_, hy.symm⟩
  rcases v with e | n
  · exact (g2 r hr).trans (t2 r hr)
  · show (st2.heap ++ [_])[r]? = _
    rw [List.getElem?_append_left (by omega)]
    exact (g2 r hr).trans (t2 r hr)

/-! ## C63 -/

/-- C63: on an object that holds the values `kf`, the call `m` acts as `p` does on values: it returns if and only if `p`
returns and raises the same exception otherwise; its results are two different new arrays that hold what `p` returns; the
gains it records hold what `p` records, each in a new array of its own, and share no memory with the results. -/
def ReturnsNewArrays (h : Heap F) (o : HFilter) (kf : KalmanFilter F) (m : HM F (ℕ × ℕ))
    (p : Py (KalmanFilter F) (List (Arr F) × List (Arr F))) : Prop :=
  ∃ gs vals, (m.run ⟨h, o⟩).2.self.kalmanGains = o.kalmanGains ++ gs ∧
    (p.run kf).2.kalmanGains = kf.kalmanGains ++ vals ∧
    List.Forall₂ (fun v a => h.length ≤ v.cell ∧ (m.run ⟨h, o⟩).2.heap.deref v = some a) gs vals ∧
    (gs.map View.cell).Nodup ∧
    Alike (fun a b => h.length ≤ a.1 ∧ h.length ≤ a.2 ∧ a.1 ≠ a.2 ∧
        (m.run ⟨h, o⟩).2.heap.seqAt a.1 = some (.stack b.1) ∧ (m.run ⟨h, o⟩).2.heap.seqAt a.2 = some (.stack b.2) ∧
        ∀ v ∈ gs, v.cell ≠ a.1 ∧ v.cell ≠ a.2)
      (m.run ⟨h, o⟩).1 (p.run kf).1

theorem HFilter.CallIs.returns {h h' : Heap F} {o : HFilter} {kf : KalmanFilter F} {m : HM F (ℕ × ℕ)}
    {p : Py (KalmanFilter F) (List (Arr F) × List (Arr F))} {gs : List View} {vals : List (Arr F)}
    (c : HFilter.CallIs h o kf m p h' gs vals) (hm : Rising m) : ReturnsNewArrays h o kf m p := by
  refine ⟨gs, vals, by rw [c.heapRun], by rw [c.valRun], by rw [c.heapRun]; exact c.gains, ?_, ?_⟩
  · obtain ⟨-, gs', e, hp, -⟩ := hm ⟨h, o⟩
    rw [c.heapRun] at e
    obtain rfl : gs = gs' := List.append_cancel_left e
    rw [List.Nodup, List.pairwise_map]
    exact hp.imp fun h => by omega
  have := c.out
  rw [c.heapRun]
  revert this
  rcases (m.run ⟨h, o⟩).1 with e | a <;> rcases (p.run kf).1 with e' | b <;> intro x
  · exact x
  · exact x
  · exact x
  · obtain ⟨⟨x1, x2, x3, x4, x5⟩, x6⟩ := x
    exact ⟨x1, x2, x3, x4, x5, x6⟩

/-- C63 for `filter`. -/
theorem C63_filter_returns_new_arrays (h : Heap F) (o : HFilter) (kf : KalmanFilter F) (ho : ObjIs h o kf) (Z : ℕ)
    (z : NDArray F) (hZ : h.seqAt Z = some z) (U : Option ℕ) (u : Option (NDArray F)) (hU : SeqArg h U u) :
    ReturnsNewArrays h o kf (HFilter.filter Z U) (KalmanFilter.filter z u) := by
  obtain ⟨h', gs, vals, c⟩ := HFilter.filter_call ho hZ hU
  exact c.returns (HFilter.rising_filter Z U)

/-- C63 for `smooth`. -/
theorem C63_smooth_returns_new_arrays (h : Heap F) (o : HFilter) (kf : KalmanFilter F) (ho : ObjIs h o kf) (Z : ℕ)
    (z : NDArray F) (hZ : h.seqAt Z = some z) (U : Option ℕ) (u : Option (NDArray F)) (hU : SeqArg h U u) :
    ReturnsNewArrays h o kf (HFilter.smooth Z U) (KalmanFilter.smooth z u) := by
  obtain ⟨h', gs, vals, c⟩ := HFilter.smooth_call ho hZ hU
  exact c.returns (HFilter.rising_smooth Z U)

/-- C63 for `predict`: both results are new arrays with the values of `predict`, also when arguments share memory. -/
theorem C63_predict_returns_new_arrays (h : Heap F) (o : HFilter) (vA vx vB vu vP vQ : View) (A x B u P Q : Arr F)
    (hA : h.deref vA = some A) (hx : h.deref vx = some x) (hB : h.deref vB = some B) (hu : h.deref vu = some u)
    (hP : h.deref vP = some P) (hQ : h.deref vQ = some Q) :
    Alike (fun a b => h.length ≤ a.1.cell ∧ h.length ≤ a.2.cell ∧
        ((HFilter.predict vA vx vB vu vP vQ).run ⟨h, o⟩).2.heap.deref a.1 = some b.1 ∧
        ((HFilter.predict vA vx vB vu vP vQ).run ⟨h, o⟩).2.heap.deref a.2 = some b.2)
      ((HFilter.predict vA vx vB vu vP vQ).run ⟨h, o⟩).1 (KalmanFilter.predict A x (some B) (some u) P Q) := by
  obtain ⟨h', gs, vals, -, -, e1, -, x⟩ := HFilter.sim_predict (n := h.length) (S := ∅) (h := h) (o := o)
    (kf := ⟨.stack [], .scalar .float64 Backend.zero, .stack [], .scalar .float64 Backend.zero, .stack [], .stack [],
      .stack [], 0, .scalar .float64 Backend.zero, []⟩) (by simp) le_rfl
    ⟨by simp, hA⟩ ⟨by simp, hx⟩ ⟨by simp, hB⟩ ⟨by simp, hu⟩ ⟨by simp, hP⟩ ⟨by simp, hQ⟩
  rw [e1]
  refine HFilter.outcome_imp (fun a b hab => ?_) _ _ x
  exact ⟨hab.1.1, hab.2.1, hab.1.2.2, hab.2.2.2⟩

/-- C63 for `update`: both results are new arrays with the values of `update`. -/
theorem C63_update_returns_new_arrays (h : Heap F) (o : HFilter) (kf : KalmanFilter F) (ho : ObjIs h o kf)
    (vH vx vP vz vR : View) (H x P z R : Arr F) (hH : h.deref vH = some H) (hx : h.deref vx = some x)
    (hP : h.deref vP = some P) (hz : h.deref vz = some z) (hR : h.deref vR = some R) :
    Alike (fun a b => h.length ≤ a.1.cell ∧ h.length ≤ a.2.cell ∧
        ((HFilter.update vH vx vP vz vR).run ⟨h, o⟩).2.heap.deref a.1 = some b.1 ∧
        ((HFilter.update vH vx vP vz vR).run ⟨h, o⟩).2.heap.deref a.2 = some b.2)
      ((HFilter.update vH vx vP vz vR).run ⟨h, o⟩).1 ((KalmanFilter.update H x P z R).run kf).1 := by
  obtain ⟨h', gs, vals, -, -, e1, -, x⟩ := HFilter.sim_update (n := h.length) (S := ∅) (h := h) (o := o)
    (kf := kf) (by simp) le_rfl ⟨by simp, ho.I⟩ ⟨by simp, hH⟩ ⟨by simp, hx⟩ ⟨by simp, hP⟩ ⟨by simp, hz⟩ ⟨by simp, hR⟩
  rw [e1]
  refine HFilter.outcome_imp (fun a b hab => ?_) _ _ x
  exact ⟨hab.1.1, hab.2.1, hab.1.2.2, hab.2.2.2⟩

/-! ## C64 -/

/-- All the arrays the object refers to are numbered below `n`. -/
structure Below (n : ℕ) (o : HFilter) : Prop where
  A : o.A < n
  B : o.B < n
  H : o.H < n
  Q : o.Q < n
  R : o.R < n
  xk : o.xk.cell < n
  Pk : o.Pk.cell < n
  I : o.I.cell < n

theorem ObjIs.below {h : Heap F} {o : HFilter} {kf : KalmanFilter F} (x : ObjIs h o kf) : Below h.length o :=
  ⟨seqAt_lt x.A, seqAt_lt x.B, seqAt_lt x.H, seqAt_lt x.Q, seqAt_lt x.R, deref_lt x.xk, deref_lt x.Pk, deref_lt x.I⟩

theorem UserAct.run_keeps {n : ℕ} (a : UserAct F) (ha : a.Above n) (st : HState F) (hn : n ≤ st.heap.length) :
    n ≤ (a.run st).heap.length ∧ (∀ r < n, (a.run st).heap[r]? = st.heap[r]?) ∧
      ∃ gs, (a.run st).self = { st.self with kalmanGains := gs } := by
  rcases a with ⟨Z, U⟩ | ⟨Z, U⟩ | ⟨a1, a2, a3, a4, a5, a6⟩ | ⟨a1, a2, a3, a4, a5⟩ | c | ⟨r, c⟩
  · obtain ⟨⟨h1, h2⟩, ⟨gs, h3, -⟩, -⟩ := HFilter.tame_filter (n := n) Z U st hn
    exact ⟨h1, h2, _, h3⟩
  · obtain ⟨⟨h1, h2⟩, ⟨gs, h3, -⟩, -⟩ := HFilter.tame_smooth (n := n) Z U st hn
    exact ⟨h1, h2, _, h3⟩
  · obtain ⟨⟨h1, h2⟩, ⟨gs, h3, -⟩, -⟩ := HFilter.tame_predict (n := n) a1 a2 a3 a4 a5 a6 st hn
    exact ⟨h1, h2, _, h3⟩
  · obtain ⟨⟨h1, h2⟩, ⟨gs, h3, -⟩, -⟩ := HFilter.tame_update (n := n) a1 a2 a3 a4 a5 st hn
    exact ⟨h1, h2, _, h3⟩
  · refine ⟨by simp [UserAct.run]; omega, fun r hr => ?_, st.self.kalmanGains, rfl⟩
    show (st.heap ++ [c])[r]? = _
    rw [List.getElem?_append_left (by omega)]
  · refine ⟨by simpa [UserAct.run] using hn, fun q hq => ?_, st.self.kalmanGains, rfl⟩
    exact List.getElem?_set_ne (by simp only [UserAct.Above] at ha; omega)

theorem UserAct.runAll_keeps {n : ℕ} (acts : List (UserAct F)) (ha : ∀ a ∈ acts, a.Above n) (st : HState F)
    (hn : n ≤ st.heap.length) :
    n ≤ (runAll acts st).heap.length ∧ (∀ r < n, (runAll acts st).heap[r]? = st.heap[r]?) ∧
      ∃ gs, (runAll acts st).self = { st.self with kalmanGains := gs } := by
  induction acts generalizing st with
  | nil => exact ⟨hn, fun _ _ => rfl, _, rfl⟩
  | cons a rest ih =>
    obtain ⟨h1, h2, gs, h3⟩ := run_keeps a (ha a (by simp)) st hn
    obtain ⟨k1, k2, gs', k3⟩ := ih (fun b hb => ha b (by simp [hb])) (a.run st) h1
    refine ⟨k1, fun r hr => (k2 r hr).trans (h2 r hr), gs', ?_⟩
    show (runAll rest (a.run st)).self = _
    rw [k3, h3]

/-- The object still holds the same values after any history that writes only into arrays numbered `n` or later. -/
theorem UserAct.runAll_objIs {n : ℕ} {h : Heap F} {o : HFilter} {kf : KalmanFilter F} (ho : ObjIs h o kf)
    (hb : Below n o) (hn : n ≤ h.length) (acts : List (UserAct F)) (ha : ∀ a ∈ acts, a.Above n) :
    ObjIs (runAll acts ⟨h, o⟩).heap (runAll acts ⟨h, o⟩).self kf := by
  obtain ⟨-, h2, gs, h3⟩ := runAll_keeps acts ha ⟨h, o⟩ hn
  dsimp only at h2 h3
  have sq : ∀ {r : ℕ} {a : NDArray F}, r < n → h.seqAt r = some a → (runAll acts ⟨h, o⟩).heap.seqAt r = some a :=
    fun hr e => by rw [HFilter.seqAt_congr (h2 _ hr)]; exact e
  have dr : ∀ {v : View} {a : Arr F}, v.cell < n → h.deref v = some a → (runAll acts ⟨h, o⟩).heap.deref v = some a :=
    fun hr e => by rw [deref_congr (h2 _ hr)]; exact e
  rw [h3]
  exact ⟨sq hb.A ho.A, sq hb.B ho.B, sq hb.H ho.H, sq hb.Q ho.Q, sq hb.R ho.R, dr hb.xk ho.xk, dr hb.Pk ho.Pk,
    dr hb.I ho.I, ho.size⟩

/-- C64: let the object hold the values `kf` in arrays numbered below `n`.  Whatever calls follow, and whatever is written
into arrays numbered `n` or later - in particular into arrays returned by earlier calls and into recorded gains - a later
`filter` returns what `filter` on the values `kf` returns. -/
theorem C64_filter_after_scribbles (h : Heap F) (o : HFilter) (kf : KalmanFilter F) (ho : ObjIs h o kf) (n : ℕ)
    (hb : Below n o) (hn : n ≤ h.length) (acts : List (UserAct F)) (ha : ∀ a ∈ acts, a.Above n) (Z : ℕ) (z : NDArray F)
    (hZ : (UserAct.runAll acts ⟨h, o⟩).heap.seqAt Z = some z) (U : Option ℕ) (u : Option (NDArray F))
    (hU : SeqArg (UserAct.runAll acts ⟨h, o⟩).heap U u) :
    ReturnsNewArrays (UserAct.runAll acts ⟨h, o⟩).heap (UserAct.runAll acts ⟨h, o⟩).self kf (HFilter.filter Z U)
      (KalmanFilter.filter z u) :=
  C63_filter_returns_new_arrays _ _ kf (UserAct.runAll_objIs ho hb hn acts ha) Z z hZ U u hU

/-- C64 for `smooth`. -/
theorem C64_smooth_after_scribbles (h : Heap F) (o : HFilter) (kf : KalmanFilter F) (ho : ObjIs h o kf) (n : ℕ)
    (hb : Below n o) (hn : n ≤ h.length) (acts : List (UserAct F)) (ha : ∀ a ∈ acts, a.Above n) (Z : ℕ) (z : NDArray F)
    (hZ : (UserAct.runAll acts ⟨h, o⟩).heap.seqAt Z = some z) (U : Option ℕ) (u : Option (NDArray F))
    (hU : SeqArg (UserAct.runAll acts ⟨h, o⟩).heap U u) :
    ReturnsNewArrays (UserAct.runAll acts ⟨h, o⟩).heap (UserAct.runAll acts ⟨h, o⟩).self kf (HFilter.smooth Z U)
      (KalmanFilter.smooth z u) :=
  C63_smooth_returns_new_arrays _ _ kf (UserAct.runAll_objIs ho hb hn acts ha) Z z hZ U u hU

/-- C64: arrays numbered below `n` - arguments the user keeps - still hold their values after any such history. -/
theorem C64_old_arrays_intact (h : Heap F) (o : HFilter) (n : ℕ) (hn : n ≤ h.length) (acts : List (UserAct F))
    (ha : ∀ a ∈ acts, a.Above n) (r : ℕ) (hr : r < n) : (UserAct.runAll acts ⟨h, o⟩).heap[r]? = h[r]? :=
  (UserAct.runAll_keeps acts ha ⟨h, o⟩ hn).2.1 r hr

/-! ## C65 -/

theorem SameForm.fullLikeNan {a b : Arr F} (h : a.SameForm b) : a.fullLikeNan = b.fullLikeNan := by
  obtain ⟨h1, h2⟩ := h
  rcases a with ⟨d, x⟩ | @⟨n, d, x⟩ | @⟨m, n, d, x⟩ <;> rcases b with ⟨d', y⟩ | @⟨n', d', y⟩ | @⟨m', n', d', y⟩ <;>
    simp only [Arr.dtype, Arr.shape, reduceCtorEq, List.cons.injEq, and_true, List.nil_eq, List.cons_ne_nil, and_false] at h1 h2
  · subst h1; rfl
  · subst h1 h2; rfl
  · obtain ⟨rfl, rfl⟩ := h2
    subst h1; rfl

theorem SameForm.seqFullLikeNan {a b : NDArray F} (h : a.SameForm b) : a.fullLikeNan = b.fullLikeNan := by
  rcases a with ⟨d, x⟩ | l <;> rcases b with ⟨d', y⟩ | l'
  · simp only [NDArray.SameForm] at h; subst h; rfl
  · exact absurd h (by simp [NDArray.SameForm])
  · exact absurd h (by simp [NDArray.SameForm])
  · simp only [NDArray.SameForm] at h
    simp only [NDArray.fullLikeNan, NDArray.stack.injEq]
    induction h with
    | nil => rfl
    | cons h1 _ ih => simp only [List.map_cons, ih, SameForm.fullLikeNan h1]

theorem new_eq (a : NDArray F) (x : Arr F) (b : Option (NDArray F)) (P : Arr F) (H Q R : NDArray F) (ss : Option ℤ) :
    KalmanFilter.new a x b P H Q R ss = HFilter.chooseSize ss x >>= fun n =>
      .ok { A := a, xk := x, B := checkNoneAndBroadcast b a, Pk := P, H := H, Q := Q, R := R, stateSize := n,
            I := Arr.identity n, kalmanGains := [] } := by
  unfold KalmanFilter.new HFilter.chooseSize
  rcases ss with _ | (_ | s) | s
  · rcases x.shape with _ | ⟨n, l⟩ <;> rfl
  · rcases x.shape with _ | ⟨n, l⟩ <;> rfl
  · rfl
  · rfl

/-- C65: the constructor raises exactly when it does on values; otherwise the new object holds the caller's own arrays,
not copies, and the arrays it makes itself (the sentinel for `B=None`, the identity) are new. -/
theorem C65_constructor_keeps_references (h : Heap F) (o0 : HFilter) (A : ℕ) (xk : View) (B : Option ℕ) (Pk : View)
    (H Q R : ℕ) (ss : Option ℤ) (a : NDArray F) (x : Arr F) (b : Option (NDArray F)) (P : Arr F) (hh q r : NDArray F)
    (hA : h.seqAt A = some a) (hx : h.deref xk = some x) (hB : SeqArg h B b) (hP : h.deref Pk = some P)
    (hH : h.seqAt H = some hh) (hQ : h.seqAt Q = some q) (hR : h.seqAt R = some r) :
    Alike (fun o kf =>
        ((HFilter.new A xk B Pk H Q R ss).run ⟨h, o0⟩).2.self = o ∧
        ObjIs ((HFilter.new A xk B Pk H Q R ss).run ⟨h, o0⟩).2.heap o kf ∧ kf.kalmanGains = [] ∧ o.kalmanGains = [] ∧
        o.A = A ∧ o.xk = xk ∧ o.Pk = Pk ∧ o.H = H ∧ o.Q = Q ∧ o.R = R ∧ (∀ r, B = some r → o.B = r) ∧
        (B = none → h.length ≤ o.B) ∧ h.length ≤ o.I.cell)
      ((HFilter.new A xk B Pk H Q R ss).run ⟨h, o0⟩).1 (KalmanFilter.new a x b P hh q r ss) := by
  rw [new_eq]
  -- the run, once the control matrix is settled
  obtain ⟨h1, B', e1, f1, eB, k1, k2⟩ : ∃ (h1 : Heap F) (B' : ℕ),
      (HFilter.checkNoneAndBroadcast (F := F) B A).run ⟨h, o0⟩ = (.ok B', ⟨h1, o0⟩) ∧
      Frame ∅ h h1 ∧ h1.seqAt B' = some (checkNoneAndBroadcast b a) ∧ (∀ r, B = some r → B' = r) ∧
      (B = none → h.length ≤ B') := by
    rcases B with _ | B <;> rcases b with _ | b
    · refine ⟨h ++ [.seq a.fullLikeNan], h.length, ?_, Frame.append _ _ _, by simp [Heap.seqAt, checkNoneAndBroadcast],
        by simp, by simp⟩
      unfold HFilter.checkNoneAndBroadcast
      rw [HFilter.run_bind, show (HM.getSeq A : HM F (NDArray F)).run ⟨h, o0⟩ = (.ok a, ⟨h, o0⟩) by simp [HM.getSeq, hA]]
      rfl
    · exact absurd hB (by simp [SeqArg])
    · exact absurd hB (by simp [SeqArg])
    · exact ⟨h, B, rfl, Frame.refl _ _, hB, by simp, by simp⟩
  have hx1 : h1.deref xk = some x := (Has.mono f1 ⟨by simp, hx⟩).2
  have g1 : (HM.get xk : HM F (Arr F)).run ⟨h1, o0⟩ = (.ok x, ⟨h1, o0⟩) := by simp [HM.get, hx1]
  have run : (HFilter.new A xk B Pk H Q R ss).run ⟨h, o0⟩ = match HFilter.chooseSize ss x with
      | .error e => (.error e, ⟨h1, o0⟩)
      | .ok n => (.ok ⟨A, xk, B', Pk, H, Q, R, n, .whole h1.length, []⟩,
          ⟨h1 ++ [.arr (Arr.identity n)], ⟨A, xk, B', Pk, H, Q, R, n, .whole h1.length, []⟩⟩) := by
    unfold HFilter.new
    rw [HFilter.run_bind, e1]
    dsimp only
    rw [HFilter.run_bind, g1]
    dsimp only
    rw [HFilter.run_bind]
    rcases HFilter.chooseSize ss x with e | n <;> rfl
  rw [run]
  rcases HFilter.chooseSize ss x with e | n
  · exact (rfl : e = e)
  · have f2 : Frame ∅ h (h1 ++ [Cell.arr (Arr.identity n)]) := f1.trans (Frame.append _ _ _)
    have sq : ∀ {r : ℕ} {c : NDArray F}, h.seqAt r = some c →
        Heap.seqAt (h1 ++ [Cell.arr (Arr.identity n)]) r = some c := fun e => (HasSeq.mono f2 ⟨by simp, e⟩).2
    refine ⟨rfl, ⟨sq hA, HFilter.seqAt_append _ eB, sq hH, sq hQ, sq hR, (Has.mono f2 ⟨by simp, hx⟩).2,
      (Has.mono f2 ⟨by simp, hP⟩).2, by simp [Heap.deref], rfl⟩, rfl, rfl, rfl, rfl, rfl, rfl, rfl, rfl, k1, k2, ?_⟩
    exact f1.len

/-- C65: in-place changes to the caller's arrays after construction act on the object.  Suppose the construction returned
the object `o`, then the memory changed to `h'`: arrays that existed before the construction may hold new values of the same
dtype and shape, the two arrays the constructor made are as they were.  Then `o` holds exactly the values of an object
constructed from the new values. -/
theorem C65_in_place_change_is_seen (h h' : Heap F) (o0 o : HFilter) (st : HState F) (A : ℕ) (xk : View) (B : Option ℕ)
    (Pk : View) (H Q R : ℕ) (ss : Option ℤ) (a a' : NDArray F) (x x' : Arr F) (b b' : Option (NDArray F)) (P P' : Arr F)
    (hh hh' q q' r r' : NDArray F)
    (hA : h.seqAt A = some a) (hx : h.deref xk = some x) (hB : SeqArg h B b) (hP : h.deref Pk = some P)
    (hH : h.seqAt H = some hh) (hQ : h.seqAt Q = some q) (hR : h.seqAt R = some r)
    (made : (HFilter.new A xk B Pk H Q R ss).run ⟨h, o0⟩ = (.ok o, st))
    (hown : ∀ r, h.length ≤ r → r < st.heap.length → h'[r]? = st.heap[r]?)
    (hA' : h'.seqAt A = some a') (hx' : h'.deref xk = some x') (hB' : SeqArg h' B b') (hP' : h'.deref Pk = some P')
    (hH' : h'.seqAt H = some hh') (hQ' : h'.seqAt Q = some q') (hR' : h'.seqAt R = some r')
    (fA : a'.SameForm a) (fx : x'.SameForm x) :
    ∃ kf, KalmanFilter.new a' x' b' P' hh' q' r' ss = .ok kf ∧ ObjIs h' o kf := by
  have key := C65_constructor_keeps_references h o0 A xk B Pk H Q R ss a x b P hh q r hA hx hB hP hH hQ hR
  rw [made] at key
  rcases hn : HFilter.chooseSize ss x with e | n
  · rw [new_eq, hn] at key
    exact absurd key (by simp [Alike, bind, Except.bind])
  have hn' : HFilter.chooseSize ss x' = .ok n := by
    rw [← hn]
    simp only [HFilter.chooseSize, fx.2]
  rw [new_eq, hn] at key
  obtain ⟨-, k1, -, -, rfl, rfl, rfl, rfl, rfl, rfl, kB, kB', kI⟩ := key
  rw [new_eq, hn']
  refine ⟨_, rfl, hA', ?_, hH', hQ', hR', hx', hP', ?_, k1.size⟩
  · rcases B with _ | B <;> rcases b' with _ | b'
    · rcases b with _ | b
      · show h'.seqAt o.B = some a'.fullLikeNan
        rw [HFilter.seqAt_congr (hown _ (kB' rfl) (seqAt_lt k1.B)), k1.B]
        exact congrArg some (SameForm.seqFullLikeNan fA).symm
      · exact absurd hB (by simp [SeqArg])
    · exact absurd hB' (by simp [SeqArg])
    · exact absurd hB' (by simp [SeqArg])
    · rw [kB B rfl]
      exact hB'
  · rw [deref_congr (hown _ kI (deref_lt k1.I)), k1.I]

/-! ## A concrete memory

Cell 0 is the sequence `[[[1]], [[1]]]`, passed as `A`, `H`, `Q` and `R` at once; 1 is `x0`, 2 is `P0`, 3 the data. -/

namespace Ex

def hmem : Heap QN := [.seq (.stack [mat1 (some 1), mat1 (some 1)]), .arr (vec1 (some 0)), .arr (mat1 (some 1)),
  .seq (.stack [vec1 (some 3), vec1 (some 5)])]

def hblank : HFilter := ⟨0, .whole 1, 0, .whole 2, 0, 0, 0, 0, .whole 1, []⟩

def hnew : HM QN HFilter := HFilter.new 0 (.whole 1) none (.whole 2) 0 0 0 none

/-- Memory and object after the construction: the sentinel is cell 4, the identity cell 5. -/
def hst : HState QN := (hnew.run ⟨hmem, hblank⟩).2

-- the construction returns (C65) and the hypotheses of C65 about the arguments hold
example : returned (hnew.run ⟨hmem, hblank⟩) = true := by decide +kernel
example : hmem.seqAt 0 = some (.stack [mat1 (some 1), mat1 (some 1)]) ∧ hmem.deref (.whole 1) = some (vec1 (some 0)) ∧
    hmem.deref (.whole 2) = some (mat1 (some 1)) ∧ SeqArg hmem none none := ⟨rfl, rfl, rfl, trivial⟩

/-- The object of the example. -/
def hkf : KalmanFilter QN :=
  { A := .stack [mat1 (some 1), mat1 (some 1)], xk := vec1 (some 0), B := .stack [mat1 none, mat1 none],
    Pk := mat1 (some 1), H := .stack [mat1 (some 1), mat1 (some 1)], Q := .stack [mat1 (some 1), mat1 (some 1)],
    R := .stack [mat1 (some 1), mat1 (some 1)], stateSize := 1, I := Arr.identity 1, kalmanGains := [] }

-- the hypotheses of C63 and C64 hold for it, with n = 6
theorem hobj : ObjIs hst.heap hst.self hkf := ⟨rfl, rfl, rfl, rfl, rfl, rfl, rfl, rfl, rfl⟩
example : Below 6 hst.self ∧ 6 ≤ hst.heap.length := by
  refine ⟨⟨?_, ?_, ?_, ?_, ?_, ?_, ?_, ?_⟩, ?_⟩ <;> decide +kernel

-- `filter` and `smooth` return on it, also after the user overwrote the returned arrays and the first recorded gain
example : returned ((HFilter.filter 3 none).run hst) = true ∧ returned ((HFilter.smooth 3 none).run hst) = true := by
  constructor <;> decide +kernel

def hacts : List (UserAct QN) := [.filter 3 none, .write 6 (.arr (vec1 none)), .write 7 (.arr (vec1 none)),
  .write 17 (.arr (vec1 none)), .update (.whole 3) (.whole 3) (.whole 3) (.whole 3) (.whole 3), .smooth 3 none]

example : ∀ a ∈ hacts, a.Above 6 := by
  intro a ha
  simp only [hacts, List.mem_cons, List.not_mem_nil, or_false] at ha
  rcases ha with rfl | rfl | rfl | rfl | rfl | rfl <;> simp [UserAct.Above]
example : returned ((HFilter.filter 3 none).run (UserAct.runAll hacts hst)) = true := by decide +kernel

/-- First entry of a one-dimensional state. -/
def hentry (a : Arr QN) : QN :=
  match a with
  | .vec (n := n + 1) _ x => x 0
  | _ => none

/-- First filtered state. -/
def hfirst (r : Except PyErr (ℕ × ℕ) × HState QN) : QN :=
  match r.1 with
  | .ok p => match r.2.heap.deref (.row p.1 0) with
    | some a => hentry a
    | none => none
  | .error _ => none

-- the estimate is 2 before and after; but writing 2 into the shared parameter array (cell 0) changes it
example : hfirst ((HFilter.filter 3 none).run hst) = some 2 ∧
    hfirst ((HFilter.filter 3 none).run (UserAct.runAll hacts hst)) = some 2 ∧
    hfirst ((HFilter.filter 3 none).run
      (UserAct.runAll [.write 0 (.seq (.stack [mat1 (some 2), mat1 (some 2)]))] hst)) = some (18 / 13) := by
  refine ⟨?_, ?_, ?_⟩ <;> decide +kernel

-- the hypotheses of C65_in_place_change_is_seen about forms
example : NDArray.SameForm (.stack [mat1 (some 2), mat1 (some 2)]) (.stack [mat1 (some 1), mat1 (some 1)]) :=
  .cons ⟨rfl, rfl⟩ (.cons ⟨rfl, rfl⟩ .nil)

end Ex

end KK
