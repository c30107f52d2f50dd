import Verif.Model.Heap
import Verif.Proofs.Trace

/-! # The heap model runs like the value model and writes only its own buffers -/

set_option linter.unusedSectionVars false
set_option linter.unusedVariables false

namespace KK

variable {F : Type} [Backend F]

/-- `h'` comes from `h` by allocating and by writing buffers in `S`. -/
structure Frame (S : Set ℕ) (h h' : Heap F) : Prop where
  len : h.length ≤ h'.length
  eq : ∀ r < h.length, r ∉ S → h'[r]? = h[r]?

namespace Frame

variable {S : Set ℕ} {h h' h'' : Heap F}

theorem refl (S : Set ℕ) (h : Heap F) : Frame S h h := ⟨le_rfl, fun _ _ _ => rfl⟩

theorem trans (a : Frame S h h') (b : Frame S h' h'') : Frame S h h'' :=
  ⟨a.len.trans b.len, fun r hr hS => (b.eq r (hr.trans_le a.len) hS).trans (a.eq r hr hS)⟩

theorem append (S : Set ℕ) (h : Heap F) (c : Cell F) : Frame S h (h ++ [c]) :=
  ⟨by simp, fun r hr _ => by rw [List.getElem?_append_left hr]⟩

theorem set {r : ℕ} (hr : r ∈ S) (h : Heap F) (c : Cell F) : Frame S h (h.set r c) :=
  ⟨by simp, fun q hq hS => by
    rw [List.getElem?_set_ne]
    rintro rfl
    exact hS hr⟩

end Frame

/-- The view `v` shows `a`, in a buffer that is not written. -/
def Has (S : Set ℕ) (h : Heap F) (v : View) (a : Arr F) : Prop := v.cell ∉ S ∧ h.deref v = some a

/-- The sequence `r` holds `a`, in a buffer that is not written. -/
def HasSeq (S : Set ℕ) (h : Heap F) (r : ℕ) (a : NDArray F) : Prop := r ∉ S ∧ h.seqAt r = some a

theorem deref_congr {h h' : Heap F} {v : View} (e : h'[v.cell]? = h[v.cell]?) : h'.deref v = h.deref v := by
  induction v with
  | whole r => simp only [View.cell] at e; simp only [Heap.deref, e]
  | row r k => simp only [View.cell] at e; simp only [Heap.deref, Heap.seqAt, e]
  | trans v ih => simp only [Heap.deref, ih e]
  | at1 v ih => simp only [Heap.deref, ih e]

theorem deref_lt {h : Heap F} {v : View} {a : Arr F} (e : h.deref v = some a) : v.cell < h.length := by
  induction v generalizing a with
  | whole r =>
    by_contra hc
    simp only [View.cell, not_lt] at hc
    simp [Heap.deref, List.getElem?_eq_none hc] at e
  | row r k =>
    by_contra hc
    simp only [View.cell, not_lt] at hc
    simp [Heap.deref, Heap.seqAt, List.getElem?_eq_none hc] at e
  | trans v ih =>
    simp only [Heap.deref, Option.map_eq_some_iff] at e
    obtain ⟨b, hb, -⟩ := e
    exact ih hb
  | at1 v ih =>
    simp only [Heap.deref, Option.map_eq_some_iff] at e
    obtain ⟨b, hb, -⟩ := e
    exact ih hb

theorem seqAt_lt {h : Heap F} {r : ℕ} {a : NDArray F} (e : h.seqAt r = some a) : r < h.length := by
  by_contra hc
  simp only [not_lt] at hc
  simp [Heap.seqAt, List.getElem?_eq_none hc] at e

theorem Has.mono {S : Set ℕ} {h h' : Heap F} {v : View} {a : Arr F} (f : Frame S h h') (x : Has S h v a) :
    Has S h' v a := ⟨x.1, by rw [deref_congr (f.eq _ (deref_lt x.2) x.1)]; exact x.2⟩

theorem HasSeq.mono {S : Set ℕ} {h h' : Heap F} {r : ℕ} {a : NDArray F} (f : Frame S h h') (x : HasSeq S h r a) :
    HasSeq S h' r a := ⟨x.1, by rw [Heap.seqAt, f.eq _ (seqAt_lt x.2) x.1]; exact x.2⟩

theorem Has.T {S : Set ℕ} {h : Heap F} {v : View} {a : Arr F} (x : Has S h v a) : Has S h (.trans v) a.T :=
  ⟨x.1, by simp [Heap.deref, x.2]⟩

theorem Has.at1 {S : Set ℕ} {h : Heap F} {v : View} {a : Arr F} (x : Has S h v a) : Has S h (.at1 v) a.atleast1d :=
  ⟨x.1, by simp [Heap.deref, x.2]⟩

theorem HasSeq.row {S : Set ℕ} {h : Heap F} {r k : ℕ} {l : List (Arr F)} {a : Arr F} (x : HasSeq S h r (.stack l))
    (e : l[k]? = some a) : Has S h (.row r k) a :=
  ⟨x.1, by simp [Heap.deref, x.2, e]⟩

/-- References to recorded gains and their values. -/
def GainsAre (n : ℕ) (h : Heap F) (gs : List View) (vals : List (Arr F)) : Prop :=
  List.Forall₂ (fun v a => n ≤ v.cell ∧ h.deref v = some a) gs vals

/-- The heap program `m` and the value program `p` do the same: same outcome, and the heap program allocates, writes only
buffers in `S`, leaves all attributes of the object alone and records references to buffers `≥ n` that hold the gains
recorded by `p`. -/
def Sim {α β : Type} (n : ℕ) (S : Set ℕ) (h : Heap F) (o : HFilter) (kf : KalmanFilter F) (m : HM F α)
    (p : Py (KalmanFilter F) β) (R : Heap F → α → β → Prop) : Prop :=
  ∃ h' gs vals, Frame S h h' ∧ GainsAre n h' gs vals ∧
    (m.run ⟨h, o⟩).2 = ⟨h', { o with kalmanGains := o.kalmanGains ++ gs }⟩ ∧
    (p.run kf).2 = { kf with kalmanGains := kf.kalmanGains ++ vals } ∧
    match (m.run ⟨h, o⟩).1, (p.run kf).1 with
    | .ok a, .ok b => R h' a b
    | .error e, .error e' => e = e'
    | _, _ => False

section
variable {α β γ δ : Type} {n : ℕ} {S : Set ℕ} {h : Heap F} {o : HFilter} {kf : KalmanFilter F}

theorem GainsAre.mono {h' : Heap F} (hS : ∀ r ∈ S, r < n) (f : Frame S h h') {gs : List View} {vals : List (Arr F)}
    (g : GainsAre n h gs vals) : GainsAre n h' gs vals := by
  refine List.Forall₂.imp ?_ g
  rintro v a ⟨h1, h2⟩
  exact ⟨h1, by rw [deref_congr (f.eq _ (deref_lt h2) fun hc => absurd (hS _ hc) (by omega))]; exact h2⟩

theorem sim_bind (hS : ∀ r ∈ S, r < n) {m : HM F α} {p : Py (KalmanFilter F) β} {R : Heap F → α → β → Prop}
    {f : α → HM F γ} {g : β → Py (KalmanFilter F) δ} {R' : Heap F → γ → δ → Prop} (x : Sim n S h o kf m p R)
    (y : ∀ a b h' gs vals, Frame S h h' → GainsAre n h' gs vals → R h' a b →
      Sim n S h' { o with kalmanGains := o.kalmanGains ++ gs } { kf with kalmanGains := kf.kalmanGains ++ vals }
        (f a) (g b) R') :
    Sim n S h o kf (m >>= f) (p >>= g) R' := by
  obtain ⟨h', gs, vals, x1, x2, x3, x4, x5⟩ := x
  show Sim n S h o kf (Py.bind m f) (Py.bind p g) R'
  rcases hm : m.run ⟨h, o⟩ with ⟨e | a, st⟩ <;> rcases hp : p.run kf with ⟨e' | b, kf'⟩ <;>
    rw [hm, hp] at x5 <;> rw [hm] at x3 <;> rw [hp] at x4 <;> dsimp only at x3 x4 x5
  · refine ⟨h', gs, vals, x1, x2, ?_, ?_, ?_⟩ <;> simp only [Py.bind, hm, hp, x3, x4]
    exact x5
  · obtain ⟨h'', gs', vals', y1, y2, y3, y4, y5⟩ := y a b h' gs vals x1 x2 x5
    refine ⟨h'', gs ++ gs', vals ++ vals', x1.trans y1, List.rel_append (x2.mono hS y1) y2, ?_, ?_, ?_⟩ <;>
      simp only [Py.bind, hm, hp, x3, x4]
    · rw [y3]; simp [List.append_assoc]
    · rw [y4]; simp [List.append_assoc]
    · exact y5

theorem sim_lift (y : Except PyErr α) {R : Heap F → α → α → Prop} (hR : ∀ a, y = .ok a → R h a a) :
    Sim n S h o kf (Py.lift y) (Py.lift y) R := by
  refine ⟨h, [], [], Frame.refl S h, .nil, by simp [Py.lift], by simp [Py.lift], ?_⟩
  rcases y with e | a
  · rfl
  · exact hR a rfl

theorem sim_ok (a : α) (b : β) {R : Heap F → α → β → Prop} (hR : R h a b) :
    Sim n S h o kf (Py.lift (.ok a)) (Py.lift (.ok b)) R :=
  ⟨h, [], [], Frame.refl S h, .nil, by simp [Py.lift], by simp [Py.lift], hR⟩

theorem sim_error (e : PyErr) {R : Heap F → α → β → Prop} :
    Sim n S h o kf (Py.lift (.error e)) (Py.lift (.error e)) R :=
  ⟨h, [], [], Frame.refl S h, .nil, by simp [Py.lift], by simp [Py.lift], rfl⟩

/-- A step of the heap program that only reads. -/
theorem sim_left {m : HM F α} {a : α} (hm : m.run ⟨h, o⟩ = (.ok a, ⟨h, o⟩)) {f : α → HM F γ}
    {p : Py (KalmanFilter F) δ} {R : Heap F → γ → δ → Prop} (x : Sim n S h o kf (f a) p R) :
    Sim n S h o kf (m >>= f) p R := by
  have e : (m >>= f).run ⟨h, o⟩ = (f a).run ⟨h, o⟩ := by
    show (Py.bind m f).run _ = _
    simp only [Py.bind, hm]
  unfold Sim at x ⊢
  rwa [e]

/-- A step of the value program that changes nothing. -/
theorem sim_right {p : Py (KalmanFilter F) β} {b : β} (hp : p.run kf = (.ok b, kf)) {m : HM F γ}
    {g : β → Py (KalmanFilter F) δ} {R : Heap F → γ → δ → Prop} (x : Sim n S h o kf m (g b) R) :
    Sim n S h o kf m (p >>= g) R := by
  have e : (p >>= g).run kf = (g b).run kf := by
    show (Py.bind p g).run _ = _
    simp only [Py.bind, hp]
  unfold Sim at x ⊢
  rwa [e]

/-- A step of the heap program that allocates. -/
theorem sim_alloc {m : HM F α} {a : α} {c : Cell F} (hm : m.run ⟨h, o⟩ = (.ok a, ⟨h ++ [c], o⟩)) {f : α → HM F γ}
    {p : Py (KalmanFilter F) δ} {R : Heap F → γ → δ → Prop} (x : Sim n S (h ++ [c]) o kf (f a) p R) :
    Sim n S h o kf (m >>= f) p R := by
  have e : (m >>= f).run ⟨h, o⟩ = (f a).run ⟨h ++ [c], o⟩ := by
    show (Py.bind m f).run _ = _
    simp only [Py.bind, hm]
  obtain ⟨h', gs, vals, x1, x2, x3, x4, x5⟩ := x
  exact ⟨h', gs, vals, (Frame.append S h c).trans x1, x2, by rw [e, x3], x4, by rw [e]; exact x5⟩

theorem run_get {v : View} {a : Arr F} (hv : Has S h v a) : (HM.get v).run ⟨h, o⟩ = (.ok a, ⟨h, o⟩) := by
  simp [HM.get, hv.2]

theorem run_getSeq {r : ℕ} {a : NDArray F} (hv : HasSeq S h r a) : (HM.getSeq r).run ⟨h, o⟩ = (.ok a, ⟨h, o⟩) := by
  simp [HM.getSeq, hv.2]

/-- A new array `≥ n`. -/
def Fresh (n : ℕ) (S : Set ℕ) (h : Heap F) (v : View) (a : Arr F) : Prop := n ≤ v.cell ∧ Has S h v a

theorem sim_new (hS : ∀ r ∈ S, r < n) (hn : n ≤ h.length) (a : Arr F) :
    Sim n S h o kf (HM.new a) (Py.lift (.ok a)) (Fresh n S) := by
  refine ⟨h ++ [.arr a], [], [], Frame.append S h _, .nil, by simp [HM.new], by simp [Py.lift], ?_⟩
  show Fresh n S _ (.whole h.length) a
  refine ⟨hn, fun hc => absurd (hS _ hc) (by simpa [View.cell] using hn), by simp [Heap.deref]⟩

theorem lift_bind (y : Except PyErr α) (g : α → Except PyErr β) :
    (Py.lift (y >>= g) : Py (KalmanFilter F) β) = Py.lift y >>= fun a => Py.lift (g a) := by
  rcases y with e | a <;> rfl

theorem sim_op (hS : ∀ r ∈ S, r < n) (hn : n ≤ h.length) (f : Arr F → Arr F → Except PyErr (Arr F)) {v w : View}
    {a b : Arr F} (hv : Has S h v a) (hw : Has S h w b) :
    Sim n S h o kf (HM.op f v w) (Py.lift (f a b)) (Fresh n S) := by
  refine sim_left (run_get hv) (sim_left (run_get hw) ?_)
  rcases f a b with e | c
  · exact ⟨h, [], [], Frame.refl S h, .nil, by simp [Py.lift, bind, Py.bind], by simp [Py.lift], rfl⟩
  · exact sim_left (a := c) rfl (sim_new hS hn c)

end

/-- Find the value behind a view: known, transposed, or known in an earlier heap. -/
syntax "has" : tactic
macro_rules
  | `(tactic| has) => `(tactic| first
      | assumption
      | (apply Has.T; has)
      | (apply Has.at1; has)
      | (apply Has.mono; assumption; has))

/-- Find `n ≤ h.length`. -/
syntax "big" : tactic
macro_rules
  | `(tactic| big) => `(tactic| first
      | assumption
      | (refine le_trans ?_ (Frame.len (by assumption)); big))

namespace HFilter

variable {n : ℕ} {S : Set ℕ} {h : Heap F} {o : HFilter} {kf : KalmanFilter F}

/-- Both results are new arrays. -/
def Fresh2 (n : ℕ) (S : Set ℕ) (h : Heap F) (v : View × View) (a : Arr F × Arr F) : Prop :=
  Fresh n S h v.1 a.1 ∧ Fresh n S h v.2 a.2

theorem Fresh.mono {h' : Heap F} {v : View} {a : Arr F} (f : Frame S h h') (x : Fresh n S h v a) : Fresh n S h' v a :=
  ⟨x.1, x.2.mono f⟩

theorem sim_gain (hS : ∀ r ∈ S, r < n) (hn : n ≤ h.length) {vH vP vR : View} {H P R : Arr F} (hH : Has S h vH H)
    (hP : Has S h vP P) (hR : Has S h vR R) :
    Sim n S h o kf (gain vH vP vR) (Py.lift (KalmanFilter.gain H P R)) (Fresh n S) := by
  unfold gain KalmanFilter.gain
  simp only [lift_bind]
  refine sim_bind hS (sim_op hS (by big) _ (by has) (by has)) fun v1 c1 h1 _ _ f1 _ ⟨_, r1⟩ => ?_
  refine sim_bind hS (sim_op hS (by big) _ (by has) (by has)) fun v2 c2 h2 _ _ f2 _ ⟨_, r2⟩ => ?_
  refine sim_bind hS (sim_op hS (by big) _ (by has) (by has)) fun v3 c3 h3 _ _ f3 _ ⟨_, r3⟩ => ?_
  refine sim_bind hS (sim_op hS (by big) _ (by has) (by has)) fun v4 c4 h4 _ _ f4 _ ⟨_, r4⟩ => ?_
  refine sim_bind hS (sim_op hS (by big) _ (by has) (by has)) fun v5 c5 h5 _ _ f5 _ ⟨l5, r5⟩ => ?_
  exact sim_ok _ _ ⟨l5, r5.T⟩

theorem sim_correct (hS : ∀ r ∈ S, r < n) (hn : n ≤ h.length) {vI vK vH vx vP vz : View} {I K H x P z : Arr F}
    (hI : Has S h vI I) (hK : Has S h vK K) (hH : Has S h vH H) (hx : Has S h vx x) (hP : Has S h vP P)
    (hz : Has S h vz z) :
    Sim n S h o kf (correct vI vK vH vx vP vz) (Py.lift (KalmanFilter.correct I K H x P z)) (Fresh2 n S) := by
  unfold correct KalmanFilter.correct
  simp only [lift_bind]
  refine sim_bind hS (sim_op hS (by big) _ (by has) (by has)) fun v1 c1 h1 _ _ f1 _ ⟨_, r1⟩ => ?_
  refine sim_bind hS (sim_op hS (by big) _ (by has) (by has)) fun v2 c2 h2 _ _ f2 _ ⟨_, r2⟩ => ?_
  refine sim_bind hS (sim_op hS (by big) _ (by has) (by has)) fun v3 c3 h3 _ _ f3 _ ⟨_, r3⟩ => ?_
  refine sim_bind hS (sim_op hS (by big) _ (by has) (by has)) fun v4 c4 h4 _ _ f4 _ ⟨l4, r4⟩ => ?_
  refine sim_bind hS (sim_op hS (by big) _ (by has) (by has)) fun v5 c5 h5 _ _ f5 _ ⟨_, r5⟩ => ?_
  refine sim_bind hS (sim_op hS (by big) _ (by has) (by has)) fun v6 c6 h6 _ _ f6 _ ⟨_, r6⟩ => ?_
  refine sim_bind hS (sim_op hS (by big) _ (by has) (by has)) fun v7 c7 h7 _ _ f7 _ ⟨l7, r7⟩ => ?_
  exact sim_ok _ _ ⟨⟨l4, by has⟩, ⟨l7, r7⟩⟩

theorem predict_eq' (A x B u P Q : Arr F) : KalmanFilter.predict A x (some B) (some u) P Q =
    ((if (B.isnanAll || u.isnanAll) = true then A.matmul x else
        A.matmul x >>= fun ax => B.matmul u >>= fun bu => ax.add bu) >>= fun xp =>
      P.matmul A.T >>= fun pat => A.matmul pat >>= fun apat => apat.add Q >>= fun Pp => .ok (xp, Pp)) := by
  simp only [KalmanFilter.predict, isNanAll]
  rcases hB : B.isnanAll with _ | _
  · rcases hu : u.isnanAll with _ | _
    · rcases A.matmul x with e | ax
      · rfl
      rcases B.matmul u with e | bu
      · rfl
      · rfl
    · rfl
  · rfl

theorem sim_predict (hS : ∀ r ∈ S, r < n) (hn : n ≤ h.length) {vA vx vB vu vP vQ : View} {A x B u P Q : Arr F}
    (hA : Has S h vA A) (hx : Has S h vx x) (hB : Has S h vB B) (hu : Has S h vu u) (hP : Has S h vP P)
    (hQ : Has S h vQ Q) :
    Sim n S h o kf (predict vA vx vB vu vP vQ) (Py.lift (KalmanFilter.predict A x (some B) (some u) P Q))
      (Fresh2 n S) := by
  rw [predict_eq']
  unfold predict
  simp only [lift_bind]
  have hc : (controlOff vB vu).run ⟨h, o⟩ = (.ok (B.isnanAll || u.isnanAll), ⟨h, o⟩) := by
    show (Py.bind _ _).run _ = _
    simp only [Py.bind, run_get hB]
    rcases B.isnanAll with _ | _
    · show (Py.bind _ _).run _ = _
      simp only [Py.bind, run_get hu]
      rfl
    · rfl
  refine sim_left hc ?_
  refine sim_bind (R := Fresh n S) hS ?_ fun v0 c0 h0 _ _ f0 _ ⟨l0, r0⟩ => ?_
  · rcases (B.isnanAll || u.isnanAll) with _ | _
    · simp only [priorMean, Bool.false_eq_true, if_false, lift_bind]
      refine sim_bind hS (sim_op hS (by big) _ (by has) (by has)) fun v1 c1 h1 _ _ f1 _ ⟨_, r1⟩ => ?_
      refine sim_bind hS (sim_op hS (by big) _ (by has) (by has)) fun v2 c2 h2 _ _ f2 _ ⟨_, r2⟩ => ?_
      exact sim_op hS (by big) _ (by has) (by has)
    · simp only [priorMean, if_true]
      exact sim_op hS (by big) _ (by has) (by has)
  · refine sim_bind hS (sim_op hS (by big) _ (by has) (by has)) fun v1 c1 h1 _ _ f1 _ ⟨_, r1⟩ => ?_
    refine sim_bind hS (sim_op hS (by big) _ (by has) (by has)) fun v2 c2 h2 _ _ f2 _ ⟨_, r2⟩ => ?_
    refine sim_bind hS (sim_op hS (by big) _ (by has) (by has)) fun v3 c3 h3 _ _ f3 _ ⟨l3, r3⟩ => ?_
    exact sim_ok _ _ ⟨⟨l0, by has⟩, ⟨l3, r3⟩⟩

theorem sim_update (hS : ∀ r ∈ S, r < n) (hn : n ≤ h.length) {vH vx vP vz vR : View} {H x P z R : Arr F}
    (hI : Has S h o.I kf.I) (hH : Has S h vH H) (hx : Has S h vx x) (hP : Has S h vP P)
    (hz : Has S h vz z) (hR : Has S h vR R) :
    Sim n S h o kf (update vH vx vP vz vR) (KalmanFilter.update H x P z R) (Fresh2 n S) := by
  unfold update KalmanFilter.update
  refine sim_bind hS (sim_gain hS hn hH hP hR) fun vK K h1 gs vals f1 _ ⟨lK, rK⟩ => ?_
  refine sim_bind (R := fun h _ _ => Frame S h1 h) hS ?_ fun _ _ h2 gs' vals' f2 _ _ => ?_
  · refine ⟨h1, [vK], [K], Frame.refl _ _, .cons ⟨lK, rK.2⟩ .nil, rfl, rfl, Frame.refl _ _⟩
  · refine sim_left (a := _) rfl (sim_right (b := _) rfl ?_)
    exact sim_correct hS (by big) (by has) (by has) (by has) (by has) (by has) (by has)

theorem run_setRow {assign : Arr F → Except PyErr (Arr F)} {r k : ℕ} {v : View} {a : Arr F} {l : List (Arr F)}
    (hv : h.deref v = some a) (hl : h.seqAt r = some (.stack l)) : (HM.setRow assign r k v).run ⟨h, o⟩ =
    match assign a with
    | .ok b => (.ok (), ⟨h.set r (.seq (.stack (l.set k b))), o⟩)
    | .error e => (.error e, ⟨h, o⟩) := by
  show (Py.bind _ _).run _ = _
  have : (HM.get v).run ⟨h, o⟩ = (.ok a, ⟨h, o⟩) := by simp [HM.get, hv]
  simp only [Py.bind, this]
  show (Py.bind _ _).run _ = _
  rcases assign a with e | b
  · rfl
  · simp only [Py.bind, Py.lift, hl]

theorem seqAt_set_self {r : ℕ} {a b : NDArray F} (e : h.seqAt r = some a) : Heap.seqAt (h.set r (.seq b)) r = some b := by
  simp [Heap.seqAt, seqAt_lt e]

theorem seqAt_set_ne {r q : ℕ} (hne : q ≠ r) (c : Cell F) : Heap.seqAt (h.set r c) q = h.seqAt q := by
  simp [Heap.seqAt, List.getElem?_set_ne (Ne.symm hne)]

/-- The result buffers hold `xs` and `Ps`. -/
def Out (s e : ℕ) (h : Heap F) (xs Ps : List (Arr F)) : Prop :=
  h.seqAt s = some (.stack xs) ∧ h.seqAt e = some (.stack Ps)

theorem sim_set {γ δ : Type} {assign : Arr F → Except PyErr (Arr F)} {r k : ℕ} {v : View} {a : Arr F}
    {l : List (Arr F)} (hr : r ∈ S) (hv : h.deref v = some a) (hl : h.seqAt r = some (.stack l)) {f : Unit → HM F γ}
    {g : Arr F → Py (KalmanFilter F) δ} {R : Heap F → γ → δ → Prop}
    (x : ∀ b, Sim n S (h.set r (.seq (.stack (l.set k b)))) o kf (f ()) (g b) R) :
    Sim n S h o kf (HM.setRow assign r k v >>= f) (Py.lift (assign a) >>= g) R := by
  rcases ha : assign a with e | b
  · refine ⟨h, [], [], Frame.refl _ _, .nil, ?_, ?_, ?_⟩
    · show ((Py.bind _ _).run _).2 = _
      simp only [Py.bind, run_setRow hv hl, ha, List.append_nil]
    · show ((Py.bind _ _).run _).2 = _
      simp only [Py.bind, Py.lift, List.append_nil]
    · show match ((Py.bind _ _).run _).1, ((Py.bind _ _).run _).1 with
        | .ok a, .ok b => R h a b
        | .error e, .error e' => e = e'
        | _, _ => False
      simp only [Py.bind, run_setRow hv hl, ha, Py.lift]
  · obtain ⟨h', gs, vals, x1, x2, x3, x4, x5⟩ := x b
    have e : (HM.setRow assign r k v >>= f).run ⟨h, o⟩ = (f ()).run ⟨h.set r (.seq (.stack (l.set k b))), o⟩ := by
      show (Py.bind _ _).run _ = _
      simp only [Py.bind, run_setRow hv hl, ha]
    have e' : (Py.lift (Except.ok b) >>= g).run kf = (g b).run kf := rfl
    refine ⟨h', gs, vals, (Frame.set hr h _).trans x1, x2, by rw [e, x3], by rw [e', x4], ?_⟩
    rw [e, e']
    exact x5

/-- Views of the arguments of one step. -/
def RowIs (S : Set ℕ) (h : Heap F) (v : View × View × View × View × View × View × View) (a : KalmanFilter.Row F) : Prop :=
  Has S h v.1 a.1 ∧ Has S h v.2.1 a.2.1 ∧ Has S h v.2.2.1 a.2.2.1 ∧ Has S h v.2.2.2.1 a.2.2.2.1 ∧
    Has S h v.2.2.2.2.1 a.2.2.2.2.1 ∧ Has S h v.2.2.2.2.2.1 a.2.2.2.2.2.1 ∧ Has S h v.2.2.2.2.2.2 a.2.2.2.2.2.2

theorem RowIs.mono {h' : Heap F} {v : View × View × View × View × View × View × View} {a : KalmanFilter.Row F}
    (f : Frame S h h') (x : RowIs S h v a) : RowIs S h' v a :=
  ⟨x.1.mono f, x.2.1.mono f, x.2.2.1.mono f, x.2.2.2.1.mono f, x.2.2.2.2.1.mono f, x.2.2.2.2.2.1.mono f,
    x.2.2.2.2.2.2.mono f⟩

theorem seqAt_congr {h' : Heap F} {r : ℕ} (e : h'[r]? = h[r]?) : h'.seqAt r = h.seqAt r := by
  simp only [Heap.seqAt, e]

theorem Frame.weaken {h' : Heap F} (f : Frame ∅ h h') : Frame S h h' := ⟨f.len, fun r hr _ => f.eq r hr (by simp)⟩

theorem Has.weaken {v : View} {a : Arr F} (x : Has S h v a) : Has ∅ h v a := ⟨by simp, x.2⟩

theorem Fresh.strengthen (hS : ∀ r ∈ S, r < n) {v : View} {a : Arr F} (x : Fresh n ∅ h v a) : Has S h v a :=
  ⟨fun hc => absurd (hS _ hc) (by have := x.1; omega), x.2.2⟩

/-- A first step that writes no buffer. -/
theorem sim_bind0 {α β γ δ : Type} (hS : ∀ r ∈ S, r < n) {m : HM F α} {p : Py (KalmanFilter F) β}
    {R : Heap F → α → β → Prop} {f : α → HM F γ} {g : β → Py (KalmanFilter F) δ} {R' : Heap F → γ → δ → Prop}
    (x : Sim n ∅ h o kf m p R)
    (y : ∀ a b h' gs vals, Frame ∅ h h' → GainsAre n h' gs vals → R h' a b → (p.run kf).1 = .ok b →
      Sim n S h' { o with kalmanGains := o.kalmanGains ++ gs } { kf with kalmanGains := kf.kalmanGains ++ vals }
        (f a) (g b) R') :
    Sim n S h o kf (m >>= f) (p >>= g) R' := by
  obtain ⟨h', gs, vals, x1, x2, x3, x4, x5⟩ := x
  have : Sim n S h o kf m p (fun h' a b => Frame ∅ h h' ∧ R h' a b ∧ (p.run kf).1 = .ok b) := by
    refine ⟨h', gs, vals, Frame.weaken x1, x2, x3, x4, ?_⟩
    revert x5
    rcases (m.run ⟨h, o⟩).1 with e | a <;> rcases (p.run kf).1 with e' | b <;> intro x5
    · exact x5
    · exact x5
    · exact x5
    · exact ⟨x1, x5, rfl⟩
  exact sim_bind hS this fun a b h' gs vals _ g1 ⟨f1, r1, r2⟩ => y a b h' gs vals f1 g1 r1 r2

theorem Out.mono {s e : ℕ} {h' : Heap F} {xs Ps : List (Arr F)} (f : Frame ∅ h h') (x : Out s e h xs Ps) :
    Out s e h' xs Ps :=
  ⟨by rw [seqAt_congr (f.eq _ (seqAt_lt x.1) (by simp))]; exact x.1,
    by rw [seqAt_congr (f.eq _ (seqAt_lt x.2) (by simp))]; exact x.2⟩

theorem sim_filterLoop {s e d : ℕ} (hs : s < n) (he : e < n) (hse : s ≠ e) (hn : n ≤ h.length)
    (hsz : kf.stateSize = d) (hI : Has {s, e} h o.I kf.I)
    {vrows : List (View × View × View × View × View × View × View)} {rows : List (KalmanFilter.Row F)}
    (hrows : List.Forall₂ (RowIs {s, e} h) vrows rows) {vx vP : View} {x P : Arr F} (hx : Has {s, e} h vx x)
    (hP : Has {s, e} h vP P) {xs Ps : List (Arr F)} (hout : Out s e h xs Ps) (k : ℕ) :
    Sim n {s, e} h o kf (filterLoop s e d k vrows vx vP) (KalmanFilter.filterLoop k rows x P xs Ps)
      (fun h' _ b => Out s e h' b.1 b.2) := by
  have hS : ∀ r ∈ ({s, e} : Set ℕ), r < n := by
    rintro r (rfl | rfl) <;> assumption
  have hS0 : ∀ r ∈ (∅ : Set ℕ), r < n := by simp
  induction rows generalizing vrows h o kf vx vP x P xs Ps k with
  | nil => cases hrows; exact sim_ok _ _ hout
  | cons a rest ih =>
    rcases hrows with _ | @⟨v, _, vrest, _, hva, hrest⟩
    obtain ⟨vA, vH, vB, vu, vz, vQ, vR⟩ := v
    obtain ⟨A, H, B, u, z, Q, R⟩ := a
    obtain ⟨rA, rH, rB, ru, rz, rQ, rR⟩ := hva
    dsimp only at rA rH rB ru rz rQ rR
    unfold filterLoop KalmanFilter.filterLoop
    refine sim_bind0 hS (sim_predict hS0 hn (Has.weaken rA) (Has.weaken hx) (Has.weaken rB) (Has.weaken ru)
      (Has.weaken hP) (Has.weaken rQ)) fun v1 c1 h1 gs1 w1 f1 _ ⟨q1, q2⟩ _ => ?_
    obtain ⟨v1, v2⟩ := v1
    obtain ⟨c1, c2⟩ := c1
    have g1 : Frame {s, e} h h1 := Frame.weaken f1
    dsimp only
    refine sim_bind0 hS (sim_update hS0 (hn.trans f1.len) (Has.weaken (Has.mono g1 hI)) (Has.weaken (rH.mono g1)) q1.2 q2.2
      (Has.weaken (rz.mono g1)) (Has.weaken (rR.mono g1))) fun v3 c3 h2 gs2 w2 f2 _ ⟨q3, q4⟩ _ => ?_
    obtain ⟨v3, v4⟩ := v3
    obtain ⟨c3, c4⟩ := c3
    have g2 : Frame {s, e} h1 h2 := Frame.weaken f2
    dsimp only
    have o2 := Out.mono f2 (Out.mono f1 hout)
    refine sim_right (b := _) rfl ?_
    subst hsz
    refine sim_set (by simp) q3.2.2 o2.1 fun b => ?_
    have g3 : Frame {s, e} h2 (h2.set s (.seq (.stack (xs.set k b)))) := Frame.set (by simp) _ _
    have q4' := (Fresh.strengthen hS q4).mono g3
    refine sim_set (by simp) q4'.2 (by rw [seqAt_set_ne (Ne.symm hse)]; exact o2.2) fun b' => ?_
    have g4 : Frame {s, e} (h2.set s (.seq (.stack (xs.set k b))))
      ((h2.set s (.seq (.stack (xs.set k b)))).set e (.seq (.stack (Ps.set k b')))) := Frame.set (by simp) _ _
    have g : Frame {s, e} h ((h2.set s (.seq (.stack (xs.set k b)))).set e (.seq (.stack (Ps.set k b')))) :=
      ((g1.trans g2).trans g3).trans g4
    have hfin : Out s e ((h2.set s (.seq (.stack (xs.set k b)))).set e (.seq (.stack (Ps.set k b')))) (xs.set k b)
        (Ps.set k b') := ?_
    · exact ih (h := (h2.set s (.seq (.stack (xs.set k b)))).set e (.seq (.stack (Ps.set k b'))))
        (o := { o with kalmanGains := o.kalmanGains ++ gs1 ++ gs2 })
        (kf := { kf with kalmanGains := kf.kalmanGains ++ w1 ++ w2 }) (hn.trans g.len) rfl (hI.mono g)
        (hrest.imp fun _ _ hr => RowIs.mono g hr)
        (((Fresh.strengthen hS q3).mono g3).mono g4) (q4'.mono g4) hfin (k + 1)
    refine ⟨?_, ?_⟩
    · rw [seqAt_set_ne hse]; exact seqAt_set_self o2.1
    · refine seqAt_set_self (a := .stack Ps) ?_
      rw [seqAt_set_ne (Ne.symm hse)]; exact o2.2

end HFilter

end KK
