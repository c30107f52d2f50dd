import Verif.Proofs.HeapExt
import Verif.Proofs.HeapSmooth

/-! # The heap model of the extended filter: `filter` and `smooth` -/

set_option linter.unusedSectionVars false
set_option linter.unusedVariables false

namespace KK

variable {F : Type} [Backend F]

open HFilter (Out seqAt_set_self seqAt_set_ne seqAt_append seqAt_congr forall₂_range forall₂_zip NewOut run_bind)

section
variable {α β γ δ : Type} {S S' : Set ℕ} {h : Heap F}

theorem hsim_alloc {m : HeapM F α} {a : α} {c : Cell F} (hm : m.run h = (.ok a, h ++ [c])) {f : α → HeapM F γ}
    {y : Except PyErr δ} {R : Heap F → γ → δ → Prop} (x : HSim S (h ++ [c]) (f a) y R) : HSim S h (m >>= f) y R := by
  have e : (m >>= f).run h = (f a).run (h ++ [c]) := by rw [run_bind, hm]
  unfold HSim at x ⊢
  rw [e]
  exact ⟨(Frame.append S h c).trans x.1, x.2⟩

theorem hsim_error (e : PyErr) {R : Heap F → α → β → Prop} : HSim S h (Py.lift (.error e)) (.error e) R :=
  ⟨Frame.refl _ _, rfl⟩

theorem hrun_setRow {assign : Arr F → Except PyErr (Arr F)} {r k : ℕ} {v : View} {a : Arr F} {l : List (Arr F)}
    (hv : h.deref v = some a) (hl : h.seqAt r = some (.stack l)) :
    (HeapM.setRow assign r k v).run h = match assign a with
      | .ok b => (.ok (), h.set r (.seq (.stack (l.set k b))))
      | .error e => (.error e, h) := by
  unfold HeapM.setRow
  rw [run_bind, hrun_get hv]
  dsimp only
  rw [run_bind]
  rcases assign a with e | b
  · rfl
  · simp only [Py.lift, hl]

theorem hsim_set {assign : Arr F → Except PyErr (Arr F)} {r k : ℕ} {v : View} {a : Arr F}
    {l : List (Arr F)} (hr : r ∈ S) (hv : h.deref v = some a) (hl : h.seqAt r = some (.stack l)) {f : Unit → HeapM F γ}
    {g : Arr F → Except PyErr δ} {R : Heap F → γ → δ → Prop}
    (x : ∀ b, HSim S (h.set r (.seq (.stack (l.set k b)))) (f ()) (g b) R) :
    HSim S h (HeapM.setRow assign r k v >>= f) (assign a >>= g) R := by
  have e := hrun_setRow (k := k) (assign := assign) hv hl
  unfold HSim
  rw [run_bind, e]
  rcases assign a with e | b
  · exact ⟨Frame.refl _ _, rfl⟩
  · obtain ⟨x1, x2⟩ := x b
    exact ⟨(Frame.set hr h _).trans x1, x2⟩

theorem hsim_rows {r : ℕ} {a : NDArray F} (ha : HasSeq S' h r a) {f : List View → HeapM F γ}
    {g : List (Arr F) → Except PyErr δ} {R : Heap F → γ → δ → Prop}
    (x : ∀ vs l, List.Forall₂ (Has S' h) vs l → HSim S h (f vs) (g l) R) :
    HSim S h (HeapM.rows r >>= f) (a.iter >>= g) R := by
  rcases a with ⟨d, c⟩ | l
  · have e : (HeapM.rows r >>= f).run h = (.error .typeError, h) := by
      rw [run_bind, HeapM.rows, run_bind, hrun_getSeq ha.2]
      rfl
    unfold HSim
    rw [e]
    exact ⟨Frame.refl _ _, rfl⟩
  · refine hsim_left (a := (List.range l.length).map (View.row r)) ?_ (x _ l ?_)
    · rw [HeapM.rows, run_bind, hrun_getSeq ha.2]
      rfl
    · rw [List.forall₂_map_left_iff]
      exact forall₂_range l fun k b hb => ha.row hb

theorem hsim_item {r k : ℕ} {a : NDArray F} (ha : HasSeq S' h r a) {f : View → HeapM F γ}
    {g : Arr F → Except PyErr δ} {R : Heap F → γ → δ → Prop}
    (x : ∀ b, Has S' h (.row r k) b → HSim S h (f (.row r k)) (g b) R) :
    HSim S h (HeapM.item r k >>= f) (a.item k >>= g) R := by
  have e : (HeapM.item r k : HeapM F View).run h = ((a.item k).map fun _ => View.row r k, h) := by
    rw [HeapM.item, run_bind, hrun_getSeq ha.2]
    dsimp only
    rw [run_bind]
    rcases a.item k with e | b <;> rfl
  rcases hi : a.item k with e' | b
  · rw [hi] at e
    unfold HSim
    rw [run_bind, e]
    exact ⟨Frame.refl _ _, rfl⟩
  · rw [hi] at e
    refine hsim_left (a := .row r k) (by rw [e]; rfl) (x b ?_)
    rcases a with ⟨d, c⟩ | l
    · simp [NDArray.item] at hi
    · refine ha.row ?_
      simp only [NDArray.item] at hi
      rcases hl : l[k]? with _ | q
      · rw [hl] at hi; simp at hi
      · rw [hl] at hi; simp only [Except.ok.injEq] at hi; rw [hi]

theorem hsim_getRow {r k : ℕ} {l : List (Arr F)} (ha : HasSeq S' h r (.stack l)) {f : View → HeapM F γ}
    {g : Arr F → Except PyErr δ} {R : Heap F → γ → δ → Prop}
    (x : ∀ b, Has S' h (.row r k) b → HSim S h (f (.row r k)) (g b) R) :
    HSim S h (HeapM.item r k >>= f) (getRow l k >>= g) R := hsim_item ha x

/-- An optional sequence argument outside `S`. -/
def SeqHas (S : Set ℕ) (h : Heap F) (U : Option ℕ) (u : Option (NDArray F)) : Prop :=
  SeqArg h U u ∧ ∀ r, U = some r → r ∉ S

theorem SeqHas.at {h' : Heap F} {U : Option ℕ} {u : Option (NDArray F)} (x : SeqHas S h U u) (f : Frame S' h h')
    (s : S' ⊆ S) : SeqHas S h' U u := by
  refine ⟨?_, x.2⟩
  rcases U with _ | r <;> rcases u with _ | a
  · trivial
  · exact x.1
  · exact x.1
  · exact (HasSeq.at ⟨x.2 r rfl, x.1⟩ f s).2

theorem hsim_check {Z : ℕ} {z : NDArray F} {U : Option ℕ} {u : Option (NDArray F)} (hS : ∀ r ∈ S', r < h.length)
    (hZ : h.seqAt Z = some z) (hU : SeqHas S' h U u) {f : ℕ → HeapM F γ} {y : Except PyErr δ} {R : Heap F → γ → δ → Prop}
    (x : ∀ h' r, Frame ∅ h h' → HasSeq S' h' r (KK.checkNoneAndBroadcast u z) → HSim S h' (f r) y R) :
    HSim S h (HeapM.checkNoneAndBroadcast U Z >>= f) y R := by
  rcases U with _ | r <;> rcases u with _ | a
  · refine hsim_alloc (a := h.length) (c := .seq z.fullLikeNan) ?_
      (x _ _ (Frame.append _ _ _) ⟨fun hc => absurd (hS _ hc) (by omega), by simp [Heap.seqAt, KK.checkNoneAndBroadcast]⟩)
    unfold HeapM.checkNoneAndBroadcast
    dsimp only
    rw [run_bind, hrun_getSeq hZ]
    rfl
  · exact absurd hU.1 (by simp [SeqArg])
  · exact absurd hU.1 (by simp [SeqArg])
  · exact hsim_left (a := r) rfl (x h r (Frame.refl _ _) ⟨hU.2 r rfl, hU.1⟩)

/-- Replace the result. -/
theorem hsim_post {m : HeapM F α} {y : Except PyErr β} {R : Heap F → α → β → Prop} {R' : Heap F → γ → β → Prop} (c : α → γ)
    (x : HSim S h m y R) (s : ∀ h' a b, Frame S h h' → R h' a b → R' h' (c a) b) :
    HSim S h (m >>= fun a => Py.lift (.ok (c a))) y R' := by
  obtain ⟨x1, x2⟩ := x
  unfold HSim
  rw [run_bind]
  rcases hm : m.run h with ⟨e | a, h'⟩ <;> rw [hm] at x1 x2 <;> rcases y with e' | b
  · exact ⟨x1, x2⟩
  · exact absurd x2 (by simp [Alike])
  · exact absurd x2 (by simp [Alike])
  · exact ⟨x1, s _ _ _ x1 x2⟩

/-- Buffers that did not exist do not count. -/
theorem hsim_drop {m : HeapM F α} {y : Except PyErr β} {R : Heap F → α → β → Prop} (x : HSim S' h m y R)
    (s : ∀ r ∈ S', r ∈ S ∨ h.length ≤ r) : HSim S h m y R := ⟨x.1.drop s, x.2⟩

end

/-- References to recorded gains and their values; all in different buffers, allocated after length `n`. -/
structure Gains (n : ℕ) (h : Heap F) (gs : List View) (vals : List (Arr F)) : Prop where
  vals : List.Forall₂ (fun v a => h.deref v = some a) gs vals
  new : ∀ v ∈ gs, n ≤ v.cell ∧ v.cell < h.length
  apart : gs.Pairwise fun v w => v.cell < w.cell

/-- `m` on memory and object does what `p` does on values. -/
structure ESim {α β : Type} (S : Set ℕ) (h : Heap F) (o : HEkf F) (kf : ExtendedKalmanFilter F) (m : EM F α)
    (p : Py (ExtendedKalmanFilter F) β) (R : Heap F → α → β → Prop) (gs : List View) (vals : List (Arr F)) : Prop where
  frame : Frame S h (m.run ⟨h, o⟩).2.heap
  gains : Gains h.length (m.run ⟨h, o⟩).2.heap gs vals
  self : (m.run ⟨h, o⟩).2.self = { o with kalmanGains := o.kalmanGains ++ gs }
  vself : (p.run kf).2 = { kf with kalmanGains := kf.kalmanGains ++ vals }
  out : Alike (R (m.run ⟨h, o⟩).2.heap) (m.run ⟨h, o⟩).1 (p.run kf).1

/-- The same, for some gains. -/
def ESims {α β : Type} (S : Set ℕ) (h : Heap F) (o : HEkf F) (kf : ExtendedKalmanFilter F) (m : EM F α)
    (p : Py (ExtendedKalmanFilter F) β) (R : Heap F → α → β → Prop) : Prop := ∃ gs vals, ESim S h o kf m p R gs vals

section
variable {α β γ δ : Type} {S S' : Set ℕ} {h : Heap F} {o : HEkf F} {kf : ExtendedKalmanFilter F}

theorem Gains.nil {n : ℕ} : Gains n h [] [] := ⟨.nil, by simp, .nil⟩

theorem Gains.mono {n : ℕ} {h' : Heap F} {gs : List View} {vals : List (Arr F)} (x : Gains n h gs vals) (f : Frame S h h')
    (hS : ∀ r ∈ S, r < n) : Gains n h' gs vals := by
  have key : ∀ {gs : List View} {vals : List (Arr F)}, List.Forall₂ (fun v a => h.deref v = some a) gs vals →
      (∀ v ∈ gs, n ≤ v.cell ∧ v.cell < h.length) → List.Forall₂ (fun v a => h'.deref v = some a) gs vals := by
    intro gs vals y z
    induction y with
    | nil => exact .nil
    | @cons v a _ _ h1 _ ih =>
      refine .cons ?_ (ih fun v hv => z v (by simp [hv]))
      exact (Has.mono (v := v) f ⟨fun hc => absurd (hS _ hc) (by have := (z v (by simp)).1; omega), h1⟩).2
  exact ⟨key x.vals x.new, fun v hv => ⟨(x.new v hv).1, (x.new v hv).2.trans_le f.len⟩, x.apart⟩

theorem esims_bind (hS : ∀ r ∈ S, r < h.length) {m : EM F α} {p : Py (ExtendedKalmanFilter F) β}
    {R : Heap F → α → β → Prop} {f : α → EM F γ} {g : β → Py (ExtendedKalmanFilter F) δ} {R' : Heap F → γ → δ → Prop}
    (x : ESims S' h o kf m p R) (s : S' ⊆ S)
    (y : ∀ a b h' gs vals, Frame S' h h' → R h' a b →
      ESims S h' { o with kalmanGains := o.kalmanGains ++ gs } { kf with kalmanGains := kf.kalmanGains ++ vals }
        (f a) (g b) R') :
    ESims S h o kf (m >>= f) (p >>= g) R' := by
  obtain ⟨gs, vals, x1, x2, x3, x4, x5⟩ := x
  rcases hm : m.run ⟨h, o⟩ with ⟨e | a, st⟩ <;> rcases hp : p.run kf with ⟨e' | b, kf'⟩ <;>
    rw [hm, hp] at x5 <;> rw [hm] at x1 x2 x3 <;> rw [hp] at x4 <;> dsimp only at x1 x2 x3 x4 x5
  · refine ⟨gs, vals, ?_, ?_, ?_, ?_, ?_⟩ <;> simp only [run_bind, hm, hp]
    · exact x1.up s
    · exact x2
    · exact x3
    · exact x4
    · exact x5
  · exact absurd x5 (by simp [Alike])
  · exact absurd x5 (by simp [Alike])
  · obtain ⟨gs', vals', y1, y2, y3, y4, y5⟩ := y a b st.heap gs vals x1 x5
    rw [← x3] at y1 y2 y3 y5
    rw [← x4] at y4 y5
    refine ⟨gs ++ gs', vals ++ vals', ?_, ?_, ?_, ?_, ?_⟩ <;> simp only [run_bind, hm, hp]
    · exact (x1.up s).trans y1
    · have x2' := x2.mono y1 hS
      refine ⟨List.rel_append x2'.vals y2.vals, ?_, ?_⟩
      · intro v hv
        rcases List.mem_append.mp hv with hv | hv
        · exact x2'.new v hv
        · exact ⟨x1.len.trans (y2.new v hv).1, (y2.new v hv).2⟩
      · refine List.pairwise_append.mpr ⟨x2'.apart, y2.apart, fun v hv w hw => ?_⟩
        exact (x2.new v hv).2.trans_le (y2.new w hw).1
    · rw [y3, x3]; simp [List.append_assoc]
    · rw [y4, x4]; simp [List.append_assoc]
    · exact y5

/-- A part that works on memory alone. -/
theorem esims_heap {m : HeapM F α} {y : Except PyErr β} {R : Heap F → α → β → Prop} (x : HSim S h m y R) :
    ESims S h o kf (EM.onHeap m) (Py.lift y) R :=
  ⟨[], [], x.1, .nil, by simp [EM.onHeap], by simp [Py.lift], x.2⟩

theorem esims_left {m : EM F α} {a : α} (hm : m.run ⟨h, o⟩ = (.ok a, ⟨h, o⟩)) {f : α → EM F γ}
    {p : Py (ExtendedKalmanFilter F) δ} {R : Heap F → γ → δ → Prop} (x : ESims S h o kf (f a) p R) :
    ESims S h o kf (m >>= f) p R := by
  have e : (m >>= f).run ⟨h, o⟩ = (f a).run ⟨h, o⟩ := by rw [run_bind, hm]
  obtain ⟨gs, vals, x1, x2, x3, x4, x5⟩ := x
  exact ⟨gs, vals, by rwa [e], by rwa [e], by rwa [e], x4, by rwa [e]⟩

theorem esims_right {p : Py (ExtendedKalmanFilter F) β} {b : β} (hp : p.run kf = (.ok b, kf)) {m : EM F γ}
    {g : β → Py (ExtendedKalmanFilter F) δ} {R : Heap F → γ → δ → Prop} (x : ESims S h o kf m (g b) R) :
    ESims S h o kf m (p >>= g) R := by
  have e : (p >>= g).run kf = (g b).run kf := by rw [run_bind, hp]
  obtain ⟨gs, vals, x1, x2, x3, x4, x5⟩ := x
  exact ⟨gs, vals, x1, x2, x3, by rwa [e], by rwa [e]⟩

theorem esims_ok {a : α} {b : β} {R : Heap F → α → β → Prop} (x : R h a b) :
    ESims S h o kf (Py.lift (.ok a)) (Py.lift (.ok b)) R :=
  ⟨[], [], Frame.refl _ _, .nil, by simp [Py.lift], by simp [Py.lift], x⟩

theorem esims_post {m : EM F α} {p : Py (ExtendedKalmanFilter F) β} {R : Heap F → α → β → Prop}
    {R' : Heap F → γ → β → Prop} (c : α → γ) (x : ESims S h o kf m p R)
    (s : ∀ h' a b, Frame S h h' → R h' a b → R' h' (c a) b) :
    ESims S h o kf (m >>= fun a => Py.lift (.ok (c a))) p R' := by
  obtain ⟨gs, vals, x1, x2, x3, x4, x5⟩ := x
  refine ⟨gs, vals, ?_, ?_, ?_, x4, ?_⟩ <;> rw [run_bind] <;>
    rcases hm : m.run ⟨h, o⟩ with ⟨e | a, st⟩ <;> rw [hm] at x1 x2 x3 x5 <;> dsimp only at x1 x2 x3 x5 ⊢ <;>
    try assumption
  · rcases hp : (p.run kf).1 with e' | b <;> rw [hp] at x5 <;> exact x5
  · rcases hp : (p.run kf).1 with e' | b <;> rw [hp] at x5
    · exact x5
    · exact s _ _ _ x1 x5

theorem esims_drop {m : EM F α} {p : Py (ExtendedKalmanFilter F) β} {R : Heap F → α → β → Prop}
    (x : ESims S' h o kf m p R) (s : ∀ r ∈ S', r ∈ S ∨ h.length ≤ r) : ESims S h o kf m p R := by
  obtain ⟨gs, vals, x1, x2, x3, x4, x5⟩ := x
  exact ⟨gs, vals, x1.drop s, x2, x3, x4, x5⟩

theorem except_assoc (x : Except PyErr α) (f : α → Except PyErr β) (g : β → Except PyErr γ) :
    (x >>= f) >>= g = x >>= fun a => f a >>= g := by
  rcases x with e | a <;> rfl

theorem elift_bind (y : Except PyErr α) (g : α → Except PyErr β) :
    (Py.lift (y >>= g) : Py (ExtendedKalmanFilter F) β) = Py.lift y >>= fun a => Py.lift (g a) := by
  rcases y with e | a <;> rfl

end

/-- Regroup: compute, record, go on. -/
theorem py_record {σ α β : Type} (m : Py σ α) (t : α → Py σ Unit) (r : α → Py σ β) :
    (m >>= fun K => t K >>= fun _ => r K) = (m >>= fun K => t K >>= fun _ => Py.lift (.ok K)) >>= r := by
  show Py.bind m _ = Py.bind (Py.bind m _) r
  simp only [Py.bind, Py.mk.injEq]
  funext s
  rcases m.run s with ⟨e | a, s'⟩
  · rfl
  · show (Py.bind (t a) _).run s' = _
    simp only [Py.bind]
    rcases ht : (t a).run s' with ⟨e | b, s''⟩
    · rw [show (t a >>= fun _ => Py.lift (.ok a)).run s' = (.error e, s'') by rw [run_bind, ht]]
    · rw [show (t a >>= fun _ => Py.lift (.ok a)).run s' = (.ok a, s'') by rw [run_bind, ht]; rfl]

namespace HEkf

variable {n : ℕ} {W : Scratch} {h0 h : Heap F} {o : HEkf F} {kf : ExtendedKalmanFilter F}

theorem CallbacksAre.gained {gs : List View} {vals : List (Arr F)} (x : CallbacksAre n W h0 o kf) :
    CallbacksAre n W h0 { o with kalmanGains := gs } { kf with kalmanGains := vals } := ⟨x.f, x.jacobianA, x.h, x.jacobianH⟩

theorem esims_update (hW : W.Private n) (hc : CallbacksAre n W h0 o kf) (ha : Agrees n W.all h0 h)
    (hI : Has W.all h o.I kf.I) {vx vP vz vR : View} {x P z R : Arr F} (hx : h.deref vx = some x)
    (hx' : vx.cell ∈ W.all → vx.cell ∈ W.f) (hP : Has W.all h vP P) (hz : Has W.all h vz z) (hR : Has W.all h vR R) :
    ESims W.all h o kf (update vx vP vz vR) (ExtendedKalmanFilter.update x P z R)
      (fun h' p b => New h.length h' p.1 b.1 ∧ New h.length h' p.2 b.2) := by
  have xH : vx.cell ∉ W.jacobianH := fun hr => Set.disjoint_left.mp hW.fH (hx' (H_sub hr)) hr
  have xh : vx.cell ∉ W.h := fun hr => Set.disjoint_left.mp hW.fh (hx' (h_sub hr)) hr
  have small : ∀ {h' : Heap F} {S : Set ℕ}, Frame S h h' → ∀ r ∈ W.all, r < h'.length :=
    fun f r hr => ((hW.old r hr).trans_le ha.1).trans_le f.len
  unfold update ExtendedKalmanFilter.update
  refine esims_left (a := o) rfl (esims_right (b := kf) rfl ?_)
  refine esims_bind (fun r hr => (hW.old r hr).trans_le ha.1) (esims_heap (hsim_call1 (S := W.h) hc.jacobianH ha hx xH xh
    hW.hH h_sub)) H_sub fun vH H h1 gs1 w1 f1 r1 => ?_
  have ha1 : Agrees n W.all h0 h1 := ha.mono f1 fun r hr => .inl (H_sub hr)
  have I1 := hI.at f1 H_sub
  have x1 : Has W.jacobianH h1 vx x := Has.mono f1 ⟨xH, hx⟩
  have P1 := hP.at f1 H_sub
  have z1 := hz.at f1 H_sub
  have R1 := hR.at f1 H_sub
  rw [py_record (σ := EState F), py_record (σ := ExtendedKalmanFilter F)]
  refine esims_bind (S' := ∅) (R := fun h' v a => New h1.length h' v a) (small f1) ?_ (by simp)
    fun vK K h2 gs2 w2 f2 r2 => ?_
  · obtain ⟨g1, g2⟩ := hsim_gain r1.2 P1.2 R1.2
    rcases hg : (gain vH vP vR).run h1 with ⟨e | vK, h2⟩ <;> rcases hv : ExtendedKalmanFilter.gain H P R with e' | K <;>
      rw [hg, hv] at g2 <;> rw [hg] at g1
    · refine ⟨[], [], ?_, .nil, ?_, ?_, ?_⟩ <;> simp [run_bind, EM.onHeap, hg, Py.lift, g1]
      exact g2
    · exact absurd g2 (by simp [Alike])
    · exact absurd g2 (by simp [Alike])
    · refine ⟨[vK], [K], ?_, ⟨.cons ?_ .nil, ?_, by simp⟩, ?_, ?_, ?_⟩ <;>
        simp [run_bind, EM.onHeap, hg, Py.lift, Py.mutate]
      · exact g1
      · exact g2.2
      · exact ⟨g2.1, deref_lt g2.2⟩
      · exact g2
  have e0 : ∀ {S' : Set ℕ} {v : View} {a : Arr F}, Has S' h1 v a → Has S' h2 v a := fun y => y.at f2 (by simp)
  have K2 : Has W.h h2 vK K := r2.has fun r hr => small f1 r (h_sub hr)
  have ha2 : Agrees n W.all h0 h2 := ha1.mono f2 (by simp)
  have key := hsim_correct (h := h2) hc ha2 ((e0 I1).sub h_sub) K2 (e0 r1) ⟨xh, (e0 x1).2⟩ ((e0 P1).sub h_sub)
    ((e0 z1).sub h_sub)
  exact esims_heap (hsim_up (hsim_imp key fun h' a b _ hab =>
    ⟨hab.1.weaken (f1.len.trans f2.len), hab.2.weaken (f1.len.trans f2.len)⟩) h_sub)

/-- Views of the arguments of one step. -/
def RowIs (S : Set ℕ) (h : Heap F) (v : View × View × View × View) (a : ExtendedKalmanFilter.Row F) : Prop :=
  Has S h v.1 a.1 ∧ Has S h v.2.1 a.2.1 ∧ Has S h v.2.2.1 a.2.2.1 ∧ Has S h v.2.2.2 a.2.2.2

theorem RowIs.mono {S : Set ℕ} {h' : Heap F} {v : View × View × View × View} {a : ExtendedKalmanFilter.Row F}
    (f : Frame S h h') (x : RowIs S h v a) : RowIs S h' v a :=
  ⟨x.1.mono f, x.2.1.mono f, x.2.2.1.mono f, x.2.2.2.mono f⟩

theorem Out.at {S : Set ℕ} {s e : ℕ} {h' : Heap F} {xs Ps : List (Arr F)} (f : Frame S h h') (hs : s ∉ S) (he : e ∉ S)
    (x : Out s e h xs Ps) : Out s e h' xs Ps :=
  ⟨by rw [seqAt_congr (f.eq _ (seqAt_lt x.1) hs)]; exact x.1, by rw [seqAt_congr (f.eq _ (seqAt_lt x.2) he)]; exact x.2⟩

theorem Out.set1 {s e : ℕ} (hse : s ≠ e) {xs Ps xs' : List (Arr F)} (x : Out s e h xs Ps) :
    Out s e (h.set s (.seq (.stack xs'))) xs' Ps :=
  ⟨seqAt_set_self x.1, by rw [seqAt_set_ne (Ne.symm hse)]; exact x.2⟩

theorem Out.set2 {s e : ℕ} (hse : s ≠ e) {xs Ps Ps' : List (Arr F)} (x : Out s e h xs Ps) :
    Out s e (h.set e (.seq (.stack Ps'))) xs Ps' :=
  ⟨by rw [seqAt_set_ne hse]; exact x.1, seqAt_set_self x.2⟩

theorem esims_set {γ δ : Type} {S : Set ℕ} {assign : Arr F → Except PyErr (Arr F)} {r k : ℕ} {v : View} {a : Arr F}
    {l : List (Arr F)} (hr : r ∈ S) (hv : h.deref v = some a) (hl : h.seqAt r = some (.stack l)) {f : Unit → EM F γ}
    {g : Arr F → Py (ExtendedKalmanFilter F) δ} {R : Heap F → γ → δ → Prop}
    (x : ∀ b, ESims S (h.set r (.seq (.stack (l.set k b)))) o kf (f ()) (g b) R) :
    ESims S h o kf (EM.onHeap (HeapM.setRow assign r k v) >>= f) (Py.lift (assign a) >>= g) R := by
  have e := hrun_setRow (k := k) (assign := assign) hv hl
  rcases ha : assign a with e' | b
  · rw [ha] at e
    refine ⟨[], [], ?_, .nil, ?_, ?_, ?_⟩ <;> simp [run_bind, EM.onHeap, e, Py.lift, Frame.refl]
    exact rfl
  · rw [ha] at e
    obtain ⟨gs, vals, x1, x2, x3, x4, x5⟩ := x b
    have e1 : (EM.onHeap (HeapM.setRow assign r k v) >>= f).run ⟨h, o⟩ =
        (f ()).run ⟨h.set r (.seq (.stack (l.set k b))), o⟩ := by simp [run_bind, EM.onHeap, e]
    have e2 : ((Py.lift (.ok b) : Py (ExtendedKalmanFilter F) (Arr F)) >>= g).run kf = (g b).run kf := rfl
    refine ⟨gs, vals, ?_, ?_, ?_, ?_, ?_⟩ <;> simp only [e1, e2]
    · exact (Frame.set hr h _).trans x1
    · simpa using x2
    · exact x3
    · exact x4
    · exact x5

theorem esims_filterLoop (hW : W.Private n) (hc : CallbacksAre n W h0 o kf) {s e : ℕ} (hs : n ≤ s) (he : n ≤ e)
    (hse : s ≠ e) (ha : Agrees n W.all h0 h) (hsz : o.stateSize = kf.stateSize)
    (hI : Has (W.all ∪ {s, e}) h o.I kf.I) {vrows : List (View × View × View × View)}
    {rows : List (ExtendedKalmanFilter.Row F)} (hrows : List.Forall₂ (RowIs (W.all ∪ {s, e}) h) vrows rows)
    {vx vP : View} {x P : Arr F} (hx : Has (W.all ∪ {s, e}) h vx x) (hP : Has (W.all ∪ {s, e}) h vP P)
    {xs Ps : List (Arr F)} (hout : Out s e h xs Ps) (k : ℕ) :
    ESims (W.all ∪ {s, e}) h o kf (filterLoop s e k vrows vx vP) (ExtendedKalmanFilter.filterLoop k rows x P xs Ps)
      (fun h' _ b => Out s e h' b.1 b.2) := by
  have sW : s ∉ W.all := fun hr => absurd (hW.old s hr) (by omega)
  have eW : e ∉ W.all := fun hr => absurd (hW.old e hr) (by omega)
  have sub : W.all ⊆ W.all ∪ {s, e} := Set.subset_union_left
  have subT : ∀ {h : Heap F}, Agrees n W.all h0 h → (∃ xs Ps, Out s e h xs Ps) → ∀ r ∈ W.all ∪ {s, e}, r < h.length := by
    rintro h ha ⟨xs, Ps, ho⟩ r (hr | rfl | rfl)
    · exact (hW.old r hr).trans_le ha.1
    · exact seqAt_lt ho.1
    · exact seqAt_lt ho.2
  have agr : ∀ {h h' : Heap F}, Frame (W.all ∪ {s, e}) h h' → Agrees n W.all h0 h → Agrees n W.all h0 h' := by
    intro h h' f ha
    refine ha.mono f ?_
    rintro r (hr | rfl | rfl)
    · exact .inl hr
    · exact .inr hs
    · exact .inr he
  induction rows generalizing h o kf vx vP x P xs Ps k vrows with
  | nil =>
    cases hrows
    exact esims_ok hout
  | cons a rest ih =>
    obtain ⟨v, vrest, hrow, hrest, rfl⟩ := List.forall₂_cons_right_iff.mp hrows
    obtain ⟨vu, vz, vQ, vR⟩ := v
    obtain ⟨u, z, Q, R⟩ := a
    obtain ⟨ru, rz, rQ, rR⟩ := hrow
    dsimp only at ru rz rQ rR
    unfold filterLoop ExtendedKalmanFilter.filterLoop
    refine esims_left (a := o) rfl (esims_right (b := kf) rfl ?_)
    refine esims_bind (subT ha ⟨_, _, hout⟩) (esims_heap (hsim_predict (vu := some vu) (u := some u) hW hc ha (hx.sub sub)
      ⟨ru.2, by rintro y ⟨⟩ hy; exact ru.1 (sub hy)⟩ (hP.sub sub) (rQ.sub sub))) sub
      fun v1 c1 h1 gs1 w1 f1 ⟨⟨q1, q1'⟩, q2⟩ => ?_
    obtain ⟨v1, v2⟩ := v1
    obtain ⟨c1, c2⟩ := c1
    dsimp only at q1 q1' q2 ⊢
    have g1 := f1.up sub
    have ha1 := agr g1 ha
    have o1 := Out.at f1 sW eW hout
    refine esims_bind (subT ha1 ⟨_, _, o1⟩) (esims_update
      (o := { o with kalmanGains := o.kalmanGains ++ gs1 }) (kf := { kf with kalmanGains := kf.kalmanGains ++ w1 }) hW
      (CallbacksAre.gained hc) ha1 ((hI.mono g1).sub sub) q1 q1'
      (q2.has fun r hr => subT ha ⟨_, _, hout⟩ r (sub hr)) ((rz.mono g1).sub sub) ((rR.mono g1).sub sub)) sub
      fun v3 c3 h2 gs2 w2 f2 ⟨q3, q4⟩ => ?_
    obtain ⟨v3, v4⟩ := v3
    obtain ⟨c3, c4⟩ := c3
    dsimp only at q3 q4 ⊢
    have g2 := f2.up sub
    have ha2 := agr g2 ha1
    have o2 := Out.at f2 sW eW o1
    rw [hsz]
    have x2 := q3.has (subT ha1 ⟨_, _, o1⟩)
    have P2 := q4.has (subT ha1 ⟨_, _, o1⟩)
    refine esims_set (by simp) q3.2 o2.1 fun b => ?_
    have g3 : Frame (W.all ∪ {s, e}) h2 (h2.set s (.seq (.stack (xs.set k b)))) := Frame.set (by simp) _ _
    have o3 := Out.set1 hse (xs' := xs.set k b) o2
    refine esims_set (by simp) (P2.mono g3).2 o3.2 fun b' => ?_
    have g4 : Frame (W.all ∪ {s, e}) (h2.set s (.seq (.stack (xs.set k b))))
      ((h2.set s (.seq (.stack (xs.set k b)))).set e (.seq (.stack (Ps.set k b')))) := Frame.set (by simp) _ _
    have o4 := Out.set2 hse (Ps' := Ps.set k b') o3
    have g := ((g1.trans g2).trans g3).trans g4
    have fin := ih (h := (h2.set s (.seq (.stack (xs.set k b)))).set e (.seq (.stack (Ps.set k b'))))
      (o := { o with kalmanGains := o.kalmanGains ++ gs1 ++ gs2 })
      (kf := { kf with kalmanGains := kf.kalmanGains ++ w1 ++ w2 }) ⟨hc.f, hc.jacobianA, hc.h, hc.jacobianH⟩ (agr g ha) hsz
      (hI.mono g) (hrest.imp fun _ _ hr => RowIs.mono g hr) ((x2.mono g3).mono g4) ((P2.mono g3).mono g4) o4 (k + 1)
    rw [hsz] at fin
    exact fin

theorem hsim_smoothLoop (hW : W.Private n) (hc : CallbacksAre n W h0 o kf) {s e : ℕ} (hs : n ≤ s) (he : n ≤ e)
    (hse : s ≠ e) (ha : Agrees n W.all h0 h) (hsz : o.stateSize = kf.stateSize) {Q U xE PE : ℕ} {q u : NDArray F}
    {x P : List (Arr F)} (hQ : HasSeq (W.all ∪ {s, e}) h Q q) (hU : HasSeq (W.all ∪ {s, e}) h U u)
    (hx : HasSeq (W.all ∪ {s, e}) h xE (.stack x)) (hP : HasSeq (W.all ∪ {s, e}) h PE (.stack P)) (ks : List ℕ)
    {xs Ps : List (Arr F)} (hout : Out s e h xs Ps) :
    HSim (W.all ∪ {s, e}) h (smoothLoop o Q U xE PE s e ks) (ExtendedKalmanFilter.smoothLoop kf q u x P ks xs Ps)
      (fun h' _ b => Out s e h' b.1 b.2) := by
  have sW : s ∉ W.all := fun hr => absurd (hW.old s hr) (by omega)
  have eW : e ∉ W.all := fun hr => absurd (hW.old e hr) (by omega)
  have sub : W.all ⊆ W.all ∪ {s, e} := Set.subset_union_left
  have subT : ∀ {h : Heap F}, Agrees n W.all h0 h → (∃ xs Ps, Out s e h xs Ps) → ∀ r ∈ W.all ∪ {s, e}, r < h.length := by
    rintro h ha ⟨xs, Ps, ho⟩ r (hr | rfl | rfl)
    · exact (hW.old r hr).trans_le ha.1
    · exact seqAt_lt ho.1
    · exact seqAt_lt ho.2
  have agr : ∀ {h h' : Heap F}, Frame (W.all ∪ {s, e}) h h' → Agrees n W.all h0 h → Agrees n W.all h0 h' := by
    intro h h' f ha
    refine ha.mono f ?_
    rintro r (hr | rfl | rfl)
    · exact .inl hr
    · exact .inr hs
    · exact .inr he
  induction ks generalizing h xs Ps with
  | nil => exact hsim_ok hout
  | cons k ks ih =>
    unfold smoothLoop ExtendedKalmanFilter.smoothLoop
    refine hsim_item hQ fun qk hqk => hsim_item hU fun uk huk => ?_
    refine hsim_getRow hP fun Pk hPk => hsim_getRow hx fun xk hxk => ?_
    refine hsim_getRow (S' := W.all) ⟨sW, hout.1⟩ fun xn hxn => hsim_getRow (S' := W.all) ⟨eW, hout.2⟩ fun Pn hPn => ?_
    refine hsim_bind (hsim_smoothStep hW hc ha (hxk.sub sub) (hPk.sub sub) (hqk.sub sub) (huk.sub sub) hxn hPn) sub
      fun v1 c1 h1 f1 ⟨q1, q2⟩ => ?_
    obtain ⟨v1, v2⟩ := v1
    obtain ⟨c1, c2⟩ := c1
    dsimp only at q1 q2 ⊢
    have g1 := f1.up sub
    have o1 := Out.at f1 sW eW hout
    have P1 := q2.has (subT ha ⟨_, _, hout⟩)
    rw [hsz]
    refine hsim_set (by simp) q1.2 o1.1 fun b => ?_
    have g3 : Frame (W.all ∪ {s, e}) h1 (h1.set s (.seq (.stack (xs.set k b)))) := Frame.set (by simp) _ _
    have o3 := Out.set1 hse (xs' := xs.set k b) o1
    refine hsim_set (by simp) (P1.mono g3).2 o3.2 fun b' => ?_
    have g4 : Frame (W.all ∪ {s, e}) (h1.set s (.seq (.stack (xs.set k b))))
      ((h1.set s (.seq (.stack (xs.set k b)))).set e (.seq (.stack (Ps.set k b')))) := Frame.set (by simp) _ _
    have o4 := Out.set2 hse (Ps' := Ps.set k b') o3
    have g := (g1.trans g3).trans g4
    exact ih (agr g ha) (hQ.mono g) (hU.mono g) (hx.mono g) (hP.mono g) o4

theorem py_assoc {σ α β γ : Type} (x : Py σ α) (f : α → Py σ β) (g : β → Py σ γ) :
    (x >>= f) >>= g = x >>= fun a => f a >>= g := by
  show Py.bind (Py.bind x f) g = Py.bind x fun a => Py.bind (f a) g
  simp only [Py.bind, Py.mk.injEq]
  funext s
  rcases x.run s with ⟨e | a, s'⟩ <;> rfl

theorem py_ok {σ α β : Type} (a : α) (f : α → Py σ β) : (Py.lift (.ok a) >>= f) = f a := rfl

theorem onHeap_bind {α β : Type} (m : HeapM F α) (f : α → HeapM F β) :
    EM.onHeap (m >>= f) = EM.onHeap m >>= fun a => EM.onHeap (f a) := by
  show EM.onHeap (Py.bind m f) = Py.bind (EM.onHeap m) fun a => EM.onHeap (f a)
  simp only [Py.bind, EM.onHeap, Py.mk.injEq]
  funext st
  rcases m.run st.heap with ⟨e | a, h'⟩ <;> rfl

theorem onHeap_lift {α : Type} (y : Except PyErr α) : (EM.onHeap (Py.lift y : HeapM F α)) = Py.lift y := rfl

/-- `filter` up to its loop. -/
def prefixOf (kf : HEkf F) (Z : ℕ) (U : Option ℕ) : HeapM F (ℕ × ℕ × List (View × View × View × View)) := do
  let z ← HeapM.getSeq Z
  let n ← Py.lift z.len
  let states ← HeapM.newSeq (.stack (List.replicate n (Arr.zerosVec kf.stateSize)))
  let errors ← HeapM.newSeq (.stack (List.replicate n (Arr.zerosMat kf.stateSize)))
  let U' ← HeapM.checkNoneAndBroadcast U Z
  let u ← HeapM.rows U'
  let zs ← HeapM.rows Z
  let q ← HeapM.rows kf.Q
  let r ← HeapM.rows kf.R
  Py.lift (.ok (states, errors, u.zip (zs.zip (q.zip r))))

theorem filter_eq (Z : ℕ) (U : Option ℕ) : filter (F := F) Z U = EM.self >>= fun kf =>
    EM.onHeap (prefixOf kf Z U) >>= fun p => filterLoop p.1 p.2.1 0 p.2.2 kf.xk kf.Pk >>= fun _ =>
      Py.lift (.ok (p.1, p.2.1)) := by
  simp only [prefixOf, onHeap_bind, onHeap_lift, py_assoc, py_ok]
  rfl

/-- `filter` on values up to its loop. -/
def prefixVal (kf : ExtendedKalmanFilter F) (Z : NDArray F) (U : Option (NDArray F)) :
    Except PyErr (ℕ × List (ExtendedKalmanFilter.Row F)) := do
  let n ← Z.len
  let rows ← ExtendedKalmanFilter.zipRows (KK.checkNoneAndBroadcast U Z) Z kf.Q kf.R
  .ok (n, rows)

theorem filterVal_eq (Z : NDArray F) (U : Option (NDArray F)) : ExtendedKalmanFilter.filter Z U = Py.self >>= fun kf =>
    Py.lift (prefixVal kf Z U) >>= fun p => ExtendedKalmanFilter.filterLoop 0 p.2 kf.xk kf.Pk
      (List.replicate p.1 (Arr.zerosVec kf.stateSize)) (List.replicate p.1 (Arr.zerosMat kf.stateSize)) := by
  simp only [prefixVal, elift_bind, py_assoc, py_ok]
  rfl

theorem EObjIs.has (ho : EObjIs W.all h o kf) (s e : ℕ) (hs : h.length ≤ s) (he : h.length ≤ e) :
    HasSeq (W.all ∪ {s, e}) h o.Q kf.Q ∧ HasSeq (W.all ∪ {s, e}) h o.R kf.R ∧ Has (W.all ∪ {s, e}) h o.xk kf.xk ∧
      Has (W.all ∪ {s, e}) h o.Pk kf.Pk ∧ Has (W.all ∪ {s, e}) h o.I kf.I := by
  have key : ∀ {r : ℕ}, r < h.length → r ∉ W.all → r ∉ W.all ∪ {s, e} := by
    rintro r hr hW (h1 | rfl | rfl)
    · exact hW h1
    · omega
    · omega
  exact ⟨⟨key (seqAt_lt ho.Q) ho.Q', ho.Q⟩, ⟨key (seqAt_lt ho.R) ho.R', ho.R⟩, ⟨key (deref_lt ho.xk) ho.xk', ho.xk⟩,
    ⟨key (deref_lt ho.Pk) ho.Pk', ho.Pk⟩, ⟨key (deref_lt ho.I) ho.I', ho.I⟩⟩

theorem hsim_prefix (hW : W.Private n) (hn : n ≤ h.length) (ho : EObjIs W.all h o kf) {Z : ℕ} {z : NDArray F}
    {U : Option ℕ} {u : Option (NDArray F)} (hZ : HasSeq W.all h Z z) (hU : SeqHas W.all h U u) :
    HSim ∅ h (prefixOf o Z U) (prefixVal kf z u) (fun h' p b => p.1 = h.length ∧ p.2.1 = h.length + 1 ∧
      Out h.length (h.length + 1) h' (List.replicate b.1 (Arr.zerosVec kf.stateSize))
        (List.replicate b.1 (Arr.zerosMat kf.stateSize)) ∧
      List.Forall₂ (RowIs (W.all ∪ {h.length, h.length + 1}) h') p.2.2 b.2) := by
  obtain ⟨oQ, oR, ox, oP, oI⟩ := EObjIs.has ho h.length (h.length + 1) le_rfl (by omega)
  have key : ∀ {r : ℕ}, r < h.length → r ∉ W.all → r ∉ W.all ∪ {h.length, h.length + 1} := by
    rintro r hr hW (h1 | rfl | rfl)
    · exact hW h1
    · omega
    · omega
  have zT : HasSeq (W.all ∪ {h.length, h.length + 1}) h Z z := ⟨key (seqAt_lt hZ.2) hZ.1, hZ.2⟩
  have uT : SeqHas (W.all ∪ {h.length, h.length + 1}) h U u := by
    refine ⟨hU.1, fun r hr => ?_⟩
    subst hr
    rcases u with _ | u
    · exact absurd hU.1 (by simp [SeqArg])
    · exact key (seqAt_lt hU.1) (hU.2 r rfl)
  unfold prefixOf prefixVal
  refine hsim_left (hrun_getSeq hZ.2) ?_
  rcases hl : z.len with e | l
  · exact ⟨Frame.refl _ _, rfl⟩
  refine hsim_left (a := l) rfl ?_
  show HSim _ _ _ (ExtendedKalmanFilter.zipRows (KK.checkNoneAndBroadcast u z) z kf.Q kf.R >>= fun rows => .ok (l, rows)) _
  rw [ho.size]
  refine hsim_alloc (a := h.length) (c := .seq (.stack (List.replicate l (Arr.zerosVec kf.stateSize)))) rfl ?_
  refine hsim_alloc (a := h.length + 1) (c := .seq (.stack (List.replicate l (Arr.zerosMat kf.stateSize)))) ?_ ?_
  · simp [HeapM.newSeq]
  have f2 : Frame (F := F) ∅ h (h ++ [.seq (.stack (List.replicate l (Arr.zerosVec kf.stateSize)))] ++
    [Cell.seq (.stack (List.replicate l (Arr.zerosMat kf.stateSize)))]) := (Frame.append _ _ _).trans (Frame.append _ _ _)
  have o2 : Out (F := F) h.length (h.length + 1) (h ++ [.seq (.stack (List.replicate l (Arr.zerosVec kf.stateSize)))] ++
    [Cell.seq (.stack (List.replicate l (Arr.zerosMat kf.stateSize)))]) (List.replicate l (Arr.zerosVec kf.stateSize))
    (List.replicate l (Arr.zerosMat kf.stateSize)) := by
    constructor
    · exact seqAt_append _ (by simp [Heap.seqAt])
    · simp [Heap.seqAt]
  have len2 : h.length + 2 ≤ (h ++ [Cell.seq (.stack (List.replicate l (Arr.zerosVec (F := F) kf.stateSize)))] ++
    [Cell.seq (.stack (List.replicate l (Arr.zerosMat kf.stateSize)))]).length := by simp
  generalize (h ++ [Cell.seq (.stack (List.replicate l (Arr.zerosVec (F := F) kf.stateSize)))] ++
    [Cell.seq (.stack (List.replicate l (Arr.zerosMat kf.stateSize)))]) = h2 at f2 o2 len2 ⊢
  refine hsim_check (S' := W.all ∪ {h.length, h.length + 1}) ?_ (zT.at f2 (by simp)).2 (uT.at f2 (by simp))
    fun h3 ur f3 hur => ?_
  · rintro r (hr | rfl | rfl)
    · have := hW.old r hr
      omega
    · omega
    · omega
  have g3 := f2.trans f3
  have o3 := Out.at f3 (by simp) (by simp) o2
  unfold ExtendedKalmanFilter.zipRows
  simp only [except_assoc]
  refine hsim_rows hur fun vu uu huu => ?_
  refine hsim_rows (zT.at g3 (by simp)) fun vz zz hzz => ?_
  refine hsim_rows (oQ.at g3 (by simp)) fun vq q hq => ?_
  refine hsim_rows (oR.at g3 (by simp)) fun vr r hr => ?_
  exact hsim_ok ⟨rfl, rfl, o3, forall₂_zip huu (forall₂_zip hzz (forall₂_zip hq hr))⟩

/-- First a part on memory alone: the gains recorded later are newer than all it allocates. -/
theorem esim_heap_bind {α β γ δ : Type} {S S' : Set ℕ} {m : HeapM F α} {y : Except PyErr β} {R : Heap F → α → β → Prop}
    {f : α → EM F γ} {g : β → Py (ExtendedKalmanFilter F) δ} {R' : Heap F → γ → δ → Prop} (x : HSim S' h m y R) (s : S' ⊆ S)
    (k : ∀ a b h', Frame S' h h' → R h' a b → ESims S h' o kf (f a) (g b) R') :
    ∃ gs vals, ESim S h o kf (EM.onHeap m >>= f) (Py.lift y >>= g) R' gs vals ∧
      ∀ v ∈ gs, (m.run h).2.length ≤ v.cell := by
  obtain ⟨x1, x2⟩ := x
  rcases hm : m.run h with ⟨e | a, h'⟩ <;> rw [hm] at x1 x2 <;> rcases y with e' | b
  · refine ⟨[], [], ⟨?_, .nil, ?_, ?_, ?_⟩, by simp⟩ <;> simp [run_bind, EM.onHeap, hm, Py.lift]
    · exact x1.up s
    · exact x2
  · exact absurd x2 (by simp [Alike])
  · exact absurd x2 (by simp [Alike])
  · obtain ⟨gs, vals, y1, y2, y3, y4, y5⟩ := k a b h' x1 x2
    have e1 : (EM.onHeap m >>= f).run ⟨h, o⟩ = (f a).run ⟨h', o⟩ := by simp [run_bind, EM.onHeap, hm]
    have e2 : ((Py.lift (.ok b) : Py (ExtendedKalmanFilter F) β) >>= g).run kf = (g b).run kf := rfl
    refine ⟨gs, vals, ⟨?_, ?_, ?_, ?_, ?_⟩, fun v hv => (y2.new v hv).1⟩ <;> simp only [e1, e2]
    · exact (x1.up s).trans y1
    · exact ⟨y2.vals, fun v hv => ⟨x1.len.trans (y2.new v hv).1, (y2.new v hv).2⟩, y2.apart⟩
    · exact y3
    · exact y4
    · exact y5

theorem esim_filter (hW : W.Private n) (hc : CallbacksAre n W h0 o kf) (ha : Agrees n W.all h0 h)
    (ho : EObjIs W.all h o kf) {Z : ℕ} {z : NDArray F} {U : Option ℕ} {u : Option (NDArray F)} (hZ : HasSeq W.all h Z z)
    (hU : SeqHas W.all h U u) :
    ∃ gs vals, ESim W.all h o kf (filter Z U) (ExtendedKalmanFilter.filter z u)
      (fun h' p b => p = (h.length, h.length + 1) ∧ Out h.length (h.length + 1) h' b.1 b.2 ∧
        ∀ v ∈ gs, v.cell ≠ h.length ∧ v.cell ≠ h.length + 1) gs vals := by
  obtain ⟨oQ, oR, ox, oP, oI⟩ := EObjIs.has ho h.length (h.length + 1) le_rfl (by omega)
  have pre := hsim_prefix hW ha.1 ho hZ hU
  obtain ⟨gs, vals, key, hgs⟩ := esim_heap_bind (o := o) (kf := kf) (S := W.all ∪ {h.length, h.length + 1})
    (f := fun p => filterLoop p.1 p.2.1 0 p.2.2 o.xk o.Pk >>= fun _ => Py.lift (.ok (p.1, p.2.1)))
    (g := fun p => ExtendedKalmanFilter.filterLoop 0 p.2 kf.xk kf.Pk (List.replicate p.1 (Arr.zerosVec kf.stateSize))
      (List.replicate p.1 (Arr.zerosMat kf.stateSize)))
    (R' := fun h' p b => p = (h.length, h.length + 1) ∧ Out h.length (h.length + 1) h' b.1 b.2) pre (by simp)
    fun p b h1 f1 hp => by
      obtain ⟨s, e, vrows⟩ := p
      obtain ⟨l, rows⟩ := b
      dsimp only at hp ⊢
      obtain ⟨rfl, rfl, o1, hrows⟩ := hp
      refine esims_post (R := fun h' _ b => Out h.length (h.length + 1) h' b.1 b.2) (fun _ => (h.length, h.length + 1)) ?_
        fun h' _ b _ hb => ⟨rfl, hb⟩
      exact esims_filterLoop hW hc ha.1 (ha.1.trans (by omega)) (by omega) (ha.mono f1 (by simp)) ho.size
        (oI.at f1 (by simp)) hrows (ox.at f1 (by simp)) (oP.at f1 (by simp)) o1 0
  obtain ⟨k1, k2, k3, k4, k5⟩ := key
  have e1 : (filter Z U).run ⟨h, o⟩ = (EM.onHeap (prefixOf o Z U) >>= fun p => filterLoop p.1 p.2.1 0 p.2.2 o.xk o.Pk
      >>= fun _ => Py.lift (.ok (p.1, p.2.1))).run ⟨h, o⟩ := by
    rw [filter_eq]
    rfl
  have e2 : (ExtendedKalmanFilter.filter z u).run kf = (Py.lift (prefixVal kf z u) >>= fun p =>
      ExtendedKalmanFilter.filterLoop 0 p.2 kf.xk kf.Pk (List.replicate p.1 (Arr.zerosVec kf.stateSize))
      (List.replicate p.1 (Arr.zerosMat kf.stateSize))).run kf := by
    rw [filterVal_eq]
    rfl
  rw [← e1] at k1 k2 k3 k5
  rw [← e2] at k4 k5
  refine ⟨gs, vals, ?_, k2, k3, k4, ?_⟩
  · refine k1.drop ?_
    rintro r (hr | rfl | rfl)
    · exact .inl hr
    · exact .inr le_rfl
    · exact .inr (by omega)
  · -- if it returned, the prefix returned and allocated both buffers
    rcases hm : (prefixOf o Z U).run h with ⟨e | p, h1⟩
    · have : ((filter Z U).run ⟨h, o⟩).1 = .error e := by rw [e1]; simp [run_bind, EM.onHeap, hm]
      rw [this] at k5 ⊢
      rcases hv : ((ExtendedKalmanFilter.filter z u).run kf).1 with e' | b <;> rw [hv] at k5
      · exact k5
      · exact k5
    · rw [hm] at hgs
      obtain ⟨p1, p2⟩ := pre
      rw [hm] at p2
      rcases hv : prefixVal kf z u with e' | b <;> rw [hv] at p2
      · exact absurd p2 (by simp [Alike])
      · obtain ⟨-, -, ho1, -⟩ := p2
        have l1 := seqAt_lt ho1.2
        refine k5.imp fun a b hab => ⟨hab.1, hab.2, fun v hv => ?_⟩
        have := hgs v hv
        dsimp only at this l1
        omega

/-- `smooth` on values after its call of `filter`. -/
def tailVal (kf : ExtendedKalmanFilter F) (Z : NDArray F) (U : Option (NDArray F)) (x P : List (Arr F)) :
    Except PyErr (List (Arr F) × List (Arr F)) := do
  let n ← Z.len
  let xLast ← (if n = 0 then .error .indexError else getRow x (n - 1))
  let PLast ← (if n = 0 then .error .indexError else getRow P (n - 1))
  let xrow ← xLast.assignVec kf.stateSize
  let Prow ← PLast.assignMat kf.stateSize
  ExtendedKalmanFilter.smoothLoop kf kf.Q (KK.checkNoneAndBroadcast U Z) x P (List.range (n - 1)).reverse
    ((List.replicate n (Arr.zerosVec kf.stateSize)).set (n - 1) xrow)
    ((List.replicate n (Arr.zerosMat kf.stateSize)).set (n - 1) Prow)

theorem smoothVal_eq (Z : NDArray F) (U : Option (NDArray F)) : ExtendedKalmanFilter.smooth Z U =
    ExtendedKalmanFilter.filter Z U >>= fun p => Py.self >>= fun kf => Py.lift (tailVal kf Z U p.1 p.2) := by
  simp only [tailVal, elift_bind, py_assoc, py_ok]
  rfl

theorem EObjIs.mono {h' : Heap F} (f : Frame W.all h h') (x : EObjIs W.all h o kf) : EObjIs W.all h' o kf where
  Q := (HasSeq.mono f ⟨x.Q', x.Q⟩).2
  R := (HasSeq.mono f ⟨x.R', x.R⟩).2
  xk := (Has.mono f ⟨x.xk', x.xk⟩).2
  Pk := (Has.mono f ⟨x.Pk', x.Pk⟩).2
  I := (Has.mono f ⟨x.I', x.I⟩).2
  size := x.size
  Q' := x.Q'
  R' := x.R'
  xk' := x.xk'
  Pk' := x.Pk'
  I' := x.I'

theorem hsim_smoothTail (hW : W.Private n) (hc : CallbacksAre n W h0 o kf) (ha : Agrees n W.all h0 h)
    (ho : EObjIs W.all h o kf) {Z : ℕ} {z : NDArray F} {U : Option ℕ} {u : Option (NDArray F)} (hZ : HasSeq W.all h Z z)
    (hU : SeqHas W.all h U u) {xE PE : ℕ} {x P : List (Arr F)} (hE : Out xE PE h x P) (hxE : n ≤ xE) (hPE : n ≤ PE) {l : ℕ}
    (hl : z.len = .ok l) (hxl : x.length = l) (hPl : P.length = l) :
    HSim W.all h (smoothTail o Z U xE PE) (tailVal kf z u x P)
      (fun h' p b => p = (h.length, h.length + 1) ∧ Out h.length (h.length + 1) h' b.1 b.2) := by
  obtain ⟨oQ, oR, ox, oP, oI⟩ := EObjIs.has ho h.length (h.length + 1) le_rfl (by omega)
  have key : ∀ {r : ℕ}, r < h.length → r ∉ W.all → r ∉ W.all ∪ {h.length, h.length + 1} := by
    rintro r hr hW (h1 | rfl | rfl)
    · exact hW h1
    · omega
    · omega
  have zT : HasSeq (W.all ∪ {h.length, h.length + 1}) h Z z := ⟨key (seqAt_lt hZ.2) hZ.1, hZ.2⟩
  have uT : SeqHas (W.all ∪ {h.length, h.length + 1}) h U u := by
    refine ⟨hU.1, fun r hr => ?_⟩
    subst hr
    rcases u with _ | u
    · exact absurd hU.1 (by simp [SeqArg])
    · exact key (seqAt_lt hU.1) (hU.2 r rfl)
  have xT : HasSeq (W.all ∪ {h.length, h.length + 1}) h xE (.stack x) :=
    ⟨key (seqAt_lt hE.1) fun hr => absurd (hW.old _ hr) (by omega), hE.1⟩
  have PT : HasSeq (W.all ∪ {h.length, h.length + 1}) h PE (.stack P) :=
    ⟨key (seqAt_lt hE.2) fun hr => absurd (hW.old _ hr) (by omega), hE.2⟩
  have hn := ha.1
  refine hsim_drop (S' := W.all ∪ {h.length, h.length + 1}) ?_ ?_
  swap
  · rintro r (hr | rfl | rfl)
    · exact .inl hr
    · exact .inr le_rfl
    · exact .inr (by omega)
  unfold smoothTail tailVal
  refine hsim_left (hrun_getSeq hZ.2) ?_
  rw [hl]
  refine hsim_left (a := l) rfl ?_
  simp only [ho.size]
  refine hsim_alloc (a := h.length) (c := .seq (.stack (List.replicate l (Arr.zerosVec kf.stateSize)))) rfl ?_
  refine hsim_alloc (a := h.length + 1) (c := .seq (.stack (List.replicate l (Arr.zerosMat kf.stateSize)))) ?_ ?_
  · simp [HeapM.newSeq]
  have f2 : Frame (F := F) ∅ h (h ++ [.seq (.stack (List.replicate l (Arr.zerosVec kf.stateSize)))] ++
    [Cell.seq (.stack (List.replicate l (Arr.zerosMat kf.stateSize)))]) := (Frame.append _ _ _).trans (Frame.append _ _ _)
  have o2 : Out (F := F) h.length (h.length + 1) (h ++ [.seq (.stack (List.replicate l (Arr.zerosVec kf.stateSize)))] ++
    [Cell.seq (.stack (List.replicate l (Arr.zerosMat kf.stateSize)))]) (List.replicate l (Arr.zerosVec kf.stateSize))
    (List.replicate l (Arr.zerosMat kf.stateSize)) := by
    constructor
    · exact seqAt_append _ (by simp [Heap.seqAt])
    · simp [Heap.seqAt]
  have len2 : h.length + 2 ≤ (h ++ [Cell.seq (.stack (List.replicate l (Arr.zerosVec (F := F) kf.stateSize)))] ++
    [Cell.seq (.stack (List.replicate l (Arr.zerosMat kf.stateSize)))]).length := by simp
  generalize (h ++ [Cell.seq (.stack (List.replicate l (Arr.zerosVec (F := F) kf.stateSize)))] ++
    [Cell.seq (.stack (List.replicate l (Arr.zerosMat kf.stateSize)))]) = h2 at f2 o2 len2 ⊢
  show HSim _ _ _ ((if l = 0 then .error .indexError else getRow x (l - 1)) >>= _) _
  rcases Nat.eq_zero_or_pos l with rfl | lpos
  · simp only [if_true]
    exact ⟨Frame.refl _ _, rfl⟩
  simp only [Nat.pos_iff_ne_zero.mp lpos, if_false]
  refine hsim_getRow (xT.at f2 (by simp)) fun xl hxl' => ?_
  rw [HFilter.getRow_some (l := P) (by omega)]
  show HSim _ _ _ (xl.assignVec kf.stateSize >>= _) _
  refine hsim_set (by simp) hxl'.2 o2.1 fun xr => ?_
  have g3 : Frame (W.all ∪ {h.length, h.length + 1}) h2 (h2.set h.length (.seq (.stack
    ((List.replicate l (Arr.zerosVec kf.stateSize)).set (l - 1) xr)))) := Frame.set (by simp) _ _
  have o3 := Out.set1 (by omega) (xs' := (List.replicate l (Arr.zerosVec kf.stateSize)).set (l - 1) xr) o2
  generalize h2.set h.length (.seq (.stack ((List.replicate l (Arr.zerosVec kf.stateSize)).set (l - 1) xr))) = h3
    at g3 o3 ⊢
  have hPE := (PT.at f2 (by simp)).mono g3
  have hPlast : Heap.deref h3 (.row PE (l - 1)) = some (P[l - 1]'(by omega)) :=
    (hPE.row (List.getElem?_eq_getElem (show l - 1 < P.length by omega))).2
  refine hsim_left (a := .row PE (l - 1)) ?_ ?_
  · rw [HeapM.item, run_bind, hrun_getSeq hPE.2]
    dsimp only
    rw [run_bind]
    simp only [NDArray.item, List.getElem?_eq_getElem (show l - 1 < P.length by omega)]
    rfl
  refine hsim_set (by simp) hPlast o3.2 fun Pr => ?_
  have g4 : Frame (W.all ∪ {h.length, h.length + 1}) h3 (h3.set (h.length + 1) (.seq (.stack
    ((List.replicate l (Arr.zerosMat kf.stateSize)).set (l - 1) Pr)))) := Frame.set (by simp) _ _
  have o4 := Out.set2 (by omega) (Ps' := (List.replicate l (Arr.zerosMat kf.stateSize)).set (l - 1) Pr) o3
  generalize h3.set (h.length + 1) (.seq (.stack ((List.replicate l (Arr.zerosMat kf.stateSize)).set (l - 1) Pr))) = h4
    at g4 o4 ⊢
  have g : Frame (W.all ∪ {h.length, h.length + 1}) h h4 := ((f2.up (by simp)).trans g3).trans g4
  refine hsim_check (S' := W.all ∪ {h.length, h.length + 1}) ?_ (zT.mono g).2 (uT.at g subset_rfl)
    fun h5 ur f5 hur => ?_
  · have := g3.len
    have := g4.len
    rintro r (hr | rfl | rfl)
    · have := hW.old r hr
      omega
    · omega
    · omega
  have g5 := g.trans (f5.up (by simp))
  refine hsim_post (R := fun h' _ b => Out h.length (h.length + 1) h' b.1 b.2) (fun _ => (h.length, h.length + 1)) ?_
    fun h' _ b _ hb => ⟨rfl, hb⟩
  refine hsim_smoothLoop hW hc ha.1 (ha.1.trans (by omega)) (by omega) (ha.mono g5 ?_) ho.size (oQ.mono g5) hur
    (xT.mono g5) (PT.mono g5) _ (Out.at f5 (by simp) (by simp) o4)
  rintro r (hr | rfl | rfl)
  · exact .inl hr
  · exact .inr hn
  · exact .inr (by omega)

theorem esim_smooth (hW : W.Private n) (hc : CallbacksAre n W h0 o kf) (ha : Agrees n W.all h0 h)
    (ho : EObjIs W.all h o kf) {Z : ℕ} {z : NDArray F} {U : Option ℕ} {u : Option (NDArray F)} (hZ : HasSeq W.all h Z z)
    (hU : SeqHas W.all h U u) :
    ∃ gs vals, ESim W.all h o kf (smooth Z U) (ExtendedKalmanFilter.smooth z u)
      (fun h' p b => NewOut h.length h' p b ∧ ∀ v ∈ gs, v.cell ≠ p.1 ∧ v.cell ≠ p.2) gs vals := by
  obtain ⟨gs, vals, x1, x2, x3, x4, x5⟩ := esim_filter hW hc ha ho hZ hU
  rw [smoothVal_eq, smooth]
  rcases hm : (filter Z U).run ⟨h, o⟩ with ⟨e | ⟨xE, PE⟩, ⟨h1, o1⟩⟩ <;>
    rcases hp : (ExtendedKalmanFilter.filter z u).run kf with ⟨e' | ⟨x, P⟩, kf1⟩ <;>
    rw [hm, hp] at x5 <;> rw [hm] at x1 x2 x3 <;> rw [hp] at x4 <;> dsimp only at x1 x2 x3 x4 x5
  · refine ⟨gs, vals, ?_, ?_, ?_, ?_, ?_⟩ <;> simp only [run_bind, hm, hp]
    · exact x1
    · exact x2
    · exact x3
    · exact x4
    · exact x5
  · exact absurd x5 (by simp [Alike])
  · exact absurd x5 (by simp [Alike])
  · obtain ⟨l, hl, hx, hP⟩ := C01_ekf_filter_shapes kf _ z u x P hp
    obtain ⟨hEP, hO, hgs⟩ := x5
    obtain ⟨rfl, rfl⟩ := Prod.mk.inj hEP
    have ha1 : Agrees n W.all h0 h1 := ha.mono x1 fun r hr => .inl hr
    have small : ∀ r ∈ W.all, r < h.length := fun r hr => (hW.old r hr).trans_le ha.1
    have ho1 := EObjIs.mono x1 ho
    have hc1 : CallbacksAre n W h0 o1 kf1 := by rw [x3, x4]; exact CallbacksAre.gained hc
    have ho1 : EObjIs W.all h1 o1 kf1 := by
      rw [x3, x4]
      exact ⟨ho1.Q, ho1.R, ho1.xk, ho1.Pk, ho1.I, ho1.size, ho1.Q', ho1.R', ho1.xk', ho1.Pk', ho1.I'⟩
    obtain ⟨y1, y2⟩ := hsim_smoothTail hW hc1 ha1 ho1 (hZ.mono x1) (hU.at x1 subset_rfl) hO ha.1
      (ha.1.trans (by omega)) hl hx.1 hP.1
    refine ⟨gs, vals, ?_, ?_, ?_, ?_, ?_⟩ <;>
      simp only [run_bind, hm, hp, EM.self, EM.onHeap, Py.self, Py.lift]
    · exact x1.trans y1
    · exact x2.mono y1 small
    · exact x3
    · exact x4
    · refine y2.imp fun a b hab => ?_
      obtain ⟨rfl, hb⟩ := hab
      refine ⟨⟨x1.len, x1.len.trans (by omega), by simp, hb⟩, fun v hv => ?_⟩
      have := (x2.new v hv).2
      dsimp only
      omega

end HEkf

end KK
