import Verif.Spec.HeapExt
import Verif.Proofs.Heap

/-! # The heap model of the extended filter: one step -/

set_option linter.unusedSectionVars false
set_option linter.unusedVariables false

namespace KK

variable {F : Type} [Backend F]

theorem WritesOnly.frame {W : Set ℕ} {h h' : Heap F} (x : WritesOnly W h h') : Frame W h h' := ⟨x.grows, x.same⟩

theorem Frame.up {W W' : Set ℕ} {h h' : Heap F} (x : Frame W h h') (s : W ⊆ W') : Frame W' h h' :=
  ⟨x.len, fun r hr hW => x.eq r hr fun hc => hW (s hc)⟩

/-- Buffers that did not exist do not count. -/
theorem Frame.drop {W W' : Set ℕ} {h h' : Heap F} (x : Frame W h h') (s : ∀ r ∈ W, r ∈ W' ∨ h.length ≤ r) :
    Frame W' h h' :=
  ⟨x.len, fun r hr hW => x.eq r hr fun hc => (s r hc).elim hW fun hc => absurd hc (by omega)⟩

theorem Agrees.mono {n : ℕ} {W S : Set ℕ} {h0 h h' : Heap F} (x : Agrees n W h0 h) (f : Frame S h h')
    (s : ∀ r ∈ S, r ∈ W ∨ n ≤ r) : Agrees n W h0 h' :=
  ⟨x.1.trans f.len, fun r hr hW => (f.eq r (hr.trans_le x.1) fun hc => (s r hc).elim hW fun hc => absurd hc (by omega)).trans
    (x.2 r hr hW)⟩

/-- `v` shows `a`. -/
theorem Has.at {S S' : Set ℕ} {h h' : Heap F} {v : View} {a : Arr F} (x : Has S h v a) (f : Frame S' h h') (s : S' ⊆ S) :
    Has S h' v a := ⟨x.1, (Has.mono f ⟨fun hc => x.1 (s hc), x.2⟩).2⟩

theorem Has.sub {S S' : Set ℕ} {h : Heap F} {v : View} {a : Arr F} (x : Has S h v a) (s : S' ⊆ S) : Has S' h v a :=
  ⟨fun hc => x.1 (s hc), x.2⟩

theorem HasSeq.at {S S' : Set ℕ} {h h' : Heap F} {r : ℕ} {a : NDArray F} (x : HasSeq S h r a) (f : Frame S' h h')
    (s : S' ⊆ S) : HasSeq S h' r a := ⟨x.1, (HasSeq.mono f ⟨fun hc => x.1 (s hc), x.2⟩).2⟩

/-- The heap program `m` does what `y` says: it writes only buffers in `S` and has the same outcome. -/
def HSim {α β : Type} (S : Set ℕ) (h : Heap F) (m : HeapM F α) (y : Except PyErr β) (R : Heap F → α → β → Prop) : Prop :=
  Frame S h (m.run h).2 ∧ Alike (R (m.run h).2) (m.run h).1 y

theorem Alike.imp {α β : Type} {P Q : α → β → Prop} {x : Except PyErr α} {y : Except PyErr β} (s : ∀ a b, P a b → Q a b)
    (h : Alike P x y) : Alike Q x y := by
  rcases x with e | a <;> rcases y with e' | b
  · exact h
  · exact h
  · exact h
  · exact s _ _ h

section
variable {α β γ δ : Type} {S S' : Set ℕ} {h : Heap F}

theorem hsim_bind {m : HeapM F α} {y : Except PyErr β} {R : Heap F → α → β → Prop} {f : α → HeapM F γ}
    {g : β → Except PyErr δ} {R' : Heap F → γ → δ → Prop} (x : HSim S' h m y R) (s : S' ⊆ S)
    (k : ∀ a b h', Frame S' h h' → R h' a b → HSim S h' (f a) (g b) R') : HSim S h (m >>= f) (y >>= g) R' := by
  obtain ⟨x1, x2⟩ := x
  show HSim S h (Py.bind m f) (Except.bind y g) R'
  rcases hm : m.run h with ⟨e | a, h'⟩ <;> rw [hm] at x1 x2 <;> rcases y with e' | b
  · simp only [HSim, Py.bind, hm]
    exact ⟨x1.up s, x2⟩
  · exact absurd x2 (by simp [Alike])
  · exact absurd x2 (by simp [Alike])
  · obtain ⟨k1, k2⟩ := k a b h' x1 x2
    simp only [HSim, Py.bind, hm]
    exact ⟨(x1.up s).trans k1, k2⟩

/-- A step of the heap program alone. -/
theorem hsim_left {m : HeapM F α} {a : α} {f : α → HeapM F γ} {y : Except PyErr δ} {R : Heap F → γ → δ → Prop}
    (e : m.run h = (.ok a, h)) (x : HSim S h (f a) y R) : HSim S h (m >>= f) y R := by
  show HSim S h (Py.bind m f) y R
  simpa only [HSim, Py.bind, e] using x

theorem hsim_ok {a : α} {b : β} {R : Heap F → α → β → Prop} (x : R h a b) : HSim S h (Py.lift (.ok a)) (.ok b) R :=
  ⟨Frame.refl _ _, x⟩

theorem hsim_up {m : HeapM F α} {y : Except PyErr β} {R : Heap F → α → β → Prop} (x : HSim S' h m y R) (s : S' ⊆ S) :
    HSim S h m y R := ⟨x.1.up s, x.2⟩

theorem hsim_imp {m : HeapM F α} {y : Except PyErr β} {R R' : Heap F → α → β → Prop} (x : HSim S h m y R)
    (s : ∀ h' a b, Frame S h h' → R h' a b → R' h' a b) : HSim S h m y R' :=
  ⟨x.1, x.2.imp fun a b hr => s _ a b x.1 hr⟩

/-- `v` shows `a` in a buffer that did not exist at length `n`. -/
def New (n : ℕ) (h : Heap F) (v : View) (a : Arr F) : Prop := n ≤ v.cell ∧ h.deref v = some a

theorem New.has {n : ℕ} {v : View} {a : Arr F} (x : New n h v a) (s : ∀ r ∈ S, r < n) : Has S h v a :=
  ⟨fun hc => absurd (s _ hc) (by have := x.1; omega), x.2⟩

theorem New.mono {n : ℕ} {h' : Heap F} {v : View} {a : Arr F} (x : New n h v a) (f : Frame S h h') (s : ∀ r ∈ S, r < n) :
    New n h' v a := ⟨x.1, ((x.has s).mono f).2⟩

theorem New.weaken {n n' : ℕ} {v : View} {a : Arr F} (x : New n h v a) (hn : n' ≤ n) : New n' h v a :=
  ⟨hn.trans x.1, x.2⟩

theorem New.T {n : ℕ} {v : View} {a : Arr F} (x : New n h v a) : New n h (.trans v) a.T :=
  ⟨x.1, by simp [Heap.deref, x.2]⟩

theorem hrun_get {v : View} {a : Arr F} (x : h.deref v = some a) : (HeapM.get v : HeapM F (Arr F)).run h = (.ok a, h) := by
  simp [HeapM.get, x]

theorem hrun_getSeq {r : ℕ} {a : NDArray F} (x : h.seqAt r = some a) :
    (HeapM.getSeq r : HeapM F (NDArray F)).run h = (.ok a, h) := by
  simp [HeapM.getSeq, x]

theorem hsim_op (f : Arr F → Arr F → Except PyErr (Arr F)) {v w : View} {a b : Arr F} (hv : h.deref v = some a)
    (hw : h.deref w = some b) : HSim ∅ h (HeapM.op f v w) (f a b) (fun h' u c => New h.length h' u c) := by
  unfold HeapM.op
  refine hsim_left (hrun_get hv) (hsim_left (hrun_get hw) ?_)
  rcases f a b with e | c
  · exact ⟨Frame.refl _ _, rfl⟩
  · refine ⟨Frame.append _ _ _, ?_⟩
    exact ⟨le_rfl, by simp [Heap.deref, Py.lift, HeapM.new, bind, Py.bind]⟩

theorem Frame.deref {h' : Heap F} (f : Frame ∅ h h') {v : View} {a : Arr F} (x : h.deref v = some a) :
    h'.deref v = some a := (Has.mono (S := ∅) f ⟨by simp, x⟩).2

end

theorem deref_T {h : Heap F} {v : View} {a : Arr F} (x : h.deref v = some a) : h.deref (.trans v) = some a.T := by
  simp [Heap.deref, x]

theorem deref_at1 {h : Heap F} {v : View} {a : Arr F} (x : h.deref v = some a) :
    h.deref (.at1 v) = some a.atleast1d := by
  simp [Heap.deref, x]

/-- Follow a reference along a chain of allocations. -/
syntax "der" : tactic
macro_rules
  | `(tactic| der) => `(tactic| first
      | assumption
      | (apply deref_T; der)
      | (apply deref_at1; der)
      | (apply Frame.deref; assumption; der))

namespace HEkf

variable {n : ℕ} {W : Scratch} {h0 h : Heap F} {o : HEkf F} {kf : ExtendedKalmanFilter F}

theorem f_sub : W.f ⊆ W.all := fun _ h => .inl (.inl (.inl h))
theorem A_sub : W.jacobianA ⊆ W.all := fun _ h => .inl (.inl (.inr h))
theorem h_sub : W.h ⊆ W.all := fun _ h => .inl (.inr h)
theorem H_sub : W.jacobianH ⊆ W.all := fun _ h => .inr h

/-- An optional argument outside the scratch arrays. -/
def ArgHas (S : Set ℕ) (h : Heap F) (u : Option View) (b : Option (Arr F)) : Prop :=
  ViewArg h u b ∧ ∀ y, u = some y → y.cell ∉ S

theorem ArgHas.at {S S' : Set ℕ} {h' : Heap F} {u : Option View} {b : Option (Arr F)} (x : ArgHas S h u b)
    (f : Frame S' h h') (s : S' ⊆ S) : ArgHas S h' u b := by
  refine ⟨?_, x.2⟩
  rcases u with _ | u <;> rcases b with _ | b
  · trivial
  · exact x.1
  · exact x.1
  · exact (Has.at ⟨x.2 u rfl, x.1⟩ f s).2

theorem hsim_call2 {w : Set ℕ} {c : View → Option View → HeapM F View} {g : Arr F → Option (Arr F) → Except PyErr (Arr F)}
    (hc : Computes2 n w W.all h0 c g) (hw : w ⊆ W.all) (ha : Agrees n W.all h0 h) {v : View} {u : Option View} {a : Arr F}
    {b : Option (Arr F)} (hv : Has W.all h v a) (hu : ArgHas W.all h u b) :
    HSim w h (c v u) (g a b) (fun h' r y => h'.deref r = some y ∧ (r.cell ∈ W.all → r.cell ∈ w)) := by
  refine ⟨(hc.writes v u h).frame, ?_⟩
  refine (hc.value v u h a b ha hv.2 (fun hx => hv.1 (hw hx)) hu.1 fun y hy hx => hu.2 y hy (hw hx)).imp ?_
  rintro r y ⟨h1, h2⟩
  refine ⟨h1, fun hr => ?_⟩
  rcases h2 hr with h | h | ⟨y, hy, h⟩
  · exact h
  · exact absurd (h ▸ hr) hv.1
  · exact absurd (h ▸ hr) (hu.2 y hy)

theorem hsim_call1 {w S : Set ℕ} {c : View → HeapM F View} {g : Arr F → Except PyErr (Arr F)}
    (hc : Computes1 n w W.all h0 c g) (ha : Agrees n W.all h0 h) {v : View} {a : Arr F} (hv : h.deref v = some a)
    (hw : v.cell ∉ w) (hS : v.cell ∉ S) (hSw : Disjoint S w) (hSa : S ⊆ W.all) :
    HSim w h (c v) (g a) (fun h' r y => Has S h' r y) := by
  refine ⟨(hc.writes v h).frame, ?_⟩
  refine (hc.value v h a ha hv hw).imp ?_
  rintro r y ⟨h1, h2⟩
  refine ⟨fun hr => ?_, h1⟩
  rcases h2 (hSa hr) with h | h
  · exact Set.disjoint_left.mp hSw hr h
  · exact hS (h ▸ hr)

theorem hsim_predict (hW : W.Private n) (hc : CallbacksAre n W h0 o kf) (ha : Agrees n W.all h0 h) {vx vP vQ : View}
    {vu : Option View} {x P Q : Arr F} {u : Option (Arr F)} (hx : Has W.all h vx x) (hu : ArgHas W.all h vu u)
    (hP : Has W.all h vP P) (hQ : Has W.all h vQ Q) :
    HSim W.all h (predict o vx vu vP vQ) (ExtendedKalmanFilter.predict kf x u P Q)
      (fun h' p b => (h'.deref p.1 = some b.1 ∧ (p.1.cell ∈ W.all → p.1.cell ∈ W.f)) ∧ New h.length h' p.2 b.2) := by
  unfold predict ExtendedKalmanFilter.predict
  refine hsim_bind (hsim_call2 hc.jacobianA A_sub ha hx hu) A_sub fun vA A h1 f1 r1 => ?_
  have ha1 : Agrees n W.all h0 h1 := ha.mono f1 fun r hr => .inl (A_sub hr)
  have x1 := hx.at f1 A_sub
  have u1 := hu.at f1 A_sub
  have P1 := hP.at f1 A_sub
  have Q1 := hQ.at f1 A_sub
  refine hsim_bind (hsim_call2 hc.f f_sub ha1 x1 u1) f_sub fun vx' x' h2 f2 r2 => ?_
  have A2 : Has W.f h2 vA A := Has.mono f2 ⟨fun hr => Set.disjoint_left.mp hW.fA hr (r1.2 (f_sub hr)), r1.1⟩
  have P2 := (P1.at f2 f_sub).2
  have Q2 := (Q1.at f2 f_sub).2
  have A2 := A2.2
  have x2 := r2.1
  refine hsim_bind (hsim_op _ (by der) (by der)) (by simp) fun v3 c3 h3 f3 ⟨l3, r3⟩ => ?_
  refine hsim_bind (hsim_op _ (by der) (by der)) (by simp) fun v4 c4 h4 f4 ⟨l4, r4⟩ => ?_
  refine hsim_bind (hsim_op _ (by der) (by der)) (by simp) fun v5 c5 h5 f5 ⟨l5, r5⟩ => ?_
  refine hsim_ok ⟨⟨by der, r2.2⟩, ⟨?_, r5⟩⟩
  have := f1.len
  have := f2.len
  have := f3.len
  have := f4.len
  dsimp only
  omega

theorem hsim_gain {vH vP vR : View} {H P R : Arr F} (hH : h.deref vH = some H) (hP : h.deref vP = some P)
    (hR : h.deref vR = some R) :
    HSim ∅ h (gain vH vP vR) (ExtendedKalmanFilter.gain H P R) (fun h' v a => New h.length h' v a) := by
  unfold gain ExtendedKalmanFilter.gain
  refine hsim_bind (hsim_op _ (by der) (by der)) (by simp) fun v1 c1 h1 f1 ⟨l1, r1⟩ => ?_
  refine hsim_bind (hsim_op _ (by der) (by der)) (by simp) fun v2 c2 h2 f2 ⟨l2, r2⟩ => ?_
  refine hsim_bind (hsim_op _ (by der) (by der)) (by simp) fun v3 c3 h3 f3 ⟨l3, r3⟩ => ?_
  refine hsim_bind (hsim_op _ (by der) (by der)) (by simp) fun v4 c4 h4 f4 ⟨l4, r4⟩ => ?_
  refine hsim_bind (hsim_op _ (by der) (by der)) (by simp) fun v5 c5 h5 f5 ⟨l5, r5⟩ => ?_
  refine hsim_ok ⟨?_, by der⟩
  have := f1.len
  have := f2.len
  have := f3.len
  have := f4.len
  show h.length ≤ v5.cell
  omega

theorem hsim_correct (hc : CallbacksAre n W h0 o kf) (ha : Agrees n W.all h0 h)
    (hI : Has W.h h o.I kf.I) {vK vH vx vP vz : View} {K H x P z : Arr F} (hK : Has W.h h vK K) (hH : Has W.h h vH H)
    (hx : Has W.h h vx x) (hP : Has W.h h vP P) (hz : Has W.h h vz z) :
    HSim W.h h (correct o vK vH vx vP vz) (ExtendedKalmanFilter.correct kf K H x P z)
      (fun h' p b => New h.length h' p.1 b.1 ∧ New h.length h' p.2 b.2) := by
  unfold correct ExtendedKalmanFilter.correct
  refine hsim_bind (hsim_call1 (S := ∅) hc.h ha hx.2 hx.1 (by simp) (by simp) (by simp)) subset_rfl
    fun v0 c0 h1 f1 ⟨_, r1⟩ => ?_
  obtain ⟨-, I1⟩ := hI.mono f1
  obtain ⟨-, K1⟩ := hK.mono f1
  obtain ⟨-, H1⟩ := hH.mono f1
  obtain ⟨-, x1⟩ := hx.mono f1
  obtain ⟨-, P1⟩ := hP.mono f1
  obtain ⟨-, z1⟩ := hz.mono f1
  refine hsim_bind (hsim_op _ (by der) (by der)) (by simp) fun v2 c2 h2 f2 ⟨l2, r2⟩ => ?_
  refine hsim_bind (hsim_op _ (by der) (by der)) (by simp) fun v3 c3 h3 f3 ⟨l3, r3⟩ => ?_
  refine hsim_bind (hsim_op _ (by der) (by der)) (by simp) fun v4 c4 h4 f4 ⟨l4, r4⟩ => ?_
  refine hsim_bind (hsim_op _ (by der) (by der)) (by simp) fun v5 c5 h5 f5 ⟨l5, r5⟩ => ?_
  refine hsim_bind (hsim_op _ (by der) (by der)) (by simp) fun v6 c6 h6 f6 ⟨l6, r6⟩ => ?_
  refine hsim_bind (hsim_op _ (by der) (by der)) (by simp) fun v7 c7 h7 f7 ⟨l7, r7⟩ => ?_
  have := f1.len
  have := f2.len
  have := f3.len
  have := f4.len
  have := f5.len
  have := f6.len
  exact hsim_ok ⟨⟨by dsimp only; omega, by der⟩, ⟨by dsimp only; omega, by der⟩⟩

theorem hsim_smoothStep (hW : W.Private n) (hc : CallbacksAre n W h0 o kf) (ha : Agrees n W.all h0 h)
    {vx vP vQ vu vxn vPn : View} {x P Q u xn Pn : Arr F} (hx : Has W.all h vx x) (hP : Has W.all h vP P)
    (hQ : Has W.all h vQ Q) (hu : Has W.all h vu u) (hxn : Has W.all h vxn xn) (hPn : Has W.all h vPn Pn) :
    HSim W.all h (smoothStep o vx vP vQ vu vxn vPn) (ExtendedKalmanFilter.smoothStep kf x P Q u xn Pn)
      (fun h' p b => New h.length h' p.1 b.1 ∧ New h.length h' p.2 b.2) := by
  have hu' : ArgHas W.all h (some vu) (some u) := ⟨hu.2, by rintro y ⟨⟩; exact hu.1⟩
  unfold smoothStep ExtendedKalmanFilter.smoothStep
  refine hsim_bind (hsim_predict hW hc ha hx hu' hP hQ) subset_rfl fun v0 c0 h1 f1 r1 => ?_
  obtain ⟨v0, v0'⟩ := v0
  obtain ⟨c0, c0'⟩ := c0
  dsimp only at r1 ⊢
  obtain ⟨⟨r1, r1'⟩, r1''⟩ := r1
  have ha1 : Agrees n W.all h0 h1 := ha.mono f1 fun r hr => .inl hr
  have x1 := hx.mono f1
  refine hsim_bind (hsim_call2 hc.jacobianA A_sub ha1 x1 (hu'.at f1 subset_rfl)) A_sub
    fun vA A h2 f2 ⟨A2, _⟩ => ?_
  obtain ⟨-, x2⟩ := x1.at f2 A_sub
  obtain ⟨-, P2⟩ := (hP.mono f1).at f2 A_sub
  obtain ⟨-, Pn2⟩ := (hPn.mono f1).at f2 A_sub
  obtain ⟨-, xn2⟩ := (hxn.mono f1).at f2 A_sub
  obtain ⟨-, y2⟩ := Has.mono (v := v0) f2 ⟨fun hr => Set.disjoint_left.mp hW.fA (r1' (A_sub hr)) hr, r1⟩
  obtain ⟨-, y2'⟩ := New.mono (v := v0') r1'' f2 fun r hr => (hW.old r (A_sub hr)).trans_le ha.1
  refine hsim_bind (hsim_op _ (by der) (by der)) (by simp) fun v3 c3 h3 f3 ⟨l3, r3⟩ => ?_
  refine hsim_bind (hsim_op _ (by der) (by der)) (by simp) fun v4 c4 h4 f4 ⟨l4, r4⟩ => ?_
  refine hsim_bind (hsim_op _ (by der) (by der)) (by simp) fun v5 c5 h5 f5 ⟨l5, r5⟩ => ?_
  refine hsim_bind (hsim_op _ (by der) (by der)) (by simp) fun v6 c6 h6 f6 ⟨l6, r6⟩ => ?_
  refine hsim_bind (hsim_op _ (by der) (by der)) (by simp) fun v7 c7 h7 f7 ⟨l7, r7⟩ => ?_
  refine hsim_bind (hsim_op _ (by der) (by der)) (by simp) fun v8 c8 h8 f8 ⟨l8, r8⟩ => ?_
  refine hsim_bind (hsim_op _ (by der) (by der)) (by simp) fun v9 c9 h9 f9 ⟨l9, r9⟩ => ?_
  refine hsim_bind (hsim_op _ (by der) (by der)) (by simp) fun v10 c10 h10 f10 ⟨l10, r10⟩ => ?_
  refine hsim_bind (hsim_op _ (by der) (by der)) (by simp) fun v11 c11 h11 f11 ⟨l11, r11⟩ => ?_
  have := f1.len
  have := f2.len
  have := f3.len
  have := f4.len
  have := f5.len
  have := f6.len
  have := f7.len
  have := f8.len
  have := f9.len
  have := f10.len
  exact hsim_ok ⟨⟨by dsimp only; omega, by der⟩, ⟨by dsimp only; omega, by der⟩⟩

end HEkf

end KK
