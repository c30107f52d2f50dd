import Verif.Proofs.HeapRun

/-! # The heap model of `smooth` and of the constructor -/

set_option linter.unusedSectionVars false
set_option linter.unusedVariables false

namespace KK

variable {F : Type} [Backend F]

namespace HFilter

variable {n : ℕ} {S : Set ℕ} {h : Heap F} {o : HFilter} {kf : KalmanFilter F}

theorem sim_smoothStep (hS : ∀ r ∈ S, r < n) (hn : n ≤ h.length) {vx vP vA vQ vB vu vxn vPn : View}
    {x P A Q B u xn Pn : Arr F} (hx : Has S h vx x) (hP : Has S h vP P) (hA : Has S h vA A) (hQ : Has S h vQ Q)
    (hB : Has S h vB B) (hu : Has S h vu u) (hxn : Has S h vxn xn) (hPn : Has S h vPn Pn) :
    Sim n S h o kf (smoothStep vx vP vA vQ vB vu vxn vPn) (Py.lift (KalmanFilter.smoothStep x P A Q B u xn Pn))
      (Fresh2 n S) := by
  unfold smoothStep KalmanFilter.smoothStep
  simp only [lift_bind]
  refine sim_bind hS (sim_predict hS hn hA hx hB hu hP hQ) fun v0 c0 h0 _ _ f0 _ ⟨⟨_, r0⟩, ⟨_, r0'⟩⟩ => ?_
  obtain ⟨v0, v0'⟩ := v0
  obtain ⟨c0, c0'⟩ := c0
  dsimp only at r0 r0' ⊢
  refine sim_bind hS (sim_op hS (by big) _ (by has) (by has)) fun v1 c1 h1 _ _ f1 _ ⟨_, r1⟩ => ?_
  refine sim_bind hS (sim_op hS (by big) _ (by has) (by has)) fun v2 c2 h2 _ _ f2 _ ⟨_, r2⟩ => ?_
  refine sim_bind hS (sim_op hS (by big) _ (by has) (by has)) fun v3 c3 h3 _ _ f3 _ ⟨_, r3⟩ => ?_
  refine sim_bind hS (sim_op hS (by big) _ (by has) (by has)) fun v4 c4 h4 _ _ f4 _ ⟨_, r4⟩ => ?_
  refine sim_bind hS (sim_op hS (by big) _ (by has) (by has)) fun v5 c5 h5 _ _ f5 _ ⟨l5, r5⟩ => ?_
  refine sim_bind hS (sim_op hS (by big) _ (by has) (by has)) fun v6 c6 h6 _ _ f6 _ ⟨_, r6⟩ => ?_
  refine sim_bind hS (sim_op hS (by big) _ (by has) (by has)) fun v7 c7 h7 _ _ f7 _ ⟨_, r7⟩ => ?_
  refine sim_bind hS (sim_op hS (by big) _ (by has) (by has)) fun v8 c8 h8 _ _ f8 _ ⟨_, r8⟩ => ?_
  refine sim_bind hS (sim_op hS (by big) _ (by has) (by has)) fun v9 c9 h9 _ _ f9 _ ⟨l9, r9⟩ => ?_
  exact sim_ok _ _ ⟨⟨l5, by has⟩, ⟨l9, r9⟩⟩

theorem HasSeq.weaken {r : ℕ} {a : NDArray F} (x : HasSeq S h r a) : HasSeq ∅ h r a := ⟨by simp, x.2⟩

theorem sim_smoothLoop {s e : ℕ} (hs : s < n) (he : e < n) (hse : s ≠ e) (hn : n ≤ h.length) (d : ℕ)
    {A Q B U xE PE : ℕ} {a q b u : NDArray F} {x P : List (Arr F)} (hA : HasSeq {s, e} h A a)
    (hQ : HasSeq {s, e} h Q q) (hB : HasSeq {s, e} h B b) (hU : HasSeq {s, e} h U u)
    (hx : HasSeq {s, e} h xE (.stack x)) (hP : HasSeq {s, e} h PE (.stack P)) (ks : List ℕ) {xs Ps : List (Arr F)}
    (hout : Out s e h xs Ps) :
    Sim n {s, e} h o kf (smoothLoop A Q B U d xE PE s e ks)
      (Py.lift (KalmanFilter.smoothLoop a q b u d x P ks xs Ps)) (fun h' _ b => Out s e h' b.1 b.2) := by
  have hS : ∀ r ∈ ({s, e} : Set ℕ), r < n := by
    rintro r (rfl | rfl) <;> assumption
  have hS0 : ∀ r ∈ (∅ : Set ℕ), r < n := by simp
  induction ks generalizing h o kf xs Ps with
  | nil => exact sim_ok _ _ hout
  | cons k ks ih =>
    unfold smoothLoop KalmanFilter.smoothLoop
    simp only [lift_bind]
    refine sim_item hA fun ak hak => sim_item hQ fun qk hqk => sim_item hB fun bk hbk => sim_item hU fun uk huk => ?_
    refine sim_getRow hP fun Pk hPk => sim_getRow hx fun xk hxk => ?_
    refine sim_getRow (S' := ∅) ⟨by simp, hout.1⟩ fun xn hxn => sim_getRow (S' := ∅) ⟨by simp, hout.2⟩ fun Pn hPn => ?_
    refine sim_bind0 hS (sim_smoothStep hS0 hn (Has.weaken hxk) (Has.weaken hPk) (Has.weaken hak) (Has.weaken hqk)
      (Has.weaken hbk) (Has.weaken huk) hxn hPn) fun v1 c1 h1 gs1 w1 f1 _ ⟨q1, q2⟩ _ => ?_
    obtain ⟨v1, v2⟩ := v1
    obtain ⟨c1, c2⟩ := c1
    dsimp only at q1 q2 ⊢
    have o1 := Out.mono f1 hout
    refine sim_set (by simp) q1.2.2 o1.1 fun b => ?_
    have g1 : Frame {s, e} h h1 := Frame.weaken f1
    have g3 : Frame {s, e} h1 (h1.set s (.seq (.stack (xs.set k b)))) := Frame.set (by simp) _ _
    have q2' := (Fresh.strengthen hS q2).mono g3
    refine sim_set (by simp) q2'.2 (by rw [seqAt_set_ne (Ne.symm hse)]; exact o1.2) fun b' => ?_
    have g4 : Frame {s, e} (h1.set s (.seq (.stack (xs.set k b))))
      ((h1.set s (.seq (.stack (xs.set k b)))).set e (.seq (.stack (Ps.set k b')))) := Frame.set (by simp) _ _
    have g := (g1.trans g3).trans g4
    refine ih (hn.trans g.len) (hA.mono g) (hQ.mono g) (hB.mono g) (hU.mono g) (hx.mono g) (hP.mono g) ⟨?_, ?_⟩
    · rw [seqAt_set_ne hse]; exact seqAt_set_self o1.1
    · refine seqAt_set_self (a := .stack Ps) ?_
      rw [seqAt_set_ne (Ne.symm hse)]; exact o1.2

theorem getRow_some {l : List (Arr F)} {k : ℕ} (hk : k < l.length) : getRow l k = .ok l[k] := by
  simp [getRow, List.getElem?_eq_getElem hk]

theorem SeqArg.mono {h' : Heap F} (f : Frame ∅ h h') {U : Option ℕ} {u : Option (NDArray F)} (x : SeqArg h U u) :
    SeqArg h' U u := by
  rcases U with _ | r <;> rcases u with _ | a
  · trivial
  · exact x
  · exact x
  · exact (HasSeq.mono f ⟨by simp, x⟩).2

theorem ObjIs.mono {h' : Heap F} (f : Frame ∅ h h') (x : ObjIs h o kf) : ObjIs h' o kf where
  A := (HasSeq.mono f ⟨by simp, x.A⟩).2
  B := (HasSeq.mono f ⟨by simp, x.B⟩).2
  H := (HasSeq.mono f ⟨by simp, x.H⟩).2
  Q := (HasSeq.mono f ⟨by simp, x.Q⟩).2
  R := (HasSeq.mono f ⟨by simp, x.R⟩).2
  xk := (Has.mono f ⟨by simp, x.xk⟩).2
  Pk := (Has.mono f ⟨by simp, x.Pk⟩).2
  I := (Has.mono f ⟨by simp, x.I⟩).2
  size := x.size

theorem ObjIs.gained {gs : List View} {vals : List (Arr F)} (x : ObjIs h o kf) :
    ObjIs h { o with kalmanGains := gs } { kf with kalmanGains := vals } :=
  ⟨x.A, x.B, x.H, x.Q, x.R, x.xk, x.Pk, x.I, x.size⟩

theorem sim_smoothTail (ho : ObjIs h o kf) {Z : ℕ} {z : NDArray F} {U : Option ℕ} {u : Option (NDArray F)}
    (hZ : h.seqAt Z = some z) (hU : SeqArg h U u) {xE PE : ℕ} {x P : List (Arr F)} (hE : Out xE PE h x P) {l : ℕ}
    (hl : z.len = .ok l) (hxl : x.length = l) (hPl : P.length = l) :
    Sim h.length ∅ h o kf (do
      let kf ← HM.self
      let z ← HM.getSeq Z
      let n ← Py.lift z.len
      let xs ← HM.newSeq (.stack (List.replicate n (Arr.zerosVec kf.stateSize)))
      let Ps ← HM.newSeq (.stack (List.replicate n (Arr.zerosMat kf.stateSize)))
      let xLast ← if n = 0 then Py.lift (.error .indexError) else HM.item xE (n - 1)
      HM.setRow (Arr.assignVec kf.stateSize) xs (n - 1) xLast
      let PLast ← if n = 0 then Py.lift (.error .indexError) else HM.item PE (n - 1)
      HM.setRow (Arr.assignMat kf.stateSize) Ps (n - 1) PLast
      let U' ← checkNoneAndBroadcast U Z
      smoothLoop kf.A kf.Q kf.B U' kf.stateSize xE PE xs Ps (List.range (n - 1)).reverse
      Py.lift (.ok (xs, Ps)))
    (do
      let kf ← Py.self
      let n ← Py.lift z.len
      let xs := List.replicate n (Arr.zerosVec kf.stateSize)
      let Ps := List.replicate n (Arr.zerosMat kf.stateSize)
      let xLast ← Py.lift (if n = 0 then .error .indexError else getRow x (n - 1))
      let PLast ← Py.lift (if n = 0 then .error .indexError else getRow P (n - 1))
      let xrow ← Py.lift (xLast.assignVec kf.stateSize)
      let Prow ← Py.lift (PLast.assignMat kf.stateSize)
      let U' := KK.checkNoneAndBroadcast u z
      Py.lift (KalmanFilter.smoothLoop kf.A kf.Q kf.B U' kf.stateSize x P (List.range (n - 1)).reverse
        (xs.set (n - 1) xrow) (Ps.set (n - 1) Prow)))
    (NewOut h.length) := by
  have key : Sim (h.length + 2) {h.length, h.length + 1} h o kf (do
      let kf ← HM.self
      let z ← HM.getSeq Z
      let n ← Py.lift z.len
      let xs ← HM.newSeq (.stack (List.replicate n (Arr.zerosVec kf.stateSize)))
      let Ps ← HM.newSeq (.stack (List.replicate n (Arr.zerosMat kf.stateSize)))
      let xLast ← if n = 0 then Py.lift (.error .indexError) else HM.item xE (n - 1)
      HM.setRow (Arr.assignVec kf.stateSize) xs (n - 1) xLast
      let PLast ← if n = 0 then Py.lift (.error .indexError) else HM.item PE (n - 1)
      HM.setRow (Arr.assignMat kf.stateSize) Ps (n - 1) PLast
      let U' ← checkNoneAndBroadcast U Z
      smoothLoop kf.A kf.Q kf.B U' kf.stateSize xE PE xs Ps (List.range (n - 1)).reverse
      Py.lift (.ok (xs, Ps)))
    (do
      let kf ← Py.self
      let n ← Py.lift z.len
      let xs := List.replicate n (Arr.zerosVec kf.stateSize)
      let Ps := List.replicate n (Arr.zerosMat kf.stateSize)
      let xLast ← Py.lift (if n = 0 then .error .indexError else getRow x (n - 1))
      let PLast ← Py.lift (if n = 0 then .error .indexError else getRow P (n - 1))
      let xrow ← Py.lift (xLast.assignVec kf.stateSize)
      let Prow ← Py.lift (PLast.assignMat kf.stateSize)
      let U' := KK.checkNoneAndBroadcast u z
      Py.lift (KalmanFilter.smoothLoop kf.A kf.Q kf.B U' kf.stateSize x P (List.range (n - 1)).reverse
        (xs.set (n - 1) xrow) (Ps.set (n - 1) Prow)))
      (fun h' p b => p = (h.length, h.length + 1) ∧ Out h.length (h.length + 1) h' b.1 b.2) := by
    have hS : ∀ r ∈ ({h.length, h.length + 1} : Set ℕ), h.length ≤ r := by
      rintro r (rfl | rfl) <;> simp
    have nS : ∀ {r : ℕ}, r < h.length → r ∉ ({h.length, h.length + 1} : Set ℕ) := fun hr hc => absurd (hS _ hc) (by omega)
    have sq : ∀ {r : ℕ} {a : NDArray F}, h.seqAt r = some a → HasSeq {h.length, h.length + 1} h r a :=
      fun e => ⟨nS (seqAt_lt e), e⟩
    have hsz := ho.size
    refine sim_left (a := o) rfl (sim_right (b := kf) rfl ?_)
    refine sim_left (run_getSeq (sq hZ)) ?_
    rw [hl]
    refine sim_left (a := l) rfl (sim_right (b := l) rfl ?_)
    refine sim_alloc (a := h.length) (c := .seq (.stack (List.replicate l (Arr.zerosVec o.stateSize)))) rfl ?_
    refine sim_alloc (a := h.length + 1) (c := .seq (.stack (List.replicate l (Arr.zerosMat o.stateSize)))) ?_ ?_
    · simp [HM.newSeq]
    have f2 : Frame (F := F) {h.length, h.length + 1} h (h ++ [.seq (.stack (List.replicate l (Arr.zerosVec o.stateSize)))] ++
      [Cell.seq (.stack (List.replicate l (Arr.zerosMat o.stateSize)))]) := (Frame.append _ _ _).trans (Frame.append _ _ _)
    have o2 : Out (F := F) h.length (h.length + 1) (h ++ [.seq (.stack (List.replicate l (Arr.zerosVec o.stateSize)))] ++
      [Cell.seq (.stack (List.replicate l (Arr.zerosMat o.stateSize)))]) (List.replicate l (Arr.zerosVec o.stateSize))
      (List.replicate l (Arr.zerosMat o.stateSize)) := by
      constructor
      · exact seqAt_append _ (by simp [Heap.seqAt])
      · simp [Heap.seqAt]
    have len2 : h.length + 2 ≤ (h ++ [Cell.seq (.stack (List.replicate l (Arr.zerosVec (F := F) o.stateSize)))] ++
      [Cell.seq (.stack (List.replicate l (Arr.zerosMat o.stateSize)))]).length := by simp
    generalize (h ++ [Cell.seq (.stack (List.replicate l (Arr.zerosVec (F := F) o.stateSize)))] ++
      [Cell.seq (.stack (List.replicate l (Arr.zerosMat o.stateSize)))]) = h2 at f2 o2 len2 ⊢
    dsimp only
    rcases Nat.eq_zero_or_pos l with rfl | lpos
    · simp only [if_true]
      exact ⟨h2, [], [], Frame.refl _ _, .nil, by simp [Py.lift, bind, Py.bind], by simp [Py.lift, bind, Py.bind],
        by simp [Py.lift, bind, Py.bind]⟩
    · simp only [Nat.pos_iff_ne_zero.mp lpos, if_false]
      rw [hsz]
      rw [hsz] at o2
      refine sim_getRow ((sq hE.1).mono f2) fun xl hxl' => ?_
      rw [getRow_some (l := P) (by omega)]
      refine sim_right (b := _) rfl ?_
      refine sim_set (by simp) hxl'.2 o2.1 fun xr => ?_
      have g3 : Frame {h.length, h.length + 1} h2 (h2.set h.length (.seq (.stack
        ((List.replicate l (Arr.zerosVec kf.stateSize)).set (l - 1) xr)))) := Frame.set (by simp) _ _
      have o3 : Out h.length (h.length + 1) (h2.set h.length (.seq (.stack
        ((List.replicate l (Arr.zerosVec kf.stateSize)).set (l - 1) xr))))
        ((List.replicate l (Arr.zerosVec kf.stateSize)).set (l - 1) xr) (List.replicate l (Arr.zerosMat kf.stateSize)) :=
        ⟨seqAt_set_self o2.1, by rw [seqAt_set_ne (by omega)]; exact o2.2⟩
      generalize h2.set h.length (.seq (.stack ((List.replicate l (Arr.zerosVec kf.stateSize)).set (l - 1) xr))) = h3
        at g3 o3 ⊢
      have hPE := ((sq hE.2).mono f2).mono g3
      have hPlast : Heap.deref h3 (.row PE (l - 1)) = some (P[l - 1]'(by omega)) :=
        (hPE.row (List.getElem?_eq_getElem (show l - 1 < P.length by omega))).2
      refine sim_left (a := .row PE (l - 1)) ?_ ?_
      · show (Py.bind _ _).run _ = _
        simp only [Py.bind, run_getSeq hPE]
        show (Py.bind _ _).run _ = _
        simp only [NDArray.item, List.getElem?_eq_getElem (show l - 1 < P.length by omega)]
        rfl
      refine sim_set (by simp) hPlast o3.2 fun Pr => ?_
      have g4 : Frame {h.length, h.length + 1} h3 (h3.set (h.length + 1) (.seq (.stack
        ((List.replicate l (Arr.zerosMat kf.stateSize)).set (l - 1) Pr)))) := Frame.set (by simp) _ _
      have o4 : Out h.length (h.length + 1) (h3.set (h.length + 1) (.seq (.stack
        ((List.replicate l (Arr.zerosMat kf.stateSize)).set (l - 1) Pr))))
        ((List.replicate l (Arr.zerosVec kf.stateSize)).set (l - 1) xr)
        ((List.replicate l (Arr.zerosMat kf.stateSize)).set (l - 1) Pr) :=
        ⟨by rw [seqAt_set_ne (by omega)]; exact o3.1, seqAt_set_self o3.2⟩
      generalize h3.set (h.length + 1) (.seq (.stack ((List.replicate l (Arr.zerosMat kf.stateSize)).set (l - 1) Pr))) = h4
        at g4 o4 ⊢
      have g : Frame {h.length, h.length + 1} h h4 := (f2.trans g3).trans g4
      have len4 : h.length + 2 ≤ h4.length := len2.trans (g3.trans g4).len
      have hU4 : SeqArg h4 U u := by
        rcases U with _ | r <;> rcases u with _ | a
        · trivial
        · exact hU
        · exact hU
        · exact ((sq hU).mono g).2
      refine sim_check (by rintro r (rfl | rfl) <;> omega) ((sq hZ).mono g) hU4 ?_ fun h5 ur f5 hur => ?_
      · rintro r rfl
        rcases u with _ | a
        · exact absurd hU (by simp [SeqArg])
        · exact (sq hU).1
      have g5 : Frame {h.length, h.length + 1} h h5 := g.trans (Frame.weaken f5)
      refine sim_post (R := fun h' _ b => Out h.length (h.length + 1) h' b.1 b.2) (fun _ => (h.length, h.length + 1)) ?_
        fun h' _ b hb => ⟨rfl, hb⟩
      exact sim_smoothLoop (by omega) (by omega) (by omega) (len4.trans f5.len) _ ((sq ho.A).mono g5)
        ((sq ho.Q).mono g5) ((sq ho.B).mono g5) hur ((sq hE.1).mono g5) ((sq hE.2).mono g5) _ (Out.mono f5 o4)
  refine sim_shrink ?_ (by omega) ?_ key
  · rintro r (rfl | rfl) <;> simp
  · rintro h' _ b _ ⟨rfl, hb⟩
    exact ⟨le_rfl, Nat.le_succ _, by simp, hb⟩

theorem NewOut.weaken {m : ℕ} (hm : n ≤ m) {p : ℕ × ℕ} {b : List (Arr F) × List (Arr F)} (x : NewOut m h p b) :
    NewOut n h p b := ⟨hm.trans x.1, hm.trans x.2.1, x.2.2⟩

theorem run_bind {σ α β : Type} (m : Py σ α) (f : α → Py σ β) (s : σ) : (m >>= f).run s =
    match m.run s with
    | (.ok a, s') => (f a).run s'
    | (.error e, s') => (.error e, s') := by
  show (Py.bind m f).run s = _
  rcases h : m.run s with ⟨e | a, s'⟩ <;> simp only [Py.bind, h]

/-- What a call of `filter` or `smooth` does: same outcome as the value model, no cell that existed before changes, the new
gains are recorded in new cells, the results are two further new cells that hold the values of the value model. -/
structure CallIs (h : Heap F) (o : HFilter) (kf : KalmanFilter F) (m : HM F (ℕ × ℕ))
    (p : Py (KalmanFilter F) (List (Arr F) × List (Arr F))) (h' : Heap F) (gs : List View) (vals : List (Arr F)) :
    Prop where
  frame : Frame ∅ h h'
  gains : GainsAre h.length h' gs vals
  heapRun : (m.run ⟨h, o⟩).2 = ⟨h', { o with kalmanGains := o.kalmanGains ++ gs }⟩
  valRun : (p.run kf).2 = { kf with kalmanGains := kf.kalmanGains ++ vals }
  out : Alike (fun a b => NewOut h.length h' a b ∧ ∀ v ∈ gs, v.cell ≠ a.1 ∧ v.cell ≠ a.2)
    (m.run ⟨h, o⟩).1 (p.run kf).1

theorem forall₂_left {α β : Type} {R : α → β → Prop} {a : List α} {b : List β} (x : List.Forall₂ R a b) {v : α}
    (hv : v ∈ a) : ∃ w, R v w := by
  induction x with
  | nil => simp at hv
  | cons h1 _ ih =>
    rcases List.mem_cons.mp hv with rfl | hv
    · exact ⟨_, h1⟩
    · exact ih hv

theorem outcome_imp {α β : Type} {P Q : α → β → Prop} (y : ∀ a b, P a b → Q a b) (L : Except PyErr α)
    (R : Except PyErr β) :
    (match L, R with
      | .ok a, .ok b => P a b
      | .error e, .error e' => e = e'
      | _, _ => False) → Alike Q L R := by
  rcases L with e | a <;> rcases R with e' | b <;> intro x
  · exact x
  · exact x
  · exact x
  · exact y _ _ x

theorem filter_call (ho : ObjIs h o kf) {Z : ℕ} {z : NDArray F} {U : Option ℕ} {u : Option (NDArray F)}
    (hZ : h.seqAt Z = some z) (hU : SeqArg h U u) :
    ∃ h' gs vals, CallIs h o kf (filter Z U) (KalmanFilter.filter z u) h' gs vals := by
  obtain ⟨h', gs, vals, x1, x2, x3, x4, x5⟩ := sim_filter ho hZ hU
  refine ⟨h', gs, vals, x1, x2.imp fun v a hv => ⟨by omega, hv.2⟩, x3, x4, ?_⟩
  revert x5
  rcases ((filter Z U).run ⟨h, o⟩).1 with e | a <;> rcases ((KalmanFilter.filter z u).run kf).1 with e' | b <;>
    intro x5
  · exact x5
  · exact x5
  · exact x5
  · obtain ⟨rfl, hb⟩ := x5
    refine ⟨⟨le_rfl, Nat.le_succ _, by simp, hb⟩, fun v hv => ?_⟩
    obtain ⟨w, hw, -⟩ := forall₂_left x2 hv
    dsimp only
    omega

theorem smooth_call (ho : ObjIs h o kf) {Z : ℕ} {z : NDArray F} {U : Option ℕ} {u : Option (NDArray F)}
    (hZ : h.seqAt Z = some z) (hU : SeqArg h U u) :
    ∃ h' gs vals, CallIs h o kf (smooth Z U) (KalmanFilter.smooth z u) h' gs vals := by
  obtain ⟨h1, gs, vals, x1, x2, x3, x4, x5⟩ := sim_filter ho hZ hU
  rcases hm : (filter Z U).run ⟨h, o⟩ with ⟨e | ⟨xE, PE⟩, st⟩ <;>
    rcases hp : (KalmanFilter.filter z u).run kf with ⟨e' | ⟨x, P⟩, kf1⟩ <;>
    rw [hm, hp] at x5 <;> rw [hm] at x3 <;> rw [hp] at x4 <;> dsimp only at x3 x4 x5
  · subst x5 x3 x4
    refine ⟨h1, gs, vals, x1, x2.imp fun v a hv => ⟨by omega, hv.2⟩, ?_, ?_, ?_⟩
    · rw [smooth, run_bind, hm]
    · rw [KalmanFilter.smooth, run_bind, hp]
    · rw [smooth, run_bind, hm, KalmanFilter.smooth, run_bind, hp]
      exact rfl
  · obtain ⟨l, hl, hx, hP⟩ := C01_filter_shapes kf _ z u x P hp
    obtain ⟨h2, gs2, vals2, y1, y2, y3, y4, y5⟩ := sim_smoothTail (ObjIs.gained (gs := o.kalmanGains ++ gs)
      (vals := kf.kalmanGains ++ vals) (ObjIs.mono x1 ho)) (Z := Z) (z := z) (U := U) (u := u)
      (HasSeq.mono x1 ⟨by simp, hZ⟩).2 (SeqArg.mono x1 hU) x5.2 hl hx.1 hP.1
    have hsame : ∀ s : KalmanFilter F, ((do
      let kf ← Py.self
      let n ← Py.lift z.len
      let xs := List.replicate n (Arr.zerosVec kf.stateSize)
      let Ps := List.replicate n (Arr.zerosMat kf.stateSize)
      let xLast ← Py.lift (if n = 0 then .error .indexError else getRow x (n - 1))
      let PLast ← Py.lift (if n = 0 then .error .indexError else getRow P (n - 1))
      let xrow ← Py.lift (xLast.assignVec kf.stateSize)
      let Prow ← Py.lift (PLast.assignMat kf.stateSize)
      let U' := KK.checkNoneAndBroadcast u z
      Py.lift (KalmanFilter.smoothLoop kf.A kf.Q kf.B U' kf.stateSize x P (List.range (n - 1)).reverse
        (xs.set (n - 1) xrow) (Ps.set (n - 1) Prow)) : Py (KalmanFilter F) _).run s).2 = s := by
      intro s
      have ro : ∀ {α β : Type} (y : Except PyErr α) (f : α → Py (KalmanFilter F) β) (s : KalmanFilter F),
          (∀ a, ((f a).run s).2 = s) → ((Py.lift y >>= f).run s).2 = s := by
        intro α β y f s hf
        rw [run_bind]
        rcases y with e | a
        · rfl
        · exact hf a
      rw [run_bind]
      refine ro _ _ _ fun _ => ro _ _ _ fun _ => ro _ _ _ fun _ => ro _ _ _ fun _ => ro _ _ _ fun _ => rfl
    rw [hsame] at y4
    have hv : vals2 = [] := by
      have := congrArg KalmanFilter.kalmanGains y4
      simpa using this
    subst hv
    rcases List.forall₂_nil_right_iff.mp y2 with rfl
    subst x3 x4
    obtain ⟨rfl, -⟩ := Prod.mk.inj x5.1
    obtain ⟨-, rfl⟩ := Prod.mk.inj x5.1
    refine ⟨h2, gs, vals, x1.trans y1, ?_, ?_, ?_, ?_⟩
    · refine GainsAre.mono (S := ∅) (by simp) y1 (x2.imp fun v a hv => ⟨by omega, hv.2⟩)
    · rw [smooth, run_bind, hm]
      dsimp only
      rw [y3]
      simp
    · rw [KalmanFilter.smooth, run_bind, hp]
      exact hsame _
    · rw [smooth, run_bind, hm, KalmanFilter.smooth, run_bind, hp]
      refine outcome_imp (Q := fun a b => NewOut h.length h2 a b ∧ ∀ v ∈ gs, v.cell ≠ a.1 ∧ v.cell ≠ a.2) (fun a b hab => ⟨NewOut.weaken x1.len hab, fun v hv => ?_⟩) _ _ y5
      obtain ⟨w, -, hw⟩ := forall₂_left x2 hv
      have := deref_lt hw
      have h1 := hab.1
      have h2 := hab.2.1
      omega

end HFilter

end KK
