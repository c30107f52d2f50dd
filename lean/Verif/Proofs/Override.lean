import Verif.Spec.Override
import Verif.Proofs.Subclass
import Verif.Proofs.ExactSmooth
import Verif.Proofs.ExtExact

/-! # Proofs about subclasses that override `filter` -/

set_option linter.unusedSectionVars false
set_option linter.unusedSimpArgs false

namespace KK

open Matrix

variable {σ F : Type} [Backend F] {n m : ℕ}

/-- The corrections of `backwards`, by position. -/
def rtsAt {S : Type} (rts : Belief n → S → Belief n → Belief n) (fs : List (Belief n)) (ss : List S) (k : ℕ) (q : Belief n) : Belief n :=
  match fs[k]?, ss[k]? with
  | some f, some s => rts f s q
  | _, _ => q

theorem backwards_eq {S : Type} (rts : Belief n → S → Belief n → Belief n) (fs : List (Belief n)) (ss : List S) (last : Belief n)
    (h : fs.length = ss.length) :
    backwards rts (fs ++ [last]) ss = backR (rtsAt rts (fs ++ [last]) ss) ss.length last := by
  induction fs generalizing ss with
  | nil =>
    obtain rfl : ss = [] := by simpa using h.symm
    rfl
  | cons f fs ih =>
    obtain ⟨s, ss, rfl⟩ : ∃ s ts, ss = s :: ts := by
      cases ss with
      | nil => simp at h
      | cons s ts => exact ⟨s, ts, rfl⟩
    have hl : fs.length = ss.length := by simpa using h
    obtain ⟨a, l, h1, h2⟩ := backR_succ (rtsAt rts (f :: (fs ++ [last])) (s :: ss)) ss.length last
    have hg : (fun i => rtsAt rts (f :: (fs ++ [last])) (s :: ss) (i + 1)) = rtsAt rts (fs ++ [last]) ss := by
      funext i q; simp [rtsAt]
    rw [hg, ← ih ss hl] at h1
    rw [List.cons_append, List.length_cons, h2]
    obtain ⟨b', bs, hb⟩ : ∃ b' bs, fs ++ [last] = b' :: bs := by cases fs <;> simp
    rw [hb] at h1 ⊢
    simp only [backwards, h1]
    simp [rtsAt]

theorem backR_congr {g g' : ℕ → Belief n → Belief n} {k : ℕ} (h : ∀ j < k, g j = g' j) (q : Belief n) : backR g k q = backR g' k q := by
  induction k generalizing q with
  | zero => rfl
  | succ k ih => simp only [backR, h k (by omega), ih (fun j hj => h j (by omega))]

namespace Methods

variable {M : Methods σ F}

theorem smoothLoop_inherited (hM : M.predict = Methods.plain.predict) (A Q B U : NDArray F) (s : ℕ)
    (xEst PEst : List (Arr F)) (ks : List ℕ) (xs Ps : List (Arr F)) (t : Instance σ (KalmanFilter F)) :
    (M.smoothLoop s A Q B U xEst PEst ks xs Ps).run t = (KalmanFilter.smoothLoop A Q B U s xEst PEst ks xs Ps, t) := by
  induction ks generalizing xs Ps with
  | nil => rfl
  | cons k ks ih =>
    rw [smoothLoop_eq]
    simp only [Methods.smoothLoop, Py.run_bind, Py.run_lift, hM]
    rcases backItems A Q B U xEst PEst xs Ps k with e | ⟨⟨Ak, Qk, Bk, uk⟩, Pk, xk, xNext, PNext⟩
    · rfl
    simp only [Methods.plain, Py.run_bind, Py.run_lift, Except.bind_ok']
    rcases KalmanFilter.predict Ak xk (some Bk) (some uk) Pk Qk with e | a
    · rfl
    simp only [Except.bind_ok']
    rcases Stateful.smoothed Ak xk Pk a.1 a.2 xNext PNext with e | r
    · rfl
    simp only [Except.bind_ok']
    rcases r.1.assignVec s with e | xr
    · rfl
    simp only [Except.bind_ok']
    rcases r.2.assignMat s with e | Pr
    · rfl
    simp only [Except.bind_ok']
    exact ih _ _

/-- `smooth` after the overriding `filter`. -/
theorem smoothOf_eq (flt : NDArray F → Option (NDArray F) → Py (Instance σ (KalmanFilter F)) (List (Arr F) × List (Arr F)))
    (hM : M.predict = Methods.plain.predict) (Z : NDArray F) (U : Option (NDArray F)) (s : Instance σ (KalmanFilter F)) :
    (M.smoothOf flt Z U).run s =
      match (flt Z U).run s with
      | (.error e, s') => (.error e, s')
      | (.ok (xe, Pe), s') => (do
          let len ← Z.len
          let xLast ← lastGiven xe
          let xrow ← (if len = 0 then .error .indexError else xLast.assignVec s'.base.stateSize)
          let PLast ← lastGiven Pe
          let Prow ← PLast.assignMat s'.base.stateSize
          KalmanFilter.smoothLoop s'.base.A s'.base.Q s'.base.B (checkNoneAndBroadcast U Z) s'.base.stateSize xe Pe (List.range (len - 1)).reverse
            ((List.replicate len (Arr.zerosVec s'.base.stateSize)).set (len - 1) xrow)
            ((List.replicate len (Arr.zerosMat s'.base.stateSize)).set (len - 1) Prow), s') := by
  simp only [smoothOf, Py.run_bind (flt Z U)]
  rcases (flt Z U).run s with ⟨e | ⟨xe, Pe⟩, s'⟩
  · rfl
  simp only [Py.run_bind, Instance.attrs, Py.run_lift]
  rcases Z.len with e | len
  · rfl
  simp only [Except.bind_ok']
  rcases lastGiven xe with e | a
  · rfl
  simp only [Except.bind_ok']
  rcases (if len = 0 then Except.error PyErr.indexError else a.assignVec s'.base.stateSize) with e | c
  · rfl
  simp only [Except.bind_ok']
  rcases lastGiven Pe with e | b
  · rfl
  simp only [Except.bind_ok']
  rcases b.assignMat s'.base.stateSize with e | d
  · rfl
  simp only [Except.bind_ok']
  rw [smoothLoop_inherited hM]

theorem filterLoop_length (N k : ℕ) (rows : List (KalmanFilter.Row F)) (x P : Arr F) (states errors : List (Arr F)) (s : Instance σ (KalmanFilter F))
    (o : List (Arr F) × List (Arr F)) (h : ((M.filterLoop N k rows x P states errors).run s).1 = .ok o) :
    o.1.length = states.length ∧ o.2.length = errors.length := by
  induction rows generalizing k x P states errors s with
  | nil =>
    have := Except.ok.inj h
    subst this
    exact ⟨rfl, rfl⟩
  | cons r rows ih =>
    obtain ⟨Ak, Hk, Bk, uk, zk, Qk, Rk⟩ := r
    simp only [Methods.filterLoop, Py.run_bind] at h
    rcases h1 : (M.predict Ak x (some Bk) (some uk) P Qk).run s with ⟨e | p, s1⟩
    · rw [h1] at h; cases h
    rw [h1] at h
    simp only at h
    rcases h2 : (M.update Hk p.1 p.2 zk Rk).run s1 with ⟨e | q, s2⟩
    · rw [h2] at h; cases h
    rw [h2] at h
    simp only [Py.run_lift] at h
    rcases h3 : q.1.assignVec N with e | a
    · rw [h3] at h; cases h
    rw [h3] at h
    simp only at h
    rcases h4 : q.2.assignMat N with e | b
    · rw [h4] at h; cases h
    rw [h4] at h
    simp only at h
    have := ih _ _ _ _ _ _ h
    simpa using this

theorem filter_length (Z : NDArray F) (U : Option (NDArray F)) (s : Instance σ (KalmanFilter F))
    (o : List (Arr F) × List (Arr F)) (h : ((M.filter Z U).run s).1 = .ok o) : ∃ len, Z.len = .ok len ∧ o.1.length = len ∧ o.2.length = len := by
  simp only [Methods.filter, Py.run_bind, Instance.attrs, Py.run_lift] at h
  rcases hl : Z.len with e | len
  · rw [hl] at h; cases h
  rw [hl] at h
  simp only at h
  rcases hz : KalmanFilter.zipRows s.base.A s.base.H s.base.B (checkNoneAndBroadcast U Z) Z s.base.Q s.base.R with e | rows
  · rw [hz] at h; cases h
  rw [hz] at h
  simp only at h
  have := filterLoop_length _ _ _ _ _ _ _ _ _ h
  exact ⟨len, rfl, by simpa using this⟩

theorem lastGiven_eq {rows : List (Arr F)} {len : ℕ} (h : rows.length = len) : lastGiven rows = Stateful.lastRow len rows := by
  subst h
  unfold lastGiven Stateful.lastRow
  rw [List.getLast?_eq_getElem?]
  rcases rows with _ | ⟨a, rows⟩
  · rfl
  · have : (a :: rows).length - 1 < (a :: rows).length := by simp
    rw [getRow_some (List.getElem?_eq_getElem this), List.getElem?_eq_getElem this]
    simp

/-- With the inherited `filter` it is the inherited `smooth`. -/
theorem smoothOf_filter (Z : NDArray F) (U : Option (NDArray F)) (s : Instance σ (KalmanFilter F)) :
    (M.smoothOf M.filter Z U).run s = (M.smooth Z U).run s := by
  simp only [smoothOf, smooth, Py.run_bind (M.filter Z U)]
  rcases hf : (M.filter Z U).run s with ⟨e | est, s'⟩
  · rfl
  obtain ⟨len, hl, h1, h2⟩ := filter_length Z U s est (by rw [hf])
  simp only [Py.run_bind, Instance.attrs, Py.run_lift, hl, lastGiven_eq h1, lastGiven_eq h2]
  rcases len with _ | len
  · simp [Stateful.lastRow]
  · have e1 : est.1[len]? = some est.1[len] := List.getElem?_eq_getElem (by omega)
    have e2 : est.2[len]? = some est.2[len] := List.getElem?_eq_getElem (by omega)
    simp only [Stateful.lastRow, Nat.succ_ne_zero, if_false, Nat.add_sub_cancel, getRow_some e1, getRow_some e2]

end Methods

namespace ExtMethods

variable {M : ExtMethods σ F}

theorem smoothLoop_inherited (hM : M.predict = ExtMethods.plain.predict) (Q U : NDArray F)
    (xEst PEst : List (Arr F)) (ks : List ℕ) (xs Ps : List (Arr F)) (t : Instance σ (ExtendedKalmanFilter F)) :
    (M.smoothLoop t.base.stateSize Q U xEst PEst ks xs Ps).run t = (t.base.smoothLoop Q U xEst PEst ks xs Ps, t) := by
  induction ks generalizing xs Ps with
  | nil => rfl
  | cons k ks ih =>
    rw [smoothLoop_eq]
    simp only [ExtMethods.smoothLoop, Py.run_bind, Py.run_lift, hM]
    rcases Stateful.backItems Q U xEst PEst xs Ps k with e | ⟨Qk, uk, Pk, xk, xNext, PNext⟩
    · rfl
    simp only [ExtMethods.plain, ExtMethods.basePredict, Py.run_bind, Py.run_lift, Except.bind_ok']
    rcases t.base.predict xk (some uk) Pk Qk with e | a
    · rfl
    simp only [Except.bind_ok', Instance.attrs]
    rcases t.base.jacobianA xk (some uk) with e | Ak
    · rfl
    simp only [Except.bind_ok']
    rcases Stateful.smoothed Ak xk Pk a.1 a.2 xNext PNext with e | r
    · rfl
    simp only [Except.bind_ok']
    rcases r.1.assignVec t.base.stateSize with e | xr
    · rfl
    simp only [Except.bind_ok']
    rcases r.2.assignMat t.base.stateSize with e | Pr
    · rfl
    simp only [Except.bind_ok']
    exact ih _ _

theorem smoothOf_eq (flt : NDArray F → Option (NDArray F) → Py (Instance σ (ExtendedKalmanFilter F)) (List (Arr F) × List (Arr F)))
    (hM : M.predict = ExtMethods.plain.predict) (Z : NDArray F) (U : Option (NDArray F)) (s : Instance σ (ExtendedKalmanFilter F)) :
    (M.smoothOf flt Z U).run s =
      match (flt Z U).run s with
      | (.error e, s') => (.error e, s')
      | (.ok (xe, Pe), s') => (do
          let len ← Z.len
          let xLast ← Methods.lastGiven xe
          let xrow ← (if len = 0 then .error .indexError else xLast.assignVec s'.base.stateSize)
          let PLast ← Methods.lastGiven Pe
          let Prow ← PLast.assignMat s'.base.stateSize
          s'.base.smoothLoop s'.base.Q (checkNoneAndBroadcast U Z) xe Pe (List.range (len - 1)).reverse
            ((List.replicate len (Arr.zerosVec s'.base.stateSize)).set (len - 1) xrow)
            ((List.replicate len (Arr.zerosMat s'.base.stateSize)).set (len - 1) Prow), s') := by
  simp only [smoothOf, Py.run_bind (flt Z U)]
  rcases (flt Z U).run s with ⟨e | ⟨xe, Pe⟩, s'⟩
  · rfl
  simp only [Py.run_bind, Instance.attrs, Py.run_lift]
  rcases Z.len with e | len
  · rfl
  simp only [Except.bind_ok']
  rcases Methods.lastGiven xe with e | a
  · rfl
  simp only [Except.bind_ok']
  rcases (if len = 0 then Except.error PyErr.indexError else a.assignVec s'.base.stateSize) with e | c
  · rfl
  simp only [Except.bind_ok']
  rcases Methods.lastGiven Pe with e | b
  · rfl
  simp only [Except.bind_ok']
  rcases b.assignMat s'.base.stateSize with e | d
  · rfl
  simp only [Except.bind_ok']
  rw [smoothLoop_inherited hM]

theorem filterLoop_length (N k : ℕ) (rows : List (ExtendedKalmanFilter.Row F)) (x P : Arr F) (states errors : List (Arr F))
    (s : Instance σ (ExtendedKalmanFilter F)) (o : List (Arr F) × List (Arr F)) (h : ((M.filterLoop N k rows x P states errors).run s).1 = .ok o) :
    o.1.length = states.length ∧ o.2.length = errors.length := by
  induction rows generalizing k x P states errors s with
  | nil =>
    have := Except.ok.inj h
    subst this
    exact ⟨rfl, rfl⟩
  | cons r rows ih =>
    obtain ⟨uk, zk, Qk, Rk⟩ := r
    simp only [ExtMethods.filterLoop, Py.run_bind] at h
    rcases h1 : (M.predict x (some uk) P Qk).run s with ⟨e | p, s1⟩
    · rw [h1] at h; cases h
    rw [h1] at h
    simp only at h
    rcases h2 : (M.update p.1 p.2 zk Rk).run s1 with ⟨e | q, s2⟩
    · rw [h2] at h; cases h
    rw [h2] at h
    simp only [Py.run_lift] at h
    rcases h3 : q.1.assignVec N with e | a
    · rw [h3] at h; cases h
    rw [h3] at h
    simp only at h
    rcases h4 : q.2.assignMat N with e | b
    · rw [h4] at h; cases h
    rw [h4] at h
    simp only at h
    have := ih _ _ _ _ _ _ h
    simpa using this

theorem filter_length (Z : NDArray F) (U : Option (NDArray F)) (s : Instance σ (ExtendedKalmanFilter F))
    (o : List (Arr F) × List (Arr F)) (h : ((M.filter Z U).run s).1 = .ok o) : ∃ len, Z.len = .ok len ∧ o.1.length = len ∧ o.2.length = len := by
  simp only [ExtMethods.filter, Py.run_bind, Instance.attrs, Py.run_lift] at h
  rcases hl : Z.len with e | len
  · rw [hl] at h; cases h
  rw [hl] at h
  simp only at h
  rcases hz : ExtendedKalmanFilter.zipRows (checkNoneAndBroadcast U Z) Z s.base.Q s.base.R with e | rows
  · rw [hz] at h; cases h
  rw [hz] at h
  simp only at h
  have := filterLoop_length _ _ _ _ _ _ _ _ _ h
  exact ⟨len, rfl, by simpa using this⟩

theorem smoothOf_filter (Z : NDArray F) (U : Option (NDArray F)) (s : Instance σ (ExtendedKalmanFilter F)) :
    (M.smoothOf M.filter Z U).run s = (M.smooth Z U).run s := by
  simp only [smoothOf, smooth, Py.run_bind (M.filter Z U)]
  rcases hf : (M.filter Z U).run s with ⟨e | est, s'⟩
  · rfl
  obtain ⟨len, hl, h1, h2⟩ := filter_length Z U s est (by rw [hf])
  simp only [Py.run_bind, Instance.attrs, Py.run_lift, hl, Methods.lastGiven_eq h1, Methods.lastGiven_eq h2]
  rcases len with _ | len
  · simp [Stateful.lastRow]
  · have e1 : est.1[len]? = some est.1[len] := List.getElem?_eq_getElem (by omega)
    have e2 : est.2[len]? = some est.2[len] := List.getElem?_eq_getElem (by omega)
    simp only [Stateful.lastRow, Nat.succ_ne_zero, if_false, Nat.add_sub_cancel, getRow_some e1, getRow_some e2]

end ExtMethods

/-- The program of `smoothOf` after the first line, as a pass. -/
theorem passOver (body : ℕ → Arr F → Arr F → Except PyErr (Arr F × Arr F)) (loop : List ℕ → List (Arr F) → List (Arr F) → Except PyErr (List (Arr F) × List (Arr F)))
    (hloop : ∀ ks xs Ps, (∀ k ∈ ks, k + 1 < xs.length) → (∀ k ∈ ks, k + 1 < Ps.length) → loop ks xs Ps = genLoop body ks xs Ps)
    (N len : ℕ) (xrow Prow : Arr F) :
    loop (List.range (len + 1 - 1)).reverse ((List.replicate (len + 1) (Arr.zerosVec N)).set (len + 1 - 1) xrow)
        ((List.replicate (len + 1) (Arr.zerosMat N)).set (len + 1 - 1) Prow) =
      (back body len (xrow, Prow)).map fun l => (l.map Prod.fst, l.map Prod.snd) := by
  rw [hloop _ _ _ (by intro k hk; simp at hk ⊢; omega) (by intro k hk; simp at hk ⊢; omega)]
  rw [genLoop_eq body _ _ _ (xrow, Prow) (by simp) (by simp), List.drop_eq_nil_of_le (by simp), List.drop_eq_nil_of_le (by simp)]
  simp

theorem Methods.smoothOf_back {M : Methods σ F} {flt : Filters σ F (KalmanFilter F)} (hM : M.predict = Methods.plain.predict)
    {Z : NDArray F} {U : Option (NDArray F)} {s s' : Instance σ (KalmanFilter F)} {xe Pe : List (Arr F)} {x P xrow Prow : Arr F} {len : ℕ}
    (hr : (flt Z U).run s = (.ok (xe, Pe), s')) (hZ : Z.len = .ok (len + 1)) (hx : xe.getLast? = some x) (hP : Pe.getLast? = some P)
    (hxr : x.assignVec s'.base.stateSize = .ok xrow) (hPr : P.assignMat s'.base.stateSize = .ok Prow) :
    (M.smoothOf flt Z U).run s =
      ((back (KalmanFilter.body s'.base.A s'.base.Q s'.base.B (checkNoneAndBroadcast U Z) s'.base.stateSize xe Pe) len (xrow, Prow)).map
        fun l => (l.map Prod.fst, l.map Prod.snd), s') := by
  rw [Methods.smoothOf_eq flt hM, hr]
  simp only [hZ, Methods.lastGiven, hx, hP, hxr, hPr, Except.bind_ok', Nat.succ_ne_zero, if_false]
  rw [passOver _ (KalmanFilter.smoothLoop s'.base.A s'.base.Q s'.base.B (checkNoneAndBroadcast U Z) s'.base.stateSize xe Pe)
    (fun ks xs Ps h1 h2 => KalmanFilter.smoothLoop_eq_genLoop _ _ _ _ _ _ _ ks xs Ps h1 h2)]

theorem ExtMethods.smoothOf_back {M : ExtMethods σ F} {flt : Filters σ F (ExtendedKalmanFilter F)} (hM : M.predict = ExtMethods.plain.predict)
    {Z : NDArray F} {U : Option (NDArray F)} {s s' : Instance σ (ExtendedKalmanFilter F)} {xe Pe : List (Arr F)} {x P xrow Prow : Arr F} {len : ℕ}
    (hr : (flt Z U).run s = (.ok (xe, Pe), s')) (hZ : Z.len = .ok (len + 1)) (hx : xe.getLast? = some x) (hP : Pe.getLast? = some P)
    (hxr : x.assignVec s'.base.stateSize = .ok xrow) (hPr : P.assignMat s'.base.stateSize = .ok Prow) :
    (M.smoothOf flt Z U).run s =
      ((back (ExtendedKalmanFilter.body s'.base s'.base.Q (checkNoneAndBroadcast U Z) xe Pe) len (xrow, Prow)).map
        fun l => (l.map Prod.fst, l.map Prod.snd), s') := by
  rw [ExtMethods.smoothOf_eq flt hM, hr]
  simp only [hZ, Methods.lastGiven, hx, hP, hxr, hPr, Except.bind_ok', Nat.succ_ne_zero, if_false]
  rw [passOver _ (ExtendedKalmanFilter.smoothLoop s'.base s'.base.Q (checkNoneAndBroadcast U Z) xe Pe)
    (fun ks xs Ps h1 h2 => ExtendedKalmanFilter.smoothLoop_eq_genLoop _ _ _ _ _ ks xs Ps h1 h2)]

/-- With a `predict` that only adds something, and a `filter` that only adds something. -/
theorem Methods.Extends.smoothOf {M : Methods σ F} {J : Instance σ (KalmanFilter F) → Prop} (h : M.Extends J) {flt : Filters σ F (KalmanFilter F)}
    (hf : Methods.KeepsFilter flt J) (Z : NDArray F) (U : Option (NDArray F)) (s : Instance σ (KalmanFilter F)) (hj : J s) :
    ((M.smoothOf flt Z U).run s).1 = ((KalmanFilter.smooth Z U).run s.base).1 ∧
      ((M.smoothOf flt Z U).run s).2.base = ((KalmanFilter.smooth Z U).run s.base).2 ∧ J ((M.smoothOf flt Z U).run s).2 := by
  obtain ⟨h1, h2, h3⟩ := hf Z U s hj
  have hp := (Methods.plain_extends (σ := Unit) (F := F)).smooth Z U ⟨s.base, ()⟩ trivial
  have hq := (Methods.plain_extends (σ := Unit) (F := F)).filter Z U ⟨s.base, ()⟩ trivial
  rw [← Methods.smoothOf_filter] at hp
  rw [← hp.1, ← hp.2.1]
  rw [← hq.1] at h1
  rw [← hq.2.1] at h2
  simp only [Methods.smoothOf, Py.run_bind (flt Z U), Py.run_bind (Methods.plain.filter Z U)]
  rcases ha : (flt Z U).run s with ⟨_ | a, v⟩ <;>
    rcases hb : (Methods.plain.filter (σ := Unit) Z U).run ⟨s.base, ()⟩ with ⟨_ | b, v'⟩ <;> rw [ha, hb] at h1 <;> rw [ha, hb] at h2 <;> rw [ha] at h3
  · simp only [Except.error.injEq] at h1
    subst h1
    exact ⟨rfl, h2, h3⟩
  · simp at h1
  · simp at h1
  · simp only [Except.ok.injEq] at h1
    subst h1
    simp only at h2 h3
    simp only [Py.run_bind Instance.attrs]
    simp only [Instance.attrs]
    have k1 := ((Matched.lift Z.len).bind fun len => (Matched.lift (Methods.lastGiven a.1)).bind fun x =>
      (Matched.lift (if len = 0 then .error .indexError else x.assignVec v.base.stateSize)).bind fun xrow =>
      (Matched.lift (Methods.lastGiven a.2)).bind fun P => (Matched.lift (P.assignMat v.base.stateSize)).bind fun Prow =>
      h.smoothLoop v.base.stateSize v.base.A v.base.Q v.base.B (checkNoneAndBroadcast U Z) a.1 a.2 (List.range (len - 1)).reverse
        ((List.replicate len (Arr.zerosVec v.base.stateSize)).set (len - 1) xrow)
        ((List.replicate len (Arr.zerosMat v.base.stateSize)).set (len - 1) Prow)) v v.base ⟨rfl, rfl, h3⟩
    have k2 := ((Matched.lift Z.len).bind fun len => (Matched.lift (Methods.lastGiven a.1)).bind fun x =>
      (Matched.lift (if len = 0 then .error .indexError else x.assignVec v.base.stateSize)).bind fun xrow =>
      (Matched.lift (Methods.lastGiven a.2)).bind fun P => (Matched.lift (P.assignMat v.base.stateSize)).bind fun Prow =>
      (Methods.plain_extends (σ := Unit) (F := F)).smoothLoop v.base.stateSize v.base.A v.base.Q v.base.B (checkNoneAndBroadcast U Z) a.1 a.2 (List.range (len - 1)).reverse
        ((List.replicate len (Arr.zerosVec v.base.stateSize)).set (len - 1) xrow)
        ((List.replicate len (Arr.zerosMat v.base.stateSize)).set (len - 1) Prow)) v' v.base ⟨h2.symm, rfl, trivial⟩
    rw [← h2]
    exact ⟨k1.1.trans k2.1.symm, k1.2.1.trans k2.2.1.symm, k1.2.2.2⟩

theorem ExtMethods.Extends.smoothOf {M : ExtMethods σ F} {J : Instance σ (ExtendedKalmanFilter F) → Prop} (h : M.Extends J)
    {flt : Filters σ F (ExtendedKalmanFilter F)} (hf : ExtMethods.KeepsFilter flt J) (Z : NDArray F) (U : Option (NDArray F))
    (s : Instance σ (ExtendedKalmanFilter F)) (hj : J s) :
    ((M.smoothOf flt Z U).run s).1 = ((ExtendedKalmanFilter.smooth Z U).run s.base).1 ∧
      ((M.smoothOf flt Z U).run s).2.base = ((ExtendedKalmanFilter.smooth Z U).run s.base).2 ∧ J ((M.smoothOf flt Z U).run s).2 := by
  obtain ⟨h1, h2, h3⟩ := hf Z U s hj
  have hp := (ExtMethods.plain_extends (σ := Unit) (F := F)).smooth Z U ⟨s.base, ()⟩ trivial
  have hq := (ExtMethods.plain_extends (σ := Unit) (F := F)).filter Z U ⟨s.base, ()⟩ trivial
  rw [← ExtMethods.smoothOf_filter] at hp
  rw [← hp.1, ← hp.2.1]
  rw [← hq.1] at h1
  rw [← hq.2.1] at h2
  simp only [ExtMethods.smoothOf, Py.run_bind (flt Z U), Py.run_bind (ExtMethods.plain.filter Z U)]
  rcases ha : (flt Z U).run s with ⟨_ | a, v⟩ <;>
    rcases hb : (ExtMethods.plain.filter (σ := Unit) Z U).run ⟨s.base, ()⟩ with ⟨_ | b, v'⟩ <;> rw [ha, hb] at h1 <;> rw [ha, hb] at h2 <;> rw [ha] at h3
  · simp only [Except.error.injEq] at h1
    subst h1
    exact ⟨rfl, h2, h3⟩
  · simp at h1
  · simp at h1
  · simp only [Except.ok.injEq] at h1
    subst h1
    simp only at h2 h3
    simp only [Py.run_bind Instance.attrs]
    simp only [Instance.attrs]
    have k1 := ((Matched.lift Z.len).bind fun len => (Matched.lift (Methods.lastGiven a.1)).bind fun x =>
      (Matched.lift (if len = 0 then .error .indexError else x.assignVec v.base.stateSize)).bind fun xrow =>
      (Matched.lift (Methods.lastGiven a.2)).bind fun P => (Matched.lift (P.assignMat v.base.stateSize)).bind fun Prow =>
      h.smoothLoop (kf := v.base) v.base.Q (checkNoneAndBroadcast U Z) a.1 a.2 (List.range (len - 1)).reverse
        ((List.replicate len (Arr.zerosVec v.base.stateSize)).set (len - 1) xrow)
        ((List.replicate len (Arr.zerosMat v.base.stateSize)).set (len - 1) Prow)) v v.base ⟨rfl, ⟨[], by simp [ExtendedKalmanFilter.addGains]⟩, h3⟩
    have k2 := ((Matched.lift Z.len).bind fun len => (Matched.lift (Methods.lastGiven a.1)).bind fun x =>
      (Matched.lift (if len = 0 then .error .indexError else x.assignVec v.base.stateSize)).bind fun xrow =>
      (Matched.lift (Methods.lastGiven a.2)).bind fun P => (Matched.lift (P.assignMat v.base.stateSize)).bind fun Prow =>
      (ExtMethods.plain_extends (σ := Unit) (F := F)).smoothLoop (kf := v.base) v.base.Q (checkNoneAndBroadcast U Z) a.1 a.2 (List.range (len - 1)).reverse
        ((List.replicate len (Arr.zerosVec v.base.stateSize)).set (len - 1) xrow)
        ((List.replicate len (Arr.zerosMat v.base.stateSize)).set (len - 1) Prow)) v' v.base
        ⟨h2.symm, ⟨[], by simp [ExtendedKalmanFilter.addGains]⟩, trivial⟩
    rw [← h2]
    exact ⟨k1.1.trans k2.1.symm, k1.2.1.trans k2.2.1.symm, k1.2.2.2⟩

section Exact

variable [Platform]

/-- One backward step over any beliefs. -/
theorem Represents.body_over {kf : KalmanFilter Fl} {Z : NDArray Fl} {U : Option (NDArray Fl)} {b : Belief n} {ss : List (LinStep n m)}
    (h : Represents kf Z U b ss) (fs : List (Belief n)) {j : ℕ} {f : Belief n} {s' : LinStep n m} (hf : fs[j]? = some f)
    (hs : ss.tail[j]? = some s') (q : Belief n) :
    ((s'.predict f).P.det ≠ 0 →
      KalmanFilter.body kf.A kf.Q kf.B (checkNoneAndBroadcast U Z) kf.stateSize (fs.map stateRow) (fs.map covRow) j (stateRow q) (covRow q) =
        .ok (beliefRows (rtsStep f s' q))) ∧
    ((s'.predict f).P.det = 0 →
      KalmanFilter.body kf.A kf.Q kf.B (checkNoneAndBroadcast U Z) kf.stateSize (fs.map stateRow) (fs.map covRow) j (stateRow q) (covRow q) =
        .error .linAlgError) := by
  obtain ⟨Ak, Hk, Bk, uk, zk, Qk, Rk, hA, hH, hB, hu, hz, hQ, hR, hst⟩ := h.row (k := j + 1) (s := s') (by simpa using hs)
  have hx1 : getRow (fs.map stateRow) j = .ok (stateRow f) := getRow_some (by rw [List.getElem?_map, hf]; rfl)
  have hx2 : getRow (fs.map covRow) j = .ok (covRow f) := getRow_some (by rw [List.getElem?_map, hf]; rfl)
  obtain ⟨hs1, hs2⟩ := smoothStep_exact (f := f) (q := q) hst
  simp only [KalmanFilter.body, item_of_rows hA, item_of_rows hB, item_of_rows hQ, item_of_rows hu, hx1, hx2, Except.bind_ok']
  constructor
  · intro h0
    rw [hs1 h0]
    simp only [beliefRows, Except.bind_ok', h.size]
    simp only [stateRow, covRow, Arr.assignVec_vec, Arr.assignMat_mat, Except.bind_ok']
  · intro h0
    rw [hs2 h0]
    rfl

theorem ExtRepresents.body_over {kf : ExtendedKalmanFilter Fl} {Z : NDArray Fl} {U : Option (NDArray Fl)} {b : Belief n} {ss : List (ExtStep n m)}
    (h : ExtRepresents kf Z U b ss) (fs : List (Belief n)) {j : ℕ} {f : Belief n} {s' : ExtStep n m} (hf : fs[j]? = some f)
    (hs : ss.tail[j]? = some s') (q : Belief n) :
    ((s'.predict f).P.det ≠ 0 →
      ExtendedKalmanFilter.body kf kf.Q (checkNoneAndBroadcast U Z) (fs.map stateRow) (fs.map covRow) j (stateRow q) (covRow q) =
        .ok (beliefRows (ExtStep.rtsStep f s' q))) ∧
    ((s'.predict f).P.det = 0 →
      ExtendedKalmanFilter.body kf kf.Q (checkNoneAndBroadcast U Z) (fs.map stateRow) (fs.map covRow) j (stateRow q) (covRow q) =
        .error .linAlgError) := by
  obtain ⟨uk, zk, Qk, Rk, hu, hz, hQ, hR, hst⟩ := h.row (k := j + 1) (s := s') (by simpa using hs)
  have hx1 : getRow (fs.map stateRow) j = .ok (stateRow f) := getRow_some (by rw [List.getElem?_map, hf]; rfl)
  have hx2 : getRow (fs.map covRow) j = .ok (covRow f) := getRow_some (by rw [List.getElem?_map, hf]; rfl)
  obtain ⟨hs1, hs2⟩ := extSmoothStep_exact (f := f) (q := q) hst
  simp only [ExtendedKalmanFilter.body, item_of_rows hQ, item_of_rows hu, hx1, hx2, Except.bind_ok']
  constructor
  · intro h0
    rw [hs1 h0]
    simp only [beliefRows, Except.bind_ok', h.size]
    simp only [stateRow, covRow, Arr.assignVec_vec, Arr.assignMat_mat, Except.bind_ok']
  · intro h0
    rw [hs2 h0]
    rfl

/-- A pass whose steps are those of `rts`. -/
theorem pass_exact {S : Type} (rts : Belief n → S → Belief n → Belief n) (pred : S → Belief n → Belief n) (fs : List (Belief n)) (ts : List S)
    (body : ℕ → Arr Fl → Arr Fl → Except PyErr (Arr Fl × Arr Fl)) (hlen : ts.length ≤ fs.length)
    (hbody : ∀ (j : ℕ) f s', fs[j]? = some f → ts[j]? = some s' → ∀ q,
      ((pred s' f).P.det ≠ 0 → body j (stateRow q) (covRow q) = .ok (beliefRows (rts f s' q))) ∧
      ((pred s' f).P.det = 0 → body j (stateRow q) (covRow q) = .error .linAlgError)) (last : Belief n) :
    ((∀ (k : ℕ) f s', fs[k]? = some f → ts[k]? = some s' → (pred s' f).P.det ≠ 0) →
      back body ts.length (beliefRows last) = .ok ((backwards rts (used fs (ts.length + 1) last) ts).map beliefRows)) ∧
    ((∃ (k : ℕ) (f : Belief n) (s' : S), fs[k]? = some f ∧ ts[k]? = some s' ∧ (pred s' f).P.det = 0) →
      back body ts.length (beliefRows last) = .error .linAlgError) := by
  have hg := back_exact body (rtsAt rts fs ts) (fun j => ∃ f s', fs[j]? = some f ∧ ts[j]? = some s' ∧ (pred s' f).P.det = 0) ts.length
    (by
      intro j hj q
      have h1 := List.getElem?_eq_getElem hj
      have h2 := List.getElem?_eq_getElem (l := fs) (i := j) (by omega)
      obtain ⟨k1, k2⟩ := hbody j _ _ h2 h1 q
      constructor
      · intro hb
        rw [k1 fun h0 => hb ⟨_, _, h2, h1, h0⟩]
        simp only [rtsAt, h1, h2]
      · rintro ⟨f, s', hf, hs, h0⟩
        rw [h1, Option.some.injEq] at hs
        rw [h2, Option.some.injEq] at hf
        subst hf hs
        exact k2 h0) last
  constructor
  · intro hh
    rw [hg.1 (by rintro j hj ⟨f, s', h1, h2, h0⟩; exact hh j f s' h1 h2 h0), used, Nat.add_sub_cancel,
      backwards_eq rts (fs.take ts.length) ts last (by simpa using hlen)]
    rw [backR_congr (g' := rtsAt rts (fs.take ts.length ++ [last]) ts)]
    intro j hj
    funext q
    have : (fs.take ts.length ++ [last])[j]? = fs[j]? := by
      rw [List.getElem?_append_left (by simp; omega), List.getElem?_take_of_lt hj]
    simp only [rtsAt, this]
  · rintro ⟨k, f, s', h1, h2, h0⟩
    exact hg.2 ⟨k, (List.getElem?_eq_some_iff.1 h2).1, f, s', h1, h2, h0⟩

end Exact

end KK
