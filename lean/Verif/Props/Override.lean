import Verif.Proofs.Override
import Verif.Test.Encode
import Verif.Test.ExtEncode
import Verif.Test.QBackend
import Verif.Props.Smoother
import Verif.Props.Subclass
import Verif.Props.ExtExact

/-! # C158: subclasses that override `filter` -/

set_option linter.unusedSectionVars false

namespace KK

open Matrix

section
variable {σ F : Type} [Backend F]

/-- C158: a subclass that does not override `filter` is the case of a `filter` that is the inherited one. -/
theorem C158_inherited (M : Methods σ F) (Z : NDArray F) (U : Option (NDArray F)) (s : Instance σ (KalmanFilter F)) :
    (M.smoothOf M.filter Z U).run s = (M.smooth Z U).run s := Methods.smoothOf_filter Z U s

theorem C158_ext_inherited (M : ExtMethods σ F) (Z : NDArray F) (U : Option (NDArray F)) (s : Instance σ (ExtendedKalmanFilter F)) :
    (M.smoothOf M.filter Z U).run s = (M.smooth Z U).run s := ExtMethods.smoothOf_filter Z U s

/-- C158: what the instance's `filter` raises, `smooth` raises, leaving the instance as that method left it. -/
theorem C158_raises (M : Methods σ F) (flt : Filters σ F (KalmanFilter F)) (Z : NDArray F) (U : Option (NDArray F))
    (s s' : Instance σ (KalmanFilter F)) (e : PyErr) (h : (flt Z U).run s = (.error e, s')) :
    (M.smoothOf flt Z U).run s = (.error e, s') := by
  simp only [Methods.smoothOf, Py.run_bind (flt Z U), h]

theorem C158_ext_raises (M : ExtMethods σ F) (flt : Filters σ F (ExtendedKalmanFilter F)) (Z : NDArray F) (U : Option (NDArray F))
    (s s' : Instance σ (ExtendedKalmanFilter F)) (e : PyErr) (h : (flt Z U).run s = (.error e, s')) :
    (M.smoothOf flt Z U).run s = (.error e, s') := by
  simp only [ExtMethods.smoothOf, Py.run_bind (flt Z U), h]

/-- C158: if the overriding `filter`, `predict` and `update` only add something, `smooth` returns and raises what it does on a
`KalmanFilter` with the same attributes, and leaves the inherited attributes as it does there. -/
theorem C158_adds (M : Methods σ F) (J : Instance σ (KalmanFilter F) → Prop) (hM : M.Extends J) (flt : Filters σ F (KalmanFilter F))
    (hf : Methods.KeepsFilter flt J) (Z : NDArray F) (U : Option (NDArray F)) (s : Instance σ (KalmanFilter F)) (hj : J s) :
    let after := (M.smoothOf flt Z U).run s
    let inherited := (KalmanFilter.smooth Z U).run s.base
    after.1 = inherited.1 ∧ after.2.base = inherited.2 ∧ J after.2 := hM.smoothOf hf Z U s hj

theorem C158_ext_adds (M : ExtMethods σ F) (J : Instance σ (ExtendedKalmanFilter F) → Prop) (hM : M.Extends J)
    (flt : Filters σ F (ExtendedKalmanFilter F)) (hf : ExtMethods.KeepsFilter flt J) (Z : NDArray F) (U : Option (NDArray F))
    (s : Instance σ (ExtendedKalmanFilter F)) (hj : J s) :
    let after := (M.smoothOf flt Z U).run s
    let inherited := (ExtendedKalmanFilter.smooth Z U).run s.base
    after.1 = inherited.1 ∧ after.2.base = inherited.2 ∧ J after.2 := hM.smoothOf hf Z U s hj

/-- C158: with the inherited `predict`, `smooth` depends on the instance's `filter` only through what it returned and the attributes
it left, to the bit: if the `filter` of some `KalmanFilter` `kf`, with the same `A`, `B`, `Q` and number of states, returns the same
for some measurements of the same number and the same controls, then the results of the two calls of `smooth` are the same, and the
instance is as its `filter` left it. -/
theorem C158_same (M : Methods σ F) (hM : M.predict = Methods.plain.predict) (flt : Filters σ F (KalmanFilter F)) (Z Z' : NDArray F)
    (U U' : Option (NDArray F)) (s s' : Instance σ (KalmanFilter F)) (kf : KalmanFilter F) (r : List (Arr F) × List (Arr F))
    (h : (flt Z U).run s = (.ok r, s')) (h' : ((KalmanFilter.filter Z' U').run kf).1 = .ok r)
    (hA : kf.A = s'.base.A) (hB : kf.B = s'.base.B) (hQ : kf.Q = s'.base.Q) (hn : kf.stateSize = s'.base.stateSize)
    (hZ : Z'.len = Z.len) (hU : effU U' Z' = effU U Z) :
    (M.smoothOf flt Z U).run s = (((KalmanFilter.smooth Z' U').run kf).1, s') := by
  have hp := (Methods.plain_extends (σ := Unit) (F := F)).smooth Z' U' ⟨kf, ()⟩ trivial
  have hq := (Methods.plain_extends (σ := Unit) (F := F)).filter Z' U' ⟨kf, ()⟩ trivial
  rw [← hp.1, ← Methods.smoothOf_filter, Methods.smoothOf_eq flt hM, Methods.smoothOf_eq _ rfl]
  rw [← hq.1] at h'
  obtain ⟨g, hg⟩ := KalmanFilter.filter_state Z' U' kf
  rw [hg] at hq
  rcases hf : (Methods.plain.filter (σ := Unit) Z' U').run ⟨kf, ()⟩ with ⟨e, t⟩
  rw [hf] at h' hq
  simp only at h'
  subst h'
  obtain ⟨-, e1, -, -⟩ := hq
  simp only at e1
  have hU' : checkNoneAndBroadcast U' Z' = checkNoneAndBroadcast U Z := hU
  rw [h]
  simp only [e1, KalmanFilter.addGains, hA, hB, hQ, hn, hZ, hU']

theorem C158_ext_same (M : ExtMethods σ F) (hM : M.predict = ExtMethods.plain.predict) (flt : Filters σ F (ExtendedKalmanFilter F))
    (Z Z' : NDArray F) (U U' : Option (NDArray F)) (s s' : Instance σ (ExtendedKalmanFilter F)) (kf : ExtendedKalmanFilter F)
    (r : List (Arr F) × List (Arr F)) (h : (flt Z U).run s = (.ok r, s')) (h' : ((ExtendedKalmanFilter.filter Z' U').run kf).1 = .ok r)
    (hf : kf.f = s'.base.f) (hJ : kf.jacobianA = s'.base.jacobianA) (hQ : kf.Q = s'.base.Q) (hn : kf.stateSize = s'.base.stateSize)
    (hZ : Z'.len = Z.len) (hU : effU U' Z' = effU U Z) :
    (M.smoothOf flt Z U).run s = (((ExtendedKalmanFilter.smooth Z' U').run kf).1, s') := by
  have hp := (ExtMethods.plain_extends (σ := Unit) (F := F)).smooth Z' U' ⟨kf, ()⟩ trivial
  have hq := (ExtMethods.plain_extends (σ := Unit) (F := F)).filter Z' U' ⟨kf, ()⟩ trivial
  rw [← hp.1, ← ExtMethods.smoothOf_filter, ExtMethods.smoothOf_eq flt hM, ExtMethods.smoothOf_eq _ rfl]
  rw [← hq.1] at h'
  obtain ⟨g, hg⟩ := ExtendedKalmanFilter.filter_state Z' U' kf
  rw [hg] at hq
  rcases hff : (ExtMethods.plain.filter (σ := Unit) Z' U').run ⟨kf, ()⟩ with ⟨e, t⟩
  rw [hff] at h' hq
  simp only at h'
  subst h'
  obtain ⟨-, e1, -, -⟩ := hq
  simp only at e1
  rw [h]
  have hloop : ∀ Q U xe Pe ks xs Ps, (kf.addGains g).smoothLoop Q U xe Pe ks xs Ps = s'.base.smoothLoop Q U xe Pe ks xs Ps := by
    intro Q U xe Pe ks xs Ps
    induction ks generalizing xs Ps with
    | nil => rfl
    | cons k ks ih =>
      have hst : ∀ a b c d e f, (kf.addGains g).smoothStep a b c d e f = s'.base.smoothStep a b c d e f := by
        intro a b c d e f
        simp only [ExtendedKalmanFilter.smoothStep, ExtendedKalmanFilter.predict, ExtendedKalmanFilter.addGains, hf, hJ]
      have hn' : (kf.addGains g).stateSize = s'.base.stateSize := hn
      simp only [ExtendedKalmanFilter.smoothLoop, ih, hst, hn']
  have hU' : checkNoneAndBroadcast U' Z' = checkNoneAndBroadcast U Z := hU
  have e2 : (kf.addGains g).stateSize = s'.base.stateSize := hn
  have e3 : (kf.addGains g).Q = s'.base.Q := hQ
  simp only [e1, hloop, e2, e3, hZ, hU']

end

section
variable {σ : Type} [Platform] {n m : ℕ}

/-- C158: the meaning of `smooth` on an instance whose class overrides `filter`.  If that method returned any `n` means and
covariances `fs` (the last one `last`), `smooth` is the Rauch-Tung-Striebel pass over the first `len(Z) - 1` of them and the last one,
with the models of the steps from the second on, whatever these beliefs are; LinAlgError if one of the predictions it needs is
singular, and IndexError if there are fewer than `len(Z) - 1` of them. -/
theorem C158_rts (M : Methods σ Fl) (hM : M.predict = Methods.plain.predict) (flt : Filters σ Fl (KalmanFilter Fl)) (Z : NDArray Fl)
    (U : Option (NDArray Fl)) (s s' : Instance σ (KalmanFilter Fl)) (fs : List (Belief n)) (last : Belief n)
    (hr : (flt Z U).run s = (.ok (fs.map stateRow, fs.map covRow), s')) (hlast : fs.getLast? = some last)
    (b : Belief n) (ss : List (LinStep n m)) (h : Represents s'.base Z U b ss) (hfull : ss.length = Z.rows.length) (hne : ss ≠ []) :
    (ss.length ≤ fs.length + 1 →
      (∀ (k : ℕ) (f : Belief n) (st : LinStep n m), fs[k]? = some f → ss.tail[k]? = some st → (st.predict f).P.det ≠ 0) →
      (M.smoothOf flt Z U).run s =
        (.ok ((backwards rtsStep (used fs ss.length last) ss.tail).map stateRow,
          (backwards rtsStep (used fs ss.length last) ss.tail).map covRow), s')) ∧
    (ss.length ≤ fs.length + 1 →
      (∃ (k : ℕ) (f : Belief n) (st : LinStep n m), fs[k]? = some f ∧ ss.tail[k]? = some st ∧ (st.predict f).P.det = 0) →
      (M.smoothOf flt Z U).run s = (.error .linAlgError, s')) ∧
    (fs.length + 1 < ss.length → (M.smoothOf flt Z U).run s = (.error .indexError, s')) := by
  obtain ⟨s0, ts, rfl⟩ : ∃ s0 ts, ss = s0 :: ts := by
    cases ss with
    | nil => exact absurd rfl hne
    | cons s0 ts => exact ⟨s0, ts, rfl⟩
  have hZ : Z.len = .ok (ts.length + 1) := by
    cases Z with
    | d0 => simp [NDArray.rows] at hfull
    | stack l => simp only [NDArray.rows, List.length_cons] at hfull; simp [NDArray.len, hfull]
  have hb := Methods.smoothOf_back hM (x := stateRow last) (P := covRow last) hr hZ (by rw [List.getLast?_map, hlast]; rfl)
    (by rw [List.getLast?_map, hlast]; rfl) (xrow := stateRow last) (Prow := covRow last) (by rw [h.size, stateRow, Arr.assignVec_vec])
    (by rw [h.size, covRow, Arr.assignMat_mat])
  rw [hb]
  have hp := fun hl => pass_exact rtsStep LinStep.predict fs ts
    (KalmanFilter.body s'.base.A s'.base.Q s'.base.B (checkNoneAndBroadcast U Z) s'.base.stateSize (fs.map stateRow) (fs.map covRow)) hl
    (fun j f st hf hs q => h.body_over fs hf hs q) last
  refine ⟨fun hl hh => ?_, fun hl hh => ?_, fun hl => ?_⟩
  · have := (hp (by simpa using hl)).1 hh
    simp only [beliefRows] at this
    rw [this]
    simp only [Except.map, List.map_map, List.tail_cons, List.length_cons]
    rfl
  · have := (hp (by simpa using hl)).2 hh
    simp only [beliefRows] at this
    rw [this]
    rfl
  · obtain ⟨k, hk⟩ : ∃ k, ts.length = k + 1 := ⟨ts.length - 1, by simp at hl; omega⟩
    have hkk : k < ts.length := by omega
    obtain ⟨Ak, Hk, Bk, uk, zk, Qk, Rk, hA, hH, hB, hu, hz, hQ, hR, hst⟩ := h.row (k := k + 1) (s := ts[k]) (by simp)
    have hx : getRow (fs.map covRow) k = .error .indexError := by
      simp only [List.length_cons] at hl
      simp [getRow, List.getElem?_eq_none (l := fs) (i := k) (by omega)]
    rw [hk]
    simp only [back, KalmanFilter.body, item_of_rows hA, item_of_rows hB, item_of_rows hQ, item_of_rows hu, hx, Except.bind_ok',
      Except.bind_error', Except.map]

theorem C158_ext_rts (M : ExtMethods σ Fl) (hM : M.predict = ExtMethods.plain.predict) (flt : Filters σ Fl (ExtendedKalmanFilter Fl))
    (Z : NDArray Fl) (U : Option (NDArray Fl)) (s s' : Instance σ (ExtendedKalmanFilter Fl)) (fs : List (Belief n)) (last : Belief n)
    (hr : (flt Z U).run s = (.ok (fs.map stateRow, fs.map covRow), s')) (hlast : fs.getLast? = some last)
    (b : Belief n) (ss : List (ExtStep n m)) (h : ExtRepresents s'.base Z U b ss) (hfull : ss.length = Z.rows.length) (hne : ss ≠ []) :
    (ss.length ≤ fs.length + 1 →
      (∀ (k : ℕ) (f : Belief n) (st : ExtStep n m), fs[k]? = some f → ss.tail[k]? = some st → (st.predict f).P.det ≠ 0) →
      (M.smoothOf flt Z U).run s =
        (.ok ((backwards ExtStep.rtsStep (used fs ss.length last) ss.tail).map stateRow,
          (backwards ExtStep.rtsStep (used fs ss.length last) ss.tail).map covRow), s')) ∧
    (ss.length ≤ fs.length + 1 →
      (∃ (k : ℕ) (f : Belief n) (st : ExtStep n m), fs[k]? = some f ∧ ss.tail[k]? = some st ∧ (st.predict f).P.det = 0) →
      (M.smoothOf flt Z U).run s = (.error .linAlgError, s')) ∧
    (fs.length + 1 < ss.length → (M.smoothOf flt Z U).run s = (.error .indexError, s')) := by
  obtain ⟨s0, ts, rfl⟩ : ∃ s0 ts, ss = s0 :: ts := by
    cases ss with
    | nil => exact absurd rfl hne
    | cons s0 ts => exact ⟨s0, ts, rfl⟩
  have hZ : Z.len = .ok (ts.length + 1) := by
    cases Z with
    | d0 => simp [NDArray.rows] at hfull
    | stack l => simp only [NDArray.rows, List.length_cons] at hfull; simp [NDArray.len, hfull]
  have hb := ExtMethods.smoothOf_back hM (x := stateRow last) (P := covRow last) hr hZ (by rw [List.getLast?_map, hlast]; rfl)
    (by rw [List.getLast?_map, hlast]; rfl) (xrow := stateRow last) (Prow := covRow last) (by rw [h.size, stateRow, Arr.assignVec_vec])
    (by rw [h.size, covRow, Arr.assignMat_mat])
  rw [hb]
  have hp := fun hl => pass_exact ExtStep.rtsStep ExtStep.predict fs ts
    (ExtendedKalmanFilter.body s'.base s'.base.Q (checkNoneAndBroadcast U Z) (fs.map stateRow) (fs.map covRow)) hl
    (fun j f st hf hs q => h.body_over fs hf hs q) last
  refine ⟨fun hl hh => ?_, fun hl hh => ?_, fun hl => ?_⟩
  · have := (hp (by simpa using hl)).1 hh
    simp only [beliefRows] at this
    rw [this]
    simp only [Except.map, List.map_map, List.tail_cons, List.length_cons]
    rfl
  · have := (hp (by simpa using hl)).2 hh
    simp only [beliefRows] at this
    rw [this]
    rfl
  · obtain ⟨k, hk⟩ : ∃ k, ts.length = k + 1 := ⟨ts.length - 1, by simp at hl; omega⟩
    have hkk : k < ts.length := by omega
    obtain ⟨uk, zk, Qk, Rk, hu, hz, hQ, hR, hst⟩ := h.row (k := k + 1) (s := ts[k]) (by simp)
    have hx : getRow (fs.map covRow) k = .error .indexError := by
      simp only [List.length_cons] at hl
      simp [getRow, List.getElem?_eq_none (l := fs) (i := k) (by omega)]
    rw [hk]
    simp only [back, ExtendedKalmanFilter.body, item_of_rows hQ, item_of_rows hu, hx, Except.bind_ok', Except.bind_error', Except.map]

end

/-! ### Examples -/

/-- A `filter` that also counts its calls. -/
def Ex.countedFilter : Filters ℕ Ex.QN (KalmanFilter Ex.QN) := fun Z U =>
  ⟨fun s => (((KalmanFilter.filter Z U).run s.base).1, ⟨((KalmanFilter.filter Z U).run s.base).2, s.own + 1⟩)⟩

example : Methods.KeepsFilter Ex.countedFilter (fun _ => True) := fun _ _ _ _ => ⟨rfl, rfl, trivial⟩

/-- `smooth` calls it once. -/
example : (((Methods.plain.smoothOf Ex.countedFilter Ex.zs (some Ex.us)).run ⟨Ex.cv 3, 0⟩).2.own,
    ((Methods.plain.smoothOf Ex.countedFilter Ex.zs (some Ex.us)).run ⟨Ex.cv 3, 0⟩).1.toOption.map fun r => (r.1.length, r.2.length)) =
    (1, some (3, 3)) := by
  decide +kernel

/-- A `filter` that also returns the initial belief, in front. -/
def Ex.priorFirst {F : Type} [Backend F] : Filters Unit F (KalmanFilter F) := fun Z U =>
  ⟨fun s => (((KalmanFilter.filter Z U).run s.base).1.map fun r => (s.base.xk :: r.1, s.base.Pk :: r.2),
    ⟨((KalmanFilter.filter Z U).run s.base).2, ()⟩)⟩

example [Platform] (uz : List (ℝ × ℝ)) (hne : uz ≠ []) :
    let ss := Ex.cvSteps uz
    let fs := Ex.cvBelief :: filtered Ex.cvBelief ss
    let s' : Instance Unit (KalmanFilter Fl) := ⟨((KalmanFilter.filter (Ex.encZ ss) (some (Ex.encU ss))).run (Ex.encode Ex.cvBelief ss)).2, ()⟩
    (Ex.priorFirst (Ex.encZ ss) (some (Ex.encU ss))).run ⟨Ex.encode Ex.cvBelief ss, ()⟩ = (.ok (fs.map stateRow, fs.map covRow), s') ∧
    Represents s'.base (Ex.encZ ss) (some (Ex.encU ss)) Ex.cvBelief ss ∧ ss.length = (Ex.encZ ss).rows.length ∧ ss ≠ [] ∧
    (∃ last, fs.getLast? = some last ∧ used fs ss.length last =
      (Ex.cvBelief :: filtered Ex.cvBelief ss).take (ss.length - 1) ++ [last]) ∧
    ss.length ≤ fs.length + 1 ∧
    (∀ (k : ℕ) (f : Belief 2) (st : LinStep 2 1), fs[k]? = some f → ss.tail[k]? = some st → (st.predict f).P.det ≠ 0) := by
  intro ss fs s'
  have hr := Ex.encode_represents Ex.cvBelief ss
  have hpd := Ex.cv_pdStep uz
  have hs : Solvable Ex.cvBelief ss := solvable_pd _ _ Ex.cv_posDef hpd
  have hlen : ss.length = (Ex.encZ ss).rows.length := by simp [NDArray.rows, Ex.encZ]
  have hf := C24_filter_textbook _ _ _ _ _ hr hs
  rw [hlen, Nat.sub_self, List.replicate_zero, List.append_nil, List.replicate_zero, List.append_nil] at hf
  have hmem : ∀ (b : Belief 2) (ts : List (LinStep 2 1)), b.P.PosDef → (∀ s ∈ ts, PdStep s) → ∀ f ∈ b :: filtered b ts, f.P.PosDef := by
    intro b ts
    induction ts generalizing b with
    | nil => intro hb _ f hf; simp only [filtered, List.mem_singleton] at hf; exact hf ▸ hb
    | cons t ts ih =>
      intro hb ht f hf
      rcases List.mem_cons.1 hf with rfl | hf
      · exact hb
      · exact ih _ ((ht t (by simp)).next hb) (fun s hs => ht s (by simp [hs])) f hf
  refine ⟨?_, ?_, hlen, ?_, ?_, ?_, ?_⟩
  · simp only [Ex.priorFirst, hf, s', fs]
    rfl
  · simp only [s', hf]
    exact ⟨⟨hr.iter.A, hr.iter.H, hr.iter.B, hr.iter.U, hr.iter.Z, hr.iter.Q, hr.iter.R⟩, hr.len, hr.size, hr.ident, hr.x, hr.P, hr.rows, hr.col⟩
  · intro h
    apply hne
    have := congrArg List.length h
    simpa [ss, Ex.cvSteps] using this
  · exact ⟨_, List.getLast?_eq_some_getLast (List.cons_ne_nil _ _), rfl⟩
  · simp [fs, filtered_length]; omega
  · intro k f st h1 h2
    have m1 := List.mem_of_getElem? h1
    have m2 := List.mem_of_mem_tail (List.mem_of_getElem? h2)
    exact posDef_det_ne ((hpd st m2).prior (hmem _ _ Ex.cv_posDef hpd f m1))

/-- A subclass of `ExtendedKalmanFilter` whose `filter` returns any means at all, with unit covariances. -/
noncomputable def Ex.guessed [Platform] (xs : List (Fin 2 → ℝ)) : Filters Unit Fl (ExtendedKalmanFilter Fl) := fun _ _ =>
  Py.pure ((xs.map fun x => (⟨x, 1⟩ : Belief 2)).map stateRow, (xs.map fun x => (⟨x, 1⟩ : Belief 2)).map covRow)

example [Platform] (zs : List ℝ) (hne : zs ≠ []) (xs : List (Fin 2 → ℝ)) (hx : xs.length = zs.length) : let ss := zs.map Ex.curved
    let b : Belief 2 := ⟨![1, 2], 1⟩
    let fs : List (Belief 2) := xs.map fun x => ⟨x, 1⟩
    let s : Instance Unit (ExtendedKalmanFilter Fl) :=
      ⟨Ex.extEncode (Ex.curved 0).f (Ex.curved 0).jA (Ex.curved 0).h (Ex.curved 0).jH b ss, ()⟩
    (Ex.guessed xs (Ex.extEncZ ss) (some (Ex.extEncZ ss))).run s = (.ok (fs.map stateRow, fs.map covRow), s) ∧
    (∃ last, fs.getLast? = some last) ∧ ExtRepresents s.base (Ex.extEncZ ss) (some (Ex.extEncZ ss)) b ss ∧
    ss.length = (Ex.extEncZ ss).rows.length ∧ ss ≠ [] ∧ ss.length ≤ fs.length + 1 ∧
    (∀ (k : ℕ) (f : Belief 2) (st : ExtStep 2 1), fs[k]? = some f → ss.tail[k]? = some st → (st.predict f).P.det ≠ 0) := by
  intro ss b fs s
  obtain ⟨h1, h2, h3, -, h4, -, -, -⟩ := Ex.curved_meets zs hne
  refine ⟨rfl, ?_, h1, h2, h3, by simp [ss, fs, hx], ?_⟩
  · have : fs ≠ [] := by
      intro h
      have h5 := congrArg List.length h
      have h6 := List.length_pos_iff.2 hne
      simp [fs] at h5
      simp [h5] at hx
      omega
    exact ⟨_, List.getLast?_eq_some_getLast this⟩
  · intro k f st hf hs
    obtain ⟨x, -, rfl⟩ := List.mem_map.1 (List.mem_of_getElem? hf)
    have hQ := h4 st (List.mem_of_mem_tail (List.mem_of_getElem? hs))
    refine posDef_det_ne (Matrix.PosDef.posSemidef_add (posSemidef_conj Matrix.PosSemidef.one _) hQ)

/-- The numbers of a state row. -/
def Ex.rowNumbers : Arr Ex.QN → List Ex.QN
  | .vec (n := n) _ v => (List.finRange n).map v
  | _ => []

/-- On three measurements `smooth` then returns without an error, but not the smoothed states: the initial belief has taken the
place of the first filtered one, and the second filtered belief is not used at all. -/
example : ((Methods.plain.smoothOf Ex.priorFirst Ex.zs (some Ex.us)).run ⟨Ex.cv 3, ()⟩).1.toOption.map (fun r => r.1.length) = some 3 ∧
    ((Methods.plain.smoothOf Ex.priorFirst Ex.zs (some Ex.us)).run ⟨Ex.cv 3, ()⟩).1.toOption.map (fun r => r.1.map Ex.rowNumbers) ≠
      ((KalmanFilter.smooth Ex.zs (some Ex.us)).run (Ex.cv 3)).1.toOption.map (fun r => r.1.map Ex.rowNumbers) := by
  decide +kernel

end KK
