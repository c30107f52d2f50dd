import Verif.Spec.ByHand
import Verif.Props.Gaps
import Verif.Test.Pushed

/-!
# C118: using a filter online, step by step
-/

set_option linter.unusedSectionVars false
set_option linter.unusedSimpArgs false

namespace KK

open Matrix

section
variable {F : Type} [Backend F]

theorem item_eq {a : NDArray F} {k : ℕ} {x : Arr F} (h : a.rows[k]? = some x) : a.item k = .ok x := by
  cases a with
  | d0 d y => simp [NDArray.rows] at h
  | stack r => simp only [NDArray.rows] at h; simp [NDArray.item, h]

/-- What the loop gives back, from the trace of the rows. -/
def Trace.outcome (t : Trace F) : Except PyErr (List (Arr F × Arr F)) :=
  match t.err with
  | some e => .error e
  | none => .ok t.outs

namespace KalmanFilter

theorem byHand_eq {n m : ℕ} (Z : NDArray F) (U : Option (NDArray F)) (l : ℕ) :
    ∀ (j : ℕ) (kf : KalmanFilter F) (x P : Arr F), j + l = (kf.zrows Z U).length → Layout n m kf Z U → Shaped n x P →
      (byHand Z (effU U Z) (fun _ => true) (List.range' j l) x P).run kf =
        ((trace (step n kf.I) ((kf.zrows Z U).drop j) x P).outcome,
          kf.addGains (trace (step n kf.I) ((kf.zrows Z U).drop j) x P).gains) := by
  induction l with
  | zero =>
    intro j kf x P hj _ _
    rw [List.drop_of_length_le (by omega)]
    simp [byHand, trace, Trace.outcome]
  | succ l ih =>
    intro j kf x P hj hl hs
    have hlt : j < (kf.zrows Z U).length := by omega
    rw [List.drop_eq_getElem_cons hlt]
    obtain ⟨r, hr⟩ : ∃ r, r = (kf.zrows Z U)[j] := ⟨_, rfl⟩
    have hmem : r ∈ kf.zrows Z U := hr ▸ List.getElem_mem hlt
    rw [← hr]
    have hk : (kf.zrows Z U)[j]? = some r := by rw [List.getElem?_eq_getElem hlt, hr]
    have hlay := mem_zrows hl r hmem
    obtain ⟨Ak, Hk, Bk, uk, zk, Qk, Rk⟩ := r
    simp only [zrows, List.getElem?_zip_eq_some] at hk
    obtain ⟨h1, h2, h3, h4, h5, h6, h7⟩ := hk
    have hst := step_layout hlay hs
    rw [← hl.ident] at hst
    simp only [List.range'_succ, byHand, Py.run_bind, Py.run_self, Py.run_lift, item_eq h1, item_eq h2, item_eq h3,
      item_eq h4, item_eq h5, item_eq h6, item_eq h7, trace]
    simp only [step] at hst ⊢
    rcases hp : predict Ak x (some Bk) (some uk) P Qk with e | ⟨xp, Pp⟩
    · simp [Trace.outcome]
    simp only [hp] at hst
    simp only [update, Py.run_bind, Py.run_lift]
    rcases hg : gain Hk Pp Rk with e | K
    · simp [Trace.outcome]
    simp only [hg] at hst
    simp only [Py.run_mutate, Py.run_self, Py.run_lift]
    rcases hc : correct kf.I K Hk xp Pp zk with e | ⟨x', P'⟩
    · simp [Trace.outcome, addGains]
    simp only [hc, Except.bind_ok', Prod.mk.injEq, reduceCtorEq, false_and, false_or] at hst
    obtain ⟨K', x'', P'', hK, hst⟩ := hst
    rcases ha : x'.assignVec n with e | sr
    · simp [ha] at hst
    rcases hb : P'.assignMat n with e | er
    · simp [ha, hb] at hst
    simp only [ha, hb, Except.bind_ok', Except.ok.injEq, Prod.mk.injEq] at hst
    obtain ⟨⟨rfl, rfl⟩, rfl, rfl⟩ := hst
    simp only [Except.bind_ok', ha, hb]
    rw [ih (j + 1) { kf with kalmanGains := kf.kalmanGains ++ [K] } _ _
      (by rw [show zrows { kf with kalmanGains := kf.kalmanGains ++ [K] } Z U = kf.zrows Z U from rfl]; omega)
      ⟨hl.x, hl.P, hl.size, hl.ident, hl.rows⟩ ⟨rfl, rfl⟩]
    rw [show zrows { kf with kalmanGains := kf.kalmanGains ++ [K] } Z U = kf.zrows Z U from rfl]
    simp only [Trace.outcome]
    rcases (trace (step n kf.I) ((kf.zrows Z U).drop (j + 1)) (Arr.vec .float64 x'')
      (Arr.mat .float64 P'')).err with _ | e
    · simp [addGains]
    · simp [addGains]

end KalmanFilter

namespace ExtendedKalmanFilter
open KalmanFilter (Shaped)

/-- The result of `update` on well-shaped data is what is written into the result arrays. -/
theorem correct_assign {n m : ℕ} {kf : ExtendedKalmanFilter F} {Z : NDArray F} {U : Option (NDArray F)}
    (hl : ExtLayout n m kf Z U) {xp Pp zk Rk Hk K x' P' : Arr F} (hxp : xp.shape = [n]) (hPp : Pp.shape = [n, n])
    (hz : zk.shape = [m] ∨ zk.shape = []) (hR : Rk.shape = [m, m] ∨ Rk.shape = [])
    (hH : kf.jacobianH xp = .ok Hk) (hg : gain Hk Pp Rk = .ok K) (hc : correct kf K Hk xp Pp zk = .ok (x', P')) :
    x'.assignVec n = .ok x' ∧ P'.assignMat n = .ok P' ∧ x'.shape = [n] ∧ P'.shape = [n, n] := by
  have hHs := hl.jH _ _ hxp hH
  rw [ext_gain_eq] at hg
  rcases gain_layout (P := Pp) hHs hPp hR with hg' | ⟨K', hg'⟩
  · rw [hg'] at hg; simp at hg
  rw [hg', Except.ok.injEq] at hg
  subst hg
  obtain ⟨dH, H, rfl⟩ := Arr.eq_mat hHs
  obtain ⟨dx, xp, rfl⟩ := Arr.eq_vec hxp
  obtain ⟨dP, Pp, rfl⟩ := Arr.eq_mat hPp
  simp only [correct] at hc
  rcases hh : kf.h (.vec dx xp) with e' | y; · simp [hh] at hc
  obtain ⟨res, d, v, hv, hv'⟩ := residual_ext hz (hl.h _ _ hxp hh)
  simp only [hh, Except.bind_ok', hv, hv', Arr.matmul_mv, Arr.add_vv, Arr.matmul_mm,
    hl.ident, identity_eq, Arr.sub_mm, Arr.promote_float_left, Arr.promote_float_right, 
    Except.ok.injEq, Prod.mk.injEq] at hc
  obtain ⟨rfl, rfl⟩ := hc
  exact ⟨Arr.assignVec_vec _ _, Arr.assignMat_mat _ _, rfl, rfl⟩

theorem predict_shape {n m : ℕ} {kf : ExtendedKalmanFilter F} {Z : NDArray F} {U : Option (NDArray F)}
    (hl : ExtLayout n m kf Z U) {x P uk Qk xp Pp : Arr F} (hs : Shaped n x P) (hQ : Qk.shape = [n, n] ∨ Qk.shape = [])
    (hp : kf.predict x (some uk) P Qk = .ok (xp, Pp)) : xp.shape = [n] ∧ Pp.shape = [n, n] := by
  simp only [predict] at hp
  rcases hA : kf.jacobianA x (some uk) with e | Ak; · simp [hA] at hp
  obtain ⟨dA, A, rfl⟩ := Arr.eq_mat (hl.jA _ _ _ hs.1 hA)
  obtain ⟨dP, P, rfl⟩ := Arr.eq_mat hs.2
  simp only [hA, Except.bind_ok'] at hp
  rcases hf : kf.f x (some uk) with e | xp'; · simp [hf] at hp
  obtain ⟨e, Pp', hPp⟩ := add_noise (dA.promote (dP.promote dA))
    (Backend.gemm A (Backend.gemm P A.transpose)) hQ
  simp only [hf, Except.bind_ok', Arr.T_mat, Arr.matmul_mm, hPp, Except.ok.injEq, Prod.mk.injEq] at hp
  obtain ⟨rfl, rfl⟩ := hp
  exact ⟨hl.f _ _ _ hs.1 hf, rfl⟩

theorem byHand_eq {n m : ℕ} (Z : NDArray F) (U : Option (NDArray F)) (l : ℕ) :
    ∀ (j : ℕ) (kf : ExtendedKalmanFilter F) (x P : Arr F), j + l = (kf.zrows Z U).length → ExtLayout n m kf Z U →
      Shaped n x P →
      (byHand Z (effU U Z) (fun _ => true) (List.range' j l) x P).run kf =
        ((trace (step kf) ((kf.zrows Z U).drop j) x P).outcome,
          kf.addGains (trace (step kf) ((kf.zrows Z U).drop j) x P).gains) := by
  induction l with
  | zero =>
    intro j kf x P hj _ _
    rw [List.drop_of_length_le (by omega)]
    simp [byHand, trace, Trace.outcome]
  | succ l ih =>
    intro j kf x P hj hl hs
    have hlt : j < (kf.zrows Z U).length := by omega
    rw [List.drop_eq_getElem_cons hlt]
    obtain ⟨r, hr⟩ : ∃ r, r = (kf.zrows Z U)[j] := ⟨_, rfl⟩
    have hmem : r ∈ kf.zrows Z U := hr ▸ List.getElem_mem hlt
    rw [← hr]
    have hk : (kf.zrows Z U)[j]? = some r := by rw [List.getElem?_eq_getElem hlt, hr]
    obtain ⟨hz, hQ, hR⟩ := mem_zrows hl r hmem
    obtain ⟨uk, zk, Qk, Rk⟩ := r
    simp only [zrows, List.getElem?_zip_eq_some] at hk
    obtain ⟨h4, h5, h6, h7⟩ := hk
    simp only at hz hQ hR
    simp only [List.range'_succ, byHand, Py.run_bind, Py.run_self, Py.run_lift,
      item_eq h4, item_eq h5, item_eq h6, item_eq h7, trace]
    simp only [step]
    rcases hp : predict kf x (some uk) P Qk with e | ⟨xp, Pp⟩
    · simp [Trace.outcome]
    obtain ⟨hxp, hPp⟩ := predict_shape hl hs hQ hp
    simp only [update, Py.run_bind, Py.run_lift, Py.run_self]
    rcases hH : kf.jacobianH xp with e | Hk
    · simp [Trace.outcome]
    dsimp only
    rcases hg : gain Hk Pp Rk with e | K
    · simp [Trace.outcome]
    simp only [Py.run_mutate, Py.run_lift]
    rcases hc : correct kf K Hk xp Pp zk with e | ⟨x', P'⟩
    · simp [Trace.outcome, addGains]
    obtain ⟨ha, hb, hx', hP'⟩ := correct_assign hl hxp hPp hz hR hH hg hc
    have ha' := hl.size.symm ▸ ha
    have hb' := hl.size.symm ▸ hb
    simp only [ha', hb', Except.bind_ok']
    rw [ih (j + 1) { kf with kalmanGains := kf.kalmanGains ++ [K] } _ _
      (by rw [show zrows { kf with kalmanGains := kf.kalmanGains ++ [K] } Z U = kf.zrows Z U from rfl]; omega)
      ⟨hl.x, hl.P, hl.size, hl.ident, hl.f, hl.jA, hl.h, hl.jH, hl.z, hl.Q, hl.R⟩ ⟨hx', hP'⟩]
    rw [show zrows { kf with kalmanGains := kf.kalmanGains ++ [K] } Z U = kf.zrows Z U from rfl,
      show step { kf with kalmanGains := kf.kalmanGains ++ [K] } = step kf from rfl]
    simp only [Trace.outcome]
    rcases (trace (step kf) ((kf.zrows Z U).drop (j + 1)) x' P').err with _ | e
    · simp [addGains]
    · simp [addGains]

end ExtendedKalmanFilter

/-- C118: in any arithmetic, for data in the documented layout, calling `predict` and `update` by hand, step after step from the
constructor's initial state, gives exactly the rows `filter` returns, raises the same exception if there is one, and leaves the
object in the same state (same recorded gains). -/
theorem C118_by_hand {n m : ℕ} (kf : KalmanFilter F) (Z : NDArray F) (U : Option (NDArray F))
    (hi : kf.AllIterable Z U) (hl : Layout n m kf Z U) :
    let hand := (KalmanFilter.byHand Z (effU U Z) (fun _ => true) (List.range (kf.steps Z U)) kf.xk kf.Pk).run kf
    (KalmanFilter.filter Z U).run kf = (stacked Z.rows.length n hand.1, hand.2) := by
  intro hand
  have hh := KalmanFilter.byHand_eq (n := n) (m := m) Z U (kf.steps Z U) 0 kf kf.xk kf.Pk
    (by rw [KalmanFilter.zrows_length]; omega) hl ⟨hl.x, hl.P⟩
  rw [← List.range_eq_range', List.drop_zero] at hh
  simp only [hand]
  rw [hh, KalmanFilter.filter_iter hi]
  simp only [KalmanFilter.tr, hl.size, Trace.outcome]
  rcases he : (trace (KalmanFilter.step n kf.I) (kf.zrows Z U) kf.xk kf.Pk).err with _ | e
  · simp only [stacked, trace_length _ _ _ _ he, KalmanFilter.zrows_length]
  · rfl

/-- C118, extended filter. -/
theorem C118_ext_by_hand {n m : ℕ} (kf : ExtendedKalmanFilter F) (Z : NDArray F) (U : Option (NDArray F))
    (hi : kf.AllIterable Z U) (hl : ExtLayout n m kf Z U) :
    let hand := (ExtendedKalmanFilter.byHand Z (effU U Z) (fun _ => true) (List.range (kf.steps Z U)) kf.xk kf.Pk).run kf
    (ExtendedKalmanFilter.filter Z U).run kf = (stacked Z.rows.length n hand.1, hand.2) := by
  intro hand
  have hh := ExtendedKalmanFilter.byHand_eq (n := n) (m := m) Z U (kf.steps Z U) 0 kf kf.xk kf.Pk
    (by rw [ExtendedKalmanFilter.zrows_length]; omega) hl ⟨hl.x, hl.P⟩
  rw [← List.range_eq_range', List.drop_zero] at hh
  simp only [hand]
  rw [hh, ExtendedKalmanFilter.filter_iter hi]
  simp only [ExtendedKalmanFilter.tr, hl.size, Trace.outcome]
  rcases he : (trace (ExtendedKalmanFilter.step kf) (kf.zrows Z U) kf.xk kf.Pk).err with _ | e
  · simp only [stacked, trace_length _ _ _ _ he, ExtendedKalmanFilter.zrows_length]
  · rfl

end

/-! ### steps without measurement -/

section
variable [Platform] {n m : ℕ}

theorem mask_exact {kf₀ : KalmanFilter Fl} {Z : NDArray Fl} {U : Option (NDArray Fl)} {b₀ : Belief n}
    {ss₀ : List (LinStep n m)} (h : Represents kf₀ Z U b₀ ss₀) (seen : ℕ → Bool) (ss : List (LinStep n m)) :
    ∀ (j : ℕ) (g : List (Arr Fl)) (b : Belief n) (x P : Arr Fl), ss = ss₀.drop j → VecIs b.x x → MatIs b.P P →
      (Solvable b (maskFrom seen j ss) → ∃ out,
        (KalmanFilter.byHand Z (effU U Z) seen (List.range' j ss.length) x P).run (kf₀.addGains g) =
          (.ok out, (kf₀.addGains g).addGains ((seenFrom seen j (gainsOf b (maskFrom seen j ss))).map gainRow)) ∧
        List.Forall₂ (fun (q : Belief n) o => VecIs q.x o.1 ∧ MatIs q.P o.2) (filtered b (maskFrom seen j ss)) out) ∧
      ((∀ s ∈ ss, s.R.det ≠ 0) → ¬ Solvable b (maskFrom seen j ss) → ∃ kf',
        (KalmanFilter.byHand Z (effU U Z) seen (List.range' j ss.length) x P).run (kf₀.addGains g) =
          (.error .linAlgError, kf')) := by
  induction ss with
  | nil =>
    intro j g b x P _ _ _
    refine ⟨fun _ => ⟨[], ?_, .nil⟩, fun _ hs => absurd trivial hs⟩
    simp [KalmanFilter.byHand, maskFrom, gainsOf, seenFrom]
  | cons s ss ih =>
    intro j g b x P hss hx hP
    have hj : ss₀[j]? = some s := by
      have := congrArg (fun l => l[0]?) hss
      simpa using this.symm
    have hss' : ss = ss₀.drop (j + 1) := by
      rw [← List.tail_drop, ← hss]; rfl
    have hlt : j < (kf₀.zrows Z U).length := by
      rw [KalmanFilter.zrows_length, ← h.len]
      exact (List.getElem?_eq_some_iff.1 hj).1
    obtain ⟨r, hr⟩ : ∃ r, r = (kf₀.zrows Z U)[j] := ⟨_, rfl⟩
    have hk : (kf₀.zrows Z U)[j]? = some r := by rw [List.getElem?_eq_getElem hlt, hr]
    obtain ⟨Ak, Hk, Bk, uk, zk, Qk, Rk⟩ := r
    simp only [KalmanFilter.zrows, List.getElem?_zip_eq_some] at hk
    obtain ⟨h1, h2, h3, h4, h5, h6, h7⟩ := hk
    have hst := h.rows j s _ _ _ _ _ _ _ hj h1 h2 h3 h4 h5 h6 h7
    obtain ⟨d, e, hp⟩ := (predict_exact hst hP).1 hx
    have i1 : (kf₀.addGains g).A.item j = .ok Ak := item_eq h1
    have i2 : (kf₀.addGains g).H.item j = .ok Hk := item_eq h2
    have i3 : (kf₀.addGains g).B.item j = .ok Bk := item_eq h3
    have i6 : (kf₀.addGains g).Q.item j = .ok Qk := item_eq h6
    have i7 : (kf₀.addGains g).R.item j = .ok Rk := item_eq h7
    simp only [List.length_cons, List.range'_succ, KalmanFilter.byHand, Py.run_bind, Py.run_self, Py.run_lift, i1, i2, i3,
      item_eq h4, item_eq h5, i6, i7, hp, maskFrom]
    rcases hseen : seen j with _ | _
    · -- no measurement
      have hpred : ({ s with H := 0 } : LinStep n m).predict b = s.predict b := rfl
      have hnext : ({ s with H := 0 } : LinStep n m).next b = s.predict b := unmeasured_next rfl b
      obtain ⟨ih1, ih2⟩ := ih (j + 1) g (s.predict b) _ _ hss' ⟨d, rfl⟩ ⟨e, rfl⟩
      simp only [Bool.false_eq_true, if_false, Py.run_bind, Py.run_pure']
      refine ⟨fun hs => ?_, fun hR hs => ?_⟩
      · rw [Solvable, hnext] at hs
        obtain ⟨out, ho, hf⟩ := ih1 hs.2
        refine ⟨(.vec d (finV (s.predict b).x), .mat e (finM (s.predict b).P)) :: out, ?_, ?_⟩
        · rw [ho]
          simp only [Py.run_pure', gainsOf, seenFrom, hseen, hnext, Bool.false_eq_true, if_false]
        · rw [filtered, hnext]
          exact .cons ⟨⟨d, rfl⟩, ⟨e, rfl⟩⟩ hf
      · have hRs := hR s (by simp)
        have hs' : ¬ Solvable (s.predict b) (maskFrom seen (j + 1) ss) := by
          intro h'
          apply hs
          rw [Solvable, hnext]
          exact ⟨by simpa [LinStep.innov, innovCov] using hRs, h'⟩
        obtain ⟨kf', hk'⟩ := ih2 (fun t ht => hR t (by simp [ht])) hs'
        exact ⟨kf', by rw [hk']⟩
    · -- measurement
      have hid : (kf₀.addGains g).I = Arr.identity n := h.ident
      simp only [if_true, KalmanFilter.update, Py.run_bind, Py.run_lift, gain_exact hst]
      by_cases h0 : (s.innov (s.predict b)).det = 0
      · simp only [h0, if_true]
        exact ⟨fun hs => absurd h0 hs.1, fun _ _ => ⟨_, rfl⟩⟩
      · have hc := (correct_exact (p := s.predict b) (d := d) (e := e) hst).1
        obtain ⟨ih1, ih2⟩ := ih (j + 1) (g ++ [.mat .float64 (finM (s.gain (s.predict b)))]) (s.next b) _ _ hss'
          ⟨.float64, rfl⟩ ⟨.float64, rfl⟩
        rw [← KalmanFilter.addGains_addGains] at ih1 ih2
        simp only [h0, if_false, Py.run_mutate, Py.run_self, Py.run_lift]
        have hc' : KalmanFilter.correct ({ kf₀.addGains g with kalmanGains := (kf₀.addGains g).kalmanGains ++
            [.mat .float64 (finM (s.gain (s.predict b)))] } : KalmanFilter Fl).I (.mat .float64 (finM (s.gain (s.predict b)))) Hk
            (.vec d (finV (s.predict b).x)) (.mat e (finM (s.predict b).P)) zk =
            .ok (.vec .float64 (finV (s.update (s.predict b)).x), .mat .float64 (finM (s.update (s.predict b)).P)) := by
          rw [show ({ kf₀.addGains g with kalmanGains := (kf₀.addGains g).kalmanGains ++
            [.mat .float64 (finM (s.gain (s.predict b)))] } : KalmanFilter Fl).I = Arr.identity n from hid]
          exact hc
        simp only [hc']
        refine ⟨fun hs => ?_, fun hR hs => ?_⟩
        · obtain ⟨out, ho, hf⟩ := ih1 hs.2
          refine ⟨(.vec .float64 (finV (s.next b).x), .mat .float64 (finM (s.next b).P)) :: out, ?_, ?_⟩
          · have ho' := ho
            simp only [KalmanFilter.addGains] at ho' ⊢
            simp only [LinStep.next] at ho'
            rw [ho']
            simp only [Py.run_pure', gainsOf, seenFrom, hseen, if_true, List.map_cons, LinStep.next]
            simp [gainRow]
          · rw [filtered]
            exact .cons ⟨⟨_, rfl⟩, ⟨_, rfl⟩⟩ hf
        · have hs' : ¬ Solvable (s.next b) (maskFrom seen (j + 1) ss) := fun h' => hs ⟨h0, h'⟩
          obtain ⟨kf', hk'⟩ := ih2 (fun t ht => hR t (by simp [ht])) hs'
          refine ⟨kf', ?_⟩
          simp only [KalmanFilter.addGains, LinStep.next] at hk' ⊢
          rw [hk']

/-- C118, measurements missing at some times: the user calls only `predict` there.  In exact arithmetic this is the run of `filter`
on the model with `H = 0` at those times (and any invertible `R`): both raise LinAlgError, or the loop collects arrays holding
exactly the means and covariances `filter` returns, and records the gains of the times with a measurement. -/
theorem C118_missing (kf kf' : KalmanFilter Fl) (Z Z' : NDArray Fl) (U U' : Option (NDArray Fl)) (b : Belief n)
    (ss : List (LinStep n m)) (seen : ℕ → Bool) (hx : VecIs b.x kf.xk) (hR : ∀ s ∈ ss, s.R.det ≠ 0)
    (h : Represents kf Z U b ss) (h' : Represents kf' Z' U' b (maskFrom seen 0 ss)) :
    let hand := (KalmanFilter.byHand Z (effU U Z) seen (List.range ss.length) kf.xk kf.Pk).run kf
    (hand.1 = .error .linAlgError ∧ FilterSingular kf' Z' U') ∨
    ∃ (out : List (Arr Fl × Arr Fl)) (bs : List (Belief n)) (Ks : List (Matrix (Fin n) (Fin m) ℝ)),
      hand = (.ok out, { kf with kalmanGains := kf.kalmanGains ++ (seenFrom seen 0 Ks).map gainRow }) ∧
      List.Forall₂ (fun (q : Belief n) o => VecIs q.x o.1 ∧ MatIs q.P o.2) bs out ∧
      FilterReturns kf' Z' U' bs Ks := by
  intro hand
  obtain ⟨h1, h2⟩ := mask_exact h seen ss 0 [] b kf.xk kf.Pk rfl hx h.P
  rw [KalmanFilter.addGains_nil, ← List.range_eq_range'] at h1 h2
  by_cases hs : Solvable b (maskFrom seen 0 ss)
  · obtain ⟨out, ho, hf⟩ := h1 hs
    exact .inr ⟨out, _, _, ho, hf, h'.returns hs⟩
  · obtain ⟨k', hk⟩ := h2 hR hs
    exact .inl ⟨by simp only [hand, hk], h'.singular hs⟩

/-! ### the hypotheses are met -/

/-- Constant velocity, any data, any times without measurement; nothing raises. -/
example (uz : List (ℝ × ℝ)) (seen : ℕ → Bool) :
    let ss := Ex.cvSteps uz
    let ms := maskFrom seen 0 ss
    VecIs Ex.cvBelief.x (Ex.encode Ex.cvBelief ss).xk ∧ (∀ s ∈ ss, s.R.det ≠ 0) ∧
    Represents (Ex.encode Ex.cvBelief ss) (Ex.encZ ss) (some (Ex.encU ss)) Ex.cvBelief ss ∧
    Represents (Ex.encode Ex.cvBelief ms) (Ex.encZ ms) (some (Ex.encU ms)) Ex.cvBelief ms ∧
    Solvable Ex.cvBelief ms := by
  intro ss ms
  refine ⟨⟨_, rfl⟩, fun s hs => posDef_det_ne (Ex.cv_pdStep uz s hs).2.1, Ex.encode_represents _ _, Ex.encode_represents _ _,
    solvable_pd _ _ Ex.cv_posDef ?_⟩
  have : ∀ (ss : List (LinStep 2 1)) (j : ℕ), (∀ s ∈ ss, PdStep s) → ∀ s ∈ maskFrom seen j ss, PdStep s := by
    intro ss
    induction ss with
    | nil => intro j _ s hs; simp [maskFrom] at hs
    | cons t ss ih =>
      intro j ht s hs
      simp only [maskFrom, List.mem_cons] at hs
      rcases hs with rfl | hs
      · have := ht t (by simp)
        split
        · exact this
        · exact ⟨this.1, this.2.1, this.2.2⟩
      · exact ih (j + 1) (fun s hs => ht s (by simp [hs])) s hs
  exact this ss 0 (Ex.cv_pdStep uz)

end

/-- Constant velocity in rational arithmetic; the run returns. -/
example : (Ex.cv 3).AllIterable Ex.zs (some Ex.us) ∧ Layout 2 1 (Ex.cv 3) Ex.zs (some Ex.us) ∧
    (∃ r k, (KalmanFilter.filter Ex.zs (some Ex.us)).run (Ex.cv 3) = (.ok r, k)) := by
  refine ⟨⟨trivial, trivial, trivial, trivial, trivial, trivial, trivial⟩, ?_, (Ex.returned_iff _).1 (by decide +kernel)⟩
  exact Ex.cv_layout 3 [some 1, some 3, some 2] [some 1, some 0, some (-1)]

/-- The same for an extended filter. -/
example : (Ex.pushed Ex.q2 Ex.r1 3).AllIterable Ex.zs (some Ex.us) ∧ ExtLayout 2 1 (Ex.pushed Ex.q2 Ex.r1 3) Ex.zs (some Ex.us) ∧
    (∃ r k, (ExtendedKalmanFilter.filter Ex.zs (some Ex.us)).run (Ex.pushed Ex.q2 Ex.r1 3) = (.ok r, k)) :=
  ⟨⟨trivial, trivial, trivial, trivial⟩, Ex.pushed_layout _ _ 3 [some 1, some 3, some 2] _ (.inl rfl) (.inl rfl),
    (Ex.returned_iff _).1 (by decide +kernel)⟩

end KK
