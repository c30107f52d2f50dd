import Verif.Spec.ExtPartly
import Verif.Props.Subclass
import Verif.Proofs.ExtTransfer
import Verif.Test.ExtEncode

/-!
# C118, C150: extended filters with missing measurements, in exact arithmetic
-/

set_option linter.unusedSectionVars false
set_option linter.unusedSimpArgs false

namespace KK

open Matrix

section
variable [Platform] {σ : Type} {n m : ℕ}

theorem extPartly_exact {kf₀ : ExtendedKalmanFilter Fl} {Z : NDArray Fl} {U : Option (NDArray Fl)} {b₀ : Belief n}
    {ss₀ : List (ExtStep n m)} (h : ExtRepresents kf₀ Z U b₀ ss₀) (seen : ℕ → Bool) (ss : List (ExtStep n m)) :
    ∀ (j : ℕ) (g : List (Arr Fl)) (b : Belief n) (x P : Arr Fl), ss = ss₀.drop j → VecIs b.x x → MatIs b.P P →
      (ExtPartlySolvable seen j b ss → ∃ out,
        (ExtendedKalmanFilter.byHand Z (effU U Z) seen (List.range' j ss.length) x P).run (kf₀.addGains g) =
          (.ok out, (kf₀.addGains g).addGains ((extPartlyGains seen j b ss).map gainRow)) ∧
        List.Forall₂ (fun (q : Belief n) o => VecIs q.x o.1 ∧ MatIs q.P o.2) (extPartly seen j b ss) out) ∧
      (¬ ExtPartlySolvable seen j b ss → ∃ kf',
        (ExtendedKalmanFilter.byHand Z (effU U Z) seen (List.range' j ss.length) x P).run (kf₀.addGains g) =
          (.error .linAlgError, kf')) := by
  induction ss with
  | nil =>
    intro j g b x P _ _ _
    refine ⟨fun _ => ⟨[], ?_, .nil⟩, fun hs => absurd trivial hs⟩
    simp [ExtendedKalmanFilter.byHand, extPartlyGains, ExtendedKalmanFilter.addGains]
  | cons s ss ih =>
    intro j g b x P hss hx hP
    have hj : ss₀[j]? = some s := by
      have := congrArg (fun l => l[0]?) hss
      simpa using this.symm
    have hss' : ss = ss₀.drop (j + 1) := by
      rw [← List.tail_drop, ← hss]; rfl
    obtain ⟨uk, zk, Qk, Rk, h4, h5, h6, h7, hst⟩ := h.row hj
    obtain ⟨d, e, hp⟩ := extPredict_exact hst hx hP
    have i6 : (kf₀.addGains g).Q.item j = .ok Qk := item_eq h6
    have i7 : (kf₀.addGains g).R.item j = .ok Rk := item_eq h7
    have hp' : (kf₀.addGains g).predict x (some uk) P Qk = .ok (.vec d (finV (s.predict b).x), .mat e (finM (s.predict b).P)) := hp
    simp only [List.length_cons, List.range'_succ, ExtendedKalmanFilter.byHand, Py.run_bind, Py.run_self, Py.run_lift,
      item_eq h4, item_eq h5, i6, i7, hp']
    rcases hseen : seen j with _ | _
    · have hafter : s.after false b = s.predict b := rfl
      obtain ⟨ih1, ih2⟩ := ih (j + 1) g (s.predict b) _ _ hss' ⟨d, rfl⟩ ⟨e, rfl⟩
      simp only [Py.run_bind, Py.run_pure', ExtPartlySolvable, extPartlyGains, extPartly, hseen, hafter]
      refine ⟨fun hs => ?_, fun hs => ?_⟩
      · obtain ⟨out, ho, hf⟩ := ih1 hs.2
        refine ⟨(.vec d (finV (s.predict b).x), .mat e (finM (s.predict b).P)) :: out, ?_, .cons ⟨⟨d, rfl⟩, ⟨e, rfl⟩⟩ hf⟩
        rw [ho]
        simp
      · obtain ⟨kf', hk'⟩ := ih2 (fun h' => hs ⟨by simp, h'⟩)
        exact ⟨kf', by rw [hk']⟩
    · have hafter : s.after true b = s.next b := rfl
      obtain ⟨J, hJ, dJ, rfl⟩ := hst.jH (s.predict b).x (.vec d (finV (s.predict b).x)) ⟨_, rfl⟩
      have hJ' : (kf₀.addGains g).jacobianH (.vec d (finV (s.predict b).x)) = .ok (.mat dJ (finM (s.jH (s.predict b).x))) := hJ
      simp only [ExtendedKalmanFilter.update, Py.run_bind, Py.run_self, Py.run_lift, hJ', extGain_exact hst,
        ExtPartlySolvable, extPartlyGains, extPartly, hseen, hafter]
      by_cases h0 : (s.innov (s.predict b)).det = 0
      · simp only [h0, if_true]
        exact ⟨fun hs => absurd rfl (hs.1 trivial), fun _ => ⟨_, rfl⟩⟩
      · obtain ⟨ih1, ih2⟩ := ih (j + 1) (g ++ [.mat .float64 (finM (s.gain (s.predict b)))]) (s.next b) (stateRow (s.next b))
          (covRow (s.next b)) hss' ⟨.float64, rfl⟩ ⟨.float64, rfl⟩
        have hc : ExtendedKalmanFilter.correct (kf₀.addGains g)
            (.mat .float64 (finM (s.gain (s.predict b)))) (.mat dJ (finM (s.jH (s.predict b).x)))
            (.vec d (finV (s.predict b).x)) (.mat e (finM (s.predict b).P)) zk =
            .ok (stateRow (s.next b), covRow (s.next b)) := extCorrect_exact hst h.ident
        have hadd : ({ kf₀.addGains g with kalmanGains := (kf₀.addGains g).kalmanGains ++
            [.mat .float64 (finM (s.gain (s.predict b)))] } : ExtendedKalmanFilter Fl) =
            kf₀.addGains (g ++ [.mat .float64 (finM (s.gain (s.predict b)))]) := by
          simp [ExtendedKalmanFilter.addGains]
        simp only [h0, if_false, Py.run_mutate, Py.run_self, Py.run_lift, hadd, hc]
        refine ⟨fun hs => ?_, fun hs => ?_⟩
        · obtain ⟨out, ho, hf⟩ := ih1 hs.2
          refine ⟨(stateRow (s.next b), covRow (s.next b)) :: out, ?_, .cons ⟨⟨_, rfl⟩, ⟨_, rfl⟩⟩ hf⟩
          rw [ho]
          simp [ExtendedKalmanFilter.addGains, gainRow]
        · obtain ⟨kf', hk'⟩ := ih2 (fun h' => hs ⟨fun _ => h0, h'⟩)
          exact ⟨kf', by rw [hk']⟩

/-- C118, extended filter, measurements missing at some times: in exact arithmetic the loop raises LinAlgError exactly if the
innovation covariance of a time with a measurement is singular; otherwise it collects arrays holding exactly the beliefs of the
extended filter that only predicts at the times without measurement, and records the gains of the other times. -/
theorem C118_ext_missing (kf : ExtendedKalmanFilter Fl) (Z : NDArray Fl) (U : Option (NDArray Fl)) (b : Belief n)
    (ss : List (ExtStep n m)) (seen : ℕ → Bool) (h : ExtRepresents kf Z U b ss) :
    let hand := (ExtendedKalmanFilter.byHand Z (effU U Z) seen (List.range ss.length) kf.xk kf.Pk).run kf
    (ExtPartlySolvable seen 0 b ss → ∃ out,
      hand = (.ok out, { kf with kalmanGains := kf.kalmanGains ++ (extPartlyGains seen 0 b ss).map gainRow }) ∧
      List.Forall₂ (fun (q : Belief n) o => VecIs q.x o.1 ∧ MatIs q.P o.2) (extPartly seen 0 b ss) out) ∧
    (¬ ExtPartlySolvable seen 0 b ss → hand.1 = .error .linAlgError) := by
  intro hand
  obtain ⟨h1, h2⟩ := extPartly_exact h seen ss 0 [] b kf.xk kf.Pk rfl h.x h.P
  have h0 : kf.addGains [] = kf := by simp [ExtendedKalmanFilter.addGains]
  rw [h0, ← List.range_eq_range'] at h1 h2
  refine ⟨fun hs => h1 hs, fun hs => ?_⟩
  obtain ⟨k, hk⟩ := h2 hs
  simp only [hand, hk]

variable {kf : ExtendedKalmanFilter Fl} {Z Zf : NDArray Fl} {U : Option (NDArray Fl)} {missing : Arr Fl → Bool}

theorem Fills.extByHand (h : Fills missing Z Zf) (U : NDArray Fl) (ks : List ℕ) (x P : Arr Fl) (kf : ExtendedKalmanFilter Fl) :
    (ExtendedKalmanFilter.byHand Z U (seenBy missing Z) ks x P).run kf =
      (ExtendedKalmanFilter.byHand Zf U (seenBy missing Z) ks x P).run kf := by
  have hitem : ∀ k, seenBy missing Z k = true → Z.item k = Zf.item k := by
    intro k hk
    rcases hz : Z.rows[k]? with _ | z
    · simp [seenBy, hz] at hk
    simp only [seenBy, hz, Bool.not_eq_true'] at hk
    have : k < Zf.rows.length := by
      rw [← h.length]; exact (List.getElem?_eq_some_iff.1 hz).1
    have hf := List.getElem?_eq_getElem this
    rw [item_eq hz, item_eq hf, (h.row hz hf).2.2 hk]
  congr 1
  induction ks generalizing x P with
  | nil => rfl
  | cons k ks ih =>
    simp only [ExtendedKalmanFilter.byHand, ih]
    rcases hs : seenBy missing Z k with _ | _
    · rfl
    · simp only [hitem k hs]

/-- C150, extended class, exact arithmetic: on data with missing measurements `filter` of the subclass raises LinAlgError exactly
if the innovation covariance of a time with a measurement is singular; otherwise its rows are exactly the beliefs of the extended
filter that only predicts at the times without measurement, and the gains of the other times are recorded. -/
theorem C150_ext_missing_filter (missing : Arr Fl → Bool) (kf : ExtendedKalmanFilter Fl) (o : σ) (Z Zf : NDArray Fl)
    (U : Option (NDArray Fl)) (b : Belief n) (ss : List (ExtStep n m)) (h : ExtRepresents kf Zf U b ss)
    (hf : Fills missing Z Zf) (hl : ExtLayout n m kf Zf U) :
    let seen := seenBy missing Z
    let sub := ((ExtMethods.skipping missing).filter Z U).run ⟨kf, o⟩
    (ExtPartlySolvable seen 0 b ss → sub =
      (.ok ((extPartly seen 0 b ss).map stateRow ++ List.replicate (Z.rows.length - ss.length) (Arr.zerosVec n),
          (extPartly seen 0 b ss).map covRow ++ List.replicate (Z.rows.length - ss.length) (Arr.zerosMat n)),
       ⟨{ kf with kalmanGains := kf.kalmanGains ++ (extPartlyGains seen 0 b ss).map gainRow }, o⟩)) ∧
    (¬ ExtPartlySolvable seen 0 b ss → sub.1 = .error .linAlgError) := by
  intro seen sub
  have hi : kf.AllIterable Z U := ⟨(hf.effU U).symm ▸ h.iter.U, hf.iterable, h.iter.Q, h.iter.R⟩
  have hl' : ExtLayout n m kf Z U := by
    refine ⟨hl.x, hl.P, hl.size, hl.ident, hl.f, hl.jA, hl.h, hl.jH, ?_, hl.Q, hl.R⟩
    intro z hz
    obtain ⟨k, hk⟩ := List.mem_iff_getElem?.1 hz
    have hkf : k < Zf.rows.length := by
      rw [← hf.length]; exact (List.getElem?_eq_some_iff.1 hk).1
    rw [(hf.row hk (List.getElem?_eq_getElem hkf)).1]
    exact hl.z _ (List.getElem_mem hkf)
  have hsteps : kf.steps Z U = ss.length := by
    rw [h.len]; simp only [ExtendedKalmanFilter.steps, hf.effU U, hf.length]
  obtain ⟨s1, s2, s3⟩ := C150_ext_skipping missing kf o Z U hi hl'
  rw [hf.extByHand, hf.effU, hsteps] at s1 s2 s3
  obtain ⟨m1, m2⟩ := C118_ext_missing kf Zf U b ss seen h
  refine ⟨fun hs => ?_, fun hs => s1 _ (m2 hs)⟩
  obtain ⟨out, e1, e2⟩ := m1 hs
  rw [e1] at s2 s3
  obtain ⟨a, ha, hw⟩ := s2 out rfl
  have hb := hw.exact e2
  have hlen : (extPartly seen 0 b ss).length = ss.length := by
    have : ∀ (ss : List (ExtStep n m)) (j : ℕ) (b : Belief n), (extPartly seen j b ss).length = ss.length := by
      intro ss
      induction ss with
      | nil => intros; rfl
      | cons s ss ih => intro j b; simp [extPartly, ih]
    exact this ss 0 b
  rw [hlen] at hb
  rw [← hb]
  exact Prod.ext ha s3

/-! ### the hypotheses are met -/

omit [Platform] in
/-- With positive semidefinite `P`, `Q` and positive definite `R` nothing is singular, whatever times are measured. -/
theorem extPartly_solvable (seen : ℕ → Bool) (ss : List (ExtStep n m)) (hss : ∀ s ∈ ss, s.Q.PosSemidef ∧ s.R.PosDef) :
    ∀ (j : ℕ) (b : Belief n), b.P.PosSemidef → ExtPartlySolvable seen j b ss := by
  induction ss with
  | nil => intros; trivial
  | cons s ss ih =>
    intro j b hb
    obtain ⟨hQ, hR⟩ := hss s (by simp)
    have hp : (s.predict b).P.PosSemidef := priorCov_posSemidef hb hQ
    have hd : (s.innov (s.predict b)).det ≠ 0 := posDef_det_ne (innovCov_posDef hp hR)
    refine ⟨fun _ => hd, ih (fun t ht => hss t (by simp [ht])) _ _ ?_⟩
    rcases seen j with _ | _
    · exact hp
    · exact postCov_posSemidef hp hR.posSemidef hd

/-- Any callbacks, any data, NaN at any times; with proper covariances nothing raises. -/
example (f : (Fin 2 → ℝ) → Fin 2 → ℝ) (jA : (Fin 2 → ℝ) → Matrix (Fin 2) (Fin 2) ℝ) (h : (Fin 2 → ℝ) → Fin 1 → ℝ)
    (jH : (Fin 2 → ℝ) → Matrix (Fin 1) (Fin 2) ℝ) (b : Belief 2) (hb : b.P.PosSemidef) (zs : List ℝ) (lost : ℕ → Bool) :
    let ss : List (ExtStep 2 1) := zs.map fun z => ⟨f, jA, h, jH, 1, 1, fun _ => z⟩
    let kf := Ex.extEncode f jA h jH b ss
    let Zf := Ex.extEncZ ss
    let Z : NDArray Fl := .stack (Zf.rows.mapIdx fun k z => if lost k then z.fullLikeNan else z)
    ExtRepresents kf Zf (some Zf) b ss ∧ Fills Arr.isnanAll Z Zf ∧ ExtLayout 2 1 kf Zf (some Zf) ∧
    ExtPartlySolvable (seenBy Arr.isnanAll Z) 0 b ss := by
  intro ss kf Zf Z
  refine ⟨Ex.extEncode_represents f jA h jH b ss ?_, ⟨_, _, rfl, rfl, ?_⟩, ⟨rfl, rfl, rfl, rfl, ?_, ?_, ?_, ?_, ?_, ?_, ?_⟩,
    extPartly_solvable _ _ ?_ _ _ hb⟩
  · intro s hs
    simp only [ss, List.mem_map] at hs
    obtain ⟨z, -, rfl⟩ := hs
    exact ⟨rfl, rfl, rfl, rfl⟩
  · refine forall₂_of_get _ _ _ (by simp [NDArray.rows, Zf, Ex.extEncZ]) ?_
    intro k z f hz hf
    simp only [List.getElem?_mapIdx, Zf, Ex.extEncZ, NDArray.rows, hf, Option.map_some, Option.some.injEq] at hz
    subst hz
    simp only [List.getElem?_map, Option.map_eq_some_iff] at hf
    obtain ⟨s, -, rfl⟩ := hf
    split
    · refine ⟨rfl, rfl, fun h => ?_⟩
      simp [Arr.isnanAll, Arr.fullLikeNan, Arr.nanFill, Arr.isnanEntry, Backend.isnan, Backend.nan] at h
    · exact ⟨rfl, rfl, fun _ => rfl⟩
  · intro x u y hx hy
    obtain ⟨d, v, rfl⟩ := Arr.eq_vec hx
    simp only [kf, Ex.extEncode, Ex.callV, dif_pos, Except.ok.injEq] at hy
    subst hy; rfl
  · intro x u y hx hy
    obtain ⟨d, v, rfl⟩ := Arr.eq_vec hx
    simp only [kf, Ex.extEncode, Ex.callM, dif_pos, Except.ok.injEq] at hy
    subst hy; rfl
  · intro x y hx hy
    obtain ⟨d, v, rfl⟩ := Arr.eq_vec hx
    simp only [kf, Ex.extEncode, Ex.callV, dif_pos, Except.ok.injEq] at hy
    subst hy; exact .inl rfl
  · intro x y hx hy
    obtain ⟨d, v, rfl⟩ := Arr.eq_vec hx
    simp only [kf, Ex.extEncode, Ex.callM, dif_pos, Except.ok.injEq] at hy
    subst hy; rfl
  · intro a ha
    simp only [Zf, Ex.extEncZ, NDArray.rows, List.mem_map] at ha
    obtain ⟨s, -, rfl⟩ := ha; exact .inl rfl
  · intro a ha
    simp only [kf, Ex.extEncode, NDArray.rows, List.mem_map] at ha
    obtain ⟨s, -, rfl⟩ := ha; exact .inl rfl
  · intro a ha
    simp only [kf, Ex.extEncode, NDArray.rows, List.mem_map] at ha
    obtain ⟨s, -, rfl⟩ := ha; exact .inl rfl
  · intro s hs
    simp only [ss, List.mem_map] at hs
    obtain ⟨z, -, rfl⟩ := hs
    exact ⟨Matrix.PosSemidef.one, Matrix.PosDef.one⟩

end

end KK
