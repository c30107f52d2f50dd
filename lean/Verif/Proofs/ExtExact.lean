import Verif.Spec.ExtTextbook
import Verif.Proofs.ExactSmooth

/-!
# The extended filter in exact arithmetic

A run of the extended filter is a run of the linear filter on the models linearised along the run.
-/

set_option linter.unusedSectionVars false

namespace KK

open Matrix

variable {n m : ℕ}

/-! ### linearisation along a run -/

namespace ExtStep

/-- The linear step which at belief `b` does what `s` does. -/
noncomputable def lin (s : ExtStep n m) (b : Belief n) : LinStep n m where
  A := s.jA b.x
  c := s.f b.x - s.jA b.x *ᵥ b.x
  H := s.jH (s.f b.x)
  Q := s.Q
  R := s.R
  z := s.z - s.h (s.f b.x) + s.jH (s.f b.x) *ᵥ s.f b.x

theorem lin_predict (s : ExtStep n m) (b : Belief n) : (s.lin b).predict b = s.predict b := by
  simp [lin, LinStep.predict, predict]

theorem lin_innov (s : ExtStep n m) (b : Belief n) :
    (s.lin b).innov (s.predict b) = s.innov (s.predict b) := rfl

theorem lin_gain (s : ExtStep n m) (b : Belief n) :
    (s.lin b).gain (s.predict b) = s.gain (s.predict b) := rfl

theorem lin_next (s : ExtStep n m) (b : Belief n) : (s.lin b).next b = s.next b := by
  rw [LinStep.next, lin_predict, next, LinStep.update, update, lin_gain]
  simp only [lin, predict]
  congr 3
  abel

theorem lin_rts (s : ExtStep n m) (b q : Belief n) : KK.rtsStep b (s.lin b) q = rtsStep b s q := by
  simp only [KK.rtsStep, rtsStep, lin_predict]
  rfl

end ExtStep

/-- The linearised run. -/
noncomputable def linRun : Belief n → List (ExtStep n m) → List (LinStep n m)
  | _, [] => []
  | b, s :: ss => s.lin b :: linRun (s.next b) ss

theorem linRun_length (b : Belief n) (ss : List (ExtStep n m)) : (linRun b ss).length = ss.length := by
  induction ss generalizing b with
  | nil => rfl
  | cons s ss ih => simp [linRun, ih]

theorem extFiltered_eq (b : Belief n) (ss : List (ExtStep n m)) : extFiltered b ss = filtered b (linRun b ss) := by
  induction ss generalizing b with
  | nil => rfl
  | cons s ss ih => rw [extFiltered, linRun, filtered, s.lin_next, ih]

theorem extGainsOf_eq (b : Belief n) (ss : List (ExtStep n m)) : extGainsOf b ss = gainsOf b (linRun b ss) := by
  induction ss generalizing b with
  | nil => rfl
  | cons s ss ih => rw [extGainsOf, linRun, gainsOf, s.lin_next, ih, s.lin_predict, s.lin_gain]

theorem extSolvable_iff (b : Belief n) (ss : List (ExtStep n m)) : ExtSolvable b ss ↔ Solvable b (linRun b ss) := by
  induction ss generalizing b with
  | nil => exact Iff.rfl
  | cons s ss ih => rw [ExtSolvable, linRun, Solvable, s.lin_next, ih, s.lin_predict, s.lin_innov]

theorem extRts_eq (b : Belief n) (ss : List (ExtStep n m)) : extRts b ss = rts b (linRun b ss) := by
  induction ss generalizing b with
  | nil => rfl
  | cons s ss ih =>
    rw [extRts, linRun, rts, s.lin_next, ih]
    cases rts (s.next b) (linRun (s.next b) ss) with
    | nil => rfl
    | cons q qs => simp only [s.lin_rts]

theorem extSmoothed_eq (b : Belief n) (ss : List (ExtStep n m)) : extSmoothed b ss = smoothed b (linRun b ss) := by
  cases ss with
  | nil => rfl
  | cons s ss => rw [extSmoothed, linRun, smoothed, s.lin_next, extRts_eq]

theorem extRtsSolvable_iff (b : Belief n) (ss : List (ExtStep n m)) :
    ExtRtsSolvable b ss ↔ RtsSolvable b (linRun b ss) := by
  induction ss generalizing b with
  | nil => exact Iff.rfl
  | cons s ss ih => rw [ExtRtsSolvable, linRun, RtsSolvable, s.lin_next, ih, s.lin_predict]

theorem extSmoothSolvable_iff (b : Belief n) (ss : List (ExtStep n m)) :
    ExtSmoothSolvable b ss ↔ SmoothSolvable b (linRun b ss) := by
  cases ss with
  | nil => exact Iff.rfl
  | cons s ss => rw [ExtSmoothSolvable, linRun, SmoothSolvable, s.lin_next, extRtsSolvable_iff]

theorem linRun_take (b : Belief n) (ss : List (ExtStep n m)) (k : ℕ) :
    linRun b (ss.take k) = (linRun b ss).take k := by
  induction ss generalizing b k with
  | nil => simp [linRun]
  | cons s ss ih => cases k <;> simp [linRun, ih]

/-- `Q` and `R` of the linearised run are those of the run. -/
theorem linRun_forall (b : Belief n) (ss : List (ExtStep n m))
    (p : Matrix (Fin n) (Fin n) ℝ → Matrix (Fin m) (Fin m) ℝ → Prop) (h : ∀ s ∈ ss, p s.Q s.R) :
    ∀ s ∈ linRun b ss, p s.Q s.R := by
  induction ss generalizing b with
  | nil => simp [linRun]
  | cons s ss ih =>
    intro s' hs'
    rw [linRun, List.mem_cons] at hs'
    rcases hs' with rfl | hs'
    · exact h s (by simp)
    · exact ih _ (fun s'' h'' => h s'' (by simp [h''])) s' hs'

/-! ### one step -/

variable [Platform]

variable {kf : ExtendedKalmanFilter Fl} {s : ExtStep n m} {uk zk Qk Rk : Arr Fl}

theorem extPredict_exact (h : ExtStepIs kf s uk zk Qk Rk) {b : Belief n} {x P : Arr Fl} (hx : VecIs b.x x)
    (hP : MatIs b.P P) : ∃ d e, kf.predict x (some uk) P Qk =
      .ok (.vec d (finV (s.predict b).x), .mat e (finM (s.predict b).P)) := by
  obtain ⟨y, hy, dy, rfl⟩ := h.f _ _ hx
  obtain ⟨J, hJ, dJ, rfl⟩ := h.jA _ _ hx
  obtain ⟨dP, rfl⟩ := hP
  obtain ⟨e, he⟩ := Arr.fadd_noise (d := dJ.promote (dP.promote dJ)) (M := s.jA b.x * (b.P * (s.jA b.x)ᵀ)) h.Q
  simp only [ExtendedKalmanFilter.predict, hJ, hy, Except.bind_ok', Arr.fT, Arr.fmm, he]
  exact ⟨dy, e, by simp only [ExtStep.predict, priorCov, Matrix.mul_assoc]⟩

/-- Stand-in linear step, used to reuse the gain computation. -/
noncomputable def measOf (s : ExtStep n m) (p : Belief n) : LinStep n m :=
  ⟨0, 0, s.jH p.x, s.Q, s.R, s.z⟩

theorem extGain_exact (h : ExtStepIs kf s uk zk Qk Rk) {p : Belief n} {e dJ : DType} :
    ExtendedKalmanFilter.gain (.mat dJ (finM (s.jH p.x))) (.mat e (finM p.P)) Rk =
      if (s.innov p).det = 0 then .error .linAlgError else .ok (.mat .float64 (finM (s.gain p))) := by
  rw [ext_gain_eq]
  have hs : StepIs (measOf s p) (.mat .float64 (finM 0)) (.mat dJ (finM (s.jH p.x)))
      (.mat .float64 (finM (0 : Matrix (Fin n) (Fin 0) ℝ)))
      (.vec .float64 (finV (0 : Fin 0 → ℝ))) zk Qk Rk :=
    ⟨⟨_, rfl⟩, ⟨_, rfl⟩, .inr ⟨0, 0, 0, ⟨_, rfl⟩, ⟨_, rfl⟩, by simp [measOf]⟩, h.z, h.Q, h.R⟩
  have hg := gain_exact (p := p) (e := e) hs
  have h1 : (measOf s p).innov p = s.innov p := rfl
  have h2 : (measOf s p).gain p = s.gain p := rfl
  rw [h1, h2] at hg
  exact hg

theorem extResidual_exact (h : ExtStepIs kf s uk zk Qk Rk) {v : Fin n → ℝ} {x : Arr Fl} (hx : VecIs v x) :
    ∃ y r d, kf.h x = .ok y ∧ zk.sub y = .ok r ∧ r.atleast1d = .vec d (finV (s.z - s.h v)) := by
  obtain ⟨y, hy, hv⟩ := h.h _ _ hx
  have key : VecIs (s.h v) y ∨ (m = 1 ∧ ∃ d r, y = .scalar d (.fin r) ∧ s.h v = fun _ => r) := by
    rcases hv with hv | ⟨hm, hv | hv⟩
    · exact .inl hv
    · exact .inl hv
    · exact .inr ⟨hm, hv⟩
  rcases key with ⟨dy, rfl⟩ | ⟨rfl, dy, r, rfl, hr⟩
  · rcases h.z with ⟨dz, rfl⟩ | ⟨dz, r, rfl, hz⟩
    · exact ⟨_, _, _, hy, Arr.fsub_vv _ _, rfl⟩
    · exact ⟨_, _, _, hy, Arr.fsub_sv _ _, by rw [hz]; rfl⟩
  · rcases h.z with ⟨dz, rfl⟩ | ⟨dz, r', rfl, hz⟩
    · exact ⟨_, _, _, hy, Arr.sub_vs _ _ _ _, by rw [hr]; rfl⟩
    · exact ⟨_, _, _, hy, Arr.sub_ss _ _ _ _, by rw [hr, hz]; rfl⟩

theorem extCorrect_exact (h : ExtStepIs kf s uk zk Qk Rk) (hI : kf.I = Arr.identity n) {p : Belief n}
    {d e dJ : DType} :
    kf.correct (.mat .float64 (finM (s.gain p))) (.mat dJ (finM (s.jH p.x))) (.vec d (finV p.x))
        (.mat e (finM p.P)) zk = .ok (stateRow (s.update p), covRow (s.update p)) := by
  obtain ⟨y, r, d', h1, h2, h3⟩ := extResidual_exact h (v := p.x) (x := .vec d (finV p.x)) ⟨_, rfl⟩
  simp only [ExtendedKalmanFilter.correct, h1, h2, h3, Except.bind_ok', hI, Arr.fmv, Arr.fadd_vv,
    Arr.fmm, identity_eq, idM_fin, Arr.fsub_mm, Arr.promote_float_left, Arr.promote_float_right,
    ExtStep.update, stateRow, covRow]
  rfl

def ExtRowIs (kf : ExtendedKalmanFilter Fl) (s : ExtStep n m) (r : ExtendedKalmanFilter.Row Fl) : Prop :=
  ExtStepIs kf s r.1 r.2.1 r.2.2.1 r.2.2.2

theorem extStep_exact {r : ExtendedKalmanFilter.Row Fl} {b : Belief n} {x P : Arr Fl} (h : ExtRowIs kf s r)
    (hI : kf.I = Arr.identity n) (hn : kf.stateSize = n) (hx : VecIs b.x x) (hP : MatIs b.P P) :
    ((s.innov (s.predict b)).det = 0 → ExtendedKalmanFilter.step kf r x P = (none, .error .linAlgError)) ∧
    ((s.innov (s.predict b)).det ≠ 0 → ExtendedKalmanFilter.step kf r x P =
        (some (gainRow (s.gain (s.predict b))),
          .ok ((stateRow (s.next b), covRow (s.next b)), (stateRow (s.next b), covRow (s.next b))))) := by
  obtain ⟨uk, zk, Qk, Rk⟩ := r
  simp only [ExtRowIs] at h
  obtain ⟨d, e, hp⟩ := extPredict_exact h hx hP
  obtain ⟨J, hJ, dJ, rfl⟩ := h.jH (s.predict b).x (.vec d (finV (s.predict b).x)) ⟨_, rfl⟩
  simp only [ExtendedKalmanFilter.step, hp, hJ, extGain_exact h]
  constructor
  · intro h0; simp only [h0, if_true]
  · intro h0
    simp only [h0, if_false, extCorrect_exact h hI, Except.bind_ok', hn]
    simp only [stateRow, covRow, Arr.assignVec_vec, Arr.assignMat_mat, Except.bind_ok', ExtStep.next, gainRow]

theorem extTrace_exact {ss : List (ExtStep n m)} {rs : List (ExtendedKalmanFilter.Row Fl)} {b : Belief n}
    {x P : Arr Fl} (hI : kf.I = Arr.identity n) (hn : kf.stateSize = n)
    (h : List.Forall₂ (ExtRowIs kf) ss rs) (hx : VecIs b.x x) (hP : MatIs b.P P) :
    (ExtSolvable b ss →
      (trace (ExtendedKalmanFilter.step kf) rs x P).err = none ∧
      (trace (ExtendedKalmanFilter.step kf) rs x P).outs =
        (extFiltered b ss).map (fun q => (stateRow q, covRow q)) ∧
      (trace (ExtendedKalmanFilter.step kf) rs x P).gains = (extGainsOf b ss).map gainRow) ∧
    (∀ k, ExtSolvable b (ss.take k) → ¬ ExtSolvable b (ss.take (k + 1)) →
      (trace (ExtendedKalmanFilter.step kf) rs x P).err = some .linAlgError ∧
      (trace (ExtendedKalmanFilter.step kf) rs x P).gains = (extGainsOf b (ss.take k)).map gainRow) := by
  induction h generalizing b x P with
  | nil => simp [trace, extFiltered, extGainsOf, ExtSolvable]
  | @cons s r ss rs h1 h2 ih =>
    obtain ⟨hs1, hs2⟩ := extStep_exact h1 hI hn hx hP
    by_cases h0 : (s.innov (s.predict b)).det = 0
    · refine ⟨fun hh => absurd h0 hh.1, ?_⟩
      rintro (_ | k) hk hk'
      · simp [trace, hs1 h0, extGainsOf]
      · exact absurd h0 hk.1
    · have hst := hs2 h0
      obtain ⟨ih1, ih2⟩ := ih (b := s.next b) (x := stateRow (s.next b)) (P := covRow (s.next b)) ⟨_, rfl⟩ ⟨_, rfl⟩
      refine ⟨fun hh => ?_, ?_⟩
      · obtain ⟨e1, e2, e3⟩ := ih1 hh.2
        simp only [trace, hst, extFiltered, extGainsOf, List.map_cons]
        exact ⟨e1, by rw [e2], by rw [e3]; rfl⟩
      · rintro (_ | k) hk hk'
        · exact absurd ⟨h0, trivial⟩ hk'
        · obtain ⟨e1, e2⟩ := ih2 k hk.2 (fun hh => hk' ⟨h0, hh⟩)
          simp only [trace, hst, extGainsOf, List.map_cons, List.take_succ_cons]
          exact ⟨e1, by rw [e2]; rfl⟩

variable {Z : NDArray Fl} {U : Option (NDArray Fl)} {b : Belief n} {ss : List (ExtStep n m)}

theorem ExtRepresents.row (h : ExtRepresents kf Z U b ss) {k : ℕ} {s : ExtStep n m} (hs : ss[k]? = some s) :
    ∃ uk zk Qk Rk, (effU U Z).rows[k]? = some uk ∧ Z.rows[k]? = some zk ∧ kf.Q.rows[k]? = some Qk ∧
      kf.R.rows[k]? = some Rk ∧ ExtStepIs kf s uk zk Qk Rk := by
  have hk : k < (kf.zrows Z U).length := by
    rw [ExtendedKalmanFilter.zrows_length, ← h.len]
    exact (List.getElem?_eq_some_iff.1 hs).1
  have hg := List.getElem?_eq_getElem hk
  generalize (kf.zrows Z U)[k] = r at hg
  obtain ⟨uk, zk, Qk, Rk⟩ := r
  simp only [ExtendedKalmanFilter.zrows, List.getElem?_zip_eq_some] at hg
  obtain ⟨h4, h5, h6, h7⟩ := hg
  exact ⟨_, _, _, _, h4, h5, h6, h7, h.rows k s _ _ _ _ hs h4 h5 h6 h7⟩

theorem ExtRepresents.rowsIs (h : ExtRepresents kf Z U b ss) :
    List.Forall₂ (ExtRowIs kf) ss (kf.zrows Z U) := by
  refine forall₂_of_get _ _ _ (by rw [h.len, ExtendedKalmanFilter.zrows_length]) ?_
  rintro k s ⟨uk, zk, Qk, Rk⟩ hs hr
  simp only [ExtendedKalmanFilter.zrows, List.getElem?_zip_eq_some] at hr
  obtain ⟨h4, h5, h6, h7⟩ := hr
  exact h.rows k s _ _ _ _ hs h4 h5 h6 h7

theorem ExtRepresents.trace (h : ExtRepresents kf Z U b ss) :
    (ExtSolvable b ss →
      (kf.tr Z U).err = none ∧
      (kf.tr Z U).outs = (extFiltered b ss).map (fun q => (stateRow q, covRow q)) ∧
      (kf.tr Z U).gains = (extGainsOf b ss).map gainRow) ∧
    (∀ k, ExtSolvable b (ss.take k) → ¬ ExtSolvable b (ss.take (k + 1)) →
      (kf.tr Z U).err = some .linAlgError ∧
      (kf.tr Z U).gains = (extGainsOf b (ss.take k)).map gainRow) :=
  extTrace_exact h.ident h.size h.rowsIs h.x h.P

theorem extFiltered_length (b : Belief n) (ss : List (ExtStep n m)) : (extFiltered b ss).length = ss.length := by
  rw [extFiltered_eq, filtered_length, linRun_length]

theorem ExtRepresents.filter (h : ExtRepresents kf Z U b ss) (hs : ExtSolvable b ss) :
    (ExtendedKalmanFilter.filter Z U).run kf =
      (.ok ((extFiltered b ss).map stateRow ++ List.replicate (Z.rows.length - ss.length) (Arr.zerosVec n),
            (extFiltered b ss).map covRow ++ List.replicate (Z.rows.length - ss.length) (Arr.zerosMat n)),
       { kf with kalmanGains := kf.kalmanGains ++ (extGainsOf b ss).map gainRow }) := by
  obtain ⟨h1, h2, h3⟩ := h.trace.1 hs
  rw [ExtendedKalmanFilter.filter_iter h.iter]
  simp only [ExtendedKalmanFilter.tr, h1, h2, h3, h.len, h.size, List.map_map, ExtendedKalmanFilter.addGains]
  rfl

theorem extSmoothStep_exact {f q : Belief n} (h : ExtStepIs kf s uk zk Qk Rk) :
    ((s.predict f).P.det ≠ 0 →
      kf.smoothStep (stateRow f) (covRow f) Qk uk (stateRow q) (covRow q) =
        .ok (beliefRows (ExtStep.rtsStep f s q))) ∧
    ((s.predict f).P.det = 0 →
      kf.smoothStep (stateRow f) (covRow f) Qk uk (stateRow q) (covRow q) = .error .linAlgError) := by
  obtain ⟨d, e, hp⟩ := extPredict_exact (b := f) (x := stateRow f) (P := covRow f) h ⟨_, rfl⟩ ⟨_, rfl⟩
  obtain ⟨J, hJ, dJ, rfl⟩ := h.jA f.x (stateRow f) ⟨_, rfl⟩
  have hG : ((s.predict f).Pᵀ⁻¹ * (f.P * (s.jA f.x)ᵀ)ᵀ)ᵀ = f.P * (s.jA f.x)ᵀ * (s.predict f).P⁻¹ := by
    rw [Matrix.transpose_mul, Matrix.transpose_transpose, ← Matrix.transpose_nonsing_inv,
      Matrix.transpose_transpose]
  constructor
  · intro h0
    rw [ExtendedKalmanFilter.smoothStep, hp]
    simp only [Except.bind_ok', hJ]
    simp only [Except.bind_ok', Arr.fT, covRow, stateRow, Arr.fmm,
      Arr.fsolve, Matrix.det_transpose, h0, if_false, Arr.fsub_vv, Arr.fmv, Arr.fadd_vv, Arr.fsub_mm,
      Arr.fadd_mm, hG]
    simp only [Arr.promote_float_left, ExtStep.rtsStep, beliefRows, stateRow, covRow, Matrix.mul_assoc]
  · intro h0
    rw [ExtendedKalmanFilter.smoothStep, hp]
    simp only [Except.bind_ok', hJ]
    simp only [Except.bind_ok', Arr.fT, covRow, Arr.fmm,
      Arr.fsolve, Matrix.det_transpose, h0, if_true, Except.bind_error']

theorem ExtRepresents.smooth (h : ExtRepresents kf Z U b ss) (hfull : ss.length = Z.rows.length)
    (hne : ss ≠ []) (hs : ExtSolvable b ss) :
    (ExtSmoothSolvable b ss → (ExtendedKalmanFilter.smooth Z U).run kf =
      (.ok ((extSmoothed b ss).map stateRow, (extSmoothed b ss).map covRow),
       { kf with kalmanGains := kf.kalmanGains ++ (extGainsOf b ss).map gainRow })) ∧
    (¬ ExtSmoothSolvable b ss → (ExtendedKalmanFilter.smooth Z U).run kf =
      (.error .linAlgError,
       { kf with kalmanGains := kf.kalmanGains ++ (extGainsOf b ss).map gainRow })) := by
  have hf := h.filter hs
  rw [hfull, Nat.sub_self, List.replicate_zero, List.append_nil, List.replicate_zero, List.append_nil] at hf
  obtain ⟨s, ts, rfl⟩ : ∃ s ts, ss = s :: ts := by
    cases ss with
    | nil => exact absurd rfl hne
    | cons s ts => exact ⟨s, ts, rfl⟩
  set fs := extFiltered b (s :: ts) with hfs
  set ls := linRun (s.next b) ts with hls
  have hfs' : fs = s.next b :: filtered (s.next b) ls := by
    rw [hfs, extFiltered, extFiltered_eq]
  have hll : ls.length = ts.length := linRun_length _ _
  have hlast := lastOf_filtered (s.next b) ls
  have hflen : fs.length = ts.length + 1 := by rw [hfs, extFiltered_length]; rfl
  have hl : fs.length - 1 = ts.length := by omega
  -- the linearised step at position `j` is the linearisation at the `j`-th filtered belief
  have hlin : ∀ (b : Belief n) (ts : List (ExtStep n m)) (j : ℕ) (f : Belief n) (s' : ExtStep n m),
      (b :: filtered b (linRun b ts))[j]? = some f → ts[j]? = some s' → (linRun b ts)[j]? = some (s'.lin f) := by
    intro b ts
    induction ts generalizing b with
    | nil => intro j f s' _ hh; simp at hh
    | cons s ts ih =>
      rintro (_ | j) f s' h1 h2
      · simp only [List.getElem?_cons_zero, Option.some.injEq] at h1 h2
        subst h1 h2; rfl
      · simp only [List.getElem?_cons_succ, linRun, filtered, s.lin_next] at h1 h2 ⊢
        exact ih _ j f s' h1 h2
  rw [ExtendedKalmanFilter.smooth_eq, hf]
  have e1 : (fs.map stateRow)[(fs.map stateRow).length - 1]? = some (stateRow (lastOf (s.next b) ls)) := by
    rw [List.length_map, hl, List.getElem?_map, hfs', ← hll, hlast]; rfl
  have e2 : (fs.map covRow)[(fs.map stateRow).length - 1]? = some (covRow (lastOf (s.next b) ls)) := by
    rw [List.length_map, hl, List.getElem?_map, hfs', ← hll, hlast]; rfl
  simp only [e1, e2]
  rw [List.length_map, hl]
  have hbody : ∀ j < ts.length, ∀ q,
      (¬ (∃ f s', fs[j]? = some f ∧ ls[j]? = some s' ∧ (s'.predict f).P.det = 0) →
        ExtendedKalmanFilter.body kf kf.Q (checkNoneAndBroadcast U Z)
          (fs.map stateRow) (fs.map covRow) j (stateRow q) (covRow q) =
        .ok (beliefRows (rtsG fs ls j q))) ∧
      ((∃ f s', fs[j]? = some f ∧ ls[j]? = some s' ∧ (s'.predict f).P.det = 0) →
        ExtendedKalmanFilter.body kf kf.Q (checkNoneAndBroadcast U Z)
          (fs.map stateRow) (fs.map covRow) j (stateRow q) (covRow q) =
        .error .linAlgError) := by
    intro j hj q
    have hjs : ts[j]? = some ts[j] := List.getElem?_eq_getElem hj
    have hjf : j < fs.length := by omega
    have hjf' := List.getElem?_eq_getElem hjf
    generalize fs[j] = f at hjf'
    generalize ts[j] = s' at hjs
    have hjl : ls[j]? = some (s'.lin f) := hlin _ _ j f s' (by rw [← hls, ← hfs']; exact hjf') hjs
    obtain ⟨uk, zk, Qk, Rk, hu, hz, hQ, hR, hst⟩ := h.row (k := j + 1) (s := s') (by simpa using hjs)
    have hx1 : getRow (fs.map stateRow) j = .ok (stateRow f) :=
      getRow_some (by rw [List.getElem?_map, hjf']; rfl)
    have hx2 : getRow (fs.map covRow) j = .ok (covRow f) :=
      getRow_some (by rw [List.getElem?_map, hjf']; rfl)
    obtain ⟨hs1, hs2⟩ := extSmoothStep_exact (f := f) (q := q) hst
    simp only [ExtendedKalmanFilter.body, item_of_rows hQ, item_of_rows hu, hx1, hx2,
      Except.bind_ok', hjf', hjl, Option.some.injEq, rtsG]
    constructor
    · intro hh
      rw [hs1 (fun h0 => hh ⟨f, _, rfl, rfl, by rw [s'.lin_predict]; exact h0⟩), s'.lin_rts]
      simp only [beliefRows, Except.bind_ok', h.size]
      simp only [stateRow, covRow, Arr.assignVec_vec, Arr.assignMat_mat, Except.bind_ok']
    · rintro ⟨f', s'', rfl, rfl, h0⟩
      rw [s'.lin_predict] at h0
      rw [hs2 h0]
      rfl
  have hg := back_exact _ _ _ ts.length hbody (lastOf (s.next b) ls)
  have hiff : ExtSmoothSolvable b (s :: ts) ↔ ∀ j < ts.length,
      ¬ (∃ f s', fs[j]? = some f ∧ ls[j]? = some s' ∧ (s'.predict f).P.det = 0) := by
    rw [ExtSmoothSolvable, extRtsSolvable_iff, rtsSolvable_iff, ← hls, ← hfs']
    constructor
    · rintro hh j hj ⟨f, s', h1, h2, h3⟩
      exact hh j f s' h1 h2 h3
    · intro hh j f s' h1 h2 h3
      exact hh j (by rw [← hll]; exact (List.getElem?_eq_some_iff.1 h2).1) ⟨f, s', h1, h2, h3⟩
  constructor
  · intro hsm
    have hb := hg.1 (hiff.1 hsm)
    simp only [beliefRows] at hb
    rw [hb, extSmoothed, extRts_eq, rts_eq_backR, ← hls, ← hfs', hll]
    simp only [Except.map, List.map_map]
    rfl
  · intro hsm
    rw [hiff] at hsm
    push Not at hsm
    have hb := hg.2 (by
      obtain ⟨j, hj, hh⟩ := hsm
      exact ⟨j, hj, hh⟩)
    simp only [beliefRows] at hb
    rw [hb]
    rfl

end KK
