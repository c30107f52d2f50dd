import Verif.Proofs.Exact
import Verif.Proofs.Cov
import Verif.Test.Encode

/-!
# C24, C25: in exact arithmetic `filter` is the textbook Kalman filter
-/

set_option linter.unusedSectionVars false

namespace KK

open Matrix

variable [Platform] {n m : ℕ}

/-- C24: if every innovation covariance of the textbook run is invertible, `filter` returns exactly the
textbook means and covariances (followed, if the data are longer than the shortest parameter sequence, by
the zero rows of C02) and appends exactly the textbook gains; nothing else of the object changes. -/
theorem C24_filter_textbook (kf : KalmanFilter Fl) (Z : NDArray Fl) (U : Option (NDArray Fl))
    (b : Belief n) (ss : List (LinStep n m)) (h : Represents kf Z U b ss) (hs : Solvable b ss) :
    (KalmanFilter.filter Z U).run kf =
      (.ok ((filtered b ss).map stateRow ++ List.replicate (Z.rows.length - ss.length) (Arr.zerosVec n),
            (filtered b ss).map covRow ++ List.replicate (Z.rows.length - ss.length) (Arr.zerosMat n)),
       { kf with kalmanGains := kf.kalmanGains ++ (gainsOf b ss).map gainRow }) := by
  obtain ⟨h1, h2, h3⟩ := h.trace.1 hs
  rw [KalmanFilter.filter_iter h.iter]
  simp only [h1, h2, h3, h.len, h.size, List.map_map, KalmanFilter.addGains]
  rfl

/-- C24 for a single `update`: posterior mean `x + K (z - H x)`, posterior covariance `(I - K H) P`, one gain
recorded; LinAlgError and no gain if `S` is singular. -/
theorem C24_update (kf : KalmanFilter Fl) (H : Matrix (Fin m) (Fin n) ℝ) (R : Matrix (Fin m) (Fin m) ℝ)
    (z : Fin m → ℝ) (x : Fin n → ℝ) (P : Matrix (Fin n) (Fin n) ℝ) (Hk Rk zk xk Pk : Arr Fl)
    (hI : kf.I = Arr.identity n) (h : MeasIs H R z Hk Rk zk) (hx : StateIs x xk) (hP : MatIs P Pk)
    (hcol : VecIs x xk ∨ m = 1 ∨ zk.shape = []) :
    ((innovCov H P R).det ≠ 0 → ∃ x' P',
      (KalmanFilter.update Hk xk Pk zk Rk).run kf =
        (.ok (x', P'), { kf with kalmanGains := kf.kalmanGains ++ [gainRow (kGain H P R)] }) ∧
      StateIs (x + kGain H P R *ᵥ (z - H *ᵥ x)) x' ∧ MatIs (postCov H P R) P') ∧
    ((innovCov H P R).det = 0 →
      (KalmanFilter.update Hk xk Pk zk Rk).run kf = (.error .linAlgError, kf)) := by
  let s : LinStep n m := ⟨0, 0, H, 0, R, z⟩
  let p : Belief n := ⟨x, P⟩
  have hs : StepIs s (.mat .float64 (finM 0)) Hk (.mat .float64 (finM (0 : Matrix (Fin n) (Fin 0) ℝ)))
      (.vec .float64 (finV (0 : Fin 0 → ℝ))) zk (.mat .float64 (finM 0)) Rk :=
    ⟨⟨_, rfl⟩, h.H, .inr ⟨0, 0, 0, ⟨_, rfl⟩, ⟨_, rfl⟩, by simp [s]⟩, h.z, .inl ⟨_, rfl⟩, h.R⟩
  obtain ⟨e, rfl⟩ := hP
  have hg := gain_exact (e := e) (p := p) hs
  constructor
  · intro hdet
    have hdet' : (s.innov p).det ≠ 0 := hdet
    simp only [hdet', if_false] at hg
    rcases hx with ⟨d, rfl⟩ | ⟨hn, d, rfl⟩
    · have hc := (correct_exact (d := d) (e := e) (p := p) hs).1
      refine ⟨stateRow (s.update p), covRow (s.update p), ?_, .inl ⟨_, rfl⟩, ⟨_, rfl⟩⟩
      simp only [KalmanFilter.update, Py.run_bind, Py.run_lift, p, Py.run_mutate, Py.run_self, hI] at hg hc ⊢
      rw [hg]
      simp only [Py.run_mutate, Py.run_self, hI, hc]
      rfl
    · have hcol' : m = 1 ∨ zk.shape = [] := by
        rcases hcol with ⟨d', hc⟩ | hc
        · simp at hc
        · exact hc
      have hc := (correct_exact (d := d) (e := e) (p := p) hs).2 hn hcol'
      refine ⟨.mat .float64 (finM (colM (s.update p).x)), covRow (s.update p), ?_,
        .inr ⟨hn, _, rfl⟩, ⟨_, rfl⟩⟩
      simp only [KalmanFilter.update, Py.run_bind, Py.run_lift, p, Py.run_mutate, Py.run_self, hI] at hg hc ⊢
      rw [hg]
      simp only [Py.run_mutate, Py.run_self, hI]
      exact congrArg (fun r => (r, _)) hc
  · intro hdet
    have hdet' : (s.innov p).det = 0 := hdet
    simp only [hdet', if_true, p] at hg
    simp only [KalmanFilter.update, Py.run_bind, Py.run_lift, hg]

/-- C24 for a single `predict`. -/
theorem C24_predict (s : LinStep n m) (b : Belief n) (Ak Hk Bk uk zk Qk Rk xk Pk : Arr Fl)
    (h : StepIs s Ak Hk Bk uk zk Qk Rk) (hx : StateIs b.x xk) (hP : MatIs b.P Pk) :
    ∃ x' P', KalmanFilter.predict Ak xk (some Bk) (some uk) Pk Qk = .ok (x', P') ∧
      StateIs (s.predict b).x x' ∧ MatIs (s.predict b).P P' := by
  rcases hx with hx | ⟨hn, hx⟩
  · obtain ⟨d, e, hp⟩ := (predict_exact h hP).1 hx
    exact ⟨_, _, hp, .inl ⟨_, rfl⟩, ⟨_, rfl⟩⟩
  · obtain ⟨d, e, hp⟩ := (predict_exact h hP).2 hn hx
    exact ⟨_, _, hp, .inr ⟨hn, _, rfl⟩, ⟨_, rfl⟩⟩

/-- C25: a represented run returns iff every innovation covariance is invertible; if step `k` is the first
singular one, `filter` raises LinAlgError and exactly the gains of the first `k` steps have been recorded. -/
theorem C25_linalgerror (kf : KalmanFilter Fl) (Z : NDArray Fl) (U : Option (NDArray Fl))
    (b : Belief n) (ss : List (LinStep n m)) (h : Represents kf Z U b ss) :
    ((∃ r kf', (KalmanFilter.filter Z U).run kf = (.ok r, kf')) ↔ Solvable b ss) ∧
    (∀ k, Solvable b (ss.take k) → ¬ Solvable b (ss.take (k + 1)) →
      (KalmanFilter.filter Z U).run kf =
        (.error .linAlgError,
          { kf with kalmanGains := kf.kalmanGains ++ (gainsOf b (ss.take k)).map gainRow })) ∧
    (¬ Solvable b ss → ∃ k, k < ss.length ∧ Solvable b (ss.take k) ∧ ¬ Solvable b (ss.take (k + 1)) ∧
      (gainsOf b (ss.take k)).length = k) := by
  have h2 : ∀ k, Solvable b (ss.take k) → ¬ Solvable b (ss.take (k + 1)) →
      (KalmanFilter.filter Z U).run kf =
        (.error .linAlgError,
          { kf with kalmanGains := kf.kalmanGains ++ (gainsOf b (ss.take k)).map gainRow }) := by
    intro k hk hk'
    obtain ⟨h1, h2⟩ := h.trace.2 k hk hk'
    rw [KalmanFilter.filter_iter h.iter]
    simp only [h1, h2]
    rfl
  refine ⟨⟨?_, fun hs => ⟨_, _, C24_filter_textbook kf Z U b ss h hs⟩⟩, h2, ?_⟩
  · rintro ⟨r, kf', hr⟩
    rcases solvable_or b ss with hs | ⟨k, -, h3, h4⟩
    · exact hs
    · rw [h2 k h3 h4] at hr; simp at hr
  · intro hs
    rcases solvable_or b ss with hs' | ⟨k, hk, h3, h4⟩
    · exact absurd hs' hs
    · exact ⟨k, hk, h3, h4, by rw [gainsOf_length, List.length_take]; omega⟩

/-! ### Hypotheses are met -/

theorem Ex.cv_posDef : Ex.cvBelief.P.PosDef := by
  have : Ex.cvBelief.P = Matrix.diagonal ![2, 1] := by
    ext i j; fin_cases i <;> fin_cases j <;> simp [Ex.cvBelief]
  rw [this]
  refine Matrix.PosDef.diagonal ?_
  intro i; fin_cases i <;> simp

theorem Ex.cvStep_Q (u z : ℝ) : (Ex.cvStep u z).Q.PosDef := by
  have : (Ex.cvStep u z).Q = Matrix.diagonal ![1/4, 1/4] := by
    ext i j; fin_cases i <;> fin_cases j <;> simp [Ex.cvStep]
  rw [this]
  refine Matrix.PosDef.diagonal ?_
  intro i; fin_cases i <;> simp

theorem Ex.cvStep_R (u z : ℝ) : (Ex.cvStep u z).R.PosDef := by
  have : (Ex.cvStep u z).R = Matrix.diagonal ![1] := by
    ext i j; fin_cases i; fin_cases j; simp [Ex.cvStep]
  rw [this]
  refine Matrix.PosDef.diagonal ?_
  intro i; fin_cases i; simp

/-- Data for the constant-velocity model: any controls and observations. -/
noncomputable def Ex.cvSteps (uz : List (ℝ × ℝ)) : List (LinStep 2 1) := uz.map fun p => Ex.cvStep p.1 p.2

theorem Ex.cv_solvable (uz : List (ℝ × ℝ)) : Solvable Ex.cvBelief (Ex.cvSteps uz) := by
  refine solvable_psd Ex.cv_posDef.posSemidef ?_ ?_ <;> intro s hs <;>
    simp only [Ex.cvSteps, List.mem_map] at hs <;> obtain ⟨p, -, rfl⟩ := hs
  · exact (Ex.cvStep_Q _ _).posSemidef
  · exact Ex.cvStep_R _ _

-- C24: the hypotheses hold for the constant-velocity model on arbitrary data.
example (uz : List (ℝ × ℝ)) : Represents (Ex.encode Ex.cvBelief (Ex.cvSteps uz)) (Ex.encZ (Ex.cvSteps uz))
    (some (Ex.encU (Ex.cvSteps uz))) Ex.cvBelief (Ex.cvSteps uz) ∧ Solvable Ex.cvBelief (Ex.cvSteps uz) :=
  ⟨Ex.encode_represents _ _, Ex.cv_solvable uz⟩

/-- A noise-free scalar model that becomes singular at its second step. -/
noncomputable def Ex.sing : LinStep 1 1 := ⟨1, 0, 1, 0, 0, fun _ => 3⟩

-- C25: the first step is regular, the second singular.
example : Solvable (⟨fun _ => 0, 1⟩ : Belief 1) ([Ex.sing, Ex.sing].take 1) ∧
    ¬ Solvable (⟨fun _ => 0, 1⟩ : Belief 1) ([Ex.sing, Ex.sing].take 2) := by
  simp [Solvable, Ex.sing, LinStep.innov, LinStep.next, LinStep.predict, LinStep.update, priorCov, innovCov,
    postCov, kGain]

end KK
