import Verif.Proofs.ExtExact
import Verif.Props.Smoother
import Verif.Test.ExtEncode

/-!
# C50, C51: the extended filter in exact arithmetic
-/

set_option linter.unusedSectionVars false

namespace KK

open Matrix

variable {n m : ℕ}

/-! ## C51 -/

section
variable [Platform]

/-- C51 (filter): if every innovation covariance is invertible, `ExtendedKalmanFilter.filter` returns exactly
the textbook extended recursion (`Spec/ExtTextbook.lean`: `f`, `jacobian_A` at the previous posterior mean,
`h`, `jacobian_H` at the predicted mean), followed by the zero rows of C02, and appends exactly its gains. -/
theorem C51_filter_textbook (kf : ExtendedKalmanFilter Fl) (Z : NDArray Fl) (U : Option (NDArray Fl))
    (b : Belief n) (ss : List (ExtStep n m)) (h : ExtRepresents kf Z U b ss) (hs : ExtSolvable b ss) :
    (ExtendedKalmanFilter.filter Z U).run kf =
      (.ok ((extFiltered b ss).map stateRow ++ List.replicate (Z.rows.length - ss.length) (Arr.zerosVec n),
            (extFiltered b ss).map covRow ++ List.replicate (Z.rows.length - ss.length) (Arr.zerosMat n)),
       { kf with kalmanGains := kf.kalmanGains ++ (extGainsOf b ss).map gainRow }) :=
  h.filter hs

theorem extSolvable_or (b : Belief n) (ss : List (ExtStep n m)) :
    ExtSolvable b ss ∨
      ∃ k, k < ss.length ∧ ExtSolvable b (ss.take k) ∧ ¬ ExtSolvable b (ss.take (k + 1)) := by
  simp only [extSolvable_iff, linRun_take]
  rw [← linRun_length b ss]
  exact solvable_or b (linRun b ss)

/-- C51 (singular innovation covariance): `filter` returns iff every innovation covariance is invertible; if
step `k` is the first singular one it raises LinAlgError after recording exactly the first `k` gains. -/
theorem C51_filter_linalgerror (kf : ExtendedKalmanFilter Fl) (Z : NDArray Fl) (U : Option (NDArray Fl))
    (b : Belief n) (ss : List (ExtStep n m)) (h : ExtRepresents kf Z U b ss) :
    ((∃ r kf', (ExtendedKalmanFilter.filter Z U).run kf = (.ok r, kf')) ↔ ExtSolvable b ss) ∧
    (∀ k, ExtSolvable b (ss.take k) → ¬ ExtSolvable b (ss.take (k + 1)) →
      (ExtendedKalmanFilter.filter Z U).run kf =
        (.error .linAlgError,
          { kf with kalmanGains := kf.kalmanGains ++ (extGainsOf b (ss.take k)).map gainRow })) := by
  have h2 : ∀ k, ExtSolvable b (ss.take k) → ¬ ExtSolvable b (ss.take (k + 1)) →
      (ExtendedKalmanFilter.filter Z U).run kf =
        (.error .linAlgError,
          { kf with kalmanGains := kf.kalmanGains ++ (extGainsOf b (ss.take k)).map gainRow }) := by
    intro k hk hk'
    obtain ⟨h1, h2⟩ := h.trace.2 k hk hk'
    rw [ExtendedKalmanFilter.filter_iter h.iter]
    simp only [h1, h2]
    rfl
  refine ⟨⟨?_, fun hs => ⟨_, _, C51_filter_textbook kf Z U b ss h hs⟩⟩, h2⟩
  rintro ⟨r, kf', hr⟩
  rcases extSolvable_or b ss with hs | ⟨k, -, h3, h4⟩
  · exact hs
  · rw [h2 k h3 h4] at hr; simp at hr

/-- C51 (smooth): on full-length non-empty data `ExtendedKalmanFilter.smooth` returns exactly the extended
RTS recursion, linearised at the filtered means with the control of the following step; it raises
LinAlgError iff an innovation covariance or a predicted covariance of the backward pass is singular. -/
theorem C51_smooth_textbook (kf : ExtendedKalmanFilter Fl) (Z : NDArray Fl) (U : Option (NDArray Fl))
    (b : Belief n) (ss : List (ExtStep n m)) (h : ExtRepresents kf Z U b ss)
    (hfull : ss.length = Z.rows.length) (hne : ss ≠ []) :
    (ExtSolvable b ss → ExtSmoothSolvable b ss → (ExtendedKalmanFilter.smooth Z U).run kf =
      (.ok ((extSmoothed b ss).map stateRow, (extSmoothed b ss).map covRow),
       { kf with kalmanGains := kf.kalmanGains ++ (extGainsOf b ss).map gainRow })) ∧
    (¬ (ExtSolvable b ss ∧ ExtSmoothSolvable b ss) →
      ∃ kf', (ExtendedKalmanFilter.smooth Z U).run kf = (.error .linAlgError, kf')) := by
  refine ⟨fun hs hsm => (h.smooth hfull hne hs).1 hsm, fun hn => ?_⟩
  rcases extSolvable_or b ss with hs | ⟨k, -, h3, h4⟩
  · exact ⟨_, (h.smooth hfull hne hs).2 fun hsm => hn ⟨hs, hsm⟩⟩
  · have := (C51_filter_linalgerror kf Z U b ss h).2 k h3 h4
    exact ⟨_, by rw [ExtendedKalmanFilter.smooth_eq, this]⟩

/-- C51 (single `predict`): mean `f(x, u)`, covariance `J P J' + Q` with `J = jacobian_A(x, u)`. -/
theorem C51_predict (kf : ExtendedKalmanFilter Fl) (s : ExtStep n m) (b : Belief n) (uk zk Qk Rk xk Pk : Arr Fl)
    (h : ExtStepIs kf s uk zk Qk Rk) (hx : VecIs b.x xk) (hP : MatIs b.P Pk) :
    ∃ x' P', kf.predict xk (some uk) Pk Qk = .ok (x', P') ∧ VecIs (s.f b.x) x' ∧
      MatIs (s.jA b.x * b.P * (s.jA b.x)ᵀ + s.Q) P' := by
  obtain ⟨d, e, hp⟩ := extPredict_exact h hx hP
  exact ⟨_, _, hp, ⟨_, rfl⟩, ⟨_, rfl⟩⟩

/-- C51 (single `update`): `J = jacobian_H(x)`, `K = P J' (J P J' + R)⁻¹`, mean `x + K (z - h(x))`, covariance
`(I - K J) P`, one gain recorded; LinAlgError and no gain if `J P J' + R` is singular. -/
theorem C51_update (kf : ExtendedKalmanFilter Fl) (s : ExtStep n m) (p : Belief n) (uk zk Qk Rk xk Pk : Arr Fl)
    (hI : kf.I = Arr.identity n) (h : ExtStepIs kf s uk zk Qk Rk) (hx : VecIs p.x xk) (hP : MatIs p.P Pk) :
    ((s.innov p).det ≠ 0 → (ExtendedKalmanFilter.update xk Pk zk Rk).run kf =
        (.ok (stateRow (s.update p), covRow (s.update p)),
          { kf with kalmanGains := kf.kalmanGains ++ [gainRow (s.gain p)] })) ∧
    ((s.innov p).det = 0 →
      (ExtendedKalmanFilter.update xk Pk zk Rk).run kf = (.error .linAlgError, kf)) := by
  obtain ⟨J, hJ, dJ, rfl⟩ := h.jH _ _ hx
  obtain ⟨dx, rfl⟩ := hx
  obtain ⟨dP, rfl⟩ := hP
  have hg := extGain_exact (p := p) (e := dP) (dJ := dJ) h
  constructor
  · intro hd
    simp only [hd, if_false] at hg
    simp only [ExtendedKalmanFilter.update, Py.run_bind, Py.run_lift, Py.run_self, hJ, hg, Py.run_mutate,
      extCorrect_exact h hI]
    rfl
  · intro hd
    simp only [hd, if_true] at hg
    simp only [ExtendedKalmanFilter.update, Py.run_bind, Py.run_lift, Py.run_self, hJ, hg]

end

/-! ## C50 -/

theorem extSolvable_psd {b : Belief n} {ss : List (ExtStep n m)} (hP : b.P.PosSemidef)
    (hQ : ∀ s ∈ ss, s.Q.PosSemidef) (hR : ∀ s ∈ ss, s.R.PosDef) : ExtSolvable b ss := by
  rw [extSolvable_iff]
  exact solvable_psd hP (linRun_forall b ss (fun Q _ => Q.PosSemidef) hQ)
    (linRun_forall b ss (fun _ R => R.PosDef) hR)

/-- Along a run with PSD `P`, `Q` and PD `R`, every belief has a PSD covariance. -/
theorem extFiltered_psd {b : Belief n} {ss : List (ExtStep n m)} (hP : b.P.PosSemidef)
    (hQ : ∀ s ∈ ss, s.Q.PosSemidef) (hR : ∀ s ∈ ss, s.R.PosDef) :
    ∀ q ∈ extFiltered b ss, q.P.PosSemidef := by
  rw [extFiltered_eq]
  have hQ' := linRun_forall b ss (fun Q _ => Q.PosSemidef) hQ
  have hR' := linRun_forall b ss (fun _ R => R.PosDef) hR
  exact filtered_forall (fun b => b.P.PosSemidef) b _ hP
    (fun s hs b hb => (psd_next hb (hQ' s hs) (hR' s hs)).1)

variable [Platform]

/-- C50 (filter): whatever the callbacks compute, PSD initial covariance and process noise and PD measurement
noise make `filter` return, and every returned covariance is symmetric positive semidefinite. -/
theorem C50_ekf_psd (kf : ExtendedKalmanFilter Fl) (Z : NDArray Fl) (U : Option (NDArray Fl))
    (b : Belief n) (ss : List (ExtStep n m)) (h : ExtRepresents kf Z U b ss) (hP : b.P.PosSemidef)
    (hQ : ∀ s ∈ ss, s.Q.PosSemidef) (hR : ∀ s ∈ ss, s.R.PosDef) :
    ∃ xs Ps kf', (ExtendedKalmanFilter.filter Z U).run kf = (.ok (xs, Ps), kf') ∧
      ∀ a ∈ Ps, ∃ M : Matrix (Fin n) (Fin n) ℝ, MatIs M a ∧ Mᵀ = M ∧ M.PosSemidef := by
  refine ⟨_, _, _, C51_filter_textbook kf Z U b ss h (extSolvable_psd hP hQ hR), ?_⟩
  intro a ha
  simp only [List.mem_append, List.mem_map, List.mem_replicate] at ha
  rcases ha with ⟨q, hq, rfl⟩ | ⟨-, rfl⟩
  · have := extFiltered_psd hP hQ hR q hq
    exact ⟨q.P, ⟨_, rfl⟩, IsHermitian.symm' this.1, this⟩
  · exact ⟨0, ⟨_, rfl⟩, by simp, Matrix.PosSemidef.zero⟩

/-- C50 (update): whatever the callbacks compute, for PSD prior and PD measurement noise `update` returns a PSD
covariance below the prior in the Loewner order. -/
theorem C50_update_reduces (kf : ExtendedKalmanFilter Fl) (s : ExtStep n m) (p : Belief n)
    (uk zk Qk Rk xk Pk : Arr Fl) (hI : kf.I = Arr.identity n) (h : ExtStepIs kf s uk zk Qk Rk)
    (hx : VecIs p.x xk) (hPk : MatIs p.P Pk) (hP : p.P.PosSemidef) (hR : s.R.PosDef) :
    ∃ x' P' kf', (ExtendedKalmanFilter.update xk Pk zk Rk).run kf = (.ok (x', P'), kf') ∧
      ∃ M : Matrix (Fin n) (Fin n) ℝ, MatIs M P' ∧ M.PosSemidef ∧ (p.P - M).PosSemidef ∧
        (∀ v : Fin n → ℝ, v ⬝ᵥ (M *ᵥ v) ≤ v ⬝ᵥ (p.P *ᵥ v)) ∧ M.trace ≤ p.P.trace := by
  have hS : (s.innov p).det ≠ 0 := posDef_det_ne (innovCov_posDef (H := s.jH p.x) hP hR)
  have hle : (p.P - (s.update p).P).PosSemidef := postCov_le hP hR.posSemidef hS
  refine ⟨_, _, _, (C51_update kf s p uk zk Qk Rk xk Pk hI h hx hPk).1 hS, (s.update p).P, ⟨_, rfl⟩,
    postCov_posSemidef hP hR.posSemidef hS, hle, ?_, ?_⟩
  · intro v
    have := hle.dotProduct_mulVec_nonneg v
    rw [star_trivial, Matrix.sub_mulVec, dotProduct_sub] at this
    linarith
  · have := hle.trace_nonneg
    rw [Matrix.trace_sub] at this
    linarith

/-- C50 (smooth): PD initial covariance, process and measurement noise: whatever the callbacks compute,
`filter` and `smooth` return, and at every time the smoothed covariance is positive definite and below the
filtered one. -/
theorem C50_smooth_le (kf : ExtendedKalmanFilter Fl) (Z : NDArray Fl) (U : Option (NDArray Fl))
    (b : Belief n) (ss : List (ExtStep n m)) (h : ExtRepresents kf Z U b ss)
    (hfull : ss.length = Z.rows.length) (hne : ss ≠ []) (hP : b.P.PosDef)
    (hQ : ∀ s ∈ ss, s.Q.PosDef) (hR : ∀ s ∈ ss, s.R.PosDef) :
    ∃ xe Pe xs Ps kf', (ExtendedKalmanFilter.filter Z U).run kf = (.ok (xe, Pe), kf') ∧
      (ExtendedKalmanFilter.smooth Z U).run kf = (.ok (xs, Ps), kf') ∧
      ∀ k < Z.rows.length, ∃ (a a' : Arr Fl) (F S : Matrix (Fin n) (Fin n) ℝ),
        Pe[k]? = some a ∧ Ps[k]? = some a' ∧ MatIs F a ∧ MatIs S a' ∧
        S.PosDef ∧ (F - S).PosSemidef := by
  have hpd : ∀ s ∈ linRun b ss, PdStep s := fun s hs =>
    ⟨(linRun_forall b ss (fun Q _ => Q.PosDef) hQ s hs).posSemidef,
      linRun_forall b ss (fun _ R => R.PosDef) hR s hs,
      .inr (linRun_forall b ss (fun Q _ => Q.PosDef) hQ s hs)⟩
  have hs : ExtSolvable b ss := extSolvable_psd hP.posSemidef (fun s hs => (hQ s hs).posSemidef) hR
  have hsm : ExtSmoothSolvable b ss := by
    rw [extSmoothSolvable_iff]; exact smoothSolvable_pd _ _ hP hpd
  have hf := C51_filter_textbook kf Z U b ss h hs
  rw [hfull, Nat.sub_self, List.replicate_zero, List.append_nil, List.replicate_zero, List.append_nil] at hf
  refine ⟨_, _, _, _, _, hf, (C51_smooth_textbook kf Z U b ss h hfull hne).1 hs hsm, ?_⟩
  intro k hk
  cases ss with
  | nil => exact absurd rfl hne
  | cons s ts =>
    rw [linRun] at hpd
    have hn := (hpd (s.lin b) (by simp)).next hP
    rw [s.lin_next] at hn
    have hall := rts_le (s.next b) (linRun (s.next b) ts) hn fun s' hs' => hpd s' (by simp [hs'])
    obtain ⟨hlen, hall⟩ := List.forall₂_iff_get.1 hall
    have hk1 : k < (s.next b :: filtered (s.next b) (linRun (s.next b) ts)).length := by
      rw [List.length_cons, filtered_length, linRun_length]
      simp only [List.length_cons] at hfull
      omega
    have hk2 : k < (rts (s.next b) (linRun (s.next b) ts)).length := by omega
    obtain ⟨h1, h2⟩ := hall k hk1 hk2
    refine ⟨covRow ((s.next b :: filtered (s.next b) (linRun (s.next b) ts))[k]),
      covRow ((rts (s.next b) (linRun (s.next b) ts))[k]), _, _, ?_, ?_, ⟨_, rfl⟩, ⟨_, rfl⟩, h1, h2⟩
    · rw [List.getElem?_map, extFiltered, extFiltered_eq, List.getElem?_eq_getElem hk1]; rfl
    · rw [List.getElem?_map, extSmoothed, extRts_eq, List.getElem?_eq_getElem hk2]; rfl

/-! ### Hypotheses are met -/

/-- A nonlinear model with two states and one observation: `f(x, y) = (x y, x - y²)`, `h(x, y) = x² + y`. -/
noncomputable def Ex.curved (z : ℝ) : ExtStep 2 1 where
  f v := ![v 0 * v 1, v 0 - v 1 ^ 2]
  jA v := !![v 1, v 0; 1, -2 * v 1]
  h v := ![v 0 ^ 2 + v 1]
  jH v := !![2 * v 0, 1]
  Q := 1
  R := 1
  z := ![z]

/-- C50, C51: any observations of that model; `filter` and `smooth` return (C50). -/
theorem Ex.curved_meets (zs : List ℝ) (hne : zs ≠ []) : let ss := zs.map Ex.curved
    let b : Belief 2 := ⟨![1, 2], 1⟩
    let kf := Ex.extEncode (Ex.curved 0).f (Ex.curved 0).jA (Ex.curved 0).h (Ex.curved 0).jH b ss
    ExtRepresents kf (Ex.extEncZ ss) (some (Ex.extEncZ ss)) b ss ∧ ss.length = (Ex.extEncZ ss).rows.length ∧ ss ≠ [] ∧
    b.P.PosDef ∧ (∀ s ∈ ss, s.Q.PosDef) ∧ (∀ s ∈ ss, s.R.PosDef) ∧ ExtSolvable b ss ∧ ExtSmoothSolvable b ss := by
  intro ss b kf
  have hss : ∀ s ∈ ss, ∃ z, s = Ex.curved z := by
    intro s hs
    obtain ⟨z, -, rfl⟩ := List.mem_map.1 hs
    exact ⟨z, rfl⟩
  have hQ : ∀ s ∈ ss, s.Q.PosDef := fun s hs => by obtain ⟨z, rfl⟩ := hss s hs; exact Matrix.PosDef.one
  have hR : ∀ s ∈ ss, s.R.PosDef := fun s hs => by obtain ⟨z, rfl⟩ := hss s hs; exact Matrix.PosDef.one
  refine ⟨Ex.extEncode_represents _ _ _ _ b ss fun s hs => ?_, (Ex.extEncZ_length _).symm, by simpa [ss] using hne,
    Matrix.PosDef.one, hQ, hR, extSolvable_psd Matrix.PosDef.one.posSemidef (fun s hs => (hQ s hs).posSemidef) hR, ?_⟩
  · obtain ⟨z, rfl⟩ := hss s hs
    exact ⟨rfl, rfl, rfl, rfl⟩
  · rw [extSmoothSolvable_iff]
    exact smoothSolvable_pd _ _ Matrix.PosDef.one fun s hs =>
      ⟨(linRun_forall b ss (fun Q _ => Q.PosDef) hQ s hs).posSemidef,
        linRun_forall b ss (fun _ R => R.PosDef) hR s hs,
        .inr (linRun_forall b ss (fun Q _ => Q.PosDef) hQ s hs)⟩

end KK
