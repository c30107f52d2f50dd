import Verif.Props.Equivariance

/-!
# C164: every step in its own state coordinates, with its own origin
-/

set_option linter.unusedSectionVars false

namespace KK

open Matrix

variable {n m : ℕ}

/-- The belief about `M x + t` when `b` is the belief about `x`. -/
def Belief.affine (M : Matrix (Fin n) (Fin n) ℝ) (t : Fin n → ℝ) (b : Belief n) : Belief n :=
  ⟨M *ᵥ b.x + t, M * b.P * Mᵀ⟩

/-- The step when the state before it is described by `M x + t` and the state after it by `M' x + t'`. -/
noncomputable def LinStep.affine (M : Matrix (Fin n) (Fin n) ℝ) (t : Fin n → ℝ) (M' : Matrix (Fin n) (Fin n) ℝ)
    (t' : Fin n → ℝ) (s : LinStep n m) : LinStep n m where
  A := M' * s.A * M⁻¹
  c := M' *ᵥ s.c + t' - (M' * s.A * M⁻¹) *ᵥ t
  H := s.H * M'⁻¹
  Q := M' * s.Q * M'ᵀ
  R := s.R
  z := s.z + (s.H * M'⁻¹) *ᵥ t'

/-- The whole model, with the coordinates `M 0, t 0` for the initial state and `M (k + 1), t (k + 1)` for the
state after step `k`. -/
noncomputable def affineSteps (M : ℕ → Matrix (Fin n) (Fin n) ℝ) (t : ℕ → Fin n → ℝ) (ss : List (LinStep n m)) :
    List (LinStep n m) :=
  ss.mapIdx fun k s => s.affine (M k) (t k) (M (k + 1)) (t (k + 1))

section step
variable {M M' : Matrix (Fin n) (Fin n) ℝ} (t t' : Fin n → ℝ) (hM : M.det ≠ 0) (hM' : M'.det ≠ 0)
include hM

theorem affine_predict (s : LinStep n m) (b : Belief n) :
    (s.affine M t M' t').predict (b.affine M t) = (s.predict b).affine M' t' := by
  have hNM : M⁻¹ * M = 1 := Matrix.nonsing_inv_mul _ (isUnit_iff_ne_zero.2 hM)
  ext1
  · simp only [LinStep.predict, Belief.affine, LinStep.affine, Matrix.mulVec_add, Matrix.mulVec_mulVec,
      Matrix.mul_assoc, hNM, Matrix.mul_one]
    abel
  · simp only [LinStep.predict, Belief.affine, LinStep.affine, priorCov, Matrix.transpose_mul, Matrix.mul_add,
      Matrix.add_mul, Matrix.mul_assoc, coord_cancel hNM, coord_cancelT hNM]

include hM'
omit hM

theorem affine_innov (s : LinStep n m) (p : Belief n) :
    (s.affine M t M' t').innov (p.affine M' t') = s.innov p :=
  coord_innov (Matrix.nonsing_inv_mul _ (isUnit_iff_ne_zero.2 hM')) _ _ _

theorem affine_gain (s : LinStep n m) (p : Belief n) :
    (s.affine M t M' t').gain (p.affine M' t') = M' * s.gain p :=
  coord_gain (Matrix.nonsing_inv_mul _ (isUnit_iff_ne_zero.2 hM')) _ _ _

theorem affine_update (s : LinStep n m) (p : Belief n) :
    (s.affine M t M' t').update (p.affine M' t') = (s.update p).affine M' t' := by
  have hNM : M'⁻¹ * M' = 1 := Matrix.nonsing_inv_mul _ (isUnit_iff_ne_zero.2 hM')
  ext1
  · simp only [LinStep.update, affine_gain t t' hM']
    simp only [Belief.affine, LinStep.affine, Matrix.mulVec_add, Matrix.mulVec_mulVec, Matrix.mul_assoc, hNM,
      Matrix.mul_one, add_sub_add_right_eq_sub]
    abel
  · have := coord_gain (M := M') hNM s.H p.P s.R
    simp only [LinStep.update, Belief.affine, LinStep.affine, postCov, this]
    simp only [Matrix.sub_mul, Matrix.mul_sub, Matrix.one_mul, Matrix.mul_assoc, coord_cancel hNM]

theorem affine_det (p : Belief n) : (p.affine M' t').P.det ≠ 0 ↔ p.P.det ≠ 0 := by
  simp [Belief.affine, Matrix.det_mul, hM']

include hM

theorem affine_next (s : LinStep n m) (b : Belief n) :
    (s.affine M t M' t').next (b.affine M t) = (s.next b).affine M' t' := by
  rw [LinStep.next, affine_predict t t' hM, affine_update t t' hM']; rfl

theorem affine_rts (s : LinStep n m) (b q : Belief n) :
    rtsStep (b.affine M t) (s.affine M t M' t') (q.affine M' t') = (rtsStep b s q).affine M t := by
  have hu' := isUnit_iff_ne_zero.2 hM'
  have hNM : M⁻¹ * M = 1 := Matrix.nonsing_inv_mul _ (isUnit_iff_ne_zero.2 hM)
  have hNM' : M'⁻¹ * M' = 1 := Matrix.nonsing_inv_mul _ hu'
  have hMti : M'ᵀ⁻¹ = M'⁻¹ᵀ := (Matrix.transpose_nonsing_inv _).symm
  have hG : (b.affine M t).P * (s.affine M t M' t').Aᵀ * ((s.predict b).affine M' t').P⁻¹ =
      M * (b.P * s.Aᵀ * (s.predict b).P⁻¹) * M'⁻¹ := by
    simp only [Belief.affine, LinStep.affine, Matrix.transpose_mul, Matrix.mul_inv_rev, hMti, Matrix.mul_assoc,
      coord_cancelT hNM, coord_cancelT hNM']
  simp only [rtsStep, affine_predict t t' hM, hG]
  generalize b.P * s.Aᵀ * (s.predict b).P⁻¹ = G
  ext1
  · simp only [Belief.affine, add_sub_add_right_eq_sub, ← Matrix.mulVec_sub, Matrix.mulVec_add, Matrix.mulVec_mulVec,
      Matrix.mul_assoc, hNM', Matrix.mul_one]
    abel
  · simp only [Belief.affine, ← Matrix.mul_sub, ← Matrix.sub_mul, Matrix.transpose_mul, Matrix.mul_assoc,
      coord_cancel hNM', coord_cancelT hNM', Matrix.mul_add, Matrix.add_mul]

end step

section runs

theorem affine_runs (ss : List (LinStep n m)) (M : ℕ → Matrix (Fin n) (Fin n) ℝ) (t : ℕ → Fin n → ℝ)
    (hM : ∀ k, k ≤ ss.length → (M k).det ≠ 0) (b : Belief n) :
    (Solvable (b.affine (M 0) (t 0)) (affineSteps M t ss) ↔ Solvable b ss) ∧
      filtered (b.affine (M 0) (t 0)) (affineSteps M t ss) =
        (filtered b ss).mapIdx (fun k q => q.affine (M (k + 1)) (t (k + 1))) ∧
      gainsOf (b.affine (M 0) (t 0)) (affineSteps M t ss) = (gainsOf b ss).mapIdx (fun k K => M (k + 1) * K) ∧
      (RtsSolvable (b.affine (M 0) (t 0)) (affineSteps M t ss) ↔ RtsSolvable b ss) ∧
      rts (b.affine (M 0) (t 0)) (affineSteps M t ss) = (rts b ss).mapIdx (fun k q => q.affine (M k) (t k)) := by
  induction ss generalizing b M t with
  | nil => exact ⟨Iff.rfl, rfl, rfl, Iff.rfl, rfl⟩
  | cons s ss ih =>
    have h0 := hM 0 (by simp)
    have h1 := hM 1 (by simp)
    obtain ⟨k1, k2, k3, k4, k5⟩ := ih (fun k => M (k + 1)) (fun k => t (k + 1))
      (fun k hk => hM (k + 1) (by simpa using hk)) (s.next b)
    have e : affineSteps M t (s :: ss) = s.affine (M 0) (t 0) (M 1) (t 1) ::
        affineSteps (fun k => M (k + 1)) (fun k => t (k + 1)) ss := by
      simp only [affineSteps, List.mapIdx_cons]
    simp only [Nat.zero_add] at k1 k2 k3 k4 k5
    rw [e]
    refine ⟨?_, ?_, ?_, ?_, ?_⟩
    · rw [Solvable, Solvable, affine_next _ _ h0 h1, affine_predict _ _ h0, affine_innov _ _ h1, k1]
    · rw [filtered, filtered, affine_next _ _ h0 h1, k2, List.mapIdx_cons]
    · rw [gainsOf, gainsOf, affine_next _ _ h0 h1, affine_predict _ _ h0, affine_gain _ _ h1, k3, List.mapIdx_cons]
    · rw [RtsSolvable, RtsSolvable, affine_next _ _ h0 h1, affine_predict _ _ h0, affine_det _ h1, k4]
    · rw [rts, rts, affine_next _ _ h0 h1, k5]
      rcases rts (s.next b) ss with _ | ⟨q, qs⟩
      · rfl
      · simp only [List.mapIdx_cons, Nat.zero_add, affine_rts _ _ h0 h1]

theorem affine_smoothed (ss : List (LinStep n m)) (M : ℕ → Matrix (Fin n) (Fin n) ℝ) (t : ℕ → Fin n → ℝ)
    (hM : ∀ k, k ≤ ss.length → (M k).det ≠ 0) (b : Belief n) :
    (SmoothSolvable (b.affine (M 0) (t 0)) (affineSteps M t ss) ↔ SmoothSolvable b ss) ∧
      smoothed (b.affine (M 0) (t 0)) (affineSteps M t ss) =
        (smoothed b ss).mapIdx (fun k q => q.affine (M (k + 1)) (t (k + 1))) := by
  cases ss with
  | nil => exact ⟨Iff.rfl, rfl⟩
  | cons s ss =>
    have h0 := hM 0 (by simp)
    have h1 := hM 1 (by simp)
    obtain ⟨-, -, -, k4, k5⟩ := affine_runs ss (fun k => M (k + 1)) (fun k => t (k + 1))
      (fun k hk => hM (k + 1) (by simpa using hk)) (s.next b)
    have e : affineSteps M t (s :: ss) = s.affine (M 0) (t 0) (M 1) (t 1) ::
        affineSteps (fun k => M (k + 1)) (fun k => t (k + 1)) ss := by
      simp only [affineSteps, List.mapIdx_cons]
    simp only [Nat.zero_add] at k4 k5
    rw [e, SmoothSolvable, SmoothSolvable, smoothed, smoothed, affine_next _ _ h0 h1]
    exact ⟨k4, k5⟩

end runs

section
variable [Platform]

/-- C164: describe the initial state by `M 0 x + t 0` and the state after step `k` by `M (k + 1) x + t (k + 1)`,
every `M k` invertible. The model of the described states has the transition `M (k + 1) A (M k)⁻¹`, the control
contribution that makes the two descriptions agree, the observation matrix `H (M (k + 1))⁻¹`, the process noise
`M (k + 1) Q M (k + 1)'`, the same measurement noise, and measurements shifted by what the offset contributes to
them. `filter` and `smooth` raise LinAlgError exactly when they did before; otherwise row `k` of the means, covariances
and gains is the old one expressed in the coordinates of the state after step `k`. -/
theorem C164_moving_frame (M : ℕ → Matrix (Fin n) (Fin n) ℝ) (t : ℕ → Fin n → ℝ) (hM : ∀ k, (M k).det ≠ 0)
    (kf kf' : KalmanFilter Fl) (Z Z' : NDArray Fl) (U U' : Option (NDArray Fl)) (b : Belief n)
    (ss : List (LinStep n m)) (h : Represents kf Z U b ss)
    (h' : Represents kf' Z' U' ⟨M 0 *ᵥ b.x + t 0, M 0 * b.P * (M 0)ᵀ⟩
      (ss.mapIdx fun k s =>
        ⟨M (k + 1) * s.A * (M k)⁻¹, M (k + 1) *ᵥ s.c + t (k + 1) - (M (k + 1) * s.A * (M k)⁻¹) *ᵥ t k,
          s.H * (M (k + 1))⁻¹, M (k + 1) * s.Q * (M (k + 1))ᵀ, s.R, s.z + (s.H * (M (k + 1))⁻¹) *ᵥ t (k + 1)⟩)) :
    ((FilterSingular kf Z U ∧ FilterSingular kf' Z' U') ∨
      ∃ (bs : List (Belief n)) (Ks : List (Matrix (Fin n) (Fin m) ℝ)), bs.length = ss.length ∧ Ks.length = ss.length ∧
        FilterReturns kf Z U bs Ks ∧
        FilterReturns kf' Z' U'
          (bs.mapIdx fun k q => ⟨M (k + 1) *ᵥ q.x + t (k + 1), M (k + 1) * q.P * (M (k + 1))ᵀ⟩)
          (Ks.mapIdx fun k K => M (k + 1) * K)) ∧
    (ss ≠ [] → ss.length = Z.rows.length → ss.length = Z'.rows.length →
      (SmoothSingular kf Z U ∧ SmoothSingular kf' Z' U') ∨
      ∃ (bs : List (Belief n)) (Ks : List (Matrix (Fin n) (Fin m) ℝ)), bs.length = ss.length ∧ Ks.length = ss.length ∧
        SmoothReturns kf Z U bs Ks ∧
        SmoothReturns kf' Z' U'
          (bs.mapIdx fun k q => ⟨M (k + 1) *ᵥ q.x + t (k + 1), M (k + 1) * q.P * (M (k + 1))ᵀ⟩)
          (Ks.mapIdx fun k K => M (k + 1) * K)) := by
  obtain ⟨k1, k2, k3, -, -⟩ := affine_runs ss M t (fun k _ => hM k) b
  obtain ⟨k4, k5⟩ := affine_smoothed ss M t (fun k _ => hM k) b
  have h' : Represents kf' Z' U' (b.affine (M 0) (t 0)) (affineSteps M t ss) := h'
  have hl : (affineSteps M t ss).length = ss.length := by simp [affineSteps]
  constructor
  · by_cases hs : Solvable b ss
    · refine .inr ⟨filtered b ss, gainsOf b ss, filtered_length _ _, gainsOf_length _ _, h.returns hs, ?_⟩
      have := h'.returns (k1.2 hs)
      rw [k2, k3] at this
      exact this
    · exact .inl ⟨h.singular hs, h'.singular fun hs' => hs (k1.1 hs')⟩
  · intro h1 h2 h3
    have hne : affineSteps M t ss ≠ [] := by
      intro e
      rw [e] at hl
      exact h1 (List.length_eq_zero_iff.1 hl.symm)
    by_cases hs : Solvable b ss ∧ SmoothSolvable b ss
    · refine .inr ⟨smoothed b ss, gainsOf b ss, smoothed_length _ _, gainsOf_length _ _, h.smoothReturns h2 h1 hs.1 hs.2, ?_⟩
      have := h'.smoothReturns (hl.trans h3) hne (k1.2 hs.1) (k4.2 hs.2)
      rw [k5, k3] at this
      exact this
    · exact .inl ⟨h.smoothSingular h2 h1 hs, h'.smoothSingular (hl.trans h3) hne fun hs' => hs ⟨k1.1 hs'.1, k4.1 hs'.2⟩⟩

-- C164: a position written in metres at first and, from the first step on, in units that shrink, counted from an
-- origin that moves with every step.
example (uz : List (ℝ × ℝ)) :
    let M : ℕ → Matrix (Fin 2) (Fin 2) ℝ := fun k => !![(k : ℝ) + 1, 0; 0, 1]
    let t : ℕ → Fin 2 → ℝ := fun k => ![-(k : ℝ), 0]
    (∀ k, (M k).det ≠ 0) ∧
    (∃ kf Z U, Represents kf Z U Ex.cvBelief (Ex.cvSteps uz)) ∧
    ∃ kf Z U, Represents kf Z U (Ex.cvBelief.affine (M 0) (t 0)) (affineSteps M t (Ex.cvSteps uz)) := by
  refine ⟨fun k => ?_, ⟨_, _, _, Ex.encode_represents _ _⟩, ⟨_, _, _, Ex.encode_represents _ _⟩⟩
  have : (k : ℝ) + 1 ≠ 0 := by positivity
  simpa [Matrix.det_fin_two] using this

/-- C164: instead of the states, filter their deviations from any reference trajectory `x̄` (a planned path; it need
not satisfy the model): start with the deviation of the initial mean, replace the control contribution `c` of step `k` by
`c + A x̄ k - x̄ (k + 1)` and the measurement `z` by `z - H x̄ (k + 1)`, and keep all matrices. `filter` and
`smooth` raise LinAlgError exactly when they did before; otherwise covariances and gains are unchanged and the
means are the deviations of the old means from the reference. -/
theorem C164_deviations (ref : ℕ → Fin n → ℝ) (kf kf' : KalmanFilter Fl) (Z Z' : NDArray Fl)
    (U U' : Option (NDArray Fl)) (b : Belief n) (ss : List (LinStep n m)) (h : Represents kf Z U b ss)
    (h' : Represents kf' Z' U' ⟨b.x - ref 0, b.P⟩
      (ss.mapIdx fun k s => ⟨s.A, s.c + s.A *ᵥ ref k - ref (k + 1), s.H, s.Q, s.R, s.z - s.H *ᵥ ref (k + 1)⟩)) :
    ((FilterSingular kf Z U ∧ FilterSingular kf' Z' U') ∨
      ∃ (bs : List (Belief n)) (Ks : List (Matrix (Fin n) (Fin m) ℝ)), bs.length = ss.length ∧ Ks.length = ss.length ∧
        FilterReturns kf Z U bs Ks ∧
        FilterReturns kf' Z' U' (bs.mapIdx fun k q => ⟨q.x - ref (k + 1), q.P⟩) Ks) ∧
    (ss ≠ [] → ss.length = Z.rows.length → ss.length = Z'.rows.length →
      (SmoothSingular kf Z U ∧ SmoothSingular kf' Z' U') ∨
      ∃ (bs : List (Belief n)) (Ks : List (Matrix (Fin n) (Fin m) ℝ)), bs.length = ss.length ∧ Ks.length = ss.length ∧
        SmoothReturns kf Z U bs Ks ∧
        SmoothReturns kf' Z' U' (bs.mapIdx fun k q => ⟨q.x - ref (k + 1), q.P⟩) Ks) := by
  have e1 : ∀ (A : Matrix (Fin n) (Fin n) ℝ) (c v w : Fin n → ℝ), c - v - -(A *ᵥ w) = c + A *ᵥ w - v := by
    intro A c v w
    abel
  have e2 : ∀ (Ks : List (Matrix (Fin n) (Fin m) ℝ)), (Ks.mapIdx fun _ K => K) = Ks := by
    intro Ks
    simp [List.mapIdx_eq_iff]
  have := C164_moving_frame (fun _ => (1 : Matrix (Fin n) (Fin n) ℝ)) (fun k => - ref k) (fun _ => by simp) kf kf'
    Z Z' U U' b ss h
    (by simpa only [Matrix.one_mulVec, Matrix.one_mul, Matrix.transpose_one, Matrix.mul_one, inv_one,
      Matrix.mulVec_neg, ← sub_eq_add_neg, e1] using h')
  simpa only [Matrix.one_mulVec, Matrix.one_mul, Matrix.transpose_one, Matrix.mul_one, e2,
    ← sub_eq_add_neg] using this

-- C164: the constant-velocity model around a parabola.
example (uz : List (ℝ × ℝ)) :
    let ref : ℕ → Fin 2 → ℝ := fun k => ![(k : ℝ) ^ 2, 2 * k]
    (∃ kf Z U, Represents kf Z U Ex.cvBelief (Ex.cvSteps uz)) ∧
    ∃ kf Z U, Represents kf Z U (⟨Ex.cvBelief.x - ref 0, Ex.cvBelief.P⟩ : Belief 2)
      ((Ex.cvSteps uz).mapIdx fun k s =>
        ⟨s.A, s.c + s.A *ᵥ ref k - ref (k + 1), s.H, s.Q, s.R, s.z - s.H *ᵥ ref (k + 1)⟩) :=
  ⟨⟨_, _, _, Ex.encode_represents _ _⟩, ⟨_, _, _, Ex.encode_represents _ _⟩⟩

end

end KK
