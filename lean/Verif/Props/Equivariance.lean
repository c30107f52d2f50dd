import Verif.Proofs.Transfer

/-!
# C32, C33, C35: how the results change when the problem is rescaled, or its state or measurement space is
expressed in other coordinates
-/

set_option linter.unusedSectionVars false

namespace KK

open Matrix

variable {n m : ℕ}

/-! ## C32: only ratios of noise covariances matter -/

/-- The same mean, the covariance multiplied by `c`. -/
def Belief.scale (c : ℝ) (b : Belief n) : Belief n := ⟨b.x, c • b.P⟩

/-- The same step with both noise covariances multiplied by `c`. -/
def LinStep.scale (c : ℝ) (s : LinStep n m) : LinStep n m := { s with Q := c • s.Q, R := c • s.R }

theorem priorCov_smul {ι : Type} [Fintype ι] [DecidableEq ι] (c : ℝ) (A P Q : Matrix ι ι ℝ) :
    priorCov A (c • P) (c • Q) = c • priorCov A P Q := by
  simp [priorCov, smul_add]

theorem innovCov_smul {ι κ : Type} [Fintype ι] [DecidableEq ι] [Fintype κ] [DecidableEq κ] (c : ℝ)
    (H : Matrix κ ι ℝ) (P : Matrix ι ι ℝ) (R : Matrix κ κ ℝ) :
    innovCov H (c • P) (c • R) = c • innovCov H P R := by
  simp [innovCov, smul_add]

theorem inv_smul_of_ne {ι : Type} [Fintype ι] [DecidableEq ι] {c : ℝ} (hc : c ≠ 0) (M : Matrix ι ι ℝ)
    (hM : M.det ≠ 0) : (c • M)⁻¹ = c⁻¹ • M⁻¹ := by
  refine Matrix.inv_eq_right_inv ?_
  rw [Matrix.smul_mul, Matrix.mul_smul, smul_smul, mul_inv_cancel₀ hc, one_smul,
    Matrix.mul_nonsing_inv _ (isUnit_iff_ne_zero.2 hM)]

theorem kGain_smul {ι κ : Type} [Fintype ι] [DecidableEq ι] [Fintype κ] [DecidableEq κ] {c : ℝ} (hc : c ≠ 0)
    (H : Matrix κ ι ℝ) (P : Matrix ι ι ℝ) (R : Matrix κ κ ℝ) (hS : (innovCov H P R).det ≠ 0) :
    kGain H (c • P) (c • R) = kGain H P R := by
  rw [kGain, innovCov_smul, inv_smul_of_ne hc _ hS, Matrix.smul_mul, Matrix.mul_smul, Matrix.smul_mul,
    smul_smul, inv_mul_cancel₀ hc, one_smul, kGain]

theorem stepMap_scale {c : ℝ} (hc : c ≠ 0) :
    StepMap (Belief.scale c) (LinStep.scale c) id (fun _ : LinStep n m => True) where
  predict s b _ := by
    simp only [LinStep.predict, Belief.scale, LinStep.scale, priorCov_smul]
  innov s p _ := by
    simp only [LinStep.innov, Belief.scale, LinStep.scale, innovCov_smul, Matrix.det_smul, ne_eq,
      mul_eq_zero, pow_eq_zero_iff', hc, false_and, false_or]
  gain s p _ hS := kGain_smul hc _ _ _ hS
  update s p _ hS := by
    simp only [LinStep.innov] at hS
    simp only [LinStep.update, LinStep.gain, Belief.scale, LinStep.scale, postCov, kGain_smul hc _ _ _ hS,
      Matrix.mul_smul]
  pdet p := by
    simp only [Belief.scale, Matrix.det_smul, ne_eq, mul_eq_zero, pow_eq_zero_iff', hc, false_and, false_or]
  rts s b q _ hd := by
    simp only [LinStep.predict] at hd
    simp only [rtsStep, LinStep.predict, Belief.scale, LinStep.scale, priorCov_smul]
    rw [inv_smul_of_ne hc _ hd, Matrix.smul_mul, Matrix.mul_smul, Matrix.smul_mul, smul_smul,
      inv_mul_cancel₀ hc, one_smul, ← smul_sub, Matrix.mul_smul, Matrix.smul_mul, ← smul_add]

section
variable [Platform]

/-- C32: multiply the initial covariance and all process and measurement noise covariances by `c ≠ 0`:
`filter` and `smooth` raise LinAlgError exactly when they did before; otherwise all means and gains are the
same and all covariances are multiplied by `c`. -/
theorem C32_noise_ratio (c : ℝ) (hc : c ≠ 0) (kf kf' : KalmanFilter Fl) (Z Z' : NDArray Fl)
    (U U' : Option (NDArray Fl)) (b : Belief n) (ss : List (LinStep n m)) (h : Represents kf Z U b ss)
    (h' : Represents kf' Z' U' ⟨b.x, c • b.P⟩ (ss.map fun s => { s with Q := c • s.Q, R := c • s.R })) :
    ((FilterSingular kf Z U ∧ FilterSingular kf' Z' U') ∨
      ∃ (bs : List (Belief n)) (Ks : List (Matrix (Fin n) (Fin m) ℝ)), bs.length = ss.length ∧
        FilterReturns kf Z U bs Ks ∧
        FilterReturns kf' Z' U' (bs.map fun q => ⟨q.x, c • q.P⟩) Ks) ∧
    (ss ≠ [] → ss.length = Z.rows.length → ss.length = Z'.rows.length →
      (SmoothSingular kf Z U ∧ SmoothSingular kf' Z' U') ∨
      ∃ (bs : List (Belief n)) (Ks : List (Matrix (Fin n) (Fin m) ℝ)), bs.length = ss.length ∧
        SmoothReturns kf Z U bs Ks ∧
        SmoothReturns kf' Z' U' (bs.map fun q => ⟨q.x, c • q.P⟩) Ks) := by
  have key := stepMap_scale (n := n) (m := m) hc
  constructor
  · have := key.runs (fun _ _ => trivial) h h'
    simp only [List.map_id] at this
    exact this
  · intro h1 h2 h3
    have := key.smoothRuns (fun _ _ => trivial) h h' h1 h2 h3
    simp only [List.map_id] at this
    exact this

-- C32: both models are represented, for every model and every factor.
example (c : ℝ) (b : Belief n) (ss : List (LinStep n m)) :
    (∃ kf Z U, Represents kf Z U b ss) ∧ ∃ kf' Z' U', Represents kf' Z' U' (b.scale c) (ss.map (LinStep.scale c)) :=
  ⟨⟨_, _, _, Ex.encode_represents _ _⟩, ⟨_, _, _, Ex.encode_represents _ _⟩⟩

end

/-! ## C33: change of state coordinates -/

/-- The belief about `M x` when `b` is the belief about `x`. -/
def Belief.coord (M : Matrix (Fin n) (Fin n) ℝ) (b : Belief n) : Belief n := ⟨M *ᵥ b.x, M * b.P * Mᵀ⟩

/-- The model for the state `M x`, with `N` the inverse of `M`. -/
def LinStep.coord (M N : Matrix (Fin n) (Fin n) ℝ) (s : LinStep n m) : LinStep n m where
  A := M * s.A * N
  c := M *ᵥ s.c
  H := s.H * N
  Q := M * s.Q * Mᵀ
  R := s.R
  z := s.z

section coord
variable {M N : Matrix (Fin n) (Fin n) ℝ} (hNM : N * M = 1)
include hNM

private theorem coord_T : Mᵀ * Nᵀ = 1 := by rw [← Matrix.transpose_mul, hNM, Matrix.transpose_one]

theorem coord_cancel {k : ℕ} (X : Matrix (Fin n) (Fin k) ℝ) : N * (M * X) = X := by
  rw [← Matrix.mul_assoc, hNM, Matrix.one_mul]

theorem coord_cancelT {k : ℕ} (X : Matrix (Fin n) (Fin k) ℝ) : Mᵀ * (Nᵀ * X) = X := by
  rw [← Matrix.mul_assoc, coord_T hNM, Matrix.one_mul]

theorem coord_prior (A P Q : Matrix (Fin n) (Fin n) ℝ) :
    priorCov (M * A * N) (M * P * Mᵀ) (M * Q * Mᵀ) = M * priorCov A P Q * Mᵀ := by
  simp only [priorCov, Matrix.transpose_mul, Matrix.mul_add, Matrix.add_mul, Matrix.mul_assoc,
    coord_cancel hNM, coord_cancelT hNM]

theorem coord_innov (H : Matrix (Fin m) (Fin n) ℝ) (P : Matrix (Fin n) (Fin n) ℝ) (R : Matrix (Fin m) (Fin m) ℝ) :
    innovCov (H * N) (M * P * Mᵀ) R = innovCov H P R := by
  simp only [innovCov, Matrix.transpose_mul, Matrix.mul_assoc, coord_cancel hNM, coord_cancelT hNM]

theorem coord_gain (H : Matrix (Fin m) (Fin n) ℝ) (P : Matrix (Fin n) (Fin n) ℝ) (R : Matrix (Fin m) (Fin m) ℝ) :
    kGain (H * N) (M * P * Mᵀ) R = M * kGain H P R := by
  simp only [kGain, coord_innov hNM]
  simp only [Matrix.transpose_mul, Matrix.mul_assoc, coord_cancelT hNM]

theorem stepMap_coord (hMN : M * N = 1) :
    StepMap (Belief.coord M) (LinStep.coord M N) (fun K => M * K) (fun _ : LinStep n m => True) where
  predict s b _ := by
    ext1
    · simp only [LinStep.predict, Belief.coord, LinStep.coord, Matrix.mulVec_add, Matrix.mulVec_mulVec,
        Matrix.mul_assoc, hNM, Matrix.mul_one]
    · exact coord_prior hNM _ _ _
  innov s p _ := by simp only [LinStep.innov, Belief.coord, LinStep.coord, coord_innov hNM]
  gain s p _ _ := coord_gain hNM _ _ _
  update s p _ _ := by
    ext1
    · simp only [LinStep.update, LinStep.gain, Belief.coord, LinStep.coord, coord_gain hNM]
      simp only [Matrix.mulVec_add, Matrix.mulVec_mulVec, Matrix.mul_assoc, hNM, Matrix.mul_one]
    · simp only [LinStep.update, Belief.coord, LinStep.coord, postCov, coord_gain hNM]
      simp only [Matrix.sub_mul, Matrix.mul_sub, Matrix.one_mul, Matrix.mul_assoc, coord_cancel hNM]
  pdet p := by
    have hM : M.det ≠ 0 := by
      have := congrArg det hMN
      rw [Matrix.det_mul, Matrix.det_one] at this
      exact left_ne_zero_of_mul_eq_one this
    simp [Belief.coord, Matrix.det_mul, hM]
  rts s b q _ _ := by
    have hp : (LinStep.coord M N s).predict (Belief.coord M b) = Belief.coord M (s.predict b) := by
      ext1
      · simp only [LinStep.predict, Belief.coord, LinStep.coord, Matrix.mulVec_add, Matrix.mulVec_mulVec,
          Matrix.mul_assoc, hNM, Matrix.mul_one]
      · exact coord_prior hNM _ _ _
    have hMi : M⁻¹ = N := Matrix.inv_eq_right_inv hMN
    have hMti : Mᵀ⁻¹ = Nᵀ := Matrix.inv_eq_right_inv (coord_T hNM)
    have hNMt : Nᵀ * Mᵀ = 1 := by rw [← Matrix.transpose_mul, hMN, Matrix.transpose_one]
    have hG : (Belief.coord M b).P * (LinStep.coord M N s).Aᵀ * (Belief.coord M (s.predict b)).P⁻¹ =
        M * (b.P * s.Aᵀ * (s.predict b).P⁻¹) * N := by
      simp only [Belief.coord, LinStep.coord, Matrix.transpose_mul, Matrix.mul_inv_rev, hMi, hMti,
        Matrix.mul_assoc, coord_cancelT hNM]
    simp only [rtsStep, hp, hG]
    generalize b.P * s.Aᵀ * (s.predict b).P⁻¹ = G
    ext1
    · simp only [Belief.coord, ← Matrix.mulVec_sub, Matrix.mulVec_add, Matrix.mulVec_mulVec, Matrix.mul_assoc,
        hNM, Matrix.mul_one]
    · simp only [Belief.coord, ← Matrix.mul_sub, ← Matrix.sub_mul, Matrix.transpose_mul, Matrix.mul_assoc,
        coord_cancel hNM, coord_cancelT hNM, Matrix.mul_add, Matrix.add_mul]

end coord

section
variable [Platform]

/-- C33: describe the same system by the state `M x`, `M` invertible (`A` becomes `M A M⁻¹`, the control
contribution `M (B u)`, `H` becomes `H M⁻¹`, `Q` becomes `M Q M'`, the initial mean `M x`, the initial
covariance `M P M'`): `filter` and `smooth` raise LinAlgError exactly when they did before; otherwise every
mean becomes `M` times the mean, every covariance `M P M'`, every gain `M K`. -/
theorem C33_state_coordinates (M : Matrix (Fin n) (Fin n) ℝ) (hM : M.det ≠ 0) (kf kf' : KalmanFilter Fl)
    (Z Z' : NDArray Fl) (U U' : Option (NDArray Fl)) (b : Belief n) (ss : List (LinStep n m))
    (h : Represents kf Z U b ss)
    (h' : Represents kf' Z' U' ⟨M *ᵥ b.x, M * b.P * Mᵀ⟩
      (ss.map fun s => ⟨M * s.A * M⁻¹, M *ᵥ s.c, s.H * M⁻¹, M * s.Q * Mᵀ, s.R, s.z⟩)) :
    ((FilterSingular kf Z U ∧ FilterSingular kf' Z' U') ∨
      ∃ (bs : List (Belief n)) (Ks : List (Matrix (Fin n) (Fin m) ℝ)), bs.length = ss.length ∧
        FilterReturns kf Z U bs Ks ∧
        FilterReturns kf' Z' U' (bs.map fun q => ⟨M *ᵥ q.x, M * q.P * Mᵀ⟩) (Ks.map fun K => M * K)) ∧
    (ss ≠ [] → ss.length = Z.rows.length → ss.length = Z'.rows.length →
      (SmoothSingular kf Z U ∧ SmoothSingular kf' Z' U') ∨
      ∃ (bs : List (Belief n)) (Ks : List (Matrix (Fin n) (Fin m) ℝ)), bs.length = ss.length ∧
        SmoothReturns kf Z U bs Ks ∧
        SmoothReturns kf' Z' U' (bs.map fun q => ⟨M *ᵥ q.x, M * q.P * Mᵀ⟩) (Ks.map fun K => M * K)) := by
  have hu := isUnit_iff_ne_zero.2 hM
  have key := stepMap_coord (m := m) (Matrix.nonsing_inv_mul M hu) (Matrix.mul_nonsing_inv M hu)
  exact ⟨key.runs (fun _ _ => trivial) h h', fun h1 h2 h3 => key.smoothRuns (fun _ _ => trivial) h h' h1 h2 h3⟩

-- C33: exchanging position and velocity of the constant-velocity model.
example (uz : List (ℝ × ℝ)) : (!![0, 1; 1, 0] : Matrix (Fin 2) (Fin 2) ℝ).det ≠ 0 ∧
    (∃ kf Z U, Represents kf Z U Ex.cvBelief (Ex.cvSteps uz)) ∧
    ∃ kf Z U, Represents kf Z U (Ex.cvBelief.coord !![0, 1; 1, 0])
      ((Ex.cvSteps uz).map (LinStep.coord !![0, 1; 1, 0] (!![0, 1; 1, 0])⁻¹)) :=
  ⟨by simp [Matrix.det_fin_two], ⟨_, _, _, Ex.encode_represents _ _⟩, ⟨_, _, _, Ex.encode_represents _ _⟩⟩

end

/-! ## C35: change of measurement coordinates -/

/-- The model whose measurement is `T z`. -/
def LinStep.remeas (T : Matrix (Fin m) (Fin m) ℝ) (s : LinStep n m) : LinStep n m :=
  { s with H := T * s.H, R := T * s.R * Tᵀ, z := T *ᵥ s.z }

theorem remeas_innov (T : Matrix (Fin m) (Fin m) ℝ) (H : Matrix (Fin m) (Fin n) ℝ)
    (P : Matrix (Fin n) (Fin n) ℝ) (R : Matrix (Fin m) (Fin m) ℝ) :
    innovCov (T * H) P (T * R * Tᵀ) = T * innovCov H P R * Tᵀ := by
  simp only [innovCov, Matrix.transpose_mul, Matrix.mul_assoc, Matrix.mul_add, Matrix.add_mul]

theorem remeas_gain {T : Matrix (Fin m) (Fin m) ℝ} (hT : T.det ≠ 0) (H : Matrix (Fin m) (Fin n) ℝ)
    (P : Matrix (Fin n) (Fin n) ℝ) (R : Matrix (Fin m) (Fin m) ℝ) :
    kGain (T * H) P (T * R * Tᵀ) = kGain H P R * T⁻¹ := by
  have h1 : Tᵀ * Tᵀ⁻¹ = 1 := Matrix.mul_nonsing_inv _ (by rw [Matrix.det_transpose]; exact isUnit_iff_ne_zero.2 hT)
  simp only [kGain, remeas_innov]
  simp only [Matrix.mul_inv_rev, Matrix.transpose_mul, Matrix.mul_assoc]
  rw [← Matrix.mul_assoc Tᵀ, h1, Matrix.one_mul]

theorem stepMap_remeas {T : Matrix (Fin m) (Fin m) ℝ} (hT : T.det ≠ 0) :
    StepMap id (LinStep.remeas T) (fun K => K * T⁻¹) (fun _ : LinStep n m => True) where
  predict s b _ := rfl
  innov s p _ := by simp [LinStep.innov, LinStep.remeas, remeas_innov, Matrix.det_mul, hT]
  gain s p _ _ := remeas_gain hT _ _ _
  update s p _ _ := by
    have h2 : T⁻¹ * T = 1 := Matrix.nonsing_inv_mul _ (isUnit_iff_ne_zero.2 hT)
    ext1
    · simp only [LinStep.update, LinStep.gain, id, LinStep.remeas, remeas_gain hT]
      simp only [Matrix.mulVec_sub, Matrix.mulVec_mulVec, Matrix.mul_assoc, h2, Matrix.mul_one]
      rw [← Matrix.mul_assoc T⁻¹, h2, Matrix.one_mul]
    · simp only [LinStep.update, id, LinStep.remeas, postCov, remeas_gain hT]
      simp only [Matrix.mul_assoc]
      rw [← Matrix.mul_assoc T⁻¹, h2, Matrix.one_mul]
  pdet p := Iff.rfl
  rts s b q _ _ := rfl

/-- One map `T` per step. -/
noncomputable def remeasAll : List (Matrix (Fin m) (Fin m) ℝ) → List (LinStep n m) → List (LinStep n m) :=
  List.zipWith LinStep.remeas

theorem remeas_next {T : Matrix (Fin m) (Fin m) ℝ} (hT : T.det ≠ 0) (s : LinStep n m) (b : Belief n) :
    (s.remeas T).next b = s.next b := by
  have h2 : T⁻¹ * T = 1 := Matrix.nonsing_inv_mul _ (isUnit_iff_ne_zero.2 hT)
  show (s.remeas T).update (s.predict b) = s.update (s.predict b)
  generalize s.predict b = p
  ext1
  · simp only [LinStep.update, LinStep.gain, LinStep.remeas, remeas_gain hT]
    simp only [Matrix.mulVec_sub, Matrix.mulVec_mulVec, Matrix.mul_assoc, h2, Matrix.mul_one]
    rw [← Matrix.mul_assoc T⁻¹, h2, Matrix.one_mul]
  · simp only [LinStep.update, LinStep.remeas, postCov, remeas_gain hT]
    simp only [Matrix.mul_assoc]
    rw [← Matrix.mul_assoc T⁻¹, h2, Matrix.one_mul]

theorem remeasAll_filter (Ts : List (Matrix (Fin m) (Fin m) ℝ)) (hT : ∀ T ∈ Ts, T.det ≠ 0) (ss : List (LinStep n m))
    (hlen : Ts.length = ss.length) (b : Belief n) :
    (Solvable b (remeasAll Ts ss) ↔ Solvable b ss) ∧ filtered b (remeasAll Ts ss) = filtered b ss ∧
      gainsOf b (remeasAll Ts ss) = List.zipWith (fun T K => K * T⁻¹) Ts (gainsOf b ss) ∧
      (RtsSolvable b (remeasAll Ts ss) ↔ RtsSolvable b ss) ∧ rts b (remeasAll Ts ss) = rts b ss := by
  induction ss generalizing b Ts with
  | nil =>
    obtain rfl : Ts = [] := List.length_eq_zero_iff.1 (by simpa using hlen)
    exact ⟨Iff.rfl, rfl, rfl, Iff.rfl, rfl⟩
  | cons s ss ih =>
    obtain ⟨T, Ts, rfl⟩ : ∃ T Ts', Ts = T :: Ts' := List.exists_cons_of_length_eq_add_one hlen
    have h0 := hT T (by simp)
    obtain ⟨h1, h2, h3, h4, h5⟩ := ih Ts (fun T' h' => hT T' (by simp [h'])) (by simpa using hlen) (s.next b)
    have e : remeasAll (T :: Ts) (s :: ss) = s.remeas T :: remeasAll Ts ss := rfl
    have ep : (s.remeas T).predict b = s.predict b := rfl
    have eg : (s.remeas T).gain (s.predict b) = s.gain (s.predict b) * T⁻¹ := remeas_gain h0 _ _ _
    have ed : ((s.remeas T).innov (s.predict b)).det ≠ 0 ↔ (s.innov (s.predict b)).det ≠ 0 := by
      simp [LinStep.innov, LinStep.remeas, remeas_innov, Matrix.det_mul, h0]
    have er : ∀ q, rtsStep b (s.remeas T) q = rtsStep b s q := fun q => rfl
    rw [e]
    refine ⟨?_, ?_, ?_, ?_, ?_⟩
    · rw [Solvable, Solvable, remeas_next h0, ep, ed, h1]
    · rw [filtered, filtered, remeas_next h0, h2]
    · rw [gainsOf, gainsOf, remeas_next h0, ep, eg, h3]; rfl
    · rw [RtsSolvable, RtsSolvable, remeas_next h0, ep, h4]
    · rw [rts, rts, remeas_next h0, h5]
      rcases rts (s.next b) ss with _ | ⟨q, qs⟩
      · rfl
      · simp only [er]

theorem remeasAll_smooth (Ts : List (Matrix (Fin m) (Fin m) ℝ)) (hT : ∀ T ∈ Ts, T.det ≠ 0) (ss : List (LinStep n m))
    (hlen : Ts.length = ss.length) (b : Belief n) :
    (SmoothSolvable b (remeasAll Ts ss) ↔ SmoothSolvable b ss) ∧ smoothed b (remeasAll Ts ss) = smoothed b ss := by
  cases ss with
  | nil =>
    obtain rfl : Ts = [] := List.length_eq_zero_iff.1 (by simpa using hlen)
    exact ⟨Iff.rfl, rfl⟩
  | cons s ss =>
    obtain ⟨T, Ts, rfl⟩ : ∃ T Ts', Ts = T :: Ts' := List.exists_cons_of_length_eq_add_one hlen
    have h0 := hT T (by simp)
    obtain ⟨-, -, -, h4, h5⟩ := remeasAll_filter Ts (fun T' h' => hT T' (by simp [h'])) ss (by simpa using hlen) (s.next b)
    have e : remeasAll (T :: Ts) (s :: ss) = s.remeas T :: remeasAll Ts ss := rfl
    rw [e, SmoothSolvable, SmoothSolvable, smoothed, smoothed, remeas_next h0]
    exact ⟨h4, h5⟩

section
variable [Platform]

/-- C35: replace `z`, `H`, `R` of every step by `T z`, `T H`, `T R T'`, with an invertible `T` for each step (e.g. a permutation of
sensors or a change of units): `filter` and `smooth` raise LinAlgError exactly when they did before; otherwise all means
and covariances are unchanged and every gain `K` becomes `K T⁻¹`. -/
theorem C35_measurement_coordinates (Ts : List (Matrix (Fin m) (Fin m) ℝ)) (hT : ∀ T ∈ Ts, T.det ≠ 0)
    (kf kf' : KalmanFilter Fl) (Z Z' : NDArray Fl) (U U' : Option (NDArray Fl)) (b : Belief n) (ss : List (LinStep n m))
    (hlen : Ts.length = ss.length) (h : Represents kf Z U b ss)
    (h' : Represents kf' Z' U' b
      (List.zipWith (fun T (s : LinStep n m) => ⟨s.A, s.c, T * s.H, s.Q, T * s.R * Tᵀ, T *ᵥ s.z⟩) Ts ss)) :
    ((FilterSingular kf Z U ∧ FilterSingular kf' Z' U') ∨
      ∃ (bs : List (Belief n)) (Ks : List (Matrix (Fin n) (Fin m) ℝ)), bs.length = ss.length ∧ Ks.length = ss.length ∧
        FilterReturns kf Z U bs Ks ∧ FilterReturns kf' Z' U' bs (List.zipWith (fun T K => K * T⁻¹) Ts Ks)) ∧
    (ss ≠ [] → ss.length = Z.rows.length → ss.length = Z'.rows.length →
      (SmoothSingular kf Z U ∧ SmoothSingular kf' Z' U') ∨
      ∃ (bs : List (Belief n)) (Ks : List (Matrix (Fin n) (Fin m) ℝ)), bs.length = ss.length ∧ Ks.length = ss.length ∧
        SmoothReturns kf Z U bs Ks ∧ SmoothReturns kf' Z' U' bs (List.zipWith (fun T K => K * T⁻¹) Ts Ks)) := by
  obtain ⟨k1, k2, k3, -, -⟩ := remeasAll_filter Ts hT ss hlen b
  obtain ⟨k4, k5⟩ := remeasAll_smooth Ts hT ss hlen b
  have h' : Represents kf' Z' U' b (remeasAll Ts ss) := h'
  have hl : (remeasAll Ts ss).length = ss.length := by simp [remeasAll, hlen]
  constructor
  · by_cases hs : Solvable b ss
    · refine .inr ⟨filtered b ss, gainsOf b ss, filtered_length _ _, gainsOf_length _ _, h.returns hs, ?_⟩
      rw [← k2, ← k3]
      exact h'.returns (k1.2 hs)
    · exact .inl ⟨h.singular hs, h'.singular fun hs' => hs (k1.1 hs')⟩
  · intro h1 h2 h3
    have hne : remeasAll Ts ss ≠ [] := by
      intro e
      rw [e] at hl
      exact h1 (List.length_eq_zero_iff.1 hl.symm)
    by_cases hs : Solvable b ss ∧ SmoothSolvable b ss
    · refine .inr ⟨smoothed b ss, gainsOf b ss, smoothed_length _ _, gainsOf_length _ _, h.smoothReturns h2 h1 hs.1 hs.2, ?_⟩
      rw [← k5, ← k3]
      exact h'.smoothReturns (hl.trans h3) hne (k1.2 hs.1) (k4.2 hs.2)
    · exact .inl ⟨h.smoothSingular h2 h1 hs, h'.smoothSingular (hl.trans h3) hne fun hs' => hs ⟨k1.1 hs'.1, k4.1 hs'.2⟩⟩

-- C35: any model, with its first measurement doubled and the others unchanged.
example (b : Belief n) (s : LinStep n m) (ss : List (LinStep n m)) :
    let Ts : List (Matrix (Fin m) (Fin m) ℝ) := ((2 : ℝ) • 1) :: List.replicate ss.length 1
    (∀ T ∈ Ts, T.det ≠ 0) ∧ Ts.length = (s :: ss).length ∧
    (∃ kf Z U, Represents kf Z U b (s :: ss)) ∧ ∃ kf Z U, Represents kf Z U b (remeasAll Ts (s :: ss)) := by
  refine ⟨?_, by simp, ⟨_, _, _, Ex.encode_represents _ _⟩, ⟨_, _, _, Ex.encode_represents _ _⟩⟩
  intro T hT
  rcases List.mem_cons.1 hT with rfl | hT
  · simp
  · rw [List.eq_of_mem_replicate hT]; simp

end

end KK
