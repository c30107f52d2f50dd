import Verif.Proofs.ExtTransfer
import Verif.Props.Superposition
import Verif.Props.Examples
import Verif.Test.ExtEncode

/-!
# C95-C98: the extended filter in other coordinates, on noise-free data, and as a linear filter
-/

set_option linter.unusedSectionVars false

namespace KK

open Matrix

variable {n m : ℕ}

section
variable [Platform]

/-! ## C95: change of coordinates -/

/-- C95: describe the same nonlinear system by the state `y = M x + t`, `M` invertible, and the measurement `W z + w`, `W`
invertible (the callbacks become `M f(M⁻¹ (y - t)) + t`, `W h(M⁻¹ (y - t)) + w` with the corresponding Jacobians; the noise
covariances `M Q M'` and `W R W'`): `filter` and `smooth` raise LinAlgError exactly when they did before; otherwise every mean
becomes `M x + t`, every covariance `M P M'`, every gain `M K W⁻¹`. -/
theorem C95_ekf_coordinates (M : Matrix (Fin n) (Fin n) ℝ) (hM : M.det ≠ 0) (t : Fin n → ℝ)
    (W : Matrix (Fin m) (Fin m) ℝ) (hW : W.det ≠ 0) (w : Fin m → ℝ) (kf kf' : ExtendedKalmanFilter Fl)
    (Z Z' : NDArray Fl) (U U' : Option (NDArray Fl)) (b : Belief n) (ss : List (ExtStep n m))
    (h : ExtRepresents kf Z U b ss)
    (h' : ExtRepresents kf' Z' U' ⟨M *ᵥ b.x + t, M * b.P * Mᵀ⟩
      (ss.map fun s : ExtStep n m =>
        { f := fun y => M *ᵥ s.f (M⁻¹ *ᵥ (y - t)) + t
          jA := fun y => M * s.jA (M⁻¹ *ᵥ (y - t)) * M⁻¹
          h := fun y => W *ᵥ s.h (M⁻¹ *ᵥ (y - t)) + w
          jH := fun y => W * (s.jH (M⁻¹ *ᵥ (y - t)) * M⁻¹)
          Q := M * s.Q * Mᵀ
          R := W * s.R * Wᵀ
          z := W *ᵥ s.z + w })) :
    ((ExtFilterSingular kf Z U ∧ ExtFilterSingular kf' Z' U') ∨
      ∃ (bs : List (Belief n)) (Ks : List (Matrix (Fin n) (Fin m) ℝ)), bs.length = ss.length ∧
        ExtFilterReturns kf Z U bs Ks ∧
        ExtFilterReturns kf' Z' U' (bs.map fun q => ⟨M *ᵥ q.x + t, M * q.P * Mᵀ⟩) (Ks.map fun K => (M * K) * W⁻¹)) ∧
    (ss ≠ [] → ss.length = Z.rows.length → ss.length = Z'.rows.length →
      (ExtSmoothSingular kf Z U ∧ ExtSmoothSingular kf' Z' U') ∨
      ∃ (bs : List (Belief n)) (Ks : List (Matrix (Fin n) (Fin m) ℝ)), bs.length = ss.length ∧
        ExtSmoothReturns kf Z U bs Ks ∧
        ExtSmoothReturns kf' Z' U' (bs.map fun q => ⟨M *ᵥ q.x + t, M * q.P * Mᵀ⟩) (Ks.map fun K => (M * K) * W⁻¹)) := by
  have hu := isUnit_iff_ne_zero.2 hM
  have k1 := stepMap_coord (m := m) (Matrix.nonsing_inv_mul M hu) (Matrix.mul_nonsing_inv M hu)
  have key := (stepMap_shift t).comp ((stepMap_remeas (n := n) hW).comp k1)
  have lin := (linMap_shift t w).comp ((linMap_remeas (n := n) W).comp (linMap_coord (Matrix.nonsing_inv_mul M hu)))
  have e : (ExtStep.shift t w ∘ ExtStep.remeas W ∘ ExtStep.coord M M⁻¹) = fun s : ExtStep n m =>
        { f := fun y => M *ᵥ s.f (M⁻¹ *ᵥ (y - t)) + t
          jA := fun y => M * s.jA (M⁻¹ *ᵥ (y - t)) * M⁻¹
          h := fun y => W *ᵥ s.h (M⁻¹ *ᵥ (y - t)) + w
          jH := fun y => W * (s.jH (M⁻¹ *ᵥ (y - t)) * M⁻¹)
          Q := M * s.Q * Mᵀ
          R := W * s.R * Wᵀ
          z := W *ᵥ s.z + w } := by
    funext s
    simp only [Function.comp, ExtStep.shift, ExtStep.remeas, ExtStep.coord, Matrix.mul_assoc]
  rw [e] at lin
  exact ⟨key.extRuns lin h h', fun h1 h2 h3 => key.extSmoothRuns lin h h' h1 h2 h3⟩

/-- C95 (standard filter): the state `M x + t` and the measurement `W z + W H M⁻¹ t` (the offset a nonzero origin gives the
measurement of a linear model). -/
theorem C95_kf_coordinates (M : Matrix (Fin n) (Fin n) ℝ) (hM : M.det ≠ 0) (t : Fin n → ℝ)
    (W : Matrix (Fin m) (Fin m) ℝ) (hW : W.det ≠ 0) (kf kf' : KalmanFilter Fl)
    (Z Z' : NDArray Fl) (U U' : Option (NDArray Fl)) (b : Belief n) (ss : List (LinStep n m))
    (h : Represents kf Z U b ss)
    (h' : Represents kf' Z' U' ⟨M *ᵥ b.x + t, M * b.P * Mᵀ⟩
      (ss.map fun s : LinStep n m =>
        { A := M * s.A * M⁻¹
          c := M *ᵥ s.c + t - (M * s.A * M⁻¹) *ᵥ t
          H := W * (s.H * M⁻¹)
          Q := M * s.Q * Mᵀ
          R := W * s.R * Wᵀ
          z := W *ᵥ s.z + (W * (s.H * M⁻¹)) *ᵥ t })) :
    ((FilterSingular kf Z U ∧ FilterSingular kf' Z' U') ∨
      ∃ (bs : List (Belief n)) (Ks : List (Matrix (Fin n) (Fin m) ℝ)), bs.length = ss.length ∧
        FilterReturns kf Z U bs Ks ∧
        FilterReturns kf' Z' U' (bs.map fun q => ⟨M *ᵥ q.x + t, M * q.P * Mᵀ⟩) (Ks.map fun K => (M * K) * W⁻¹)) ∧
    (ss ≠ [] → ss.length = Z.rows.length → ss.length = Z'.rows.length →
      (SmoothSingular kf Z U ∧ SmoothSingular kf' Z' U') ∨
      ∃ (bs : List (Belief n)) (Ks : List (Matrix (Fin n) (Fin m) ℝ)), bs.length = ss.length ∧
        SmoothReturns kf Z U bs Ks ∧
        SmoothReturns kf' Z' U' (bs.map fun q => ⟨M *ᵥ q.x + t, M * q.P * Mᵀ⟩) (Ks.map fun K => (M * K) * W⁻¹)) := by
  have hu := isUnit_iff_ne_zero.2 hM
  have k1 := stepMap_coord (m := m) (Matrix.nonsing_inv_mul M hu) (Matrix.mul_nonsing_inv M hu)
  have key := (stepMap_shift t).comp ((stepMap_remeas (n := n) hW).comp k1)
  have e : (LinStep.shift t ∘ LinStep.remeas W ∘ LinStep.coord M M⁻¹) = fun s : LinStep n m =>
        { A := M * s.A * M⁻¹
          c := M *ᵥ s.c + t - (M * s.A * M⁻¹) *ᵥ t
          H := W * (s.H * M⁻¹)
          Q := M * s.Q * Mᵀ
          R := W * s.R * Wᵀ
          z := W *ᵥ s.z + (W * (s.H * M⁻¹)) *ᵥ t } := by
    funext s
    simp only [Function.comp, LinStep.shift, LinStep.remeas, LinStep.coord, Matrix.mul_assoc]
  rw [e] at key
  exact ⟨key.runs (fun _ _ => trivial) h h', fun h1 h2 h3 => key.smoothRuns (fun _ _ => trivial) h h' h1 h2 h3⟩

-- C95: the pendulum with the angle in degrees from the horizontal (`M`, `t`) and the measurement in per cent (`W`, `w`).
example (p a0 a1 : ℝ) (zs : List ℝ) :
    (!![180 / Real.pi, 0; 0, 1] : Matrix (Fin 2) (Fin 2) ℝ).det ≠ 0 ∧ (!![100] : Matrix (Fin 1) (Fin 1) ℝ).det ≠ 0 ∧
    (∃ kf Z, ExtRepresents kf Z none (Examples.pendBelief p a0 a1) (zs.map (Examples.pendStep 0.01 9.81 0.01 0.1))) ∧
    ∃ kf Z U, ExtRepresents kf Z U
      (((Examples.pendBelief p a0 a1).coord !![180 / Real.pi, 0; 0, 1]).shift ![-90, 0])
      ((zs.map (Examples.pendStep 0.01 9.81 0.01 0.1)).map
        (ExtStep.shift ![-90, 0] ![50] ∘ ExtStep.remeas !![100] ∘
          ExtStep.coord !![180 / Real.pi, 0; 0, 1] (!![180 / Real.pi, 0; 0, 1])⁻¹)) := by
  refine ⟨by simp [Matrix.det_fin_two, Real.pi_ne_zero], by simp, ?_, ?_⟩
  · obtain ⟨kf, -, h⟩ := Examples.pendulum_represents 0.01 9.81 0.01 p 0.1 a0 a1 .float64 zs
    exact ⟨kf, _, h⟩
  · refine Ex.ext_exists ((ExtStep.shift ![-90, 0] ![50] ∘ ExtStep.remeas !![100] ∘
      ExtStep.coord !![180 / Real.pi, 0; 0, 1] (!![180 / Real.pi, 0; 0, 1])⁻¹) (Examples.pendStep 0.01 9.81 0.01 0.1 0)) _ _
      fun s hs => ?_
    rw [List.map_map] at hs
    obtain ⟨z, -, rfl⟩ := List.mem_map.1 hs
    exact ⟨rfl, rfl, rfl, rfl⟩

/-! ## C96: only ratios of noise covariances matter -/

/-- C96: multiply the initial covariance and all process and measurement noise covariances by `c ≠ 0`:
`ExtendedKalmanFilter.filter` and `smooth` raise LinAlgError exactly when they did before; otherwise all means and gains are
the same and all covariances are multiplied by `c`. -/
theorem C96_ekf_noise_ratio (c : ℝ) (hc : c ≠ 0) (kf kf' : ExtendedKalmanFilter Fl) (Z Z' : NDArray Fl)
    (U U' : Option (NDArray Fl)) (b : Belief n) (ss : List (ExtStep n m)) (h : ExtRepresents kf Z U b ss)
    (h' : ExtRepresents kf' Z' U' ⟨b.x, c • b.P⟩ (ss.map fun s => { s with Q := c • s.Q, R := c • s.R })) :
    ((ExtFilterSingular kf Z U ∧ ExtFilterSingular kf' Z' U') ∨
      ∃ (bs : List (Belief n)) (Ks : List (Matrix (Fin n) (Fin m) ℝ)), bs.length = ss.length ∧
        ExtFilterReturns kf Z U bs Ks ∧ ExtFilterReturns kf' Z' U' (bs.map fun q => ⟨q.x, c • q.P⟩) Ks) ∧
    (ss ≠ [] → ss.length = Z.rows.length → ss.length = Z'.rows.length →
      (ExtSmoothSingular kf Z U ∧ ExtSmoothSingular kf' Z' U') ∨
      ∃ (bs : List (Belief n)) (Ks : List (Matrix (Fin n) (Fin m) ℝ)), bs.length = ss.length ∧
        ExtSmoothReturns kf Z U bs Ks ∧ ExtSmoothReturns kf' Z' U' (bs.map fun q => ⟨q.x, c • q.P⟩) Ks) := by
  have key := stepMap_scale (n := n) (m := m) hc
  constructor
  · have := key.extRuns (linMap_scale c) h h'
    simp only [List.map_id] at this
    exact this
  · intro h1 h2 h3
    have := key.extSmoothRuns (linMap_scale c) h h' h1 h2 h3
    simp only [List.map_id] at this
    exact this

-- C96: the pendulum, all variances multiplied by `c`.
example (c p a0 a1 : ℝ) (zs : List ℝ) :
    (∃ kf Z, ExtRepresents kf Z none (Examples.pendBelief p a0 a1) (zs.map (Examples.pendStep 0.01 9.81 0.01 0.1))) ∧
    ∃ kf Z U, ExtRepresents kf Z U ((Examples.pendBelief p a0 a1).scale c)
      ((zs.map (Examples.pendStep 0.01 9.81 0.01 0.1)).map (ExtStep.scale c)) := by
  refine ⟨?_, ?_⟩
  · obtain ⟨kf, -, h⟩ := Examples.pendulum_represents 0.01 9.81 0.01 p 0.1 a0 a1 .float64 zs
    exact ⟨kf, _, h⟩
  · refine Ex.ext_exists (Examples.pendStep 0.01 9.81 0.01 0.1 0) _ _ fun s hs => ?_
    rw [List.map_map] at hs
    obtain ⟨z, -, rfl⟩ := List.mem_map.1 hs
    exact ⟨rfl, rfl, rfl, rfl⟩

end

/-! ## C97: noise-free data -/

/-- The states of the noise-free nonlinear system started at `x`. -/
def extTrueStates : (Fin n → ℝ) → List (ExtStep n m) → List (Fin n → ℝ)
  | _, [] => []
  | x, s :: ss => s.f x :: extTrueStates (s.f x) ss

theorem extNoiseFree_linRun (b : Belief n) (ss : List (ExtStep n m))
    (h : List.Forall₂ (fun (s : ExtStep n m) y => s.z = s.h y) ss (extTrueStates b.x ss)) :
    trueStates b.x (linRun b ss) = extTrueStates b.x ss ∧
      List.Forall₂ (fun (s : LinStep n m) y => s.z = s.H *ᵥ y) (linRun b ss) (trueStates b.x (linRun b ss)) := by
  induction ss generalizing b with
  | nil => exact ⟨rfl, .nil⟩
  | cons s ss ih =>
    simp only [extTrueStates, List.forall₂_cons] at h
    have hx : (s.next b).x = s.f b.x := by
      simp [ExtStep.next, ExtStep.update, ExtStep.predict, h.1]
    have e : (s.lin b).A *ᵥ b.x + (s.lin b).c = s.f b.x := by simp [ExtStep.lin]
    have hn := ih (s.next b) (by rw [hx]; exact h.2)
    rw [hx] at hn
    simp only [linRun, trueStates, extTrueStates, e]
    refine ⟨by rw [hn.1], List.forall₂_cons.2 ⟨?_, hn.2⟩⟩
    simp [ExtStep.lin, h.1]

variable [Platform]

/-- C97: let the true states follow the nonlinear model `f` without noise from the given initial mean, and let every
observation be exactly `h` of the true state.  If `filter` (`smooth`) does not raise LinAlgError then every mean it returns is
the true state, whatever the Jacobian callbacks, the initial covariance and the noise covariances are. -/
theorem C97_ekf_exact_tracking (kf : ExtendedKalmanFilter Fl) (Z : NDArray Fl) (U : Option (NDArray Fl)) (b : Belief n)
    (ss : List (ExtStep n m)) (h : ExtRepresents kf Z U b ss)
    (hz : List.Forall₂ (fun (s : ExtStep n m) y => s.z = s.h y) ss (extTrueStates b.x ss)) :
    (ExtFilterSingular kf Z U ∨
      ∃ (bs : List (Belief n)) (Ks : List (Matrix (Fin n) (Fin m) ℝ)), ExtFilterReturns kf Z U bs Ks ∧
        bs.map Belief.x = extTrueStates b.x ss) ∧
    (ss ≠ [] → ss.length = Z.rows.length → ExtSmoothSingular kf Z U ∨
      ∃ (bs : List (Belief n)) (Ks : List (Matrix (Fin n) (Fin m) ℝ)), ExtSmoothReturns kf Z U bs Ks ∧
        bs.map Belief.x = extTrueStates b.x ss) := by
  obtain ⟨h1, h2⟩ := extNoiseFree_linRun b ss hz
  constructor
  · by_cases hs : ExtSolvable b ss
    · refine .inr ⟨_, _, h.returns hs, ?_⟩
      rw [extFiltered_eq, (noiseFree_runs b _ h2).1, h1]
    · exact .inl (h.singular hs)
  · intro hne hf
    by_cases hs : ExtSolvable b ss ∧ ExtSmoothSolvable b ss
    · refine .inr ⟨_, _, h.smoothReturns hf hne hs.1 hs.2, ?_⟩
      rw [extSmoothed_eq, noiseFree_smoothed b _ h2, h1]
    · exact .inl (h.smoothSingular hf hne hs)

/-- Noise-free data of the pendulum. -/
noncomputable def Ex.pendData (dt g : ℝ) : ℝ → ℝ → ℕ → List ℝ
  | _, _, 0 => []
  | a, v, k + 1 => Real.sin (a + dt * v) :: Ex.pendData dt g (a + dt * v) (v - g * dt * Real.sin a) k

-- C97: the pendulum from any angle and velocity, for any number of steps.
example (p a0 a1 : ℝ) (k : ℕ) :
    (∃ kf Z, ExtRepresents kf Z none (Examples.pendBelief p a0 a1)
      ((Ex.pendData 0.01 9.81 a0 a1 k).map (Examples.pendStep 0.01 9.81 0.01 0.1))) ∧
    List.Forall₂ (fun (s : ExtStep 2 1) y => s.z = s.h y)
      ((Ex.pendData 0.01 9.81 a0 a1 k).map (Examples.pendStep 0.01 9.81 0.01 0.1))
      (extTrueStates (Examples.pendBelief p a0 a1).x
        ((Ex.pendData 0.01 9.81 a0 a1 k).map (Examples.pendStep 0.01 9.81 0.01 0.1))) := by
  constructor
  · obtain ⟨kf, -, h⟩ := Examples.pendulum_represents 0.01 9.81 0.01 p 0.1 a0 a1 .float64 (Ex.pendData 0.01 9.81 a0 a1 k)
    exact ⟨kf, _, h⟩
  · simp only [Examples.pendBelief]
    induction k generalizing a0 a1 with
    | zero => exact .nil
    | succ k ih =>
      simp only [Ex.pendData, List.map_cons, extTrueStates]
      have e : (Examples.pendStep 0.01 9.81 0.01 0.1 (Real.sin (a0 + 0.01 * a1))).f ![a0, a1] =
          ![a0 + 0.01 * a1, a1 - 9.81 * 0.01 * Real.sin a0] := by
        simp [Examples.pendStep]
      rw [e]
      refine List.forall₂_cons.2 ⟨?_, ih _ _⟩
      simp [Examples.pendStep]

/-! ## C98: the extended filter is the standard filter on the linearised model -/

/-- C98: `ExtendedKalmanFilter` returns what `KalmanFilter` returns on the model linearised along the run: at step `k`, with `x`
the previous filtered mean (the initial mean for the first step) and `y = f(x)`, `A = jacobian_A(x)`, control contribution
`f(x) - A x`, `H = jacobian_H(y)`, observation `z - h(y) + H y`. -/
theorem C98_ekf_linearised (ekf : ExtendedKalmanFilter Fl) (kf : KalmanFilter Fl) (Z Z' : NDArray Fl)
    (U U' : Option (NDArray Fl)) (b : Belief n) (ss : List (ExtStep n m)) (ls : List (LinStep n m))
    (h : ExtRepresents ekf Z U b ss) (h' : Represents kf Z' U' b ls)
    (hls : List.Forall₂ (fun (l : LinStep n m) (sx : ExtStep n m × Belief n) =>
      l = { A := sx.1.jA sx.2.x
            c := sx.1.f sx.2.x - sx.1.jA sx.2.x *ᵥ sx.2.x
            H := sx.1.jH (sx.1.f sx.2.x)
            Q := sx.1.Q
            R := sx.1.R
            z := sx.1.z - sx.1.h (sx.1.f sx.2.x) + sx.1.jH (sx.1.f sx.2.x) *ᵥ sx.1.f sx.2.x })
      ls (ss.zip (b :: extFiltered b ss))) :
    ((ExtFilterSingular ekf Z U ∧ FilterSingular kf Z' U') ∨
      ∃ (bs : List (Belief n)) (Ks : List (Matrix (Fin n) (Fin m) ℝ)), bs.length = ss.length ∧
        ExtFilterReturns ekf Z U bs Ks ∧ FilterReturns kf Z' U' bs Ks) ∧
    (ss ≠ [] → ss.length = Z.rows.length → ss.length = Z'.rows.length →
      (ExtSmoothSingular ekf Z U ∧ SmoothSingular kf Z' U') ∨
      ∃ (bs : List (Belief n)) (Ks : List (Matrix (Fin n) (Fin m) ℝ)), bs.length = ss.length ∧
        ExtSmoothReturns ekf Z U bs Ks ∧ SmoothReturns kf Z' U' bs Ks) := by
  have e : ls = linRun b ss := by
    clear h h'
    induction ss generalizing b ls with
    | nil => simpa [linRun] using hls
    | cons s ss ih =>
      simp only [extFiltered, List.zip_cons_cons] at hls
      obtain ⟨l, ls', hl, hls', rfl⟩ := List.forall₂_cons_right_iff.1 hls
      rw [linRun, ih _ _ hls', hl]
      rfl
  subst e
  constructor
  · by_cases hs : ExtSolvable b ss
    · refine .inr ⟨_, _, extFiltered_length _ _, h.returns hs, ?_⟩
      rw [extFiltered_eq, extGainsOf_eq]
      exact h'.returns ((extSolvable_iff _ _).1 hs)
    · exact .inl ⟨h.singular hs, h'.singular fun hs' => hs ((extSolvable_iff _ _).2 hs')⟩
  · intro hne hf hf'
    have hne' : linRun b ss ≠ [] := fun h => hne (List.length_eq_zero_iff.1 (by rw [← linRun_length b ss, h]; rfl))
    have hf'' : (linRun b ss).length = Z'.rows.length := by rw [linRun_length]; exact hf'
    by_cases hs : ExtSolvable b ss ∧ ExtSmoothSolvable b ss
    · refine .inr ⟨_, _, extSmoothed_length _ _, h.smoothReturns hf hne hs.1 hs.2, ?_⟩
      rw [extSmoothed_eq, extGainsOf_eq]
      exact h'.smoothReturns hf'' hne' ((extSolvable_iff _ _).1 hs.1) ((extSmoothSolvable_iff _ _).1 hs.2)
    · exact .inl ⟨h.smoothSingular hf hne hs, h'.smoothSingular hf'' hne' fun hs' =>
        hs ⟨(extSolvable_iff _ _).2 hs'.1, (extSmoothSolvable_iff _ _).2 hs'.2⟩⟩

/-- C98 (affine models): if `f(x) = A x + c` and `h(x) = H x + d` with the right Jacobians then the extended filter returns what
the standard filter returns on the observations `z - d`. -/
theorem C98_ekf_affine (ekf : ExtendedKalmanFilter Fl) (kf : KalmanFilter Fl) (Z Z' : NDArray Fl)
    (U U' : Option (NDArray Fl)) (b : Belief n) (ls : List (LinStep n m × (Fin m → ℝ)))
    (h : ExtRepresents ekf Z U b (ls.map fun l =>
      { f := fun x => l.1.A *ᵥ x + l.1.c
        jA := fun _ => l.1.A
        h := fun x => l.1.H *ᵥ x + l.2
        jH := fun _ => l.1.H
        Q := l.1.Q
        R := l.1.R
        z := l.1.z }))
    (h' : Represents kf Z' U' b (ls.map fun l => { l.1 with z := l.1.z - l.2 })) :
    ((ExtFilterSingular ekf Z U ∧ FilterSingular kf Z' U') ∨
      ∃ (bs : List (Belief n)) (Ks : List (Matrix (Fin n) (Fin m) ℝ)), bs.length = ls.length ∧
        ExtFilterReturns ekf Z U bs Ks ∧ FilterReturns kf Z' U' bs Ks) ∧
    (ls ≠ [] → ls.length = Z.rows.length → ls.length = Z'.rows.length →
      (ExtSmoothSingular ekf Z U ∧ SmoothSingular kf Z' U') ∨
      ∃ (bs : List (Belief n)) (Ks : List (Matrix (Fin n) (Fin m) ℝ)), bs.length = ls.length ∧
        ExtSmoothReturns ekf Z U bs Ks ∧ SmoothReturns kf Z' U' bs Ks) := by
  have := C98_ekf_linearised ekf kf Z Z' U U' b _ _ h h' ?_
  · simpa using this
  · clear h h'
    induction ls generalizing b with
    | nil => exact .nil
    | cons l ls ih =>
      simp only [List.map_cons, extFiltered, List.zip_cons_cons]
      refine .cons ?_ (ih _)
      obtain ⟨⟨A, c, H, Q, R, z⟩, d⟩ := l
      simp only [LinStep.mk.injEq, true_and]
      exact ⟨by abel, by abel⟩

-- C98: the pendulum and its linearisation; any affine model.
example (p a0 a1 : ℝ) (zs : List ℝ) :
    (∃ kf Z, ExtRepresents kf Z none (Examples.pendBelief p a0 a1) (zs.map (Examples.pendStep 0.01 9.81 0.01 0.1))) ∧
    ∃ kf Z U, Represents kf Z U (Examples.pendBelief p a0 a1)
      (linRun (Examples.pendBelief p a0 a1) (zs.map (Examples.pendStep 0.01 9.81 0.01 0.1))) := by
  refine ⟨?_, _, _, _, Ex.encode_represents _ _⟩
  obtain ⟨kf, -, h⟩ := Examples.pendulum_represents 0.01 9.81 0.01 p 0.1 a0 a1 .float64 zs
  exact ⟨kf, _, h⟩

example (b : Belief n) (A : Matrix (Fin n) (Fin n) ℝ) (c : Fin n → ℝ) (H : Matrix (Fin m) (Fin n) ℝ) (d : Fin m → ℝ)
    (qs : List (Matrix (Fin n) (Fin n) ℝ × Matrix (Fin m) (Fin m) ℝ × (Fin m → ℝ))) :
    (∃ kf Z U, ExtRepresents kf Z U b
      ((qs.map fun q => ((⟨A, c, H, q.1, q.2.1, q.2.2⟩ : LinStep n m), d)).map fun l =>
      ({ f := fun x => l.1.A *ᵥ x + l.1.c
         jA := fun _ => l.1.A
         h := fun x => l.1.H *ᵥ x + l.2
         jH := fun _ => l.1.H
         Q := l.1.Q
         R := l.1.R
         z := l.1.z } : ExtStep n m))) ∧
    ∃ kf Z U, Represents kf Z U b
      ((qs.map fun q => ((⟨A, c, H, q.1, q.2.1, q.2.2⟩ : LinStep n m), d)).map fun l => { l.1 with z := l.1.z - l.2 }) := by
  refine ⟨⟨_, _, _, Ex.extEncode_represents (fun x => A *ᵥ x + c) (fun _ => A) (fun x => H *ᵥ x + d) (fun _ => H) _ _
    fun s hs => ?_⟩, ⟨_, _, _, Ex.encode_represents _ _⟩⟩
  rw [List.map_map] at hs
  obtain ⟨z, -, rfl⟩ := List.mem_map.1 hs
  exact ⟨rfl, rfl, rfl, rfl⟩

end KK
