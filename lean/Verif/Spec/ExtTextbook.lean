import Verif.Spec.Textbook

/-!
# The textbook extended Kalman filter and smoother

As `Spec/Textbook.lean`, for nonlinear models: `f` and `jA` are evaluated at the previous filtered mean, `h` and
`jH` at the predicted mean, and the smoother linearises at the filtered mean.
-/

namespace KK

open Matrix

/-- One time step of a nonlinear model with its data; `f` and `jA` are already applied to the control of the
step.  `jA`, `jH` need not be derivatives of anything. -/
structure ExtStep (n m : ℕ) where
  f : (Fin n → ℝ) → Fin n → ℝ
  jA : (Fin n → ℝ) → Matrix (Fin n) (Fin n) ℝ
  h : (Fin n → ℝ) → Fin m → ℝ
  jH : (Fin n → ℝ) → Matrix (Fin m) (Fin n) ℝ
  Q : Matrix (Fin n) (Fin n) ℝ
  R : Matrix (Fin m) (Fin m) ℝ
  z : Fin m → ℝ

namespace ExtStep

variable {n m : ℕ}

/-- `x⁻ = f(x)`, `P⁻ = J P J' + Q` with `J = jA(x)` -/
noncomputable def predict (s : ExtStep n m) (b : Belief n) : Belief n :=
  ⟨s.f b.x, priorCov (s.jA b.x) b.P s.Q⟩

/-- `S = J P⁻ J' + R` with `J = jH(x⁻)` -/
noncomputable def innov (s : ExtStep n m) (p : Belief n) : Matrix (Fin m) (Fin m) ℝ :=
  innovCov (s.jH p.x) p.P s.R

/-- `K = P⁻ J' S⁻¹` -/
noncomputable def gain (s : ExtStep n m) (p : Belief n) : Matrix (Fin n) (Fin m) ℝ :=
  kGain (s.jH p.x) p.P s.R

/-- `x = x⁻ + K (z - h(x⁻))`, `P = (I - K J) P⁻` -/
noncomputable def update (s : ExtStep n m) (p : Belief n) : Belief n :=
  ⟨p.x + s.gain p *ᵥ (s.z - s.h p.x), postCov (s.jH p.x) p.P s.R⟩

noncomputable def next (s : ExtStep n m) (b : Belief n) : Belief n := s.update (s.predict b)

/-- Extended RTS step: `G = P J' (J P J' + Q)⁻¹` with `J = jA(x)` at the *filtered* mean, then
`x + G (x_q - f(x))`, `P + G (P_q - P⁻) G'`. -/
noncomputable def rtsStep (b : Belief n) (s : ExtStep n m) (q : Belief n) : Belief n :=
  let p := s.predict b
  let G := b.P * (s.jA b.x)ᵀ * p.P⁻¹
  ⟨b.x + G *ᵥ (q.x - p.x), b.P + G * (q.P - p.P) * Gᵀ⟩

end ExtStep

variable {n m : ℕ}

/-- The filtered beliefs of a run. -/
noncomputable def extFiltered : Belief n → List (ExtStep n m) → List (Belief n)
  | _, [] => []
  | b, s :: ss => s.next b :: extFiltered (s.next b) ss

/-- The gains of a run. -/
noncomputable def extGainsOf : Belief n → List (ExtStep n m) → List (Matrix (Fin n) (Fin m) ℝ)
  | _, [] => []
  | b, s :: ss => s.gain (s.predict b) :: extGainsOf (s.next b) ss

/-- Every innovation covariance met by the run is invertible. -/
def ExtSolvable : Belief n → List (ExtStep n m) → Prop
  | _, [] => True
  | b, s :: ss => (s.innov (s.predict b)).det ≠ 0 ∧ ExtSolvable (s.next b) ss

/-- Smoothing of a run whose first filtered belief is `b` and whose remaining steps are `ss`. -/
noncomputable def extRts : Belief n → List (ExtStep n m) → List (Belief n)
  | b, [] => [b]
  | b, s :: ss =>
    match extRts (s.next b) ss with
    | [] => []                                            -- never happens
    | q :: qs => ExtStep.rtsStep b s q :: q :: qs

noncomputable def extSmoothed : Belief n → List (ExtStep n m) → List (Belief n)
  | _, [] => []
  | b, s :: ss => extRts (s.next b) ss

/-- Every predicted covariance needed by the backward pass is invertible. -/
def ExtRtsSolvable : Belief n → List (ExtStep n m) → Prop
  | _, [] => True
  | b, s :: ss => (s.predict b).P.det ≠ 0 ∧ ExtRtsSolvable (s.next b) ss

def ExtSmoothSolvable : Belief n → List (ExtStep n m) → Prop
  | _, [] => True
  | b, s :: ss => ExtRtsSolvable (s.next b) ss

/-! ## Representation -/

variable [Platform]

/-- The callbacks of `kf`, with control `uk`, and the arrays `zk`, `Qk`, `Rk`, hold the step `s`: on every 1-d
array holding a real vector the callbacks return arrays holding the values of `s.f`, `s.jA`, `s.h`, `s.jH`.
`h` may return a scalar when there is one observation. -/
structure ExtStepIs (kf : ExtendedKalmanFilter Fl) (s : ExtStep n m) (uk zk Qk Rk : Arr Fl) : Prop where
  f : ∀ (v : Fin n → ℝ) (x : Arr Fl), VecIs v x → ∃ y, kf.f x (some uk) = .ok y ∧ VecIs (s.f v) y
  jA : ∀ (v : Fin n → ℝ) (x : Arr Fl), VecIs v x → ∃ y, kf.jacobianA x (some uk) = .ok y ∧ MatIs (s.jA v) y
  h : ∀ (v : Fin n → ℝ) (x : Arr Fl), VecIs v x → ∃ y, kf.h x = .ok y ∧
    (VecIs (s.h v) y ∨ m = 1 ∧ ObsIs (s.h v) y)
  jH : ∀ (v : Fin n → ℝ) (x : Arr Fl), VecIs v x → ∃ y, kf.jacobianH x = .ok y ∧ MatIs (s.jH v) y
  z : ObsIs s.z zk
  Q : NoiseIs s.Q Qk
  R : NoiseIs s.R Rk

/-- The call `kf.filter(Z, U)` (or `smooth`) is about the initial belief `b` and the model and data `ss`. -/
structure ExtRepresents (kf : ExtendedKalmanFilter Fl) (Z : NDArray Fl) (U : Option (NDArray Fl))
    (b : Belief n) (ss : List (ExtStep n m)) : Prop where
  iter : kf.AllIterable Z U
  len : ss.length = kf.steps Z U
  size : kf.stateSize = n
  ident : kf.I = Arr.identity n
  x : VecIs b.x kf.xk
  P : MatIs b.P kf.Pk
  rows : ∀ (k : ℕ) (s : ExtStep n m) (uk zk Qk Rk : Arr Fl), ss[k]? = some s →
    (effU U Z).rows[k]? = some uk → Z.rows[k]? = some zk → kf.Q.rows[k]? = some Qk →
    kf.R.rows[k]? = some Rk → ExtStepIs kf s uk zk Qk Rk

end KK
