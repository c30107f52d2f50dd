import Verif.Spec.Basic
import Verif.Spec.Exact
import Mathlib.LinearAlgebra.Matrix.PosDef
import Mathlib.Analysis.Matrix.PosDef
import Mathlib.Algebra.Order.Star.Real

/-!
# The textbook Kalman filter, and what it means for numpy arrays to represent a textbook model

This file does not mention the code of kalmankit.  The recursion is the one printed in any textbook, over
exact real matrices; `Represents` says that the constructor arguments, `Z` and `U` of a call are numpy
arrays (in one of the documented layouts) holding a given real model.
-/

namespace KK

open Matrix

/-! ## The recursion -/

/-- Mean and covariance of an estimate. -/
@[ext] structure Belief (n : ℕ) where
  x : Fin n → ℝ
  P : Matrix (Fin n) (Fin n) ℝ

section
variable {ι κ : Type} [Fintype ι] [Fintype κ] [DecidableEq ι] [DecidableEq κ]

/-- `A P A' + Q` -/
noncomputable def priorCov (A P Q : Matrix ι ι ℝ) : Matrix ι ι ℝ := A * P * Aᵀ + Q

/-- Innovation covariance `S = H P H' + R` -/
noncomputable def innovCov (H : Matrix κ ι ℝ) (P : Matrix ι ι ℝ) (R : Matrix κ κ ℝ) : Matrix κ κ ℝ :=
  H * P * Hᵀ + R

/-- Kalman gain `K = P H' S⁻¹` -/
noncomputable def kGain (H : Matrix κ ι ℝ) (P : Matrix ι ι ℝ) (R : Matrix κ κ ℝ) : Matrix ι κ ℝ :=
  P * Hᵀ * (innovCov H P R)⁻¹

/-- `(I - K H) P` -/
noncomputable def postCov (H : Matrix κ ι ℝ) (P : Matrix ι ι ℝ) (R : Matrix κ κ ℝ) : Matrix ι ι ℝ :=
  (1 - kGain H P R * H) * P

end

/-- One time step of a linear model with its data; `c` is the control contribution `B u` (zero if there is
no control). -/
structure LinStep (n m : ℕ) where
  A : Matrix (Fin n) (Fin n) ℝ
  c : Fin n → ℝ
  H : Matrix (Fin m) (Fin n) ℝ
  Q : Matrix (Fin n) (Fin n) ℝ
  R : Matrix (Fin m) (Fin m) ℝ
  z : Fin m → ℝ

namespace LinStep

variable {n m : ℕ}

/-- `x⁻ = A x + B u`, `P⁻ = A P A' + Q` -/
noncomputable def predict (s : LinStep n m) (b : Belief n) : Belief n :=
  ⟨s.A *ᵥ b.x + s.c, priorCov s.A b.P s.Q⟩

/-- `S` at a predicted belief -/
noncomputable def innov (s : LinStep n m) (p : Belief n) : Matrix (Fin m) (Fin m) ℝ := innovCov s.H p.P s.R

/-- `K` at a predicted belief -/
noncomputable def gain (s : LinStep n m) (p : Belief n) : Matrix (Fin n) (Fin m) ℝ := kGain s.H p.P s.R

/-- `x = x⁻ + K (z - H x⁻)`, `P = (I - K H) P⁻` -/
noncomputable def update (s : LinStep n m) (p : Belief n) : Belief n :=
  ⟨p.x + s.gain p *ᵥ (s.z - s.H *ᵥ p.x), postCov s.H p.P s.R⟩

/-- predict, then update -/
noncomputable def next (s : LinStep n m) (b : Belief n) : Belief n := s.update (s.predict b)

end LinStep

variable {n m : ℕ}

/-- The filtered beliefs of a list of steps, from an initial belief. -/
noncomputable def filtered : Belief n → List (LinStep n m) → List (Belief n)
  | _, [] => []
  | b, s :: ss => s.next b :: filtered (s.next b) ss

/-- The gains of the same run. -/
noncomputable def gainsOf : Belief n → List (LinStep n m) → List (Matrix (Fin n) (Fin m) ℝ)
  | _, [] => []
  | b, s :: ss => s.gain (s.predict b) :: gainsOf (s.next b) ss

/-- Every innovation covariance met by the run is invertible. -/
def Solvable : Belief n → List (LinStep n m) → Prop
  | _, [] => True
  | b, s :: ss => (s.innov (s.predict b)).det ≠ 0 ∧ Solvable (s.next b) ss

/-- Rauch-Tung-Striebel: smoothed belief at a time with filtered belief `b`, given the *next* step's model
`s` and smoothed belief `q`: `G = P A' (A P A' + Q)⁻¹`, `x + G (x_q - x⁻)`, `P + G (P_q - P⁻) G'`. -/
noncomputable def rtsStep (b : Belief n) (s : LinStep n m) (q : Belief n) : Belief n :=
  let p := s.predict b
  let G := b.P * s.Aᵀ * p.P⁻¹
  ⟨b.x + G *ᵥ (q.x - p.x), b.P + G * (q.P - p.P) * Gᵀ⟩

/-- RTS smoothing of a run whose first filtered belief is `b` and whose remaining steps are `ss`:
the smoothed beliefs of all its times. -/
noncomputable def rts : Belief n → List (LinStep n m) → List (Belief n)
  | b, [] => [b]
  | b, s :: ss =>
    match rts (s.next b) ss with
    | [] => []                                            -- never happens
    | q :: qs => rtsStep b s q :: q :: qs

/-- Smoothed beliefs of a run. -/
noncomputable def smoothed : Belief n → List (LinStep n m) → List (Belief n)
  | _, [] => []
  | b, s :: ss => rts (s.next b) ss

/-- Every predicted covariance needed by the backward pass is invertible. -/
def RtsSolvable : Belief n → List (LinStep n m) → Prop
  | _, [] => True
  | b, s :: ss => (s.predict b).P.det ≠ 0 ∧ RtsSolvable (s.next b) ss

/-- The same, for a whole run: the first step's prediction is not needed. -/
def SmoothSolvable : Belief n → List (LinStep n m) → Prop
  | _, [] => True
  | b, s :: ss => RtsSolvable (s.next b) ss

/-! ## Arrays holding real matrices -/

/-- Real matrix as an array of (exact) floats. -/
def finM {m n : ℕ} (M : Matrix (Fin m) (Fin n) ℝ) : Matrix (Fin m) (Fin n) Fl := fun i j => .fin (M i j)

/-- Real vector as an array of (exact) floats. -/
def finV {n : ℕ} (v : Fin n → ℝ) : Fin n → Fl := fun i => .fin (v i)

/-- `a` is a 2-d array holding `M`. -/
def MatIs {m n : ℕ} (M : Matrix (Fin m) (Fin n) ℝ) (a : Arr Fl) : Prop := ∃ d, a = .mat d (finM M)

/-- `a` is a 1-d array holding `v`. -/
def VecIs {n : ℕ} (v : Fin n → ℝ) (a : Arr Fl) : Prop := ∃ d, a = .vec d (finV v)

/-- A noise covariance: a matrix, or a scalar (which numpy broadcasts to *every* entry). -/
def NoiseIs {n : ℕ} (M : Matrix (Fin n) (Fin n) ℝ) (a : Arr Fl) : Prop :=
  MatIs M a ∨ ∃ d r, a = .scalar d (.fin r) ∧ M = fun _ _ => r

/-- An observation: a vector, or a scalar (broadcast to every component). -/
def ObsIs {m : ℕ} (v : Fin m → ℝ) (a : Arr Fl) : Prop :=
  VecIs v a ∨ ∃ d r, a = .scalar d (.fin r) ∧ v = fun _ => r

/-- A state: a vector, or, in dimension 1, a 1x1 matrix. -/
def StateIs {n : ℕ} (v : Fin n → ℝ) (a : Arr Fl) : Prop :=
  VecIs v a ∨ n = 1 ∧ MatIs (fun i (_ : Fin 1) => v i : Matrix (Fin n) (Fin 1) ℝ) a

/-- Rows of the returned float64 arrays holding a belief; a recorded gain. -/
def stateRow (b : Belief n) : Arr Fl := .vec .float64 (finV b.x)
def covRow (b : Belief n) : Arr Fl := .mat .float64 (finM b.P)
def gainRow (K : Matrix (Fin n) (Fin m) ℝ) : Arr Fl := .mat .float64 (finM K)

variable [Platform]

/-- The control contribution `c`: zero if the control matrix or the control vector is entirely NaN,
otherwise `B u`. -/
def CtrlIs {n : ℕ} (c : Fin n → ℝ) (Bk uk : Arr Fl) : Prop :=
  ((Bk.Blank ∨ uk.Blank) ∧ c = 0) ∨
  ∃ (p : ℕ) (B : Matrix (Fin n) (Fin p) ℝ) (u : Fin p → ℝ), MatIs B Bk ∧ VecIs u uk ∧ c = B *ᵥ u

omit [Platform] in
/-- The arrays of one measurement hold `H`, `R`, `z`. -/
structure MeasIs (H : Matrix (Fin m) (Fin n) ℝ) (R : Matrix (Fin m) (Fin m) ℝ) (z : Fin m → ℝ)
    (Hk Rk zk : Arr Fl) : Prop where
  H : MatIs H Hk
  R : NoiseIs R Rk
  z : ObsIs z zk

/-- The arrays of one time step hold the model and data `s`. -/
structure StepIs (s : LinStep n m) (Ak Hk Bk uk zk Qk Rk : Arr Fl) : Prop where
  A : MatIs s.A Ak
  H : MatIs s.H Hk
  ctrl : CtrlIs s.c Bk uk
  z : ObsIs s.z zk
  Q : NoiseIs s.Q Qk
  R : NoiseIs s.R Rk

/-- The call `kf.filter(Z, U)` (or `smooth`) is about the initial belief `b` and the model and data `ss`, in
one of the documented array layouts.  If the initial state is given as a 1x1 matrix then the observations
are scalars or there is one of them per step. -/
structure Represents (kf : KalmanFilter Fl) (Z : NDArray Fl) (U : Option (NDArray Fl))
    (b : Belief n) (ss : List (LinStep n m)) : Prop where
  iter : kf.AllIterable Z U
  len : ss.length = kf.steps Z U
  size : kf.stateSize = n
  ident : kf.I = Arr.identity n
  x : StateIs b.x kf.xk
  P : MatIs b.P kf.Pk
  rows : ∀ (k : ℕ) (s : LinStep n m) (Ak Hk Bk uk zk Qk Rk : Arr Fl), ss[k]? = some s →
    kf.A.rows[k]? = some Ak → kf.H.rows[k]? = some Hk → kf.B.rows[k]? = some Bk →
    (effU U Z).rows[k]? = some uk → Z.rows[k]? = some zk → kf.Q.rows[k]? = some Qk →
    kf.R.rows[k]? = some Rk → StepIs s Ak Hk Bk uk zk Qk Rk
  col : VecIs b.x kf.xk ∨ m = 1 ∨ ∀ z ∈ Z.rows, z.shape = []

end KK
