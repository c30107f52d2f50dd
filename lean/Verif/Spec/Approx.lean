import Verif.Spec.Textbook
import Verif.Model.Extended

/-!
# Inexact arithmetic

`Fl` values stand for floating-point numbers: NaN (also for infinities) or a real number.  A `Backend Fl` other than the
exact one is an inexact arithmetic on them.  `Accurate η B` says that the arithmetic `B` is accurate to `η` on operands
that are not larger than `1 / η`, not longer than `1 / η` and, for `solve`, not closer to singular than `η`.  For every
`η`, a floating-point arithmetic with enough digits and exponent range, a dot product in any order and Gaussian
elimination with pivoting qualify (Spec/Float, C94).
-/

namespace KK

open Matrix

/-- Both NaN, or numbers at distance at most `ε`. -/
def Fl.Close (ε : ℝ) (x y : Fl) : Prop := x.isNan = y.isNan ∧ |x.toReal - y.toReal| ≤ ε

/-- Same dtype and shape, and every entry close. -/
def Arr.Close (ε : ℝ) : Arr Fl → Arr Fl → Prop
  | .scalar d x, b => ∃ y, b = .scalar d y ∧ x.Close ε y
  | .vec (n := n) d v, b => ∃ w : Fin n → Fl, b = .vec d w ∧ ∀ i, (v i).Close ε (w i)
  | .mat (m := m) (n := n) d M, b => ∃ N : Matrix (Fin m) (Fin n) Fl, b = .mat d N ∧ ∀ i j, (M i j).Close ε (N i j)

/-- Row by row. -/
def NDArray.Close (ε : ℝ) : NDArray Fl → NDArray Fl → Prop
  | .d0 d x, b => ∃ y, b = .d0 d y ∧ x.Close ε y
  | .stack rows, b => ∃ rows', b = .stack rows' ∧ List.Forall₂ (Arr.Close ε) rows rows'

/-- `None` against `None`, otherwise row by row. -/
def CloseOpt (ε : ℝ) : Option (NDArray Fl) → Option (NDArray Fl) → Prop
  | none, U' => U' = none
  | some U, U' => ∃ V, U' = some V ∧ U.Close ε V

/-- Filter objects with close attributes. -/
structure KalmanFilter.Close (ε : ℝ) (kf kf' : KalmanFilter Fl) : Prop where
  A : kf.A.Close ε kf'.A
  xk : kf.xk.Close ε kf'.xk
  B : kf.B.Close ε kf'.B
  Pk : kf.Pk.Close ε kf'.Pk
  H : kf.H.Close ε kf'.H
  Q : kf.Q.Close ε kf'.Q
  R : kf.R.Close ε kf'.R
  stateSize : kf'.stateSize = kf.stateSize
  I : kf.I.Close ε kf'.I
  kalmanGains : List.Forall₂ (Arr.Close ε) kf.kalmanGains kf'.kalmanGains

/-- An arithmetic that is accurate to `η` for operands of moderate size (`nanInt` is what NaN becomes as an int64). -/
structure Accurate (nanInt η : ℝ) (B : Backend Fl) : Prop where
  zero : B.zero = .fin 0
  one : B.one = .fin 1
  nan : B.nan = .nan
  nanInt : B.nanInt = .fin nanInt
  isnan : ∀ x, B.isnan x = x.isNan
  add_nan : ∀ x y : Fl, x = .nan ∨ y = .nan → B.add x y = .nan
  add : ∀ x y : ℝ, |x| ≤ 1 / η → |y| ≤ 1 / η → ∃ r : ℝ, B.add (.fin x) (.fin y) = .fin r ∧ |r - (x + y)| ≤ η
  sub_nan : ∀ x y : Fl, x = .nan ∨ y = .nan → B.sub x y = .nan
  sub : ∀ x y : ℝ, |x| ≤ 1 / η → |y| ≤ 1 / η → ∃ r : ℝ, B.sub (.fin x) (.fin y) = .fin r ∧ |r - (x - y)| ≤ η
  gemm_nan : ∀ {m k n : ℕ} (S : Matrix (Fin m) (Fin k) Fl) (T : Matrix (Fin k) (Fin n) Fl) (i : Fin m) (j : Fin n)
    (l : Fin k), S i l = .nan ∨ T l j = .nan → B.gemm S T i j = .nan
  gemm : ∀ {m k n : ℕ} (S : Matrix (Fin m) (Fin k) Fl) (T : Matrix (Fin k) (Fin n) Fl) (i : Fin m) (j : Fin n)
    (x y : Fin k → ℝ), (k : ℝ) ≤ 1 / η → (∀ l, S i l = .fin (x l) ∧ T l j = .fin (y l) ∧ |x l| ≤ 1 / η ∧ |y l| ≤ 1 / η) →
    ∃ r : ℝ, B.gemm S T i j = .fin r ∧ |r - ∑ l, x l * y l| ≤ η
  solve : ∀ {n k : ℕ} (S : Matrix (Fin n) (Fin n) ℝ) (T : Matrix (Fin n) (Fin k) ℝ), (n : ℝ) ≤ 1 / η → (k : ℝ) ≤ 1 / η →
    (∀ i j, |S i j| ≤ 1 / η) → (∀ i j, |T i j| ≤ 1 / η) → η ≤ |S.det| →
    ∃ X : Matrix (Fin n) (Fin k) ℝ, B.solve (finM S) (finM T) = some (finM X) ∧ ∀ i j, |X i j - (S⁻¹ * T) i j| ≤ η

/-! ## Callbacks -/

/-- Every entry that is not NaN is at most `C` in size. -/
def Arr.Within (C : ℝ) : Arr Fl → Prop
  | .scalar _ x => |x.toReal| ≤ C
  | .vec _ v => ∀ i, |(v i).toReal| ≤ C
  | .mat _ M => ∀ i j, |(M i j).toReal| ≤ C

/-- Every entry that is not NaN and every dimension is at most `D`. -/
def Arr.Small (D : ℝ) (a : Arr Fl) : Prop := a.Within D ∧ ∀ k ∈ a.shape, (k : ℝ) ≤ D

/-- All the rows a call `kf.filter(Z, U)` iterates over are `Small`, however many there are. -/
def InputsWithin [Platform] (D : ℝ) (kf : KalmanFilter Fl) (Z : NDArray Fl) (U : Option (NDArray Fl)) : Prop :=
  ∀ a : Arr Fl, a ∈ kf.A.rows ∨ a ∈ kf.H.rows ∨ a ∈ kf.B.rows ∨ a ∈ (effU U Z).rows ∨ a ∈ Z.rows ∨ a ∈ kf.Q.rows ∨
    a ∈ kf.R.rows → a.Small D

/-- The same for the extended filter. -/
def ExtInputsWithin [Platform] (D : ℝ) (kf : ExtendedKalmanFilter Fl) (Z : NDArray Fl) (U : Option (NDArray Fl)) : Prop :=
  ∀ a : Arr Fl, a ∈ (effU U Z).rows ∨ a ∈ Z.rows ∨ a ∈ kf.Q.rows ∨ a ∈ kf.R.rows → a.Small D

/-- A callback of one argument is continuous wherever it returns. -/
def ContinuousAtReturns (g : Arr Fl → Except PyErr (Arr Fl)) : Prop :=
  ∀ x y, g x = .ok y → ∀ ε > 0, ∃ δ > 0, ∀ x', x.Close δ x' → ∃ y', g x' = .ok y' ∧ y.Close ε y'

/-- The same for callbacks of a state and a control. -/
def ContinuousAtReturns₂ (g : Arr Fl → Option (Arr Fl) → Except PyErr (Arr Fl)) : Prop :=
  ∀ x u y, g x (some u) = .ok y → ∀ ε > 0, ∃ δ > 0, ∀ x' u', x.Close δ x' → u.Close δ u' →
    ∃ y', g x' (some u') = .ok y' ∧ y.Close ε y'

/-- `g'` computes `g` to accuracy `η`, for arguments of moderate size. -/
def Computes (η : ℝ) (g g' : Arr Fl → Except PyErr (Arr Fl)) : Prop :=
  ∀ x y, x.Within (1 / η) → g x = .ok y → ∃ y', g' x = .ok y' ∧ y.Close η y'

/-- The same for callbacks of a state and a control. -/
def Computes₂ (η : ℝ) (g g' : Arr Fl → Option (Arr Fl) → Except PyErr (Arr Fl)) : Prop :=
  ∀ x u y, x.Within (1 / η) → u.Within (1 / η) → g x (some u) = .ok y → ∃ y', g' x (some u) = .ok y' ∧ y.Close η y'

/-- The callbacks of an extended filter are continuous. -/
structure ExtendedKalmanFilter.ContinuousCallbacks (kf : ExtendedKalmanFilter Fl) : Prop where
  f : ContinuousAtReturns₂ kf.f
  jacobianA : ContinuousAtReturns₂ kf.jacobianA
  h : ContinuousAtReturns kf.h
  jacobianH : ContinuousAtReturns kf.jacobianH

/-- Extended filter objects with close attributes; the callbacks of `kf'` compute those of `kf` with accuracy `η`. -/
structure ExtendedKalmanFilter.Close (η : ℝ) (kf kf' : ExtendedKalmanFilter Fl) : Prop where
  f : Computes₂ η kf.f kf'.f
  jacobianA : Computes₂ η kf.jacobianA kf'.jacobianA
  h : Computes η kf.h kf'.h
  jacobianH : Computes η kf.jacobianH kf'.jacobianH
  xk : kf.xk.Close η kf'.xk
  Pk : kf.Pk.Close η kf'.Pk
  Q : kf.Q.Close η kf'.Q
  R : kf.R.Close η kf'.R
  stateSize : kf'.stateSize = kf.stateSize
  I : kf.I.Close η kf'.I
  kalmanGains : List.Forall₂ (Arr.Close η) kf.kalmanGains kf'.kalmanGains

end KK
