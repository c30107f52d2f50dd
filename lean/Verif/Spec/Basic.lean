import Verif.Model.Standard
import Verif.Model.Extended

/-!
# Vocabulary for property statements
-/

namespace KK

variable {F : Type}

namespace NDArray

/-- Python slice `a[:j]` (a 0-d array is left alone; slicing it raises anyway). -/
def take (j : ℕ) : NDArray F → NDArray F
  | .d0 d x => .d0 d x
  | .stack rows => .stack (rows.take j)

/-- Python slice `a[j:]`. -/
def drop (j : ℕ) : NDArray F → NDArray F
  | .d0 d x => .d0 d x
  | .stack rows => .stack (rows.drop j)

/-- The array can be iterated (it is not 0-d). -/
def Iterable : NDArray F → Prop
  | .d0 _ _ => False
  | .stack _ => True

/-- The rows, empty for a 0-d array. -/
def rows : NDArray F → List (Arr F)
  | .d0 _ _ => []
  | .stack r => r

end NDArray

section
variable [Backend F]

/-- The control sequence `filter` iterates over: `U`, or the NaN sentinel when `U` is `None`. -/
abbrev effU (U : Option (NDArray F)) (Z : NDArray F) : NDArray F := checkNoneAndBroadcast U Z

/-- Number of time steps `KalmanFilter.filter` processes: the length of the shortest sequence. -/
def KalmanFilter.steps (kf : KalmanFilter F) (Z : NDArray F) (U : Option (NDArray F)) : ℕ :=
  min kf.A.rows.length (min kf.H.rows.length (min kf.B.rows.length
    (min (effU U Z).rows.length (min Z.rows.length (min kf.Q.rows.length kf.R.rows.length)))))

/-- Number of time steps `ExtendedKalmanFilter.filter` processes. -/
def ExtendedKalmanFilter.steps (kf : ExtendedKalmanFilter F) (Z : NDArray F)
    (U : Option (NDArray F)) : ℕ :=
  min (effU U Z).rows.length (min Z.rows.length (min kf.Q.rows.length kf.R.rows.length))

/-- No argument or parameter sequence is a 0-d array. -/
structure KalmanFilter.AllIterable (kf : KalmanFilter F) (Z : NDArray F) (U : Option (NDArray F)) :
    Prop where
  A : kf.A.Iterable
  H : kf.H.Iterable
  B : kf.B.Iterable
  U : (effU U Z).Iterable
  Z : Z.Iterable
  Q : kf.Q.Iterable
  R : kf.R.Iterable

/-- No argument or parameter sequence is a 0-d array. -/
structure ExtendedKalmanFilter.AllIterable (kf : ExtendedKalmanFilter F) (Z : NDArray F)
    (U : Option (NDArray F)) : Prop where
  U : (effU U Z).Iterable
  Z : Z.Iterable
  Q : kf.Q.Iterable
  R : kf.R.Iterable

/-- The same filter with all parameter sequences cut to their first `j` rows. -/
def KalmanFilter.takeParams (kf : KalmanFilter F) (j : ℕ) : KalmanFilter F :=
  { kf with A := kf.A.take j, B := kf.B.take j, H := kf.H.take j, Q := kf.Q.take j, R := kf.R.take j }

/-- The same filter with the first `j` rows of all parameter sequences removed. -/
def KalmanFilter.dropParams (kf : KalmanFilter F) (j : ℕ) : KalmanFilter F :=
  { kf with A := kf.A.drop j, B := kf.B.drop j, H := kf.H.drop j, Q := kf.Q.drop j, R := kf.R.drop j }

def ExtendedKalmanFilter.takeParams (kf : ExtendedKalmanFilter F) (j : ℕ) : ExtendedKalmanFilter F :=
  { kf with Q := kf.Q.take j, R := kf.R.take j }

def ExtendedKalmanFilter.dropParams (kf : ExtendedKalmanFilter F) (j : ℕ) : ExtendedKalmanFilter F :=
  { kf with Q := kf.Q.drop j, R := kf.R.drop j }

/-- Two sequences agree on their first `j` rows. -/
def NDArray.AgreeTo (j : ℕ) (a b : NDArray F) : Prop := a.rows.take j = b.rows.take j

/-- Two optional sequences agree on their first `j` rows. -/
def AgreeToOpt (j : ℕ) : Option (NDArray F) → Option (NDArray F) → Prop
  | none, none => True
  | some a, some b => a.AgreeTo j b
  | _, _ => False

/-- Arithmetic in which `+`, `-` and dot products propagate NaN (true of IEEE-754). -/
class NanLaws (F : Type) [Backend F] : Prop where
  isnan_nan : Backend.isnan (Backend.nan : F) = true
  add_left : ∀ a b : F, Backend.isnan a = true → Backend.isnan (Backend.add a b) = true
  add_right : ∀ a b : F, Backend.isnan b = true → Backend.isnan (Backend.add a b) = true
  sub_left : ∀ a b : F, Backend.isnan a = true → Backend.isnan (Backend.sub a b) = true
  sub_right : ∀ a b : F, Backend.isnan b = true → Backend.isnan (Backend.sub a b) = true
  gemm_left : ∀ {m k n : ℕ} (A : Matrix (Fin m) (Fin k) F) (B : Matrix (Fin k) (Fin n) F) i l j,
    Backend.isnan (A i l) = true → Backend.isnan (Backend.gemm A B i j) = true
  gemm_right : ∀ {m k n : ℕ} (A : Matrix (Fin m) (Fin k) F) (B : Matrix (Fin k) (Fin n) F) i l j,
    Backend.isnan (B l j) = true → Backend.isnan (Backend.gemm A B i j) = true

/-- Every entry of the array is NaN. -/
def Arr.AllNan (a : Arr F) : Prop :=
  match a with
  | .scalar _ x => Backend.isnan x = true
  | .vec _ v => ∀ i, Backend.isnan (v i) = true
  | .mat _ M => ∀ i j, Backend.isnan (M i j) = true

/-- Every entry of the array is a floating-point NaN (integer entries never are; an array without entries
qualifies). This is the documented way to say "no control". -/
def Arr.Blank (a : Arr F) : Prop :=
  match a with
  | .scalar d x => d = .float64 ∧ Backend.isnan x = true
  | .vec d v => ∀ i, d = .float64 ∧ Backend.isnan (v i) = true
  | .mat d M => ∀ i j, d = .float64 ∧ Backend.isnan (M i j) = true

/-- Some entry of the array is NaN. -/
def Arr.SomeNan (a : Arr F) : Prop :=
  match a with
  | .scalar _ x => Backend.isnan x = true
  | .vec _ v => ∃ i, Backend.isnan (v i) = true
  | .mat _ M => ∃ i j, Backend.isnan (M i j) = true

/-- The documented per-step array layout of the standard filter: state dimension `n`, observation
dimension `m`; observations may be scalars, noise covariances may be scalars, the control pair is
either switched off (one of them all-NaN) or `(n,p)`, `(p,)`. -/
structure RowLayout (n m : ℕ) (Ak Hk Bk uk zk Qk Rk : Arr F) : Prop where
  A : Ak.shape = [n, n]
  H : Hk.shape = [m, n]
  control : Bk.Blank ∨ uk.Blank ∨ ∃ p, Bk.shape = [n, p] ∧ uk.shape = [p]
  z : zk.shape = [m] ∨ zk.shape = []
  Q : Qk.shape = [n, n] ∨ Qk.shape = []
  R : Rk.shape = [m, m] ∨ Rk.shape = []

/-- All processed steps of a call `kf.filter(Z, U)` have the documented layout, the initial state has
shape `(n,)`, the initial covariance `(n,n)`, and `state_size` is `n`. -/
structure Layout (n m : ℕ) (kf : KalmanFilter F) (Z : NDArray F) (U : Option (NDArray F)) : Prop where
  x : kf.xk.shape = [n]
  P : kf.Pk.shape = [n, n]
  size : kf.stateSize = n
  ident : kf.I = Arr.identity n
  rows : ∀ (k : ℕ) (Ak Hk Bk uk zk Qk Rk : Arr F), kf.A.rows[k]? = some Ak → kf.H.rows[k]? = some Hk →
    kf.B.rows[k]? = some Bk → (effU U Z).rows[k]? = some uk → Z.rows[k]? = some zk →
    kf.Q.rows[k]? = some Qk → kf.R.rows[k]? = some Rk → RowLayout n m Ak Hk Bk uk zk Qk Rk

/-- Well-shaped extended filter run: callbacks map a state of shape `(n,)` to a state of shape `(n,)`,
an `(n,n)` Jacobian, an `(m,)` observation (or a scalar when `m = 1`, as in examples/pendulum.py 41-42) and an
`(m,n)` Jacobian (or raise). -/
structure ExtLayout (n m : ℕ) (kf : ExtendedKalmanFilter F) (Z : NDArray F)
    (U : Option (NDArray F)) : Prop where
  x : kf.xk.shape = [n]
  P : kf.Pk.shape = [n, n]
  size : kf.stateSize = n
  ident : kf.I = Arr.identity n
  f : ∀ x u y, x.shape = [n] → kf.f x u = .ok y → y.shape = [n]
  jA : ∀ x u y, x.shape = [n] → kf.jacobianA x u = .ok y → y.shape = [n, n]
  h : ∀ x y, x.shape = [n] → kf.h x = .ok y → y.shape = [m] ∨ m = 1 ∧ y.shape = []
  jH : ∀ x y, x.shape = [n] → kf.jacobianH x = .ok y → y.shape = [m, n]
  z : ∀ a ∈ Z.rows, a.shape = [m] ∨ a.shape = []
  Q : ∀ a ∈ kf.Q.rows, a.shape = [n, n] ∨ a.shape = []
  R : ∀ a ∈ kf.R.rows, a.shape = [m, m] ∨ a.shape = []

end

/-! ## API calls and histories -/

section
variable [Backend F]

/-- One public method call on a `KalmanFilter` with arbitrary arguments. -/
inductive KalmanFilter.Call (F : Type) where
  | predict (Ak xk : Arr F) (Bk uk : Option (Arr F)) (Pk Qk : Arr F)
  | update (Hk xk Pk zk Rk : Arr F)
  | filter (Z : NDArray F) (U : Option (NDArray F))
  | smooth (Z : NDArray F) (U : Option (NDArray F))

/-- One public method call on an `ExtendedKalmanFilter`. -/
inductive ExtendedKalmanFilter.Call (F : Type) where
  | predict (xk : Arr F) (uk : Option (Arr F)) (Pk Qk : Arr F)
  | update (xk Pk zk Rk : Arr F)
  | filter (Z : NDArray F) (U : Option (NDArray F))
  | smooth (Z : NDArray F) (U : Option (NDArray F))

/-- What a call gives back: a pair of arrays, a pair of row lists, or an exception. -/
inductive Outcome (F : Type) where
  | pair (r : Except PyErr (Arr F × Arr F))
  | rows (r : Except PyErr (List (Arr F) × List (Arr F)))

/-- Perform a call: outcome and new object state. -/
def KalmanFilter.exec (kf : KalmanFilter F) : KalmanFilter.Call F → Outcome F × KalmanFilter F
  | .predict Ak xk Bk uk Pk Qk => (.pair (KalmanFilter.predict Ak xk Bk uk Pk Qk), kf)
  | .update Hk xk Pk zk Rk =>
    let r := (KalmanFilter.update Hk xk Pk zk Rk).run kf
    (.pair r.1, r.2)
  | .filter Z U =>
    let r := (KalmanFilter.filter Z U).run kf
    (.rows r.1, r.2)
  | .smooth Z U =>
    let r := (KalmanFilter.smooth Z U).run kf
    (.rows r.1, r.2)

def ExtendedKalmanFilter.exec (kf : ExtendedKalmanFilter F) :
    ExtendedKalmanFilter.Call F → Outcome F × ExtendedKalmanFilter F
  | .predict xk uk Pk Qk => (.pair (kf.predict xk uk Pk Qk), kf)
  | .update xk Pk zk Rk =>
    let r := (ExtendedKalmanFilter.update xk Pk zk Rk).run kf
    (.pair r.1, r.2)
  | .filter Z U =>
    let r := (ExtendedKalmanFilter.filter Z U).run kf
    (.rows r.1, r.2)
  | .smooth Z U =>
    let r := (ExtendedKalmanFilter.smooth Z U).run kf
    (.rows r.1, r.2)

/-- The object after a history of calls. -/
def KalmanFilter.after (kf : KalmanFilter F) (hist : List (KalmanFilter.Call F)) : KalmanFilter F :=
  hist.foldl (fun kf c => (kf.exec c).2) kf

def ExtendedKalmanFilter.after (kf : ExtendedKalmanFilter F)
    (hist : List (ExtendedKalmanFilter.Call F)) : ExtendedKalmanFilter F :=
  hist.foldl (fun kf c => (kf.exec c).2) kf

end

end KK
