import Verif.Model.Standard
import Verif.Model.Extended

/-!
# Conformance runs (tests, not proofs)

The generic model is instantiated with Lean's `Float` and run on the data of
`/repo/tests/test_standard.py` and `/repo/tests/test_extended.py`; the expected numbers are those of the
repository's own tests.  This is a sanity check of the reading of the code; nothing is proved here.
-/

namespace KK.Test

@[noinline] def materialize {m n : ℕ} (f : Fin m → Fin n → Float) : Array Float :=
  Array.ofFn fun (k : Fin (m * n)) =>
    if h : 0 < n then
      f ⟨k / n, Nat.div_lt_of_lt_mul (Nat.lt_of_lt_of_eq k.2 (Nat.mul_comm m n))⟩ ⟨k % n, Nat.mod_lt _ h⟩
    else 0

@[noinline] def lookup {m n : ℕ} (a : Array Float) : Fin m → Fin n → Float :=
  fun i j => a[i.1 * n + j.1]!

def gemmF {m k n : ℕ} (A : Matrix (Fin m) (Fin k) Float) (B : Matrix (Fin k) (Fin n) Float) :
    Array Float :=
  materialize (m := m) (n := n) fun i j => (List.finRange k).foldl (fun s l => s + A i l * B l j) 0

/-- Gauss-Jordan elimination with partial pivoting on the augmented matrix (rows as arrays). -/
def gaussJordan (n : ℕ) (M : Array (Array Float)) : Option (Array (Array Float)) := Id.run do
  let mut M := M
  for c in [0:n] do
    let mut p := c
    for r in [c:n] do
      if (M[r]!)[c]!.abs > (M[p]!)[c]!.abs then p := r
    if (M[p]!)[c]! == 0 then return none
    let rp := M[p]!
    M := (M.set! p M[c]!).set! c (rp.map (· / rp[c]!))
    let rc := M[c]!
    for r in [0:n] do
      if r != c then
        let fr := (M[r]!)[c]!
        M := M.set! r ((M[r]!).mapIdx fun j v => v - fr * rc[j]!)
  return some M

def solveF {n k : ℕ} (A : Matrix (Fin n) (Fin n) Float) (B : Matrix (Fin n) (Fin k) Float) :
    Option (Array Float) :=
  let aug := Array.ofFn fun i : Fin n => (Array.ofFn fun j => A i j) ++ (Array.ofFn fun j => B i j)
  (gaussJordan n aug).map fun M =>
    materialize (m := n) (n := k) fun i j => (M[i.1]!)[n + j.1]!

instance : Backend Float where
  zero := 0
  one := 1
  nan := 0.0 / 0.0
  nanInt := -9223372036854775808.0
  isnan := Float.isNaN
  add := (· + ·)
  sub := (· - ·)
  gemm A B := lookup (gemmF A B)
  solve A B := (solveF A B).map fun a => lookup a

/-- Flatten to a list of entries. -/
def entries : Arr Float → List Float
  | .scalar _ x => [x]
  | .vec _ v => List.ofFn v
  | .mat _ M => (List.ofFn fun i => List.ofFn (M i)).flatten

/-- Copy, so that closures do not build up. -/
def vecOf (l : List Float) : Arr Float := .vec (n := l.length) .float64 fun i => l[i]
def matOf (r c : ℕ) (l : List Float) : Arr Float :=
  .mat (m := r) (n := c) .float64 fun i j => l[i.1 * c + j.1]!
def num (x : Float) : Arr Float := .scalar .float64 x

def check (what : String) (tol : Float) (got want : List Float) : IO Unit := do
  unless got.length == want.length && (got.zip want).all fun (a, b) => (a - b).abs <= tol do
    throw (IO.userError s!"{what}: got {got}, want {want}")

def run! {σ α : Type} (x : Py σ α) (s : σ) : IO (α × σ) :=
  match x.run s with
  | (.ok a, s') => pure (a, s')
  | (.error e, _) => throw (IO.userError s!"{repr e}")

def get! {α : Type} : Except PyErr α → IO α
  | .ok a => pure a
  | .error e => throw (IO.userError s!"{repr e}")

def data : List Float := [0.39, 0.50, 0.48, 0.29, 0.25, 0.32, 0.34, 0.48, 0.41, 0.45]
def seq (rows : List (Arr Float)) : NDArray Float := .stack rows
def T := data.length

/-- tests/test_standard.py `test_filter` and tests/test_extended.py `test_extended_equal_to_standard`. -/
def expStates : List Float := [0.35454545, 0.42380952, 0.44193548, 0.40487805, 0.3745098, 0.36557377,
  0.36197183, 0.37654321, 0.38021978, 0.38712871]
def expCovs : List Float := [0.09090909, 0.04761905, 0.03225806, 0.02439024, 0.01960784, 0.01639344,
  0.01408451, 0.01234568, 0.01098901, 0.00990099]

def testFilter : IO Unit := do
  let one := matOf 1 1 [1]
  let rep (a : Arr Float) := seq (List.replicate T a)
  let kf ← get! (KalmanFilter.new (rep one) (matOf 1 1 [0]) (some (rep (matOf 1 1 [0]))) one
    (rep one) (rep (num 0)) (rep (num 0.1)))
  let Z := seq (data.map num)
  let U := rep (vecOf [0])
  let ((xs, Ps), kf') ← run! (KalmanFilter.filter Z (some U)) kf
  check "states" 1e-6 (xs.map entries).flatten expStates
  check "covs" 1e-6 (Ps.map entries).flatten expCovs
  unless kf'.kalmanGains.length == T do throw (IO.userError "gains")
  let ekf ← get! (ExtendedKalmanFilter.new (matOf 1 1 [0]) one (rep (num 0)) (rep (num 0.1))
    (fun x u => match u with | some u => x.add u | none => .error .typeError) (fun x => .ok x)
    (fun _ _ => .ok one) (fun _ => .ok one))
  let ((xs, Ps), _) ← run! (ExtendedKalmanFilter.filter Z (some U)) ekf
  check "ekf states" 1e-6 (xs.map entries).flatten expStates
  check "ekf covs" 1e-6 (Ps.map entries).flatten expCovs

/-- tests/test_standard.py `test_smooth`. -/
def testSmooth : IO Unit := do
  let one := matOf 1 1 [1]
  let rep (a : Arr Float) := seq (List.replicate T a)
  let kf ← get! (KalmanFilter.new (rep one) one none one (rep one) (rep (num 0.005)) (rep (num 0.01)))
  let ((xs, Ps), _) ← run! (KalmanFilter.smooth (seq (data.map num)) none) kf
  check "smooth means" 1.5e-5 (xs.map entries).flatten
    [0.42001, 0.43213, 0.41032, 0.35367, 0.32886, 0.34347, 0.36981, 0.41107, 0.41786, 0.42857]
  check "smooth covs" 1.5e-5 (Ps.map entries).flatten
    [0.00498, 0.00374, 0.00344, 0.00336, 0.00334, 0.00334, 0.00336, 0.00344, 0.00375, 0.005]

#eval testFilter
#eval testSmooth

end KK.Test
