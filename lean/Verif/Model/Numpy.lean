import Mathlib.Data.Matrix.Basic

/-!
# The numpy subset used by kalmankit

Everything here models *numpy* behaviour that `/repo/src/kalmankit/*.py` relies on; each definition
names the expressions of the library that use it.  Arithmetic is abstract (`Backend`): the functions
below only fix shapes, dtypes, broadcasting, and which exception is raised.

Simplifications (also listed in DESIGN.md): per-step arrays have rank 0, 1 or 2; dtypes are `int64`
and `float64` only, and integer arithmetic uses the same operations as float arithmetic (no int64
overflow); warnings are not modelled.
-/

namespace KK

/-- Exceptions that the modelled code can raise.  `user` stands for whatever a user callback of
`ExtendedKalmanFilter` raises (extended.py 179, 182, 231, 241, 372). -/
inductive PyErr where
  | valueError
  | typeError
  | indexError
  | linAlgError
  | attributeError
  | user (msg : String)
deriving DecidableEq, Repr

/-- dtype tag of an array; only used to decide what `np.full_like(a, np.nan)` stores
(utils.py 33) and what `np.isnan` answers (utils.py 51). -/
inductive DType where
  | int64
  | float64
deriving DecidableEq, Repr

/-- numpy type promotion for the two dtypes. -/
def DType.promote : DType → DType → DType
  | .int64, .int64 => .int64
  | _, _ => .float64

/-- Abstract arithmetic: the scalar type `F` with the primitive operations numpy/BLAS/LAPACK provide.
No law is assumed; IEEE doubles with any BLAS are an instance.
`nanInt` is the value `np.nan` becomes when cast to int64 (platform dependent).
`solve` returns `none` iff LAPACK `gesv` reports a singular matrix. -/
class Backend (F : Type) where
  zero : F
  one : F
  nan : F
  nanInt : F
  isnan : F → Bool
  add : F → F → F
  sub : F → F → F
  gemm : {m k n : ℕ} → Matrix (Fin m) (Fin k) F → Matrix (Fin k) (Fin n) F →
    Matrix (Fin m) (Fin n) F
  solve : {n k : ℕ} → Matrix (Fin n) (Fin n) F → Matrix (Fin n) (Fin k) F →
    Option (Matrix (Fin n) (Fin k) F)

/-- A numpy array (or numpy scalar) of rank 0, 1 or 2. -/
inductive Arr (F : Type) where
  | scalar (dt : DType) (x : F)
  | vec (dt : DType) {n : ℕ} (v : Fin n → F)
  | mat (dt : DType) {m n : ℕ} (M : Matrix (Fin m) (Fin n) F)

namespace Arr

variable {F : Type}

/-- `a.shape`. -/
def shape : Arr F → List ℕ
  | .scalar _ _ => []
  | .vec (n := n) _ _ => [n]
  | .mat (m := m) (n := n) _ _ => [m, n]

/-- `a.dtype`. -/
def dtype : Arr F → DType
  | .scalar d _ => d
  | .vec d _ => d
  | .mat d _ => d

/-- `a.T` (standard.py 185, 238, 241, 379, 382; extended.py 185, 234, 237, 375, 377; no effect below
rank 2). -/
def T : Arr F → Arr F
  | .mat d M => .mat d M.transpose
  | a => a

/-- Common length of two axes under numpy broadcasting. -/
def bdim (a b : ℕ) : Except PyErr ℕ :=
  if a = b then .ok a
  else if a = 1 then .ok b
  else if b = 1 then .ok a
  else .error .valueError

/-- Stretch an axis of length `n` to length `d` (`n = d` or `n = 1`), else ValueError. -/
def stretch {α : Type} {n : ℕ} (d : ℕ) (v : Fin n → α) : Except PyErr (Fin d → α) :=
  if h : n = d then .ok fun i => v (i.cast h.symm)
  else if h : n = 1 then .ok fun _ => v ⟨0, by omega⟩
  else .error .valueError

/-- `np.broadcast_to(a, (r, c))`. -/
def toMat (r c : ℕ) : Arr F → Except PyErr (Matrix (Fin r) (Fin c) F)
  | .scalar _ x => .ok fun _ _ => x
  | .vec _ v => do
    let w ← stretch c v
    .ok fun _ => w
  | .mat _ M => do
    let M' ← stretch r M
    let N ← stretch c fun j i => M' i j
    .ok fun i j => N j i

/-- Shape padded on the left with ones to rank 2. -/
def dims2 : Arr F → ℕ × ℕ
  | .scalar _ _ => (1, 1)
  | .vec (n := n) _ _ => (1, n)
  | .mat (m := m) (n := n) _ _ => (m, n)

/-- Element-wise binary operation with a rank-2 result. -/
def zipWith2 (f : F → F → F) (a b : Arr F) : Except PyErr (Arr F) := do
  let r ← bdim a.dims2.1 b.dims2.1
  let c ← bdim a.dims2.2 b.dims2.2
  let A ← a.toMat r c
  let B ← b.toMat r c
  .ok (.mat (a.dtype.promote b.dtype) fun i j => f (A i j) (B i j))

/-- Element-wise binary operation with numpy broadcasting. -/
def zipWith (f : F → F → F) (a b : Arr F) : Except PyErr (Arr F) :=
  match a, b with
  | .scalar d x, .scalar e y => .ok (.scalar (d.promote e) (f x y))
  | .scalar d x, .vec e w => .ok (.vec (d.promote e) fun i => f x (w i))
  | .vec d v, .scalar e y => .ok (.vec (d.promote e) fun i => f (v i) y)
  | .vec (n := n) d v, .vec (n := n') e w => do
    let k ← bdim n n'
    let v' ← stretch k v
    let w' ← stretch k w
    .ok (.vec (d.promote e) fun i => f (v' i) (w' i))
  | a, b => zipWith2 f a b

variable [Backend F]

/-- `a + b`. -/
def add (a b : Arr F) : Except PyErr (Arr F) := zipWith Backend.add a b

/-- `a - b`. -/
def sub (a b : Arr F) : Except PyErr (Arr F) := zipWith Backend.sub a b

/-- `a @ b` for ranks 0, 1, 2: rank-0 operands are rejected, rank-1 operands are promoted to a row
(left) or column (right) and the added axis is removed from the result; inner dimensions must agree. -/
def matmul (a b : Arr F) : Except PyErr (Arr F) :=
  match a, b with
  | .scalar _ _, _ => .error .valueError
  | _, .scalar _ _ => .error .valueError
  | .vec (n := k) d v, .vec (n := k') e w =>
    if h : k = k' then
      .ok (.scalar (d.promote e)
        (Backend.gemm (m := 1) (n := 1) (fun _ i => v i) (fun i _ => w (i.cast h)) 0 0))
    else .error .valueError
  | .mat (n := k) d M, .vec (n := k') e w =>
    if h : k = k' then
      .ok (.vec (d.promote e)
        fun i => Backend.gemm (n := 1) M (fun i _ => w (i.cast h)) i 0)
    else .error .valueError
  | .vec (n := k) d v, .mat (m := k') e N =>
    if h : k = k' then
      .ok (.vec (d.promote e)
        fun j => Backend.gemm (m := 1) (fun _ i => v i) (fun i j => N (i.cast h) j) 0 j)
    else .error .valueError
  | .mat (n := k) d M, .mat (m := k') e N =>
    if h : k = k' then
      .ok (.mat (d.promote e) (Backend.gemm M fun i j => N (i.cast h) j))
    else .error .valueError

/-- `np.atleast_1d(a)` (standard.py 245, extended.py 241). -/
def atleast1d : Arr F → Arr F
  | .scalar d x => .vec (n := 1) d fun _ => x
  | a => a

/-- `np.identity(n)` (standard.py 129, extended.py 141). -/
def identity (n : ℕ) : Arr F :=
  .mat .float64 fun (i j : Fin n) => if i = j then Backend.one else Backend.zero

/-- `np.linalg.solve(a, b)` (standard.py 241, 379; extended.py 237, 375): `a` must have rank 2 and be
square (LinAlgError otherwise), `b` rank 1 or 2 with matching rows (ValueError otherwise); a singular
`a` raises LinAlgError; the result is float64. -/
def solve (a b : Arr F) : Except PyErr (Arr F) :=
  match a with
  | .mat (m := m) (n := n) _ M =>
    if h : m = n then
      match b with
      | .scalar _ _ => .error .valueError
      | .vec (n := k) _ w =>
        if hk : n = k then
          match Backend.solve (fun i j => M (i.cast h.symm) j)
              (fun i (_ : Fin 1) => w (i.cast hk)) with
          | none => .error .linAlgError
          | some X => .ok (.vec .float64 fun i => X i 0)
        else .error .valueError
      | .mat (m := k) _ N =>
        if hk : n = k then
          match Backend.solve (fun i j => M (i.cast h.symm) j) (fun i j => N (i.cast hk) j) with
          | none => .error .linAlgError
          | some X => .ok (.mat .float64 X)
        else .error .valueError
    else .error .linAlgError
  | _ => .error .linAlgError

/-- The value stored by `np.full_like(a, np.nan)` in an array of the given dtype (utils.py 33). -/
def nanFill : DType → F
  | .float64 => Backend.nan
  | .int64 => Backend.nanInt

/-- `np.full_like(a, np.nan)` on one array (utils.py 33): same shape, same dtype. -/
def fullLikeNan : Arr F → Arr F
  | .scalar d _ => .scalar d (nanFill d)
  | .vec (n := n) d _ => .vec (n := n) d fun _ => nanFill d
  | .mat (m := m) (n := n) d _ => .mat (m := m) (n := n) d fun _ _ => nanFill d

/-- `np.isnan` of one entry of an array of dtype `d`: integers are never NaN. -/
def isnanEntry : DType → F → Bool
  | .float64, x => Backend.isnan x
  | .int64, _ => false

/-- `np.isnan(a).all()` (utils.py 51). -/
def isnanAll : Arr F → Bool
  | .scalar d x => isnanEntry d x
  | .vec d v => decide (∀ i, isnanEntry d (v i) = true)
  | .mat d M => decide (∀ i j, isnanEntry d (M i j) = true)

/-- Row `0.` of shape `(s,)`: one row of `np.zeros((len(Z), state_size))`. -/
def zerosVec (s : ℕ) : Arr F := .vec (n := s) .float64 fun _ => Backend.zero

/-- One row of `np.zeros((len(Z), state_size, state_size))`. -/
def zerosMat (s : ℕ) : Arr F := .mat (m := s) (n := s) .float64 fun _ _ => Backend.zero

/-- `out[k] = a` where `out` is a float array with rows of shape `(s,)` (standard.py 303, 380;
extended.py 297, 376): `a` is broadcast to `(s,)`; numpy also drops leading axes of length 1. -/
def assignVec (s : ℕ) : Arr F → Except PyErr (Arr F)
  | .scalar _ x => .ok (.vec (n := s) .float64 fun _ => x)
  | .vec _ v => do
    let w ← stretch s v
    .ok (.vec .float64 w)
  | .mat (m := m) _ M =>
    if h : m = 1 then do
      let w ← stretch s (M ⟨0, by omega⟩)
      .ok (.vec .float64 w)
    else .error .valueError

/-- `out[k] = a` where `out` is a float array with rows of shape `(s, s)` (standard.py 304, 381;
extended.py 298, 377). -/
def assignMat (s : ℕ) (a : Arr F) : Except PyErr (Arr F) := do
  let M ← a.toMat s s
  .ok (.mat .float64 M)

end Arr

/-- A numpy array used as a *sequence* (`A`, `B`, `H`, `Q`, `R`, `Z`, `U`): either 0-d, or a leading
axis whose entries are arrays of rank <= 2.  (Homogeneity of the rows is not required by any theorem,
so lists of arrays are covered too.) -/
inductive NDArray (F : Type) where
  | d0 (dt : DType) (x : F)
  | stack (rows : List (Arr F))

namespace NDArray

variable {F : Type}

/-- `len(a)`: TypeError on a 0-d array. -/
def len : NDArray F → Except PyErr ℕ
  | .d0 _ _ => .error .typeError
  | .stack rows => .ok rows.length

/-- `iter(a)` as used by `zip`: TypeError on a 0-d array. -/
def iter : NDArray F → Except PyErr (List (Arr F))
  | .d0 _ _ => .error .typeError
  | .stack rows => .ok rows

/-- `a[k]` for `k >= 0`: IndexError if out of range (or 0-d). -/
def item (a : NDArray F) (k : ℕ) : Except PyErr (Arr F) :=
  match a with
  | .d0 _ _ => .error .indexError
  | .stack rows =>
    match rows[k]? with
    | some r => .ok r
    | none => .error .indexError

/-- `np.full_like(a, np.nan)` (utils.py 33). -/
def fullLikeNan [Backend F] : NDArray F → NDArray F
  | .d0 d _ => .d0 d (Arr.nanFill d)
  | .stack rows => .stack (rows.map Arr.fullLikeNan)

end NDArray

/-- `rows[k]` on an array returned by the library. -/
def getRow {F : Type} (rows : List (Arr F)) (k : ℕ) : Except PyErr (Arr F) :=
  match rows[k]? with
  | some r => .ok r
  | none => .error .indexError

/-- A method call on an object of state `σ`: an exception leaves the mutations done so far. -/
structure Py (σ α : Type) where
  run : σ → Except PyErr α × σ

namespace Py

variable {σ α β : Type}

def pure (a : α) : Py σ α := ⟨fun s => (.ok a, s)⟩

def bind (x : Py σ α) (f : α → Py σ β) : Py σ β := ⟨fun s =>
  match x.run s with
  | (.ok a, s') => (f a).run s'
  | (.error e, s') => (.error e, s')⟩

instance : Monad (Py σ) where
  pure := Py.pure
  bind := Py.bind

/-- Evaluate a pure (non-mutating) Python expression. -/
def lift (x : Except PyErr α) : Py σ α := ⟨fun s => (x, s)⟩

/-- Read `self`. -/
def self : Py σ σ := ⟨fun s => (.ok s, s)⟩

/-- Mutate `self`. -/
def mutate (f : σ → σ) : Py σ Unit := ⟨fun s => (.ok (), f s)⟩

end Py

end KK
