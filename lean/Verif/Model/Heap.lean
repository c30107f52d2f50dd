import Verif.Model.Standard

/-!
# `KalmanFilter` with references

`Model/Standard.lean` passes arrays as values.  In Python they are references: `self.A = A` stores the caller's array,
`a.T` and `a[k]` are views that share memory with `a`, `np.zeros` and arithmetic allocate, and `states[k] = v` writes in
place.  Here `/repo/src/kalmankit/{utils,standard}.py` is written again over an explicit heap, so that it can be said
which memory a call changes and which memory its results share.

Simplifications: an array cell is a whole buffer (views of views are resolved to the buffer they come from);
cells are never freed.
-/

namespace KK

/-- A buffer: an array of rank <= 2, or a sequence of such arrays. -/
inductive Cell (F : Type) where
  | arr (a : Arr F)
  | seq (a : NDArray F)

/-- A reference to an array of rank <= 2: a whole buffer, a row `a[k]` of a sequence, a transposed view `v.T`, or the
view `np.atleast_1d(v)` makes of a 0-d array. -/
inductive View where
  | whole (r : ℕ)
  | row (r k : ℕ)
  | trans (v : View)
  | at1 (v : View)

/-- The buffer a view shares memory with. -/
def View.cell : View → ℕ
  | whole r => r
  | row r _ => r
  | trans v => v.cell
  | at1 v => v.cell

/-- The memory: allocated buffers by number. -/
abbrev Heap (F : Type) := List (Cell F)

variable {F : Type}

/-- The value of a sequence buffer. -/
def Heap.seqAt (h : Heap F) (r : ℕ) : Option (NDArray F) :=
  match h[r]? with
  | some (.seq a) => some a
  | _ => none

/-- The value seen through a view. -/
def Heap.deref (h : Heap F) : View → Option (Arr F)
  | .whole r => match h[r]? with
    | some (.arr a) => some a
    | _ => none
  | .row r k => match h.seqAt r with
    | some (.stack rows) => rows[k]?
    | _ => none
  | .trans v => (h.deref v).map Arr.T
  | .at1 v => (h.deref v).map Arr.atleast1d

/-- The attributes of a `KalmanFilter` object (standard.py 116-130), as references. -/
structure HFilter where
  A : ℕ
  xk : View
  B : ℕ
  Pk : View
  H : ℕ
  Q : ℕ
  R : ℕ
  stateSize : ℕ
  I : View
  kalmanGains : List View

/-- Memory and object. -/
structure HState (F : Type) where
  heap : Heap F
  self : HFilter

/-- Methods on memory and object. -/
abbrev HM (F α : Type) := Py (HState F) α

namespace HM

variable [Backend F]

/-- Read an array (a dangling reference cannot occur in Python; here it raises). -/
def get (v : View) : HM F (Arr F) := ⟨fun st => match st.heap.deref v with
  | some a => (.ok a, st)
  | none => (.error .typeError, st)⟩

/-- Allocate the result of an array operation. -/
def new (a : Arr F) : HM F View := ⟨fun st =>
  (.ok (.whole st.heap.length), { st with heap := st.heap ++ [.arr a] })⟩

/-- Allocate a sequence (`np.zeros((n, ...))`, `np.full_like`). -/
def newSeq (a : NDArray F) : HM F ℕ := ⟨fun st =>
  (.ok st.heap.length, { st with heap := st.heap ++ [.seq a] })⟩

/-- Read a sequence. -/
def getSeq (r : ℕ) : HM F (NDArray F) := ⟨fun st => match st.heap.seqAt r with
  | some a => (.ok a, st)
  | none => (.error .typeError, st)⟩

/-- A binary array operation (`@`, `+`, `-`, `np.linalg.solve`): reads its operands, allocates its result. -/
def op (f : Arr F → Arr F → Except PyErr (Arr F)) (v w : View) : HM F View := do
  let a ← get v
  let b ← get w
  let c ← Py.lift (f a b)
  new c

/-- `out[k] = v`: broadcast `v` to the row shape and write row `k` of the buffer `r` in place. -/
def setRow (assign : Arr F → Except PyErr (Arr F)) (r k : ℕ) (v : View) : HM F Unit := do
  let a ← get v
  let row ← Py.lift (assign a)
  ⟨fun st => match st.heap.seqAt r with
    | some (.stack rows) => (.ok (), { st with heap := st.heap.set r (.seq (.stack (rows.set k row))) })
    | _ => (.error .typeError, st)⟩

/-- `iter(a)`: views of the rows of a sequence; TypeError on a 0-d array. -/
def rows (r : ℕ) : HM F (List View) := do
  let a ← getSeq r
  let l ← Py.lift a.iter
  Py.lift (.ok ((List.range l.length).map (View.row r)))

/-- `a[k]`: a view; IndexError if out of range. -/
def item (r k : ℕ) : HM F View := do
  let a ← getSeq r
  let _ ← Py.lift (a.item k)
  Py.lift (.ok (.row r k))

/-- Read `self`. -/
def self : HM F HFilter := ⟨fun st => (.ok st.self, st)⟩

end HM

namespace HFilter

variable [Backend F]

open HM

/-- utils.py 12-35 `check_none_and_broadcast`: returns its argument itself, or a new sentinel array. -/
def checkNoneAndBroadcast (arr : Option ℕ) (broadTo : ℕ) : HM F ℕ :=
  match arr with
  | some r => Py.lift (.ok r)
  | none => do
    let a ← getSeq broadTo
    newSeq a.fullLikeNan

/-- standard.py 124-129: `if state_size: ... else: xk.shape[0]`, and the ValueError of `np.identity` on a negative size (see
`KalmanFilter.new`). -/
def chooseSize (stateSize : Option ℤ) (x : Arr F) : Except PyErr ℕ :=
  match stateSize with
  | some (.ofNat (s + 1)) => .ok (s + 1)
  | some (.negSucc _) => .error .valueError
  | _ => match x.shape with
    | [] => .error .indexError
    | n :: _ => .ok n

/-- standard.py 105-130 `__init__` with references (`xk : View`, `Pk : View` are the caller's arrays); returns the new
object, which becomes `self`. -/
def new (A : ℕ) (xk : View) (B : Option ℕ) (Pk : View) (H Q R : ℕ) (stateSize : Option ℤ) : HM F HFilter := do
  let B' ← checkNoneAndBroadcast B A
  let x ← get xk
  let n ← Py.lift (chooseSize stateSize x)
  let I ← HM.new (Arr.identity n)
  let kf : HFilter := { A := A, xk := xk, B := B', Pk := Pk, H := H, Q := Q, R := R, stateSize := n, I := I,
                        kalmanGains := [] }
  ⟨fun st => (.ok kf, { st with self := kf })⟩

/-- standard.py 179: `is_nan_all(Bk) or is_nan_all(uk)` (short-circuit). -/
def controlOff (Bk uk : View) : HM F Bool := do
  let b ← get Bk
  if b.isnanAll then Py.lift (.ok true) else do
    let u ← get uk
    Py.lift (.ok u.isnanAll)

/-- standard.py 180, 182: the projected state. -/
def priorMean (skip : Bool) (Ak xk Bk uk : View) : HM F View :=
  if skip then op Arr.matmul Ak xk
  else do
    let ax ← op Arr.matmul Ak xk
    let bu ← op Arr.matmul Bk uk
    op Arr.add ax bu

/-- standard.py 132-187 `predict`. -/
def predict (Ak xk Bk uk Pk Qk : View) : HM F (View × View) := do
  let skip ← controlOff Bk uk
  let xkPrior ← priorMean skip Ak xk Bk uk
  let pat ← op Arr.matmul Pk (.trans Ak)
  let apat ← op Arr.matmul Ak pat
  let PkPrior ← op Arr.add apat Qk
  Py.lift (.ok (xkPrior, PkPrior))

/-- standard.py 237-241: the gain; `solve(...).T` is a view of the array `solve` allocates. -/
def gain (Hk Pk Rk : View) : HM F View := do
  let pht ← op Arr.matmul Pk (.trans Hk)
  let hpht ← op Arr.matmul Hk pht
  let Sk ← op Arr.add hpht Rk
  let hpt ← op Arr.matmul Hk (.trans Pk)
  let X ← op Arr.solve (.trans Sk) hpt
  Py.lift (.ok (.trans X))

/-- standard.py 244-250: the rest of `update`. -/
def correct (I Kk Hk xk Pk zk : View) : HM F (View × View) := do
  let hx ← op Arr.matmul Hk xk
  let res ← op Arr.sub zk hx
  let corr ← op Arr.matmul Kk (.at1 res)
  let xkPost ← op Arr.add xk corr
  let kh ← op Arr.matmul Kk Hk
  let ikh ← op Arr.sub I kh
  let PkPost ← op Arr.matmul ikh Pk
  Py.lift (.ok (xkPost, PkPost))

/-- standard.py 189-250 `update`; the recorded gain is a reference. -/
def update (Hk xk Pk zk Rk : View) : HM F (View × View) := do
  let Kk ← gain Hk Pk Rk
  Py.mutate fun st : HState F => { st with self := { st.self with kalmanGains := st.self.kalmanGains ++ [Kk] } }
  let kf ← HM.self
  correct kf.I Kk Hk xk Pk zk

/-- standard.py 292-308: the feedback loop; `states` and `errors` are the buffers written in place. -/
def filterLoop (states errors s : ℕ) : ℕ → List (View × View × View × View × View × View × View) → View → View →
    HM F Unit
  | _, [], _, _ => Py.lift (.ok ())
  | k, (Ak, Hk, Bk, uk, zk, Qk, Rk) :: rest, xk, Pk => do
    let (xkPrior, PkPrior) ← predict Ak xk Bk uk Pk Qk
    let (xkPost, PkPost) ← update Hk xkPrior PkPrior zk Rk
    setRow (Arr.assignVec s) states k xkPost
    setRow (Arr.assignMat s) errors k PkPost
    filterLoop states errors s (k + 1) rest xkPost PkPost

/-- standard.py 252-310 `filter`: returns the buffers `states` and `errors`. -/
def filter (Z : ℕ) (U : Option ℕ) : HM F (ℕ × ℕ) := do
  let kf ← HM.self
  let z ← getSeq Z
  let n ← Py.lift z.len
  let states ← newSeq (.stack (List.replicate n (Arr.zerosVec kf.stateSize)))
  let errors ← newSeq (.stack (List.replicate n (Arr.zerosMat kf.stateSize)))
  let U' ← checkNoneAndBroadcast U Z
  let a ← rows kf.A
  let h ← rows kf.H
  let b ← rows kf.B
  let u ← rows U'
  let zs ← rows Z
  let q ← rows kf.Q
  let r ← rows kf.R
  filterLoop states errors kf.stateSize 0 (a.zip (h.zip (b.zip (u.zip (zs.zip (q.zip r)))))) kf.xk kf.Pk
  Py.lift (.ok (states, errors))

/-- standard.py 365-383: one iteration of the backward loop. -/
def smoothStep (xEst PEst Ak Qk Bk uk xNext PNext : View) : HM F (View × View) := do
  let (xAhead, PAhead) ← predict Ak xEst Bk uk PEst Qk
  let pat ← op Arr.matmul PEst (.trans Ak)
  let X ← op Arr.solve (.trans PAhead) (.trans pat)
  let dx ← op Arr.sub xNext xAhead
  let kdx ← op Arr.matmul (.trans X) dx
  let xs ← op Arr.add xEst kdx
  let dP ← op Arr.sub PNext PAhead
  let dPk ← op Arr.matmul dP (.trans (.trans X))
  let kdPk ← op Arr.matmul (.trans X) dPk
  let Ps ← op Arr.add PEst kdPk
  Py.lift (.ok (xs, Ps))

/-- standard.py 364-383: the backward loop; `xs` and `Ps` are the buffers written in place. -/
def smoothLoop (A Q B U s xEst PEst xs Ps : ℕ) : List ℕ → HM F Unit
  | [] => Py.lift (.ok ())
  | k :: ks => do
    let Ak ← item A (k + 1)
    let Qk ← item Q (k + 1)
    let Bk ← item B (k + 1)
    let uk ← item U (k + 1)
    let Pk ← item PEst k
    let xk ← item xEst k
    let xNext ← item xs (k + 1)
    let PNext ← item Ps (k + 1)
    let (x, P) ← smoothStep xk Pk Ak Qk Bk uk xNext PNext
    setRow (Arr.assignVec s) xs k x
    setRow (Arr.assignMat s) Ps k P
    smoothLoop A Q B U s xEst PEst xs Ps ks

/-- standard.py 312-385 `smooth`: returns the buffers `xk_smooth` and `Pk_smooth`. -/
def smooth (Z : ℕ) (U : Option ℕ) : HM F (ℕ × ℕ) := do
  let (xEst, PEst) ← filter Z U
  let kf ← HM.self
  let z ← getSeq Z
  let n ← Py.lift z.len
  let xs ← newSeq (.stack (List.replicate n (Arr.zerosVec kf.stateSize)))
  let Ps ← newSeq (.stack (List.replicate n (Arr.zerosMat kf.stateSize)))
  let xLast ← if n = 0 then Py.lift (.error .indexError) else item xEst (n - 1)
  setRow (Arr.assignVec kf.stateSize) xs (n - 1) xLast
  let PLast ← if n = 0 then Py.lift (.error .indexError) else item PEst (n - 1)
  setRow (Arr.assignMat kf.stateSize) Ps (n - 1) PLast
  let U' ← checkNoneAndBroadcast U Z
  smoothLoop kf.A kf.Q kf.B U' kf.stateSize xEst PEst xs Ps (List.range (n - 1)).reverse
  Py.lift (.ok (xs, Ps))

end HFilter

end KK
