import Verif.Model.Heap
import Verif.Model.Extended

/-!
# `ExtendedKalmanFilter` with references

`/repo/src/kalmankit/{utils,extended}.py` over the explicit memory of `Model/Heap.lean`.  The user's callbacks `f`, `h`,
`jacobian_A`, `jacobian_H` are programs on that memory: they get references, may read and write any array, may allocate,
may raise, and return a reference - to a new array, to one of their arguments, or to an array they keep.

Simplification: a callback sees the memory but not the filter object (it cannot read `kalman_gains` or rebind attributes).
-/

namespace KK

variable {F : Type}

/-- Programs on the memory. -/
abbrev HeapM (F α : Type) := Py (Heap F) α

/-- The attributes of an `ExtendedKalmanFilter` object (extended.py 130-142), as references. -/
structure HEkf (F : Type) where
  f : View → Option View → HeapM F View
  jacobianA : View → Option View → HeapM F View
  xk : View
  Pk : View
  h : View → HeapM F View
  jacobianH : View → HeapM F View
  Q : ℕ
  R : ℕ
  stateSize : ℕ
  I : View
  kalmanGains : List View

/-- Memory and object. -/
structure EState (F : Type) where
  heap : Heap F
  self : HEkf F

/-- Methods on memory and object. -/
abbrev EM (F α : Type) := Py (EState F) α

namespace HeapM

variable [Backend F]

/-- Read an array (as `HM.get`). -/
def get (v : View) : HeapM F (Arr F) := ⟨fun h => match h.deref v with
  | some a => (.ok a, h)
  | none => (.error .typeError, h)⟩

/-- Allocate the result of an array operation. -/
def new (a : Arr F) : HeapM F View := ⟨fun h => (.ok (.whole h.length), h ++ [.arr a])⟩

/-- Allocate a sequence (`np.zeros((n, ...))`, `np.full_like`). -/
def newSeq (a : NDArray F) : HeapM F ℕ := ⟨fun h => (.ok h.length, h ++ [.seq a])⟩

/-- Read a sequence. -/
def getSeq (r : ℕ) : HeapM F (NDArray F) := ⟨fun h => match h.seqAt r with
  | some a => (.ok a, h)
  | none => (.error .typeError, h)⟩

/-- A binary array operation: reads its operands, allocates its result. -/
def op (f : Arr F → Arr F → Except PyErr (Arr F)) (v w : View) : HeapM F View := do
  let a ← get v
  let b ← get w
  let c ← Py.lift (f a b)
  new c

/-- `out[k] = v`: broadcast `v` to the row shape and write row `k` of the buffer `r` in place. -/
def setRow (assign : Arr F → Except PyErr (Arr F)) (r k : ℕ) (v : View) : HeapM F Unit := do
  let a ← get v
  let row ← Py.lift (assign a)
  ⟨fun h => match h.seqAt r with
    | some (.stack rows) => (.ok (), h.set r (.seq (.stack (rows.set k row))))
    | _ => (.error .typeError, h)⟩

/-- `iter(a)`: views of the rows of a sequence; TypeError on a 0-d array. -/
def rows (r : ℕ) : HeapM F (List View) := do
  let a ← getSeq r
  let l ← Py.lift a.iter
  Py.lift (.ok ((List.range l.length).map (View.row r)))

/-- `a[k]`: a view; IndexError if out of range. -/
def item (r k : ℕ) : HeapM F View := do
  let a ← getSeq r
  let _ ← Py.lift (a.item k)
  Py.lift (.ok (.row r k))

/-- utils.py 12-35 `check_none_and_broadcast`: returns its argument itself, or a new sentinel array. -/
def checkNoneAndBroadcast (arr : Option ℕ) (broadTo : ℕ) : HeapM F ℕ :=
  match arr with
  | some r => Py.lift (.ok r)
  | none => do
    let a ← getSeq broadTo
    newSeq a.fullLikeNan

end HeapM

namespace EM

/-- Run a program on the memory of the state. -/
def onHeap {α : Type} (m : HeapM F α) : EM F α := ⟨fun st => ((m.run st.heap).1, { st with heap := (m.run st.heap).2 })⟩

/-- Read `self`. -/
def self : EM F (HEkf F) := ⟨fun st => (.ok st.self, st)⟩

end EM

namespace HEkf

variable [Backend F]

open HeapM EM

/-- extended.py 138 `self.xk.shape[0]`. -/
def chooseSize (x : Arr F) : Except PyErr ℕ :=
  match x.shape with
  | [] => .error .indexError
  | n :: _ => .ok n

/-- extended.py 119-142 `__init__`: `xk`, `Pk`, `Q`, `R` are the caller's arrays; returns the new object, which becomes
`self`. -/
def new (xk Pk : View) (Q R : ℕ) (f : View → Option View → HeapM F View) (h : View → HeapM F View)
    (jacobianA : View → Option View → HeapM F View) (jacobianH : View → HeapM F View) : EM F (HEkf F) := do
  let x ← onHeap (get xk)
  let n ← Py.lift (chooseSize x)
  let I ← onHeap (HeapM.new (Arr.identity n))
  let kf : HEkf F := { f := f, jacobianA := jacobianA, xk := xk, Pk := Pk, h := h, jacobianH := jacobianH, Q := Q, R := R,
                       stateSize := n, I := I, kalmanGains := [] }
  ⟨fun st => (.ok kf, { st with self := kf })⟩

/-- extended.py 144-187 `predict`: `xk_prior` is whatever array `f` returns. -/
def predict (kf : HEkf F) (xk : View) (uk : Option View) (Pk Qk : View) : HeapM F (View × View) := do
  let Ak ← kf.jacobianA xk uk                    -- 179
  let xkPrior ← kf.f xk uk                       -- 182
  let pat ← op Arr.matmul Pk (.trans Ak)         -- 185
  let apat ← op Arr.matmul Ak pat
  let PkPrior ← op Arr.add apat Qk
  Py.lift (.ok (xkPrior, PkPrior))

/-- extended.py 233-237: the gain; `solve(...).T` is a view of the array `solve` allocates. -/
def gain (Hk Pk Rk : View) : HeapM F View := do
  let pht ← op Arr.matmul Pk (.trans Hk)
  let hpht ← op Arr.matmul Hk pht
  let Sk ← op Arr.add hpht Rk
  let hpt ← op Arr.matmul Hk (.trans Pk)
  let X ← op Arr.solve (.trans Sk) hpt
  Py.lift (.ok (.trans X))

/-- extended.py 240-246: the rest of `update`; `self.h(xk)` runs before `xk + ...` reads `xk`. -/
def correct (kf : HEkf F) (Kk Hk xk Pk zk : View) : HeapM F (View × View) := do
  let hx ← kf.h xk
  let res ← op Arr.sub zk hx
  let corr ← op Arr.matmul Kk (.at1 res)
  let xkPost ← op Arr.add xk corr
  let kh ← op Arr.matmul Kk Hk
  let ikh ← op Arr.sub kf.I kh
  let PkPost ← op Arr.matmul ikh Pk
  Py.lift (.ok (xkPost, PkPost))

/-- extended.py 189-246 `update`; the recorded gain is a reference. -/
def update (xk Pk zk Rk : View) : EM F (View × View) := do
  let kf ← EM.self
  let Hk ← onHeap (kf.jacobianH xk)              -- 231
  let Kk ← onHeap (gain Hk Pk Rk)
  Py.mutate fun st : EState F => { st with self := { st.self with kalmanGains := st.self.kalmanGains ++ [Kk] } }
  onHeap (correct kf Kk Hk xk Pk zk)

/-- extended.py 288-302: the feedback loop; `states` and `errors` are the buffers written in place. -/
def filterLoop (states errors : ℕ) : ℕ → List (View × View × View × View) → View → View → EM F Unit
  | _, [], _, _ => Py.lift (.ok ())
  | k, (uk, zk, Qk, Rk) :: rest, xk, Pk => do
    let kf ← EM.self
    let (xkPrior, PkPrior) ← onHeap (predict kf xk (some uk) Pk Qk)
    let (xkPost, PkPost) ← update xkPrior PkPrior zk Rk
    onHeap (setRow (Arr.assignVec kf.stateSize) states k xkPost)
    onHeap (setRow (Arr.assignMat kf.stateSize) errors k PkPost)
    filterLoop states errors (k + 1) rest xkPost PkPost

/-- extended.py 248-304 `filter`: returns the buffers `states` and `errors`. -/
def filter (Z : ℕ) (U : Option ℕ) : EM F (ℕ × ℕ) := do
  let kf ← EM.self
  let z ← onHeap (getSeq Z)
  let n ← Py.lift z.len
  let states ← onHeap (newSeq (.stack (List.replicate n (Arr.zerosVec kf.stateSize))))
  let errors ← onHeap (newSeq (.stack (List.replicate n (Arr.zerosMat kf.stateSize))))
  let U' ← onHeap (HeapM.checkNoneAndBroadcast U Z)
  let u ← onHeap (rows U')
  let zs ← onHeap (rows Z)
  let q ← onHeap (rows kf.Q)
  let r ← onHeap (rows kf.R)
  filterLoop states errors 0 (u.zip (zs.zip (q.zip r))) kf.xk kf.Pk
  Py.lift (.ok (states, errors))

/-- extended.py 362-377: one iteration of the backward loop. -/
def smoothStep (kf : HEkf F) (xEst PEst Qk uk xNext PNext : View) : HeapM F (View × View) := do
  let (xAhead, PAhead) ← predict kf xEst (some uk) PEst Qk
  let Ak ← kf.jacobianA xEst (some uk)           -- 372
  let pat ← op Arr.matmul PEst (.trans Ak)
  let X ← op Arr.solve (.trans PAhead) (.trans pat)
  let dx ← op Arr.sub xNext xAhead
  let kdx ← op Arr.matmul (.trans X) dx
  let xs ← op Arr.add xEst kdx
  let dP ← op Arr.sub PNext PAhead
  let dPk ← op Arr.matmul dP (.trans (.trans X))
  let kdPk ← op Arr.matmul (.trans X) dPk
  let Ps ← op Arr.add PEst kdPk
  Py.lift (.ok (xs, Ps))

/-- extended.py 361-377: the backward loop; `xs` and `Ps` are the buffers written in place. (In Python row `k` of `xs` is
written before line 377 runs; no callback runs in between, and an exception of line 377 makes both buffers unreachable.) -/
def smoothLoop (kf : HEkf F) (Q U xEst PEst xs Ps : ℕ) : List ℕ → HeapM F Unit
  | [] => Py.lift (.ok ())
  | k :: ks => do
    let Qk ← item Q (k + 1)
    let uk ← item U (k + 1)
    let Pk ← item PEst k
    let xk ← item xEst k
    let xNext ← item xs (k + 1)
    let PNext ← item Ps (k + 1)
    let (x, P) ← smoothStep kf xk Pk Qk uk xNext PNext
    setRow (Arr.assignVec kf.stateSize) xs k x
    setRow (Arr.assignMat kf.stateSize) Ps k P
    smoothLoop kf Q U xEst PEst xs Ps ks

/-- extended.py 346-379: `smooth` after its call of `filter` (same simplification as `KalmanFilter.smooth`). -/
def smoothTail (kf : HEkf F) (Z : ℕ) (U : Option ℕ) (xEst PEst : ℕ) : HeapM F (ℕ × ℕ) := do
  let z ← getSeq Z
  let n ← Py.lift z.len
  let xs ← newSeq (.stack (List.replicate n (Arr.zerosVec kf.stateSize)))
  let Ps ← newSeq (.stack (List.replicate n (Arr.zerosMat kf.stateSize)))
  let xLast ← if n = 0 then Py.lift (.error .indexError) else item xEst (n - 1)
  setRow (Arr.assignVec kf.stateSize) xs (n - 1) xLast
  let PLast ← if n = 0 then Py.lift (.error .indexError) else item PEst (n - 1)
  setRow (Arr.assignMat kf.stateSize) Ps (n - 1) PLast
  let U' ← HeapM.checkNoneAndBroadcast U Z
  smoothLoop kf kf.Q U' xEst PEst xs Ps (List.range (n - 1)).reverse
  Py.lift (.ok (xs, Ps))

/-- extended.py 306-379 `smooth`: returns the buffers `xk_smooth` and `Pk_smooth`. -/
def smooth (Z : ℕ) (U : Option ℕ) : EM F (ℕ × ℕ) := do
  let (xEst, PEst) ← filter Z U
  let kf ← EM.self
  onHeap (smoothTail kf Z U xEst PEst)

end HEkf

end KK
