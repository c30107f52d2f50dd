import Verif.Model.Utils

/-! # `/repo/src/kalmankit/extended.py`

User callbacks are modelled as pure functions that may raise; `u` may be Python `None`. -/

namespace KK

/-- The attributes of an `ExtendedKalmanFilter` object (extended.py 130-142). -/
structure ExtendedKalmanFilter (F : Type) where
  f : Arr F → Option (Arr F) → Except PyErr (Arr F)
  jacobianA : Arr F → Option (Arr F) → Except PyErr (Arr F)
  xk : Arr F
  Pk : Arr F
  h : Arr F → Except PyErr (Arr F)
  jacobianH : Arr F → Except PyErr (Arr F)
  Q : NDArray F
  R : NDArray F
  stateSize : ℕ
  I : Arr F
  kalmanGains : List (Arr F)

namespace ExtendedKalmanFilter

variable {F : Type} [Backend F]

/-- extended.py 119-142 `__init__`; `xk.shape[0]` raises IndexError on a 0-d `xk`. -/
def new (xk Pk : Arr F) (Q R : NDArray F) (f : Arr F → Option (Arr F) → Except PyErr (Arr F))
    (h : Arr F → Except PyErr (Arr F)) (jacobianA : Arr F → Option (Arr F) → Except PyErr (Arr F))
    (jacobianH : Arr F → Except PyErr (Arr F)) : Except PyErr (ExtendedKalmanFilter F) := do
  let n ← match xk.shape with
    | [] => .error .indexError
    | n :: _ => .ok n
  .ok { f := f, jacobianA := jacobianA, xk := xk, Pk := Pk, h := h, jacobianH := jacobianH,
        Q := Q, R := R, stateSize := n, I := Arr.identity n, kalmanGains := [] }

/-- extended.py 144-187 `predict`. -/
def predict (kf : ExtendedKalmanFilter F) (xk : Arr F) (uk : Option (Arr F)) (Pk Qk : Arr F) :
    Except PyErr (Arr F × Arr F) := do
  let Ak ← kf.jacobianA xk uk          -- 179
  let xkPrior ← kf.f xk uk             -- 182
  let pat ← Pk.matmul Ak.T             -- 185
  let apat ← Ak.matmul pat
  let PkPrior ← apat.add Qk
  .ok (xkPrior, PkPrior)

/-- extended.py 233-237: innovation covariance and gain of `update`. -/
def gain (Hk Pk Rk : Arr F) : Except PyErr (Arr F) := do
  let pht ← Pk.matmul Hk.T
  let hpht ← Hk.matmul pht
  let Sk ← hpht.add Rk
  let hpt ← Hk.matmul Pk.T
  let X ← Arr.solve Sk.T hpt
  .ok X.T

/-- extended.py 240-246: the rest of `update`, once the gain is known. -/
def correct (kf : ExtendedKalmanFilter F) (Kk Hk xk Pk zk : Arr F) :
    Except PyErr (Arr F × Arr F) := do
  let hx ← kf.h xk
  let res ← zk.sub hx
  let corr ← Kk.matmul res.atleast1d
  let xkPost ← xk.add corr
  let kh ← Kk.matmul Hk
  let ikh ← kf.I.sub kh
  let PkPost ← ikh.matmul Pk
  .ok (xkPost, PkPost)

/-- extended.py 189-246 `update`; the gain is recorded (238) before the remaining lines run. -/
def update (xk Pk zk Rk : Arr F) : Py (ExtendedKalmanFilter F) (Arr F × Arr F) := do
  let kf ← Py.self
  let Hk ← Py.lift (kf.jacobianH xk)   -- 231
  let Kk ← Py.lift (gain Hk Pk Rk)
  Py.mutate fun kf => { kf with kalmanGains := kf.kalmanGains ++ [Kk] }
  Py.lift (correct kf Kk Hk xk Pk zk)

/-- One element of `zip(U, Z, self.Q, self.R)` (extended.py 287-288): `(uk, zk, Qk, Rk)`. -/
abbrev Row (F : Type) := Arr F × Arr F × Arr F × Arr F

/-- extended.py 287 `zip(U, Z, self.Q, self.R)`. -/
def zipRows (U Z Q R : NDArray F) : Except PyErr (List (Row F)) := do
  let u ← U.iter
  let z ← Z.iter
  let q ← Q.iter
  let r ← R.iter
  .ok (u.zip (z.zip (q.zip r)))

/-- extended.py 288-302: the feedback loop. -/
def filterLoop : ℕ → List (Row F) → Arr F → Arr F → List (Arr F) → List (Arr F) →
    Py (ExtendedKalmanFilter F) (List (Arr F) × List (Arr F))
  | _, [], _, _, states, errors => Py.pure (states, errors)
  | k, (uk, zk, Qk, Rk) :: rest, xk, Pk, states, errors => do
    let kf ← Py.self
    let (xkPrior, PkPrior) ← Py.lift (predict kf xk (some uk) Pk Qk)
    let (xkPost, PkPost) ← update xkPrior PkPrior zk Rk
    let srow ← Py.lift (xkPost.assignVec kf.stateSize)
    let erow ← Py.lift (PkPost.assignMat kf.stateSize)
    filterLoop (k + 1) rest xkPost PkPost (states.set k srow) (errors.set k erow)

/-- extended.py 248-304 `filter`. -/
def filter (Z : NDArray F) (U : Option (NDArray F)) :
    Py (ExtendedKalmanFilter F) (List (Arr F) × List (Arr F)) := do
  let kf ← Py.self
  let n ← Py.lift Z.len
  let states := List.replicate n (Arr.zerosVec kf.stateSize)
  let errors := List.replicate n (Arr.zerosMat kf.stateSize)
  let U' := checkNoneAndBroadcast U Z
  let rows ← Py.lift (zipRows U' Z kf.Q kf.R)
  filterLoop 0 rows kf.xk kf.Pk states errors

/-- extended.py 362-377: body of the backward loop for one `k`. -/
def smoothStep (kf : ExtendedKalmanFilter F) (xEst PEst Qk uk xNext PNext : Arr F) :
    Except PyErr (Arr F × Arr F) := do
  let (xAhead, PAhead) ← predict kf xEst (some uk) PEst Qk
  let Ak ← kf.jacobianA xEst (some uk)          -- 372
  let pat ← PEst.matmul Ak.T
  let X ← Arr.solve PAhead.T pat.T
  let Kk := X.T
  let dx ← xNext.sub xAhead
  let kdx ← Kk.matmul dx
  let xs ← xEst.add kdx
  let dP ← PNext.sub PAhead
  let dPk ← dP.matmul Kk.T
  let kdPk ← Kk.matmul dPk
  let Ps ← PEst.add kdPk
  .ok (xs, Ps)

/-- extended.py 361-377: the backward loop. -/
def smoothLoop (kf : ExtendedKalmanFilter F) (Q U : NDArray F) (xEst PEst : List (Arr F)) :
    List ℕ → List (Arr F) → List (Arr F) → Except PyErr (List (Arr F) × List (Arr F))
  | [], xs, Ps => .ok (xs, Ps)
  | k :: ks, xs, Ps => do
    let Qk ← Q.item (k + 1)
    let uk ← U.item (k + 1)
    let Pk ← getRow PEst k
    let xk ← getRow xEst k
    let xNext ← getRow xs (k + 1)
    let PNext ← getRow Ps (k + 1)
    let (x, P) ← smoothStep kf xk Pk Qk uk xNext PNext
    let xrow ← x.assignVec kf.stateSize
    let Prow ← P.assignMat kf.stateSize
    smoothLoop kf Q U xEst PEst ks (xs.set k xrow) (Ps.set k Prow)

/-- extended.py 306-379 `smooth` (same simplification as `KalmanFilter.smooth`). -/
def smooth (Z : NDArray F) (U : Option (NDArray F)) :
    Py (ExtendedKalmanFilter F) (List (Arr F) × List (Arr F)) := do
  let (xEst, PEst) ← filter Z U
  let kf ← Py.self
  let n ← Py.lift Z.len
  let xs := List.replicate n (Arr.zerosVec kf.stateSize)
  let Ps := List.replicate n (Arr.zerosMat kf.stateSize)
  let xLast ← Py.lift (if n = 0 then .error .indexError else getRow xEst (n - 1))
  let PLast ← Py.lift (if n = 0 then .error .indexError else getRow PEst (n - 1))
  let xrow ← Py.lift (xLast.assignVec kf.stateSize)
  let Prow ← Py.lift (PLast.assignMat kf.stateSize)
  let U' := checkNoneAndBroadcast U Z
  Py.lift (smoothLoop kf kf.Q U' xEst PEst (List.range (n - 1)).reverse
    (xs.set (n - 1) xrow) (Ps.set (n - 1) Prow))

end ExtendedKalmanFilter

end KK
