import Verif.Model.Extended

/-!
# `/repo/src/kalmankit/extended.py` with callbacks that keep state

`Model/Extended.lean` takes the callbacks as pure functions.  Here a callback is any program that may read and change
a state of the user's choice (a cache, a counter, a log, a random number generator: the type `σ`) and the attributes
of the filter object itself (by assigning to them, or by calling methods of the object), and may raise.
Not covered: callbacks that replace a callback or a method of the object while a call is running, or write into
arrays in place (for this see `Model/HeapExt.lean`).
-/

namespace KK

/-- The attributes of an `ExtendedKalmanFilter` object other than the callbacks (extended.py 132-142). -/
structure EkfAttrs (F : Type) where
  xk : Arr F
  Pk : Arr F
  Q : NDArray F
  R : NDArray F
  stateSize : ℕ
  I : Arr F
  kalmanGains : List (Arr F)

/-- Everything a callback can see and change: the user's own state and the attributes of the object. -/
structure World (σ F : Type) where
  user : σ
  self : EkfAttrs F

/-- The callbacks handed to `__init__` (extended.py 119-135), as programs. -/
structure Callbacks (σ F : Type) where
  f : Arr F → Option (Arr F) → Py (World σ F) (Arr F)
  h : Arr F → Py (World σ F) (Arr F)
  jacobianA : Arr F → Option (Arr F) → Py (World σ F) (Arr F)
  jacobianH : Arr F → Py (World σ F) (Arr F)

namespace Stateful

variable {σ F : Type} [Backend F]

/-- `self`: the attributes at this moment. -/
def attrs : Py (World σ F) (EkfAttrs F) := ⟨fun w => (.ok w.self, w)⟩

/-- extended.py 238 `self.kalman_gains.append(Kk)`, to whatever list `self.kalman_gains` is at this moment. -/
def record (K : Arr F) : Py (World σ F) Unit :=
  ⟨fun w => (.ok (), { w with self := { w.self with kalmanGains := w.self.kalmanGains ++ [K] } })⟩

/-- extended.py 185, once the Jacobian is known. -/
def priorCovariance (Ak Pk Qk : Arr F) : Except PyErr (Arr F) := do
  let pat ← Pk.matmul Ak.T
  let apat ← Ak.matmul pat
  apat.add Qk

/-- extended.py 144-187 `predict`. -/
def predict (cb : Callbacks σ F) (xk : Arr F) (uk : Option (Arr F)) (Pk Qk : Arr F) :
    Py (World σ F) (Arr F × Arr F) := do
  let Ak ← cb.jacobianA xk uk          -- 179
  let xkPrior ← cb.f xk uk             -- 182
  let PkPrior ← Py.lift (priorCovariance Ak Pk Qk)
  Py.pure (xkPrior, PkPrior)

/-- extended.py 241, once `h` has been called. -/
def newMean (Kk xk zk hx : Arr F) : Except PyErr (Arr F) := do
  let res ← zk.sub hx
  let corr ← Kk.matmul res.atleast1d
  xk.add corr

/-- extended.py 244. -/
def newCovariance (I Kk Hk Pk : Arr F) : Except PyErr (Arr F) := do
  let kh ← Kk.matmul Hk
  let ikh ← I.sub kh
  ikh.matmul Pk

/-- extended.py 189-246 `update`: the gain is recorded before `h` is called, and the identity is read after it. -/
def update (cb : Callbacks σ F) (xk Pk zk Rk : Arr F) : Py (World σ F) (Arr F × Arr F) := do
  let Hk ← cb.jacobianH xk             -- 231
  let Kk ← Py.lift (ExtendedKalmanFilter.gain Hk Pk Rk)
  record Kk                            -- 238
  let hx ← cb.h xk                     -- 241
  let xkPost ← Py.lift (newMean Kk xk zk hx)
  let self ← attrs
  let PkPost ← Py.lift (newCovariance self.I Kk Hk Pk)
  Py.pure (xkPost, PkPost)

/-- extended.py 288-302: the feedback loop; the arrays `states`, `errors` have rows of the size `n` they were
allocated with. -/
def filterLoop (cb : Callbacks σ F) (n : ℕ) : ℕ → List (ExtendedKalmanFilter.Row F) → Arr F → Arr F → List (Arr F) →
    List (Arr F) → Py (World σ F) (List (Arr F) × List (Arr F))
  | _, [], _, _, states, errors => Py.pure (states, errors)
  | k, (uk, zk, Qk, Rk) :: rest, xk, Pk, states, errors => do
    let prior ← predict cb xk (some uk) Pk Qk
    let post ← update cb prior.1 prior.2 zk Rk
    let srow ← Py.lift (post.1.assignVec n)
    let erow ← Py.lift (post.2.assignMat n)
    filterLoop cb n (k + 1) rest post.1 post.2 (states.set k srow) (errors.set k erow)

/-- extended.py 248-304 `filter`; `self.state_size`, `self.xk`, `self.Pk`, `self.Q` and `self.R` are read once, before the
loop. -/
def filter (cb : Callbacks σ F) (Z : NDArray F) (U : Option (NDArray F)) :
    Py (World σ F) (List (Arr F) × List (Arr F)) := do
  let self ← attrs
  let len ← Py.lift Z.len
  let states := List.replicate len (Arr.zerosVec self.stateSize)
  let errors := List.replicate len (Arr.zerosMat self.stateSize)
  let rows ← Py.lift (ExtendedKalmanFilter.zipRows (checkNoneAndBroadcast U Z) Z self.Q self.R)
  filterLoop cb self.stateSize 0 rows self.xk self.Pk states errors

/-- extended.py 375-377, once `predict` and `jacobian_A` have been called. -/
def smoothed (Ak xEst PEst xAhead PAhead xNext PNext : Arr F) : Except PyErr (Arr F × Arr F) := do
  let pat ← PEst.matmul Ak.T
  let X ← Arr.solve PAhead.T pat.T
  let Kk := X.T
  let dx ← xNext.sub xAhead
  let kdx ← Kk.matmul dx
  let xs ← xEst.add kdx
  let dP ← PNext.sub PAhead
  let dPk ← dP.matmul Kk.T
  let kdPk ← Kk.matmul dPk
  let Ps ← PEst.add kdPk
  .ok (xs, Ps)

/-- extended.py 363-366: the items read by the backward loop, and the rows of the arrays it works on. -/
def backItems (Q U : NDArray F) (xEst PEst xs Ps : List (Arr F)) (k : ℕ) :
    Except PyErr (Arr F × Arr F × Arr F × Arr F × Arr F × Arr F) := do
  let Qk ← Q.item (k + 1)
  let uk ← U.item (k + 1)
  let Pk ← getRow PEst k
  let xk ← getRow xEst k
  let xNext ← getRow xs (k + 1)
  let PNext ← getRow Ps (k + 1)
  .ok (Qk, uk, Pk, xk, xNext, PNext)

/-- extended.py 361-377: the backward loop (as in `Model/Extended.lean`, both rows are computed before either is
assigned; no callback is called in between). -/
def smoothLoop (cb : Callbacks σ F) (n : ℕ) (Q U : NDArray F) (xEst PEst : List (Arr F)) :
    List ℕ → List (Arr F) → List (Arr F) → Py (World σ F) (List (Arr F) × List (Arr F))
  | [], xs, Ps => Py.pure (xs, Ps)
  | k :: ks, xs, Ps => do
    let (Qk, uk, Pk, xk, xNext, PNext) ← Py.lift (backItems Q U xEst PEst xs Ps k)
    let ahead ← predict cb xk (some uk) Pk Qk           -- 369
    let Ak ← cb.jacobianA xk (some uk)                  -- 372
    let r ← Py.lift (smoothed Ak xk Pk ahead.1 ahead.2 xNext PNext)
    let xrow ← Py.lift (r.1.assignVec n)
    let Prow ← Py.lift (r.2.assignMat n)
    smoothLoop cb n Q U xEst PEst ks (xs.set k xrow) (Ps.set k Prow)

/-- extended.py 351-352: the last row, IndexError if there is none. -/
def lastRow (n : ℕ) (rows : List (Arr F)) : Except PyErr (Arr F) :=
  if n = 0 then .error .indexError else getRow rows (n - 1)

/-- extended.py 306-379 `smooth`; `self.state_size` and `self.Q` are read again after the call of `filter`. -/
def smooth (cb : Callbacks σ F) (Z : NDArray F) (U : Option (NDArray F)) :
    Py (World σ F) (List (Arr F) × List (Arr F)) := do
  let est ← filter cb Z U
  let self ← attrs
  let n ← Py.lift Z.len
  let xLast ← Py.lift (lastRow n est.1)
  let PLast ← Py.lift (lastRow n est.2)
  let xrow ← Py.lift (xLast.assignVec self.stateSize)
  let Prow ← Py.lift (PLast.assignMat self.stateSize)
  let xs := List.replicate n (Arr.zerosVec self.stateSize)
  let Ps := List.replicate n (Arr.zerosMat self.stateSize)
  smoothLoop cb self.stateSize self.Q (checkNoneAndBroadcast U Z) est.1 est.2 (List.range (n - 1)).reverse
    (xs.set (n - 1) xrow) (Ps.set (n - 1) Prow)

end Stateful

end KK
