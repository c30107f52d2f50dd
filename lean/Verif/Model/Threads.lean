import Verif.Model.Standard
import Verif.Model.Extended

/-!
# The methods as sequences of atomic accesses to the shared object

`Model/Standard.lean` and `Model/Extended.lean` run a call in one go.  Here every method is written again as a process
that accesses `self` one attribute at a time, in the order of the Python source, so that calls made by several threads
on one object can be interleaved between any two accesses, and a call can be stopped (an asynchronous exception such as
`KeyboardInterrupt`, a killed thread) between any two accesses.  Computation between two accesses touches only local
variables and arguments and is part of the preceding access.  `list.append` is one access: it is atomic in CPython.
(Simplification: looking up the bound methods `self.predict` and `self.update` is not an access.  User callbacks of the
extended filter do not touch the filter object.)
-/

namespace KK

/-- A running call: finished with a value, about to read the shared object, or about to change it. -/
inductive Proc (σ α : Type) where
  | done (a : α)
  | read (k : σ → Proc σ α)
  | write (f : σ → σ) (k : Proc σ α)

namespace Proc

variable {σ α β : Type}

/-- Sequential composition. -/
def bind : Proc σ α → (α → Proc σ β) → Proc σ β
  | done a, f => f a
  | read k, f => read fun s => (k s).bind f
  | write g k, f => write g (k.bind f)

instance : Monad (Proc σ) where
  pure := Proc.done
  bind := Proc.bind

/-- Let the call make its next access to the shared object `s`. -/
def step : Proc σ α → σ → Proc σ α × σ
  | done a, s => (done a, s)
  | read k, s => (k s, s)
  | write f k, s => (k, f s)

/-- Run the call to its end without interference. -/
def alone : Proc σ α → σ → α × σ
  | done a, s => (a, s)
  | read k, s => (k s).alone s
  | write f k, s => k.alone (f s)

end Proc

/-- A method body: a process that may raise. -/
abbrev PyP (σ α : Type) := ExceptT PyErr (Proc σ) α

namespace PyP

variable {σ α : Type}

/-- Read one attribute of `self`. -/
def attr (f : σ → α) : PyP σ α := ExceptT.lift (Proc.read fun s => Proc.done (f s))

/-- Change `self` in one access. -/
def mutate (f : σ → σ) : PyP σ Unit := ExceptT.lift (Proc.write f (Proc.done ()))

/-- A local computation. -/
def lift (x : Except PyErr α) : PyP σ α := ExceptT.mk (Proc.done x)

end PyP

namespace KalmanFilter

variable {F : Type} [Backend F]

/-- standard.py 189-250 `update`, access by access: append to `self.kalman_gains` (242), read `self.__I` (248). -/
def updateP (Hk xk Pk zk Rk : Arr F) : PyP (KalmanFilter F) (Arr F × Arr F) := do
  let Kk ← PyP.lift (gain Hk Pk Rk)
  PyP.mutate fun kf => { kf with kalmanGains := kf.kalmanGains ++ [Kk] }
  let I ← PyP.attr fun kf : KalmanFilter F => kf.I
  PyP.lift (correct I Kk Hk xk Pk zk)

/-- standard.py 292-308: the feedback loop (`s` is the row size of the result arrays). -/
def filterLoopP (s : ℕ) : ℕ → List (Row F) → Arr F → Arr F → List (Arr F) → List (Arr F) →
    PyP (KalmanFilter F) (List (Arr F) × List (Arr F))
  | _, [], _, _, states, errors => PyP.lift (.ok (states, errors))
  | k, (Ak, Hk, Bk, uk, zk, Qk, Rk) :: rest, xk, Pk, states, errors => do
    let (xkPrior, PkPrior) ← PyP.lift (predict Ak xk (some Bk) (some uk) Pk Qk)
    let (xkPost, PkPost) ← updateP Hk xkPrior PkPrior zk Rk
    let srow ← PyP.lift (xkPost.assignVec s)
    let erow ← PyP.lift (PkPost.assignMat s)
    filterLoopP s (k + 1) rest xkPost PkPost (states.set k srow) (errors.set k erow)

/-- standard.py 252-310 `filter`: reads `state_size` (278, 279, twice), `xk` (282), `Pk` (283), `A`, `H`, `B`, `Q`, `R`
(291), each once. -/
def filterP (Z : NDArray F) (U : Option (NDArray F)) :
    PyP (KalmanFilter F) (List (Arr F) × List (Arr F)) := do
  let n ← PyP.lift Z.len
  let s ← PyP.attr fun kf : KalmanFilter F => kf.stateSize
  let s₁ ← PyP.attr fun kf : KalmanFilter F => kf.stateSize
  let _ ← PyP.attr fun kf : KalmanFilter F => kf.stateSize
  let states := List.replicate n (Arr.zerosVec s)
  let errors := List.replicate n (Arr.zerosMat s₁)
  let xk ← PyP.attr fun kf : KalmanFilter F => kf.xk
  let Pk ← PyP.attr fun kf : KalmanFilter F => kf.Pk
  let U' := checkNoneAndBroadcast U Z
  let A ← PyP.attr fun kf : KalmanFilter F => kf.A
  let H ← PyP.attr fun kf : KalmanFilter F => kf.H
  let B ← PyP.attr fun kf : KalmanFilter F => kf.B
  let Q ← PyP.attr fun kf : KalmanFilter F => kf.Q
  let R ← PyP.attr fun kf : KalmanFilter F => kf.R
  let rows ← PyP.lift (zipRows A H B U' Z Q R)
  filterLoopP s 0 rows xk Pk states errors

/-- standard.py 312-385 `smooth`: `filter`, then reads `state_size` (348, 349, twice), `A`, `B`, `Q` (357-359).
(`smoothLoop` touches no attribute: `predict` does not read `self`.) -/
def smoothP (Z : NDArray F) (U : Option (NDArray F)) :
    PyP (KalmanFilter F) (List (Arr F) × List (Arr F)) := do
  let (xEst, PEst) ← filterP Z U
  let n ← PyP.lift Z.len
  let s ← PyP.attr fun kf : KalmanFilter F => kf.stateSize
  let s₁ ← PyP.attr fun kf : KalmanFilter F => kf.stateSize
  let _ ← PyP.attr fun kf : KalmanFilter F => kf.stateSize
  let xs := List.replicate n (Arr.zerosVec s)
  let Ps := List.replicate n (Arr.zerosMat s₁)
  let xLast ← PyP.lift (if n = 0 then .error .indexError else getRow xEst (n - 1))
  let PLast ← PyP.lift (if n = 0 then .error .indexError else getRow PEst (n - 1))
  let xrow ← PyP.lift (xLast.assignVec s)
  let Prow ← PyP.lift (PLast.assignMat s₁)
  let U' := checkNoneAndBroadcast U Z
  let A ← PyP.attr fun kf : KalmanFilter F => kf.A
  let B ← PyP.attr fun kf : KalmanFilter F => kf.B
  let Q ← PyP.attr fun kf : KalmanFilter F => kf.Q
  PyP.lift (smoothLoop A Q B U' s xEst PEst (List.range (n - 1)).reverse
    (xs.set (n - 1) xrow) (Ps.set (n - 1) Prow))

end KalmanFilter

namespace ExtendedKalmanFilter

variable {F : Type} [Backend F]

/-- extended.py 144-187 `predict`: reads `jacobian_A` (179), then `f` (182). -/
def predictP (xk : Arr F) (uk : Option (Arr F)) (Pk Qk : Arr F) :
    PyP (ExtendedKalmanFilter F) (Arr F × Arr F) := do
  let jA ← PyP.attr fun kf : ExtendedKalmanFilter F => kf.jacobianA
  let Ak ← PyP.lift (jA xk uk)
  let f ← PyP.attr fun kf : ExtendedKalmanFilter F => kf.f
  let xkPrior ← PyP.lift (f xk uk)
  PyP.lift do
    let pat ← Pk.matmul Ak.T
    let apat ← Ak.matmul pat
    let PkPrior ← apat.add Qk
    .ok (xkPrior, PkPrior)

/-- extended.py 189-246 `update`: reads `jacobian_H` (231), appends to `kalman_gains` (238), reads `h` (241) and `__I`
(244). -/
def updateP (xk Pk zk Rk : Arr F) : PyP (ExtendedKalmanFilter F) (Arr F × Arr F) := do
  let jH ← PyP.attr fun kf : ExtendedKalmanFilter F => kf.jacobianH
  let Hk ← PyP.lift (jH xk)
  let Kk ← PyP.lift (gain Hk Pk Rk)
  PyP.mutate fun kf => { kf with kalmanGains := kf.kalmanGains ++ [Kk] }
  let h ← PyP.attr fun kf : ExtendedKalmanFilter F => kf.h
  let xkPost ← PyP.lift do
    let hx ← h xk
    let res ← zk.sub hx
    let corr ← Kk.matmul res.atleast1d
    xk.add corr
  let I ← PyP.attr fun kf : ExtendedKalmanFilter F => kf.I
  PyP.lift do
    let kh ← Kk.matmul Hk
    let ikh ← I.sub kh
    let PkPost ← ikh.matmul Pk
    .ok (xkPost, PkPost)

/-- extended.py 288-302: the feedback loop. -/
def filterLoopP (s : ℕ) : ℕ → List (Row F) → Arr F → Arr F → List (Arr F) → List (Arr F) →
    PyP (ExtendedKalmanFilter F) (List (Arr F) × List (Arr F))
  | _, [], _, _, states, errors => PyP.lift (.ok (states, errors))
  | k, (uk, zk, Qk, Rk) :: rest, xk, Pk, states, errors => do
    let (xkPrior, PkPrior) ← predictP xk (some uk) Pk Qk
    let (xkPost, PkPost) ← updateP xkPrior PkPrior zk Rk
    let srow ← PyP.lift (xkPost.assignVec s)
    let erow ← PyP.lift (PkPost.assignMat s)
    filterLoopP s (k + 1) rest xkPost PkPost (states.set k srow) (errors.set k erow)

/-- extended.py 248-304 `filter`: reads `state_size` (274, 275, twice), `xk` (278), `Pk` (279), `Q`, `R` (287). -/
def filterP (Z : NDArray F) (U : Option (NDArray F)) :
    PyP (ExtendedKalmanFilter F) (List (Arr F) × List (Arr F)) := do
  let n ← PyP.lift Z.len
  let s ← PyP.attr fun kf : ExtendedKalmanFilter F => kf.stateSize
  let s₁ ← PyP.attr fun kf : ExtendedKalmanFilter F => kf.stateSize
  let _ ← PyP.attr fun kf : ExtendedKalmanFilter F => kf.stateSize
  let states := List.replicate n (Arr.zerosVec s)
  let errors := List.replicate n (Arr.zerosMat s₁)
  let xk ← PyP.attr fun kf : ExtendedKalmanFilter F => kf.xk
  let Pk ← PyP.attr fun kf : ExtendedKalmanFilter F => kf.Pk
  let U' := checkNoneAndBroadcast U Z
  let Q ← PyP.attr fun kf : ExtendedKalmanFilter F => kf.Q
  let R ← PyP.attr fun kf : ExtendedKalmanFilter F => kf.R
  let rows ← PyP.lift (zipRows U' Z Q R)
  filterLoopP s 0 rows xk Pk states errors

/-- extended.py 362-377: body of the backward loop; the calls of `self.predict` and `self.jacobian_A` (372) read `self`
in every iteration. -/
def smoothStepP (xEst PEst Qk uk xNext PNext : Arr F) :
    PyP (ExtendedKalmanFilter F) (Arr F × Arr F) := do
  let (xAhead, PAhead) ← predictP xEst (some uk) PEst Qk
  let jA ← PyP.attr fun kf : ExtendedKalmanFilter F => kf.jacobianA
  PyP.lift do
    let Ak ← jA xEst (some uk)
    let pat ← PEst.matmul Ak.T
    let X ← Arr.solve PAhead.T pat.T
    let Kk := X.T
    let dx ← xNext.sub xAhead
    let kdx ← Kk.matmul dx
    let xs ← xEst.add kdx
    let dP ← PNext.sub PAhead
    let dPk ← dP.matmul Kk.T
    let kdPk ← Kk.matmul dPk
    let Ps ← PEst.add kdPk
    .ok (xs, Ps)

/-- extended.py 361-377: the backward loop. -/
def smoothLoopP (s : ℕ) (Q U : NDArray F) (xEst PEst : List (Arr F)) :
    List ℕ → List (Arr F) → List (Arr F) → PyP (ExtendedKalmanFilter F) (List (Arr F) × List (Arr F))
  | [], xs, Ps => PyP.lift (.ok (xs, Ps))
  | k :: ks, xs, Ps => do
    let Qk ← PyP.lift (Q.item (k + 1))
    let uk ← PyP.lift (U.item (k + 1))
    let Pk ← PyP.lift (getRow PEst k)
    let xk ← PyP.lift (getRow xEst k)
    let xNext ← PyP.lift (getRow xs (k + 1))
    let PNext ← PyP.lift (getRow Ps (k + 1))
    let (x, P) ← smoothStepP xk Pk Qk uk xNext PNext
    let xrow ← PyP.lift (x.assignVec s)
    let Prow ← PyP.lift (P.assignMat s)
    smoothLoopP s Q U xEst PEst ks (xs.set k xrow) (Ps.set k Prow)

/-- extended.py 306-379 `smooth`: `filter`, then reads `state_size` (347, 348, twice) and `Q` (356). -/
def smoothP (Z : NDArray F) (U : Option (NDArray F)) :
    PyP (ExtendedKalmanFilter F) (List (Arr F) × List (Arr F)) := do
  let (xEst, PEst) ← filterP Z U
  let n ← PyP.lift Z.len
  let s ← PyP.attr fun kf : ExtendedKalmanFilter F => kf.stateSize
  let s₁ ← PyP.attr fun kf : ExtendedKalmanFilter F => kf.stateSize
  let _ ← PyP.attr fun kf : ExtendedKalmanFilter F => kf.stateSize
  let xs := List.replicate n (Arr.zerosVec s)
  let Ps := List.replicate n (Arr.zerosMat s₁)
  let xLast ← PyP.lift (if n = 0 then .error .indexError else getRow xEst (n - 1))
  let PLast ← PyP.lift (if n = 0 then .error .indexError else getRow PEst (n - 1))
  let xrow ← PyP.lift (xLast.assignVec s)
  let Prow ← PyP.lift (PLast.assignMat s₁)
  let U' := checkNoneAndBroadcast U Z
  let Q ← PyP.attr fun kf : ExtendedKalmanFilter F => kf.Q
  smoothLoopP s Q U' xEst PEst (List.range (n - 1)).reverse (xs.set (n - 1) xrow) (Ps.set (n - 1) Prow)

end ExtendedKalmanFilter

end KK
