import Verif.Model.Stateful
import Verif.Model.Standard

/-!
# Subclasses that override `predict` or `update`

`filter` and `smooth` call `self.predict` and `self.update` (standard.py 287-288, 361; extended.py 283-284, 358), so a
subclass of `KalmanFilter` or `ExtendedKalmanFilter` changes what they do by overriding these methods.  Here the two methods
are arbitrary programs that may read and change the inherited attributes and the instance's own ones (the type `σ`), and may
raise.  The attributes are read where the code reads them.
`smoothOf` is `smooth` of a subclass that overrides `filter` as well.
Simplifications: the overriding methods do not replace methods or callbacks of the
instance while a call is running and do not write into arrays in place; callbacks of the extended class are pure functions.
-/

namespace KK

/-- An instance of a subclass of the class with attributes `O`: the inherited attributes and its own. -/
structure Instance (σ O : Type) where
  base : O
  own : σ

/-- Run a method of the base class on an instance: `super().method(...)`. -/
def Instance.inherited {σ O α : Type} (p : Py O α) : Py (Instance σ O) α :=
  ⟨fun s => ((p.run s.base).1, { s with base := (p.run s.base).2 })⟩

/-- The inherited attributes at this moment. -/
def Instance.attrs {σ O : Type} : Py (Instance σ O) O := ⟨fun s => (.ok s.base, s)⟩

/-- The methods `predict` and `update` of a subclass of `KalmanFilter`, in the order of their parameters (standard.py 132-140,
189-196). -/
structure Methods (σ F : Type) where
  predict : Arr F → Arr F → Option (Arr F) → Option (Arr F) → Arr F → Arr F → Py (Instance σ (KalmanFilter F)) (Arr F × Arr F)
  update : Arr F → Arr F → Arr F → Arr F → Arr F → Py (Instance σ (KalmanFilter F)) (Arr F × Arr F)

namespace Methods

variable {σ F : Type} [Backend F]

/-- The methods of a subclass that overrides nothing. -/
def plain : Methods σ F where
  predict Ak xk Bk uk Pk Qk := Py.lift (KalmanFilter.predict Ak xk Bk uk Pk Qk)
  update Hk xk Pk zk Rk := Instance.inherited (KalmanFilter.update Hk xk Pk zk Rk)

/-- standard.py 292-308: the feedback loop; rows of the result have the size `n` they were allocated with. -/
def filterLoop (M : Methods σ F) (n : ℕ) : ℕ → List (KalmanFilter.Row F) → Arr F → Arr F → List (Arr F) → List (Arr F) →
    Py (Instance σ (KalmanFilter F)) (List (Arr F) × List (Arr F))
  | _, [], _, _, states, errors => Py.pure (states, errors)
  | k, (Ak, Hk, Bk, uk, zk, Qk, Rk) :: rest, xk, Pk, states, errors => do
    let prior ← M.predict Ak xk (some Bk) (some uk) Pk Qk
    let post ← M.update Hk prior.1 prior.2 zk Rk
    let srow ← Py.lift (post.1.assignVec n)
    let erow ← Py.lift (post.2.assignMat n)
    filterLoop M n (k + 1) rest post.1 post.2 (states.set k srow) (errors.set k erow)

/-- standard.py 252-310 `filter`, called on an instance of the subclass. -/
def filter (M : Methods σ F) (Z : NDArray F) (U : Option (NDArray F)) :
    Py (Instance σ (KalmanFilter F)) (List (Arr F) × List (Arr F)) := do
  let kf ← Instance.attrs
  let len ← Py.lift Z.len
  let states := List.replicate len (Arr.zerosVec kf.stateSize)
  let errors := List.replicate len (Arr.zerosMat kf.stateSize)
  let rows ← Py.lift (KalmanFilter.zipRows kf.A kf.H kf.B (checkNoneAndBroadcast U Z) Z kf.Q kf.R)
  filterLoop M kf.stateSize 0 rows kf.xk kf.Pk states errors

/-- standard.py 366-371: the items read by the backward loop, and the rows of the arrays it works on. -/
def backItems (A Q B U : NDArray F) (xEst PEst xs Ps : List (Arr F)) (k : ℕ) :
    Except PyErr ((Arr F × Arr F × Arr F × Arr F) × Arr F × Arr F × Arr F × Arr F) := do
  let Ak ← A.item (k + 1)
  let Qk ← Q.item (k + 1)
  let Bk ← B.item (k + 1)
  let uk ← U.item (k + 1)
  let Pk ← getRow PEst k
  let xk ← getRow xEst k
  let xNext ← getRow xs (k + 1)
  let PNext ← getRow Ps (k + 1)
  .ok ((Ak, Qk, Bk, uk), Pk, xk, xNext, PNext)

/-- standard.py 364-383: the backward loop.  `Stateful.smoothed` is lines 379-383, which are those of the extended class. -/
def smoothLoop (M : Methods σ F) (n : ℕ) (A Q B U : NDArray F) (xEst PEst : List (Arr F)) :
    List ℕ → List (Arr F) → List (Arr F) → Py (Instance σ (KalmanFilter F)) (List (Arr F) × List (Arr F))
  | [], xs, Ps => Py.pure (xs, Ps)
  | k :: ks, xs, Ps => do
    let ((Ak, Qk, Bk, uk), Pk, xk, xNext, PNext) ← Py.lift (backItems A Q B U xEst PEst xs Ps k)
    let ahead ← M.predict Ak xk (some Bk) (some uk) Pk Qk
    let r ← Py.lift (Stateful.smoothed Ak xk Pk ahead.1 ahead.2 xNext PNext)
    let xrow ← Py.lift (r.1.assignVec n)
    let Prow ← Py.lift (r.2.assignMat n)
    smoothLoop M n A Q B U xEst PEst ks (xs.set k xrow) (Ps.set k Prow)

/-- standard.py 312-385 `smooth`, called on an instance of the subclass; `self.state_size`, `self.A`, `self.B` and `self.Q` are
read after the call of `filter`. -/
def smooth (M : Methods σ F) (Z : NDArray F) (U : Option (NDArray F)) :
    Py (Instance σ (KalmanFilter F)) (List (Arr F) × List (Arr F)) := do
  let est ← filter M Z U
  let kf ← Instance.attrs
  let n ← Py.lift Z.len
  let xLast ← Py.lift (Stateful.lastRow n est.1)
  let PLast ← Py.lift (Stateful.lastRow n est.2)
  let xrow ← Py.lift (xLast.assignVec kf.stateSize)
  let Prow ← Py.lift (PLast.assignMat kf.stateSize)
  let xs := List.replicate n (Arr.zerosVec kf.stateSize)
  let Ps := List.replicate n (Arr.zerosMat kf.stateSize)
  smoothLoop M kf.stateSize kf.A kf.Q kf.B (checkNoneAndBroadcast U Z) est.1 est.2 (List.range (n - 1)).reverse
    (xs.set (n - 1) xrow) (Ps.set (n - 1) Prow)

/-- `rows[-1]` (standard.py 352-353, extended.py 351-352) of an array returned by an overriding method. -/
def lastGiven (rows : List (Arr F)) : Except PyErr (Arr F) :=
  match rows.getLast? with
  | none => .error .indexError
  | some x => .ok x

/-- standard.py 312-385 `smooth`, called on an instance of a subclass that also overrides `filter`: `flt` is that method, which may
return arrays with any number of rows of any shape.  Line 352 is carried out before line 353; assigning to row -1 of an array without
rows is an IndexError. -/
def smoothOf (flt : NDArray F → Option (NDArray F) → Py (Instance σ (KalmanFilter F)) (List (Arr F) × List (Arr F))) (M : Methods σ F)
    (Z : NDArray F) (U : Option (NDArray F)) : Py (Instance σ (KalmanFilter F)) (List (Arr F) × List (Arr F)) := do
  let est ← flt Z U
  let kf ← Instance.attrs
  let n ← Py.lift Z.len
  let xLast ← Py.lift (lastGiven est.1)
  let xrow ← Py.lift (if n = 0 then .error .indexError else xLast.assignVec kf.stateSize)
  let PLast ← Py.lift (lastGiven est.2)
  let Prow ← Py.lift (PLast.assignMat kf.stateSize)
  let xs := List.replicate n (Arr.zerosVec kf.stateSize)
  let Ps := List.replicate n (Arr.zerosMat kf.stateSize)
  smoothLoop M kf.stateSize kf.A kf.Q kf.B (checkNoneAndBroadcast U Z) est.1 est.2 (List.range (n - 1)).reverse
    (xs.set (n - 1) xrow) (Ps.set (n - 1) Prow)

end Methods

/-- The methods `predict` and `update` of a subclass of `ExtendedKalmanFilter`, in the order of their parameters (extended.py
144-150, 189-195). -/
structure ExtMethods (σ F : Type) where
  predict : Arr F → Option (Arr F) → Arr F → Arr F → Py (Instance σ (ExtendedKalmanFilter F)) (Arr F × Arr F)
  update : Arr F → Arr F → Arr F → Arr F → Py (Instance σ (ExtendedKalmanFilter F)) (Arr F × Arr F)

namespace ExtMethods

variable {σ F : Type} [Backend F]

/-- `super().predict(...)` of the extended class: `self.f`, `self.jacobian_A` are read from the instance. -/
def basePredict (xk : Arr F) (uk : Option (Arr F)) (Pk Qk : Arr F) : Py (Instance σ (ExtendedKalmanFilter F)) (Arr F × Arr F) :=
  ⟨fun s => (s.base.predict xk uk Pk Qk, s)⟩

/-- The methods of a subclass that overrides nothing. -/
def plain : ExtMethods σ F where
  predict := basePredict
  update xk Pk zk Rk := Instance.inherited (ExtendedKalmanFilter.update xk Pk zk Rk)

/-- extended.py 288-302: the feedback loop. -/
def filterLoop (M : ExtMethods σ F) (n : ℕ) : ℕ → List (ExtendedKalmanFilter.Row F) → Arr F → Arr F → List (Arr F) → List (Arr F) →
    Py (Instance σ (ExtendedKalmanFilter F)) (List (Arr F) × List (Arr F))
  | _, [], _, _, states, errors => Py.pure (states, errors)
  | k, (uk, zk, Qk, Rk) :: rest, xk, Pk, states, errors => do
    let prior ← M.predict xk (some uk) Pk Qk
    let post ← M.update prior.1 prior.2 zk Rk
    let srow ← Py.lift (post.1.assignVec n)
    let erow ← Py.lift (post.2.assignMat n)
    filterLoop M n (k + 1) rest post.1 post.2 (states.set k srow) (errors.set k erow)

/-- extended.py 248-304 `filter`, called on an instance of the subclass. -/
def filter (M : ExtMethods σ F) (Z : NDArray F) (U : Option (NDArray F)) :
    Py (Instance σ (ExtendedKalmanFilter F)) (List (Arr F) × List (Arr F)) := do
  let kf ← Instance.attrs
  let len ← Py.lift Z.len
  let states := List.replicate len (Arr.zerosVec kf.stateSize)
  let errors := List.replicate len (Arr.zerosMat kf.stateSize)
  let rows ← Py.lift (ExtendedKalmanFilter.zipRows (checkNoneAndBroadcast U Z) Z kf.Q kf.R)
  filterLoop M kf.stateSize 0 rows kf.xk kf.Pk states errors

/-- extended.py 361-377: the backward loop; `self.jacobian_A` is read in every iteration (372). -/
def smoothLoop (M : ExtMethods σ F) (n : ℕ) (Q U : NDArray F) (xEst PEst : List (Arr F)) :
    List ℕ → List (Arr F) → List (Arr F) → Py (Instance σ (ExtendedKalmanFilter F)) (List (Arr F) × List (Arr F))
  | [], xs, Ps => Py.pure (xs, Ps)
  | k :: ks, xs, Ps => do
    let (Qk, uk, Pk, xk, xNext, PNext) ← Py.lift (Stateful.backItems Q U xEst PEst xs Ps k)
    let ahead ← M.predict xk (some uk) Pk Qk
    let kf ← Instance.attrs
    let Ak ← Py.lift (kf.jacobianA xk (some uk))
    let r ← Py.lift (Stateful.smoothed Ak xk Pk ahead.1 ahead.2 xNext PNext)
    let xrow ← Py.lift (r.1.assignVec n)
    let Prow ← Py.lift (r.2.assignMat n)
    smoothLoop M n Q U xEst PEst ks (xs.set k xrow) (Ps.set k Prow)

/-- extended.py 306-379 `smooth`, called on an instance of the subclass. -/
def smooth (M : ExtMethods σ F) (Z : NDArray F) (U : Option (NDArray F)) :
    Py (Instance σ (ExtendedKalmanFilter F)) (List (Arr F) × List (Arr F)) := do
  let est ← filter M Z U
  let kf ← Instance.attrs
  let n ← Py.lift Z.len
  let xLast ← Py.lift (Stateful.lastRow n est.1)
  let PLast ← Py.lift (Stateful.lastRow n est.2)
  let xrow ← Py.lift (xLast.assignVec kf.stateSize)
  let Prow ← Py.lift (PLast.assignMat kf.stateSize)
  let xs := List.replicate n (Arr.zerosVec kf.stateSize)
  let Ps := List.replicate n (Arr.zerosMat kf.stateSize)
  smoothLoop M kf.stateSize kf.Q (checkNoneAndBroadcast U Z) est.1 est.2 (List.range (n - 1)).reverse
    (xs.set (n - 1) xrow) (Ps.set (n - 1) Prow)

/-- extended.py 306-379 `smooth`, called on an instance of a subclass that also overrides `filter`. -/
def smoothOf (flt : NDArray F → Option (NDArray F) → Py (Instance σ (ExtendedKalmanFilter F)) (List (Arr F) × List (Arr F)))
    (M : ExtMethods σ F) (Z : NDArray F) (U : Option (NDArray F)) : Py (Instance σ (ExtendedKalmanFilter F)) (List (Arr F) × List (Arr F)) := do
  let est ← flt Z U
  let kf ← Instance.attrs
  let n ← Py.lift Z.len
  let xLast ← Py.lift (Methods.lastGiven est.1)
  let xrow ← Py.lift (if n = 0 then .error .indexError else xLast.assignVec kf.stateSize)
  let PLast ← Py.lift (Methods.lastGiven est.2)
  let Prow ← Py.lift (PLast.assignMat kf.stateSize)
  let xs := List.replicate n (Arr.zerosVec kf.stateSize)
  let Ps := List.replicate n (Arr.zerosMat kf.stateSize)
  smoothLoop M kf.stateSize kf.Q (checkNoneAndBroadcast U Z) est.1 est.2 (List.range (n - 1)).reverse
    (xs.set (n - 1) xrow) (Ps.set (n - 1) Prow)

end ExtMethods

end KK
