import Verif.Model.Standard
import Verif.Model.Extended

/-!
# Parameters given as one-shot iterators (generators, `itertools.repeat`, file readers, ...)

`filter` only hands `A`, `H`, `B`, `U`, `Q`, `R` to `zip` (standard.py 291, extended.py 287), so anything that can be
iterated is accepted there, also objects that can be iterated only once.  Such an iterator remembers between calls how
far it has been read.  `smooth` indexes `A`, `Q`, `B`, `U` (standard.py 366-369, extended.py 363-364), which iterators
do not support.  Here a parameter is an array or an iterator; iterator number `i` would yield the items
`items i 0, items i 1, ...` (up to the first `none`: StopIteration) and `pos i` of them have been read.  The same
iterator object may be used in several places.
Simplification: iterators do not raise exceptions of their own, and reading them has no effect on anything else.
-/

namespace KK

/-- A parameter or argument: an array, or the iterator object with the given number. -/
inductive Param (F : Type) where
  | array (a : NDArray F)
  | iterator (i : ℕ)

/-- What iterators yield, by number of the iterator and of the item. -/
abbrev Items (F : Type) := ℕ → ℕ → Option (Arr F)

/-- An object together with the number of items read so far from every iterator. -/
structure Reading (O : Type) where
  obj : O
  pos : ℕ → ℕ

/-- The attributes of a `KalmanFilter` object (standard.py 116-130) whose sequences may be iterators. -/
structure IterFilter (F : Type) where
  A : Param F
  xk : Arr F
  B : Param F
  Pk : Arr F
  H : Param F
  Q : Param F
  R : Param F
  stateSize : ℕ
  I : Arr F
  kalmanGains : List (Arr F)

/-- The attributes of an `ExtendedKalmanFilter` object (extended.py 130-142) whose sequences may be iterators. -/
structure IterEkf (F : Type) where
  f : Arr F → Option (Arr F) → Except PyErr (Arr F)
  jacobianA : Arr F → Option (Arr F) → Except PyErr (Arr F)
  xk : Arr F
  Pk : Arr F
  h : Arr F → Except PyErr (Arr F)
  jacobianH : Arr F → Except PyErr (Arr F)
  Q : Param F
  R : Param F
  stateSize : ℕ
  I : Arr F
  kalmanGains : List (Arr F)

namespace Param

variable {F : Type}

/-- `len(p)` (standard.py 278, 348, 363; extended.py 274, 347, 360): TypeError on an iterator. -/
def len : Param F → Except PyErr ℕ
  | .array a => a.len
  | .iterator _ => .error .typeError

/-- `iter(p)`, called by `zip` on every argument before anything is read: TypeError on a 0-d array. -/
def checkIter : Param F → Except PyErr Unit
  | .array (.d0 _ _) => .error .typeError
  | .array (.stack _) => .ok ()
  | .iterator _ => .ok ()

/-- `p[k]` (standard.py 366-369, extended.py 363-364): TypeError on an iterator. -/
def item (k : ℕ) : Param F → Except PyErr (Arr F)
  | .array a => a.item k
  | .iterator _ => .error .typeError

/-- utils.py 12-35 `check_none_and_broadcast(p, broad_to)`.  `np.full_like` of an iterator is a 0-d object array. -/
def orNan [Backend F] (p : Option (Param F)) (broadTo : Param F) : Param F :=
  match p with
  | some p => p
  | none =>
    match broadTo with
    | .array a => .array a.fullLikeNan
    | .iterator _ => .array (.d0 .float64 Backend.nan)

/-- All of `zip`'s calls of `iter` (standard.py 291, extended.py 287). -/
def checkAll : List (Param F) → Except PyErr Unit
  | [] => .ok ()
  | p :: ps => do
    p.checkIter
    checkAll ps

/-- `next(zip(...))` for the `k`-th time (standard.py 292, extended.py 288): the arguments are asked in order; the first
one that has nothing left ends the loop, and what was taken from those before it is lost. -/
def pull (items : Items F) : List (Param F) → ℕ → (ℕ → ℕ) → Option (List (Arr F)) × (ℕ → ℕ)
  | [], _, pos => (some [], pos)
  | .array (.d0 _ _) :: _, _, pos => (none, pos)     -- excluded by `checkAll`
  | .array (.stack rows) :: ps, k, pos =>
    match rows[k]? with
    | none => (none, pos)
    | some x =>
      match pull items ps k pos with
      | (none, pos') => (none, pos')
      | (some xs, pos') => (some (x :: xs), pos')
  | .iterator i :: ps, k, pos =>
    match items i (pos i) with
    | none => (none, pos)
    | some x =>
      match pull items ps k (Function.update pos i (pos i + 1)) with
      | (none, pos') => (none, pos')
      | (some xs, pos') => (some (x :: xs), pos')

/-- The loop header `for k, (...) in enumerate(zip(...))` asking for the next row. -/
def next {O : Type} (items : Items F) (ps : List (Param F)) (k : ℕ) : Py (Reading O) (Option (List (Arr F))) :=
  ⟨fun w => (.ok (pull items ps k w.pos).1, { w with pos := (pull items ps k w.pos).2 })⟩

end Param

namespace IterFilter

variable {F : Type} [Backend F]

/-- standard.py 105-130 `__init__`, as `KalmanFilter.new`. -/
def new (A : Param F) (xk : Arr F) (B : Option (Param F)) (Pk : Arr F) (H Q R : Param F)
    (stateSize : Option ℤ := none) : Except PyErr (IterFilter F) := do
  let B' := Param.orNan B A
  let n ← match stateSize with
    | some (.ofNat (s + 1)) => .ok (s + 1)
    | some (.negSucc _) => .error .valueError
    | _ => match xk.shape with
      | [] => .error .indexError
      | n :: _ => .ok n
  .ok { A := A, xk := xk, B := B', Pk := Pk, H := H, Q := Q, R := R,
        stateSize := n, I := Arr.identity n, kalmanGains := [] }

/-- standard.py 189-250 `update`. -/
def update (Hk xk Pk zk Rk : Arr F) : Py (Reading (IterFilter F)) (Arr F × Arr F) := do
  let Kk ← Py.lift (KalmanFilter.gain Hk Pk Rk)
  Py.mutate fun w => { w with obj := { w.obj with kalmanGains := w.obj.kalmanGains ++ [Kk] } }
  let w ← Py.self
  Py.lift (KalmanFilter.correct w.obj.I Kk Hk xk Pk zk)

/-- standard.py 292-308: the loop over `zip(ps)`, where `ps` are the seven arguments of `zip` in order.  The first
argument only serves the recursion: it counts down from one more than `len(Z)`, the most often `zip` can be asked. -/
def filterLoop (items : Items F) (ps : List (Param F)) : ℕ → ℕ → Arr F → Arr F → List (Arr F) → List (Arr F) →
    Py (Reading (IterFilter F)) (List (Arr F) × List (Arr F))
  | 0, _, _, _, states, errors => Py.pure (states, errors)
  | c + 1, k, xk, Pk, states, errors => do
    match ← Param.next items ps k with
    | some [Ak, Hk, Bk, uk, zk, Qk, Rk] =>
      let (xkPrior, PkPrior) ← Py.lift (KalmanFilter.predict Ak xk (some Bk) (some uk) Pk Qk)
      let (xkPost, PkPost) ← update Hk xkPrior PkPrior zk Rk
      let w ← Py.self
      let srow ← Py.lift (xkPost.assignVec w.obj.stateSize)
      let erow ← Py.lift (PkPost.assignMat w.obj.stateSize)
      filterLoop items ps c (k + 1) xkPost PkPost (states.set k srow) (errors.set k erow)
    | _ => Py.pure (states, errors)

/-- standard.py 252-310 `filter`. -/
def filter (items : Items F) (Z : Param F) (U : Option (Param F)) :
    Py (Reading (IterFilter F)) (List (Arr F) × List (Arr F)) := do
  let w ← Py.self
  let n ← Py.lift Z.len
  let states := List.replicate n (Arr.zerosVec w.obj.stateSize)
  let errors := List.replicate n (Arr.zerosMat w.obj.stateSize)
  let U' := Param.orNan U Z
  let ps := [w.obj.A, w.obj.H, w.obj.B, U', Z, w.obj.Q, w.obj.R]
  Py.lift (Param.checkAll ps)
  filterLoop items ps (n + 1) 0 w.obj.xk w.obj.Pk states errors

/-- standard.py 364-383: the backward loop. -/
def smoothLoop (A Q B U : Param F) (s : ℕ) (xEst PEst : List (Arr F)) :
    List ℕ → List (Arr F) → List (Arr F) → Except PyErr (List (Arr F) × List (Arr F))
  | [], xs, Ps => .ok (xs, Ps)
  | k :: ks, xs, Ps => do
    let Ak ← A.item (k + 1)
    let Qk ← Q.item (k + 1)
    let Bk ← B.item (k + 1)
    let uk ← U.item (k + 1)
    let Pk ← getRow PEst k
    let xk ← getRow xEst k
    let xNext ← getRow xs (k + 1)
    let PNext ← getRow Ps (k + 1)
    let (x, P) ← KalmanFilter.smoothStep xk Pk Ak Qk Bk uk xNext PNext
    let xrow ← x.assignVec s
    let Prow ← P.assignMat s
    smoothLoop A Q B U s xEst PEst ks (xs.set k xrow) (Ps.set k Prow)

/-- standard.py 312-385 `smooth`. -/
def smooth (items : Items F) (Z : Param F) (U : Option (Param F)) :
    Py (Reading (IterFilter F)) (List (Arr F) × List (Arr F)) := do
  let (xEst, PEst) ← filter items Z U
  let w ← Py.self
  let n ← Py.lift Z.len
  let xs := List.replicate n (Arr.zerosVec w.obj.stateSize)
  let Ps := List.replicate n (Arr.zerosMat w.obj.stateSize)
  let xLast ← Py.lift (if n = 0 then .error .indexError else getRow xEst (n - 1))
  let PLast ← Py.lift (if n = 0 then .error .indexError else getRow PEst (n - 1))
  let xrow ← Py.lift (xLast.assignVec w.obj.stateSize)
  let Prow ← Py.lift (PLast.assignMat w.obj.stateSize)
  let U' := Param.orNan U Z
  Py.lift (smoothLoop w.obj.A w.obj.Q w.obj.B U' w.obj.stateSize xEst PEst (List.range (n - 1)).reverse
    (xs.set (n - 1) xrow) (Ps.set (n - 1) Prow))

end IterFilter

namespace IterEkf

variable {F : Type} [Backend F]

/-- The same object as the code sees it in `predict` and `update`, where `Q` and `R` play no role. -/
def plain (o : IterEkf F) : ExtendedKalmanFilter F :=
  { f := o.f, jacobianA := o.jacobianA, xk := o.xk, Pk := o.Pk, h := o.h, jacobianH := o.jacobianH,
    Q := .stack [], R := .stack [], stateSize := o.stateSize, I := o.I, kalmanGains := o.kalmanGains }

/-- extended.py 189-246 `update`. -/
def update (xk Pk zk Rk : Arr F) : Py (Reading (IterEkf F)) (Arr F × Arr F) := do
  let w ← Py.self
  let Hk ← Py.lift (w.obj.jacobianH xk)
  let Kk ← Py.lift (ExtendedKalmanFilter.gain Hk Pk Rk)
  Py.mutate fun w => { w with obj := { w.obj with kalmanGains := w.obj.kalmanGains ++ [Kk] } }
  Py.lift (ExtendedKalmanFilter.correct w.obj.plain Kk Hk xk Pk zk)

/-- extended.py 288-302: the loop over `zip(ps)`, where `ps` are the four arguments of `zip` in order. -/
def filterLoop (items : Items F) (ps : List (Param F)) : ℕ → ℕ → Arr F → Arr F → List (Arr F) → List (Arr F) →
    Py (Reading (IterEkf F)) (List (Arr F) × List (Arr F))
  | 0, _, _, _, states, errors => Py.pure (states, errors)
  | c + 1, k, xk, Pk, states, errors => do
    match ← Param.next items ps k with
    | some [uk, zk, Qk, Rk] =>
      let w ← Py.self
      let (xkPrior, PkPrior) ← Py.lift (ExtendedKalmanFilter.predict w.obj.plain xk (some uk) Pk Qk)
      let (xkPost, PkPost) ← update xkPrior PkPrior zk Rk
      let srow ← Py.lift (xkPost.assignVec w.obj.stateSize)
      let erow ← Py.lift (PkPost.assignMat w.obj.stateSize)
      filterLoop items ps c (k + 1) xkPost PkPost (states.set k srow) (errors.set k erow)
    | _ => Py.pure (states, errors)

/-- extended.py 248-304 `filter`. -/
def filter (items : Items F) (Z : Param F) (U : Option (Param F)) :
    Py (Reading (IterEkf F)) (List (Arr F) × List (Arr F)) := do
  let w ← Py.self
  let n ← Py.lift Z.len
  let states := List.replicate n (Arr.zerosVec w.obj.stateSize)
  let errors := List.replicate n (Arr.zerosMat w.obj.stateSize)
  let U' := Param.orNan U Z
  let ps := [U', Z, w.obj.Q, w.obj.R]
  Py.lift (Param.checkAll ps)
  filterLoop items ps (n + 1) 0 w.obj.xk w.obj.Pk states errors

/-- extended.py 361-377: the backward loop. -/
def smoothLoop (o : IterEkf F) (Q U : Param F) (xEst PEst : List (Arr F)) :
    List ℕ → List (Arr F) → List (Arr F) → Except PyErr (List (Arr F) × List (Arr F))
  | [], xs, Ps => .ok (xs, Ps)
  | k :: ks, xs, Ps => do
    let Qk ← Q.item (k + 1)
    let uk ← U.item (k + 1)
    let Pk ← getRow PEst k
    let xk ← getRow xEst k
    let xNext ← getRow xs (k + 1)
    let PNext ← getRow Ps (k + 1)
    let (x, P) ← ExtendedKalmanFilter.smoothStep o.plain xk Pk Qk uk xNext PNext
    let xrow ← x.assignVec o.stateSize
    let Prow ← P.assignMat o.stateSize
    smoothLoop o Q U xEst PEst ks (xs.set k xrow) (Ps.set k Prow)

/-- extended.py 306-379 `smooth`. -/
def smooth (items : Items F) (Z : Param F) (U : Option (Param F)) :
    Py (Reading (IterEkf F)) (List (Arr F) × List (Arr F)) := do
  let (xEst, PEst) ← filter items Z U
  let w ← Py.self
  let n ← Py.lift Z.len
  let xs := List.replicate n (Arr.zerosVec w.obj.stateSize)
  let Ps := List.replicate n (Arr.zerosMat w.obj.stateSize)
  let xLast ← Py.lift (if n = 0 then .error .indexError else getRow xEst (n - 1))
  let PLast ← Py.lift (if n = 0 then .error .indexError else getRow PEst (n - 1))
  let xrow ← Py.lift (xLast.assignVec w.obj.stateSize)
  let Prow ← Py.lift (PLast.assignMat w.obj.stateSize)
  let U' := Param.orNan U Z
  Py.lift (smoothLoop w.obj w.obj.Q U' xEst PEst (List.range (n - 1)).reverse
    (xs.set (n - 1) xrow) (Ps.set (n - 1) Prow))

end IterEkf

end KK
