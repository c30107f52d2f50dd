import Verif.Model.Standard
import Verif.Model.Extended

/-!
# Python lists and numbers in place of arrays

`Model/Standard.lean` and `Model/Extended.lean` take every argument as a numpy array.  Python does not: any of them may be a list or a plain
number, and then each operator of the library means something else.  This file models the same lines of
`/repo/src/kalmankit/standard.py` and `extended.py` for such arguments:

* `a @ b` with at least one array converts the other operand; with two lists (or numbers) it raises TypeError;
* `a.T` and `a.shape` of a list or a number raise AttributeError;
* `array + list` and `array - list` convert the list; `list - list` raises TypeError, `number - number` is a number;
* `np.isnan`, `np.full_like` convert lists as a whole (ragged lists raise ValueError).

Simplification: lists hold numbers or lists of numbers (no `None`, bool, string, or arrays inside a row); sequences may hold any mixture of such rows.
Numbers are Python `int`s (dtype tag `int64`) or `float`s.
-/

namespace KK

/-- A value passed for one row: an array, a number, a list of numbers, or a list of lists of numbers. -/
inductive PyVal (F : Type) where
  | arr (a : Arr F)
  | num (d : DType) (x : F)
  | list (l : List (DType × F))
  | nested (l : List (List (DType × F)))

/-- dtype of `np.asarray` of a list of numbers: `int64` iff there is at least one and all are ints. -/
def commonDType (l : List DType) : DType := if l ≠ [] ∧ ∀ d ∈ l, d = .int64 then .int64 else .float64

namespace PyVal

variable {F : Type}

/-- `isinstance(v, np.ndarray)` (numpy scalars included). -/
def isArr : PyVal F → Bool
  | .arr _ => true
  | _ => false

/-- `np.asarray(v)`, as done by every numpy function on its arguments; rows of different lengths raise ValueError. -/
def asarray : PyVal F → Except PyErr (Arr F)
  | .arr a => .ok a
  | .num d x => .ok (.scalar d x)
  | .list l => .ok (.vec (commonDType (l.map Prod.fst)) fun i : Fin l.length => (l.get i).2)
  | .nested [] => .ok (.vec (n := 0) .float64 fun i => i.elim0)
  | .nested (r :: rs) =>
    if h : ∀ t ∈ r :: rs, t.length = r.length then
      .ok (.mat (commonDType ((r :: rs).flatten.map Prod.fst)) fun (i : Fin (r :: rs).length) (j : Fin r.length) =>
        (((r :: rs).get i).get (j.cast (h _ (List.get_mem _ i)).symm)).2)
    else .error .valueError

/-- `v.T` (standard.py 185, 238, 241, 379; extended.py 185, 234, 237, 375): lists and numbers have no such attribute. -/
def T : PyVal F → Except PyErr (Arr F)
  | .arr a => .ok a.T
  | _ => .error .attributeError

/-- `v.shape[0]` (standard.py 128, extended.py 140). -/
def size0 : PyVal F → Except PyErr ℕ
  | .arr a => match a.shape with
    | [] => .error .indexError
    | n :: _ => .ok n
  | _ => .error .attributeError

variable [Backend F]

/-- `a @ b`: Python calls numpy if one operand is an array; lists and numbers have no `@` of their own. -/
def matmul (a b : PyVal F) : Except PyErr (Arr F) :=
  match a.isArr || b.isArr with
  | false => .error .typeError
  | true => do
    let x ← a.asarray
    let y ← b.asarray
    x.matmul y

/-- `a - b` (extended.py 241): with an array numpy converts the other operand, numbers are subtracted, lists have no `-`. -/
def sub (a b : PyVal F) : Except PyErr (Arr F) :=
  match a, b with
  | .arr x, b => do
    let y ← b.asarray
    x.sub y
  | a, .arr y => do
    let x ← a.asarray
    x.sub y
  | .num d x, .num e y => .ok (.scalar (d.promote e) (Backend.sub x y))
  | _, _ => .error .typeError

/-- utils.py 38-51 `is_nan_all(v)`: `np.isnan` converts lists and numbers; `None` raises TypeError. -/
def isNanAll (v : Option (PyVal F)) : Except PyErr Bool :=
  match v with
  | none => .error .typeError
  | some v => do
    let a ← v.asarray
    .ok a.isnanAll

end PyVal

/-- A value passed for a sequence of rows: an array, or a list. -/
inductive PySeq (F : Type) where
  | nd (a : NDArray F)
  | list (l : List (PyVal F))

namespace PySeq

variable {F : Type}

/-- `len(s)` -/
def len : PySeq F → Except PyErr ℕ
  | .nd a => a.len
  | .list l => .ok l.length

/-- `iter(s)` -/
def iter : PySeq F → Except PyErr (List (PyVal F))
  | .nd a => do
    let rows ← a.iter
    .ok (rows.map .arr)
  | .list l => .ok l

/-- `s[k]` -/
def item (s : PySeq F) (k : ℕ) : Except PyErr (PyVal F) :=
  match s with
  | .nd a => do
    let r ← a.item k
    .ok (.arr r)
  | .list l => match l[k]? with
    | some v => .ok v
    | none => .error .indexError

/-- `a.astype(d)`, on the dtype tag. -/
def _root_.KK.Arr.withDType (d : DType) : Arr F → Arr F
  | .scalar _ x => .scalar d x
  | .vec _ v => .vec d v
  | .mat _ M => .mat d M

/-- `np.full_like(s, np.nan)` (utils.py 33): a list is first converted as a whole - its rows must have one shape, and they get one dtype. -/
def fullLikeNan [Backend F] : PySeq F → Except PyErr (NDArray F)
  | .nd a => .ok a.fullLikeNan
  | .list l => do
    let rows ← l.mapM PyVal.asarray
    if ∀ r ∈ rows, ∀ t ∈ rows, r.shape = t.shape then
      .ok (.stack (rows.map fun r => (r.withDType (commonDType (rows.map Arr.dtype))).fullLikeNan))
    else .error .valueError

/-- utils.py 12-35 `check_none_and_broadcast(arr, broad_to)`. -/
def checkNone [Backend F] (s : Option (PySeq F)) (broadTo : PySeq F) : Except PyErr (PySeq F) :=
  match s with
  | none => do
    let a ← broadTo.fullLikeNan
    .ok (.nd a)
  | some s => .ok s

end PySeq

/-! ## standard.py -/

/-- The attributes of a `KalmanFilter` object (standard.py 116-130), holding whatever was passed. -/
structure PyFilter (F : Type) where
  A : PySeq F
  xk : PyVal F
  B : PySeq F
  Pk : PyVal F
  H : PySeq F
  Q : PySeq F
  R : PySeq F
  stateSize : ℕ
  I : Arr F
  kalmanGains : List (Arr F)

namespace PyFilter

variable {F : Type} [Backend F]

/-- standard.py 105-130 `__init__`. -/
def new (A : PySeq F) (xk : PyVal F) (B : Option (PySeq F)) (Pk : PyVal F) (H Q R : PySeq F) (stateSize : Option ℤ := none) :
    Except PyErr (PyFilter F) := do
  let B' ← PySeq.checkNone B A                            -- 118
  let n ← match stateSize with                            -- 125-128
    | some (.ofNat (s + 1)) => .ok (s + 1)
    | some (.negSucc _) => .error .valueError
    | _ => xk.size0
  .ok { A := A, xk := xk, B := B', Pk := Pk, H := H, Q := Q, R := R, stateSize := n, I := Arr.identity n, kalmanGains := [] }

/-- standard.py 179-182: the predicted mean. -/
def predictMean (Ak xk : PyVal F) (Bk uk : Option (PyVal F)) : Except PyErr (Arr F) := do
  let bNan ← PyVal.isNanAll Bk
  let skip ← match bNan with
    | true => .ok true
    | false => PyVal.isNanAll uk
  match skip, Bk, uk with
    | false, some B, some u => do
      let ax ← Ak.matmul xk
      let bu ← B.matmul u
      ax.add bu
    | _, _, _ => Ak.matmul xk

/-- standard.py 185: `Ak @ (Pk @ Ak.T) + Qk`. -/
def predictCov (Ak Pk Qk : PyVal F) : Except PyErr (Arr F) := do
  let At ← Ak.T
  let pat ← Pk.matmul (.arr At)
  let apat ← Ak.matmul (.arr pat)
  let q ← Qk.asarray
  apat.add q

/-- standard.py 132-187 `predict`. -/
def predict (Ak xk : PyVal F) (Bk uk : Option (PyVal F)) (Pk Qk : PyVal F) : Except PyErr (Arr F × Arr F) := do
  let x ← predictMean Ak xk Bk uk
  let P ← predictCov Ak Pk Qk
  .ok (x, P)

/-- standard.py 238-241: `Sk = Hk @ (Pk @ Hk.T) + Rk`, `np.linalg.solve(Sk.T, Hk @ Pk.T).T`. -/
def gain (Hk Pk Rk : PyVal F) : Except PyErr (Arr F) := do
  let Ht ← Hk.T
  let pht ← Pk.matmul (.arr Ht)
  let hpht ← Hk.matmul (.arr pht)
  let r ← Rk.asarray
  let Sk ← hpht.add r
  let Pt ← Pk.T
  let hpt ← Hk.matmul (.arr Pt)
  let X ← Arr.solve Sk.T hpt
  .ok X.T

/-- standard.py 244-250: the rest of `update`. -/
def correct (I Kk : Arr F) (Hk xk Pk zk : PyVal F) : Except PyErr (Arr F × Arr F) := do
  let hx ← Hk.matmul xk
  let res ← zk.sub (.arr hx)
  let corr ← Kk.matmul res.atleast1d
  let x ← xk.asarray
  let xkPost ← x.add corr
  let h ← Hk.asarray
  let kh ← Kk.matmul h
  let ikh ← I.sub kh
  let p ← Pk.asarray
  let PkPost ← ikh.matmul p
  .ok (xkPost, PkPost)

/-- standard.py 189-250 `update`. -/
def update (Hk xk Pk zk Rk : PyVal F) : Py (PyFilter F) (Arr F × Arr F) := do
  let Kk ← Py.lift (gain Hk Pk Rk)
  Py.mutate fun kf => { kf with kalmanGains := kf.kalmanGains ++ [Kk] }
  let kf ← Py.self
  Py.lift (correct kf.I Kk Hk xk Pk zk)

/-- One element of the `zip` (standard.py 291). -/
abbrev Row (F : Type) := PyVal F × PyVal F × PyVal F × PyVal F × PyVal F × PyVal F × PyVal F

/-- standard.py 291 `zip(self.A, self.H, self.B, U, Z, self.Q, self.R)`. -/
def zipRows (A H B U Z Q R : PySeq F) : Except PyErr (List (Row F)) := do
  let a ← A.iter
  let h ← H.iter
  let b ← B.iter
  let u ← U.iter
  let z ← Z.iter
  let q ← Q.iter
  let r ← R.iter
  .ok (a.zip (h.zip (b.zip (u.zip (z.zip (q.zip r))))))

/-- standard.py 292-308: the feedback loop. -/
def filterLoop : ℕ → List (Row F) → PyVal F → PyVal F → List (Arr F) → List (Arr F) → Py (PyFilter F) (List (Arr F) × List (Arr F))
  | _, [], _, _, states, errors => Py.pure (states, errors)
  | k, (Ak, Hk, Bk, uk, zk, Qk, Rk) :: rest, xk, Pk, states, errors => do
    let (xkPrior, PkPrior) ← Py.lift (predict Ak xk (some Bk) (some uk) Pk Qk)
    let (xkPost, PkPost) ← update Hk (.arr xkPrior) (.arr PkPrior) zk Rk
    let kf ← Py.self
    let srow ← Py.lift (xkPost.assignVec kf.stateSize)
    let erow ← Py.lift (PkPost.assignMat kf.stateSize)
    filterLoop (k + 1) rest (.arr xkPost) (.arr PkPost) (states.set k srow) (errors.set k erow)

/-- standard.py 252-310 `filter`. -/
def filter (Z : PySeq F) (U : Option (PySeq F)) : Py (PyFilter F) (List (Arr F) × List (Arr F)) := do
  let kf ← Py.self
  let n ← Py.lift Z.len
  let states := List.replicate n (Arr.zerosVec kf.stateSize)
  let errors := List.replicate n (Arr.zerosMat kf.stateSize)
  let U' ← Py.lift (PySeq.checkNone U Z)
  let rows ← Py.lift (zipRows kf.A kf.H kf.B U' Z kf.Q kf.R)
  filterLoop 0 rows kf.xk kf.Pk states errors

/-- standard.py 365-383: body of the backward loop; `xEst`, `PEst`, `xNext`, `PNext` are rows of arrays the library allocated. -/
def smoothStep (xEst PEst : Arr F) (Ak Qk Bk uk : PyVal F) (xNext PNext : Arr F) : Except PyErr (Arr F × Arr F) := do
  let (xAhead, PAhead) ← predict Ak (.arr xEst) (some Bk) (some uk) (.arr PEst) Qk
  let At ← Ak.T
  let pat ← PEst.matmul At
  let X ← Arr.solve PAhead.T pat.T
  let Kk := X.T
  let dx ← xNext.sub xAhead
  let kdx ← Kk.matmul dx
  let xs ← xEst.add kdx
  let dP ← PNext.sub PAhead
  let dPk ← dP.matmul Kk.T
  let kdPk ← Kk.matmul dPk
  let Ps ← PEst.add kdPk
  .ok (xs, Ps)

/-- standard.py 364-383: the backward loop. -/
def smoothLoop (A Q B U : PySeq F) (s : ℕ) (xEst PEst : List (Arr F)) :
    List ℕ → List (Arr F) → List (Arr F) → Except PyErr (List (Arr F) × List (Arr F))
  | [], xs, Ps => .ok (xs, Ps)
  | k :: ks, xs, Ps => do
    let Ak ← A.item (k + 1)
    let Qk ← Q.item (k + 1)
    let Bk ← B.item (k + 1)
    let uk ← U.item (k + 1)
    let Pk ← getRow PEst k
    let xk ← getRow xEst k
    let xNext ← getRow xs (k + 1)
    let PNext ← getRow Ps (k + 1)
    let (x, P) ← smoothStep xk Pk Ak Qk Bk uk xNext PNext
    let xrow ← x.assignVec s
    let Prow ← P.assignMat s
    smoothLoop A Q B U s xEst PEst ks (xs.set k xrow) (Ps.set k Prow)

/-- standard.py 312-385 `smooth` (same simplification as `KalmanFilter.smooth`). -/
def smooth (Z : PySeq F) (U : Option (PySeq F)) : Py (PyFilter F) (List (Arr F) × List (Arr F)) := do
  let (xEst, PEst) ← filter Z U
  let kf ← Py.self
  let n ← Py.lift Z.len
  let xs := List.replicate n (Arr.zerosVec kf.stateSize)
  let Ps := List.replicate n (Arr.zerosMat kf.stateSize)
  let xLast ← Py.lift (if n = 0 then .error .indexError else getRow xEst (n - 1))
  let PLast ← Py.lift (if n = 0 then .error .indexError else getRow PEst (n - 1))
  let xrow ← Py.lift (xLast.assignVec kf.stateSize)
  let Prow ← Py.lift (PLast.assignMat kf.stateSize)
  let U' ← Py.lift (PySeq.checkNone U Z)
  Py.lift (smoothLoop kf.A kf.Q kf.B U' kf.stateSize xEst PEst (List.range (n - 1)).reverse
    (xs.set (n - 1) xrow) (Ps.set (n - 1) Prow))

end PyFilter

/-! ## extended.py -/

/-- The attributes of an `ExtendedKalmanFilter` object (extended.py 130-142); the callbacks get, and may return, lists and numbers. -/
structure PyExtFilter (F : Type) where
  f : PyVal F → Option (PyVal F) → Except PyErr (PyVal F)
  jacobianA : PyVal F → Option (PyVal F) → Except PyErr (PyVal F)
  xk : PyVal F
  Pk : PyVal F
  h : PyVal F → Except PyErr (PyVal F)
  jacobianH : PyVal F → Except PyErr (PyVal F)
  Q : PySeq F
  R : PySeq F
  stateSize : ℕ
  I : Arr F
  kalmanGains : List (Arr F)

namespace PyExtFilter

variable {F : Type} [Backend F]

/-- extended.py 119-142 `__init__`. -/
def new (xk Pk : PyVal F) (Q R : PySeq F) (f : PyVal F → Option (PyVal F) → Except PyErr (PyVal F)) (h : PyVal F → Except PyErr (PyVal F))
    (jacobianA : PyVal F → Option (PyVal F) → Except PyErr (PyVal F)) (jacobianH : PyVal F → Except PyErr (PyVal F)) :
    Except PyErr (PyExtFilter F) := do
  let n ← xk.size0
  .ok { f := f, jacobianA := jacobianA, xk := xk, Pk := Pk, h := h, jacobianH := jacobianH, Q := Q, R := R, stateSize := n,
        I := Arr.identity n, kalmanGains := [] }

/-- extended.py 144-187 `predict`: the mean is whatever `f` returned. -/
def predict (kf : PyExtFilter F) (xk : PyVal F) (uk : Option (PyVal F)) (Pk Qk : PyVal F) : Except PyErr (PyVal F × Arr F) := do
  let Ak ← kf.jacobianA xk uk
  let xkPrior ← kf.f xk uk
  let PkPrior ← PyFilter.predictCov Ak Pk Qk
  .ok (xkPrior, PkPrior)

/-- extended.py 240-246: the rest of `update`. -/
def correct (kf : PyExtFilter F) (Kk : Arr F) (Hk xk Pk zk : PyVal F) : Except PyErr (Arr F × Arr F) := do
  let hx ← kf.h xk
  let res ← zk.sub hx
  let corr ← Kk.matmul res.atleast1d
  let x ← xk.asarray
  let xkPost ← x.add corr
  let h ← Hk.asarray
  let kh ← Kk.matmul h
  let ikh ← kf.I.sub kh
  let p ← Pk.asarray
  let PkPost ← ikh.matmul p
  .ok (xkPost, PkPost)

/-- extended.py 189-246 `update`; the gain (233-238) is computed as in the standard class. -/
def update (xk Pk zk Rk : PyVal F) : Py (PyExtFilter F) (Arr F × Arr F) := do
  let kf ← Py.self
  let Hk ← Py.lift (kf.jacobianH xk)
  let Kk ← Py.lift (PyFilter.gain Hk Pk Rk)
  Py.mutate fun kf => { kf with kalmanGains := kf.kalmanGains ++ [Kk] }
  Py.lift (correct kf Kk Hk xk Pk zk)

/-- One element of the `zip` (extended.py 287). -/
abbrev Row (F : Type) := PyVal F × PyVal F × PyVal F × PyVal F

/-- extended.py 287 `zip(U, Z, self.Q, self.R)`. -/
def zipRows (U Z Q R : PySeq F) : Except PyErr (List (Row F)) := do
  let u ← U.iter
  let z ← Z.iter
  let q ← Q.iter
  let r ← R.iter
  .ok (u.zip (z.zip (q.zip r)))

/-- extended.py 288-302: the feedback loop. -/
def filterLoop : ℕ → List (Row F) → PyVal F → PyVal F → List (Arr F) → List (Arr F) → Py (PyExtFilter F) (List (Arr F) × List (Arr F))
  | _, [], _, _, states, errors => Py.pure (states, errors)
  | k, (uk, zk, Qk, Rk) :: rest, xk, Pk, states, errors => do
    let kf ← Py.self
    let (xkPrior, PkPrior) ← Py.lift (predict kf xk (some uk) Pk Qk)
    let (xkPost, PkPost) ← update xkPrior (.arr PkPrior) zk Rk
    let srow ← Py.lift (xkPost.assignVec kf.stateSize)
    let erow ← Py.lift (PkPost.assignMat kf.stateSize)
    filterLoop (k + 1) rest (.arr xkPost) (.arr PkPost) (states.set k srow) (errors.set k erow)

/-- extended.py 248-304 `filter`. -/
def filter (Z : PySeq F) (U : Option (PySeq F)) : Py (PyExtFilter F) (List (Arr F) × List (Arr F)) := do
  let kf ← Py.self
  let n ← Py.lift Z.len
  let states := List.replicate n (Arr.zerosVec kf.stateSize)
  let errors := List.replicate n (Arr.zerosMat kf.stateSize)
  let U' ← Py.lift (PySeq.checkNone U Z)
  let rows ← Py.lift (zipRows U' Z kf.Q kf.R)
  filterLoop 0 rows kf.xk kf.Pk states errors

/-- extended.py 362-377: body of the backward loop for one `k`; `xk_smooth[k + 1] - xk_ahead` converts what `f` returned. -/
def smoothStep (kf : PyExtFilter F) (xEst PEst : Arr F) (Qk uk : PyVal F) (xNext PNext : Arr F) : Except PyErr (Arr F × Arr F) := do
  let (xAhead, PAhead) ← predict kf (.arr xEst) (some uk) (.arr PEst) Qk
  let Ak ← kf.jacobianA (.arr xEst) (some uk)
  let At ← Ak.T
  let pat ← PEst.matmul At
  let X ← Arr.solve PAhead.T pat.T
  let Kk := X.T
  let ahead ← xAhead.asarray
  let dx ← xNext.sub ahead
  let kdx ← Kk.matmul dx
  let xs ← xEst.add kdx
  let dP ← PNext.sub PAhead
  let dPk ← dP.matmul Kk.T
  let kdPk ← Kk.matmul dPk
  let Ps ← PEst.add kdPk
  .ok (xs, Ps)

/-- extended.py 361-377: the backward loop. -/
def smoothLoop (kf : PyExtFilter F) (Q U : PySeq F) (xEst PEst : List (Arr F)) :
    List ℕ → List (Arr F) → List (Arr F) → Except PyErr (List (Arr F) × List (Arr F))
  | [], xs, Ps => .ok (xs, Ps)
  | k :: ks, xs, Ps => do
    let Qk ← Q.item (k + 1)
    let uk ← U.item (k + 1)
    let Pk ← getRow PEst k
    let xk ← getRow xEst k
    let xNext ← getRow xs (k + 1)
    let PNext ← getRow Ps (k + 1)
    let (x, P) ← smoothStep kf xk Pk Qk uk xNext PNext
    let xrow ← x.assignVec kf.stateSize
    let Prow ← P.assignMat kf.stateSize
    smoothLoop kf Q U xEst PEst ks (xs.set k xrow) (Ps.set k Prow)

/-- extended.py 306-379 `smooth` (same simplification as `KalmanFilter.smooth`). -/
def smooth (Z : PySeq F) (U : Option (PySeq F)) : Py (PyExtFilter F) (List (Arr F) × List (Arr F)) := do
  let (xEst, PEst) ← filter Z U
  let kf ← Py.self
  let n ← Py.lift Z.len
  let xs := List.replicate n (Arr.zerosVec kf.stateSize)
  let Ps := List.replicate n (Arr.zerosMat kf.stateSize)
  let xLast ← Py.lift (if n = 0 then .error .indexError else getRow xEst (n - 1))
  let PLast ← Py.lift (if n = 0 then .error .indexError else getRow PEst (n - 1))
  let xrow ← Py.lift (xLast.assignVec kf.stateSize)
  let Prow ← Py.lift (PLast.assignMat kf.stateSize)
  let U' ← Py.lift (PySeq.checkNone U Z)
  Py.lift (smoothLoop kf kf.Q U' xEst PEst (List.range (n - 1)).reverse
    (xs.set (n - 1) xrow) (Ps.set (n - 1) Prow))

end PyExtFilter

end KK
