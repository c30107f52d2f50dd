import Verif.Model.Utils

/-! # `/repo/src/kalmankit/standard.py` -/

namespace KK

/-- The attributes of a `KalmanFilter` object (standard.py 116-130).  `I` is the private `__I`. -/
structure KalmanFilter (F : Type) where
  A : NDArray F
  xk : Arr F
  B : NDArray F
  Pk : Arr F
  H : NDArray F
  Q : NDArray F
  R : NDArray F
  stateSize : ℕ
  I : Arr F
  kalmanGains : List (Arr F)

namespace KalmanFilter

variable {F : Type} [Backend F]

/-- standard.py 105-130 `__init__`.  `if state_size:` is false for `None` and `0`; `xk.shape[0]` raises
IndexError on a 0-d `xk`; `np.identity` (129) raises ValueError on a negative size. -/
def new (A : NDArray F) (xk : Arr F) (B : Option (NDArray F)) (Pk : Arr F) (H Q R : NDArray F)
    (stateSize : Option ℤ := none) : Except PyErr (KalmanFilter F) := do
  let B' := checkNoneAndBroadcast B A
  let n ← match stateSize with
    | some (.ofNat (s + 1)) => .ok (s + 1)
    | some (.negSucc _) => .error .valueError
    | _ => match xk.shape with
      | [] => .error .indexError
      | n :: _ => .ok n
  .ok { A := A, xk := xk, B := B', Pk := Pk, H := H, Q := Q, R := R,
        stateSize := n, I := Arr.identity n, kalmanGains := [] }

/-- standard.py 132-187 `predict`.  Does not read or write `self`.  `Bk`, `uk` may be Python `None`. -/
def predict (Ak xk : Arr F) (Bk uk : Option (Arr F)) (Pk Qk : Arr F) :
    Except PyErr (Arr F × Arr F) := do
  -- 179: if is_nan_all(Bk) or is_nan_all(uk)   (short-circuit)
  let bNan ← isNanAll Bk
  let skip ← if bNan then .ok true else isNanAll uk
  let xkPrior ←
    if skip then Ak.matmul xk                    -- 180
    else match Bk, uk with
      | some B, some u => do                     -- 182
        let ax ← Ak.matmul xk
        let bu ← B.matmul u
        ax.add bu
      | _, _ => .error .typeError                -- unreachable: isNanAll already raised
  -- 185: Ak @ (Pk @ Ak.T) + Qk
  let pat ← Pk.matmul Ak.T
  let apat ← Ak.matmul pat
  let PkPrior ← apat.add Qk
  .ok (xkPrior, PkPrior)

/-- standard.py 237-241: innovation covariance `Sk` and gain `Kk` of `update`. -/
def gain (Hk Pk Rk : Arr F) : Except PyErr (Arr F) := do
  let pht ← Pk.matmul Hk.T
  let hpht ← Hk.matmul pht
  let Sk ← hpht.add Rk
  let hpt ← Hk.matmul Pk.T
  let X ← Arr.solve Sk.T hpt
  .ok X.T

/-- standard.py 244-250: the rest of `update`, once the gain is known. -/
def correct (I Kk Hk xk Pk zk : Arr F) : Except PyErr (Arr F × Arr F) := do
  let hx ← Hk.matmul xk
  let res ← zk.sub hx
  let corr ← Kk.matmul res.atleast1d
  let xkPost ← xk.add corr
  let kh ← Kk.matmul Hk
  let ikh ← I.sub kh
  let PkPost ← ikh.matmul Pk
  .ok (xkPost, PkPost)

/-- standard.py 189-250 `update`: appends the gain to `self.kalman_gains` (242) as soon as it is
known, so the entry stays even if a later line raises. -/
def update (Hk xk Pk zk Rk : Arr F) : Py (KalmanFilter F) (Arr F × Arr F) := do
  let Kk ← Py.lift (gain Hk Pk Rk)
  Py.mutate fun kf => { kf with kalmanGains := kf.kalmanGains ++ [Kk] }
  let kf ← Py.self
  Py.lift (correct kf.I Kk Hk xk Pk zk)

/-- One element of `zip(self.A, self.H, self.B, U, Z, self.Q, self.R)` (standard.py 291-292):
`(Ak, Hk, Bk, uk, zk, Qk, Rk)`. -/
abbrev Row (F : Type) := Arr F × Arr F × Arr F × Arr F × Arr F × Arr F × Arr F

/-- standard.py 291 `zip(self.A, self.H, self.B, U, Z, self.Q, self.R)`: every argument must be
iterable; stops at the shortest. -/
def zipRows (A H B U Z Q R : NDArray F) : Except PyErr (List (Row F)) := do
  let a ← A.iter
  let h ← H.iter
  let b ← B.iter
  let u ← U.iter
  let z ← Z.iter
  let q ← Q.iter
  let r ← R.iter
  .ok (a.zip (h.zip (b.zip (u.zip (z.zip (q.zip r))))))

/-- standard.py 292-308: the feedback loop; `k` is the `enumerate` index, `states`/`errors` the
preallocated result arrays that are overwritten row by row. -/
def filterLoop : ℕ → List (Row F) → Arr F → Arr F → List (Arr F) → List (Arr F) →
    Py (KalmanFilter F) (List (Arr F) × List (Arr F))
  | _, [], _, _, states, errors => Py.pure (states, errors)
  | k, (Ak, Hk, Bk, uk, zk, Qk, Rk) :: rest, xk, Pk, states, errors => do
    let (xkPrior, PkPrior) ← Py.lift (predict Ak xk (some Bk) (some uk) Pk Qk)
    let (xkPost, PkPost) ← update Hk xkPrior PkPrior zk Rk
    let kf ← Py.self
    let srow ← Py.lift (xkPost.assignVec kf.stateSize)
    let erow ← Py.lift (PkPost.assignMat kf.stateSize)
    filterLoop (k + 1) rest xkPost PkPost (states.set k srow) (errors.set k erow)

/-- standard.py 252-310 `filter`.  The result is the list of rows of `states` and of `errors`. -/
def filter (Z : NDArray F) (U : Option (NDArray F)) :
    Py (KalmanFilter F) (List (Arr F) × List (Arr F)) := do
  let kf ← Py.self
  let n ← Py.lift Z.len
  let states := List.replicate n (Arr.zerosVec kf.stateSize)
  let errors := List.replicate n (Arr.zerosMat kf.stateSize)
  let U' := checkNoneAndBroadcast U Z
  let rows ← Py.lift (zipRows kf.A kf.H kf.B U' Z kf.Q kf.R)
  filterLoop 0 rows kf.xk kf.Pk states errors

/-- standard.py 365-383: body of the backward loop for one `k`.  `xNext`, `PNext` are
`xk_smooth[k + 1]`, `Pk_smooth[k + 1]`; returns the values assigned to row `k`. -/
def smoothStep (xEst PEst : Arr F) (Ak Qk Bk uk xNext PNext : Arr F) :
    Except PyErr (Arr F × Arr F) := do
  let (xAhead, PAhead) ← predict Ak xEst (some Bk) (some uk) PEst Qk
  let pat ← PEst.matmul Ak.T
  let X ← Arr.solve PAhead.T pat.T
  let Kk := X.T
  let dx ← xNext.sub xAhead
  let kdx ← Kk.matmul dx
  let xs ← xEst.add kdx
  let dP ← PNext.sub PAhead
  let dPk ← dP.matmul Kk.T
  let kdPk ← Kk.matmul dPk
  let Ps ← PEst.add kdPk
  .ok (xs, Ps)

/-- standard.py 364-383: the backward loop over `k` in the given list of indices. -/
def smoothLoop (A Q B U : NDArray F) (s : ℕ) (xEst PEst : List (Arr F)) :
    List ℕ → List (Arr F) → List (Arr F) → Except PyErr (List (Arr F) × List (Arr F))
  | [], xs, Ps => .ok (xs, Ps)
  | k :: ks, xs, Ps => do
    let Ak ← A.item (k + 1)
    let Qk ← Q.item (k + 1)
    let Bk ← B.item (k + 1)
    let uk ← U.item (k + 1)
    let Pk ← getRow PEst k
    let xk ← getRow xEst k
    let xNext ← getRow xs (k + 1)
    let PNext ← getRow Ps (k + 1)
    let (x, P) ← smoothStep xk Pk Ak Qk Bk uk xNext PNext
    let xrow ← x.assignVec s
    let Prow ← P.assignMat s
    smoothLoop A Q B U s xEst PEst ks (xs.set k xrow) (Ps.set k Prow)

/-- standard.py 312-385 `smooth`.  `xk_smooth[-1] = x_est[-1]` raises IndexError on empty data (352);
`range(n_obs - 2, -1, -1)` (364) is `n_obs-2, ..., 0`.
(Simplification: both rows `k + 1` are fetched before the arithmetic of step `k`; they always exist.) -/
def smooth (Z : NDArray F) (U : Option (NDArray F)) :
    Py (KalmanFilter F) (List (Arr F) × List (Arr F)) := do
  let (xEst, PEst) ← filter Z U
  let kf ← Py.self
  let n ← Py.lift Z.len
  let xs := List.replicate n (Arr.zerosVec kf.stateSize)
  let Ps := List.replicate n (Arr.zerosMat kf.stateSize)
  let xLast ← Py.lift (if n = 0 then .error .indexError else getRow xEst (n - 1))
  let PLast ← Py.lift (if n = 0 then .error .indexError else getRow PEst (n - 1))
  let xrow ← Py.lift (xLast.assignVec kf.stateSize)
  let Prow ← Py.lift (PLast.assignMat kf.stateSize)
  let U' := checkNoneAndBroadcast U Z
  Py.lift (smoothLoop kf.A kf.Q kf.B U' kf.stateSize xEst PEst (List.range (n - 1)).reverse
    (xs.set (n - 1) xrow) (Ps.set (n - 1) Prow))

end KalmanFilter

end KK
