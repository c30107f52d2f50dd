import Verif.Spec.Returns

/-!
# Using a filter online, one call of `predict` and one of `update` per time step

The loop a user writes who does not have all data in advance:

```python
for k in times:
    x, P = kf.predict(kf.A[k], x, kf.B[k], U[k], P, kf.Q[k])
    if seen(k):
        x, P = kf.update(kf.H[k], x, P, Z[k], kf.R[k])
    out.append((x, P))
```
-/

namespace KK

variable {F : Type} [Backend F]

/-- The loop above over the given times; `seen k` says whether there is a measurement at time `k`. -/
def KalmanFilter.byHand (Z U : NDArray F) (seen : ℕ → Bool) :
    List ℕ → Arr F → Arr F → Py (KalmanFilter F) (List (Arr F × Arr F))
  | [], _, _ => Py.pure []
  | k :: ks, x, P => do
    let kf ← Py.self
    let Ak ← Py.lift (kf.A.item k)
    let Bk ← Py.lift (kf.B.item k)
    let uk ← Py.lift (U.item k)
    let Qk ← Py.lift (kf.Q.item k)
    let prior ← Py.lift (KalmanFilter.predict Ak x (some Bk) (some uk) P Qk)
    let post ← match seen k with
      | false => Py.pure prior
      | true => do
        let Hk ← Py.lift (kf.H.item k)
        let zk ← Py.lift (Z.item k)
        let Rk ← Py.lift (kf.R.item k)
        KalmanFilter.update Hk prior.1 prior.2 zk Rk
    let rest ← KalmanFilter.byHand Z U seen ks post.1 post.2
    Py.pure (post :: rest)

/-- The same loop with an `ExtendedKalmanFilter`. -/
def ExtendedKalmanFilter.byHand (Z U : NDArray F) (seen : ℕ → Bool) :
    List ℕ → Arr F → Arr F → Py (ExtendedKalmanFilter F) (List (Arr F × Arr F))
  | [], _, _ => Py.pure []
  | k :: ks, x, P => do
    let kf ← Py.self
    let uk ← Py.lift (U.item k)
    let Qk ← Py.lift (kf.Q.item k)
    let prior ← Py.lift (kf.predict x (some uk) P Qk)
    let post ← match seen k with
      | false => Py.pure prior
      | true => do
        let zk ← Py.lift (Z.item k)
        let Rk ← Py.lift (kf.R.item k)
        ExtendedKalmanFilter.update prior.1 prior.2 zk Rk
    let rest ← ExtendedKalmanFilter.byHand Z U seen ks post.1 post.2
    Py.pure (post :: rest)

/-- What `filter` makes of the outcome of the loop: two arrays of `len` rows, the rows after the last step zero. -/
def stacked (len s : ℕ) : Except PyErr (List (Arr F × Arr F)) → Except PyErr (List (Arr F) × List (Arr F))
  | .error e => .error e
  | .ok out => .ok (out.map Prod.fst ++ List.replicate (len - out.length) (Arr.zerosVec s),
      out.map Prod.snd ++ List.replicate (len - out.length) (Arr.zerosMat s))

/-! ## Runs in which some times have no measurement -/

variable {n m : ℕ}

/-- The model of a run in which only some times have a measurement: `H = 0` at the others. -/
def maskFrom (seen : ℕ → Bool) : ℕ → List (LinStep n m) → List (LinStep n m)
  | _, [] => []
  | k, s :: ss => (if seen k then s else { s with H := 0 }) :: maskFrom seen (k + 1) ss

/-- The elements of a list at the times with a measurement. -/
def seenFrom {α : Type} (seen : ℕ → Bool) : ℕ → List α → List α
  | _, [] => []
  | k, a :: as => if seen k then a :: seenFrom seen (k + 1) as else seenFrom seen (k + 1) as

end KK
