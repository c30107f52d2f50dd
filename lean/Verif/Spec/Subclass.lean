import Verif.Model.Subclass
import Verif.Spec.Basic

/-!
# Subclasses that add something to `predict` or `update`, and subclasses that skip missing measurements
-/

namespace KK

variable {σ F : Type} [Backend F]

/-- The overriding methods of a subclass of `KalmanFilter` only add something: from any instance satisfying `J`, whatever the
arguments, they return and raise what the inherited methods do, change the inherited attributes exactly as those do, and leave an
instance satisfying `J`. -/
structure Methods.Extends (M : Methods σ F) (J : Instance σ (KalmanFilter F) → Prop) : Prop where
  predict : ∀ (Ak xk : Arr F) (Bk uk : Option (Arr F)) (Pk Qk : Arr F) s, J s →
    let after := (M.predict Ak xk Bk uk Pk Qk).run s
    after.1 = KalmanFilter.predict Ak xk Bk uk Pk Qk ∧ after.2.base = s.base ∧ J after.2
  update : ∀ (Hk xk Pk zk Rk : Arr F) s, J s →
    let after := (M.update Hk xk Pk zk Rk).run s
    let inherited := (KalmanFilter.update Hk xk Pk zk Rk).run s.base
    after.1 = inherited.1 ∧ after.2.base = inherited.2 ∧ J after.2

/-- The same for a subclass of `ExtendedKalmanFilter`. -/
structure ExtMethods.Extends (M : ExtMethods σ F) (J : Instance σ (ExtendedKalmanFilter F) → Prop) : Prop where
  predict : ∀ (xk : Arr F) (uk : Option (Arr F)) (Pk Qk : Arr F) s, J s →
    let after := (M.predict xk uk Pk Qk).run s
    after.1 = s.base.predict xk uk Pk Qk ∧ after.2.base = s.base ∧ J after.2
  update : ∀ (xk Pk zk Rk : Arr F) s, J s →
    let after := (M.update xk Pk zk Rk).run s
    let inherited := (ExtendedKalmanFilter.update xk Pk zk Rk).run s.base
    after.1 = inherited.1 ∧ after.2.base = inherited.2 ∧ J after.2

/-- The subclass

```python
class Skipping(KalmanFilter):
    def update(self, Hk, xk, Pk, zk, Rk):
        if missing(zk):
            return xk, Pk
        return super().update(Hk, xk, Pk, zk, Rk)
```
-/
def Methods.skipping (missing : Arr F → Bool) : Methods σ F where
  predict := Methods.plain.predict
  update Hk xk Pk zk Rk := match missing zk with
    | true => Py.pure (xk, Pk)
    | false => Methods.plain.update Hk xk Pk zk Rk

/-- The same subclass of `ExtendedKalmanFilter`. -/
def ExtMethods.skipping (missing : Arr F → Bool) : ExtMethods σ F where
  predict := ExtMethods.plain.predict
  update xk Pk zk Rk := match missing zk with
    | true => Py.pure (xk, Pk)
    | false => ExtMethods.plain.update xk Pk zk Rk

/-- Whether the measurement at time `k` is there. -/
def seenBy (missing : Arr F → Bool) (Z : NDArray F) (k : ℕ) : Bool :=
  match Z.rows[k]? with
  | some z => !missing z
  | none => false

/-- `out` are the values assigned to the first rows of the result arrays, which have `len` rows of size `n` and dtype float64; the
other rows are zero. -/
def WrittenTo (len n : ℕ) (out : List (Arr F × Arr F)) (r : List (Arr F) × List (Arr F)) : Prop :=
  ∃ rows : List (Arr F × Arr F), List.Forall₂ (fun o row => o.1.assignVec n = .ok row.1 ∧ o.2.assignMat n = .ok row.2) out rows ∧
    r = (rows.map Prod.fst ++ List.replicate (len - rows.length) (Arr.zerosVec n),
      rows.map Prod.snd ++ List.replicate (len - rows.length) (Arr.zerosMat n))

/-- `Zf` is `Z` with the missing measurements replaced by anything of the same shape and dtype. -/
def Fills (missing : Arr F → Bool) (Z Zf : NDArray F) : Prop :=
  ∃ zs fs, Z = .stack zs ∧ Zf = .stack fs ∧
    List.Forall₂ (fun z f => z.shape = f.shape ∧ z.dtype = f.dtype ∧ (missing z = false → z = f)) zs fs

end KK
