import Verif.Model.Numpy

/-! # `/repo/src/kalmankit/utils.py` -/

namespace KK

variable {F : Type} [Backend F]

/-- utils.py 12-35 `check_none_and_broadcast(arr, broad_to)`. -/
def checkNoneAndBroadcast (arr : Option (NDArray F)) (broadTo : NDArray F) : NDArray F :=
  match arr with
  | none => broadTo.fullLikeNan
  | some a => a

/-- utils.py 38-51 `is_nan_all(arr)`; `np.isnan(None)` raises TypeError. -/
def isNanAll (arr : Option (Arr F)) : Except PyErr Bool :=
  match arr with
  | none => .error .typeError
  | some a => .ok a.isnanAll

end KK
