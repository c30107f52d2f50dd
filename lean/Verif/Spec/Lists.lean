import Verif.Model.Lists

/-!
# Lists, and the arrays they stand for

`v.Is a` says that `np.asarray(v)` is the array `a`; the other definitions lift this to sequences of rows, objects and callbacks.
-/

namespace KK

variable {F : Type}

/-- `np.asarray(v)` is `a`. -/
def PyVal.Is (v : PyVal F) (a : Arr F) : Prop := v.asarray = .ok a

/-- The rows of `s`, converted one by one, are the rows of `a`. -/
def PySeq.Is : PySeq F → NDArray F → Prop
  | .nd b, a => b = a
  | .list l, a => ∃ rows, a = .stack rows ∧ List.Forall₂ PyVal.Is l rows

/-- Every row is an array already. -/
def PySeq.OfArrays : PySeq F → Prop
  | .nd _ => True
  | .list l => ∀ v ∈ l, v.isArr = true

/-- In no row are both values lists or numbers. -/
def PySeq.OneArray (s t : PySeq F) : Prop := ∀ k v w, s.item k = .ok v → t.item k = .ok w → v.isArr = true ∨ w.isArr = true

/-- The control sequence in effect: the one given, or else `np.full_like(np.asarray(Z), np.nan)`. -/
def PySeq.ControlIs [Backend F] (Z : PySeq F) : Option (PySeq F) → NDArray F → Prop
  | some U, a => U.Is a
  | none, a => Z.fullLikeNan = .ok a

/-- The object holds lists and numbers where `kf` holds the arrays they stand for. -/
structure PyFilter.Is (o : PyFilter F) (kf : KalmanFilter F) : Prop where
  A : o.A.Is kf.A
  xk : o.xk.Is kf.xk
  B : o.B.Is kf.B
  Pk : o.Pk.Is kf.Pk
  H : o.H.Is kf.H
  Q : o.Q.Is kf.Q
  R : o.R.Is kf.R
  size : o.stateSize = kf.stateSize
  ident : o.I = kf.I
  gains : o.kalmanGains = kf.kalmanGains

/-- Same result or same exception, up to conversion of the result. -/
def ResultIs : Except PyErr (PyVal F) → Except PyErr (Arr F) → Prop
  | .ok v, .ok a => v.Is a
  | .error e, .error e' => e = e'
  | _, _ => False

/-- Same result or same exception, and the result is an array. -/
def SameArray : Except PyErr (PyVal F) → Except PyErr (Arr F) → Prop
  | .ok v, .ok a => v = .arr a
  | .error e, .error e' => e = e'
  | _, _ => False

/-- The same for an extended filter.  The callbacks of `o` get lists where those of `kf` get the arrays they stand for, and may return lists
where those of `kf` return arrays - except that the two Jacobians return arrays. -/
structure PyExtFilter.Is (o : PyExtFilter F) (kf : ExtendedKalmanFilter F) : Prop where
  xk : o.xk.Is kf.xk
  Pk : o.Pk.Is kf.Pk
  Q : o.Q.Is kf.Q
  R : o.R.Is kf.R
  size : o.stateSize = kf.stateSize
  ident : o.I = kf.I
  gains : o.kalmanGains = kf.kalmanGains
  f : ∀ v a w b, v.Is a → w.Is b → ResultIs (o.f v (some w)) (kf.f a (some b))
  jacobianA : ∀ v a w b, v.Is a → w.Is b → SameArray (o.jacobianA v (some w)) (kf.jacobianA a (some b))
  h : ∀ v a, v.Is a → ResultIs (o.h v) (kf.h a)
  jacobianH : ∀ v a, v.Is a → SameArray (o.jacobianH v) (kf.jacobianH a)

/-- The difference of an observation and a predicted observation exists in Python: one of them is an array, or both are numbers. -/
def PyVal.Subtractable : PyVal F → PyVal F → Prop
  | .arr _, _ => True
  | _, .arr _ => True
  | .num _ _, .num _ _ => True
  | _, _ => False

end KK
