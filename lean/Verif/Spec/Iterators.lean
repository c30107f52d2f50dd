import Verif.Model.Iterators
import Verif.Spec.Basic

/-!
# Vocabulary for parameters given as iterators
-/

namespace KK

variable {F : Type}

namespace Param

/-- The next `n` items of iterator `i`, of which `p` have been read already; fewer if it ends before. -/
def upcoming (items : Items F) (i : ℕ) : ℕ → ℕ → List (Arr F)
  | _, 0 => []
  | p, n + 1 =>
    match items i p with
    | none => []
    | some x => x :: upcoming items i (p + 1) n

/-- The array that stands for a parameter in a call on `n` observations: the array itself, or the array of the next `n`
items of the iterator. -/
def asArray (items : Items F) (pos : ℕ → ℕ) (n : ℕ) : Param F → NDArray F
  | .array a => a
  | .iterator i => .stack (upcoming items i (pos i) n)

/-- The item number `k`, counted from now, that a loop over the parameter would get. -/
def nth (items : Items F) (pos : ℕ → ℕ) (k : ℕ) : Param F → Option (Arr F)
  | .array a => a.rows[k]?
  | .iterator i => items i (pos i + k)

/-- The iterator a parameter is. -/
def ids : Param F → List ℕ
  | .array _ => []
  | .iterator i => [i]

/-- All iterators among some parameters. -/
def idsOf (ps : List (Param F)) : List ℕ := ps.flatMap ids

/-- No iterator object is used for two of the parameters. -/
def Separate (ps : List (Param F)) : Prop := (idsOf ps).Nodup

/-- Where one iterator object may be used for several of the parameters `ps`: each time round it is asked once for each of
its uses, in the order of the parameters.  So in row `k`, counted from now, parameter number `j` gets the item that
comes after those of `k` complete rounds and those of its earlier uses in this round. -/
def dealt (items : Items F) (pos : ℕ → ℕ) (ps : List (Param F)) : Items F := fun j k =>
  match ps[j]? with
  | some (.iterator i) => items i (pos i + k * (idsOf ps).count i + (idsOf (ps.take j)).count i)
  | some (.array a) => a.rows[k]?
  | none => none

/-- The array that stands for parameter number `j` in a call on `n` observations: the array itself, or the items dealt to it. -/
def dealtArray (items : Items F) (pos : ℕ → ℕ) (ps : List (Param F)) (n j : ℕ) : NDArray F :=
  match ps[j]? with
  | some (.array a) => a
  | _ => .stack (upcoming (dealt items pos ps) j 0 n)

/-- What a reading of the parameters has left behind: `T` complete rows were read; in the next round parameter `j` was the
first one to have nothing left, and those before it had been asked already. -/
structure DealtBy (items : Items F) (ps : List (Param F)) (pos pos' : ℕ → ℕ) (T : ℕ) : Prop where
  rows : ∀ k < T, ∀ j < ps.length, (dealt items pos ps j k).isSome
  stop : ∃ j < ps.length, dealt items pos ps j T = none ∧ (∀ j' < j, (dealt items pos ps j' T).isSome) ∧
    ∀ i, pos' i = pos i + T * (idsOf ps).count i + (idsOf (ps.take j)).count i

/-- The parameter is an array. -/
def IsArray : Param F → Prop
  | .array _ => True
  | .iterator _ => False

/-- The parameter is an iterator that never ends and always yields the same array (`itertools.repeat(a)`). -/
def Repeats (items : Items F) (a : Arr F) : Param F → Prop
  | .array _ => False
  | .iterator i => ∀ k, items i k = some a

/-- The parameter is an iterator that never ends. -/
def Endless (items : Items F) : Param F → Prop
  | .array _ => False
  | .iterator i => ∀ k, (items i k).isSome

end Param

section
variable [Backend F]

/-- The `KalmanFilter` object with arrays in place of the iterators, for a call on `n` observations. -/
def IterFilter.asArrays (o : IterFilter F) (items : Items F) (pos : ℕ → ℕ) (n : ℕ) : KalmanFilter F :=
  { A := o.A.asArray items pos n, xk := o.xk, B := o.B.asArray items pos n, Pk := o.Pk, H := o.H.asArray items pos n,
    Q := o.Q.asArray items pos n, R := o.R.asArray items pos n, stateSize := o.stateSize, I := o.I,
    kalmanGains := o.kalmanGains }

/-- The `ExtendedKalmanFilter` object with arrays in place of the iterators, for a call on `n` observations. -/
def IterEkf.asArrays (o : IterEkf F) (items : Items F) (pos : ℕ → ℕ) (n : ℕ) : ExtendedKalmanFilter F :=
  { f := o.f, jacobianA := o.jacobianA, xk := o.xk, Pk := o.Pk, h := o.h, jacobianH := o.jacobianH,
    Q := o.Q.asArray items pos n, R := o.R.asArray items pos n, stateSize := o.stateSize, I := o.I,
    kalmanGains := o.kalmanGains }

/-- The arguments of `zip` in `KalmanFilter.filter`, in order. -/
def IterFilter.zipped (o : IterFilter F) (Z : NDArray F) (U : Option (Param F)) : List (Param F) :=
  [o.A, o.H, o.B, U.getD (.array Z.fullLikeNan), .array Z, o.Q, o.R]

/-- The arguments of `zip` in `ExtendedKalmanFilter.filter`, in order. -/
def IterEkf.zipped (o : IterEkf F) (Z : NDArray F) (U : Option (Param F)) : List (Param F) :=
  [U.getD (.array Z.fullLikeNan), .array Z, o.Q, o.R]

/-- The `KalmanFilter` object with arrays of what is dealt to each parameter, for a call with observations `Z` and controls `U`. -/
def IterFilter.dealtArrays (o : IterFilter F) (items : Items F) (pos : ℕ → ℕ) (Z : NDArray F) (U : Option (Param F)) : KalmanFilter F :=
  let arr := Param.dealtArray items pos (o.zipped Z U) Z.rows.length
  { A := arr 0, xk := o.xk, B := arr 2, Pk := o.Pk, H := arr 1, Q := arr 5, R := arr 6, stateSize := o.stateSize, I := o.I,
    kalmanGains := o.kalmanGains }

/-- The `ExtendedKalmanFilter` object with arrays of what is dealt to each parameter. -/
def IterEkf.dealtArrays (o : IterEkf F) (items : Items F) (pos : ℕ → ℕ) (Z : NDArray F) (U : Option (Param F)) : ExtendedKalmanFilter F :=
  let arr := Param.dealtArray items pos (o.zipped Z U) Z.rows.length
  { f := o.f, jacobianA := o.jacobianA, xk := o.xk, Pk := o.Pk, h := o.h, jacobianH := o.jacobianH, Q := arr 2, R := arr 3,
    stateSize := o.stateSize, I := o.I, kalmanGains := o.kalmanGains }

end

end KK
