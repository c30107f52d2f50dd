import Verif.Spec.Basic

/-!
# numpy broadcasting, as documented

`np.broadcast_to(a, t)`: the axes are aligned at the end, and an axis of length one is repeated.
-/

namespace KK

/-- `np.broadcast_to(a, t)` accepts an array of shape `s`. -/
def FitsShape (s t : List ℕ) : Prop :=
  s.length ≤ t.length ∧ ∀ (k a b : ℕ), s.reverse[k]? = some a → t.reverse[k]? = some b → a = b ∨ a = 1

/-- The index of an array of shape `s` from which entry `idx` of the broadcast array is taken. -/
def sourceIndex (s idx : List ℕ) : List ℕ :=
  ((s.reverse.zip idx.reverse).map fun p => if p.1 = 1 then 0 else p.2).reverse

variable {F : Type}

/-- `a[idx]`, if `idx` is an index of one entry. -/
def Arr.entryAt : Arr F → List ℕ → Option F
  | .scalar _ x, [] => some x
  | .vec (n := n) _ v, [j] => if h : j < n then some (v ⟨j, h⟩) else none
  | .mat (m := m) (n := n) _ M, [i, j] => if h : i < m ∧ j < n then some (M ⟨i, h.1⟩ ⟨j, h.2⟩) else none
  | _, _ => none

/-- `b` is `np.broadcast_to(a, t)`. -/
structure Arr.IsBroadcast (t : List ℕ) (a b : Arr F) : Prop where
  fits : FitsShape a.shape t
  shape : b.shape = t
  dtype : b.dtype = a.dtype
  entry : ∀ idx x, b.entryAt idx = some x → a.entryAt (sourceIndex a.shape idx) = some x

/-- Every row of the second sequence is the broadcast row of the first. -/
inductive NDArray.RowsBroadcast (t : List ℕ) : NDArray F → NDArray F → Prop where
  | stack (l l' : List (Arr F)) (h : List.Forall₂ (Arr.IsBroadcast t) l l') : NDArray.RowsBroadcast t (.stack l) (.stack l')

/-- The shapes of a control matrix and a control vector whose product can be added to a state of `n >= 2` components and leave a vector. -/
def ControlFits (n : ℕ) (B u : List ℕ) : Prop :=
  (∃ p, u = [p] ∧ (B = [p] ∨ B = [1, p] ∨ B = [n, p])) ∨ ∃ p, B = [p] ∧ (u = [p, 1] ∨ u = [p, n])

end KK
