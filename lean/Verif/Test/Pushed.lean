import Verif.Test.QBackend
import Verif.Proofs.Shapes

/-!
# A concrete extended filter in the documented layout, used only to show that hypotheses are met

Constant velocity driven by a control of shape `(1,)`; the transition function raises ValueError on a control of another shape.
-/

namespace KK
namespace Ex

/-- The transition `A x + B u`. -/
def pushF (x : Arr QN) : Option (Arr QN) → Except PyErr (Arr QN)
  | some (@Arr.vec _ d 1 u) => do
    let ax ← (mat2 (some 1) (some 1) (some 0) (some 1)).matmul x
    let bu ← (col2 (some (1/2)) (some 1)).matmul (.vec d u)
    ax.add bu
  | _ => .error .valueError

/-- The filter, with noise covariances given as in `q`, `r`. -/
def pushed (q r : Arr QN) (t : ℕ) : ExtendedKalmanFilter QN where
  f := pushF
  jacobianA _ _ := .ok (mat2 (some 1) (some 1) (some 0) (some 1))
  xk := vec2 (some 0) (some 1)
  Pk := mat2 (some 2) (some 0) (some 0) (some 1)
  h x := (row2 (some 1) (some 0)).matmul x
  jacobianH _ := .ok (row2 (some 1) (some 0))
  Q := .stack (List.replicate t q)
  R := .stack (List.replicate t r)
  stateSize := 2
  I := Arr.identity 2
  kalmanGains := []

theorem mv_shape {m n : ℕ} {a b : Arr QN} (ha : a.shape = [m, n]) (hb : b.shape = [n]) :
    ∃ (d : DType) (v : Fin m → QN), a.matmul b = .ok (.vec d v) := by
  obtain ⟨d, M, rfl⟩ := Arr.eq_mat ha
  obtain ⟨e, v, rfl⟩ := Arr.eq_vec hb
  exact ⟨_, _, Arr.matmul_mv _ _ _ _⟩

/-- The documented layout. -/
theorem pushed_layout (q r : Arr QN) (t : ℕ) (zs : List QN) (U : Option (NDArray QN))
    (hq : q.shape = [2, 2] ∨ q.shape = []) (hr : r.shape = [1, 1] ∨ r.shape = []) :
    ExtLayout 2 1 (pushed q r t) (.stack (zs.map vec1)) U where
  x := rfl
  P := rfl
  size := rfl
  ident := rfl
  f x u y hx h := by
    match u, h with
    | some (@Arr.vec _ d' 1 u), h =>
      obtain ⟨d, v, hv⟩ := mv_shape (a := mat2 (some 1) (some 1) (some 0) (some 1)) (m := 2) rfl hx
      obtain ⟨e, w, hw⟩ := mv_shape (a := col2 (some (1/2)) (some 1)) (b := .vec d' u) (m := 2) rfl rfl
      simp only [pushed, pushF, hv, hw, Except.bind, bind, Arr.add_vv, Except.ok.injEq] at h
      subst h
      rfl
  jA x u y _ h := by
    simp only [pushed, Except.ok.injEq] at h
    subst h
    rfl
  h x y hx h := by
    obtain ⟨d, v, hv⟩ := mv_shape (a := row2 (some 1) (some 0)) (m := 1) rfl hx
    simp only [pushed, hv, Except.ok.injEq] at h
    subst h
    exact .inl rfl
  jH x y _ h := by
    simp only [pushed, Except.ok.injEq] at h
    subst h
    rfl
  z a ha := by
    simp only [NDArray.rows, List.mem_map] at ha
    obtain ⟨z, -, rfl⟩ := ha
    exact .inl rfl
  Q a ha := by
    simp only [pushed, NDArray.rows, List.mem_replicate] at ha
    obtain ⟨-, rfl⟩ := ha
    exact hq
  R a ha := by
    simp only [pushed, NDArray.rows, List.mem_replicate] at ha
    obtain ⟨-, rfl⟩ := ha
    exact hr

theorem pushed_iterable (q r : Arr QN) (t : ℕ) (zs us : List QN) :
    (pushed q r t).AllIterable (.stack (zs.map vec1)) (some (.stack (us.map vec1))) := ⟨trivial, trivial, trivial, trivial⟩

/-- Noise covariances. -/
def q2 : Arr QN := mat2 (some (1/4)) (some 0) (some 0) (some (1/4))
def r1 : Arr QN := mat1 (some 1)

end Ex

/-- The constant-velocity filter of the examples has the documented layout. -/
theorem Ex.cv_layout (t : ℕ) (z u : List Ex.QN) :
    Layout 2 1 (Ex.cv t) (.stack (z.map Ex.vec1)) (some (.stack (u.map Ex.vec1))) where
  x := rfl
  P := rfl
  size := rfl
  ident := rfl
  rows := by
    intro k Ak Hk Bk uk zk Qk Rk hA hH hB hu hz hQ hR
    have hA := List.mem_of_getElem? hA
    have hH := List.mem_of_getElem? hH
    have hB := List.mem_of_getElem? hB
    have hu := List.mem_of_getElem? hu
    have hz := List.mem_of_getElem? hz
    have hQ := List.mem_of_getElem? hQ
    have hR := List.mem_of_getElem? hR
    simp only [Ex.cv, effU, checkNoneAndBroadcast, NDArray.rows, List.mem_replicate,
      List.mem_map] at hA hH hB hu hz hQ hR
    obtain ⟨-, rfl⟩ := hA
    obtain ⟨-, rfl⟩ := hH
    obtain ⟨-, rfl⟩ := hB
    obtain ⟨_, -, rfl⟩ := hu
    obtain ⟨_, -, rfl⟩ := hz
    obtain ⟨-, rfl⟩ := hQ
    obtain ⟨-, rfl⟩ := hR
    exact ⟨rfl, rfl, .inr (.inr ⟨1, rfl, rfl⟩), .inl rfl, .inl rfl, .inl rfl⟩

end KK
