import Verif.Proofs.Trace
import Verif.Spec.Basic

/-! # Lemmas for the structural properties (any arithmetic) -/

set_option linter.unusedSectionVars false
set_option linter.unusedSimpArgs false

namespace KK

variable {F : Type}

namespace NDArray
variable {F : Type}

@[simp] theorem len_stack (r : List (Arr F)) : (NDArray.stack r).len = .ok r.length := rfl
@[simp] theorem iter_stack (r : List (Arr F)) : (NDArray.stack r).iter = .ok r := rfl
@[simp] theorem rows_stack (r : List (Arr F)) : (NDArray.stack r).rows = r := rfl
@[simp] theorem take_stack (j : ℕ) (r : List (Arr F)) :
    (NDArray.stack r).take j = .stack (r.take j) := rfl
@[simp] theorem drop_stack (j : ℕ) (r : List (Arr F)) :
    (NDArray.stack r).drop j = .stack (r.drop j) := rfl

theorem len_ok {a : NDArray F} {n : ℕ} (h : a.len = .ok n) : ∃ r, a = .stack r ∧ r.length = n := by
  cases a with
  | d0 => simp [len] at h
  | stack r => exact ⟨r, rfl, by simpa [len] using h⟩

theorem iter_ok {a : NDArray F} {r : List (Arr F)} (h : a.iter = .ok r) : a = .stack r := by
  cases a with
  | d0 => simp [iter] at h
  | stack r' => simp [iter] at h; rw [h]

theorem Iterable.exists {a : NDArray F} (h : a.Iterable) : ∃ r, a = .stack r := by
  cases a with
  | d0 => exact h.elim
  | stack r => exact ⟨r, rfl⟩

end NDArray

variable [Backend F]

@[simp] theorem effU_none_stack (z : List (Arr F)) :
    effU none (NDArray.stack z) = .stack (z.map Arr.fullLikeNan) := rfl
@[simp] theorem effU_some (U Z : NDArray F) : effU (some U) Z = U := rfl

theorem assignVec_shape {s : ℕ} {a r : Arr F} (h : a.assignVec s = .ok r) :
    r.shape = [s] ∧ r.dtype = .float64 := by
  cases a with
  | scalar d x => simp [Arr.assignVec] at h; subst h; exact ⟨rfl, rfl⟩
  | vec d v =>
    simp only [Arr.assignVec] at h
    rcases hs : Arr.stretch s v with e | w
    · simp [hs] at h
    · simp [hs] at h; subst h; exact ⟨rfl, rfl⟩
  | @mat d m n M =>
    simp only [Arr.assignVec] at h
    split at h
    · rcases hs : Arr.stretch s (M ⟨0, by omega⟩) with e | w
      · simp [hs] at h
      · simp [hs] at h; subst h; exact ⟨rfl, rfl⟩
    · simp at h

theorem assignMat_shape {s : ℕ} {a r : Arr F} (h : a.assignMat s = .ok r) :
    r.shape = [s, s] ∧ r.dtype = .float64 := by
  simp only [Arr.assignMat] at h
  rcases hs : a.toMat s s with e | w
  · simp [hs] at h
  · simp [hs] at h; subst h; exact ⟨rfl, rfl⟩

@[simp] theorem stretch_self {α : Type} {n : ℕ} (v : Fin n → α) : Arr.stretch n v = .ok v := by
  simp [Arr.stretch]

@[simp] theorem toMat_self {r c : ℕ} (d : DType) (M : Matrix (Fin r) (Fin c) F) :
    (Arr.mat d M).toMat r c = .ok M := by
  simp only [Arr.toMat, Arr.stretch, dif_pos]
  rfl

/-- A float row of the right shape is stored unchanged. -/
theorem assignVec_self {s : ℕ} {a : Arr F} (h : a.shape = [s]) (hd : a.dtype = .float64) :
    a.assignVec s = .ok a := by
  cases a with
  | scalar d x => simp [Arr.shape] at h
  | @vec d n v =>
    simp only [Arr.shape, List.cons.injEq, and_true] at h
    subst h
    simp only [Arr.dtype] at hd
    subst hd
    simp [Arr.assignVec]
  | mat d M => simp [Arr.shape] at h

theorem assignMat_self {s : ℕ} {a : Arr F} (h : a.shape = [s, s]) (hd : a.dtype = .float64) :
    a.assignMat s = .ok a := by
  cases a with
  | scalar d x => simp [Arr.shape] at h
  | vec d v => simp [Arr.shape] at h
  | @mat d m n M =>
    simp only [Arr.shape, List.cons.injEq, and_true] at h
    obtain ⟨rfl, rfl⟩ := h
    simp only [Arr.dtype] at hd
    subst hd
    simp [Arr.assignMat]

@[simp] theorem zerosVec_shape (s : ℕ) : (Arr.zerosVec s : Arr F).shape = [s] := rfl
@[simp] theorem zerosMat_shape (s : ℕ) : (Arr.zerosMat s : Arr F).shape = [s, s] := rfl
@[simp] theorem zerosVec_dtype (s : ℕ) : (Arr.zerosVec s : Arr F).dtype = .float64 := rfl
@[simp] theorem zerosMat_dtype (s : ℕ) : (Arr.zerosMat s : Arr F).dtype = .float64 := rfl

/-- The pair of rows written in one step has the output shape. -/
def RowsOk (s : ℕ) (o : Arr F × Arr F) : Prop :=
  (o.1.shape = [s] ∧ o.1.dtype = .float64) ∧ (o.2.shape = [s, s] ∧ o.2.dtype = .float64)

namespace KalmanFilter

theorem step_rowsOk (s : ℕ) (I : Arr F) (r : Row F) (x P : Arr F) (g) (xP o)
    (h : step s I r x P = (g, .ok (xP, o))) : RowsOk s o := by
  obtain ⟨Ak, Hk, Bk, uk, zk, Qk, Rk⟩ := r
  simp only [step] at h
  rcases h1 : predict Ak x (some Bk) (some uk) P Qk with e | ⟨xp, Pp⟩
  · simp [h1] at h
  · simp only [h1] at h
    rcases h2 : gain Hk Pp Rk with e | K
    · simp [h2] at h
    · simp only [h2, Prod.mk.injEq] at h
      obtain ⟨-, h⟩ := h
      rcases h3 : correct I K Hk xp Pp zk with e | xP'
      · simp [h3] at h
      · simp only [h3, Except.bind_ok'] at h
        rcases h4 : Arr.assignVec s xP'.1 with e | srow
        · simp [h4] at h
        · simp only [h4, Except.bind_ok'] at h
          rcases h5 : Arr.assignMat s xP'.2 with e | erow
          · simp [h5] at h
          · simp only [h5, Except.bind_ok', Except.ok.injEq, Prod.mk.injEq] at h
            obtain ⟨-, rfl⟩ := h
            exact ⟨assignVec_shape h4, assignMat_shape h5⟩

/-- `zip(self.A, ...)` of iterable arrays, as lists. -/
theorem zipRows_ok {A H B U Z Q R : NDArray F} {rows : List (Row F)}
    (h : zipRows A H B U Z Q R = .ok rows) :
    A.Iterable ∧ H.Iterable ∧ B.Iterable ∧ U.Iterable ∧ Z.Iterable ∧ Q.Iterable ∧ R.Iterable := by
  cases A <;> cases H <;> cases B <;> cases U <;> cases Z <;> cases Q <;> cases R <;>
    simp_all [zipRows, NDArray.iter, NDArray.Iterable]

theorem zipRows_stack (a h b u z q r : List (Arr F)) :
    zipRows (.stack a) (.stack h) (.stack b) (.stack u) (.stack z) (.stack q) (.stack r) =
      .ok (a.zip (h.zip (b.zip (u.zip (z.zip (q.zip r)))))) := rfl

theorem zip_length (a h b u z q r : List (Arr F)) :
    (a.zip (h.zip (b.zip (u.zip (z.zip (q.zip r)))))).length =
      min a.length (min h.length (min b.length (min u.length (min z.length
        (min q.length r.length))))) := by
  simp [List.length_zip]

end KalmanFilter

namespace ExtendedKalmanFilter

theorem step_rowsOk (kf : ExtendedKalmanFilter F) (r : Row F) (x P : Arr F) (g) (xP o)
    (h : step kf r x P = (g, .ok (xP, o))) : RowsOk kf.stateSize o := by
  obtain ⟨uk, zk, Qk, Rk⟩ := r
  simp only [step] at h
  rcases h1 : predict kf x (some uk) P Qk with e | ⟨xp, Pp⟩
  · simp [h1] at h
  simp only [h1] at h
  rcases h0 : kf.jacobianH xp with e | Hk
  · simp [h0] at h
  simp only [h0] at h
  rcases h2 : gain Hk Pp Rk with e | K
  · simp [h2] at h
  simp only [h2, Prod.mk.injEq] at h
  obtain ⟨-, h⟩ := h
  rcases h3 : correct kf K Hk xp Pp zk with e | xP'
  · simp [h3] at h
  simp only [h3, Except.bind_ok'] at h
  rcases h4 : Arr.assignVec kf.stateSize xP'.1 with e | srow
  · simp [h4] at h
  simp only [h4, Except.bind_ok'] at h
  rcases h5 : Arr.assignMat kf.stateSize xP'.2 with e | erow
  · simp [h5] at h
  simp only [h5, Except.bind_ok', Except.ok.injEq, Prod.mk.injEq] at h
  obtain ⟨-, rfl⟩ := h
  exact ⟨assignVec_shape h4, assignMat_shape h5⟩

theorem zipRows_ok {U Z Q R : NDArray F} {rows : List (Row F)} (h : zipRows U Z Q R = .ok rows) :
    U.Iterable ∧ Z.Iterable ∧ Q.Iterable ∧ R.Iterable := by
  cases U <;> cases Z <;> cases Q <;> cases R <;>
    simp_all [zipRows, NDArray.iter, NDArray.Iterable]

theorem zipRows_stack (u z q r : List (Arr F)) :
    zipRows (.stack u) (.stack z) (.stack q) (.stack r) = .ok (u.zip (z.zip (q.zip r))) := rfl

theorem zip_length (u z q r : List (Arr F)) :
    (u.zip (z.zip (q.zip r))).length =
      min u.length (min z.length (min q.length r.length)) := by
  simp [List.length_zip]

end ExtendedKalmanFilter

theorem zip_take {α β : Type} (j : ℕ) (a : List α) (b : List β) :
    (a.zip b).take j = (a.take j).zip (b.take j) := by
  simp [List.zip, List.take_zipWith]

theorem zip_take_right {α β : Type} (j : ℕ) (a : List α) (b : List β) :
    a.zip (b.take j) = (a.zip b).take j := by
  induction a generalizing b j with
  | nil => simp
  | cons x a ih => cases b <;> cases j <;> simp [ih]

theorem zip_take_left {α β : Type} (j : ℕ) (a : List α) (b : List β) :
    (a.take j).zip b = (a.zip b).take j := by
  induction a generalizing b j with
  | nil => simp
  | cons x a ih => cases b <;> cases j <;> simp [ih]

theorem zip_take_both {α β : Type} (j : ℕ) (a : List α) (b : List β) :
    (a.take j).zip (b.take j) = (a.zip b).take j := (zip_take j a b).symm

end KK
