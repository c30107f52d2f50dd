import Verif.Proofs.Structural

/-! # Shapes: which operations succeed, and with what result shape -/

set_option linter.unusedSectionVars false
set_option linter.unusedSimpArgs false

namespace KK

variable {F : Type}

namespace Arr

theorem eq_vec {a : Arr F} {n : ℕ} (h : a.shape = [n]) : ∃ (d : DType) (v : Fin n → F), a = .vec d v := by
  cases a with
  | scalar d x => simp [shape] at h
  | @vec d n' v =>
    simp only [shape, List.cons.injEq, and_true] at h
    subst h; exact ⟨d, v, rfl⟩
  | mat d M => simp [shape] at h

theorem eq_mat {a : Arr F} {m n : ℕ} (h : a.shape = [m, n]) :
    ∃ (d : DType) (M : Matrix (Fin m) (Fin n) F), a = .mat d M := by
  cases a with
  | scalar d x => simp [shape] at h
  | vec d v => simp [shape] at h
  | @mat d m' n' M =>
    simp only [shape, List.cons.injEq, and_true] at h
    obtain ⟨rfl, rfl⟩ := h; exact ⟨d, M, rfl⟩

theorem eq_scalar {a : Arr F} (h : a.shape = []) : ∃ (d : DType) (x : F), a = .scalar d x := by
  cases a with
  | scalar d x => exact ⟨d, x, rfl⟩
  | vec d v => simp [shape] at h
  | mat d M => simp [shape] at h

@[simp] theorem bdim_self (a : ℕ) : bdim a a = .ok a := by simp [bdim]
@[simp] theorem bdim_one_left (a : ℕ) : bdim 1 a = .ok a := by
  unfold bdim; split <;> simp_all
@[simp] theorem bdim_one_right (a : ℕ) : bdim a 1 = .ok a := by
  unfold bdim; split <;> [skip; split] <;> simp_all

theorem T_shape {a : Arr F} {m n : ℕ} (h : a.shape = [m, n]) : a.T.shape = [n, m] := by
  obtain ⟨d, M, rfl⟩ := eq_mat h; rfl

@[simp] theorem T_dtype (a : Arr F) : a.T.dtype = a.dtype := by cases a <;> rfl

variable [Backend F]

theorem identity_shape (n : ℕ) : (identity n : Arr F).shape = [n, n] := rfl

theorem atleast1d_shape {a : Arr F} (h : a.shape ≠ []) : a.atleast1d = a := by
  cases a <;> simp_all [shape, atleast1d]

/-- Entrywise operations at matrix level. -/
def mAdd {m n : ℕ} (M N : Matrix (Fin m) (Fin n) F) : Matrix (Fin m) (Fin n) F :=
  fun i j => Backend.add (M i j) (N i j)
def mAddS {m n : ℕ} (M : Matrix (Fin m) (Fin n) F) (y : F) : Matrix (Fin m) (Fin n) F :=
  fun i j => Backend.add (M i j) y
def mSub {m n : ℕ} (M N : Matrix (Fin m) (Fin n) F) : Matrix (Fin m) (Fin n) F :=
  fun i j => Backend.sub (M i j) (N i j)

/-! ### explicit values of the operations on well-shaped operands -/

@[simp] theorem matmul_mm {m k n : ℕ} (d e : DType) (M : Matrix (Fin m) (Fin k) F)
    (N : Matrix (Fin k) (Fin n) F) :
    (Arr.mat d M).matmul (.mat e N) = .ok (.mat (d.promote e) (Backend.gemm M N)) := by
  simp [matmul]

@[simp] theorem matmul_mv {m k : ℕ} (d e : DType) (M : Matrix (Fin m) (Fin k) F) (w : Fin k → F) :
    (Arr.mat d M).matmul (.vec e w) =
      .ok (.vec (d.promote e) fun i => Backend.gemm (n := 1) M (fun i _ => w i) i 0) := by
  simp [matmul]

@[simp] theorem add_mm {m n : ℕ} (d e : DType) (M N : Matrix (Fin m) (Fin n) F) :
    (Arr.mat d M).add (.mat e N) =
      .ok (.mat (d.promote e) (mAdd M N)) := by
  simp only [add, zipWith, zipWith2, dims2, dtype, bdim_self, Except.bind_ok', toMat_self]
  rfl

@[simp] theorem add_ms {m n : ℕ} (d e : DType) (M : Matrix (Fin m) (Fin n) F) (y : F) :
    (Arr.mat d M).add (.scalar e y) =
      .ok (.mat (d.promote e) (mAddS M y)) := by
  simp only [add, zipWith, zipWith2, dims2, dtype, bdim_one_right, Except.bind_ok', toMat_self]
  rfl

@[simp] theorem add_vv {n : ℕ} (d e : DType) (v w : Fin n → F) :
    (Arr.vec d v).add (.vec e w) =
      .ok (.vec (d.promote e) fun i => Backend.add (v i) (w i)) := by
  simp [add, zipWith]

@[simp] theorem sub_mm {m n : ℕ} (d e : DType) (M N : Matrix (Fin m) (Fin n) F) :
    (Arr.mat d M).sub (.mat e N) =
      .ok (.mat (d.promote e) (mSub M N)) := by
  simp only [sub, zipWith, zipWith2, dims2, dtype, bdim_self, Except.bind_ok', toMat_self]
  rfl

@[simp] theorem sub_vv {n : ℕ} (d e : DType) (v w : Fin n → F) :
    (Arr.vec d v).sub (.vec e w) =
      .ok (.vec (d.promote e) fun i => Backend.sub (v i) (w i)) := by
  simp [sub, zipWith]

@[simp] theorem sub_sv {n : ℕ} (d e : DType) (x : F) (w : Fin n → F) :
    (Arr.scalar d x).sub (.vec e w) =
      .ok (.vec (d.promote e) fun i => Backend.sub x (w i)) := by
  simp [sub, zipWith]

@[simp] theorem sub_vs {n : ℕ} (d e : DType) (v : Fin n → F) (y : F) :
    (Arr.vec d v).sub (.scalar e y) =
      .ok (.vec (d.promote e) fun i => Backend.sub (v i) y) := by
  simp [sub, zipWith]

@[simp] theorem sub_ss (d e : DType) (x y : F) :
    (Arr.scalar d x).sub (.scalar e y) = .ok (.scalar (d.promote e) (Backend.sub x y)) := by
  simp [sub, zipWith]

@[simp] theorem solve_mm {n k : ℕ} (d e : DType) (M : Matrix (Fin n) (Fin n) F)
    (N : Matrix (Fin n) (Fin k) F) :
    Arr.solve (.mat d M) (.mat e N) =
      match Backend.solve M N with
      | none => .error .linAlgError
      | some X => .ok (.mat .float64 X) := by
  simp [solve]; rfl

@[simp] theorem T_mat {m n : ℕ} (d : DType) (M : Matrix (Fin m) (Fin n) F) :
    (Arr.mat d M).T = .mat d M.transpose := rfl

@[simp] theorem atleast1d_vec {n : ℕ} (d : DType) (v : Fin n → F) :
    (Arr.vec d v).atleast1d = .vec d v := rfl
@[simp] theorem atleast1d_mat {m n : ℕ} (d : DType) (M : Matrix (Fin m) (Fin n) F) :
    (Arr.mat d M).atleast1d = .mat d M := rfl

@[simp] theorem assignVec_vec {s : ℕ} (d : DType) (v : Fin s → F) :
    (Arr.vec d v).assignVec s = .ok (.vec .float64 v) := by
  simp [assignVec]

@[simp] theorem assignMat_mat {s : ℕ} (d : DType) (M : Matrix (Fin s) (Fin s) F) :
    (Arr.mat d M).assignMat s = .ok (.mat .float64 M) := by
  simp [assignMat]

@[simp] theorem promote_float_left (d : DType) : DType.promote .float64 d = .float64 := by
  cases d <;> rfl
@[simp] theorem promote_float_right (d : DType) : DType.promote d .float64 = .float64 := by
  cases d <;> rfl

/-! ### which exceptions -/

theorem bdim_error {a b : ℕ} {e : PyErr} (h : bdim a b = .error e) : e = .valueError := by
  unfold bdim at h
  split at h
  · simp at h
  · split at h
    · simp at h
    · split at h <;> simp_all

theorem stretch_error {α : Type} {n d : ℕ} {v : Fin n → α} {e : PyErr}
    (h : stretch d v = .error e) : e = .valueError := by
  unfold stretch at h
  split at h
  · simp at h
  · split at h <;> simp_all

theorem toMat_error {r c : ℕ} {a : Arr F} {e : PyErr} (h : a.toMat r c = .error e) :
    e = .valueError := by
  cases a with
  | scalar d x => simp [toMat] at h
  | vec d v =>
    simp only [toMat] at h
    rcases hs : stretch c v with e' | w
    · simp [hs] at h; subst h; exact stretch_error hs
    · simp [hs] at h
  | mat d M =>
    simp only [toMat] at h
    rcases hs : stretch r M with e' | w
    · simp only [hs] at h; simp at h; subst h; exact stretch_error hs
    · simp only [hs, Except.bind_ok'] at h
      rcases hs2 : stretch c fun j i => w i j with e' | w'
      · simp [hs2] at h; subst h; exact stretch_error hs2
      · simp [hs2] at h

theorem zipWith2_error {f : F → F → F} {a b : Arr F} {e : PyErr} (h : zipWith2 f a b = .error e) :
    e = .valueError := by
  unfold zipWith2 at h
  rcases h1 : bdim a.dims2.1 b.dims2.1 with e' | r
  · simp [h1] at h; subst h; exact bdim_error h1
  simp only [h1, Except.bind_ok'] at h
  rcases h2 : bdim a.dims2.2 b.dims2.2 with e' | c
  · simp [h2] at h; subst h; exact bdim_error h2
  simp only [h2, Except.bind_ok'] at h
  rcases h3 : a.toMat r c with e' | A
  · simp [h3] at h; subst h; exact toMat_error h3
  simp only [h3, Except.bind_ok'] at h
  rcases h4 : b.toMat r c with e' | B
  · simp [h4] at h; subst h; exact toMat_error h4
  simp [h4] at h

theorem zipWith_error {f : F → F → F} {a b : Arr F} {e : PyErr} (h : zipWith f a b = .error e) :
    e = .valueError := by
  cases a <;> cases b <;> simp only [zipWith] at h
  case vec.vec d n v d' n' w =>
    rcases h1 : bdim n n' with e' | k
    · simp [h1] at h; subst h; exact bdim_error h1
    simp only [h1, Except.bind_ok'] at h
    rcases h2 : stretch k v with e' | v'
    · simp [h2] at h; subst h; exact stretch_error h2
    simp only [h2, Except.bind_ok'] at h
    rcases h3 : stretch k w with e' | w'
    · simp [h3] at h; subst h; exact stretch_error h3
    simp [h3] at h
  all_goals first | exact zipWith2_error h | simp at h

theorem add_error {a b : Arr F} {e : PyErr} (h : a.add b = .error e) : e = .valueError :=
  zipWith_error h
theorem sub_error {a b : Arr F} {e : PyErr} (h : a.sub b = .error e) : e = .valueError :=
  zipWith_error h

theorem matmul_error {a b : Arr F} {e : PyErr} (h : a.matmul b = .error e) : e = .valueError := by
  cases a <;> cases b <;> simp only [matmul] at h <;>
    first
    | (split at h <;> simp_all)
    | simp_all

theorem assignVec_error {s : ℕ} {a : Arr F} {e : PyErr} (h : a.assignVec s = .error e) :
    e = .valueError := by
  cases a with
  | scalar d x => simp [assignVec] at h
  | vec d v =>
    simp only [assignVec] at h
    rcases hs : stretch s v with e' | w
    · simp [hs] at h; subst h; exact stretch_error hs
    · simp [hs] at h
  | @mat d m n M =>
    simp only [assignVec] at h
    split at h
    · rcases hs : stretch s (M ⟨0, by omega⟩) with e' | w
      · simp [hs] at h; subst h; exact stretch_error hs
      · simp [hs] at h
    · simp_all

theorem assignMat_error {s : ℕ} {a : Arr F} {e : PyErr} (h : a.assignMat s = .error e) :
    e = .valueError := by
  simp only [assignMat] at h
  rcases hs : a.toMat s s with e' | w
  · simp [hs] at h; subst h; exact toMat_error hs
  · simp [hs] at h

end Arr

end KK
