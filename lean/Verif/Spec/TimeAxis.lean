import Verif.Spec.Broadcast

/-!
# A parameter without its time axis

The library takes `A`, `H`, `Q`, `R` as sequences over time, shape `(T, n, n)` and so on.  A user with a constant model may
pass a single matrix instead.
-/

namespace KK

variable {F : Type}

/-- A single two-dimensional array where a sequence over time is expected: iterating over it yields its rows, as vectors. -/
def single {r c : ℕ} (d : DType) (M : Matrix (Fin r) (Fin c) F) : NDArray F := .stack (List.ofFn fun i => .vec d (M i))

/-- The sequence over time whose `k`-th matrix has the `k`-th row of `M` as each of its `s` rows. -/
def rowCopies {r c : ℕ} (s : ℕ) (d : DType) (M : Matrix (Fin r) (Fin c) F) : NDArray F :=
  .stack (List.ofFn fun i => .mat (m := s) d fun _ j => M i j)

/-- Dot products are computed one by one: an entry of a product depends on its row and column only. -/
def EntrywiseProducts (F : Type) [Backend F] : Prop :=
  ∀ {m k n : ℕ} (M : Matrix (Fin m) (Fin k) F) (N : Matrix (Fin k) (Fin n) F) (i : Fin m) (j : Fin n),
    Backend.gemm M N i j = Backend.gemm (m := 1) (n := 1) (fun _ l => M i l) (fun l _ => N l j) 0 0

end KK
