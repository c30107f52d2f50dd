import Verif.Spec.Approx

/-!
# Floating-point arithmetic as numpy, BLAS and LAPACK do it

Every elementary operation rounds its exact result (`Rounds`, the standard model of floating-point arithmetic with underflow
and overflow); dot products are summed in any order, with or without fused multiply-add; linear systems are solved by Gaussian
elimination with partial pivoting.  Infinities are identified with NaN.
-/

namespace KK

open Matrix

/-- `fl` rounds with unit roundoff `u`, underflow error `μ` and largest number `M`; beyond `M` it may do anything.  IEEE
binary64: `u = 2^-53`, `μ = 2^-1075`, `M` just below `2^1024`. -/
def Rounds (u μ M : ℝ) (fl : ℝ → Fl) : Prop := ∀ x : ℝ, |x| ≤ M → ∃ r : ℝ, fl x = .fin r ∧ |r - x| ≤ u * |x| + μ

/-! ### elementary operations -/

/-- `x + y` -/
def fadd (fl : ℝ → Fl) : Fl → Fl → Fl
  | .fin x, .fin y => fl (x + y)
  | _, _ => .nan

/-- `x - y` -/
def fsub (fl : ℝ → Fl) : Fl → Fl → Fl
  | .fin x, .fin y => fl (x - y)
  | _, _ => .nan

/-- `x * y` -/
def fmul (fl : ℝ → Fl) : Fl → Fl → Fl
  | .fin x, .fin y => fl (x * y)
  | _, _ => .nan

/-- `x / y` (for `y ≠ 0`) -/
noncomputable def fdiv (fl : ℝ → Fl) : Fl → Fl → Fl
  | .fin x, .fin y => fl (x / y)
  | _, _ => .nan

/-- Fused multiply-add: `x + y * z` with one rounding. -/
def ffma (fl : ℝ → Fl) : Fl → Fl → Fl → Fl
  | .fin x, .fin y, .fin z => fl (x + y * z)
  | _, _, _ => .nan

/-- `x - y * z`, with one rounding or with two. -/
def fmsub (fl : ℝ → Fl) (fused : Bool) (x y z : Fl) : Fl :=
  match x, y, z with
  | .fin x, .fin y, .fin z => if fused then fl (x - y * z) else fsub fl (.fin x) (fmul fl (.fin y) (.fin z))
  | _, _, _ => .nan

/-! ### dot products -/

/-- An order of evaluation of a sum of products `x l * y l`. -/
inductive SumTree (k : ℕ) where
  | prod (l : Fin k)
  | add (s t : SumTree k)
  | fma (s : SumTree k) (l : Fin k)

/-- The products that occur. -/
def SumTree.indices {k : ℕ} : SumTree k → List (Fin k)
  | .prod l => [l]
  | .add s t => s.indices ++ t.indices
  | .fma s l => l :: s.indices

/-- The computed value. -/
def SumTree.eval {k : ℕ} (fl : ℝ → Fl) (x y : Fin k → Fl) : SumTree k → Fl
  | .prod l => fmul fl (x l) (y l)
  | .add s t => fadd fl (s.eval fl x y) (t.eval fl x y)
  | .fma s l => ffma fl (s.eval fl x y) (x l) (y l)

/-! ### Gaussian elimination with partial pivoting -/

/-- Row `i` of the eliminated system gets the factor `S i 0 / S 0 0`; what is subtracted is the factor times row 0. -/
noncomputable def elim (fl : ℝ → Fl) (fused : Bool) {n k : ℕ} (S : Matrix (Fin (n + 1)) (Fin (n + 1)) Fl)
    (T : Matrix (Fin (n + 1)) (Fin k) Fl) : Matrix (Fin n) (Fin k) Fl :=
  fun i j => fmsub fl fused (T i.succ j) (fdiv fl (S i.succ 0) (S 0 0)) (T 0 j)

/-- First unknown, by substitution of the others: `(T 0 j - S 0 1 * X 0 j - ...) / S 0 0`. -/
noncomputable def backSubst (fl : ℝ → Fl) (fused : Bool) {n k : ℕ} (S : Matrix (Fin (n + 1)) (Fin (n + 1)) Fl)
    (T : Matrix (Fin (n + 1)) (Fin k) Fl) (X : Matrix (Fin n) (Fin k) Fl) (j : Fin k) : Fl :=
  fdiv fl (Fin.foldl n (fun acc l => fmsub fl fused acc (S 0 l.succ) (X l j)) (T 0 j)) (S 0 0)

open Classical in
/-- Solution of `S X = T`: the pivot row is exchanged with the first one, the first unknown eliminated from the other
equations, and so on.  `none` (singular) iff a pivot is exactly zero, as in LAPACK `gesv`. -/
noncomputable def gauss (fl : ℝ → Fl) (fused : Bool) (pivot : (n : ℕ) → (Fin (n + 1) → Fl) → Fin (n + 1)) :
    {n k : ℕ} → Matrix (Fin n) (Fin n) Fl → Matrix (Fin n) (Fin k) Fl → Option (Matrix (Fin n) (Fin k) Fl)
  | 0, _, _, _ => some fun i => i.elim0
  | n + 1, k, S, T =>
    let p := pivot n fun i => S i 0
    if S p 0 = .fin 0 then none
    else
      let S' := S.submatrix (Equiv.swap 0 p) id
      let T' := T.submatrix (Equiv.swap 0 p) id
      (gauss fl fused pivot (elim fl fused S' (S'.submatrix id Fin.succ)) (elim fl fused S' T')).map fun X =>
        Fin.cons (fun j => backSubst fl fused S' T' X j) X

/-! ### the arithmetic -/

/-- What is left open: the rounding, the order of the dot products, the choice among equally large pivots, and whether
Gaussian elimination uses fused multiply-add. -/
structure FloatUnit where
  fl : ℝ → Fl
  /-- order of evaluation of entry `(i, j)` of a product of an `m × (k+1)` and a `(k+1) × n` matrix -/
  order : (m k n : ℕ) → Fin m → Fin n → SumTree (k + 1)
  pivot : (n : ℕ) → (Fin (n + 1) → Fl) → Fin (n + 1)
  fused : Bool

/-- Every product is used exactly once; pivots are of maximal size. -/
structure FloatUnit.Valid (a : FloatUnit) : Prop where
  order : ∀ m k n i j, ((a.order m k n i j).indices).Perm (List.finRange (k + 1))
  pivot : ∀ n (v : Fin (n + 1) → Fl) j, |(v j).toReal| ≤ |(v (a.pivot n v)).toReal|

/-- The arithmetic of numpy on such a machine. -/
@[instance_reducible] noncomputable def floatB (nanInt : ℝ) (a : FloatUnit) : Backend Fl where
  zero := .fin 0
  one := .fin 1
  nan := .nan
  nanInt := .fin nanInt
  isnan := Fl.isNan
  add := fadd a.fl
  sub := fsub a.fl
  gemm {m k n} S T := match k, S, T with
    | 0, _, _ => fun _ _ => .fin 0
    | k + 1, S, T => fun i j => (a.order m k n i j).eval a.fl (fun l => S i l) fun l => T l j
  solve S T := gauss a.fl a.fused a.pivot S T

end KK
