import Verif.Spec.Basic
import Mathlib.Data.Rat.Defs

/-!
# A small computable backend and concrete filters, used only to show that hypotheses are met

`Option ℚ` with `none` as NaN; `solve` handles 1x1 and 2x2 systems (Cramer), which is all the examples
need; anything larger counts as singular. Theorems hold for every backend, so in particular this one.
-/

namespace KK
namespace Ex

abbrev QN := Option ℚ

def lift2 (f : ℚ → ℚ → ℚ) : QN → QN → QN
  | some a, some b => some (f a b)
  | _, _ => none

def qsolve : {n k : ℕ} → Matrix (Fin n) (Fin n) QN → Matrix (Fin n) (Fin k) QN →
    Option (Matrix (Fin n) (Fin k) QN)
  | 0, _, _, b => some b
  | 1, _, a, b =>
    match a 0 0 with
    | none => some fun _ _ => none
    | some d => if d = 0 then none else some fun _ j => lift2 (· * ·) (some d⁻¹) (b 0 j)
  | 2, _, a, b =>
    match lift2 (· - ·) (lift2 (· * ·) (a 0 0) (a 1 1)) (lift2 (· * ·) (a 0 1) (a 1 0)) with
    | none => some fun _ _ => none
    | some d =>
      if d = 0 then none
      else some fun i j =>
        if i = 0 then lift2 (· * ·) (some d⁻¹)
          (lift2 (· - ·) (lift2 (· * ·) (a 1 1) (b 0 j)) (lift2 (· * ·) (a 0 1) (b 1 j)))
        else lift2 (· * ·) (some d⁻¹)
          (lift2 (· - ·) (lift2 (· * ·) (a 0 0) (b 1 j)) (lift2 (· * ·) (a 1 0) (b 0 j)))
  | _ + 3, _, _, _ => none

instance : Backend QN where
  zero := some 0
  one := some 1
  nan := none
  nanInt := some (-9223372036854775808)
  isnan x := x.isNone
  add := lift2 (· + ·)
  sub := lift2 (· - ·)
  gemm {_ k _} A B := fun i j =>
    (List.finRange k).foldr (fun l acc => lift2 (· + ·) (lift2 (· * ·) (A i l) (B l j)) acc) (some 0)
  solve := qsolve

/-- Did the call return (rather than raise)? -/
def returned {α σ : Type} (r : Except PyErr α × σ) : Bool :=
  match r.1 with
  | .ok _ => true
  | .error _ => false

theorem returned_iff {α σ : Type} (r : Except PyErr α × σ) :
    returned r = true ↔ ∃ a s, r = (.ok a, s) := by
  obtain ⟨e | a, s⟩ := r <;> simp [returned]

/-- Which exception? -/
def raised {α σ : Type} (r : Except PyErr α × σ) : Option PyErr :=
  match r.1 with
  | .ok _ => none
  | .error e => some e

theorem raised_iff {α σ : Type} (r : Except PyErr α × σ) (e : PyErr) :
    raised r = some e ↔ ∃ s, r = (.error e, s) := by
  obtain ⟨e | a, s⟩ := r <;> simp [raised]

def mat2 (a b c d : QN) : Arr QN :=
  .mat .float64 (fun i j => if i = 0 then (if j = 0 then a else b) else if j = 0 then c else d :
    Matrix (Fin 2) (Fin 2) QN)
def row2 (a b : QN) : Arr QN :=
  .mat .float64 (fun _ j => if j = 0 then a else b : Matrix (Fin 1) (Fin 2) QN)
def vec2 (a b : QN) : Arr QN := .vec .float64 (fun i => if i = 0 then a else b : Fin 2 → QN)
def col2 (a b : QN) : Arr QN :=
  .mat .float64 (fun i _ => if i = 0 then a else b : Matrix (Fin 2) (Fin 1) QN)
def vec1 (a : QN) : Arr QN := .vec .float64 (fun _ => a : Fin 1 → QN)
def mat1 (a : QN) : Arr QN := .mat .float64 (fun _ _ => a : Matrix (Fin 1) (Fin 1) QN)

/-- Constant velocity, position observed, control = acceleration; `t` steps of parameters. -/
def cv (t : ℕ) : KalmanFilter QN where
  A := .stack (List.replicate t (mat2 (some 1) (some 1) (some 0) (some 1)))
  xk := vec2 (some 0) (some 1)
  B := .stack (List.replicate t (col2 (some (1/2)) (some 1)))
  Pk := mat2 (some 2) (some 0) (some 0) (some 1)
  H := .stack (List.replicate t (row2 (some 1) (some 0)))
  Q := .stack (List.replicate t (mat2 (some (1/4)) (some 0) (some 0) (some (1/4))))
  R := .stack (List.replicate t (mat1 (some 1)))
  stateSize := 2
  I := Arr.identity 2
  kalmanGains := []

/-- Three observations. -/
def zs : NDArray QN := .stack [vec1 (some 1), vec1 (some 3), vec1 (some 2)]
/-- Three controls. -/
def us : NDArray QN := .stack [vec1 (some 1), vec1 (some 0), vec1 (some (-1))]

/-- The same system as an extended filter. -/
def ecv (t : ℕ) : ExtendedKalmanFilter QN where
  f x u := do
    let ax ← (mat2 (some 1) (some 1) (some 0) (some 1)).matmul x
    match u with
    | none => .error .typeError
    | some u => do
      let bu ← (col2 (some (1/2)) (some 1)).matmul u
      ax.add bu
  jacobianA _ _ := .ok (mat2 (some 1) (some 1) (some 0) (some 1))
  xk := vec2 (some 0) (some 1)
  Pk := mat2 (some 2) (some 0) (some 0) (some 1)
  h x := (row2 (some 1) (some 0)).matmul x
  jacobianH _ := .ok (row2 (some 1) (some 0))
  Q := .stack (List.replicate t (mat2 (some (1/4)) (some 0) (some 0) (some (1/4))))
  R := .stack (List.replicate t (mat1 (some 1)))
  stateSize := 2
  I := Arr.identity 2
  kalmanGains := []

example : returned ((KalmanFilter.filter zs (some us)).run (cv 3)) = true := by decide +kernel
example : returned ((KalmanFilter.smooth zs (some us)).run (cv 3)) = true := by decide +kernel
example : returned ((KalmanFilter.smooth zs none).run (cv 3)) = true := by decide +kernel
example : returned ((ExtendedKalmanFilter.smooth zs (some us)).run (ecv 3)) = true := by decide +kernel

end Ex
end KK
