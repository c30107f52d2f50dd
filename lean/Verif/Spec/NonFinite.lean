import Verif.Spec.Float

/-!
# Numbers that spoil everything they touch

`Absorbing bad` says that a class `bad` of numbers (NaN; or infinities and NaN together) survives `+`, `-` and dot products, and
that a linear system whose matrix and right-hand side are entirely bad has no good unknown.  The second half of the file is IEEE 754
arithmetic with infinities, where "not finite" is such a class.
-/

namespace KK

open Matrix

section
variable {F : Type}

/-- Some entry of the array has the property. -/
def Arr.Any (p : F → Prop) : Arr F → Prop
  | .scalar _ x => p x
  | .vec _ v => ∃ i, p (v i)
  | .mat _ M => ∃ i j, p (M i j)

/-- Every entry of the array has the property. -/
def Arr.Every (p : F → Prop) : Arr F → Prop
  | .scalar _ x => p x
  | .vec _ v => ∀ i, p (v i)
  | .mat _ M => ∀ i j, p (M i j)

/-- `bad` numbers stay bad in sums, differences and dot products; a linear system all of whose coefficients are bad, and so is
its right-hand side, has only bad unknowns.  (Nothing is said about other linear systems: `1 / inf = 0` is finite.) -/
structure Absorbing [Backend F] (bad : F → Prop) : Prop where
  add_left : ∀ a b : F, bad a → bad (Backend.add a b)
  add_right : ∀ a b : F, bad b → bad (Backend.add a b)
  sub_left : ∀ a b : F, bad a → bad (Backend.sub a b)
  sub_right : ∀ a b : F, bad b → bad (Backend.sub a b)
  gemm_left : ∀ {m k n : ℕ} (A : Matrix (Fin m) (Fin k) F) (B : Matrix (Fin k) (Fin n) F) i l j,
    bad (A i l) → bad (Backend.gemm A B i j)
  gemm_right : ∀ {m k n : ℕ} (A : Matrix (Fin m) (Fin k) F) (B : Matrix (Fin k) (Fin n) F) i l j,
    bad (B l j) → bad (Backend.gemm A B i j)
  solve : ∀ {n k : ℕ} (S : Matrix (Fin n) (Fin n) F) (T X : Matrix (Fin n) (Fin k) F), Backend.solve S T = some X →
    (∀ i l, bad (S i l)) → ∀ j, (∀ i, bad (T i j)) → ∀ i, bad (X i j)

end

/-! ### IEEE 754 numbers -/

/-- A floating-point number: finite, an infinity, or NaN.  (The sign of zero is not represented.) -/
inductive Ieee where
  | fin (x : ℝ)
  | posInf
  | negInf
  | nan

namespace Ieee

/-- A finite number. -/
def Finite : Ieee → Prop
  | .fin _ => True
  | _ => False

/-- `np.isnan` -/
def isNan : Ieee → Bool
  | .nan => true
  | _ => false

/-- `-x` -/
noncomputable def neg : Ieee → Ieee
  | .fin x => .fin (-x)
  | .posInf => .negInf
  | .negInf => .posInf
  | .nan => .nan

/-- `x + y`: opposite infinities give NaN; finite sums are rounded (and may overflow). -/
noncomputable def add (rnd : ℝ → Ieee) : Ieee → Ieee → Ieee
  | .fin x, .fin y => rnd (x + y)
  | .nan, _ => .nan
  | _, .nan => .nan
  | .posInf, .negInf => .nan
  | .negInf, .posInf => .nan
  | .posInf, _ => .posInf
  | _, .posInf => .posInf
  | .negInf, _ => .negInf
  | _, .negInf => .negInf

/-- `x - y` -/
noncomputable def sub (rnd : ℝ → Ieee) (x y : Ieee) : Ieee := add rnd x y.neg

/-- Sign: `1`, `-1`, or `0` for zero and NaN. -/
noncomputable def sign : Ieee → SignType
  | .fin x => SignType.sign x
  | .posInf => 1
  | .negInf => -1
  | .nan => 0

/-- An infinity with the given sign; NaN for sign `0`. -/
def signed : SignType → Ieee
  | .pos => .posInf
  | .neg => .negInf
  | .zero => .nan

/-- `x * y` without rounding of finite products: `inf * 0` is NaN. -/
noncomputable def mul (rnd : ℝ → Ieee) : Ieee → Ieee → Ieee
  | .fin x, .fin y => rnd (x * y)
  | x, y => signed (x.sign * y.sign)

/-- `x / y` for `y` not zero: `x / inf` is zero, `inf / inf` is NaN. -/
noncomputable def div (rnd : ℝ → Ieee) : Ieee → Ieee → Ieee
  | .fin x, .fin y => rnd (x / y)
  | .fin _, .posInf => .fin 0
  | .fin _, .negInf => .fin 0
  | .posInf, .fin y => signed (SignType.sign y)
  | .negInf, .fin y => signed (-SignType.sign y)
  | _, _ => .nan

/-- `x + y * z` with a single rounding. -/
noncomputable def fma (rnd : ℝ → Ieee) : Ieee → Ieee → Ieee → Ieee
  | .fin x, .fin y, .fin z => rnd (x + y * z)
  | x, .fin _, .fin _ => x
  | x, y, z => add rnd x (mul rnd y z)

/-- `x - y * z`, with one rounding or with two. -/
noncomputable def msub (rnd : ℝ → Ieee) (fused : Bool) (x y z : Ieee) : Ieee :=
  if fused then fma rnd x y.neg z else sub rnd x (mul rnd y z)

/-- Size, for the choice of pivots: infinities are larger than every finite number, NaN is not comparable. -/
noncomputable def size : Ieee → WithTop ℝ
  | .fin x => ((|x| : ℝ) : WithTop ℝ)
  | .posInf => ⊤
  | .negInf => ⊤
  | .nan => ((0 : ℝ) : WithTop ℝ)

end Ieee

/-- The computed value of a dot product. -/
noncomputable def SumTree.evalIeee {k : ℕ} (rnd : ℝ → Ieee) (x y : Fin k → Ieee) : SumTree k → Ieee
  | .prod l => (x l).mul rnd (y l)
  | .add s t => (s.evalIeee rnd x y).add rnd (t.evalIeee rnd x y)
  | .fma s l => (s.evalIeee rnd x y).fma rnd (x l) (y l)

/-- One elimination step: row 0, times the factor `S i 0 / S 0 0`, is subtracted from row `i`. -/
noncomputable def elimIeee (rnd : ℝ → Ieee) (fused : Bool) {n k : ℕ} (S : Matrix (Fin (n + 1)) (Fin (n + 1)) Ieee)
    (T : Matrix (Fin (n + 1)) (Fin k) Ieee) : Matrix (Fin n) (Fin k) Ieee :=
  fun i j => (T i.succ j).msub rnd fused ((S i.succ 0).div rnd (S 0 0)) (T 0 j)

/-- First unknown, by substitution of the others. -/
noncomputable def backSubstIeee (rnd : ℝ → Ieee) (fused : Bool) {n k : ℕ} (S : Matrix (Fin (n + 1)) (Fin (n + 1)) Ieee)
    (T : Matrix (Fin (n + 1)) (Fin k) Ieee) (X : Matrix (Fin n) (Fin k) Ieee) (j : Fin k) : Ieee :=
  (Fin.foldl n (fun acc l => acc.msub rnd fused (S 0 l.succ) (X l j)) (T 0 j)).div rnd (S 0 0)

open Classical in
/-- Gaussian elimination with row exchanges; `none` (singular) iff a pivot is exactly zero, as in LAPACK `gesv`. -/
noncomputable def gaussIeee (rnd : ℝ → Ieee) (fused : Bool) (pivot : (n : ℕ) → (Fin (n + 1) → Ieee) → Fin (n + 1)) :
    {n k : ℕ} → Matrix (Fin n) (Fin n) Ieee → Matrix (Fin n) (Fin k) Ieee → Option (Matrix (Fin n) (Fin k) Ieee)
  | 0, _, _, _ => some fun i => i.elim0
  | n + 1, k, S, T =>
    let p := pivot n fun i => S i 0
    if S p 0 = .fin 0 then none
    else
      let S' := S.submatrix (Equiv.swap 0 p) id
      let T' := T.submatrix (Equiv.swap 0 p) id
      (gaussIeee rnd fused pivot (elimIeee rnd fused S' (S'.submatrix id Fin.succ)) (elimIeee rnd fused S' T')).map fun X =>
        Fin.cons (fun j => backSubstIeee rnd fused S' T' X j) X

/-- What is left open: the rounding (which may overflow to an infinity), the order of the dot products, the choice among equally
large pivots, and whether Gaussian elimination uses fused multiply-add. -/
structure IeeeUnit where
  rnd : ℝ → Ieee
  order : (m k n : ℕ) → Fin m → Fin n → SumTree (k + 1)
  pivot : (n : ℕ) → (Fin (n + 1) → Ieee) → Fin (n + 1)
  fused : Bool

/-- Every product is used exactly once; pivots are of maximal size where sizes can be compared. -/
structure IeeeUnit.Valid (a : IeeeUnit) : Prop where
  order : ∀ m k n i j, ((a.order m k n i j).indices).Perm (List.finRange (k + 1))
  pivot : ∀ n (v : Fin (n + 1) → Ieee), (∀ j, v j ≠ .nan) → ∀ j, (v j).size ≤ (v (a.pivot n v)).size

/-- The arithmetic of numpy on such a machine. -/
@[instance_reducible] noncomputable def ieeeB (nanInt : ℝ) (a : IeeeUnit) : Backend Ieee where
  zero := .fin 0
  one := .fin 1
  nan := .nan
  nanInt := .fin nanInt
  isnan := Ieee.isNan
  add := Ieee.add a.rnd
  sub := Ieee.sub a.rnd
  gemm {m k n} S T := match k, S, T with
    | 0, _, _ => fun _ _ => .fin 0
    | k + 1, S, T => fun i j => (a.order m k n i j).evalIeee a.rnd (fun l => S i l) fun l => T l j
  solve S T := gaussIeee a.rnd a.fused a.pivot S T

/-- Neither infinite nor NaN is "good". -/
def Ieee.Bad (x : Ieee) : Prop := ¬ x.Finite

/-- A finite number of the format. -/
def Ieee.Rep (rnd : ℝ → Ieee) (x : Ieee) : Prop := ∃ y, x = .fin y ∧ rnd y = .fin y

/-- Rounding leaves the numbers of the format alone; 0 and 1 are such numbers. -/
structure Ieee.Rounding (rnd : ℝ → Ieee) : Prop where
  idem : ∀ x y, rnd x = .fin y → rnd y = .fin y
  zero : rnd 0 = .fin 0
  one : rnd 1 = .fin 1

/-- `R = np.diag([np.inf, ..., np.inf])`, or the scalar `np.inf` for a single sensor. -/
def InfNoise (m : ℕ) (R : Arr Ieee) : Prop :=
  (∃ d, R = .mat d (fun i j : Fin m => if i = j then .posInf else .fin 0)) ∨ (m = 1 ∧ ∃ d, R = .scalar d .posInf)

/-- Everything in an update except the measurement noise is finite: the matrices, `H @ P @ H.T`, `H @ P.T` and `z - H @ x`. -/
structure FiniteUpdate [Backend Ieee] {n m : ℕ} (H : Matrix (Fin m) (Fin n) Ieee) (x : Fin n → Ieee) (P : Matrix (Fin n) (Fin n) Ieee) (z : Arr Ieee) :
    Prop where
  hH : ∀ i j, (H i j).Finite
  hx : ∀ i, (x i).Finite
  hP : ∀ i j, (P i j).Finite
  innovation : ∀ i j, (Backend.gemm H (Backend.gemm P Hᵀ) i j).Finite
  cross : ∀ i j, (Backend.gemm H Pᵀ i j).Finite
  residual : ∀ d, ∃ (e : DType) (r : Fin m → Ieee), z.sub (.vec d fun i => Backend.gemm (n := 1) H (fun i _ => x i) i 0) = .ok (.vec e r) ∧ ∀ i, (r i).Finite

end KK
