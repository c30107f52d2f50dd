import Verif.Model.Numpy
import Mathlib.LinearAlgebra.Matrix.NonsingularInverse
import Mathlib.Data.Real.Basic

/-!
# Exact arithmetic backend

`Fl` idealises a float64: NaN or an exact real number (no rounding, no infinities).  What numpy does in
situations that are platform dependent is a parameter (`Platform`) over which every theorem quantifies:
the int64 value of a cast NaN, and LAPACK's answer when an operand of `solve` contains NaN.
-/

namespace KK

inductive Fl where
  | nan
  | fin (x : ℝ)

namespace Fl

noncomputable instance : Add Fl := ⟨fun
  | .fin x, .fin y => .fin (x + y)
  | _, _ => .nan⟩

noncomputable instance : Sub Fl := ⟨fun
  | .fin x, .fin y => .fin (x - y)
  | _, _ => .nan⟩

noncomputable instance : Mul Fl := ⟨fun
  | .fin x, .fin y => .fin (x * y)
  | _, _ => .nan⟩

noncomputable instance : Zero Fl := ⟨.fin 0⟩

def isNan : Fl → Bool
  | .nan => true
  | .fin _ => false

noncomputable def toReal : Fl → ℝ
  | .nan => 0
  | .fin x => x

@[simp] theorem fin_add (x y : ℝ) : Fl.fin x + Fl.fin y = Fl.fin (x + y) := rfl
@[simp] theorem fin_sub (x y : ℝ) : Fl.fin x - Fl.fin y = Fl.fin (x - y) := rfl
@[simp] theorem fin_mul (x y : ℝ) : Fl.fin x * Fl.fin y = Fl.fin (x * y) := rfl
theorem zero_def : (0 : Fl) = Fl.fin 0 := rfl
@[simp] theorem nan_add (y : Fl) : Fl.nan + y = Fl.nan := by cases y <;> rfl
@[simp] theorem add_nan (y : Fl) : y + Fl.nan = Fl.nan := by cases y <;> rfl
@[simp] theorem nan_sub (y : Fl) : Fl.nan - y = Fl.nan := by cases y <;> rfl
@[simp] theorem sub_nan (y : Fl) : y - Fl.nan = Fl.nan := by cases y <;> rfl
@[simp] theorem nan_mul (y : Fl) : Fl.nan * y = Fl.nan := by cases y <;> rfl
@[simp] theorem mul_nan (y : Fl) : y * Fl.nan = Fl.nan := by cases y <;> rfl
@[simp] theorem toReal_fin (x : ℝ) : (Fl.fin x).toReal = x := rfl
@[simp] theorem isNan_fin (x : ℝ) : (Fl.fin x).isNan = false := rfl
@[simp] theorem isNan_nan : Fl.nan.isNan = true := rfl

theorem fin_injective : Function.Injective Fl.fin := fun _ _ h => by injection h

noncomputable instance : AddCommMonoid Fl where
  add_assoc a b c := by
    cases a <;> cases b <;> cases c <;> simp [add_assoc]
  zero_add a := by cases a <;> simp [zero_def]
  add_zero a := by cases a <;> simp [zero_def]
  add_comm a b := by cases a <;> cases b <;> simp [add_comm]
  nsmul := nsmulRec

end Fl

/-- Platform-dependent behaviour. -/
class Platform where
  /-- value of `np.nan` cast to int64 -/
  nanInt : ℝ
  /-- `np.linalg.solve` when an operand contains NaN -/
  nanSolve : {n k : ℕ} → Matrix (Fin n) (Fin n) Fl → Matrix (Fin n) (Fin k) Fl →
    Option (Matrix (Fin n) (Fin k) Fl)

/-- No entry is NaN. -/
def NoNan {m n : ℕ} (M : Matrix (Fin m) (Fin n) Fl) : Prop := ∀ i j, (M i j).isNan = false

open Classical in
/-- Exact solution of `a x = b`; singular iff `det a = 0`. -/
noncomputable def exactSolve [Platform] {n k : ℕ} (a : Matrix (Fin n) (Fin n) Fl)
    (b : Matrix (Fin n) (Fin k) Fl) : Option (Matrix (Fin n) (Fin k) Fl) :=
  if NoNan a ∧ NoNan b then
    if (a.map Fl.toReal).det = 0 then none
    else some (((a.map Fl.toReal)⁻¹ * b.map Fl.toReal).map Fl.fin)
  else Platform.nanSolve a b

noncomputable instance [Platform] : Backend Fl where
  zero := .fin 0
  one := .fin 1
  nan := .nan
  nanInt := .fin Platform.nanInt
  isnan := Fl.isNan
  add := (· + ·)
  sub := (· - ·)
  gemm A B := fun i j => ∑ l, A i l * B l j
  solve := exactSolve

/-- x86-64: NaN casts to -2^63; LAPACK on NaN input answers NaN.  Used in examples only. -/
noncomputable abbrev Platform.x86 : Platform where
  nanInt := -9223372036854775808
  nanSolve _ _ := some fun _ _ => .nan

end KK
