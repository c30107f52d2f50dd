import Verif.Spec.Approx
import Verif.Proofs.Exact
import Mathlib.Algebra.Order.Floor.Ring
import Mathlib.Algebra.Order.Archimedean.Real.Basic

/-!
# Fixed-point arithmetic

An arithmetic that rounds the result of every addition, subtraction and multiplication down to a multiple of `u`.  Used
to show that `Accurate` is met by arithmetics that do round.
-/

set_option linter.unusedSectionVars false

namespace KK
namespace Ex

open Matrix

/-- Round down to a multiple of `u`. -/
noncomputable def rnd (u : ℝ) : Fl → Fl
  | .nan => .nan
  | .fin x => .fin (u * ⌊x / u⌋)

/-- Fixed-point arithmetic with step `u`: products are summed from left to right, rounding after every operation; the
solution of a linear system is rounded. -/
noncomputable def fixedPoint (nanInt u : ℝ) : Backend Fl where
  zero := .fin 0
  one := .fin 1
  nan := .nan
  nanInt := .fin nanInt
  isnan := Fl.isNan
  add x y := rnd u (x + y)
  sub x y := rnd u (x - y)
  gemm {_ k _} S T := fun i j => Fin.foldl k (fun acc l => rnd u (acc + rnd u (S i l * T l j))) (.fin 0)
  solve S T := (@exactSolve ⟨nanInt, fun _ _ => none⟩ _ _ S T).map fun X => X.map (rnd u)

theorem rnd_close {u : ℝ} (hu : 0 < u) (x : ℝ) : ∃ r, rnd u (.fin x) = .fin r ∧ |r - x| ≤ u := by
  refine ⟨u * ⌊x / u⌋, rfl, ?_⟩
  have h1 := Int.floor_le (x / u)
  have h2 := Int.lt_floor_add_one (x / u)
  have e : x = u * (x / u) := by field_simp
  rw [abs_le]
  constructor <;> nlinarith

theorem rnd_nan (u : ℝ) : rnd u .nan = .nan := rfl

theorem fold_close {u : ℝ} (hu : 0 < u) (k : ℕ) (g : Fin k → Fl) (p : Fin k → ℝ) (hg : ∀ l, g l = .fin (p l)) :
    ∃ r, Fin.foldl k (fun acc l => rnd u (acc + rnd u (g l))) (.fin 0) = .fin r ∧ |r - ∑ l, p l| ≤ 2 * k * u := by
  induction k with
  | zero => exact ⟨0, by simp, by simp⟩
  | succ k ih =>
    obtain ⟨r, h1, h2⟩ := ih (fun l => g l.castSucc) (fun l => p l.castSucc) fun l => hg l.castSucc
    obtain ⟨q, h3, h4⟩ := rnd_close hu (p (Fin.last k))
    obtain ⟨t, h5, h6⟩ := rnd_close hu (r + q)
    refine ⟨t, ?_, ?_⟩
    · rw [Fin.foldl_succ_last, h1, hg, h3, Fl.fin_add, h5]
    · rw [Fin.sum_univ_castSucc]
      push_cast
      rw [abs_le] at *
      constructor <;> nlinarith [h2.1, h2.2, h4.1, h4.2, h6.1, h6.2]

theorem fold_nan {u : ℝ} (k : ℕ) (g : Fin k → Fl) (l : Fin k) (hl : g l = .nan) (a : Fl) :
    Fin.foldl k (fun acc l => rnd u (acc + rnd u (g l))) a = .nan := by
  induction k with
  | zero => exact l.elim0
  | succ k ih =>
    rw [Fin.foldl_succ_last]
    rcases Fin.eq_castSucc_or_eq_last l with ⟨l', rfl⟩ | rfl
    · rw [ih (fun l => g l.castSucc) l' hl, Fl.nan_add]; rfl
    · rw [hl, rnd_nan, Fl.add_nan]; rfl

theorem fixedPoint_accurate (nanInt : ℝ) {η u : ℝ} (hη : 0 < η) (hu : 0 < u) (h : u ≤ η) (h2 : 2 * u ≤ η ^ 2) :
    Accurate nanInt η (fixedPoint nanInt u) where
  zero := rfl
  one := rfl
  nan := rfl
  nanInt := rfl
  isnan _ := rfl
  add_nan x y hxy := by
    show rnd u (x + y) = _
    rcases hxy with rfl | rfl
    · rw [Fl.nan_add]; rfl
    · rw [Fl.add_nan]; rfl
  add x y _ _ := by
    obtain ⟨r, h1, h3⟩ := rnd_close hu (x + y)
    exact ⟨r, h1, h3.trans h⟩
  sub_nan x y hxy := by
    show rnd u (x - y) = _
    rcases hxy with rfl | rfl
    · rw [Fl.nan_sub]; rfl
    · rw [Fl.sub_nan]; rfl
  sub x y _ _ := by
    obtain ⟨r, h1, h3⟩ := rnd_close hu (x - y)
    exact ⟨r, h1, h3.trans h⟩
  gemm_nan S T i j l hl := by
    refine fold_nan _ (fun l => S i l * T l j) l ?_ _
    rcases hl with hl | hl <;> simp [hl]
  gemm := by
    intro m k n S T i j x y hk hxy
    obtain ⟨r, h1, h3⟩ := fold_close hu k (fun l => S i l * T l j) (fun l => x l * y l)
      fun l => by rw [(hxy l).1, (hxy l).2.1]; rfl
    refine ⟨r, h1, h3.trans ?_⟩
    rw [le_div_iff₀ hη] at hk
    nlinarith
  solve := by
    intro n k S T _ _ _ _ hdet
    have hd : S.det ≠ 0 := fun h0 => by rw [h0, abs_zero] at hdet; linarith
    have e1 : (finM S).map Fl.toReal = S := rfl
    have e2 : (finM T).map Fl.toReal = T := rfl
    refine ⟨fun i j => u * ⌊(S⁻¹ * T) i j / u⌋, ?_, fun i j => ?_⟩
    · show Option.map _ (@exactSolve ⟨nanInt, fun _ _ => none⟩ _ _ (finM S) (finM T)) = _
      simp only [exactSolve, e1, e2]
      rw [if_pos ⟨fun _ _ => rfl, fun _ _ => rfl⟩, if_neg hd]
      rfl
    · obtain ⟨r, h1, h3⟩ := rnd_close hu ((S⁻¹ * T) i j)
      have : r = u * ⌊(S⁻¹ * T) i j / u⌋ := by injection h1 with h1; exact h1.symm
      show |u * ⌊(S⁻¹ * T) i j / u⌋ - _| ≤ η
      rw [← this]; exact h3.trans h

end Ex
end KK
