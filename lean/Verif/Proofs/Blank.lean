import Verif.Spec.Basic

/-! # `is_nan_all` recognises exactly the blank arrays -/

namespace KK

variable {F : Type} [Backend F]

/-- `is_nan_all` answers True exactly on blank arrays. -/
theorem Arr.isnanAll_iff_blank (a : Arr F) : a.isnanAll = true ↔ a.Blank := by
  have key : ∀ (d : DType) (x : F), Arr.isnanEntry d x = true ↔ d = .float64 ∧ Backend.isnan x = true := by
    intro d x; cases d <;> simp [Arr.isnanEntry]
  cases a with
  | scalar d x => exact key d x
  | vec d v => simp only [Arr.isnanAll, decide_eq_true_eq, Arr.Blank, key]
  | mat d M => simp only [Arr.isnanAll, decide_eq_true_eq, Arr.Blank, key]

theorem Arr.isnanAll_false_iff (a : Arr F) : a.isnanAll = false ↔ ¬ a.Blank := by
  rw [← Arr.isnanAll_iff_blank]; simp

theorem RowLayout.control' {n m : ℕ} {Ak Hk Bk uk zk Qk Rk : Arr F}
    (h : RowLayout n m Ak Hk Bk uk zk Qk Rk) :
    Bk.isnanAll = true ∨ uk.isnanAll = true ∨ ∃ p, Bk.shape = [n, p] ∧ uk.shape = [p] := by
  simpa only [Arr.isnanAll_iff_blank] using h.control

end KK
