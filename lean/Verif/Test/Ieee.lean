import Verif.Proofs.InfNoise
import Verif.Proofs.Rounding
import Verif.Test.Binary
import Verif.Test.QBackend

/-!
# Two arithmetics in which bad numbers absorb

The rational numbers with NaN of `Test/QBackend.lean`, and IEEE binary arithmetic with infinities.
-/

namespace KK

open Matrix

theorem Ex.lift2_none_left (f : ℚ → ℚ → ℚ) {a b : Ex.QN} (h : a = none) : Ex.lift2 f a b = none := by
  subst h; rfl

theorem Ex.lift2_none_right (f : ℚ → ℚ → ℚ) {a b : Ex.QN} (h : b = none) : Ex.lift2 f a b = none := by
  subst h; cases a <;> rfl

/-- NaN absorbs in the arithmetic of the examples. -/
theorem Ex.absorbing : Absorbing (F := Ex.QN) (· = none) := by
  have fold : ∀ {k : ℕ} (a b : Fin k → Ex.QN) (l : Fin k), (a l = none ∨ b l = none) → ∀ ls : List (Fin k), l ∈ ls →
      ls.foldr (fun l acc => Ex.lift2 (· + ·) (Ex.lift2 (· * ·) (a l) (b l)) acc) (some 0) = none := by
    intro k a b l h ls
    induction ls with
    | nil => simp
    | cons i ls ih =>
      intro hm
      simp only [List.foldr_cons]
      rcases List.mem_cons.1 hm with rfl | hm
      · refine Ex.lift2_none_left _ ?_
        rcases h with h | h
        · exact Ex.lift2_none_left _ h
        · exact Ex.lift2_none_right _ h
      · exact Ex.lift2_none_right _ (ih hm)
  refine ⟨fun _ _ h => Ex.lift2_none_left _ h, fun _ _ h => Ex.lift2_none_right _ h, fun _ _ h => Ex.lift2_none_left _ h,
    fun _ _ h => Ex.lift2_none_right _ h, fun A B i l j h => fold _ _ l (.inl h) _ (List.mem_finRange l),
    fun A B i l j h => fold _ _ l (.inr h) _ (List.mem_finRange l), ?_⟩
  intro n k S T X h hS j hT i
  match n, S, T, X, h, hS, hT, i with
  | 1, S, T, X, h, hS, hT, i =>
    have h' : Ex.qsolve S T = some X := h
    rw [Ex.qsolve, hS 0 0] at h'
    exact (congrFun (congrFun (Option.some.inj h') i) j).symm
  | 2, S, T, X, h, hS, hT, i =>
    have h' : Ex.qsolve S T = some X := h
    rw [Ex.qsolve, Ex.lift2_none_left _ (Ex.lift2_none_left _ (hS 0 0))] at h'
    exact (congrFun (congrFun (Option.some.inj h') i) j).symm
  | n + 3, S, T, X, h, hS, hT, i =>
    have h' : (none : Option (Matrix (Fin (n + 3)) (Fin k) Ex.QN)) = some X := h
    cases h'

/-- Overflow to the infinity with the right sign. -/
noncomputable def ieeeOf (fl : ℝ → Fl) (x : ℝ) : Ieee :=
  match fl x with
  | .fin y => .fin y
  | .nan => if 0 < x then .posInf else .negInf

theorem ieeeOf_fin {fl : ℝ → Fl} {x y : ℝ} (h : fl x = .fin y) : ieeeOf fl x = .fin y := by
  simp [ieeeOf, h]

theorem MonotoneRounding.ieee {fl : ℝ → Fl} (h : MonotoneRounding fl) : Ieee.Rounding (ieeeOf fl) where
  idem x y hxy := by
    unfold ieeeOf at hxy
    split at hxy
    · rename_i z hz
      simp only [Ieee.fin.injEq] at hxy
      subst hxy
      exact ieeeOf_fin (h.idem x z hz)
    · split_ifs at hxy
  zero := ieeeOf_fin h.zero
  one := ieeeOf_fin h.one

/-- Largest entry. -/
theorem exists_ieee_pivot (n : ℕ) (v : Fin (n + 1) → Ieee) : ∃ p, ∀ j, (v j).size ≤ (v p).size :=
  Finite.exists_max fun j => (v j).size

/-- IEEE binary floating point, with infinities; dot products by a naive loop, with fused multiply-add or not. -/
noncomputable def ieeeUnit (p : ℕ) (emin : ℤ) (M : ℝ) (fused : Bool) : IeeeUnit where
  rnd := ieeeOf (binary p emin M)
  order _ k _ _ _ := if fused then .loop 0 ((List.finRange k).map Fin.succ) else .chain 0 ((List.finRange k).map Fin.succ)
  pivot n v := Classical.choose (exists_ieee_pivot n v)
  fused := fused

theorem ieeeUnit_valid (p : ℕ) (emin : ℤ) (M : ℝ) (fused : Bool) : (ieeeUnit p emin M fused).Valid where
  order m k n i j := by
    have e : List.finRange (k + 1) = 0 :: (List.finRange k).map Fin.succ := List.finRange_succ
    rw [e]
    cases fused
    · exact SumTree.chain_indices _ _
    · exact .of_eq (SumTree.loop_indices _ _)
  pivot n v _ := Classical.choose_spec (exists_ieee_pivot n v)

theorem ieeeUnit_rounding {p : ℕ} {emin : ℤ} {M : ℝ} {fused : Bool} (hp : 0 < p) (he : emin ≤ 0) (hM : 1 ≤ M) (hb : IsBinary p emin M) :
    Ieee.Rounding (ieeeUnit p emin M fused).rnd :=
  ((binary_nearest hp hb).monotone hp he hM).ieee

end KK
