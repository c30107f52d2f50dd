import Verif.Spec.ExtTextbook

/-!
# An extended run in which some times have no measurement

At a time without measurement the belief is the predicted one.
-/

namespace KK

variable {n m : ℕ}

/-- The belief after a time step, with or without measurement. -/
noncomputable def ExtStep.after (s : ExtStep n m) (measured : Bool) (b : Belief n) : Belief n :=
  if measured then s.next b else s.predict b

/-- The beliefs of a run from time `k` on. -/
noncomputable def extPartly (seen : ℕ → Bool) : ℕ → Belief n → List (ExtStep n m) → List (Belief n)
  | _, _, [] => []
  | k, b, s :: ss => s.after (seen k) b :: extPartly seen (k + 1) (s.after (seen k) b) ss

/-- The gains of a run from time `k` on: those of the times with a measurement. -/
noncomputable def extPartlyGains (seen : ℕ → Bool) : ℕ → Belief n → List (ExtStep n m) → List (Matrix (Fin n) (Fin m) ℝ)
  | _, _, [] => []
  | k, b, s :: ss => (if seen k then [s.gain (s.predict b)] else []) ++ extPartlyGains seen (k + 1) (s.after (seen k) b) ss

/-- Every innovation covariance of a time with a measurement is invertible. -/
def ExtPartlySolvable (seen : ℕ → Bool) : ℕ → Belief n → List (ExtStep n m) → Prop
  | _, _, [] => True
  | k, b, s :: ss => (seen k = true → (s.innov (s.predict b)).det ≠ 0) ∧ ExtPartlySolvable seen (k + 1) (s.after (seen k) b) ss

end KK
