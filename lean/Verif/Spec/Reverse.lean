import Verif.Spec.Textbook

/-!
# The same random process, with time running backwards

A linear model says how a state follows from the previous one.  The states of the same process can also be described from the
last to the first: each earlier state is a regression on the later one, plus noise.  Nothing here mentions the code, or data:
the regression is determined by the means and covariances that the model implies before anything is measured.
-/

namespace KK

open Matrix

variable {n m : ℕ}

/-- Means and covariances of the states at the times of the steps, before any data (`b`: before the first step). -/
noncomputable def implied : Belief n → List (LinStep n m) → List (Belief n)
  | _, [] => []
  | b, s :: ss => s.predict b :: implied (s.predict b) ss

/-- `t` leads from a state `x`, of mean and covariance `p`, to `y = t.A x + t.c + noise`.  Read backwards, `r` leads from `y` to
`x`: it has the covariance of `x` and `y` right, namely `r.A · cov y = cov (x, y) = p.P · t.A'`, and it gives `x` the mean and
the covariance of `p`. -/
def ReadBack (p : Belief n) (t r : LinStep n m) : Prop :=
  r.A * (t.predict p).P = p.P * t.Aᵀ ∧ r.predict (t.predict p) = p

/-- `b'` and `ss'` describe the process of `b` and `ss` from its last state to its first, with the same data in reverse order. -/
structure Reversed (b : Belief n) (ss : List (LinStep n m)) (b' : Belief n) (ss' : List (LinStep n m)) : Prop where
  length : ss'.length = ss.length
  /-- at corresponding times the same is measured -/
  data : ∀ i j s r, i + j + 1 = ss.length → ss[i]? = some s → ss'[j]? = some r → r.H = s.H ∧ r.R = s.R ∧ r.z = s.z
  /-- the reversed process starts where the process ends -/
  start : ∀ p r, (implied b ss).getLast? = some p → ss'.head? = some r → r.predict b' = p
  /-- and goes back step by step -/
  step : ∀ i j p t r, i + j + 1 = ss.length → (implied b ss)[i]? = some p → ss[i + 1]? = some t → ss'[j]? = some r →
    ReadBack p t r

end KK
