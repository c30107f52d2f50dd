import Verif.Proofs.Batch

/-!
# C43, C44: the filter and the smoother solve the batch least-squares problem
-/

set_option linter.unusedSectionVars false

namespace KK

open Matrix

variable {n m : ℕ} [Platform]

/-- C43: with positive definite `Pk`, `Q`, `R`, `filter` returns, and its mean at every time `k` is the last state of
the trajectory that minimises, over all trajectories, the batch cost of the data up to and including time `k`; the
least cost is the sum of the normalised squared innovations. -/
theorem C43_filter_batch (kf : KalmanFilter Fl) (Z : NDArray Fl) (U : Option (NDArray Fl)) (b : Belief n)
    (ss : List (LinStep n m)) (h : Represents kf Z U b ss) (hP : b.P.PosDef) (hQ : ∀ s ∈ ss, s.Q.PosDef)
    (hR : ∀ s ∈ ss, s.R.PosDef) :
    ∃ xs Ps kf', (KalmanFilter.filter Z U).run kf = (.ok (xs, Ps), kf') ∧
      ∀ k < kf.steps Z U, ∃ (t : List (Fin n → ℝ)) (x : Fin n → ℝ),
        IsBatchMin b (ss.take (k + 1)) t ∧ t.getLast? = some x ∧ (∃ a, xs[k]? = some a ∧ VecIs x a) ∧
        batchCost b (ss.take (k + 1)) t = nis b (ss.take (k + 1)) := by
  have hpd : ∀ s ∈ ss, PdStep s := fun s hs => ⟨(hQ s hs).posSemidef, hR s hs, .inr (hQ s hs)⟩
  refine ⟨_, _, _, h.returns (solvable_pd b ss hP hpd), fun k hk => ?_⟩
  rw [← h.len] at hk
  have hsub : ∀ s ∈ ss.take (k + 1), s ∈ ss := fun s hs => List.mem_of_mem_take hs
  obtain ⟨h1, h2⟩ := isBatchMin_rts hP (fun s hs => hQ s (hsub s hs)) (fun s hs => hR s (hsub s hs))
  refine ⟨_, (lastOf b (ss.take (k + 1))).x, h1, by rw [List.getLast?_map, rts_last]; rfl,
    ⟨stateRow (lastOf b (ss.take (k + 1))), ?_, ⟨_, rfl⟩⟩, h2⟩
  rw [List.getElem?_append_left (by rw [List.length_map, filtered_length]; exact hk), List.getElem?_map,
    filtered_get b ss k hk]
  rfl

/-- C44: with positive definite `Pk`, `Q`, `R` and full-length parameter sequences, `smooth` returns, and its means,
preceded by some estimate of the state before the first step, are exactly the unique trajectory of least batch cost
for the whole data. -/
theorem C44_smooth_batch (kf : KalmanFilter Fl) (Z : NDArray Fl) (U : Option (NDArray Fl)) (b : Belief n)
    (ss : List (LinStep n m)) (h : Represents kf Z U b ss) (hfull : ss.length = Z.rows.length) (hne : ss ≠ [])
    (hP : b.P.PosDef) (hQ : ∀ s ∈ ss, s.Q.PosDef) (hR : ∀ s ∈ ss, s.R.PosDef) :
    ∃ xs Ps kf', (KalmanFilter.smooth Z U).run kf = (.ok (xs, Ps), kf') ∧
      ∃ (x₀ : Fin n → ℝ) (t : List (Fin n → ℝ)), IsBatchMin b ss (x₀ :: t) ∧ List.Forall₂ VecIs t xs := by
  have hpd : ∀ s ∈ ss, PdStep s := fun s hs => ⟨(hQ s hs).posSemidef, hR s hs, .inr (hQ s hs)⟩
  refine ⟨_, _, _, h.smoothReturns hfull hne (solvable_pd b ss hP hpd) (smoothSolvable_pd b ss hP hpd), ?_⟩
  cases ss with
  | nil => exact absurd rfl hne
  | cons s ss =>
    have h1 := (isBatchMin_rts hP hQ hR).1
    rw [rts] at h1
    rcases hr : rts (s.next b) ss with _ | ⟨q, qs⟩
    · have := rts_length (s.next b) ss; rw [hr] at this; simp at this
    · rw [hr] at h1
      refine ⟨(rtsStep b s q).x, (q :: qs).map (fun a : Belief n => a.x), h1, ?_⟩
      rw [smoothed, hr]
      rw [List.forall₂_map_left_iff, List.forall₂_map_right_iff, List.forall₂_same]
      exact fun q _ => ⟨_, rfl⟩

/-! ### Hypotheses are met: the constant-velocity model on arbitrary non-empty data -/

example (uz : List (ℝ × ℝ)) (h : uz ≠ []) : Represents (Ex.encode Ex.cvBelief (Ex.cvSteps uz))
      (Ex.encZ (Ex.cvSteps uz)) (some (Ex.encU (Ex.cvSteps uz))) Ex.cvBelief (Ex.cvSteps uz) ∧
    (Ex.cvSteps uz).length = (Ex.encZ (Ex.cvSteps uz)).rows.length ∧ Ex.cvSteps uz ≠ [] ∧
    Ex.cvBelief.P.PosDef ∧ (∀ s ∈ Ex.cvSteps uz, s.Q.PosDef) ∧ ∀ s ∈ Ex.cvSteps uz, s.R.PosDef := by
  refine ⟨Ex.encode_represents _ _, (Ex.encZ_length _).symm, by simpa [Ex.cvSteps] using h, Ex.cv_posDef, ?_, ?_⟩ <;>
  · intro s hs
    simp only [Ex.cvSteps, List.mem_map] at hs
    obtain ⟨p, -, rfl⟩ := hs
    first | exact Ex.cvStep_Q _ _ | exact Ex.cvStep_R _ _

end KK
