import Verif.Props.Subsystems
import Verif.Proofs.ExtTransfer
import Verif.Props.Examples
import Verif.Test.ExtEncode

/-!
# C115: independent nonlinear systems may be filtered together or separately
-/

set_option linter.unusedSectionVars false

namespace KK

open Matrix

variable {n₁ n₂ m₁ m₂ : ℕ}

theorem ext_join_lin (s₁ : ExtStep n₁ m₁) (s₂ : ExtStep n₂ m₂) (b₁ : Belief n₁) (b₂ : Belief n₂) :
    (s₁.join s₂).lin (b₁.join b₂) = (s₁.lin b₁).join (s₂.lin b₂) := by
  simp only [ExtStep.lin, ExtStep.join, LinStep.join, Belief.join, Fin.append_left, Fin.append_right, blk_mulVec,
    append_sub, append_add]

theorem ext_join_next {s₁ : ExtStep n₁ m₁} {s₂ : ExtStep n₂ m₂} {b₁ : Belief n₁} {b₂ : Belief n₂}
    (h₁ : (s₁.innov (s₁.predict b₁)).det ≠ 0) (h₂ : (s₂.innov (s₂.predict b₂)).det ≠ 0) :
    (s₁.join s₂).next (b₁.join b₂) = (s₁.next b₁).join (s₂.next b₂) := by
  rw [← ExtStep.lin_next, ext_join_lin, join_next, s₁.lin_next, s₂.lin_next]
  · rwa [s₁.lin_predict, s₁.lin_innov]
  · rwa [s₂.lin_predict, s₂.lin_innov]

theorem ext_join_linRun (b₁ : Belief n₁) (b₂ : Belief n₂) (ss₁ : List (ExtStep n₁ m₁)) (ss₂ : List (ExtStep n₂ m₂))
    (hl : ss₁.length = ss₂.length) (h₁ : ExtSolvable b₁ ss₁) (h₂ : ExtSolvable b₂ ss₂) :
    linRun (b₁.join b₂) (List.zipWith ExtStep.join ss₁ ss₂) = List.zipWith LinStep.join (linRun b₁ ss₁) (linRun b₂ ss₂) := by
  induction ss₁ generalizing ss₂ b₁ b₂ with
  | nil => cases ss₂ <;> simp_all [linRun]
  | cons s₁ ss₁ ih =>
    cases ss₂ with
    | nil => simp at hl
    | cons s₂ ss₂ =>
      obtain ⟨d₁, h₁⟩ := h₁
      obtain ⟨d₂, h₂⟩ := h₂
      rw [List.zipWith_cons_cons, linRun, linRun, linRun, ext_join_next d₁ d₂, ih _ _ _ (by simpa using hl) h₁ h₂, ext_join_lin,
        List.zipWith_cons_cons]

theorem ext_join_solvable (b₁ : Belief n₁) (b₂ : Belief n₂) (ss₁ : List (ExtStep n₁ m₁)) (ss₂ : List (ExtStep n₂ m₂))
    (hl : ss₁.length = ss₂.length) :
    ExtSolvable (b₁.join b₂) (List.zipWith ExtStep.join ss₁ ss₂) ↔ ExtSolvable b₁ ss₁ ∧ ExtSolvable b₂ ss₂ := by
  induction ss₁ generalizing ss₂ b₁ b₂ with
  | nil => cases ss₂ <;> simp_all [ExtSolvable]
  | cons s₁ ss₁ ih =>
    cases ss₂ with
    | nil => simp at hl
    | cons s₂ ss₂ =>
      have e : ((s₁.join s₂).innov ((s₁.join s₂).predict (b₁.join b₂))).det ≠ 0 ↔
          (s₁.innov (s₁.predict b₁)).det ≠ 0 ∧ (s₂.innov (s₂.predict b₂)).det ≠ 0 := by
        rw [← ExtStep.lin_innov, ← ExtStep.lin_predict, ext_join_lin, join_predict, join_innov, blk_det, mul_ne_zero_iff,
          s₁.lin_predict, s₂.lin_predict, s₁.lin_innov, s₂.lin_innov]
      rw [List.zipWith_cons_cons, ExtSolvable, ExtSolvable, ExtSolvable, e]
      constructor
      · rintro ⟨⟨h1, h2⟩, h3⟩
        rw [ext_join_next h1 h2, ih _ _ _ (by simpa using hl)] at h3
        exact ⟨⟨h1, h3.1⟩, h2, h3.2⟩
      · rintro ⟨⟨h1, h3⟩, h2, h4⟩
        refine ⟨⟨h1, h2⟩, ?_⟩
        rw [ext_join_next h1 h2, ih _ _ _ (by simpa using hl)]
        exact ⟨h3, h4⟩

theorem join_smoothSolvable (b₁ : Belief n₁) (b₂ : Belief n₂) (ss₁ : List (LinStep n₁ m₁)) (ss₂ : List (LinStep n₂ m₂))
    (hl : ss₁.length = ss₂.length) (h₁ : Solvable b₁ ss₁) (h₂ : Solvable b₂ ss₂) :
    SmoothSolvable (b₁.join b₂) (List.zipWith LinStep.join ss₁ ss₂) ↔ SmoothSolvable b₁ ss₁ ∧ SmoothSolvable b₂ ss₂ := by
  cases ss₁ with
  | nil => cases ss₂ <;> simp_all [SmoothSolvable]
  | cons s₁ ss₁ =>
    cases ss₂ with
    | nil => simp at hl
    | cons s₂ ss₂ =>
      rw [List.zipWith_cons_cons, SmoothSolvable, SmoothSolvable, SmoothSolvable, join_next h₁.1 h₂.1]
      exact join_rtsSolvable _ _ _ _ (by simpa using hl) h₁.2 h₂.2

theorem join_smoothed (b₁ : Belief n₁) (b₂ : Belief n₂) (ss₁ : List (LinStep n₁ m₁)) (ss₂ : List (LinStep n₂ m₂))
    (hl : ss₁.length = ss₂.length) (h₁ : Solvable b₁ ss₁) (h₂ : Solvable b₂ ss₂) (r₁ : SmoothSolvable b₁ ss₁)
    (r₂ : SmoothSolvable b₂ ss₂) :
    smoothed (b₁.join b₂) (List.zipWith LinStep.join ss₁ ss₂) =
      List.zipWith Belief.join (smoothed b₁ ss₁) (smoothed b₂ ss₂) := by
  cases ss₁ with
  | nil => cases ss₂ <;> simp_all [smoothed]
  | cons s₁ ss₁ =>
    cases ss₂ with
    | nil => simp at hl
    | cons s₂ ss₂ =>
      rw [List.zipWith_cons_cons, smoothed, join_next h₁.1 h₂.1]
      exact join_rts _ _ _ _ (by simpa using hl) h₁.2 h₂.2 r₁ r₂

variable [Platform]

/-- C115: two calls of the extended filter that represent systems 1 and 2 over the same number of steps, and a call that
represents the joint system.  The joint `filter` raises LinAlgError exactly if one of the separate ones does.  Otherwise its
means are the concatenated means, its covariances and gains are block diagonal with the separate ones as blocks. -/
theorem C115_filter_subsystems (kf : ExtendedKalmanFilter Fl) (Z : NDArray Fl) (U : Option (NDArray Fl))
    (kf₁ : ExtendedKalmanFilter Fl) (Z₁ : NDArray Fl) (U₁ : Option (NDArray Fl))
    (kf₂ : ExtendedKalmanFilter Fl) (Z₂ : NDArray Fl) (U₂ : Option (NDArray Fl))
    (b₁ : Belief n₁) (b₂ : Belief n₂) (ss₁ : List (ExtStep n₁ m₁)) (ss₂ : List (ExtStep n₂ m₂))
    (hl : ss₁.length = ss₂.length) (h₁ : ExtRepresents kf₁ Z₁ U₁ b₁ ss₁) (h₂ : ExtRepresents kf₂ Z₂ U₂ b₂ ss₂)
    (h : ExtRepresents kf Z U (b₁.join b₂) (List.zipWith ExtStep.join ss₁ ss₂)) :
    ((ExtFilterSingular kf₁ Z₁ U₁ ∨ ExtFilterSingular kf₂ Z₂ U₂) ∧ ExtFilterSingular kf Z U) ∨
    ∃ (bs₁ : List (Belief n₁)) (bs₂ : List (Belief n₂)) (Ks₁ : List (Matrix (Fin n₁) (Fin m₁) ℝ))
      (Ks₂ : List (Matrix (Fin n₂) (Fin m₂) ℝ)), bs₁.length = ss₁.length ∧ bs₂.length = ss₁.length ∧
      ExtFilterReturns kf₁ Z₁ U₁ bs₁ Ks₁ ∧ ExtFilterReturns kf₂ Z₂ U₂ bs₂ Ks₂ ∧
      ExtFilterReturns kf Z U (List.zipWith Belief.join bs₁ bs₂) (List.zipWith blk Ks₁ Ks₂) := by
  have key := ext_join_solvable b₁ b₂ ss₁ ss₂ hl
  by_cases d₁ : ExtSolvable b₁ ss₁
  · by_cases d₂ : ExtSolvable b₂ ss₂
    · refine .inr ⟨_, _, _, _, extFiltered_length _ _, by rw [extFiltered_length, hl], h₁.returns d₁, h₂.returns d₂, ?_⟩
      obtain ⟨e1, e2⟩ := join_filtered b₁ b₂ (linRun b₁ ss₁) (linRun b₂ ss₂) (by simpa [linRun_length] using hl)
        ((extSolvable_iff _ _).1 d₁) ((extSolvable_iff _ _).1 d₂)
      rw [← ext_join_linRun b₁ b₂ ss₁ ss₂ hl d₁ d₂] at e1 e2
      rw [extFiltered_eq, extFiltered_eq, extGainsOf_eq, extGainsOf_eq, ← e1, ← e2, ← extFiltered_eq, ← extGainsOf_eq]
      exact h.returns (key.2 ⟨d₁, d₂⟩)
    · exact .inl ⟨.inr (h₂.singular d₂), h.singular fun hs => d₂ (key.1 hs).2⟩
  · exact .inl ⟨.inl (h₁.singular d₁), h.singular fun hs => d₁ (key.1 hs).1⟩

/-- C115 for `smooth`. -/
theorem C115_smooth_subsystems (kf : ExtendedKalmanFilter Fl) (Z : NDArray Fl) (U : Option (NDArray Fl))
    (kf₁ : ExtendedKalmanFilter Fl) (Z₁ : NDArray Fl) (U₁ : Option (NDArray Fl))
    (kf₂ : ExtendedKalmanFilter Fl) (Z₂ : NDArray Fl) (U₂ : Option (NDArray Fl))
    (b₁ : Belief n₁) (b₂ : Belief n₂) (ss₁ : List (ExtStep n₁ m₁)) (ss₂ : List (ExtStep n₂ m₂))
    (hl : ss₁.length = ss₂.length) (h₁ : ExtRepresents kf₁ Z₁ U₁ b₁ ss₁) (h₂ : ExtRepresents kf₂ Z₂ U₂ b₂ ss₂)
    (h : ExtRepresents kf Z U (b₁.join b₂) (List.zipWith ExtStep.join ss₁ ss₂)) (hne : ss₁ ≠ [])
    (f₁ : ss₁.length = Z₁.rows.length) (f₂ : ss₁.length = Z₂.rows.length) (f : ss₁.length = Z.rows.length) :
    ((ExtSmoothSingular kf₁ Z₁ U₁ ∨ ExtSmoothSingular kf₂ Z₂ U₂) ∧ ExtSmoothSingular kf Z U) ∨
    ∃ (bs₁ : List (Belief n₁)) (bs₂ : List (Belief n₂)) (Ks₁ : List (Matrix (Fin n₁) (Fin m₁) ℝ))
      (Ks₂ : List (Matrix (Fin n₂) (Fin m₂) ℝ)), bs₁.length = ss₁.length ∧ bs₂.length = ss₁.length ∧
      ExtSmoothReturns kf₁ Z₁ U₁ bs₁ Ks₁ ∧ ExtSmoothReturns kf₂ Z₂ U₂ bs₂ Ks₂ ∧
      ExtSmoothReturns kf Z U (List.zipWith Belief.join bs₁ bs₂) (List.zipWith blk Ks₁ Ks₂) := by
  have key := ext_join_solvable b₁ b₂ ss₁ ss₂ hl
  have hl' : (linRun b₁ ss₁).length = (linRun b₂ ss₂).length := by simpa [linRun_length] using hl
  have hne₂ : ss₂ ≠ [] := by
    rintro rfl
    exact hne (List.eq_nil_of_length_eq_zero hl)
  have hz : List.zipWith ExtStep.join ss₁ ss₂ ≠ [] := by
    rw [Ne, List.zipWith_eq_nil_iff]
    tauto
  have hzl : (List.zipWith ExtStep.join ss₁ ss₂).length = Z.rows.length := by
    rw [List.length_zipWith, ← hl, Nat.min_self, f]
  have ks : ExtSolvable b₁ ss₁ → ExtSolvable b₂ ss₂ →
      (ExtSmoothSolvable (b₁.join b₂) (List.zipWith ExtStep.join ss₁ ss₂) ↔
        ExtSmoothSolvable b₁ ss₁ ∧ ExtSmoothSolvable b₂ ss₂) := fun d₁ d₂ => by
    rw [extSmoothSolvable_iff, extSmoothSolvable_iff, extSmoothSolvable_iff, ext_join_linRun b₁ b₂ ss₁ ss₂ hl d₁ d₂]
    exact join_smoothSolvable _ _ _ _ hl' ((extSolvable_iff _ _).1 d₁) ((extSolvable_iff _ _).1 d₂)
  by_cases d₁ : ExtSolvable b₁ ss₁ ∧ ExtSmoothSolvable b₁ ss₁
  · by_cases d₂ : ExtSolvable b₂ ss₂ ∧ ExtSmoothSolvable b₂ ss₂
    · refine .inr ⟨_, _, _, _, extSmoothed_length _ _, by rw [extSmoothed_length, hl], h₁.smoothReturns f₁ hne d₁.1 d₁.2,
        h₂.smoothReturns (hl.symm.trans f₂) hne₂ d₂.1 d₂.2, ?_⟩
      have el := ext_join_linRun b₁ b₂ ss₁ ss₂ hl d₁.1 d₂.1
      have v₁ := (extSolvable_iff _ _).1 d₁.1
      have v₂ := (extSolvable_iff _ _).1 d₂.1
      obtain ⟨-, e2⟩ := join_filtered b₁ b₂ _ _ hl' v₁ v₂
      have e1 := join_smoothed b₁ b₂ _ _ hl' v₁ v₂ ((extSmoothSolvable_iff _ _).1 d₁.2) ((extSmoothSolvable_iff _ _).1 d₂.2)
      rw [← el] at e1 e2
      rw [extSmoothed_eq, extSmoothed_eq, extGainsOf_eq, extGainsOf_eq, ← e1, ← e2, ← extSmoothed_eq, ← extGainsOf_eq]
      exact h.smoothReturns hzl hz (key.2 ⟨d₁.1, d₂.1⟩) ((ks d₁.1 d₂.1).2 ⟨d₁.2, d₂.2⟩)
    · refine .inl ⟨.inr (h₂.smoothSingular (hl.symm.trans f₂) hne₂ d₂), h.smoothSingular hzl hz ?_⟩
      rintro ⟨a1, a2⟩
      exact d₂ ⟨(key.1 a1).2, ((ks (key.1 a1).1 (key.1 a1).2).1 a2).2⟩
  · refine .inl ⟨.inl (h₁.smoothSingular f₁ hne d₁), h.smoothSingular hzl hz ?_⟩
    rintro ⟨a1, a2⟩
    exact d₁ ⟨(key.1 a1).1, ((ks (key.1 a1).1 (key.1 a1).2).1 a2).1⟩

-- C115: two pendulums of different lengths, observed separately or together, on any data.
example (p a0 a1 c0 c1 : ℝ) (hp : 0 < p) (zs : List (ℝ × ℝ)) :
    (∃ kf Z, ExtRepresents kf Z none (Examples.pendBelief p a0 a1)
      (zs.map fun z => Examples.pendStep 0.01 9.81 0.01 0.1 z.1)) ∧
    (∃ kf Z, ExtRepresents kf Z none (Examples.pendBelief p c0 c1)
      (zs.map fun z => Examples.pendStep 0.01 4.9 0.01 0.1 z.2)) ∧
    (∃ kf Z U, ExtRepresents kf Z U ((Examples.pendBelief p a0 a1).join (Examples.pendBelief p c0 c1))
      (List.zipWith ExtStep.join (zs.map fun z => Examples.pendStep 0.01 9.81 0.01 0.1 z.1)
        (zs.map fun z => Examples.pendStep 0.01 4.9 0.01 0.1 z.2))) ∧
    ExtSolvable (Examples.pendBelief p a0 a1) (zs.map fun z => Examples.pendStep 0.01 9.81 0.01 0.1 z.1) ∧
    ExtSolvable (Examples.pendBelief p c0 c1) (zs.map fun z => Examples.pendStep 0.01 4.9 0.01 0.1 z.2) := by
  refine ⟨?_, ?_, ?_, ?_, ?_⟩
  · obtain ⟨kf, -, h⟩ := Examples.pendulum_represents 0.01 9.81 0.01 p 0.1 a0 a1 .float64 (zs.map Prod.fst)
    rw [List.map_map] at h
    exact ⟨kf, _, h⟩
  · obtain ⟨kf, -, h⟩ := Examples.pendulum_represents 0.01 4.9 0.01 p 0.1 c0 c1 .float64 (zs.map Prod.snd)
    rw [List.map_map] at h
    exact ⟨kf, _, h⟩
  · have := Ex.ext_exists ((Examples.pendStep 0.01 9.81 0.01 0.1 0).join (Examples.pendStep 0.01 4.9 0.01 0.1 0))
      ((Examples.pendBelief p a0 a1).join (Examples.pendBelief p c0 c1))
      (List.zipWith ExtStep.join (zs.map fun z => Examples.pendStep 0.01 9.81 0.01 0.1 z.1)
        (zs.map fun z => Examples.pendStep 0.01 4.9 0.01 0.1 z.2)) ?_
    · exact this
    · intro s hs
      rw [List.zipWith_map, List.mem_iff_getElem] at hs
      obtain ⟨i, hi, rfl⟩ := hs
      rw [List.getElem_zipWith]
      exact ⟨rfl, rfl, rfl, rfl⟩
  all_goals
    refine extSolvable_psd (Examples.pendBelief_posDef hp _ _).posSemidef (fun s hs => ?_) (fun s hs => ?_) <;>
      obtain ⟨z, -, rfl⟩ := List.mem_map.1 hs
    · exact (Examples.pendQ_posDef (by norm_num) (by norm_num) _ _ _).posSemidef
    · exact posDef_one (by norm_num)

end KK
