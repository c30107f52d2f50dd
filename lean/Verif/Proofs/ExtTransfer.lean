import Verif.Spec.ExtReturns
import Verif.Props.ExtExact
import Verif.Props.Equivariance

/-!
# Relating two runs of the extended filter
-/

set_option linter.unusedSectionVars false

namespace KK

open Matrix

variable {n m n' m' : ℕ}

section api
variable [Platform] {kf : ExtendedKalmanFilter Fl} {Z : NDArray Fl} {U : Option (NDArray Fl)} {b : Belief n}
  {ss : List (ExtStep n m)}

theorem extSmoothed_length (b : Belief n) (ss : List (ExtStep n m)) : (extSmoothed b ss).length = ss.length := by
  rw [extSmoothed_eq, smoothed_length, linRun_length]

theorem ExtRepresents.returns (h : ExtRepresents kf Z U b ss) (hs : ExtSolvable b ss) :
    ExtFilterReturns kf Z U (extFiltered b ss) (extGainsOf b ss) := by
  have := C51_filter_textbook kf Z U b ss h hs
  rw [ExtFilterReturns, extFiltered_length]
  exact this

theorem ExtRepresents.singular (h : ExtRepresents kf Z U b ss) (hs : ¬ ExtSolvable b ss) : ExtFilterSingular kf Z U := by
  rcases extSolvable_or b ss with h' | ⟨k, -, h4, h5⟩
  · exact absurd h' hs
  · exact ⟨_, (C51_filter_linalgerror kf Z U b ss h).2 k h4 h5⟩

theorem ExtRepresents.smoothReturns (h : ExtRepresents kf Z U b ss) (hfull : ss.length = Z.rows.length)
    (hne : ss ≠ []) (hs : ExtSolvable b ss) (hsm : ExtSmoothSolvable b ss) :
    ExtSmoothReturns kf Z U (extSmoothed b ss) (extGainsOf b ss) :=
  (C51_smooth_textbook kf Z U b ss h hfull hne).1 hs hsm

theorem ExtRepresents.smoothSingular (h : ExtRepresents kf Z U b ss) (hfull : ss.length = Z.rows.length)
    (hne : ss ≠ []) (hs : ¬ (ExtSolvable b ss ∧ ExtSmoothSolvable b ss)) : ExtSmoothSingular kf Z U :=
  (C51_smooth_textbook kf Z U b ss h hfull hne).2 hs

end api

/-- `χ` maps nonlinear steps as `ψ` maps their linearisations. -/
def LinMap (φ : Belief n → Belief n') (ψ : LinStep n m → LinStep n' m') (χ : ExtStep n m → ExtStep n' m') : Prop :=
  ∀ s b, (χ s).lin (φ b) = ψ (s.lin b)

theorem StepMap.comp {n₁ m₁ n₂ m₂ n₃ m₃ : ℕ} {φ : Belief n₁ → Belief n₂} {ψ : LinStep n₁ m₁ → LinStep n₂ m₂}
    {γ : Matrix (Fin n₁) (Fin m₁) ℝ → Matrix (Fin n₂) (Fin m₂) ℝ} {φ' : Belief n₂ → Belief n₃}
    {ψ' : LinStep n₂ m₂ → LinStep n₃ m₃} {γ' : Matrix (Fin n₂) (Fin m₂) ℝ → Matrix (Fin n₃) (Fin m₃) ℝ}
    (h' : StepMap φ' ψ' γ' (fun _ => True)) (h : StepMap φ ψ γ (fun _ => True)) :
    StepMap (φ' ∘ φ) (ψ' ∘ ψ) (γ' ∘ γ) (fun _ => True) where
  predict s b _ := by simp only [Function.comp, h'.predict _ _ trivial, h.predict _ _ trivial]
  innov s p _ := (h'.innov _ _ trivial).trans (h.innov _ _ trivial)
  gain s p _ hd := by
    simp only [Function.comp, h'.gain _ _ trivial ((h.innov s p trivial).2 hd), h.gain _ _ trivial hd]
  update s p _ hd := by
    simp only [Function.comp, h'.update _ _ trivial ((h.innov s p trivial).2 hd), h.update _ _ trivial hd]
  pdet p := (h'.pdet _).trans (h.pdet p)
  rts s b q _ hd := by
    have : ((ψ s).predict (φ b)).P.det ≠ 0 := by rw [h.predict _ _ trivial]; exact (h.pdet _).2 hd
    simp only [Function.comp, h'.rts _ _ _ trivial this, h.rts _ _ _ trivial hd]

theorem LinMap.comp {n₁ m₁ n₂ m₂ n₃ m₃ : ℕ} {φ : Belief n₁ → Belief n₂} {ψ : LinStep n₁ m₁ → LinStep n₂ m₂}
    {χ : ExtStep n₁ m₁ → ExtStep n₂ m₂} {φ' : Belief n₂ → Belief n₃} {ψ' : LinStep n₂ m₂ → LinStep n₃ m₃}
    {χ' : ExtStep n₂ m₂ → ExtStep n₃ m₃} (h' : LinMap φ' ψ' χ') (h : LinMap φ ψ χ) :
    LinMap (φ' ∘ φ) (ψ' ∘ ψ) (χ' ∘ χ) := fun s b => by
  rw [Function.comp, Function.comp, Function.comp, h', h]

namespace StepMap

variable {φ : Belief n → Belief n'} {ψ : LinStep n m → LinStep n' m'}
  {γ : Matrix (Fin n) (Fin m) ℝ → Matrix (Fin n') (Fin m') ℝ} {χ : ExtStep n m → ExtStep n' m'}

theorem extNext (h : StepMap φ ψ γ (fun _ => True)) (hl : LinMap φ ψ χ) {s : ExtStep n m} {b : Belief n}
    (hd : (s.innov (s.predict b)).det ≠ 0) : (χ s).next (φ b) = φ (s.next b) := by
  rw [← (χ s).lin_next, hl, h.next trivial, s.lin_next]
  rwa [s.lin_predict, s.lin_innov]

theorem linRun_take_solvable (h : StepMap φ ψ γ (fun _ => True)) (hl : LinMap φ ψ χ) (b : Belief n)
    (ss : List (ExtStep n m)) (hs : ExtSolvable b ss) : linRun (φ b) (ss.map χ) = (linRun b ss).map ψ := by
  induction ss generalizing b with
  | nil => rfl
  | cons s ss ih =>
    obtain ⟨hd, hs⟩ := hs
    rw [List.map_cons, linRun, linRun, h.extNext hl hd, ih _ hs, hl, List.map_cons]

theorem extSolvable (h : StepMap φ ψ γ (fun _ => True)) (hl : LinMap φ ψ χ) (b : Belief n) (ss : List (ExtStep n m)) :
    ExtSolvable (φ b) (ss.map χ) ↔ ExtSolvable b ss := by
  induction ss generalizing b with
  | nil => exact Iff.rfl
  | cons s ss ih =>
    have e : ((χ s).innov ((χ s).predict (φ b))).det ≠ 0 ↔ (s.innov (s.predict b)).det ≠ 0 := by
      rw [← (χ s).lin_innov, ← (χ s).lin_predict, hl, h.predict _ _ trivial, h.innov _ _ trivial, s.lin_predict, s.lin_innov]
    rw [List.map_cons, ExtSolvable, ExtSolvable, e]
    refine and_congr_right fun hd => ?_
    rw [h.extNext hl hd]
    exact ih _

variable [Platform] {kf kf' : ExtendedKalmanFilter Fl} {Z Z' : NDArray Fl} {U U' : Option (NDArray Fl)}
  {b : Belief n} {ss : List (ExtStep n m)}

theorem extRuns (h : StepMap φ ψ γ (fun _ => True)) (hl : LinMap φ ψ χ) (h1 : ExtRepresents kf Z U b ss)
    (h2 : ExtRepresents kf' Z' U' (φ b) (ss.map χ)) :
    (ExtFilterSingular kf Z U ∧ ExtFilterSingular kf' Z' U') ∨
    ∃ (bs : List (Belief n)) (Ks : List (Matrix (Fin n) (Fin m) ℝ)), bs.length = ss.length ∧
      ExtFilterReturns kf Z U bs Ks ∧ ExtFilterReturns kf' Z' U' (bs.map φ) (Ks.map γ) := by
  by_cases hs : ExtSolvable b ss
  · refine .inr ⟨extFiltered b ss, extGainsOf b ss, extFiltered_length _ _, h1.returns hs, ?_⟩
    have e := h.linRun_take_solvable hl b ss hs
    have hf := h.filtered b (linRun b ss) (fun _ _ => trivial) ((extSolvable_iff _ _).1 hs)
    rw [← e, ← extFiltered_eq, ← extFiltered_eq, ← extGainsOf_eq, ← extGainsOf_eq] at hf
    rw [← hf.1, ← hf.2]
    exact h2.returns ((h.extSolvable hl b ss).2 hs)
  · exact .inl ⟨h1.singular hs, h2.singular fun hs' => hs ((h.extSolvable hl b ss).1 hs')⟩

theorem extSmoothRuns (h : StepMap φ ψ γ (fun _ => True)) (hl : LinMap φ ψ χ) (h1 : ExtRepresents kf Z U b ss)
    (h2 : ExtRepresents kf' Z' U' (φ b) (ss.map χ)) (hne : ss ≠ []) (hf : ss.length = Z.rows.length)
    (hf' : ss.length = Z'.rows.length) :
    (ExtSmoothSingular kf Z U ∧ ExtSmoothSingular kf' Z' U') ∨
    ∃ (bs : List (Belief n)) (Ks : List (Matrix (Fin n) (Fin m) ℝ)), bs.length = ss.length ∧
      ExtSmoothReturns kf Z U bs Ks ∧ ExtSmoothReturns kf' Z' U' (bs.map φ) (Ks.map γ) := by
  have hne' : ss.map χ ≠ [] := by simpa using hne
  have hfm : (ss.map χ).length = Z'.rows.length := by simpa using hf'
  have hsmi : ExtSolvable b ss → (ExtSmoothSolvable (φ b) (ss.map χ) ↔ ExtSmoothSolvable b ss) := fun hs => by
    rw [extSmoothSolvable_iff, extSmoothSolvable_iff, h.linRun_take_solvable hl b ss hs]
    exact h.smoothSolvable b _ (fun _ _ => trivial) ((extSolvable_iff _ _).1 hs)
  by_cases hs : ExtSolvable b ss ∧ ExtSmoothSolvable b ss
  · refine .inr ⟨extSmoothed b ss, extGainsOf b ss, extSmoothed_length _ _, h1.smoothReturns hf hne hs.1 hs.2, ?_⟩
    have e := h.linRun_take_solvable hl b ss hs.1
    have h3 := h.filtered b (linRun b ss) (fun _ _ => trivial) ((extSolvable_iff _ _).1 hs.1)
    have h4 := h.smoothed b (linRun b ss) (fun _ _ => trivial) ((extSolvable_iff _ _).1 hs.1)
      ((extSmoothSolvable_iff _ _).1 hs.2)
    rw [← e, ← extGainsOf_eq, ← extGainsOf_eq] at h3
    rw [← e, ← extSmoothed_eq, ← extSmoothed_eq] at h4
    rw [← h3.2, ← h4]
    exact h2.smoothReturns hfm hne' ((h.extSolvable hl b ss).2 hs.1) ((hsmi hs.1).2 hs.2)
  · refine .inl ⟨h1.smoothSingular hf hne hs, h2.smoothSingular hfm hne' fun hs' => hs ?_⟩
    have := (h.extSolvable hl b ss).1 hs'.1
    exact ⟨this, (hsmi this).1 hs'.2⟩

end StepMap

/-! ### a shift of the origin -/

/-- The belief about `x + t`. -/
def Belief.shift (t : Fin n → ℝ) (b : Belief n) : Belief n := ⟨b.x + t, b.P⟩

/-- The model for the state `x + t`. -/
def LinStep.shift (t : Fin n → ℝ) (s : LinStep n m) : LinStep n m :=
  { s with c := s.c + t - s.A *ᵥ t, z := s.z + s.H *ᵥ t }

theorem shift_predict (t : Fin n → ℝ) (s : LinStep n m) (b : Belief n) :
    (s.shift t).predict (b.shift t) = (s.predict b).shift t := by
  ext1
  · simp only [LinStep.predict, Belief.shift, LinStep.shift, Matrix.mulVec_add]
    abel
  · rfl

theorem stepMap_shift (t : Fin n → ℝ) :
    StepMap (Belief.shift t) (LinStep.shift t) id (fun _ : LinStep n m => True) where
  predict s b _ := shift_predict t s b
  innov s p _ := Iff.rfl
  gain s p _ _ := rfl
  update s p _ _ := by
    ext1
    · simp only [LinStep.update, LinStep.gain, Belief.shift, LinStep.shift, Matrix.mulVec_add]
      rw [add_sub_add_right_eq_sub]
      abel
    · rfl
  pdet p := Iff.rfl
  rts s b q _ _ := by
    simp only [rtsStep, shift_predict]
    simp only [Belief.shift, LinStep.shift, add_sub_add_right_eq_sub]
    congr 1
    abel

/-! ### nonlinear models -/

/-- Nonlinear model for the state `M x`, with `N` the inverse of `M`. -/
def ExtStep.coord (M N : Matrix (Fin n) (Fin n) ℝ) (s : ExtStep n m) : ExtStep n m where
  f y := M *ᵥ s.f (N *ᵥ y)
  jA y := M * s.jA (N *ᵥ y) * N
  h y := s.h (N *ᵥ y)
  jH y := s.jH (N *ᵥ y) * N
  Q := M * s.Q * Mᵀ
  R := s.R
  z := s.z

theorem linMap_coord {M N : Matrix (Fin n) (Fin n) ℝ} (hNM : N * M = 1) :
    LinMap (m := m) (m' := m) (Belief.coord M) (LinStep.coord M N) (ExtStep.coord M N) := fun s b => by
  have e : ∀ v : Fin n → ℝ, N *ᵥ (M *ᵥ v) = v := fun v => by rw [Matrix.mulVec_mulVec, hNM, Matrix.one_mulVec]
  simp only [ExtStep.lin, ExtStep.coord, LinStep.coord, Belief.coord, e]
  congr 1
  · rw [Matrix.mulVec_sub, ← Matrix.mulVec_mulVec, e, Matrix.mulVec_mulVec]
  · rw [← Matrix.mulVec_mulVec, e]

/-- Nonlinear model for the state `x + t`, measured with an offset `w`. -/
def ExtStep.shift (t : Fin n → ℝ) (w : Fin m → ℝ) (s : ExtStep n m) : ExtStep n m where
  f y := s.f (y - t) + t
  jA y := s.jA (y - t)
  h y := s.h (y - t) + w
  jH y := s.jH (y - t)
  Q := s.Q
  R := s.R
  z := s.z + w

theorem linMap_shift (t : Fin n → ℝ) (w : Fin m → ℝ) :
    LinMap (Belief.shift t) (LinStep.shift t) (ExtStep.shift t w) := fun s b => by
  simp only [ExtStep.lin, ExtStep.shift, LinStep.shift, Belief.shift, add_sub_cancel_right]
  congr 1
  · rw [Matrix.mulVec_add]; abel
  · rw [Matrix.mulVec_add]; abel

/-- Nonlinear model whose measurement is `W z`. -/
def ExtStep.remeas (W : Matrix (Fin m) (Fin m) ℝ) (s : ExtStep n m) : ExtStep n m where
  f := s.f
  jA := s.jA
  h y := W *ᵥ s.h y
  jH y := W * s.jH y
  Q := s.Q
  R := W * s.R * Wᵀ
  z := W *ᵥ s.z

theorem linMap_remeas (W : Matrix (Fin m) (Fin m) ℝ) :
    LinMap (n := n) (n' := n) id (LinStep.remeas W) (ExtStep.remeas W) := fun s b => by
  simp only [ExtStep.lin, ExtStep.remeas, LinStep.remeas, id]
  congr 1
  rw [Matrix.mulVec_add, Matrix.mulVec_sub, Matrix.mulVec_mulVec]

/-- The same nonlinear step with both noise covariances multiplied by `c`. -/
def ExtStep.scale (c : ℝ) (s : ExtStep n m) : ExtStep n m := { s with Q := c • s.Q, R := c • s.R }

theorem linMap_scale (c : ℝ) : LinMap (n := n) (n' := n) (m := m) (Belief.scale c) (LinStep.scale c) (ExtStep.scale c) :=
  fun _ _ => rfl

end KK
