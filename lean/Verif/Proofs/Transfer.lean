import Verif.Spec.Returns
import Verif.Props.Smoother

/-!
# Relating two runs

A transformation of models that commutes with one step commutes with whole runs.
-/

set_option linter.unusedSectionVars false

namespace KK

open Matrix

variable {n m n' m' : ℕ}

section api
variable [Platform] {kf : KalmanFilter Fl} {Z : NDArray Fl} {U : Option (NDArray Fl)} {b : Belief n}
  {ss : List (LinStep n m)}

theorem Represents.returns (h : Represents kf Z U b ss) (hs : Solvable b ss) :
    FilterReturns kf Z U (filtered b ss) (gainsOf b ss) := by
  have := C24_filter_textbook kf Z U b ss h hs
  rw [FilterReturns, filtered_length]
  exact this

theorem Represents.singular (h : Represents kf Z U b ss) (hs : ¬ Solvable b ss) : FilterSingular kf Z U := by
  obtain ⟨-, h2, h3⟩ := C25_linalgerror kf Z U b ss h
  obtain ⟨k, -, h4, h5, -⟩ := h3 hs
  exact ⟨_, h2 k h4 h5⟩

theorem Represents.smoothReturns (h : Represents kf Z U b ss) (hfull : ss.length = Z.rows.length)
    (hne : ss ≠ []) (hs : Solvable b ss) (hsm : SmoothSolvable b ss) :
    SmoothReturns kf Z U (smoothed b ss) (gainsOf b ss) :=
  (C41_smooth_rts kf Z U b ss h hfull hne).1 hs hsm

theorem Represents.smoothSingular (h : Represents kf Z U b ss) (hfull : ss.length = Z.rows.length)
    (hne : ss ≠ []) (hs : ¬ (Solvable b ss ∧ SmoothSolvable b ss)) : SmoothSingular kf Z U :=
  (C41_smooth_rts kf Z U b ss h hfull hne).2 hs

end api

theorem rts_length (b : Belief n) (ss : List (LinStep n m)) : (rts b ss).length = ss.length + 1 := by
  induction ss generalizing b with
  | nil => rfl
  | cons s ss ih =>
    rw [rts]
    have := ih (s.next b)
    rcases hr : rts (s.next b) ss with _ | ⟨q, qs⟩
    · rw [hr] at this; simp at this
    · rw [hr] at this; simpa using this

theorem smoothed_length (b : Belief n) (ss : List (LinStep n m)) : (smoothed b ss).length = ss.length := by
  cases ss with
  | nil => rfl
  | cons s ss => exact rts_length _ _

/-- A map of models (`ψ`), beliefs (`φ`) and gains (`γ`) that commutes with the steps of the filter and of
the smoother. -/
structure StepMap (φ : Belief n → Belief n') (ψ : LinStep n m → LinStep n' m')
    (γ : Matrix (Fin n) (Fin m) ℝ → Matrix (Fin n') (Fin m') ℝ) (good : LinStep n m → Prop) : Prop where
  predict : ∀ s b, good s → (ψ s).predict (φ b) = φ (s.predict b)
  innov : ∀ s p, good s → (((ψ s).innov (φ p)).det ≠ 0 ↔ (s.innov p).det ≠ 0)
  gain : ∀ s p, good s → (s.innov p).det ≠ 0 → (ψ s).gain (φ p) = γ (s.gain p)
  update : ∀ s p, good s → (s.innov p).det ≠ 0 → (ψ s).update (φ p) = φ (s.update p)
  pdet : ∀ p : Belief n, (φ p).P.det ≠ 0 ↔ p.P.det ≠ 0
  rts : ∀ s b q, good s → (s.predict b).P.det ≠ 0 → rtsStep (φ b) (ψ s) (φ q) = φ (rtsStep b s q)

namespace StepMap

variable {φ : Belief n → Belief n'} {ψ : LinStep n m → LinStep n' m'}
  {γ : Matrix (Fin n) (Fin m) ℝ → Matrix (Fin n') (Fin m') ℝ} {good : LinStep n m → Prop}

theorem next (h : StepMap φ ψ γ good) {s : LinStep n m} {b : Belief n} (hg : good s)
    (hd : (s.innov (s.predict b)).det ≠ 0) : (ψ s).next (φ b) = φ (s.next b) := by
  rw [LinStep.next, h.predict s b hg, h.update s _ hg hd]; rfl

theorem solvable (h : StepMap φ ψ γ good) (b : Belief n) (ss : List (LinStep n m)) (hg : ∀ s ∈ ss, good s) :
    Solvable (φ b) (ss.map ψ) ↔ Solvable b ss := by
  induction ss generalizing b with
  | nil => exact Iff.rfl
  | cons s ss ih =>
    have hs := hg s (by simp)
    rw [List.map_cons, Solvable, Solvable, h.predict s b hs, h.innov s _ hs]
    refine and_congr_right fun hd => ?_
    rw [h.next hs hd]
    exact ih _ fun s' hs' => hg s' (by simp [hs'])

theorem filtered (h : StepMap φ ψ γ good) (b : Belief n) (ss : List (LinStep n m)) (hg : ∀ s ∈ ss, good s)
    (hs : Solvable b ss) : filtered (φ b) (ss.map ψ) = (KK.filtered b ss).map φ ∧
      gainsOf (φ b) (ss.map ψ) = (gainsOf b ss).map γ := by
  induction ss generalizing b with
  | nil => exact ⟨rfl, rfl⟩
  | cons s ss ih =>
    have hgs := hg s (by simp)
    obtain ⟨hd, hs⟩ := hs
    obtain ⟨h1, h2⟩ := ih _ (fun s' hs' => hg s' (by simp [hs'])) hs
    simp only [List.map_cons, KK.filtered, gainsOf, h.next hgs hd, h.predict s b hgs, h.gain s _ hgs hd, h1, h2, and_self]

theorem rtsSolvable (h : StepMap φ ψ γ good) (b : Belief n) (ss : List (LinStep n m))
    (hg : ∀ s ∈ ss, good s) (hs : Solvable b ss) : RtsSolvable (φ b) (ss.map ψ) ↔ RtsSolvable b ss := by
  induction ss generalizing b with
  | nil => exact Iff.rfl
  | cons s ss ih =>
    have hgs := hg s (by simp)
    obtain ⟨hd, hs⟩ := hs
    rw [List.map_cons, RtsSolvable, RtsSolvable, h.predict s b hgs, h.pdet, h.next hgs hd]
    exact and_congr_right fun _ => ih _ (fun s' hs' => hg s' (by simp [hs'])) hs

theorem smoothSolvable (h : StepMap φ ψ γ good) (b : Belief n) (ss : List (LinStep n m))
    (hg : ∀ s ∈ ss, good s) (hs : Solvable b ss) :
    SmoothSolvable (φ b) (ss.map ψ) ↔ SmoothSolvable b ss := by
  cases ss with
  | nil => exact Iff.rfl
  | cons s ss =>
    obtain ⟨hd, hs⟩ := hs
    rw [List.map_cons, SmoothSolvable, SmoothSolvable, h.next (hg s (by simp)) hd]
    exact h.rtsSolvable _ _ (fun s' hs' => hg s' (by simp [hs'])) hs

theorem rtsRun (h : StepMap φ ψ γ good) (b : Belief n) (ss : List (LinStep n m))
    (hg : ∀ s ∈ ss, good s) (hs : Solvable b ss) (hr : RtsSolvable b ss) :
    KK.rts (φ b) (ss.map ψ) = (KK.rts b ss).map φ := by
  induction ss generalizing b with
  | nil => rfl
  | cons s ss ih =>
    have hgs := hg s (by simp)
    obtain ⟨hd, hs⟩ := hs
    obtain ⟨hp, hr⟩ := hr
    rw [List.map_cons, KK.rts, KK.rts, h.next hgs hd, ih _ (fun s' hs' => hg s' (by simp [hs'])) hs hr]
    cases hq : KK.rts (s.next b) ss with
    | nil => rfl
    | cons q qs => simp [h.rts s b q hgs hp]

theorem smoothed (h : StepMap φ ψ γ good) (b : Belief n) (ss : List (LinStep n m))
    (hg : ∀ s ∈ ss, good s) (hs : Solvable b ss) (hr : SmoothSolvable b ss) :
    KK.smoothed (φ b) (ss.map ψ) = (KK.smoothed b ss).map φ := by
  cases ss with
  | nil => rfl
  | cons s ss =>
    obtain ⟨hd, hs⟩ := hs
    rw [List.map_cons, KK.smoothed, KK.smoothed, h.next (hg s (by simp)) hd]
    exact h.rtsRun _ _ (fun s' hs' => hg s' (by simp [hs'])) hs hr

variable [Platform] {kf kf' : KalmanFilter Fl} {Z Z' : NDArray Fl} {U U' : Option (NDArray Fl)}
  {b : Belief n} {ss : List (LinStep n m)}

/-- Two runs whose models are related by a `StepMap` both raise LinAlgError or return related results. -/
theorem runs (h : StepMap φ ψ γ good) (hg : ∀ s ∈ ss, good s) (h1 : Represents kf Z U b ss)
    (h2 : Represents kf' Z' U' (φ b) (ss.map ψ)) :
    (FilterSingular kf Z U ∧ FilterSingular kf' Z' U') ∨
    ∃ (bs : List (Belief n)) (Ks : List (Matrix (Fin n) (Fin m) ℝ)), bs.length = ss.length ∧
      FilterReturns kf Z U bs Ks ∧ FilterReturns kf' Z' U' (bs.map φ) (Ks.map γ) := by
  by_cases hs : Solvable b ss
  · refine .inr ⟨KK.filtered b ss, gainsOf b ss, filtered_length _ _, h1.returns hs, ?_⟩
    rw [← (h.filtered b ss hg hs).1, ← (h.filtered b ss hg hs).2]
    exact h2.returns ((h.solvable b ss hg).2 hs)
  · exact .inl ⟨h1.singular hs, h2.singular fun hs' => hs ((h.solvable b ss hg).1 hs')⟩

theorem smoothRuns (h : StepMap φ ψ γ good) (hg : ∀ s ∈ ss, good s) (h1 : Represents kf Z U b ss)
    (h2 : Represents kf' Z' U' (φ b) (ss.map ψ)) (hne : ss ≠ []) (hf : ss.length = Z.rows.length)
    (hf' : ss.length = Z'.rows.length) :
    (SmoothSingular kf Z U ∧ SmoothSingular kf' Z' U') ∨
    ∃ (bs : List (Belief n)) (Ks : List (Matrix (Fin n) (Fin m) ℝ)), bs.length = ss.length ∧
      SmoothReturns kf Z U bs Ks ∧ SmoothReturns kf' Z' U' (bs.map φ) (Ks.map γ) := by
  have hne' : ss.map ψ ≠ [] := by simpa using hne
  have hfm : (ss.map ψ).length = Z'.rows.length := by simpa using hf'
  by_cases hs : Solvable b ss ∧ SmoothSolvable b ss
  · refine .inr ⟨KK.smoothed b ss, gainsOf b ss, smoothed_length _ _,
      h1.smoothReturns hf hne hs.1 hs.2, ?_⟩
    rw [← h.smoothed b ss hg hs.1 hs.2, ← (h.filtered b ss hg hs.1).2]
    exact h2.smoothReturns hfm hne' ((h.solvable b ss hg).2 hs.1) ((h.smoothSolvable b ss hg hs.1).2 hs.2)
  · refine .inl ⟨h1.smoothSingular hf hne hs, h2.smoothSingular hfm hne' fun hs' => hs ?_⟩
    have := (h.solvable b ss hg).1 hs'.1
    exact ⟨this, (h.smoothSolvable b ss hg this).1 hs'.2⟩

end StepMap

end KK
