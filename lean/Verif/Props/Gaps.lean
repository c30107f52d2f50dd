import Verif.Spec.Gaps
import Verif.Proofs.Transfer
import Verif.Props.TwoFilter

/-!
# C100, C101: missing measurements and forecasts
-/

set_option linter.unusedSectionVars false

namespace KK

open Matrix

variable {n m : ℕ}

theorem unmeasured_next {s : LinStep n m} (h : s.H = 0) (b : Belief n) : s.next b = s.predict b := by
  simp [LinStep.next, LinStep.update, LinStep.gain, kGain, postCov, h]

theorem unmeasured_innov {s : LinStep n m} (h : s.Unmeasured) (p : Belief n) : (s.innov p).det ≠ 0 := by
  simpa [LinStep.innov, innovCov, h.1] using h.2

theorem after_predict (g s : LinStep n m) (b : Belief n) : (g.after s).predict b = s.predict (g.predict b) := by
  ext1
  · simp only [LinStep.predict, LinStep.after, mulVec_add, mulVec_mulVec, add_assoc]
  · simp only [LinStep.predict, LinStep.after, priorCov, transpose_mul, Matrix.mul_add, Matrix.add_mul, Matrix.mul_assoc,
      add_assoc]

theorem after_next (g s : LinStep n m) (b : Belief n) : (g.after s).next b = s.next (g.predict b) := by
  rw [LinStep.next, after_predict]; rfl

theorem after_rts (g s : LinStep n m) (b q : Belief n) (hd : (g.predict b).P.det ≠ 0) :
    rtsStep b g (rtsStep (g.predict b) s q) = rtsStep b (g.after s) q := by
  have hc : (g.predict b).P⁻¹ * (g.predict b).P = 1 := Matrix.nonsing_inv_mul _ (isUnit_iff_ne_zero.2 hd)
  have hG : b.P * g.Aᵀ * (g.predict b).P⁻¹ * ((g.predict b).P * s.Aᵀ * (s.predict (g.predict b)).P⁻¹) =
      b.P * (s.A * g.A)ᵀ * (s.predict (g.predict b)).P⁻¹ := by
    rw [transpose_mul]
    simp only [← Matrix.mul_assoc]
    rw [Matrix.mul_assoc (b.P * g.Aᵀ), hc, Matrix.mul_one]
  simp only [rtsStep, after_predict]
  rw [show (g.after s).A = s.A * g.A from rfl, ← hG]
  ext1
  · simp only [add_sub_cancel_left, mulVec_mulVec]
  · simp only [add_sub_cancel_left, transpose_mul, Matrix.mul_assoc]

theorem forecast_eq {gs : List (LinStep n m)} (h : ∀ g ∈ gs, g.H = 0) (b : Belief n) : filtered b gs = forecast b gs := by
  induction gs generalizing b with
  | nil => rfl
  | cons g gs ih =>
    rw [filtered, forecast, unmeasured_next (h g (by simp)), ih fun g' hg' => h g' (by simp [hg'])]
    rfl

theorem rts_eq_cons (b : Belief n) (ss : List (LinStep n m)) : ∃ x, rts b ss = x :: smoothed b ss := by
  cases ss with
  | nil => exact ⟨b, rfl⟩
  | cons s ss =>
    have := rts_length (s.next b) ss
    rw [rts, smoothed]
    rcases hr : rts (s.next b) ss with _ | ⟨q, qs⟩
    · rw [hr] at this; simp at this
    · exact ⟨_, rfl⟩

/-! ### a gap and the step after it -/

theorem gap_filtered {gs : List (LinStep n m)} (h : ∀ g ∈ gs, g.Unmeasured) (s : LinStep n m) (ss : List (LinStep n m))
    (b : Belief n) :
    filtered b (gs ++ s :: ss) = forecast b gs ++ (mergeSteps gs s).next b :: filtered ((mergeSteps gs s).next b) ss ∧
    (gainsOf b (gs ++ s :: ss) = List.replicate gs.length 0 ++
      (mergeSteps gs s).gain ((mergeSteps gs s).predict b) :: gainsOf ((mergeSteps gs s).next b) ss) ∧
    (Solvable b (gs ++ s :: ss) ↔ Solvable b (mergeSteps gs s :: ss)) ∧
    Solvable b (mergeSteps gs s :: ss) = (((mergeSteps gs s).innov ((mergeSteps gs s).predict b)).det ≠ 0 ∧
      Solvable ((mergeSteps gs s).next b) ss) := by
  induction gs generalizing b with
  | nil => exact ⟨rfl, rfl, Iff.rfl, rfl⟩
  | cons g gs ih =>
    have hg := h g (by simp)
    obtain ⟨h1, h2, h3, -⟩ := ih (fun g' hg' => h g' (by simp [hg'])) (g.predict b)
    have hn := unmeasured_next hg.1 b
    have e2 : ((mergeSteps (g :: gs) s)).predict b = (mergeSteps gs s).predict (g.predict b) := after_predict _ _ _
    have e3 : ((mergeSteps (g :: gs) s)).next b = (mergeSteps gs s).next (g.predict b) := after_next _ _ _
    have k0 : g.gain (g.predict b) = 0 := by simp [LinStep.gain, kGain, hg.1]
    refine ⟨?_, ?_, ?_, rfl⟩
    · rw [List.cons_append, filtered, hn, h1, e3]; rfl
    · rw [List.cons_append, gainsOf, hn, h2, e3, k0, e2]; rfl
    · rw [List.cons_append, Solvable, hn, h3, Solvable, Solvable, e3, e2]
      exact ⟨fun h => h.2, fun h => ⟨unmeasured_innov hg _, h⟩⟩

theorem gap_rts {gs : List (LinStep n m)} (h : ∀ g ∈ gs, g.Unmeasured) (s : LinStep n m) (ss : List (LinStep n m))
    (b q : Belief n) (qs : List (Belief n)) (hr : RtsSolvable b (gs ++ s :: ss))
    (hq : rts ((mergeSteps gs s).next b) ss = q :: qs) :
    (∃ mid, mid.length = gs.length ∧ rts b (gs ++ s :: ss) = rtsStep b (mergeSteps gs s) q :: (mid ++ q :: qs)) ∧
    RtsSolvable b (mergeSteps gs s :: ss) := by
  induction gs generalizing b with
  | nil => exact ⟨⟨[], rfl, by simp only [List.nil_append, rts, mergeSteps] at hq ⊢; rw [hq]⟩, hr⟩
  | cons g gs ih =>
    have hg := h g (by simp)
    have hn := unmeasured_next hg.1 b
    rw [List.cons_append, RtsSolvable, hn] at hr
    have e3 : ((mergeSteps (g :: gs) s)).next b = (mergeSteps gs s).next (g.predict b) := after_next _ _ _
    rw [e3] at hq
    obtain ⟨⟨mid, hm, h1⟩, h2⟩ := ih (fun g' hg' => h g' (by simp [hg'])) _ hr.2 hq
    refine ⟨⟨rtsStep (g.predict b) (mergeSteps gs s) q :: mid, by simp [hm], ?_⟩, ?_⟩
    · rw [List.cons_append, rts, hn, h1]
      simp only [mergeSteps, after_rts _ _ _ _ hr.1]
      rfl
    · rw [RtsSolvable] at h2 ⊢
      rw [e3, mergeSteps, after_predict]
      exact h2

/-! ### all gaps of a run -/

theorem gaps_filtered (gs : List (List (LinStep n m) × LinStep n m)) (h : ∀ g ∈ gs, ∀ s ∈ g.1, s.Unmeasured) (b : Belief n) :
    (∃ bss : List (List (Belief n) × Belief n), List.Forall₂ (fun p g => p.1.length = g.1.length) bss gs ∧
      filtered b (ungroup gs) = ungroup bss ∧ filtered b (gs.map fun g => mergeSteps g.1 g.2) = bss.map Prod.snd) ∧
    (Solvable b (ungroup gs) ↔ Solvable b (gs.map fun g => mergeSteps g.1 g.2)) ∧
    ∃ Kss : List (List (Matrix (Fin n) (Fin m) ℝ) × Matrix (Fin n) (Fin m) ℝ),
      List.Forall₂ (fun p g => p.1 = List.replicate g.1.length 0) Kss gs ∧
      gainsOf b (ungroup gs) = ungroup Kss ∧ gainsOf b (gs.map fun g => mergeSteps g.1 g.2) = Kss.map Prod.snd := by
  induction gs generalizing b with
  | nil => exact ⟨⟨[], .nil, rfl, rfl⟩, Iff.rfl, [], .nil, rfl, rfl⟩
  | cons g gs ih =>
    obtain ⟨g1, g2⟩ := g
    have e : ungroup ((g1, g2) :: gs) = g1 ++ g2 :: ungroup gs := by simp [ungroup]
    obtain ⟨f1, f2, f3, -⟩ := gap_filtered (h (g1, g2) (by simp)) g2 (ungroup gs) b
    obtain ⟨⟨bss, i1, i2, i3⟩, i4, Kss, i5, i6, i7⟩ := ih (fun g' hg' => h g' (by simp [hg'])) ((mergeSteps g1 g2).next b)
    rw [e]
    refine ⟨⟨(forecast b g1, (mergeSteps g1 g2).next b) :: bss, .cons ?_ i1, ?_, ?_⟩, ?_,
      (List.replicate g1.length 0, (mergeSteps g1 g2).gain ((mergeSteps g1 g2).predict b)) :: Kss, .cons rfl i5, ?_, ?_⟩
    · have := filtered_length b g1
      rwa [forecast_eq fun s hs => (h (g1, g2) (by simp) s hs).1] at this
    · rw [f1, i2]; simp [ungroup]
    · rw [List.map_cons, filtered, i3]; rfl
    · rw [f3, Solvable, List.map_cons, Solvable, i4]
    · rw [f2, i6]; simp [ungroup]
    · rw [List.map_cons, gainsOf, i7]; rfl

theorem gaps_rts (gs : List (List (LinStep n m) × LinStep n m)) (h : ∀ g ∈ gs, ∀ s ∈ g.1, s.Unmeasured) (b : Belief n)
    (hr : RtsSolvable b (ungroup gs)) :
    RtsSolvable b (gs.map fun g => mergeSteps g.1 g.2) ∧
    ∃ (x : Belief n) (bss : List (List (Belief n) × Belief n)), List.Forall₂ (fun p g => p.1.length = g.1.length) bss gs ∧
      rts b (ungroup gs) = x :: ungroup bss ∧ rts b (gs.map fun g => mergeSteps g.1 g.2) = x :: bss.map Prod.snd := by
  induction gs generalizing b with
  | nil => exact ⟨trivial, b, [], .nil, rfl, rfl⟩
  | cons g gs ih =>
    obtain ⟨g1, g2⟩ := g
    have e : ungroup ((g1, g2) :: gs) = g1 ++ g2 :: ungroup gs := by simp [ungroup]
    rw [e] at hr ⊢
    have hr' : RtsSolvable ((mergeSteps g1 g2).next b) (ungroup gs) := by
      obtain ⟨q, hq⟩ := rts_eq_cons ((mergeSteps g1 g2).next b) (ungroup gs)
      exact (gap_rts (h (g1, g2) (by simp)) g2 _ b q _ hr hq).2.2
    obtain ⟨i0, q, bss, i1, i2, i3⟩ := ih (fun g' hg' => h g' (by simp [hg'])) _ hr'
    obtain ⟨⟨mid, hm, f1⟩, f2⟩ := gap_rts (h (g1, g2) (by simp)) g2 _ b q _ hr i2
    refine ⟨⟨f2.1, i0⟩, rtsStep b (mergeSteps g1 g2) q, (mid, q) :: bss, .cons hm i1, ?_, ?_⟩
    · rw [f1]; simp [ungroup]
    · rw [List.map_cons, rts, i3]; rfl

theorem gaps_smoothed (gs : List (List (LinStep n m) × LinStep n m)) (h : ∀ g ∈ gs, ∀ s ∈ g.1, s.Unmeasured) (b : Belief n)
    (hr : SmoothSolvable b (ungroup gs)) :
    SmoothSolvable b (gs.map fun g => mergeSteps g.1 g.2) ∧
    ∃ bss : List (List (Belief n) × Belief n), List.Forall₂ (fun p g => p.1.length = g.1.length) bss gs ∧
      smoothed b (ungroup gs) = ungroup bss ∧ smoothed b (gs.map fun g => mergeSteps g.1 g.2) = bss.map Prod.snd := by
  cases gs with
  | nil => exact ⟨trivial, [], .nil, rfl, rfl⟩
  | cons g gs =>
    obtain ⟨g1, g2⟩ := g
    have e : ungroup ((g1, g2) :: gs) = g1 ++ g2 :: ungroup gs := by simp [ungroup]
    rw [e] at hr ⊢
    cases g1 with
    | nil =>
      obtain ⟨h1, q, bss, h2, h3, h4⟩ := gaps_rts gs (fun g' hg' => h g' (by simp [hg'])) (g2.next b) hr
      refine ⟨h1, ([], q) :: bss, .cons rfl h2, ?_, ?_⟩
      · rw [List.nil_append, smoothed, h3]; simp [ungroup]
      · rw [List.map_cons, smoothed]; exact h4
    | cons g g1 =>
      have hg := h (g :: g1, g2) (by simp)
      have hn := unmeasured_next (hg g (by simp)).1 b
      have e3 : ((mergeSteps (g :: g1) g2)).next b = (mergeSteps g1 g2).next (g.predict b) := after_next _ _ _
      rw [List.cons_append, SmoothSolvable, hn] at hr
      have hr' : RtsSolvable ((mergeSteps g1 g2).next (g.predict b)) (ungroup gs) := by
        obtain ⟨q, hq⟩ := rts_eq_cons ((mergeSteps g1 g2).next (g.predict b)) (ungroup gs)
        exact (gap_rts (fun s hs => hg s (by simp [hs])) g2 _ _ q _ hr hq).2.2
      obtain ⟨i0, q, bss, i1, i2, i3⟩ := gaps_rts gs (fun g' hg' => h g' (by simp [hg'])) _ hr'
      obtain ⟨⟨mid, hm, f1⟩, -⟩ := gap_rts (fun s hs => hg s (by simp [hs])) g2 _ _ q _ hr i2
      refine ⟨by rw [List.map_cons, SmoothSolvable, e3]; exact i0, (rtsStep (g.predict b) (mergeSteps g1 g2) q :: mid, q) :: bss, .cons (by simp [hm]) i1, ?_, ?_⟩
      · rw [List.cons_append, smoothed, hn, f1]; simp [ungroup]
      · rw [List.map_cons, smoothed, e3]; exact i3

/-! ### trailing steps without a measurement -/

theorem filtered_append (b : Belief n) (ss ts : List (LinStep n m)) :
    filtered b (ss ++ ts) = filtered b ss ++ filtered (lastOf b ss) ts := by
  induction ss generalizing b with
  | nil => rfl
  | cons s ss ih => simp [filtered, lastOf, ih]

theorem solvable_append (b : Belief n) (ss ts : List (LinStep n m)) :
    Solvable b (ss ++ ts) ↔ Solvable b ss ∧ Solvable (lastOf b ss) ts := by
  induction ss generalizing b with
  | nil => simp [Solvable, lastOf]
  | cons s ss ih => simp [Solvable, lastOf, ih, and_assoc]

theorem gainsOf_append (b : Belief n) (ss ts : List (LinStep n m)) :
    gainsOf b (ss ++ ts) = gainsOf b ss ++ gainsOf (lastOf b ss) ts := by
  induction ss generalizing b with
  | nil => rfl
  | cons s ss ih => simp [gainsOf, lastOf, ih]

theorem rtsSolvable_append (b : Belief n) (ss ts : List (LinStep n m)) :
    RtsSolvable b (ss ++ ts) ↔ RtsSolvable b ss ∧ RtsSolvable (lastOf b ss) ts := by
  induction ss generalizing b with
  | nil => simp [RtsSolvable, lastOf]
  | cons s ss ih => simp [RtsSolvable, lastOf, ih, and_assoc]

theorem unmeasured_gains {gs : List (LinStep n m)} (h : ∀ g ∈ gs, g.Unmeasured) (b : Belief n) :
    Solvable b gs ∧ gainsOf b gs = List.replicate gs.length 0 := by
  induction gs generalizing b with
  | nil => exact ⟨trivial, rfl⟩
  | cons g gs ih =>
    have hg := h g (by simp)
    obtain ⟨h1, h2⟩ := ih (fun g' hg' => h g' (by simp [hg'])) (g.next b)
    refine ⟨⟨unmeasured_innov hg _, h1⟩, ?_⟩
    rw [gainsOf, h2]
    simp [LinStep.gain, kGain, hg.1, List.replicate_succ]

theorem rtsStep_self (b : Belief n) (s : LinStep n m) : rtsStep b s (s.predict b) = b := by
  simp [rtsStep]

theorem unmeasured_rts {gs : List (LinStep n m)} (h : ∀ g ∈ gs, g.Unmeasured) (b : Belief n) :
    rts b gs = b :: forecast b gs := by
  induction gs generalizing b with
  | nil => rfl
  | cons g gs ih =>
    have hg := h g (by simp)
    rw [rts, unmeasured_next hg.1, ih fun g' hg' => h g' (by simp [hg'])]
    simp only [rtsStep_self, forecast]
    rfl

theorem rts_append_unmeasured {gs : List (LinStep n m)} (h : ∀ g ∈ gs, g.Unmeasured) (b : Belief n)
    (ss : List (LinStep n m)) : rts b (ss ++ gs) = rts b ss ++ forecast (lastOf b ss) gs := by
  induction ss generalizing b with
  | nil => rw [List.nil_append, unmeasured_rts h]; rfl
  | cons s ss ih =>
    rw [List.cons_append, rts, ih, rts, lastOf]
    obtain ⟨x, hx⟩ := rts_eq_cons (s.next b) ss
    rw [hx]
    rfl

section
variable [Platform]

/-- C100: a run in which groups of steps without measurement (`H = 0`, invertible `R`, any `z`) precede measured steps, and the
run in which every such group and the step after it are replaced by one step (`A = A_k ... A_1` and so on).  Both raise
LinAlgError or both return, and the second returns exactly the rows of the measured steps of the first; the gains of the steps
without measurement are zero.  The same for `smooth`, if it does not raise LinAlgError on the first run. -/
theorem C100_gaps (kf kf' : KalmanFilter Fl) (Z Z' : NDArray Fl) (U U' : Option (NDArray Fl)) (b : Belief n)
    (gs : List (List (LinStep n m) × LinStep n m)) (hg : ∀ g ∈ gs, ∀ s ∈ g.1, s.Unmeasured)
    (h : Represents kf Z U b (ungroup gs)) (h' : Represents kf' Z' U' b (gs.map fun g => mergeSteps g.1 g.2)) :
    ((FilterSingular kf Z U ∧ FilterSingular kf' Z' U') ∨
      ∃ (bss : List (List (Belief n) × Belief n))
        (Kss : List (List (Matrix (Fin n) (Fin m) ℝ) × Matrix (Fin n) (Fin m) ℝ)),
        List.Forall₂ (fun p g => p.1.length = g.1.length) bss gs ∧
        List.Forall₂ (fun p g => p.1 = List.replicate g.1.length 0) Kss gs ∧
        FilterReturns kf Z U (ungroup bss) (ungroup Kss) ∧
        FilterReturns kf' Z' U' (bss.map Prod.snd) (Kss.map Prod.snd)) ∧
    (gs ≠ [] → (ungroup gs).length = Z.rows.length → gs.length = Z'.rows.length →
      SmoothSingular kf Z U ∨
      ∃ (bss : List (List (Belief n) × Belief n))
        (Kss : List (List (Matrix (Fin n) (Fin m) ℝ) × Matrix (Fin n) (Fin m) ℝ)),
        List.Forall₂ (fun p g => p.1.length = g.1.length) bss gs ∧
        List.Forall₂ (fun p g => p.1 = List.replicate g.1.length 0) Kss gs ∧
        SmoothReturns kf Z U (ungroup bss) (ungroup Kss) ∧
        SmoothReturns kf' Z' U' (bss.map Prod.snd) (Kss.map Prod.snd)) := by
  obtain ⟨⟨bss, i1, i2, i3⟩, i4, Kss, i5, i6, i7⟩ := gaps_filtered gs hg b
  constructor
  · by_cases hs : Solvable b (ungroup gs)
    · refine .inr ⟨bss, Kss, i1, i5, ?_, ?_⟩
      · rw [← i2, ← i6]; exact h.returns hs
      · rw [← i3, ← i7]; exact h'.returns (i4.1 hs)
    · exact .inl ⟨h.singular hs, h'.singular fun hs' => hs (i4.2 hs')⟩
  · intro hne hf hf'
    have hne1 : ungroup gs ≠ [] := by
      cases gs with
      | nil => exact absurd rfl hne
      | cons g gs => simp [ungroup]
    by_cases hs : Solvable b (ungroup gs) ∧ SmoothSolvable b (ungroup gs)
    · obtain ⟨hm, css, j1, j2, j3⟩ := gaps_smoothed gs hg b hs.2
      refine .inr ⟨css, Kss, j1, i5, ?_, ?_⟩
      · rw [← j2, ← i6]; exact h.smoothReturns hf hne1 hs.1 hs.2
      · rw [← j3, ← i7]; exact h'.smoothReturns (by simpa using hf') (by simpa using hne) (i4.1 hs.1) hm
    · exact .inl (h.smoothSingular hf hne1 hs)

/-- C101: append any number of steps without measurement to a run on non-empty data.  `filter` returns the rows of the run and
then the forecasts `x ↦ A x + B u`, `P ↦ A P A' + Q`, whatever `z` is in the appended steps; `smooth` returns the smoothed rows
of the run and then the same forecasts. -/
theorem C101_forecast (kf kf' : KalmanFilter Fl) (Z Z' : NDArray Fl) (U U' : Option (NDArray Fl)) (b : Belief n)
    (ss gs : List (LinStep n m)) (hg : ∀ g ∈ gs, g.Unmeasured) (hne : ss ≠ [])
    (h : Represents kf Z U b ss) (h' : Represents kf' Z' U' b (ss ++ gs)) :
    ((FilterSingular kf Z U ∧ FilterSingular kf' Z' U') ∨
      ∃ (bs : List (Belief n)) (l : Belief n) (Ks : List (Matrix (Fin n) (Fin m) ℝ)),
        FilterReturns kf Z U (bs ++ [l]) Ks ∧
        FilterReturns kf' Z' U' (bs ++ [l] ++ forecast l gs) (Ks ++ List.replicate gs.length 0)) ∧
    (ss.length = Z.rows.length → (ss ++ gs).length = Z'.rows.length →
      SmoothSingular kf' Z' U' ∨
      ∃ (bs : List (Belief n)) (l : Belief n) (Ks : List (Matrix (Fin n) (Fin m) ℝ)),
        SmoothReturns kf Z U (bs ++ [l]) Ks ∧
        SmoothReturns kf' Z' U' (bs ++ [l] ++ forecast l gs) (Ks ++ List.replicate gs.length 0)) := by
  have hlast : ∀ (b : Belief n) (ss : List (LinStep n m)), ss ≠ [] → ∃ bs, filtered b ss = bs ++ [lastOf b ss] := by
    intro b ss hne
    obtain ⟨ts, s, rfl⟩ := List.eq_nil_or_concat ss |>.resolve_left hne
    refine ⟨filtered b ts, ?_⟩
    rw [List.concat_eq_append, filtered_append]
    congr 1
    simp only [filtered, List.cons.injEq, and_true]
    have : ∀ b : Belief n, lastOf b (ts ++ [s]) = s.next (lastOf b ts) := by
      induction ts with
      | nil => intro b; rfl
      | cons t ts ih => intro b; exact ih (by simp) _
    rw [this]
  have hrlast : ∀ (ss : List (LinStep n m)) (b : Belief n), ∃ bs, rts b ss = bs ++ [lastOf b ss] := by
    intro ss
    induction ss with
    | nil => intro b; exact ⟨[], rfl⟩
    | cons s ss ih =>
      intro b
      obtain ⟨bs, hbs⟩ := ih (s.next b)
      obtain ⟨x, hx⟩ := rts_eq_cons (s.next b) ss
      refine ⟨rtsStep b s x :: bs, ?_⟩
      rw [rts, hx, lastOf, List.cons_append, ← hbs, hx]
  have hgains := unmeasured_gains hg (lastOf b ss)
  have hfg : filtered (lastOf b ss) gs = forecast (lastOf b ss) gs := forecast_eq (fun g h => (hg g h).1) _
  constructor
  · by_cases hs : Solvable b ss
    · obtain ⟨bs, hbs⟩ := hlast b ss hne
      refine .inr ⟨bs, lastOf b ss, gainsOf b ss, ?_, ?_⟩
      · rw [← hbs]; exact h.returns hs
      · rw [← hbs, ← hfg, ← hgains.2, ← filtered_append, ← gainsOf_append]
        exact h'.returns ((solvable_append _ _ _).2 ⟨hs, hgains.1⟩)
    · exact .inl ⟨h.singular hs, h'.singular fun hs' => hs ((solvable_append _ _ _).1 hs').1⟩
  · intro hf hf'
    have hne' : ss ++ gs ≠ [] := by simp [hne]
    by_cases hs : Solvable b (ss ++ gs) ∧ SmoothSolvable b (ss ++ gs)
    · refine .inr ?_
      have hs1 := ((solvable_append _ _ _).1 hs.1).1
      cases ss with
      | nil => exact absurd rfl hne
      | cons s ss =>
        obtain ⟨bs, hbs⟩ := hrlast ss (s.next b)
        have hr := hs.2
        rw [List.cons_append, SmoothSolvable, rtsSolvable_append] at hr
        refine ⟨bs, lastOf (s.next b) ss, gainsOf b (s :: ss), ?_, ?_⟩
        · rw [← hbs]
          exact h.smoothReturns hf hne hs1 hr.1
        · have := h'.smoothReturns hf' hne' hs.1 hs.2
          rw [gainsOf_append, hgains.2, List.cons_append, smoothed, rts_append_unmeasured hg, hbs] at this
          exact this
    · exact .inl (h'.smoothSingular hf' hne' hs)

/-! ### the hypotheses are met -/

/-- A constant-velocity step without measurement. -/
noncomputable def Ex.cvGap (u z : ℝ) : LinStep 2 1 := { Ex.cvStep u z with H := 0 }

theorem Ex.cvGap_unmeasured (u z : ℝ) : (Ex.cvGap u z).Unmeasured := ⟨rfl, posDef_det_ne (Ex.cvStep_R u z)⟩

theorem Ex.cvGap_pd (u z : ℝ) : PdStep (Ex.cvGap u z) :=
  ⟨(Ex.cv_pdStep [(u, z)] (Ex.cvStep u z) (by simp [Ex.cvSteps])).1, Ex.cvStep_R u z,
    (Ex.cv_pdStep [(u, z)] (Ex.cvStep u z) (by simp [Ex.cvSteps])).2.2⟩

/-- C100: gaps of any lengths in a constant-velocity run; neither `filter` nor `smooth` raises. -/
example (gaps : List (List (ℝ × ℝ) × (ℝ × ℝ))) :
    let gs := gaps.map fun g => (g.1.map fun p => Ex.cvGap p.1 p.2, Ex.cvStep g.2.1 g.2.2)
    let ss := ungroup gs
    let ms := gs.map fun g => mergeSteps g.1 g.2
    (∀ g ∈ gs, ∀ s ∈ g.1, s.Unmeasured) ∧
    Represents (Ex.encode Ex.cvBelief ss) (Ex.encZ ss) (some (Ex.encU ss)) Ex.cvBelief ss ∧
    Represents (Ex.encode Ex.cvBelief ms) (Ex.encZ ms) (some (Ex.encU ms)) Ex.cvBelief ms ∧
    ss.length = (Ex.encZ ss).rows.length ∧ gs.length = (Ex.encZ ms).rows.length ∧
    Solvable Ex.cvBelief ss ∧ SmoothSolvable Ex.cvBelief ss := by
  intro gs ss ms
  have hpd : ∀ s ∈ ss, PdStep s := by
    intro s hs
    simp only [ss, gs, ungroup, List.mem_flatMap, List.mem_map, List.mem_append, List.mem_singleton] at hs
    obtain ⟨-, ⟨g, -, rfl⟩, hs⟩ := hs
    rcases hs with hs | rfl
    · obtain ⟨p, -, rfl⟩ := List.mem_map.1 hs
      exact Ex.cvGap_pd _ _
    · exact Ex.cv_pdStep [g.2] _ (by simp [Ex.cvSteps])
  refine ⟨?_, Ex.encode_represents _ _, Ex.encode_represents _ _, (Ex.encZ_length _).symm, ?_,
    solvable_pd _ _ Ex.cv_posDef hpd, smoothSolvable_pd _ _ Ex.cv_posDef hpd⟩
  · intro g hg s hs
    obtain ⟨g, -, rfl⟩ := List.mem_map.1 hg
    obtain ⟨p, -, rfl⟩ := List.mem_map.1 hs
    exact Ex.cvGap_unmeasured _ _
  · rw [Ex.encZ_length]; simp [ms]

/-- C101: a constant-velocity run followed by any number of steps without measurement. -/
example (uz gaps : List (ℝ × ℝ)) (hne : uz ≠ []) :
    let ss := Ex.cvSteps uz
    let gs := gaps.map fun p => Ex.cvGap p.1 p.2
    (∀ g ∈ gs, g.Unmeasured) ∧ ss ≠ [] ∧
    Represents (Ex.encode Ex.cvBelief ss) (Ex.encZ ss) (some (Ex.encU ss)) Ex.cvBelief ss ∧
    Represents (Ex.encode Ex.cvBelief (ss ++ gs)) (Ex.encZ (ss ++ gs)) (some (Ex.encU (ss ++ gs))) Ex.cvBelief (ss ++ gs) ∧
    ss.length = (Ex.encZ ss).rows.length ∧ (ss ++ gs).length = (Ex.encZ (ss ++ gs)).rows.length ∧
    Solvable Ex.cvBelief (ss ++ gs) ∧ SmoothSolvable Ex.cvBelief (ss ++ gs) := by
  intro ss gs
  have hpd : ∀ s ∈ ss ++ gs, PdStep s := by
    intro s hs
    rcases List.mem_append.1 hs with hs | hs
    · exact Ex.cv_pdStep uz s hs
    · obtain ⟨p, -, rfl⟩ := List.mem_map.1 hs
      exact Ex.cvGap_pd _ _
  refine ⟨?_, by simpa [ss, Ex.cvSteps] using hne, Ex.encode_represents _ _, Ex.encode_represents _ _,
    (Ex.encZ_length _).symm, (Ex.encZ_length _).symm, solvable_pd _ _ Ex.cv_posDef hpd,
    smoothSolvable_pd _ _ Ex.cv_posDef hpd⟩
  intro g hg
  obtain ⟨p, -, rfl⟩ := List.mem_map.1 hg
  exact Ex.cvGap_unmeasured _ _

end

end KK
