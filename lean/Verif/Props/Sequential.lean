import Verif.Spec.Sequential
import Verif.Props.Gaps

/-!
# C113: measurements one by one
-/

set_option linter.unusedSectionVars false

namespace KK

open Matrix

variable {n m : ℕ}

/-- Combine a belief with information, without inverting the covariance. -/
noncomputable def Belief.absorb (b : Belief n) (Y : Matrix (Fin n) (Fin n) ℝ) (y : Fin n → ℝ) : Belief n :=
  ⟨(1 + b.P * Y)⁻¹ *ᵥ (b.x + b.P *ᵥ y), damp b.P Y⟩

theorem absorb_absorb {b : Belief n} {Y Y' : Matrix (Fin n) (Fin n) ℝ} (y y' : Fin n → ℝ) (hP : b.P.PosSemidef)
    (hY : Y.PosSemidef) (hY' : Y'.PosSemidef) : (b.absorb Y y).absorb Y' y' = b.absorb (Y + Y') (y + y') := by
  have u1 := isUnit_iff_ne_zero.2 (one_add_mul_det hP hY)
  obtain ⟨V, hV⟩ : ∃ V, V = (1 + b.P * Y)⁻¹ := ⟨_, rfl⟩
  have hV1 : V * (1 + b.P * Y) = 1 := hV ▸ nonsing_inv_mul _ u1
  have hV2 : (1 + b.P * Y) * V = 1 := hV ▸ mul_nonsing_inv _ u1
  have e : 1 + V * b.P * Y' = V * (1 + b.P * (Y + Y')) := by
    rw [Matrix.mul_add b.P, ← add_assoc, Matrix.mul_add V, hV1, Matrix.mul_assoc]
  have hk : (1 + V * b.P * Y')⁻¹ * V = (1 + b.P * (Y + Y'))⁻¹ := by
    rw [e, Matrix.mul_inv_rev, inv_eq_right_inv hV1, Matrix.mul_assoc, hV2, Matrix.mul_one]
  have hb : b.absorb Y y = ⟨V *ᵥ (b.x + b.P *ᵥ y), V * b.P⟩ := by rw [hV]; rfl
  rw [hb]
  refine congrArg₂ Belief.mk ?_ ?_
  · show (1 + V * b.P * Y')⁻¹ *ᵥ (V *ᵥ (b.x + b.P *ᵥ y) + (V * b.P) *ᵥ y') = _
    rw [← mulVec_mulVec, ← mulVec_add, mulVec_mulVec, hk, add_assoc, ← mulVec_add]
  · show (1 + V * b.P * Y')⁻¹ * (V * b.P) = _
    rw [← Matrix.mul_assoc, hk]; rfl

theorem update_absorb {s : LinStep n m} {p : Belief n} (hP : p.P.PosSemidef) (hR : s.R.PosDef) :
    s.update p = p.absorb (s.Hᵀ * s.R⁻¹ * s.H) ((s.Hᵀ * s.R⁻¹) *ᵥ s.z) := by
  have hY : (s.Hᵀ * s.R⁻¹ * s.H).PosSemidef := by
    have := posSemidef_conj hR.inv.posSemidef s.Hᵀ
    rwa [transpose_transpose] at this
  have u1 := isUnit_iff_ne_zero.2 (one_add_mul_det hP hY)
  have hd := postCov_eq_damp (H := s.H) hP hR
  refine congrArg₂ Belief.mk ?_ hd
  show p.x + kGain s.H p.P s.R *ᵥ _ = _
  rw [kGain_post hR hP, hd, damp]
  obtain ⟨V, hV⟩ : ∃ V, V = (1 + p.P * (s.Hᵀ * s.R⁻¹ * s.H))⁻¹ := ⟨_, rfl⟩
  have hV1 : V * (1 + p.P * (s.Hᵀ * s.R⁻¹ * s.H)) = 1 := hV ▸ nonsing_inv_mul _ u1
  obtain ⟨T, hT⟩ : ∃ T, T = s.Hᵀ * s.R⁻¹ := ⟨_, rfl⟩
  rw [← hV, ← hT]
  rw [← hT] at hV1
  have : p.x = V *ᵥ (p.x + p.P *ᵥ (T *ᵥ (s.H *ᵥ p.x))) := by
    have := congrArg (· *ᵥ p.x) hV1
    simp only [one_mulVec, ← mulVec_mulVec, add_mulVec] at this
    exact this.symm
  conv_lhs => enter [1]; rw [this]
  rw [← mulVec_mulVec, ← mulVec_mulVec, ← mulVec_add, mulVec_sub T, mulVec_sub p.P]
  congr 1
  abel

/-- A step that only measures. -/
def Reads (s : LinStep n 1) : Prop := s.A = 1 ∧ s.c = 0 ∧ s.Q = 0 ∧ s.R.PosDef

theorem Reads.predict {s : LinStep n 1} (h : Reads s) (b : Belief n) : s.predict b = b := by
  obtain ⟨h1, h2, h3, -⟩ := h
  refine congrArg₂ Belief.mk ?_ ?_
  · show s.A *ᵥ b.x + s.c = b.x
    rw [h1, h2, one_mulVec, add_zero]
  · show s.A * b.P * s.Aᵀ + s.Q = b.P
    rw [h1, h3, transpose_one, Matrix.mul_one, Matrix.one_mul, add_zero]

theorem Reads.next {s : LinStep n 1} (h : Reads s) {b : Belief n} (hP : b.P.PosSemidef) :
    s.next b = b.absorb (s.Hᵀ * s.R⁻¹ * s.H) ((s.Hᵀ * s.R⁻¹) *ᵥ s.z) := by
  rw [LinStep.next, h.predict, update_absorb hP h.2.2.2]

theorem infoMat_psd {s : LinStep n m} (hR : s.R.PosDef) : (s.Hᵀ * s.R⁻¹ * s.H).PosSemidef := by
  have := posSemidef_conj hR.inv.posSemidef s.Hᵀ
  rwa [transpose_transpose] at this

theorem sum_psd (l : List (LinStep n 1)) (h : ∀ s ∈ l, Reads s) : (l.map fun s : LinStep n 1 => s.Hᵀ * s.R⁻¹ * s.H).sum.PosSemidef := by
  induction l with
  | nil => exact PosSemidef.zero
  | cons s l ih => 
    rw [List.map_cons, List.sum_cons]
    exact (infoMat_psd (h s (by simp)).2.2.2).add (ih fun t ht => h t (by simp [ht]))

theorem lastOf_reads (l : List (LinStep n 1)) (h : ∀ s ∈ l, Reads s) (b : Belief n) (Y : Matrix (Fin n) (Fin n) ℝ) (y : Fin n → ℝ)
    (hP : b.P.PosSemidef) (hY : Y.PosSemidef) :
    lastOf (b.absorb Y y) l = b.absorb (Y + (l.map fun s => s.Hᵀ * s.R⁻¹ * s.H).sum) (y + (l.map fun s => (s.Hᵀ * s.R⁻¹) *ᵥ s.z).sum) := by
  induction l generalizing Y y with
  | nil => simp [lastOf]
  | cons s l ih =>
    have hs := h s (by simp)
    have hi := infoMat_psd hs.2.2.2
    rw [lastOf, hs.next (damp_posSemidef hP hY), absorb_absorb _ _ hP hY hi, ih (fun t ht => h t (by simp [ht])) _ _ (hY.add hi)]
    simp only [List.map_cons, List.sum_cons, add_assoc]

section one

variable {s : LinStep n (m + 1)} (h : s.Uncorrelated)

include h

theorem Uncorrelated.pd1 (i : Fin (m + 1)) : (s.reading i).R.PosDef := by
  have : (s.reading i).R = diagonal fun _ => s.R i i := by
    ext a b; rw [Subsingleton.elim a b]; simp [LinStep.reading]
  rw [this]
  exact PosDef.diagonal fun _ => h.2 i

theorem Uncorrelated.diag : s.R = diagonal fun i => s.R i i := by
  ext a b
  by_cases e : a = b
  · subst e; simp
  · rw [h.1 a b e, diagonal_apply_ne _ e]

theorem Uncorrelated.pd : s.R.PosDef := by
  rw [Uncorrelated.diag h]; exact PosDef.diagonal fun i => h.2 i

theorem Uncorrelated.inv : s.R⁻¹ = diagonal fun i => (s.R i i)⁻¹ := by
  refine inv_eq_right_inv ?_
  rw [Uncorrelated.diag h, diagonal_mul_diagonal, ← diagonal_one]
  congr 1
  funext i
  simp [mul_inv_cancel₀ (h.2 i).ne']

theorem Uncorrelated.inv1 (i : Fin (m + 1)) : (s.reading i).R⁻¹ = Matrix.of fun _ _ => (s.R i i)⁻¹ := by
  refine inv_eq_right_inv ?_
  ext a b
  rw [Subsingleton.elim a b]
  simp [LinStep.reading, Matrix.mul_apply, mul_inv_cancel₀ (h.2 i).ne']

theorem Uncorrelated.sum : s.Hᵀ * s.R⁻¹ * s.H = ∑ i, (s.reading i).Hᵀ * (s.reading i).R⁻¹ * (s.reading i).H ∧
    (s.Hᵀ * s.R⁻¹) *ᵥ s.z = ∑ i, ((s.reading i).Hᵀ * (s.reading i).R⁻¹) *ᵥ (s.reading i).z := by
  constructor
  · ext a b
    rw [Matrix.sum_apply, Uncorrelated.inv h, Matrix.mul_apply]
    simp only [Uncorrelated.inv1 h, mul_diagonal, transpose_apply]
    simp [LinStep.reading, Matrix.mul_apply]
  · ext a
    rw [Finset.sum_apply, Uncorrelated.inv h]
    simp only [Uncorrelated.inv1 h, mulVec, dotProduct, mul_diagonal, transpose_apply]
    simp [LinStep.reading, Matrix.mul_apply]

theorem Uncorrelated.reads (i : Fin (m + 1)) : Reads (s.reading i) := ⟨rfl, rfl, rfl, Uncorrelated.pd1 h i⟩

/-- Taking the measurements one by one gives the same belief. -/
theorem oneByOne_last {b : Belief n} (hP : b.P.PosSemidef) (hQ : s.Q.PosSemidef) : lastOf b s.oneByOne = s.next b := by
  have hp : (s.predict b).P.PosSemidef := priorCov_posSemidef hP hQ
  have e1 : ({ s.reading 0 with A := s.A, c := s.c, Q := s.Q } : LinStep n 1).next b =
      (s.predict b).absorb ((s.reading 0).Hᵀ * (s.reading 0).R⁻¹ * (s.reading 0).H) (((s.reading 0).Hᵀ * (s.reading 0).R⁻¹) *ᵥ (s.reading 0).z) :=
    update_absorb (s := { s.reading 0 with A := s.A, c := s.c, Q := s.Q }) hp (Uncorrelated.pd1 h 0)
  have hr : ∀ t ∈ List.ofFn fun i : Fin m => s.reading i.succ, Reads t := by
    intro t ht
    obtain ⟨i, rfl⟩ := (List.mem_ofFn' _ _).1 ht
    exact Uncorrelated.reads h _
  rw [LinStep.oneByOne, lastOf, e1, lastOf_reads _ hr _ _ _ hp (infoMat_psd (Uncorrelated.pd1 h 0)), LinStep.next,
    update_absorb hp (Uncorrelated.pd h), (Uncorrelated.sum h).1, (Uncorrelated.sum h).2, Fin.sum_univ_succ, Fin.sum_univ_succ,
    List.map_ofFn, List.map_ofFn, List.sum_ofFn, List.sum_ofFn]
  rfl

end one


theorem oneByOne_length (s : LinStep n (m + 1)) : s.oneByOne.length = m + 1 := by simp [LinStep.oneByOne]

/-- The parts of a step. -/
theorem oneByOne_mem {s : LinStep n (m + 1)} {t : LinStep n 1} (h : s.Uncorrelated) (ht : t ∈ s.oneByOne) :
    t.R.PosDef ∧ (t.Q = s.Q ∧ t.A = s.A ∨ t.Q = 0 ∧ t.A = 1) := by
  rcases List.mem_cons.1 ht with rfl | ht
  · exact ⟨Uncorrelated.pd1 h 0, Or.inl ⟨rfl, rfl⟩⟩
  · obtain ⟨i, rfl⟩ := (List.mem_ofFn' _ _).1 ht
    exact ⟨Uncorrelated.pd1 h _, Or.inr ⟨rfl, rfl⟩⟩

theorem oneByOne_pdStep {s : LinStep n (m + 1)} {t : LinStep n 1} (h : s.Uncorrelated) (hs : PdStep s) (ht : t ∈ s.oneByOne) :
    PdStep t := by
  obtain ⟨hR, ⟨hQ, hA⟩ | ⟨hQ, hA⟩⟩ := oneByOne_mem h ht
  · exact ⟨hQ ▸ hs.1, hR, by rw [hQ, hA]; exact hs.2.2⟩
  · exact ⟨hQ ▸ PosSemidef.zero, hR, Or.inl (by rw [hA, det_one]; exact one_ne_zero)⟩

theorem oneByOne_filtered {b : Belief n} {ss : List (LinStep n (m + 1))} (hP : b.P.PosSemidef) (hQ : ∀ s ∈ ss, s.Q.PosSemidef)
    (hu : ∀ s ∈ ss, s.Uncorrelated) (k : ℕ) :
    (filtered b (ss.flatMap LinStep.oneByOne))[(m + 1) * k + m]? = (filtered b ss)[k]? := by
  induction ss generalizing b k with
  | nil => rfl
  | cons s ss ih =>
    have hs := hu s (by simp)
    have hQs := hQ s (by simp)
    have hl : (filtered b s.oneByOne).length = m + 1 := by rw [filtered_length, oneByOne_length]
    rw [List.flatMap_cons, filtered_append, oneByOne_last hs hP hQs, filtered]
    rcases k with _ | k
    · rw [Nat.mul_zero, Nat.zero_add, List.getElem?_append_left (by omega), List.getElem?_cons_zero,
        filtered_get b _ m (by rw [oneByOne_length]; omega), List.take_of_length_le (by rw [oneByOne_length]),
        oneByOne_last hs hP hQs]
    · rw [List.getElem?_append_right (by rw [hl, Nat.mul_succ]; omega), List.getElem?_cons_succ, hl,
        show (m + 1) * (k + 1) + m - (m + 1) = (m + 1) * k + m by rw [Nat.mul_succ]; omega]
      exact ih (psd_next hP hQs (Uncorrelated.pd hs)).1 (fun t ht => hQ t (by simp [ht])) (fun t ht => hu t (by simp [ht])) k

theorem Reads.rtsStep {s : LinStep n 1} (h : Reads s) {b : Belief n} (hP : b.P.PosDef) (q : Belief n) : rtsStep b s q = q := by
  have hG : b.P * s.Aᵀ * (s.predict b).P⁻¹ = 1 := by
    rw [h.predict, h.1, transpose_one, Matrix.mul_one, mul_nonsing_inv _ (posDef_isUnit_det hP)]
  refine congrArg₂ Belief.mk ?_ ?_
  · show b.x + (b.P * s.Aᵀ * (s.predict b).P⁻¹) *ᵥ (q.x - (s.predict b).x) = q.x
    rw [hG, h.predict, one_mulVec, add_sub_cancel]
  · show b.P + (b.P * s.Aᵀ * (s.predict b).P⁻¹) * (q.P - (s.predict b).P) * (b.P * s.Aᵀ * (s.predict b).P⁻¹)ᵀ = q.P
    rw [hG, h.predict, transpose_one, Matrix.mul_one, Matrix.one_mul, add_sub_cancel]

theorem Reads.pdStep {s : LinStep n 1} (h : Reads s) : PdStep s :=
  ⟨h.2.2.1 ▸ PosSemidef.zero, h.2.2.2, Or.inl (by rw [h.1, det_one]; exact one_ne_zero)⟩

theorem rts_reads {l tt : List (LinStep n 1)} (hl : ∀ s ∈ l, Reads s) {b : Belief n} (hP : b.P.PosDef) {x : Belief n}
    {qs : List (Belief n)} (h : rts (lastOf b l) tt = x :: qs) : rts b (l ++ tt) = List.replicate l.length x ++ x :: qs := by
  induction l generalizing b with
  | nil => exact h
  | cons s l ih =>
    have hs := hl s (by simp)
    have e := ih (fun t ht => hl t (by simp [ht])) (hs.pdStep.next hP) h
    rw [List.cons_append, rts, e, List.length_cons, List.replicate_succ]
    rcases l with _ | ⟨t, l⟩
    · simp [hs.rtsStep hP]
    · simp [List.replicate_succ, hs.rtsStep hP]

theorem rts_oneByOne_step {s : LinStep n (m + 1)} (h : s.Uncorrelated) (hs : PdStep s) {b : Belief n} (hP : b.P.PosDef)
    {tt : List (LinStep n 1)} {x : Belief n} {qs : List (Belief n)} (hr : rts (s.next b) tt = x :: qs) :
    rts b (s.oneByOne ++ tt) = rtsStep b s x :: (List.replicate (m + 1) x ++ qs) ∧
    smoothed b (s.oneByOne ++ tt) = List.replicate (m + 1) x ++ qs := by
  have hread : ∀ t ∈ List.ofFn fun i : Fin m => s.reading i.succ, Reads t := by
    intro t ht
    obtain ⟨i, rfl⟩ := (List.mem_ofFn' _ _).1 ht
    exact Uncorrelated.reads h _
  obtain ⟨t0, ht0⟩ : ∃ t0 : LinStep n 1, t0 = { s.reading 0 with A := s.A, c := s.c, Q := s.Q } := ⟨_, rfl⟩
  have hob : s.oneByOne = t0 :: List.ofFn fun i : Fin m => s.reading i.succ := by rw [ht0]; rfl
  have hpd : PdStep t0 := oneByOne_pdStep h hs (by rw [hob]; exact List.mem_cons_self)
  have hlast := oneByOne_last h hP.posSemidef hs.1
  rw [hob, lastOf] at hlast
  have e := rts_reads hread (hpd.next hP) (tt := tt) (x := x) (qs := qs) (by rw [hlast]; exact hr)
  rw [List.length_ofFn] at e
  have hst : rtsStep b t0 x = rtsStep b s x := by rw [ht0]; rfl
  have e2 : List.replicate m x ++ x :: qs = x :: (List.replicate m x ++ qs) := by
    rw [← List.singleton_append (l := qs), ← List.append_assoc, ← List.replicate_succ', List.replicate_succ, List.cons_append]
  rw [e2] at e
  rw [hob, List.cons_append, rts, smoothed, e, ← hst, List.replicate_succ, List.cons_append]
  exact ⟨rfl, rfl⟩

theorem rts_oneByOne {ss : List (LinStep n (m + 1))} (hu : ∀ s ∈ ss, s.Uncorrelated) (hs : ∀ s ∈ ss, PdStep s) {b : Belief n}
    (hP : b.P.PosDef) : ∃ x, rts b ss = x :: smoothed b ss ∧
      rts b (ss.flatMap LinStep.oneByOne) = x :: (smoothed b ss).flatMap (List.replicate (m + 1)) := by
  induction ss generalizing b with
  | nil => exact ⟨b, rfl, rfl⟩
  | cons s ss ih =>
    obtain ⟨q, h1, h2⟩ := ih (fun t ht => hu t (by simp [ht])) (fun t ht => hs t (by simp [ht])) ((hs s (by simp)).next hP)
    refine ⟨rtsStep b s q, ?_, ?_⟩
    · rw [rts, h1, smoothed, h1]
    · rw [List.flatMap_cons, (rts_oneByOne_step (hu s (by simp)) (hs s (by simp)) hP h2).1, smoothed, h1]
      rfl

theorem smoothed_oneByOne {ss : List (LinStep n (m + 1))} (hu : ∀ s ∈ ss, s.Uncorrelated) (hs : ∀ s ∈ ss, PdStep s) {b : Belief n}
    (hP : b.P.PosDef) : smoothed b (ss.flatMap LinStep.oneByOne) = (smoothed b ss).flatMap (List.replicate (m + 1)) := by
  cases ss with
  | nil => rfl
  | cons s ss =>
    obtain ⟨q, h1, h2⟩ := rts_oneByOne (ss := ss) (fun t ht => hu t (by simp [ht])) (fun t ht => hs t (by simp [ht])) ((hs s (by simp)).next hP)
    rw [List.flatMap_cons, (rts_oneByOne_step (hu s (by simp)) (hs s (by simp)) hP h2).2, smoothed, h1]
    rfl

variable [Platform]

/-- C113: Measurements with independent noises may be handed to `filter` one at a time: the first with the transition, the others with
an identity transition, no control and no process noise. The last belief of each group is the belief of the joint run. -/
theorem C113_filter_one_by_one (kf kf' : KalmanFilter Fl) (Z Z' : NDArray Fl) (U U' : Option (NDArray Fl)) (b : Belief n)
    (ss : List (LinStep n (m + 1))) (h : Represents kf Z U b ss) (h' : Represents kf' Z' U' b (ss.flatMap LinStep.oneByOne))
    (hP : b.P.PosSemidef) (hQ : ∀ s ∈ ss, s.Q.PosSemidef) (hu : ∀ s ∈ ss, s.Uncorrelated) :
    ∃ (bs bs' : List (Belief n)) (Ks : List (Matrix (Fin n) (Fin (m + 1)) ℝ)) (Ks' : List (Matrix (Fin n) (Fin 1) ℝ)),
      FilterReturns kf Z U bs Ks ∧ FilterReturns kf' Z' U' bs' Ks' ∧
      bs'.length = (m + 1) * bs.length ∧ ∀ k, bs'[(m + 1) * k + m]? = bs[k]? := by
  have s1 : Solvable b ss := solvable_psd hP hQ fun s hs => Uncorrelated.pd (hu s hs)
  have s2 : Solvable b (ss.flatMap LinStep.oneByOne) := by
    refine solvable_psd hP (fun t ht => ?_) fun t ht => ?_
    · obtain ⟨s, hs, ht⟩ := List.mem_flatMap.1 ht
      obtain ⟨-, ⟨e, -⟩ | ⟨e, -⟩⟩ := oneByOne_mem (hu s hs) ht
      · exact e ▸ hQ s hs
      · exact e ▸ PosSemidef.zero
    · obtain ⟨s, hs, ht⟩ := List.mem_flatMap.1 ht
      exact (oneByOne_mem (hu s hs) ht).1
  refine ⟨_, _, _, _, h.returns s1, h'.returns s2, ?_, oneByOne_filtered hP hQ hu⟩
  rw [filtered_length, filtered_length, List.length_flatMap]
  simp [oneByOne_length, Nat.mul_comm]

/-- C113: The smoother of the one-by-one run reports, at each of the `m + 1` rows of a group, the smoothed belief of the joint run. -/
theorem C113_smooth_one_by_one (kf kf' : KalmanFilter Fl) (Z Z' : NDArray Fl) (U U' : Option (NDArray Fl)) (b : Belief n)
    (ss : List (LinStep n (m + 1))) (h : Represents kf Z U b ss) (h' : Represents kf' Z' U' b (ss.flatMap LinStep.oneByOne))
    (hne : ss ≠ []) (hlen : ss.length = Z.rows.length) (hlen' : (m + 1) * ss.length = Z'.rows.length)
    (hP : b.P.PosDef) (hs : ∀ s ∈ ss, PdStep s) (hu : ∀ s ∈ ss, s.Uncorrelated) :
    ∃ (bs : List (Belief n)) (Ks : List (Matrix (Fin n) (Fin (m + 1)) ℝ)) (Ks' : List (Matrix (Fin n) (Fin 1) ℝ)),
      SmoothReturns kf Z U bs Ks ∧ SmoothReturns kf' Z' U' (bs.flatMap (List.replicate (m + 1))) Ks' := by
  have hs' : ∀ t ∈ ss.flatMap LinStep.oneByOne, PdStep t := fun t ht => by
    obtain ⟨s, hs1, ht⟩ := List.mem_flatMap.1 ht
    exact oneByOne_pdStep (hu s hs1) (hs s hs1) ht
  have hl : (ss.flatMap LinStep.oneByOne).length = Z'.rows.length := by
    rw [← hlen', List.length_flatMap]; simp [oneByOne_length, Nat.mul_comm]
  have hne' : ss.flatMap LinStep.oneByOne ≠ [] := by
    intro e
    rw [e] at hl
    have := List.length_pos_iff.2 hne
    have := Nat.mul_pos (Nat.succ_pos m) this
    rw [hlen', ← hl] at this
    simp at this
  have := h'.smoothReturns hl hne' (solvable_pd _ _ hP hs') (smoothSolvable_pd _ _ hP hs')
  rw [smoothed_oneByOne hu hs hP] at this
  exact ⟨_, _, _, h.smoothReturns hlen hne (solvable_pd _ _ hP hs) (smoothSolvable_pd _ _ hP hs), this⟩

/-! ### an instance: position and velocity of a moving point, measured together or one after the other -/

namespace Ex

/-- Position and velocity measured, with different noises. -/
def bothStep (z : Fin 2 → ℝ) : LinStep 2 2 := ⟨!![1, 1; 0, 1], ![1, 0], 1, 1, !![1, 0; 0, 2], z⟩

theorem bothStep_unc (z : Fin 2 → ℝ) : (bothStep z).Uncorrelated := by
  refine ⟨fun i j h => ?_, fun i => ?_⟩
  · fin_cases i <;> fin_cases j <;> simp_all [bothStep]
  · fin_cases i <;> simp [bothStep]

theorem bothStep_pd (z : Fin 2 → ℝ) : PdStep (bothStep z) :=
  ⟨PosSemidef.one, Uncorrelated.pd (bothStep_unc z), Or.inr PosDef.one⟩

end Ex


/-- Both theorems apply to tracking a point whose position and velocity are both measured, for every non-empty list of readings. -/
example (zs : List (Fin 2 → ℝ)) (hne : zs ≠ []) :
    let ss := zs.map Ex.bothStep
    let ts := ss.flatMap LinStep.oneByOne
    let b := Ex.cvBelief
    Represents (Ex.encode b ss) (Ex.encZ ss) (some (Ex.encU ss)) b ss ∧
    Represents (Ex.encode b ts) (Ex.encZ ts) (some (Ex.encU ts)) b ts ∧
    ss ≠ [] ∧ ss.length = (Ex.encZ ss).rows.length ∧ 2 * ss.length = (Ex.encZ ts).rows.length ∧
    b.P.PosDef ∧ (∀ s ∈ ss, PdStep s) ∧ ∀ s ∈ ss, s.Uncorrelated := by
  intro ss ts b
  refine ⟨Ex.encode_represents _ _, Ex.encode_represents _ _, by simpa [ss] using hne, (Ex.encZ_length _).symm, ?_, Ex.cv_posDef, ?_, ?_⟩
  · rw [Ex.encZ_length, List.length_flatMap]
    simp [oneByOne_length, ss, Function.comp_def, Nat.mul_comm]
  · intro s hs
    obtain ⟨z, -, rfl⟩ := List.mem_map.1 hs
    exact Ex.bothStep_pd z
  · intro s hs
    obtain ⟨z, -, rfl⟩ := List.mem_map.1 hs
    exact Ex.bothStep_unc z

end KK
