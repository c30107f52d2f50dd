import Verif.Proofs.TwoFilter
import Verif.Spec.Sensors

/-!
# C90 - C93: smoothed results as filtered results plus the information in later data; what more data and better sensors do
-/

set_option linter.unusedSectionVars false

namespace KK

open Matrix

variable {n m m' : ℕ}

theorem smoothed_combines (b : Belief n) (ss : List (LinStep n m)) (hb : b.P.PosDef) (hs : ∀ s ∈ ss, PdStep s)
    (k : ℕ) (f q : Belief n) (hf : (filtered b ss)[k]? = some f) (hq : (smoothed b ss)[k]? = some q) :
    f.P.PosDef ∧ Combines f q (futureInfo (ss.drop (k + 1))) := by
  cases ss with
  | nil => simp [filtered] at hf
  | cons s ss =>
    have hs0 := hs s (by simp)
    have hn := hs0.next hb
    have hall : ∀ f ∈ filtered b (s :: ss), f.P.PosDef := by
      have h := rts_le b (s :: ss) hb hs
      clear hf hq
      have hgen : ∀ (ss : List (LinStep n m)) (b : Belief n), b.P.PosDef → (∀ s ∈ ss, PdStep s) →
          ∀ f ∈ filtered b ss, f.P.PosDef := by
        intro ss
        induction ss with
        | nil => simp [filtered]
        | cons t ss ih =>
          intro b hb hs f hf
          rw [filtered, List.mem_cons] at hf
          rcases hf with rfl | hf
          · exact (hs t (by simp)).next hb
          · exact ih _ ((hs t (by simp)).next hb) (fun u hu => hs u (by simp [hu])) f hf
      exact hgen _ b hb hs
    refine ⟨hall f (List.mem_of_getElem? hf), ?_⟩
    obtain ⟨r, rs, h1, h2, h3⟩ := rts_combines (s.next b) ss hn fun t ht => hs t (by simp [ht])
    rw [smoothed, h1] at hq
    rw [filtered] at hf
    rcases k with _ | k
    · simp only [List.getElem?_cons_zero, Option.some.injEq] at hf hq
      subst hf hq
      simpa using h2
    · simp only [List.getElem?_cons_succ] at hf hq
      simpa using h3 k f q hf hq

theorem smoothed_cov (b : Belief n) (ss : List (LinStep n m)) (hb : b.P.PosDef) (hs : ∀ s ∈ ss, PdStep s)
    (k : ℕ) (f q : Belief n) (hf : (filtered b ss)[k]? = some f) (hq : (smoothed b ss)[k]? = some q) :
    f.P.PosDef ∧ q.P = damp f.P (futureInfo (ss.drop (k + 1))).Y := by
  obtain ⟨h1, h2, h3, -⟩ := smoothed_combines b ss hb hs k f q hf hq
  have hY := futureInfo_psd (ss.drop (k + 1)) (fun t ht => (hs t (List.mem_of_mem_drop ht)).1)
    fun t ht => (hs t (List.mem_of_mem_drop ht)).2.1
  refine ⟨h1, ?_⟩
  rw [← inv_add_eq_damp h1 hY, ← h3, nonsing_inv_nonsing_inv _ (posDef_isUnit_det h2)]

/-! ### order of information -/

theorem inv_anti {R R' : Matrix (Fin m) (Fin m) ℝ} (hR : R.PosDef) (h : (R' - R).PosSemidef) :
    (R⁻¹ - R'⁻¹).PosSemidef := by
  have e : R'⁻¹ = damp R⁻¹ (R' - R) := by
    have := inv_add_eq_damp hR.inv h
    rw [← this, nonsing_inv_nonsing_inv _ (posDef_isUnit_det hR)]
    congr 1; abel
  have e0 : R⁻¹ = damp R⁻¹ 0 := by simp [damp]
  have := damp_anti_right (Q := 0) (Q' := R' - R) hR.inv.posSemidef PosSemidef.zero (by simpa using h)
  rwa [← e, ← e0] at this

theorem Noisier.informative {s s' : LinStep n m} (h : Noisier s s') (hR : s.R.PosDef) : AtLeastAsInformative s s' := by
  refine ⟨h.A, h.Q, ?_⟩
  have := posSemidef_conj (inv_anti hR h.R) s.Hᵀ
  rw [transpose_transpose, Matrix.mul_sub, Matrix.sub_mul] at this
  rwa [h.H]

theorem compress_informative {L : Matrix (Fin m') (Fin m) ℝ} {s : LinStep n m} (hR : s.R.PosDef)
    (hL : (L * s.R * Lᵀ).PosDef) : AtLeastAsInformative s (s.compress L) := by
  refine ⟨rfl, by simpa [LinStep.compress] using PosSemidef.zero, ?_⟩
  have hRs := IsHermitian.symm' hR.1
  have hRi := nonsing_inv_mul _ (posDef_isUnit_det hR)
  have hRi' := mul_nonsing_inv _ (posDef_isUnit_det hR)
  have hLi := nonsing_inv_mul _ (posDef_isUnit_det hL)
  have hLs := IsHermitian.symm' hL.1
  have hX : (s.R⁻¹ - Lᵀ * (L * s.R * Lᵀ)⁻¹ * L).PosSemidef := by
    have key := posSemidef_conj hR.posSemidef (s.R⁻¹ - Lᵀ * (L * s.R * Lᵀ)⁻¹ * L)
    have hT : (s.R⁻¹ - Lᵀ * (L * s.R * Lᵀ)⁻¹ * L)ᵀ = s.R⁻¹ - Lᵀ * (L * s.R * Lᵀ)⁻¹ * L := by
      rw [transpose_sub, transpose_mul, transpose_mul, transpose_transpose, transpose_nonsing_inv, transpose_nonsing_inv, hRs,
        hLs]
      simp only [Matrix.mul_assoc]
    rw [hT] at key
    convert key using 1
    generalize hM : (L * s.R * Lᵀ)⁻¹ = M at *
    calc s.R⁻¹ - Lᵀ * M * L
        = s.R⁻¹ - Lᵀ * M * L - Lᵀ * M * L + Lᵀ * (M * (L * s.R * Lᵀ)) * M * L := by
          rw [hLi, Matrix.mul_one]; abel
      _ = (s.R⁻¹ * s.R) * s.R⁻¹ - (s.R⁻¹ * s.R) * (Lᵀ * M * L) - Lᵀ * M * L * (s.R * s.R⁻¹) +
          Lᵀ * (M * (L * s.R * Lᵀ)) * M * L := by rw [hRi, hRi', Matrix.one_mul, Matrix.one_mul, Matrix.mul_one]
      _ = _ := by
          simp only [Matrix.sub_mul, Matrix.mul_sub, Matrix.mul_assoc]
          abel
  have := posSemidef_conj hX s.Hᵀ
  rw [transpose_transpose, Matrix.mul_sub, Matrix.sub_mul] at this
  convert this using 2
  simp only [LinStep.compress, transpose_mul, Matrix.mul_assoc]

theorem info_psd {s : LinStep n m} (hR : s.R.PosDef) : (s.Hᵀ * s.R⁻¹ * s.H).PosSemidef := by
  have := posSemidef_conj hR.inv.posSemidef s.Hᵀ
  rwa [transpose_transpose] at this

theorem next_informative {s : LinStep n m} {s' : LinStep n m'} {b b' : Belief n} (h : AtLeastAsInformative s s')
    (hb : b.P.PosSemidef) (hQ : s.Q.PosSemidef) (hR : s.R.PosDef) (hR' : s'.R.PosDef) (hle : (b'.P - b.P).PosSemidef) :
    ((s'.next b').P - (s.next b).P).PosSemidef := by
  have hb' : b'.P.PosSemidef := by have := hle.add hb; rwa [sub_add_cancel] at this
  have hQ' : s'.Q.PosSemidef := by have := h.Q.add hQ; rwa [sub_add_cancel] at this
  have hp := priorCov_posSemidef (A := s.A) hb hQ
  have hp' := priorCov_posSemidef (A := s'.A) hb' hQ'
  show (postCov s'.H (priorCov s'.A b'.P s'.Q) s'.R - postCov s.H (priorCov s.A b.P s.Q) s.R).PosSemidef
  rw [postCov_eq_damp hp hR, postCov_eq_damp hp' hR']
  refine damp_mono hp (info_psd hR') ?_ h.info
  rw [h.A]
  exact priorCov_mono hle h.Q

theorem filtered_informative {b b' : Belief n} {ss : List (LinStep n m)} {ss' : List (LinStep n m')}
    (h : List.Forall₂ AtLeastAsInformative ss ss') (hb : b.P.PosSemidef) (hQ : ∀ s ∈ ss, s.Q.PosSemidef)
    (hR : ∀ s ∈ ss, s.R.PosDef) (hR' : ∀ s ∈ ss', s.R.PosDef) (hle : (b'.P - b.P).PosSemidef) :
    List.Forall₂ (fun q q' : Belief n => (q'.P - q.P).PosSemidef) (filtered b ss) (filtered b' ss') := by
  induction h generalizing b b' with
  | nil => exact .nil
  | @cons s s' ss ss' h1 h2 ih =>
    have hn := next_informative h1 hb (hQ s (by simp)) (hR s (by simp)) (hR' s' (by simp)) hle
    exact .cons hn (ih (psd_next hb (hQ s (by simp)) (hR s (by simp))).1 (fun s hs => hQ s (by simp [hs]))
      (fun s hs => hR s (by simp [hs])) (fun s hs => hR' s (by simp [hs])) hn)

theorem futureInfo_informative {ss : List (LinStep n m)} {ss' : List (LinStep n m')}
    (h : List.Forall₂ AtLeastAsInformative ss ss') (hQ : ∀ s ∈ ss, s.Q.PosSemidef)
    (hR : ∀ s ∈ ss, s.R.PosDef) (hR' : ∀ s ∈ ss', s.R.PosDef) (hQ' : ∀ s ∈ ss', s.Q.PosSemidef) :
    ((futureInfo ss).Y - (futureInfo ss').Y).PosSemidef := by
  induction h with
  | nil => simpa [futureInfo] using PosSemidef.zero
  | @cons s s' ss ss' h1 h2 ih =>
    have ih' := ih (fun s hs => hQ s (by simp [hs])) (fun s hs => hR s (by simp [hs])) (fun s hs => hR' s (by simp [hs]))
      (fun s hs => hQ' s (by simp [hs]))
    have hW := Info.measure_psd (hR' s' (by simp)) (futureInfo_psd ss' (fun s hs => hQ' s (by simp [hs]))
      (fun s hs => hR' s (by simp [hs])))
    have hM : (((futureInfo ss).measure s).Y - ((futureInfo ss').measure s').Y).PosSemidef := by
      have := ih'.add h1.info
      simp only [Info.measure]
      convert this using 1; abel
    have := posSemidef_conj (damp_mono hW (hQ s (by simp)) hM h1.Q) s.Aᵀ
    rw [transpose_transpose, Matrix.mul_sub, Matrix.sub_mul] at this
    simp only [futureInfo, Info.pull]
    rw [h1.A]
    exact this

theorem futureInfo_append (ss more : List (LinStep n m)) (hQ : ∀ s ∈ ss ++ more, s.Q.PosSemidef)
    (hR : ∀ s ∈ ss ++ more, s.R.PosDef) : ((futureInfo (ss ++ more)).Y - (futureInfo ss).Y).PosSemidef := by
  induction ss with
  | nil =>
    have := futureInfo_psd more (by simpa using hQ) (by simpa using hR)
    simpa [futureInfo] using this
  | cons s ss ih =>
    have ih' := ih (fun t ht => hQ t (by simp at ht ⊢; tauto)) (fun t ht => hR t (by simp at ht ⊢; tauto))
    have hW := Info.measure_psd (hR s (by simp)) (futureInfo_psd ss (fun t ht => hQ t (by simp [ht]))
      (fun t ht => hR t (by simp [ht])))
    have hM : (((futureInfo (ss ++ more)).measure s).Y - ((futureInfo ss).measure s).Y).PosSemidef := by
      simp only [Info.measure]
      convert ih' using 1; abel
    have := posSemidef_conj (damp_mono_left hW (hQ s (by simp)) hM) s.Aᵀ
    rw [transpose_transpose, Matrix.mul_sub, Matrix.sub_mul] at this
    exact this

theorem filtered_getElem_append (b : Belief n) (ss more : List (LinStep n m)) (k : ℕ) (hk : k < ss.length) :
    (filtered b (ss ++ more))[k]? = (filtered b ss)[k]? := by
  induction ss generalizing b k with
  | nil => simp at hk
  | cons s ss ih =>
    rcases k with _ | k
    · simp [filtered]
    · simp only [List.cons_append, filtered, List.getElem?_cons_succ]
      exact ih _ k (by simpa using hk)

theorem exists_row (b : Belief n) (ss : List (LinStep n m)) (k : ℕ) (hk : k < ss.length) :
    ∃ f q, (filtered b ss)[k]? = some f ∧ (smoothed b ss)[k]? = some q :=
  ⟨_, _, List.getElem?_eq_getElem (by rwa [filtered_length]), List.getElem?_eq_getElem (by rwa [smoothed_length])⟩

/-! ## the properties -/

section api
variable [Platform]

/-- C90: with PD initial covariance and measurement noise, PSD process noise and at each step an invertible transition or PD
process noise, `filter` and `smooth` return and record the same gains, and at every time the smoothed estimate is the filtered
one combined with the information `(Y, y)` that the *later* measurements alone contain about that state: inverse covariances
add, and so do the inverse covariances applied to the means.  `(Y, y)` does not depend on the initial belief nor on the data up
to that time. -/
theorem C90_two_filter {kf : KalmanFilter Fl} {Z : NDArray Fl} {U : Option (NDArray Fl)} {b : Belief n}
    {ss : List (LinStep n m)} (h : Represents kf Z U b ss) (hfull : ss.length = Z.rows.length) (hne : ss ≠ [])
    (hP : b.P.PosDef) (hs : ∀ s ∈ ss, PdStep s) :
    ∃ fs qs : List (Belief n), ∃ Ks, FilterReturns (m := m) kf Z U fs Ks ∧ SmoothReturns (m := m) kf Z U qs Ks ∧
      fs.length = ss.length ∧ qs.length = ss.length ∧
      ∀ k f q, fs[k]? = some f → qs[k]? = some q →
        let i := futureInfo (ss.drop (k + 1))
        f.P.PosDef ∧ q.P.PosDef ∧ i.Y.PosSemidef ∧ q.P⁻¹ = f.P⁻¹ + i.Y ∧ q.P⁻¹ *ᵥ q.x = f.P⁻¹ *ᵥ f.x + i.y := by
  have hs1 := solvable_pd b ss hP hs
  refine ⟨_, _, _, h.returns hs1, h.smoothReturns hfull hne hs1 (smoothSolvable_pd b ss hP hs), filtered_length _ _,
    smoothed_length _ _, fun k f q hf hq => ?_⟩
  obtain ⟨h1, h2, h3, h4⟩ := smoothed_combines b ss hP hs k f q hf hq
  exact ⟨h1, h2, futureInfo_psd (ss.drop (k + 1)) (fun t ht => (hs t (List.mem_of_mem_drop ht)).1)
    fun t ht => (hs t (List.mem_of_mem_drop ht)).2.1, h3, h4⟩

/-- C91: appending data (any number of further steps, whatever they measure) never increases the smoothed covariance of an
earlier state, and does not change its filtered estimate. -/
theorem C91_more_data {kf kf' : KalmanFilter Fl} {Z Z' : NDArray Fl} {U U' : Option (NDArray Fl)} {b : Belief n}
    {ss more : List (LinStep n m)} (h : Represents kf Z U b ss) (h' : Represents kf' Z' U' b (ss ++ more))
    (hfull : ss.length = Z.rows.length) (hfull' : (ss ++ more).length = Z'.rows.length) (hne : ss ≠ [])
    (hP : b.P.PosDef) (hs : ∀ s ∈ ss ++ more, PdStep s) :
    ∃ fs fs' qs qs' : List (Belief n), ∃ Ks Ks', FilterReturns (m := m) kf Z U fs Ks ∧ FilterReturns (m := m) kf' Z' U' fs' Ks' ∧
      SmoothReturns (m := m) kf Z U qs Ks ∧ SmoothReturns (m := m) kf' Z' U' qs' Ks' ∧
      qs.length = ss.length ∧ qs'.length = ss.length + more.length ∧
      ∀ k < ss.length, fs'[k]? = fs[k]? ∧ ∃ q q', qs[k]? = some q ∧ qs'[k]? = some q' ∧ (q.P - q'.P).PosSemidef := by
  have hs0 : ∀ s ∈ ss, PdStep s := fun s hs' => hs s (by simp [hs'])
  have hs1 := solvable_pd b ss hP hs0
  have hs2 := solvable_pd b (ss ++ more) hP hs
  refine ⟨_, _, _, _, _, _, h.returns hs1, h'.returns hs2, h.smoothReturns hfull hne hs1 (smoothSolvable_pd b ss hP hs0),
    h'.smoothReturns hfull' (by simp [hne]) hs2 (smoothSolvable_pd b _ hP hs), smoothed_length _ _, by
      rw [smoothed_length, List.length_append], fun k hk => ⟨filtered_getElem_append b ss more k hk, ?_⟩⟩
  obtain ⟨f, q, hf, hq⟩ := exists_row b ss k hk
  obtain ⟨f', q', hf', hq'⟩ := exists_row b (ss ++ more) k (by rw [List.length_append]; omega)
  have he : f' = f := by
    rw [filtered_getElem_append b ss more k hk, hf] at hf'
    exact (Option.some.inj hf').symm
  subst he
  obtain ⟨h1, h2⟩ := smoothed_cov b ss hP hs0 k f' q hf hq
  obtain ⟨-, h4⟩ := smoothed_cov b _ hP hs k f' q' hf' hq'
  have hd : (ss ++ more).drop (k + 1) = ss.drop (k + 1) ++ more := List.drop_append_of_le_length (by omega)
  refine ⟨q, q', hq, hq', ?_⟩
  rw [h2, h4, hd]
  have hQ : ∀ s ∈ ss.drop (k + 1) ++ more, s ∈ ss ++ more := by
    intro s h
    rcases List.mem_append.1 h with h | h
    · exact List.mem_append_left _ (List.mem_of_mem_drop h)
    · exact List.mem_append_right _ h
  have := damp_anti_right h1.posSemidef (futureInfo_psd (ss.drop (k + 1)) (fun t ht => (hs0 t (List.mem_of_mem_drop ht)).1)
    fun t ht => (hs0 t (List.mem_of_mem_drop ht)).2.1) (futureInfo_append (ss.drop (k + 1)) more
      (fun t ht => (hs t (hQ t ht)).1) fun t ht => (hs t (hQ t ht)).2.1)
  exact this

/-- C92 (filter): two runs with the same transition matrices, of which the first has at most the initial covariance and
process noise of the second and measurements that are at least as informative (their number and kind may differ): the first
covariance is below the second at every time. -/
theorem C92_better_sensors_filter {kf kf' : KalmanFilter Fl} {Z Z' : NDArray Fl} {U U' : Option (NDArray Fl)}
    {b b' : Belief n} {ss : List (LinStep n m)} {ss' : List (LinStep n m')} (h : Represents kf Z U b ss)
    (h' : Represents kf' Z' U' b' ss') (hrel : List.Forall₂ AtLeastAsInformative ss ss') (hb : b.P.PosSemidef)
    (hQ : ∀ s ∈ ss, s.Q.PosSemidef) (hR : ∀ s ∈ ss, s.R.PosDef) (hR' : ∀ s ∈ ss', s.R.PosDef)
    (hle : (b'.P - b.P).PosSemidef) :
    ∃ fs fs' : List (Belief n), ∃ Ks Ks', FilterReturns (m := m) kf Z U fs Ks ∧ FilterReturns (m := m') kf' Z' U' fs' Ks' ∧
      fs.length = ss.length ∧ List.Forall₂ (fun q q' : Belief n => (q'.P - q.P).PosSemidef) fs fs' := by
  have hb' : b'.P.PosSemidef := by have := hle.add hb; rwa [sub_add_cancel] at this
  have hQ' : ∀ s' ∈ ss', s'.Q.PosSemidef := by
    clear h h' hR hR'
    induction hrel with
    | nil => simp
    | @cons s s' ss ss' h1 h2 ih =>
      intro t ht
      rcases List.mem_cons.1 ht with rfl | ht
      · have := h1.Q.add (hQ s (by simp)); rwa [sub_add_cancel] at this
      · exact ih (fun s hs => hQ s (by simp [hs])) t ht
  exact ⟨_, _, _, _, h.returns (solvable_psd hb hQ hR), h'.returns (solvable_psd hb' hQ' hR'), filtered_length _ _,
    filtered_informative hrel hb hQ hR hR' hle⟩

/-- C92 (smoother): the same for the smoothed covariances. -/
theorem C92_better_sensors_smooth {kf kf' : KalmanFilter Fl} {Z Z' : NDArray Fl} {U U' : Option (NDArray Fl)}
    {b b' : Belief n} {ss : List (LinStep n m)} {ss' : List (LinStep n m')} (h : Represents kf Z U b ss)
    (h' : Represents kf' Z' U' b' ss') (hfull : ss.length = Z.rows.length) (hfull' : ss'.length = Z'.rows.length)
    (hne : ss ≠ []) (hrel : List.Forall₂ AtLeastAsInformative ss ss') (hb : b.P.PosDef) (hs : ∀ s ∈ ss, PdStep s)
    (hR' : ∀ s ∈ ss', s.R.PosDef) (hle : (b'.P - b.P).PosSemidef) :
    ∃ qs qs' : List (Belief n), ∃ Ks Ks', SmoothReturns (m := m) kf Z U qs Ks ∧ SmoothReturns (m := m') kf' Z' U' qs' Ks' ∧
      qs.length = ss.length ∧ List.Forall₂ (fun q q' : Belief n => (q'.P - q.P).PosSemidef) qs qs' := by
  have hb' : b'.P.PosDef := by have := PosDef.posSemidef_add hle hb; rwa [sub_add_cancel] at this
  have hs' : ∀ s' ∈ ss', PdStep s' := by
    clear h h' hfull hfull' hne
    induction hrel with
    | nil => simp
    | @cons s s' ss ss' h1 h2 ih =>
      intro t ht
      rcases List.mem_cons.1 ht with rfl | ht
      · obtain ⟨k1, k2, k3⟩ := hs s (by simp)
        refine ⟨?_, hR' t (by simp), ?_⟩
        · have := h1.Q.add k1; rwa [sub_add_cancel] at this
        · rcases k3 with k3 | k3
          · left; rwa [h1.A]
          · right
            have := PosDef.posSemidef_add h1.Q k3; rwa [sub_add_cancel] at this
      · exact ih (fun s h => hs s (by simp [h])) (fun s h => hR' s (by simp [h])) t ht
  have hne' : ss' ≠ [] := by
    intro h0; subst h0
    exact hne (List.forall₂_nil_right_iff.1 hrel)
  have hs1 := solvable_pd b ss hb hs
  have hs2 := solvable_pd b' ss' hb' hs'
  have hlen := hrel.length_eq
  refine ⟨_, _, _, _, h.smoothReturns hfull hne hs1 (smoothSolvable_pd b ss hb hs),
    h'.smoothReturns hfull' hne' hs2 (smoothSolvable_pd b' ss' hb' hs'), smoothed_length _ _, ?_⟩
  rw [List.forall₂_iff_get]
  refine ⟨by rw [smoothed_length, smoothed_length, hlen], fun k hk hk' => ?_⟩
  have hkl : k < ss.length := by rwa [smoothed_length] at hk
  obtain ⟨f, q, hf, hq⟩ := exists_row b ss k hkl
  obtain ⟨f', q', hf', hq'⟩ := exists_row b' ss' k (by rwa [← hlen])
  obtain ⟨h1, h2⟩ := smoothed_cov b ss hb hs k f q hf hq
  obtain ⟨h3, h4⟩ := smoothed_cov b' ss' hb' hs' k f' q' hf' hq'
  have eq : (smoothed b ss).get ⟨k, hk⟩ = q := by
    rw [List.getElem?_eq_getElem hk] at hq; exact Option.some.inj hq
  have eq' : (smoothed b' ss').get ⟨k, hk'⟩ = q' := by
    rw [List.getElem?_eq_getElem hk'] at hq'; exact Option.some.inj hq'
  rw [eq, eq', h2, h4]
  have hF := filtered_informative hrel hb.posSemidef (fun s h => (hs s h).1) (fun s h => (hs s h).2.1) hR' hle
  have hff : (f'.P - f.P).PosSemidef := by
    have := (List.forall₂_iff_get.1 hF).2 k (by rwa [filtered_length]) (by rwa [filtered_length, ← hlen])
    have e1 : (filtered b ss).get ⟨k, by rwa [filtered_length]⟩ = f := by
      rw [List.getElem?_eq_getElem (by rwa [filtered_length])] at hf; exact Option.some.inj hf
    have e2 : (filtered b' ss').get ⟨k, by rwa [filtered_length, ← hlen]⟩ = f' := by
      rw [List.getElem?_eq_getElem (by rwa [filtered_length, ← hlen])] at hf'; exact Option.some.inj hf'
    rwa [e1, e2] at this
  refine damp_mono h1.posSemidef (futureInfo_psd _ (fun t ht => (hs' t (List.mem_of_mem_drop ht)).1)
    fun t ht => (hs' t (List.mem_of_mem_drop ht)).2.1) hff ?_
  exact futureInfo_informative (List.forall₂_drop _ hrel) (fun t ht => (hs t (List.mem_of_mem_drop ht)).1)
    (fun t ht => (hs t (List.mem_of_mem_drop ht)).2.1) (fun t ht => (hs' t (List.mem_of_mem_drop ht)).2.1)
    (fun t ht => (hs' t (List.mem_of_mem_drop ht)).1)

/-- C92 (fewer sensors): using only the combinations `L z` of the measurements - some of the sensors, or averages of them -
never gives a smaller covariance, filtered or smoothed, than using all. -/
theorem C92_fewer_sensors {kf kf' : KalmanFilter Fl} {Z Z' : NDArray Fl} {U U' : Option (NDArray Fl)} {b : Belief n}
    {ss : List (LinStep n m)} (L : Matrix (Fin m') (Fin m) ℝ) (h : Represents kf Z U b ss)
    (h' : Represents kf' Z' U' b (ss.map (LinStep.compress L))) (hfull : ss.length = Z.rows.length)
    (hfull' : ss.length = Z'.rows.length) (hne : ss ≠ []) (hP : b.P.PosDef) (hs : ∀ s ∈ ss, PdStep s)
    (hL : ∀ s ∈ ss, (L * s.R * Lᵀ).PosDef) :
    ∃ fs fs' qs qs' : List (Belief n), ∃ Ks Ks' Js Js', FilterReturns (m := m) kf Z U fs Ks ∧
      FilterReturns (m := m') kf' Z' U' fs' Ks' ∧
      SmoothReturns (m := m) kf Z U qs Js ∧ SmoothReturns (m := m') kf' Z' U' qs' Js' ∧
      fs.length = ss.length ∧ qs.length = ss.length ∧
      List.Forall₂ (fun q q' : Belief n => (q'.P - q.P).PosSemidef) fs fs' ∧
      List.Forall₂ (fun q q' : Belief n => (q'.P - q.P).PosSemidef) qs qs' := by
  have hrel : List.Forall₂ AtLeastAsInformative ss (ss.map (LinStep.compress L)) := by
    rw [List.forall₂_map_right_iff]
    exact List.forall₂_same.2 fun s h => compress_informative (hs s h).2.1 (hL s h)
  have hR' : ∀ s ∈ ss.map (LinStep.compress L), s.R.PosDef := by
    intro s h
    obtain ⟨t, ht, rfl⟩ := List.mem_map.1 h
    exact hL t ht
  have hle : (b.P - b.P).PosSemidef := by simpa using PosSemidef.zero
  obtain ⟨fs, fs', Ks, Ks', f1, f2, f3, f4⟩ := C92_better_sensors_filter h h' hrel hP.posSemidef (fun s h => (hs s h).1)
    (fun s h => (hs s h).2.1) hR' hle
  obtain ⟨qs, qs', Js, Js', q1, q2, q3, q4⟩ := C92_better_sensors_smooth h h' hfull (by rwa [List.length_map]) hne hrel hP hs
    hR' hle
  exact ⟨fs, fs', qs, qs', Ks, Ks', Js, Js', f1, f2, q1, q2, f3, q3, f4, q4⟩

/-- C93: more noise (initial covariance, process noise, measurement noise) never yields a smaller *smoothed* covariance. -/
theorem C93_smooth_monotone {kf kf' : KalmanFilter Fl} {Z Z' : NDArray Fl} {U U' : Option (NDArray Fl)}
    {b b' : Belief n} {ss ss' : List (LinStep n m)} (h : Represents kf Z U b ss)
    (h' : Represents kf' Z' U' b' ss') (hfull : ss.length = Z.rows.length) (hfull' : ss'.length = Z'.rows.length)
    (hne : ss ≠ []) (hmore : List.Forall₂ Noisier ss ss') (hb : b.P.PosDef) (hs : ∀ s ∈ ss, PdStep s)
    (hle : (b'.P - b.P).PosSemidef) :
    ∃ qs qs' : List (Belief n), ∃ Ks Ks', SmoothReturns (m := m) kf Z U qs Ks ∧ SmoothReturns (m := m) kf' Z' U' qs' Ks' ∧
      qs.length = ss.length ∧
      List.Forall₂ (fun q q' : Belief n => (q'.P - q.P).PosSemidef ∧
        (∀ v : Fin n → ℝ, v ⬝ᵥ (q.P *ᵥ v) ≤ v ⬝ᵥ (q'.P *ᵥ v)) ∧ q.P.trace ≤ q'.P.trace) qs qs' := by
  have hrel : List.Forall₂ AtLeastAsInformative ss ss' ∧ ∀ s ∈ ss', s.R.PosDef := by
    clear h h' hfull hfull' hne
    induction hmore with
    | nil => exact ⟨.nil, by simp⟩
    | @cons s s' ss ss' h1 h2 ih =>
      obtain ⟨i1, i2⟩ := ih fun s h => hs s (by simp [h])
      have hR := (hs s (by simp)).2.1
      refine ⟨.cons (h1.informative hR) i1, fun t ht => ?_⟩
      rcases List.mem_cons.1 ht with rfl | ht
      · have := PosDef.posSemidef_add h1.R hR; rwa [sub_add_cancel] at this
      · exact i2 t ht
  obtain ⟨qs, qs', Ks, Ks', q1, q2, q3, q4⟩ := C92_better_sensors_smooth h h' hfull hfull' hne hrel.1 hb hs hrel.2 hle
  refine ⟨qs, qs', Ks, Ks', q1, q2, q3, q4.imp ?_⟩
  intro q q' hq
  refine ⟨hq, fun v => ?_, ?_⟩
  · have := hq.dotProduct_mulVec_nonneg v
    rw [star_trivial, Matrix.sub_mulVec, dotProduct_sub] at this
    linarith
  · have := hq.trace_nonneg
    rw [Matrix.trace_sub] at this
    linarith



/-! ### non-vacuity -/

-- C90, C91: constant-velocity model, any data `us` followed by any data `vs`.
example (us vs : List (ℝ × ℝ)) (hne : us ≠ []) : let ss := Ex.cvSteps us; let more := Ex.cvSteps vs
    Represents (Ex.encode Ex.cvBelief ss) (Ex.encZ ss) (some (Ex.encU ss)) Ex.cvBelief ss ∧
    Represents (Ex.encode Ex.cvBelief (ss ++ more)) (Ex.encZ (ss ++ more)) (some (Ex.encU (ss ++ more))) Ex.cvBelief
      (ss ++ more) ∧
    ss.length = (Ex.encZ ss).rows.length ∧ (ss ++ more).length = (Ex.encZ (ss ++ more)).rows.length ∧ ss ≠ [] ∧
    Ex.cvBelief.P.PosDef ∧ ∀ s ∈ ss ++ more, PdStep s := by
  intro ss more
  refine ⟨Ex.encode_represents _ _, Ex.encode_represents _ _, (Ex.encZ_length _).symm, (Ex.encZ_length _).symm, ?_,
    Ex.cv_posDef, fun s hs => ?_⟩
  · simpa [ss, Ex.cvSteps] using hne
  · rcases List.mem_append.1 hs with hs | hs
    · exact Ex.cv_pdStep us s hs
    · exact Ex.cv_pdStep vs s hs

/-- Position and velocity are measured. -/
noncomputable def Ex.pvStep (y z : ℝ) : LinStep 2 2 := ⟨!![1, 1; 0, 1], 0, 1, 1, 1, ![y, z]⟩

-- C92: a model with two sensors, and the same with the first only, from the same data.
example (uz : List (ℝ × ℝ)) (hne : uz ≠ []) : let ss := uz.map fun p => Ex.pvStep p.1 p.2
    let L : Matrix (Fin 1) (Fin 2) ℝ := !![1, 0]
    let ss' := ss.map (LinStep.compress L)
    Represents (Ex.encode Ex.cvBelief ss) (Ex.encZ ss) (some (Ex.encU ss)) Ex.cvBelief ss ∧
    Represents (Ex.encode Ex.cvBelief ss') (Ex.encZ ss') (some (Ex.encU ss')) Ex.cvBelief ss' ∧
    ss.length = (Ex.encZ ss).rows.length ∧ ss.length = (Ex.encZ ss').rows.length ∧ ss ≠ [] ∧
    Ex.cvBelief.P.PosDef ∧ (∀ s ∈ ss, PdStep s) ∧ (∀ s ∈ ss, (L * s.R * Lᵀ).PosDef) ∧
    ∀ s ∈ ss', s.H = !![1, 0] ∧ s.R = 1 := by
  intro ss L ss'
  refine ⟨Ex.encode_represents _ _, Ex.encode_represents _ _, (Ex.encZ_length _).symm, ?_, ?_, Ex.cv_posDef, ?_, ?_, ?_⟩
  · rw [Ex.encZ_length]; simp [ss']
  · simpa [ss] using hne
  · intro s hs
    obtain ⟨p, -, rfl⟩ := List.mem_map.1 hs
    exact ⟨PosDef.one.posSemidef, PosDef.one, Or.inr PosDef.one⟩
  · intro s hs
    obtain ⟨p, -, rfl⟩ := List.mem_map.1 hs
    have : L * (Ex.pvStep p.1 p.2).R * Lᵀ = 1 := by
      ext i j
      fin_cases i; fin_cases j
      simp [L, Ex.pvStep, Matrix.mul_apply, Fin.sum_univ_two]
    rw [this]
    exact PosDef.one
  · intro s hs
    obtain ⟨t, ht, rfl⟩ := List.mem_map.1 hs
    obtain ⟨p, -, rfl⟩ := List.mem_map.1 ht
    constructor
    · simp [LinStep.compress, Ex.pvStep, L]
    · show L * 1 * Lᵀ = 1
      ext i j
      fin_cases i; fin_cases j
      simp [L, Matrix.mul_apply, Fin.sum_univ_two]

-- C93: constant-velocity model, and the same with the measurement noise doubled and other data.
example (uz : List (ℝ × ℝ)) : let ss := Ex.cvSteps uz
    let ss' := ss.map fun s => { s with R := 2 • s.R, z := 3 • s.z }
    List.Forall₂ Noisier ss ss' ∧ Ex.cvBelief.P.PosDef ∧ (∀ s ∈ ss, PdStep s) := by
  intro ss ss'
  refine ⟨?_, Ex.cv_posDef, Ex.cv_pdStep uz⟩
  have hR := fun s hs => (Ex.cv_pdStep uz s hs).2.1
  show List.Forall₂ Noisier ss (ss.map _)
  rw [List.forall₂_map_right_iff]
  refine List.forall₂_same.2 fun s hs => ⟨rfl, rfl, ?_, ?_⟩
  · simp [Matrix.PosSemidef.zero]
  · simpa [two_smul] using (hR s hs).posSemidef

end api

end KK
