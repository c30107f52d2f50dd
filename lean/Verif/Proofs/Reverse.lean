import Verif.Spec.Reverse
import Verif.Proofs.TwoFilter
import Verif.Props.TwoFilter

/-!
# Estimates of a process read backwards
-/

set_option linter.unusedSectionVars false

namespace KK

open Matrix

variable {n m : ℕ}

theorem implied_length (b : Belief n) (ss : List (LinStep n m)) : (implied b ss).length = ss.length := by
  induction ss generalizing b with
  | nil => rfl
  | cons s ss ih => rw [implied, List.length_cons, ih, List.length_cons]

theorem implied_succ (b : Belief n) (ss : List (LinStep n m)) (k : ℕ) (p : Belief n) (t : LinStep n m)
    (hp : (implied b ss)[k]? = some p) (ht : ss[k + 1]? = some t) : (implied b ss)[k + 1]? = some (t.predict p) := by
  induction ss generalizing b k with
  | nil => simp [implied] at hp
  | cons s ss ih =>
    rw [implied] at hp ⊢
    rcases k with _ | k
    · simp only [List.getElem?_cons_zero, Option.some.injEq] at hp
      subst hp
      rcases ss with _ | ⟨s', ss⟩
      · simp at ht
      · simp only [Nat.zero_add, List.getElem?_cons_succ, List.getElem?_cons_zero, Option.some.injEq] at ht
        subst ht
        simp [implied]
    · simp only [List.getElem?_cons_succ] at hp ht ⊢
      exact ih _ _ hp ht

/-- What the estimates need: a first prediction of positive definite covariance, then ordinary steps. -/
structure Sound (b : Belief n) (ss : List (LinStep n m)) : Prop where
  first : ∀ s, ss.head? = some s → (s.predict b).P.PosDef
  R : ∀ s ∈ ss, s.R.PosDef
  later : ∀ s ∈ ss.tail, PdStep s

theorem Sound.implied {b : Belief n} {ss : List (LinStep n m)} (h : Sound b ss) : ∀ p ∈ implied b ss, p.P.PosDef := by
  cases ss with
  | nil => simp [KK.implied]
  | cons s ss =>
    have h1 := h.first s rfl
    have h2 := h.later
    rw [List.tail_cons] at h2
    have gen : ∀ (ss : List (LinStep n m)) (b : Belief n), b.P.PosDef → (∀ s ∈ ss, PdStep s) →
        ∀ p ∈ KK.implied b ss, p.P.PosDef := by
      intro ss
      induction ss with
      | nil => simp [KK.implied]
      | cons t ss ih =>
        intro b hb hs p hp
        rw [KK.implied, List.mem_cons] at hp
        have := (hs t (by simp)).prior hb
        rcases hp with rfl | hp
        · exact this
        · exact ih _ this (fun u hu => hs u (by simp [hu])) p hp
    intro p hp
    rw [KK.implied, List.mem_cons] at hp
    rcases hp with rfl | hp
    · exact h1
    · exact gen ss _ h1 h2 p hp

theorem ReadBack.symm {p : Belief n} {t r : LinStep n m} (hp : p.P.PosDef) (hq : (t.predict p).P.PosDef)
    (h : ReadBack p t r) : ReadBack (t.predict p) r t := by
  obtain ⟨h1, h2⟩ := h
  refine ⟨?_, by rw [h2]⟩
  rw [h2]
  have := congrArg transpose h1
  rw [transpose_mul, transpose_mul, transpose_transpose, IsHermitian.symm' hp.1, IsHermitian.symm' hq.1] at this
  exact this.symm

theorem ReadBack.A_eq {p : Belief n} {t r : LinStep n m} (hq : (t.predict p).P.PosDef) (h : ReadBack p t r) :
    r.A = p.P * t.Aᵀ * (t.predict p).P⁻¹ := by
  rw [← h.1, Matrix.mul_assoc, mul_nonsing_inv _ (posDef_isUnit_det hq), Matrix.mul_one]

theorem ReadBack.Q_eq {p : Belief n} {t r : LinStep n m} (hp : p.P.PosDef) (hq : (t.predict p).P.PosDef)
    (h : ReadBack p t r) : r.Q = postCov t.A p.P t.Q := by
  have h2 := congrArg Belief.P h.2
  have h1 := congrArg transpose h.1
  rw [transpose_mul, transpose_mul, transpose_transpose, IsHermitian.symm' hp.1, IsHermitian.symm' hq.1] at h1
  have h3 : r.A * (t.predict p).P * r.Aᵀ + r.Q = p.P := h2
  have hA : r.A = kGain t.A p.P t.Q := h.A_eq hq
  rw [Matrix.mul_assoc, h1] at h3
  rw [postCov, ← hA, Matrix.sub_mul, Matrix.one_mul, Matrix.mul_assoc, eq_sub_iff_add_eq, add_comm]
  exact h3

theorem ReadBack.pdStep {p : Belief n} {t r : LinStep n m} (hp : p.P.PosDef) (ht : PdStep t) (hR : r.R.PosDef)
    (h : ReadBack p t r) : PdStep r := by
  have hq := ht.prior hp
  have hQ := h.Q_eq hp hq
  refine ⟨?_, hR, ?_⟩
  · rw [hQ]
    exact postCov_posSemidef hp.posSemidef ht.1 (posDef_det_ne hq)
  · rcases ht.2.2 with hA | hQ'
    · left
      rw [h.A_eq hq, det_mul, det_mul, det_transpose]
      exact mul_ne_zero (mul_ne_zero (posDef_det_ne hp) hA) (posDef_det_ne hq.inv)
    · right
      rw [hQ]
      exact postCov_posDef hp hQ'

/-- Predicting with `t` is a smoothing step of the process read backwards. -/
theorem predict_eq_rts {p : Belief n} {t r : LinStep n m} (hp : p.P.PosDef) (hq : (t.predict p).P.PosDef)
    (h : ReadBack p t r) (f : Belief n) : t.predict f = rtsStep (t.predict p) r f := by
  have hG : (t.predict p).P * r.Aᵀ * p.P⁻¹ = t.A := by
    have := (h.symm hp hq).A_eq (by rw [h.2]; exact hp)
    rw [h.2] at this
    exact this.symm
  have hG' : (t.predict p).P * r.Aᵀ * (r.predict (t.predict p)).P⁻¹ = t.A := by rw [h.2]; exact hG
  unfold rtsStep
  simp only [hG']
  rw [h.2]
  refine Belief.ext ?_ ?_
  · simp only [LinStep.predict, mulVec_sub]
    abel
  · simp only [LinStep.predict, priorCov, Matrix.mul_sub, Matrix.sub_mul]
    abel

theorem predict_combines {p : Belief n} {t r : LinStep n m} (hp : p.P.PosDef) (ht : PdStep t) (hR : r.R.PosDef)
    (h : ReadBack p t r) {f : Belief n} {i : Info n} (hi : i.Y.PosSemidef) (hc : Combines p f i) :
    Combines (t.predict p) (t.predict f) (i.pull r) := by
  have hq := ht.prior hp
  rw [predict_eq_rts hp hq h f]
  exact rtsStep_combines _ r f i hq (h.pdStep hp ht hR).1 (by rw [h.2]; exact hp) hi (by rw [h.2]; exact hc)

section run

variable {b b' : Belief n} {ss ss' : List (LinStep n m)}

theorem drop_getElem {α : Type} {l : List α} {k : ℕ} {a : α} (h : l[k]? = some a) : l.drop k = a :: l.drop (k + 1) := by
  obtain ⟨hk, rfl⟩ := List.getElem?_eq_some_iff.1 h
  exact List.drop_eq_getElem_cons hk

theorem filtered_first {s : LinStep n m} (h : ss.head? = some s) : (filtered b ss)[0]? = some (s.update (s.predict b)) := by
  cases ss with
  | nil => simp at h
  | cons t ss =>
    simp only [List.head?_cons, Option.some.injEq] at h
    subst h
    rfl

theorem filtered_succ (b : Belief n) (ss : List (LinStep n m)) (k : ℕ) (f : Belief n) (t : LinStep n m)
    (hf : (filtered b ss)[k]? = some f) (ht : ss[k + 1]? = some t) :
    (filtered b ss)[k + 1]? = some (t.update (t.predict f)) := by
  induction ss generalizing b k with
  | nil => simp [filtered] at hf
  | cons s ss ih =>
    rw [filtered] at hf ⊢
    rcases k with _ | k
    · simp only [List.getElem?_cons_zero, Option.some.injEq] at hf
      subst hf
      rcases ss with _ | ⟨s', ss⟩
      · simp at ht
      · simp only [Nat.zero_add, List.getElem?_cons_succ, List.getElem?_cons_zero, Option.some.injEq] at ht
        subst ht
        simp [filtered, LinStep.next]
    · simp only [List.getElem?_cons_succ] at hf ht ⊢
      exact ih _ _ hf ht

theorem Reversed.R_psd (h : Reversed b ss b' ss') (hs : Sound b ss) : ∀ r ∈ ss', r.R.PosDef := by
  intro r hr
  obtain ⟨j, hj⟩ := List.mem_iff_getElem?.1 hr
  obtain ⟨hj', -⟩ := List.getElem?_eq_some_iff.1 hj
  rw [h.length] at hj'
  have hi : ss.length - 1 - j < ss.length := by omega
  obtain ⟨-, h2, -⟩ := h.data (ss.length - 1 - j) j _ r (by omega) (List.getElem?_eq_getElem hi) hj
  rw [h2]
  exact hs.R _ (List.getElem_mem hi)

theorem Reversed.back_at (h : Reversed b ss b' ss') {j : ℕ} {r : LinStep n m} (hj : ss'[j + 1]? = some r) :
    ∃ i p t, i + (j + 1) + 1 = ss.length ∧ (implied b ss)[i]? = some p ∧ ss[i + 1]? = some t ∧
      (implied b ss)[i + 1]? = some (t.predict p) ∧ ReadBack p t r := by
  obtain ⟨hj', -⟩ := List.getElem?_eq_some_iff.1 hj
  rw [h.length] at hj'
  have hi : ss.length - 1 - (j + 1) < ss.length := by omega
  have hi1 : ss.length - 1 - (j + 1) + 1 < ss.length := by omega
  have hf : ss.length - 1 - (j + 1) < (implied b ss).length := by rw [implied_length]; exact hi
  have e1 := List.getElem?_eq_getElem hf
  have e2 := List.getElem?_eq_getElem hi1
  exact ⟨_, _, _, by omega, e1, e2, implied_succ _ _ _ _ _ e1 e2, h.step _ _ _ _ r (by omega) e1 e2 hj⟩

/-- The implied laws of the reversed process are those of the process, in reverse order. -/
theorem Reversed.implied_at (h : Reversed b ss b' ss') (i j : ℕ) (hij : i + j + 1 = ss.length) (p : Belief n)
    (hp : (implied b ss)[i]? = some p) : (implied b' ss')[j]? = some p := by
  induction j generalizing i p with
  | zero =>
    rcases ss' with _ | ⟨r, ss'⟩
    · have := h.length; simp at this; omega
    · have hl : (implied b ss).getLast? = some p := by
        rw [List.getLast?_eq_getElem?, implied_length]
        rw [← hp]; congr 1; omega
      have := h.start p r hl rfl
      rw [implied, this]; rfl
  | succ j ih =>
    have hj : j + 1 < ss'.length := by rw [h.length]; omega
    obtain ⟨i', p', t, e1, e2, e3, e4, e5⟩ := h.back_at (List.getElem?_eq_getElem hj)
    obtain rfl : i' = i := by omega
    rw [hp, Option.some.injEq] at e2
    subst e2
    have := ih (i' + 1) (by omega) _ e4
    rw [implied_succ _ _ _ _ _ this (List.getElem?_eq_getElem hj), e5.2]

theorem Reversed.sound (h : Reversed b ss b' ss') (hs : Sound b ss) : Sound b' ss' := by
  have hR := h.R_psd hs
  refine ⟨fun r hr => ?_, hR, fun r hr => ?_⟩
  · rcases ss' with _ | ⟨r', ss'⟩
    · simp at hr
    · simp only [List.head?_cons, Option.some.injEq] at hr
      subst hr
      have hl := h.length
      rw [List.length_cons] at hl
      have : ss.length - 1 < (implied b ss).length := by rw [implied_length]; omega
      have e := h.start _ r' (by rw [List.getLast?_eq_getElem?, implied_length]; exact List.getElem?_eq_getElem this) rfl
      rw [e]
      exact hs.implied _ (List.getElem_mem this)
  · obtain ⟨j, hj⟩ := List.mem_iff_getElem?.1 hr
    rw [List.getElem?_tail] at hj
    obtain ⟨i, p, t, e1, e2, e3, e4, e5⟩ := h.back_at hj
    have ht : t ∈ ss.tail := by
      refine List.mem_of_getElem? (i := i) ?_
      rw [List.getElem?_tail]; exact e3
    exact e5.pdStep (hs.implied _ (List.mem_of_getElem? e2)) (hs.later t ht) (hR r (List.mem_of_getElem? hj))

theorem Reversed.symm (h : Reversed b ss b' ss') (hs : Sound b ss) : Reversed b' ss' b ss := by
  refine ⟨h.length.symm, fun i j s r hij hs' hr => ?_, fun p r hp hr => ?_, fun j i p r t hij hp hr ht => ?_⟩
  · obtain ⟨e1, e2, e3⟩ := h.data j i r s (by rw [h.length] at hij; omega) hr hs'
    exact ⟨e1.symm, e2.symm, e3.symm⟩
  · rcases ss with _ | ⟨s, ss⟩
    · simp at hr
    · simp only [List.head?_cons, Option.some.injEq] at hr
      subst hr
      have e := h.implied_at 0 ss.length (by simp) (s.predict b) (by rw [implied]; rfl)
      have hl := h.length
      rw [List.length_cons] at hl
      rw [List.getLast?_eq_getElem?, implied_length, hl, Nat.add_sub_cancel, e, Option.some.injEq] at hp
      exact hp
  · rw [h.length] at hij
    obtain ⟨i', p', t', e1, e2, e3, e4, e5⟩ := h.back_at hr
    obtain rfl : i = i' + 1 := by omega
    rw [ht, Option.some.injEq] at e3
    subst e3
    have e6 := h.implied_at _ j (by omega) _ e4
    rw [hp, Option.some.injEq] at e6
    subst e6
    have hp' := hs.implied _ (List.mem_of_getElem? e2)
    have hq := hs.implied _ (List.mem_of_getElem? e4)
    exact e5.symm hp' hq

/-- A filtered estimate is the implied law, combined with the data up to its time, which are later data of the reversed
process. -/
theorem Reversed.filtered_combines (h : Reversed b ss b' ss') (hs : Sound b ss) (k j : ℕ) (hkj : k + j = ss.length) (p f : Belief n)
    (s : LinStep n m) (hp : (implied b ss)[k]? = some p) (hf : (filtered b ss)[k]? = some f) (hk : ss[k]? = some s) :
    Combines p f ((futureInfo (ss'.drop j)).measure s) := by
  have hs' := h.sound hs
  have hR := h.R_psd hs
  induction k generalizing j p f s with
  | zero =>
    have hh : ss.head? = some s := by rw [List.head?_eq_getElem?]; exact hk
    have hpd := hs.first s hh
    have h0 : ss'.drop j = [] := List.drop_eq_nil_of_le (by rw [h.length]; omega)
    rw [h0, futureInfo]
    rw [filtered_first hh, Option.some.injEq] at hf
    obtain rfl : s.predict b = p := by
      rcases ss with _ | ⟨s0, ss⟩
      · simp at hh
      · simp only [List.head?_cons, Option.some.injEq] at hh
        subst hh
        simpa [implied] using hp
    subst hf
    exact update_combines s _ hpd (hs.R s (List.mem_of_getElem? hk))
  | succ k ih =>
    have hk' : k < ss.length := by obtain ⟨h, -⟩ := List.getElem?_eq_some_iff.1 hk; omega
    have hj : j < ss'.length := by rw [h.length]; omega
    have hpk : k < (implied b ss).length := by rw [implied_length]; exact hk'
    have hfk : k < (filtered b ss).length := by rw [filtered_length]; exact hk'
    have e1 := List.getElem?_eq_getElem hpk
    have e2 := List.getElem?_eq_getElem hfk
    have e3 := List.getElem?_eq_getElem hk'
    have e4 := List.getElem?_eq_getElem hj
    have ihk := ih (j + 1) (by omega) _ _ _ e1 e2 e3
    rw [implied_succ _ _ _ _ _ e1 hk, Option.some.injEq] at hp
    rw [filtered_succ _ _ _ _ _ e2 hk, Option.some.injEq] at hf
    subst hp hf
    have hrb := h.step k j _ s _ (by omega) e1 hk e4
    have hst : PdStep s := by
      refine hs.later s (List.mem_of_getElem? (i := k) ?_)
      rw [List.getElem?_tail]; exact hk
    have hpd := hs.implied _ (List.mem_of_getElem? e1)
    obtain ⟨d1, d2, d3⟩ := h.data k j _ _ (by omega) e3 e4
    have hm : (futureInfo (ss'.drop (j + 1))).measure ss[k] = (futureInfo (ss'.drop (j + 1))).measure ss'[j] := by
      simp only [Info.measure, d1, d2, d3]
    have htail : ∀ u ∈ ss'.drop (j + 1), PdStep u := by
      intro u hu
      refine hs'.later u ?_
      rw [← List.drop_one]
      exact (List.drop_subset_drop_left ss' (Nat.le_add_left 1 j)) hu
    have hW : (futureInfo (ss'.drop (j + 1))).Y.PosSemidef :=
      futureInfo_psd _ (fun u hu => (htail u hu).1) fun u hu => (htail u hu).2.1
    rw [hm] at ihk
    have h5 := predict_combines hpd hst (hR _ (List.getElem_mem hj)) hrb
      (Info.measure_psd (hR _ (List.getElem_mem hj)) hW) ihk
    have h6 := h5.trans (update_combines s _ h5.1 hst.2.1)
    rw [drop_getElem e4, futureInfo]
    simpa [Info.measure] using h6

/-- A smoothed estimate is the implied law, combined with the earlier, the present and the later data. -/
theorem Reversed.smoothed_combines (h : Reversed b ss b' ss') (hs : Sound b ss) (k j : ℕ) (hkj : k + j = ss.length) (p q : Belief n)
    (s : LinStep n m) (hp : (implied b ss)[k]? = some p) (hq : (smoothed b ss)[k]? = some q) (hk : ss[k]? = some s) :
    Combines p q ⟨((futureInfo (ss'.drop j)).measure s).Y + (futureInfo (ss.drop (k + 1))).Y,
      ((futureInfo (ss'.drop j)).measure s).y + (futureInfo (ss.drop (k + 1))).y⟩ := by
  have hkl : k < (filtered b ss).length := by
    obtain ⟨hk', -⟩ := List.getElem?_eq_some_iff.1 hk
    rw [filtered_length]; exact hk'
  have e := List.getElem?_eq_getElem hkl
  refine (h.filtered_combines hs k j hkj p _ s hp e hk).trans ?_
  rcases ss with _ | ⟨s0, ss⟩
  · simp at hk
  · have hpd := hs.first s0 rfl
    have hpost : (s0.next b).P.PosDef := postCov_posDef hpd (hs.R s0 (by simp))
    obtain ⟨r, rs, h1, h2, h3⟩ := rts_combines (s0.next b) ss hpost hs.later
    rw [smoothed, h1] at hq
    rcases k with _ | k
    · simp only [List.getElem?_cons_zero, Option.some.injEq] at hq
      subst hq
      simpa [filtered] using h2
    · simp only [List.getElem?_cons_succ] at hq
      simp only [filtered, List.getElem?_cons_succ] at e
      have := h3 k _ q e hq
      simpa [filtered] using this

theorem Combines.unique {p q q' : Belief n} {i : Info n} (h : Combines p q i) (h' : Combines p q' i) : q = q' := by
  have hP : q.P = q'.P := by
    rw [← nonsing_inv_nonsing_inv q.P (posDef_isUnit_det h.1), h.2.1, ← h'.2.1,
      nonsing_inv_nonsing_inv q'.P (posDef_isUnit_det h'.1)]
  refine Belief.ext ?_ hP
  rw [h.mean, h'.mean, hP]

/-- Smoothing the reversed process gives the smoothed estimates in reverse order. -/
theorem Reversed.smoothed (h : Reversed b ss b' ss') (hs : Sound b ss) : smoothed b' ss' = (smoothed b ss).reverse := by
  have hs' := h.sound hs
  have h' := h.symm hs
  have hl : (KK.smoothed b ss).length = ss.length := smoothed_length _ _
  have hl' : (KK.smoothed b' ss').length = ss.length := by rw [smoothed_length, h.length]
  refine List.ext_getElem (by rw [List.length_reverse, hl, hl']) fun j hj1 hj2 => ?_
  rw [List.getElem_reverse]
  have hj : j < ss.length := by omega
  have hk : ss.length - 1 - j < ss.length := by omega
  have hkf : ss.length - 1 - j < (implied b ss).length := by rw [implied_length]; exact hk
  have hjs : j < ss'.length := by rw [h.length]; exact hj
  have ep := List.getElem?_eq_getElem hkf
  have ep' := h.implied_at _ j (by omega) _ ep
  have es := List.getElem?_eq_getElem hk
  have es' := List.getElem?_eq_getElem hjs
  have hkq : ss.length - 1 - j < (KK.smoothed b ss).length := by rw [hl]; exact hk
  have c := h.smoothed_combines hs (ss.length - 1 - j) (j + 1) (by omega) _ _ _ ep (List.getElem?_eq_getElem hkq) es
  have c' := h'.smoothed_combines hs' j (ss.length - 1 - j + 1) (by rw [h.length]; omega) _ _ _ ep' (List.getElem?_eq_getElem hj1) es'
  obtain ⟨d1, d2, d3⟩ := h.data (ss.length - 1 - j) j _ _ (by omega) es es'
  have : (KK.smoothed b ss)[(KK.smoothed b ss).length - 1 - j]'(by omega) = (KK.smoothed b ss)[ss.length - 1 - j] := by
    simp only [hl]
  rw [this]
  refine c'.unique ?_
  convert c using 1
  simp only [Info.measure, d1, d2, d3]
  refine Info.ext ?_ ?_ <;> simp only <;> abel

end run

end KK
