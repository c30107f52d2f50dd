import Verif.Proofs.Reverse
import Verif.Props.TwoFilter

/-!
# C161: smoothing does not depend on the direction of time
-/

set_option linter.unusedSectionVars false

namespace KK

open Matrix

variable {n m : ℕ}

theorem Sound.of_pd {b : Belief n} {ss : List (LinStep n m)} (hP : b.P.PosDef) (hs : ∀ s ∈ ss, PdStep s) : Sound b ss :=
  ⟨fun s h => (hs s (List.mem_of_mem_head? h)).prior hP, fun s h => (hs s h).2.1, fun s h => hs s (List.mem_of_mem_tail h)⟩

theorem Sound.solvable {b : Belief n} {ss : List (LinStep n m)} (h : Sound b ss) : Solvable b ss := by
  cases ss with
  | nil => trivial
  | cons s ss =>
    have hp := h.first s rfl
    have hR := h.R s (by simp)
    exact ⟨posDef_det_ne (innovCov_posDef hp.posSemidef hR),
      solvable_pd _ ss (postCov_posDef hp hR) h.later⟩

theorem Sound.smoothSolvable {b : Belief n} {ss : List (LinStep n m)} (h : Sound b ss) : SmoothSolvable b ss := by
  cases ss with
  | nil => trivial
  | cons s ss => exact rtsSolvable_pd _ ss (postCov_posDef (h.first s rfl) (h.R s (by simp))) h.later

/-- The step that undoes `t` from the law `p` and measures what `s` measures. -/
noncomputable def undo (p : Belief n) (t s : LinStep n m) : LinStep n m :=
  let q := t.predict p
  let A := p.P * t.Aᵀ * q.P⁻¹
  ⟨A, p.x - A *ᵥ q.x, s.H, p.P - A * q.P * Aᵀ, s.R, s.z⟩

theorem undo_back {p : Belief n} {t s : LinStep n m} (hq : (t.predict p).P.det ≠ 0) : ReadBack p t (undo p t s) := by
  refine ⟨?_, Belief.ext ?_ ?_⟩
  · simp only [undo]
    rw [Matrix.mul_assoc, nonsing_inv_mul _ (isUnit_iff_ne_zero.2 hq), Matrix.mul_one]
  · simp only [undo, LinStep.predict]; abel
  · simp only [undo, LinStep.predict, priorCov]; abel

/-- C161: every sound model has a reversed one. -/
theorem C161_exists {b : Belief n} {ss : List (LinStep n m)} (hs : Sound b ss) : ∃ b' ss', Reversed b ss b' ss' := by
  classical
  let d : Belief n := b
  let e : LinStep n m := ⟨1, 0, 0, 0, 0, 0⟩
  let N := ss.length
  let p : ℕ → Belief n := fun i => (implied b ss)[i]?.getD d
  let t : ℕ → LinStep n m := fun i => ss[i]?.getD e
  refine ⟨p (N - 1), (List.range N).map fun j => if j = 0 then ⟨1, 0, (t (N - 1)).H, 0, (t (N - 1)).R, (t (N - 1)).z⟩ else
    undo (p (N - 1 - j)) (t (N - 1 - j + 1)) (t (N - 1 - j)), ⟨by simp [N], ?_, ?_, ?_⟩⟩
  · intro i j s r hij h1 h2
    have hj : j < N := by omega
    have hi : N - 1 - j = i := by omega
    rw [List.getElem?_map, List.getElem?_range hj] at h2
    simp only [Option.map_some, Option.some.injEq] at h2
    have ht : t i = s := by simp [t, h1]
    subst h2
    split
    · next h => subst h; rw [Nat.sub_zero] at hi; rw [hi, ht]; simp
    · rw [hi, ht]; simp [undo]
  · intro q r h1 h2
    rw [List.getLast?_eq_getElem?, implied_length] at h1
    have hp : p (N - 1) = q := by simp [p, N, h1]
    rw [List.head?_map] at h2
    rcases hN : N with _ | N'
    · rw [hN] at h2; simp at h2
    · rw [hN] at h2
      simp only [List.head?_range] at h2
      simp only [Nat.add_eq_zero_iff, one_ne_zero, and_false, ↓reduceIte, Option.map_some, Option.some.injEq] at h2
      subst h2
      rw [← hN, hp]
      refine Belief.ext ?_ ?_
      · simp [LinStep.predict]
      · simp [LinStep.predict, priorCov]
  · intro i j q s r hij h1 h2 h3
    have hi' : i + 1 < ss.length := (List.getElem?_eq_some_iff.1 h2).1
    have hj : j + 0 < N := by omega
    have hi : N - 1 - j = i := by omega
    have hj0 : j ≠ 0 := by omega
    rw [List.getElem?_map, List.getElem?_range (by omega)] at h3
    simp only [Option.map_some, Option.some.injEq, if_neg hj0] at h3
    have hp : p i = q := by simp [p, h1]
    have ht : t (i + 1) = s := by simp [t, h2]
    subst h3
    rw [hi, hp, ht]
    exact undo_back (posDef_det_ne (hs.implied _ (List.mem_of_getElem? (implied_succ _ _ _ _ _ h1 h2))))

section api

variable [Platform]

/-- C161: describe the process from its last state to its first, and hand the measurements over in reverse order: `smooth`
returns the same means and covariances, in reverse order. -/
theorem C161_reverse {kf kf' : KalmanFilter Fl} {Z Z' : NDArray Fl} {U U' : Option (NDArray Fl)} {b b' : Belief n}
    {ss ss' : List (LinStep n m)} (h : Represents kf Z U b ss) (h' : Represents kf' Z' U' b' ss')
    (hfull : ss.length = Z.rows.length) (hfull' : ss'.length = Z'.rows.length) (hne : ss ≠ [])
    (hP : b.P.PosDef) (hs : ∀ s ∈ ss, PdStep s) (hrev : Reversed b ss b' ss') :
    ∃ qs : List (Belief n), ∃ Ks Ks', qs.length = ss.length ∧ SmoothReturns (m := m) kf Z U qs Ks ∧
      SmoothReturns (m := m) kf' Z' U' qs.reverse Ks' := by
  have hsd := Sound.of_pd hP hs
  have hsd' := hrev.sound hsd
  have hne' : ss' ≠ [] := by
    intro e
    have := hrev.length
    rw [e] at this
    exact hne (List.eq_nil_of_length_eq_zero this.symm)
  refine ⟨smoothed b ss, _, gainsOf b' ss', smoothed_length _ _, h.smoothReturns hfull hne hsd.solvable hsd.smoothSolvable, ?_⟩
  rw [← hrev.smoothed hsd]
  exact h'.smoothReturns hfull' hne' hsd'.solvable hsd'.smoothSolvable

/-- C161: in particular the last estimate that `filter` gives of the reversed data is the first that `smooth` gives. -/
theorem C161_filter_last {kf kf' : KalmanFilter Fl} {Z Z' : NDArray Fl} {U U' : Option (NDArray Fl)} {b b' : Belief n}
    {ss ss' : List (LinStep n m)} (h : Represents kf Z U b ss) (h' : Represents kf' Z' U' b' ss')
    (hfull : ss.length = Z.rows.length) (hfull' : ss'.length = Z'.rows.length) (hne : ss ≠ [])
    (hP : b.P.PosDef) (hs : ∀ s ∈ ss, PdStep s) (hrev : Reversed b ss b' ss') :
    ∃ qs fs : List (Belief n), ∃ Ks Ks', SmoothReturns (m := m) kf Z U qs Ks ∧ FilterReturns (m := m) kf' Z' U' fs Ks' ∧
      qs ≠ [] ∧ qs.head? = fs.getLast? := by
  have hsd := Sound.of_pd hP hs
  have hsd' := hrev.sound hsd
  have e := hrev.smoothed hsd
  have hlast : (smoothed b' ss').getLast? = (filtered b' ss').getLast? := by
    have gen : ∀ (ss : List (LinStep n m)) (b : Belief n), (rts b ss).getLast? = (b :: filtered b ss).getLast? := by
      intro ss
      induction ss with
      | nil => intro b; rfl
      | cons s ss ih =>
        intro b
        have hl := rts_length (s.next b) ss
        have ih' := ih (s.next b)
        rw [rts, filtered]
        rcases hr : rts (s.next b) ss with _ | ⟨q, qs⟩
        · rw [hr] at hl; simp at hl
        · rw [hr] at ih'
          simp only [List.getLast?_cons_cons]
          exact ih'
    cases ss' with
    | nil => rfl
    | cons s ss' => exact gen ss' (s.next b')
  refine ⟨smoothed b ss, _, _, _, h.smoothReturns hfull hne hsd.solvable hsd.smoothSolvable, h'.returns hsd'.solvable, ?_, ?_⟩
  · intro e0
    have := smoothed_length b ss
    rw [e0] at this
    exact hne (List.eq_nil_of_length_eq_zero this.symm)
  · rw [← hlast, e, List.getLast?_reverse]

end api

/-! ### stationary models -/

theorem implied_stationary {b : Belief n} {ss : List (LinStep n m)} (h : ∀ s ∈ ss, s.predict b = b) :
    implied b ss = ss.map fun _ => b := by
  induction ss with
  | nil => rfl
  | cons s ss ih =>
    rw [implied, h s (by simp), ih fun t ht => h t (by simp [ht])]
    rfl

/-- If every step keeps the law `b`, and all have the transition matrix `A`, the reversed process has `P A' P⁻¹` for `A` and keeps
`b` too. -/
theorem reversed_stationary {b : Belief n} {ss ss' : List (LinStep n m)} {A : Matrix (Fin n) (Fin n) ℝ} (hP : b.P.PosDef)
    (hA : ∀ s ∈ ss, s.A = A) (hb : ∀ s ∈ ss, s.predict b = b)
    (h : List.Forall₂ (fun s r : LinStep n m => r.H = s.H ∧ r.R = s.R ∧ r.z = s.z ∧ r.A = b.P * Aᵀ * b.P⁻¹ ∧ r.predict b = b)
      ss.reverse ss') : Reversed b ss b ss' := by
  have hl : ss'.length = ss.length := by rw [← h.length_eq, List.length_reverse]
  have hget : ∀ (i j : ℕ) (s r : LinStep n m), i + j + 1 = ss.length → ss[i]? = some s → ss'[j]? = some r →
      r.H = s.H ∧ r.R = s.R ∧ r.z = s.z ∧ r.A = b.P * Aᵀ * b.P⁻¹ ∧ r.predict b = b := by
    intro i j s r hij hs hr
    obtain ⟨hj, rfl⟩ := List.getElem?_eq_some_iff.1 hr
    obtain ⟨hi, rfl⟩ := List.getElem?_eq_some_iff.1 hs
    have := (List.forall₂_iff_get.1 h).2 j (by rw [List.length_reverse]; omega) hj
    simp only [List.get_eq_getElem, List.getElem_reverse] at this
    have e : ss.length - 1 - j = i := by omega
    simpa only [e] using this
  have hf := implied_stationary hb
  refine ⟨hl, fun i j s r hij hs hr => ?_, fun p r hp hr => ?_, fun i j p t r hij hp ht hr => ?_⟩
  · obtain ⟨h1, h2, h3, -⟩ := hget i j s r hij hs hr
    exact ⟨h1, h2, h3⟩
  · have hp' : p = b := by
      have := List.mem_of_getLast? hp
      rw [hf] at this
      obtain ⟨-, -, rfl⟩ := List.mem_map.1 this
      rfl
    subst hp'
    rcases ss' with _ | ⟨r', ss'⟩
    · simp at hr
    · simp only [List.head?_cons, Option.some.injEq] at hr
      subst hr
      rw [List.length_cons] at hl
      exact (hget ss'.length 0 _ r' (by omega) (List.getElem?_eq_getElem (by omega)) rfl).2.2.2.2
  · have hp' : p = b := by
      have := List.mem_of_getElem? hp
      rw [hf] at this
      obtain ⟨-, -, rfl⟩ := List.mem_map.1 this
      rfl
    subst hp'
    have hi : i < ss.length := by omega
    obtain ⟨-, -, -, h4, h5⟩ := hget i j _ r hij (List.getElem?_eq_getElem hi) hr
    have hbt := hb t (List.mem_of_getElem? ht)
    refine ⟨?_, by rw [hbt, h5]⟩
    rw [hbt, h4, hA t (List.mem_of_getElem? ht), Matrix.mul_assoc, nonsing_inv_mul _ (posDef_isUnit_det hP), Matrix.mul_one]

section api

variable [Platform]

/-- C161 for a stationary process (every step keeps the mean and covariance of the initial belief): the reversed model has the
transition matrix `P A' P⁻¹`, and the same initial belief. -/
theorem C161_stationary {kf kf' : KalmanFilter Fl} {Z Z' : NDArray Fl} {U U' : Option (NDArray Fl)} {b : Belief n}
    {ss ss' : List (LinStep n m)} {A : Matrix (Fin n) (Fin n) ℝ} (h : Represents kf Z U b ss)
    (h' : Represents kf' Z' U' b ss') (hfull : ss.length = Z.rows.length) (hfull' : ss'.length = Z'.rows.length) (hne : ss ≠ [])
    (hP : b.P.PosDef) (hs : ∀ s ∈ ss, PdStep s) (hA : ∀ s ∈ ss, s.A = A) (hb : ∀ s ∈ ss, s.predict b = b)
    (hrev : List.Forall₂ (fun s r : LinStep n m => r.H = s.H ∧ r.R = s.R ∧ r.z = s.z ∧ r.A = b.P * Aᵀ * b.P⁻¹ ∧ r.predict b = b)
      ss.reverse ss') :
    ∃ qs : List (Belief n), ∃ Ks Ks', qs.length = ss.length ∧ SmoothReturns (m := m) kf Z U qs Ks ∧
      SmoothReturns (m := m) kf' Z' U' qs.reverse Ks' :=
  C161_reverse h h' hfull hfull' hne hP hs (reversed_stationary hP hA hb hrev)

/-- C161 for a stationary process that looks the same in both directions (`A P = P A'`; for instance any stationary scalar
process, or any number of independent ones): `smooth` of the reversed data, by the same model, is `smooth` of the data,
reversed. -/
theorem C161_reversible {kf kf' : KalmanFilter Fl} {Z Z' : NDArray Fl} {U U' : Option (NDArray Fl)} {b : Belief n}
    {ss : List (LinStep n m)} {A : Matrix (Fin n) (Fin n) ℝ} (h : Represents kf Z U b ss)
    (h' : Represents kf' Z' U' b ss.reverse) (hfull : ss.length = Z.rows.length) (hfull' : ss.length = Z'.rows.length)
    (hne : ss ≠ []) (hP : b.P.PosDef) (hs : ∀ s ∈ ss, PdStep s) (hA : ∀ s ∈ ss, s.A = A) (hb : ∀ s ∈ ss, s.predict b = b)
    (hsym : A * b.P = b.P * Aᵀ) :
    ∃ qs : List (Belief n), ∃ Ks Ks', qs.length = ss.length ∧ SmoothReturns (m := m) kf Z U qs Ks ∧
      SmoothReturns (m := m) kf' Z' U' qs.reverse Ks' := by
  refine C161_stationary h h' hfull (by rw [List.length_reverse]; exact hfull') hne hP hs hA hb ?_
  refine List.forall₂_same.2 fun s hs' => ?_
  have hm := List.mem_reverse.1 hs'
  refine ⟨rfl, rfl, rfl, ?_, hb s hm⟩
  rw [hA s hm, ← hsym, Matrix.mul_assoc, mul_nonsing_inv _ (posDef_isUnit_det hP), Matrix.mul_one]

/-! ### non-vacuity -/

-- C161: the constant-velocity model with any data, and a model of the reversed process.
example (uz : List (ℝ × ℝ)) (hne : uz ≠ []) : let ss := Ex.cvSteps uz
    ∃ b' ss', Reversed Ex.cvBelief ss b' ss' ∧ ss ≠ [] ∧ Ex.cvBelief.P.PosDef ∧ (∀ s ∈ ss, PdStep s) ∧
      Represents (Ex.encode Ex.cvBelief ss) (Ex.encZ ss) (some (Ex.encU ss)) Ex.cvBelief ss ∧
      Represents (Ex.encode b' ss') (Ex.encZ ss') (some (Ex.encU ss')) b' ss' ∧
      ss.length = (Ex.encZ ss).rows.length ∧ ss'.length = (Ex.encZ ss').rows.length := by
  intro ss
  obtain ⟨b', ss', h⟩ := C161_exists (Sound.of_pd Ex.cv_posDef (Ex.cv_pdStep uz))
  exact ⟨b', ss', h, by simpa [ss, Ex.cvSteps] using hne, Ex.cv_posDef, Ex.cv_pdStep uz, Ex.encode_represents _ _,
    Ex.encode_represents _ _, (Ex.encZ_length _).symm, (Ex.encZ_length _).symm⟩

/-- A stationary scalar process: `x' = x / 2 + noise` of variance 3, state of variance 4, measured with an error of variance 1. -/
noncomputable def Ex.arStep (z : ℝ) : LinStep 1 1 := ⟨!![1 / 2], 0, 1, !![3], 1, ![z]⟩

noncomputable def Ex.arBelief : Belief 1 := ⟨0, !![4]⟩

-- C161_reversible: a stationary scalar process, any data.
example (zs : List ℝ) (hne : zs ≠ []) : let ss := zs.map Ex.arStep
    Represents (Ex.encode Ex.arBelief ss) (Ex.encZ ss) (some (Ex.encU ss)) Ex.arBelief ss ∧
    Represents (Ex.encode Ex.arBelief ss.reverse) (Ex.encZ ss.reverse) (some (Ex.encU ss.reverse)) Ex.arBelief ss.reverse ∧
    ss.length = (Ex.encZ ss).rows.length ∧ ss.length = (Ex.encZ ss.reverse).rows.length ∧ ss ≠ [] ∧
    Ex.arBelief.P.PosDef ∧ (∀ s ∈ ss, PdStep s) ∧ (∀ s ∈ ss, s.A = !![1 / 2]) ∧
    (∀ s ∈ ss, s.predict Ex.arBelief = Ex.arBelief) ∧
    (!![1 / 2] : Matrix (Fin 1) (Fin 1) ℝ) * Ex.arBelief.P = Ex.arBelief.P * (!![1 / 2])ᵀ := by
  intro ss
  have pos : ∀ x : ℝ, 0 < x → (!![x] : Matrix (Fin 1) (Fin 1) ℝ).PosDef := by
    intro x hx
    have : (!![x] : Matrix (Fin 1) (Fin 1) ℝ) = Matrix.diagonal ![x] := by
      ext i j; fin_cases i; fin_cases j; simp
    rw [this]
    refine Matrix.PosDef.diagonal ?_
    intro i; fin_cases i; simpa using hx
  have hm : ∀ s ∈ ss, ∃ z, s = Ex.arStep z := by
    intro s hs
    obtain ⟨z, -, rfl⟩ := List.mem_map.1 hs
    exact ⟨z, rfl⟩
  refine ⟨Ex.encode_represents _ _, Ex.encode_represents _ _, (Ex.encZ_length _).symm, ?_, ?_, pos 4 (by norm_num), ?_, ?_, ?_, ?_⟩
  · rw [Ex.encZ_length]; simp
  · simpa [ss] using hne
  · intro s hs
    obtain ⟨z, rfl⟩ := hm s hs
    exact ⟨(pos 3 (by norm_num)).posSemidef, PosDef.one, Or.inr (pos 3 (by norm_num))⟩
  · intro s hs
    obtain ⟨z, rfl⟩ := hm s hs
    rfl
  · intro s hs
    obtain ⟨z, rfl⟩ := hm s hs
    refine Belief.ext ?_ ?_
    · ext i; simp [LinStep.predict, Ex.arStep, Ex.arBelief]
    · ext i j; fin_cases i; fin_cases j
      simp [LinStep.predict, Ex.arStep, Ex.arBelief, priorCov, vecMul, Matrix.vecHead, dotProduct]; norm_num
  · ext i j; fin_cases i; fin_cases j
    simp [Ex.arBelief, Matrix.mul_apply]; norm_num

end api

end KK
