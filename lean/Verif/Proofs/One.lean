import Verif.Proofs.Rounding
import Verif.Proofs.Layout

/-!
# 1 x 1 matrices in floating point
-/

set_option linter.unusedSectionVars false

namespace KK

open Matrix

section
variable {nanInt : ℝ} {a : FloatUnit}

/-- The only way to sum one product. -/
theorem order_one (hv : a.Valid) (m n : ℕ) (i : Fin m) (j : Fin n) : a.order m 0 n i j = .prod 0 := by
  have h := hv.order m 0 n i j
  have hl := h.length_eq
  have pos : ∀ {k : ℕ} (t : SumTree k), 0 < t.indices.length := by
    intro k t
    induction t with
    | prod l => simp [SumTree.indices]
    | add s t h1 h2 => simp only [SumTree.indices, List.length_append]; omega
    | fma s l h1 => simp [SumTree.indices]
  simp only [List.length_finRange] at hl
  cases ht : a.order m 0 n i j with
  | prod l => rw [show l = 0 from Fin.ext (by have := l.2; omega)]
  | add s t =>
    rw [ht] at hl
    simp only [SumTree.indices, List.length_append] at hl
    have := pos s
    have := pos t
    omega
  | fma s l =>
    rw [ht] at hl
    simp only [SumTree.indices, List.length_cons] at hl
    have := pos s
    omega

theorem gemm_one (hv : a.Valid) {m n : ℕ} (S : Matrix (Fin m) (Fin 1) Fl) (T : Matrix (Fin 1) (Fin n) Fl) :
    @Backend.gemm Fl (floatB nanInt a) m 1 n S T = fun i j => fmul a.fl (S i 0) (T 0 j) := by
  funext i j
  show (a.order m 0 n i j).eval a.fl _ _ = _
  rw [order_one hv]
  rfl

open Classical in
theorem solve_one {k : ℕ} (S : Matrix (Fin 1) (Fin 1) Fl) (T : Matrix (Fin 1) (Fin k) Fl) :
    @Backend.solve Fl (floatB nanInt a) 1 k S T = if S 0 0 = .fin 0 then none else some fun _ j => fdiv a.fl (T 0 j) (S 0 0) := by
  have hp : a.pivot 0 (fun i => S i 0) = 0 := Fin.ext (by have := (a.pivot 0 (fun i => S i 0)).2; omega)
  have h0 : Equiv.swap (0 : Fin 1) 0 = Equiv.refl _ := Equiv.swap_self 0
  change (if S (a.pivot 0 fun i => S i 0) 0 = .fin 0 then none else _) = _
  rw [hp]
  split_ifs
  · rfl
  · refine congrArg some ?_
    funext i j
    have : i = (0 : Fin 1) := Subsingleton.elim (α := Fin 1) i 0
    subst this
    show fdiv a.fl (T (Equiv.swap (0 : Fin 1) 0 0) j) (S (Equiv.swap (0 : Fin 1) 0 0) 0) = _
    rw [h0]
    rfl

theorem IsOne.T {x : Fl} {A : Arr Fl} (h : IsOne x A) : IsOne x A.T := by
  obtain ⟨d, rfl⟩ := h
  exact ⟨d, rfl⟩

theorem IsOne.matmul (hv : a.Valid) {x y : Fl} {A B : Arr Fl} (hA : IsOne x A) (hB : IsOne y B) :
    ∃ C, @Arr.matmul Fl (floatB nanInt a) A B = .ok C ∧ IsOne (fmul a.fl x y) C := by
  obtain ⟨d, rfl⟩ := hA
  obtain ⟨e, rfl⟩ := hB
  refine ⟨_, @Arr.matmul_mm Fl (floatB nanInt a) _ _ _ _ _ _ _, d.promote e, congrArg _ (gemm_one hv _ _)⟩

theorem IsOne.add {x y : Fl} {A B : Arr Fl} (hA : IsOne x A) (hB : IsOneOrScalar y B) :
    ∃ C, @Arr.add Fl (floatB nanInt a) A B = .ok C ∧ IsOne (fadd a.fl x y) C := by
  obtain ⟨d, rfl⟩ := hA
  rcases hB with ⟨e, rfl⟩ | ⟨e, rfl⟩ <;> exact ⟨_, rfl, _, rfl⟩

theorem IsOne.sub {x y : Fl} {A B : Arr Fl} (hA : IsOne x A) (hB : IsOne y B) :
    ∃ C, @Arr.sub Fl (floatB nanInt a) A B = .ok C ∧ IsOne (fsub a.fl x y) C := by
  obtain ⟨d, rfl⟩ := hA
  obtain ⟨e, rfl⟩ := hB
  exact ⟨_, rfl, _, rfl⟩

theorem IsOne.solve {s t : Fl} {S T : Arr Fl} (hS : IsOne s S) (hT : IsOne t T) :
    (s = .fin 0 ∧ @Arr.solve Fl (floatB nanInt a) S T = .error .linAlgError) ∨
    (s ≠ .fin 0 ∧ ∃ C, @Arr.solve Fl (floatB nanInt a) S T = .ok C ∧ IsOne (fdiv a.fl t s) C) := by
  obtain ⟨d, rfl⟩ := hS
  obtain ⟨e, rfl⟩ := hT
  have key := @Arr.solve_mm Fl (floatB nanInt a) 1 1 d e (fun (_ _ : Fin 1) => s) (fun (_ _ : Fin 1) => t)
  have k2 := solve_one (nanInt := nanInt) (a := a) (fun (_ _ : Fin 1) => s) (fun (_ _ : Fin 1) => t)
  by_cases h : s = .fin 0
  · left
    rw [if_pos h] at k2
    refine ⟨h, key.trans ?_⟩
    split
    · rfl
    · rename_i hX
      exact absurd (hX.symm.trans k2) (by simp)
  · right
    rw [if_neg h] at k2
    refine ⟨h, .mat .float64 (fun (_ _ : Fin 1) => fdiv a.fl t s), key.trans ?_, .float64, rfl⟩
    split
    · rename_i hX
      exact absurd (hX.symm.trans k2) (by simp)
    · rename_i X hX
      have := Option.some.inj (hX.symm.trans k2)
      rw [this]

theorem isOne_identity : IsOne (.fin 1) (@Arr.identity Fl (floatB nanInt a) 1) := by
  refine ⟨.float64, ?_⟩
  unfold Arr.identity
  congr 1
  funext i j
  rw [if_pos (Subsingleton.elim _ _)]
  rfl

theorem IsOne.assign {x : Fl} {A : Arr Fl} (h : IsOne x A) :
    ∃ C, @Arr.assignMat Fl 1 A = .ok C ∧ IsOne x C := by
  obtain ⟨d, rfl⟩ := h
  exact ⟨_, rfl, _, rfl⟩

end

/-- The covariance that `predict` returns, whatever the state. -/
theorem predict_cov {F : Type} [Backend F] {Ak xk Bk uk Pk Qk xp Pp : Arr F}
    (h : KalmanFilter.predict Ak xk (some Bk) (some uk) Pk Qk = .ok (xp, Pp)) :
    (do let pat ← Pk.matmul Ak.T
        let apat ← Ak.matmul pat
        apat.add Qk : Except PyErr (Arr F)) = .ok Pp := by
  have key : ∀ X : Except PyErr (Arr F), (do
      let xkPrior ← X
      let pat ← Pk.matmul Ak.T
      let apat ← Ak.matmul pat
      let PkPrior ← apat.add Qk
      .ok (xkPrior, PkPrior) : Except PyErr (Arr F × Arr F)) = .ok (xp, Pp) →
      (do
        let pat ← Pk.matmul Ak.T
        let apat ← Ak.matmul pat
        apat.add Qk : Except PyErr (Arr F)) = .ok Pp := by
    intro X h
    rcases X with e | xp'
    · cases h
    rw [Except.bind_ok'] at h
    rcases h1 : Pk.matmul Ak.T with e | pat
    · rw [h1] at h; cases h
    rw [h1, Except.bind_ok'] at h
    rw [Except.bind_ok']
    rcases h2 : Ak.matmul pat with e | apat
    · rw [h2] at h; cases h
    rw [h2, Except.bind_ok'] at h
    rw [Except.bind_ok']
    rcases h3 : apat.add Qk with e | P
    · rw [h3] at h; cases h
    rw [h3, Except.bind_ok'] at h
    injection h with h
    injection h with _ h
    rw [h]
  rcases hn : (Bk.isnanAll || uk.isnanAll) with _ | _
  · rw [KalmanFilter.predict_ctrl hn] at h
    refine key (do
      let ax ← Ak.matmul xk
      let bu ← Bk.matmul uk
      ax.add bu) ?_
    rw [← h]
    rcases Ak.matmul xk with e | ax
    · rfl
    · rcases Bk.matmul uk with e | bu <;> rfl
  · rw [KalmanFilter.predict_skip hn] at h
    exact key _ h

/-- The covariance that the rest of `update` returns. -/
theorem correct_cov {F : Type} [Backend F] {I Kk Hk xk Pk zk xp Pp : Arr F}
    (h : KalmanFilter.correct I Kk Hk xk Pk zk = .ok (xp, Pp)) :
    (do let kh ← Kk.matmul Hk
        let ikh ← I.sub kh
        ikh.matmul Pk : Except PyErr (Arr F)) = .ok Pp := by
  unfold KalmanFilter.correct at h
  rcases h1 : Hk.matmul xk with e | hx
  · rw [h1] at h; cases h
  rw [h1, Except.bind_ok'] at h
  rcases h2 : zk.sub hx with e | res
  · rw [h2] at h; cases h
  rw [h2, Except.bind_ok'] at h
  rcases h3 : Kk.matmul res.atleast1d with e | corr
  · rw [h3] at h; cases h
  rw [h3, Except.bind_ok'] at h
  rcases h4 : xk.add corr with e | xkPost
  · rw [h4] at h; cases h
  rw [h4, Except.bind_ok'] at h
  rcases h5 : Kk.matmul Hk with e | kh
  · rw [h5] at h; cases h
  rw [h5, Except.bind_ok'] at h
  rw [Except.bind_ok']
  rcases h6 : I.sub kh with e | ikh
  · rw [h6] at h; cases h
  rw [h6, Except.bind_ok'] at h
  rw [Except.bind_ok']
  rcases h7 : ikh.matmul Pk with e | P
  · rw [h7] at h; cases h
  rw [h7, Except.bind_ok'] at h
  injection h with h
  injection h with _ h
  rw [h]

section
variable {nanInt : ℝ} {a : FloatUnit}

/-- `predict` for 1 x 1 covariances. -/
theorem predict_one (hv : a.Valid) {α p q : Fl} {Ak xk Bk uk Pk Qk xp Pp : Arr Fl}
    (hA : IsOne α Ak) (hP : IsOne p Pk) (hQ : IsOneOrScalar q Qk)
    (h : @KalmanFilter.predict Fl (floatB nanInt a) Ak xk (some Bk) (some uk) Pk Qk = .ok (xp, Pp)) :
    IsOne (fadd a.fl (fmul a.fl α (fmul a.fl p α)) q) Pp := by
  have h := @predict_cov Fl (floatB nanInt a) _ _ _ _ _ _ _ _ h
  obtain ⟨c1, e1, o1⟩ := hP.matmul (nanInt := nanInt) hv hA.T
  obtain ⟨c2, e2, o2⟩ := hA.matmul (nanInt := nanInt) hv o1
  obtain ⟨c3, e3, o3⟩ := o2.add (nanInt := nanInt) (a := a) hQ
  rw [e1, Except.bind_ok', e2, Except.bind_ok', e3] at h
  injection h with h
  rwa [← h]

/-- The gain for 1 x 1 covariances. -/
theorem gain_one (hv : a.Valid) {η p r : Fl} {Hk Pk Rk K : Arr Fl} (hH : IsOne η Hk) (hP : IsOne p Pk) (hR : IsOneOrScalar r Rk)
    (h : @KalmanFilter.gain Fl (floatB nanInt a) Hk Pk Rk = .ok K) :
    fadd a.fl (fmul a.fl η (fmul a.fl p η)) r ≠ .fin 0 ∧
    IsOne (fdiv a.fl (fmul a.fl η p) (fadd a.fl (fmul a.fl η (fmul a.fl p η)) r)) K := by
  unfold KalmanFilter.gain at h
  obtain ⟨c1, e1, o1⟩ := hP.matmul (nanInt := nanInt) hv hH.T
  obtain ⟨c2, e2, o2⟩ := hH.matmul (nanInt := nanInt) hv o1
  obtain ⟨c3, e3, o3⟩ := o2.add (nanInt := nanInt) (a := a) hR
  obtain ⟨c4, e4, o4⟩ := hH.matmul (nanInt := nanInt) hv hP.T
  rw [e1, Except.bind_ok', e2, Except.bind_ok', e3, Except.bind_ok', e4, Except.bind_ok'] at h
  rcases o3.T.solve (nanInt := nanInt) (a := a) o4 with ⟨-, e5⟩ | ⟨n5, c5, e5, o5⟩
  · rw [e5] at h; cases h
  · rw [e5, Except.bind_ok'] at h
    injection h with h
    rw [← h]
    exact ⟨n5, o5.T⟩

/-- The updated covariance. -/
theorem correct_one (hv : a.Valid) {κ η p ι : Fl} {I Kk Hk xk Pk zk xp Pp : Arr Fl} (hI : IsOne ι I) (hK : IsOne κ Kk) (hH : IsOne η Hk)
    (hP : IsOne p Pk) (h : @KalmanFilter.correct Fl (floatB nanInt a) I Kk Hk xk Pk zk = .ok (xp, Pp)) :
    IsOne (fmul a.fl (fsub a.fl ι (fmul a.fl κ η)) p) Pp := by
  have h := @correct_cov Fl (floatB nanInt a) _ _ _ _ _ _ _ _ h
  obtain ⟨c1, e1, o1⟩ := hK.matmul (nanInt := nanInt) hv hH
  obtain ⟨c2, e2, o2⟩ := hI.sub (nanInt := nanInt) (a := a) o1
  obtain ⟨c3, e3, o3⟩ := o2.matmul (nanInt := nanInt) hv hP
  rw [e1, Except.bind_ok', e2, Except.bind_ok', e3] at h
  injection h with h
  rwa [← h]

end

end KK
