import Verif.Proofs.NonFinite

/-! # Gaussian elimination and dot products with infinities -/

set_option linter.unusedSectionVars false

namespace KK

open Matrix

variable {rnd : ℝ → Ieee}

namespace Ieee

theorem Rep.zero (hr : Rounding rnd) : Rep rnd (.fin 0) := ⟨0, rfl, hr.zero⟩

theorem Rep.finite {x : Ieee} (h : Rep rnd x) : x.Finite := by
  obtain ⟨y, rfl, -⟩ := h
  trivial

theorem finite_iff {x : Ieee} : x.Finite ↔ ∃ y, x = .fin y := by
  cases x <;> simp [Finite]

/-- Adding zero. -/
theorem Rep.add_zero {x : Ieee} (h : Rep rnd x) : add rnd x (.fin 0) = x := by
  obtain ⟨y, rfl, hy⟩ := h
  simp [add, hy]

theorem Rep.zero_add {x : Ieee} (h : Rep rnd x) : add rnd (.fin 0) x = x := by
  obtain ⟨y, rfl, hy⟩ := h
  simp [add, hy]

theorem zero_mul (hr : Rounding rnd) {x : Ieee} (h : x.Finite) : mul rnd (.fin 0) x = .fin 0 := by
  obtain ⟨y, rfl⟩ := finite_iff.1 h
  simp [mul, hr.zero]

theorem mul_zero (hr : Rounding rnd) {x : Ieee} (h : x.Finite) : mul rnd x (.fin 0) = .fin 0 := by
  obtain ⟨y, rfl⟩ := finite_iff.1 h
  simp [mul, hr.zero]

theorem Rep.one_mul {x : Ieee} (h : Rep rnd x) : mul rnd (.fin 1) x = x := by
  obtain ⟨y, rfl, hy⟩ := h
  simp [mul, hy]

/-- `x - 0 * y`. -/
theorem Rep.msub_zero_left (hr : Rounding rnd) (fused : Bool) {x y : Ieee} (h : Rep rnd x) (hy : y.Finite) : msub rnd fused x (.fin 0) y = x := by
  obtain ⟨y, rfl⟩ := finite_iff.1 hy
  obtain ⟨x, rfl, hx⟩ := h
  cases fused <;> simp [msub, fma, neg, sub, mul, add, hr.zero, hx]

/-- `x - y * 0`. -/
theorem Rep.msub_zero_right (hr : Rounding rnd) (fused : Bool) {x y : Ieee} (h : Rep rnd x) (hy : y.Finite) : msub rnd fused x y (.fin 0) = x := by
  obtain ⟨y, rfl⟩ := finite_iff.1 hy
  obtain ⟨x, rfl, hx⟩ := h
  cases fused <;> simp [msub, fma, neg, sub, mul, add, hr.zero, hx]

/-- `inf - 0 * y`. -/
theorem msub_inf (hr : Rounding rnd) (fused : Bool) {y : Ieee} (hy : y.Finite) : msub rnd fused .posInf (.fin 0) y = .posInf := by
  obtain ⟨y, rfl⟩ := finite_iff.1 hy
  cases fused <;> simp [msub, fma, neg, sub, mul, add, hr.zero]

theorem div_inf {x : Ieee} (h : x.Finite) : div rnd x .posInf = .fin 0 := by
  obtain ⟨y, rfl⟩ := finite_iff.1 h
  rfl

theorem Rep.of_rnd (hr : Rounding rnd) {x : ℝ} (h : (rnd x).Finite) : Rep rnd (rnd x) := by
  obtain ⟨y, hy⟩ := finite_iff.1 h
  exact ⟨y, hy, hr.idem x y hy⟩

theorem Rep.of_add (hr : Rounding rnd) {x y : Ieee} (h : (add rnd x y).Finite) : Rep rnd (add rnd x y) := by
  cases x <;> cases y <;> first | exact Rep.of_rnd hr h | (exfalso; exact h)

theorem Rep.of_mul (hr : Rounding rnd) {x y : Ieee} (h : (mul rnd x y).Finite) : Rep rnd (mul rnd x y) := by
  by_cases hx : x.Bad
  · exact absurd h (mul_bad_left rnd _ hx)
  by_cases hy : y.Bad
  · exact absurd h (mul_bad_right rnd _ hy)
  obtain ⟨x, rfl⟩ := finite_iff.1 (not_not.1 hx)
  obtain ⟨y, rfl⟩ := finite_iff.1 (not_not.1 hy)
  exact Rep.of_rnd hr h

theorem Rep.of_fma (hr : Rounding rnd) {x y z : Ieee} (h : (fma rnd x y z).Finite) : Rep rnd (fma rnd x y z) := by
  by_cases hx : x.Bad
  · exact absurd h (fma_bad_one rnd _ _ hx)
  by_cases hy : y.Bad
  · exact absurd h (fma_bad_two rnd _ _ hy)
  by_cases hz : z.Bad
  · exact absurd h (fma_bad_three rnd _ _ hz)
  obtain ⟨x, rfl⟩ := finite_iff.1 (not_not.1 hx)
  obtain ⟨y, rfl⟩ := finite_iff.1 (not_not.1 hy)
  obtain ⟨z, rfl⟩ := finite_iff.1 (not_not.1 hz)
  exact Rep.of_rnd hr h

end Ieee

open Ieee

/-- A finite dot product is a number of the format. -/
theorem SumTree.evalIeee_rep (hr : Ieee.Rounding rnd) {k : ℕ} (x y : Fin k → Ieee) (t : SumTree k) (h : (t.evalIeee rnd x y).Finite) :
    Rep rnd (t.evalIeee rnd x y) := by
  cases t with
  | prod l => exact Rep.of_mul hr h
  | add s t => exact Rep.of_add hr h
  | fma s l => exact Rep.of_fma hr h

/-- A dot product with a zero vector. -/
theorem SumTree.evalIeee_zero (hr : Ieee.Rounding rnd) {k : ℕ} (x y : Fin k → Ieee) (h : ∀ l, (x l = .fin 0 ∧ (y l).Finite) ∨ ((x l).Finite ∧ y l = .fin 0))
    (t : SumTree k) : t.evalIeee rnd x y = .fin 0 := by
  have hmul : ∀ l, (x l).mul rnd (y l) = .fin 0 := by
    intro l
    rcases h l with ⟨hx, hy⟩ | ⟨hx, hy⟩
    · rw [hx]; exact Ieee.zero_mul hr hy
    · rw [hy]; exact Ieee.mul_zero hr hx
  induction t with
  | prod l => exact hmul l
  | add s t hs ht =>
    show Ieee.add rnd _ _ = _
    rw [hs, ht]
    exact (Rep.zero hr).add_zero
  | fma s l hs =>
    show Ieee.fma rnd _ _ _ = _
    rw [hs]
    rcases h l with ⟨hx, hy⟩ | ⟨hx, hy⟩
    · obtain ⟨b, hb⟩ := finite_iff.1 hy
      rw [hx, hb]; simp [Ieee.fma, hr.zero]
    · obtain ⟨b, hb⟩ := finite_iff.1 hx
      rw [hb, hy]; simp [Ieee.fma, hr.zero]

/-- A dot product with a unit vector picks a component. -/
theorem SumTree.evalIeee_unit (hr : Ieee.Rounding rnd) {k : ℕ} (i : Fin k) (y : Fin k → Ieee) (hy : ∀ l, Rep rnd (y l)) (t : SumTree k)
    (hd : t.indices.Nodup) :
    t.evalIeee rnd (fun l => if i = l then .fin 1 else .fin 0) y = if i ∈ t.indices then y i else .fin 0 := by
  induction t with
  | prod l =>
    simp only [SumTree.evalIeee, SumTree.indices, List.mem_singleton]
    split_ifs with h
    · subst h; exact (hy i).one_mul
    · exact Ieee.zero_mul hr (hy l).finite
  | add s t hs ht =>
    simp only [SumTree.indices, List.nodup_append] at hd
    obtain ⟨d1, d2, d3⟩ := hd
    simp only [SumTree.evalIeee, SumTree.indices, List.mem_append, hs d1, ht d2]
    by_cases h1 : i ∈ s.indices
    · have h2 : i ∉ t.indices := fun h2 => d3 i h1 i h2 rfl
      simp only [h1, h2, if_true, if_false, or_false]
      exact (hy i).add_zero
    · by_cases h2 : i ∈ t.indices
      · simp only [h1, h2, if_true, if_false, false_or]
        exact (hy i).zero_add
      · simp only [h1, h2, if_false, or_self]
        exact (Rep.zero hr).add_zero
  | fma s l hs =>
    simp only [SumTree.indices, List.nodup_cons] at hd
    obtain ⟨d1, d2⟩ := hd
    simp only [SumTree.evalIeee, SumTree.indices, List.mem_cons, hs d2]
    obtain ⟨b, hb, hb'⟩ := hy l
    obtain ⟨c, hc, hc'⟩ := hy i
    by_cases h1 : i = l
    · subst h1
      simp [d1, hb, Ieee.fma, hb']
    · by_cases h2 : i ∈ s.indices
      · simp [h1, h2, hb, hc, Ieee.fma, hc']
      · simp [h1, h2, hb, Ieee.fma, hr.zero]

/-- With infinities on the diagonal, and only there, all unknowns are zero. -/
theorem gaussIeee_inf (hr : Ieee.Rounding rnd) (fused : Bool) (pivot : (n : ℕ) → (Fin (n + 1) → Ieee) → Fin (n + 1))
    (hp : ∀ n (v : Fin (n + 1) → Ieee), (∀ j, v j ≠ .nan) → ∀ j, (v j).size ≤ (v (pivot n v)).size) {n k : ℕ}
    (S : Matrix (Fin n) (Fin n) Ieee) (T : Matrix (Fin n) (Fin k) Ieee) (hd : ∀ i, S i i = .posInf) (ho : ∀ i j, i ≠ j → Rep rnd (S i j))
    (hT : ∀ i j, Rep rnd (T i j)) : gaussIeee rnd fused pivot S T = some fun _ _ => .fin 0 := by
  induction n with
  | zero =>
    rw [gaussIeee]
    exact congrArg some (funext fun i => i.elim0)
  | succ n ih =>
    have hcol : ∀ j, S j 0 ≠ .nan := by
      intro j
      by_cases h : j = 0
      · subst h; rw [hd]; simp
      · obtain ⟨y, hy, -⟩ := ho j 0 h
        rw [hy]; simp
    have hpiv : pivot n (fun i => S i 0) = 0 := by
      by_contra h
      obtain ⟨y, hy, -⟩ := ho _ 0 h
      have := hp n (fun i => S i 0) hcol 0
      simp only [hd, hy, Ieee.size, top_le_iff] at this
      exact WithTop.coe_ne_top this
    rw [gaussIeee]
    dsimp only
    rw [hpiv, hd, Equiv.swap_self]
    rw [if_neg (by simp)]
    have e1 : elimIeee rnd fused (S.submatrix (Equiv.refl (Fin (n + 1))) id) ((S.submatrix (Equiv.refl (Fin (n + 1))) id).submatrix id Fin.succ) =
        S.submatrix Fin.succ Fin.succ := by
      funext i j
      show (S i.succ j.succ).msub rnd fused ((S i.succ 0).div rnd (S 0 0)) (S 0 j.succ) = S i.succ j.succ
      rw [hd, Ieee.div_inf (ho _ _ (Fin.succ_ne_zero i)).finite]
      by_cases h : i = j
      · subst h
        rw [hd]
        exact Ieee.msub_inf hr fused (ho _ _ (Fin.succ_ne_zero i).symm).finite
      · exact (ho _ _ (fun h' => h (Fin.succ_injective _ h'))).msub_zero_left hr fused (ho _ _ (Fin.succ_ne_zero j).symm).finite
    have e2 : elimIeee rnd fused (S.submatrix (Equiv.refl (Fin (n + 1))) id) (T.submatrix (Equiv.refl (Fin (n + 1))) id) = T.submatrix Fin.succ id := by
      funext i j
      show (T i.succ j).msub rnd fused ((S i.succ 0).div rnd (S 0 0)) (T 0 j) = T i.succ j
      rw [hd, Ieee.div_inf (ho _ _ (Fin.succ_ne_zero i)).finite]
      exact (hT _ _).msub_zero_left hr fused (hT _ _).finite
    rw [e1, e2, ih (S.submatrix Fin.succ Fin.succ) (T.submatrix Fin.succ id) (fun i => hd _)
      (fun i j h => ho _ _ (fun h' => h (Fin.succ_injective _ h'))) (fun i j => hT _ _)]
    refine congrArg some (funext fun i => funext fun j => ?_)
    refine Fin.cases ?_ (fun i => rfl) i
    show (Fin.foldl n (fun acc l => acc.msub rnd fused (S 0 l.succ) (.fin 0)) (T 0 j)).div rnd (S 0 0) = .fin 0
    have hfold : ∀ (q : ℕ) (f : Fin q → Ieee) (x : Ieee), Rep rnd x → (∀ l, (f l).Finite) →
        Fin.foldl q (fun acc l => acc.msub rnd fused (f l) (.fin 0)) x = x := by
      intro q
      induction q with
      | zero => intro f x _ _; simp
      | succ q ihq =>
        intro f x hx hf
        rw [Fin.foldl_succ, hx.msub_zero_right hr fused (hf 0)]
        exact ihq _ x hx (fun l => hf _)
    rw [hfold n (fun l => S 0 l.succ) _ (hT _ _) (fun l => (ho _ _ (Fin.succ_ne_zero l).symm).finite), hd]
    exact Ieee.div_inf (hT _ _).finite

/-- With at least two equations, a matrix without finite entries makes every unknown bad. -/
theorem gaussIeee_all_bad (rnd : ℝ → Ieee) (fused : Bool) (pivot : (n : ℕ) → (Fin (n + 1) → Ieee) → Fin (n + 1)) {n k : ℕ}
    (S : Matrix (Fin (n + 2)) (Fin (n + 2)) Ieee) (T X : Matrix (Fin (n + 2)) (Fin k) Ieee) (h : gaussIeee rnd fused pivot S T = some X)
    (hS : ∀ i l, (S i l).Bad) (i : Fin (n + 2)) (j : Fin k) : (X i j).Bad := by
  rw [gaussIeee] at h
  dsimp only at h
  split at h
  · exact absurd h (by simp)
  · obtain ⟨Y, hY, rfl⟩ := Option.map_eq_some_iff.1 h
    have hm : ∀ {x y z : Ieee}, y.Bad → (Ieee.msub rnd fused x y z).Bad := by
      intro x y z hy
      unfold Ieee.msub
      split
      · exact Ieee.fma_bad_two rnd _ _ (Ieee.neg_bad hy)
      · exact Ieee.sub_bad_right rnd _ (Ieee.mul_bad_left rnd _ hy)
    have hYb : ∀ i j, (Y i j).Bad := fun i j => gaussIeee_bad rnd fused pivot _ _ _ hY (fun i l => Ieee.msub_bad rnd fused _ _ (hS _ _)) j
      (fun i => hm (Ieee.div_bad rnd (hS _ _) (hS _ _))) i
    refine Fin.cases ?_ (fun i => hYb i j) i
    refine Ieee.div_bad rnd ?_ (hS _ _)
    rw [Fin.foldl_succ]
    exact foldl_bad rnd fused _ _ _ (hm (hS _ _))

/-- Bad pivots are not zero: the elimination goes through. -/
theorem gaussIeee_bad_some (rnd : ℝ → Ieee) (fused : Bool) (pivot : (n : ℕ) → (Fin (n + 1) → Ieee) → Fin (n + 1)) {n k : ℕ}
    (S : Matrix (Fin n) (Fin n) Ieee) (T : Matrix (Fin n) (Fin k) Ieee) (hS : ∀ i l, (S i l).Bad) : ∃ X, gaussIeee rnd fused pivot S T = some X := by
  induction n with
  | zero => exact ⟨_, rfl⟩
  | succ n ih =>
    rw [gaussIeee]
    dsimp only
    rw [if_neg (fun h => (Ieee.bad_iff.1 (hS (pivot n fun i => S i 0) 0)) 0 h)]
    obtain ⟨X, hX⟩ := ih (elimIeee rnd fused (S.submatrix (Equiv.swap 0 (pivot n fun i => S i 0)) id)
      ((S.submatrix (Equiv.swap 0 (pivot n fun i => S i 0)) id).submatrix id Fin.succ))
      (elimIeee rnd fused (S.submatrix (Equiv.swap 0 (pivot n fun i => S i 0)) id) (T.submatrix (Equiv.swap 0 (pivot n fun i => S i 0)) id))
      (fun i l => Ieee.msub_bad rnd fused _ _ (hS _ _))
    rw [hX]
    exact ⟨_, rfl⟩

/-- Two equations, the first row smaller than the second in the first column, and an infinity at the lower right: the first unknown is NaN. -/
theorem gaussIeee_two_nan (rnd : ℝ → Ieee) (fused : Bool) (pivot : (n : ℕ) → (Fin (n + 1) → Ieee) → Fin (n + 1))
    (hp : ∀ n (v : Fin (n + 1) → Ieee), (∀ j, v j ≠ .nan) → ∀ j, (v j).size ≤ (v (pivot n v)).size) {k : ℕ}
    (S : Matrix (Fin 2) (Fin 2) Ieee) (T : Matrix (Fin 2) (Fin k) Ieee) {s t : ℝ} (h0 : S 0 0 = .fin s) (h1 : S 1 0 = .fin t) (hst : |s| < |t|)
    (h2 : (S 0 1).Finite) (h3 : S 1 1 = .posInf) (hT : ∀ j, (T 1 j).Finite) :
    ∃ X, gaussIeee rnd fused pivot S T = some X ∧ ∀ j, X 0 j = .nan := by
  have hpiv : pivot 1 (fun i => S i 0) = 1 := by
    have hn : ∀ j, S j 0 ≠ .nan := by
      intro j
      fin_cases j
      · show S 0 0 ≠ _; rw [h0]; simp
      · show S 1 0 ≠ _; rw [h1]; simp
    have := hp 1 (fun i => S i 0) hn 1
    by_contra h
    have h' : pivot 1 (fun i => S i 0) = 0 := by
      have := (pivot 1 (fun i => S i 0)).2
      ext
      have h1' : ¬ (pivot 1 (fun i => S i 0)).1 = 1 := fun h' => h (Fin.ext h')
      show _ = 0
      omega
    rw [h'] at this
    simp only [h0, h1, Ieee.size, WithTop.coe_le_coe] at this
    linarith
  have ht : t ≠ 0 := by
    rintro rfl
    rw [abs_zero] at hst
    exact absurd hst (not_lt.2 (abs_nonneg _))
  have hmb : ∀ {x y z : Ieee}, z.Bad → (Ieee.msub rnd fused x y z).Bad := by
    intro x y z hz
    unfold Ieee.msub
    split
    · exact Ieee.fma_bad_three rnd _ _ hz
    · exact Ieee.sub_bad_right rnd _ (Ieee.mul_bad_right rnd _ hz)
  rw [gaussIeee]
  dsimp only
  rw [hpiv, h1, if_neg (by simpa using ht)]
  obtain ⟨S', hS'⟩ : ∃ S', S' = S.submatrix (Equiv.swap (0 : Fin 2) 1) id := ⟨_, rfl⟩
  obtain ⟨T', hT'⟩ : ∃ T', T' = T.submatrix (Equiv.swap (0 : Fin 2) 1) id := ⟨_, rfl⟩
  have a00 : S' 0 0 = .fin t := by rw [hS']; simpa using h1
  have a01 : S' 0 1 = .posInf := by rw [hS']; simpa using h3
  have b0 : ∀ j, (T' 0 j).Finite := by intro j; rw [hT']; simpa using hT j
  rw [← hS', ← hT']
  have hbad : ∀ i l, (elimIeee rnd fused S' (S'.submatrix id Fin.succ) i l).Bad := by
    intro i l
    obtain rfl : l = 0 := Subsingleton.elim _ _
    show (Ieee.msub rnd fused _ _ (S' 0 1)).Bad
    refine hmb ?_
    rw [a01]
    exact fun h => h
  obtain ⟨Y, hY⟩ := gaussIeee_bad_some rnd fused pivot _ (elimIeee rnd fused S' T') hbad
  rw [hY]
  refine ⟨_, rfl, fun j => ?_⟩
  show (Fin.foldl 1 (fun acc l => acc.msub rnd fused (S' 0 l.succ) (Y l j)) (T' 0 j)).div rnd (S' 0 0) = .nan
  rw [Fin.foldl_succ, Fin.foldl_zero]
  show (Ieee.msub rnd fused (T' 0 j) (S' 0 1) (Y 0 j)).div rnd (S' 0 0) = .nan
  -- the second unknown is zero or NaN
  have hY0 : Y 0 j = .fin 0 ∨ Y 0 j = .nan := by
    rw [gaussIeee] at hY
    dsimp only at hY
    rw [if_neg (fun h => (Ieee.bad_iff.1 (hbad (pivot 0 fun i => elimIeee rnd fused S' (S'.submatrix id Fin.succ) i 0) 0)) 0 h)] at hY
    obtain ⟨W, -, hW⟩ := Option.map_eq_some_iff.1 hY
    rw [← hW]
    show backSubstIeee rnd fused _ _ _ j = _ ∨ backSubstIeee rnd fused _ _ _ j = _
    unfold backSubstIeee
    rw [Fin.foldl_zero]
    have : ∀ x y : Ieee, y.Bad → Ieee.div rnd x y = .fin 0 ∨ Ieee.div rnd x y = .nan := by
      intro x y hy
      cases x <;> cases y <;> first | exact .inl rfl | exact .inr rfl | exact absurd trivial hy
    exact this _ _ (hbad _ _)
  have fin : ∀ (b : ℝ) (y : Ieee), y = .fin 0 ∨ y = .nan → (Ieee.msub rnd fused (.fin b) .posInf y).div rnd (.fin t) = .nan := by
    rintro b y (rfl | rfl) <;> cases fused <;>
      simp [Ieee.msub, Ieee.fma, Ieee.neg, Ieee.sub, Ieee.mul, Ieee.add, Ieee.sign, Ieee.signed, Ieee.div]
  obtain ⟨b, hb⟩ := Ieee.finite_iff.1 (b0 j)
  rw [a00, a01, hb]
  exact fin _ _ hY0

end KK
