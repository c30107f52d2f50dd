import Verif.Spec.Float
import Verif.Proofs.ApproxEps
import Mathlib.Order.Filter.Ultrafilter.Basic
import Mathlib.Topology.Ultrafilter

/-!
# Floating-point arithmetics converge to the exact one
-/

set_option linter.unusedSectionVars false

namespace KK

open Matrix Filter Topology

variable {ι : Type} {l : Filter ι}

section
variable {δ : ι → ℝ} (hδ0 : ∀ i, 0 < δ i) (hδ : Tendsto δ l (𝓝 0)) {fl : ι → ℝ → Fl}
  (hfl : ∀ i, Rounds (δ i) (δ i) (1 / δ i) (fl i))
include hδ0 hδ hfl

theorem Rounds.T {x : ι → ℝ} {a : ℝ} (hx : Tendsto x l (𝓝 a)) : FlT l (fun i => fl i (x i)) (.fin a) := by
  have h1 : Tendsto (fun i => δ i * |x i| + δ i) l (𝓝 0) := by
    simpa using (hδ.mul hx.abs).add hδ
  refine FlT.approx h1 hx ?_
  filter_upwards [abs_le_inv hδ0 hδ hx] with i h2
  exact hfl i (x i) h2

theorem fadd_T {f g : ι → Fl} {a b : ℝ} (hf : FlT l f (.fin a)) (hg : FlT l g (.fin b)) :
    FlT l (fun i => fadd (fl i) (f i) (g i)) (.fin (a + b)) := by
  refine (Rounds.T hδ0 hδ hfl (hf.fin.2.add hg.fin.2)).congr ?_
  filter_upwards [hf.fin.1, hg.fin.1] with i h1 h2
  conv_lhs => rw [h1, h2]
  rfl

theorem fsub_T {f g : ι → Fl} {a b : ℝ} (hf : FlT l f (.fin a)) (hg : FlT l g (.fin b)) :
    FlT l (fun i => fsub (fl i) (f i) (g i)) (.fin (a - b)) := by
  refine (Rounds.T hδ0 hδ hfl (hf.fin.2.sub hg.fin.2)).congr ?_
  filter_upwards [hf.fin.1, hg.fin.1] with i h1 h2
  conv_lhs => rw [h1, h2]
  rfl

theorem fmul_T {f g : ι → Fl} {a b : ℝ} (hf : FlT l f (.fin a)) (hg : FlT l g (.fin b)) :
    FlT l (fun i => fmul (fl i) (f i) (g i)) (.fin (a * b)) := by
  refine (Rounds.T hδ0 hδ hfl (hf.fin.2.mul hg.fin.2)).congr ?_
  filter_upwards [hf.fin.1, hg.fin.1] with i h1 h2
  conv_lhs => rw [h1, h2]
  rfl

theorem fdiv_T {f g : ι → Fl} {a b : ℝ} (hf : FlT l f (.fin a)) (hg : FlT l g (.fin b)) (hb : b ≠ 0) :
    FlT l (fun i => fdiv (fl i) (f i) (g i)) (.fin (a / b)) := by
  refine (Rounds.T hδ0 hδ hfl (hf.fin.2.div hg.fin.2 hb)).congr ?_
  filter_upwards [hf.fin.1, hg.fin.1] with i h1 h2
  conv_lhs => rw [h1, h2]
  rfl

theorem fmsub_T (fused : ι → Bool) {f g h : ι → Fl} {a b c : ℝ} (hf : FlT l f (.fin a)) (hg : FlT l g (.fin b))
    (hh : FlT l h (.fin c)) : FlT l (fun i => fmsub (fl i) (fused i) (f i) (g i) (h i)) (.fin (a - b * c)) := by
  have h1 := Rounds.T hδ0 hδ hfl (hf.fin.2.sub (hg.fin.2.mul hh.fin.2))
  have h2 := fsub_T hδ0 hδ hfl hf (fmul_T hδ0 hδ hfl hg hh)
  have e : ∀ᶠ i in l, fmsub (fl i) (fused i) (f i) (g i) (h i) =
      if fused i then fl i ((f i).toReal - (g i).toReal * (h i).toReal) else fsub (fl i) (f i) (fmul (fl i) (g i) (h i)) := by
    filter_upwards [hf.fin.1, hg.fin.1, hh.fin.1] with i e1 e2 e3
    rw [e1, e2, e3]
    rfl
  have key : FlT l (fun i => if fused i then fl i ((f i).toReal - (g i).toReal * (h i).toReal)
      else fsub (fl i) (f i) (fmul (fl i) (g i) (h i))) (.fin (a - b * c)) := by
    constructor
    · filter_upwards [h1.1, h2.1] with i k1 k2
      split
      · exact k1
      · exact k2
    · have : (fun i => (if fused i then fl i ((f i).toReal - (g i).toReal * (h i).toReal)
          else fsub (fl i) (f i) (fmul (fl i) (g i) (h i))).toReal) =
          fun i => if fused i then (fl i ((f i).toReal - (g i).toReal * (h i).toReal)).toReal
            else (fsub (fl i) (f i) (fmul (fl i) (g i) (h i))).toReal := by
        funext i; split <;> rfl
      rw [this]
      exact Tendsto.if' h1.2 h2.2
  exact key.congr e

theorem foldl_T (fused : ι → Bool) {n : ℕ} (s x : ι → Fin n → Fl) (a b : Fin n → ℝ) (hs : ∀ k, FlT l (fun i => s i k) (.fin (a k)))
    (hx : ∀ k, FlT l (fun i => x i k) (.fin (b k))) (t : ι → Fl) (c : ℝ) (ht : FlT l t (.fin c)) :
    FlT l (fun i => Fin.foldl n (fun acc k => fmsub (fl i) (fused i) acc (s i k) (x i k)) (t i)) (.fin (c - ∑ k, a k * b k)) := by
  induction n with
  | zero => simpa using ht
  | succ n ih =>
    have h1 := ih (fun i k => s i k.castSucc) (fun i k => x i k.castSucc) (fun k => a k.castSucc) (fun k => b k.castSucc)
      (fun k => hs _) (fun k => hx _)
    have h2 := fmsub_T hδ0 hδ hfl fused h1 (hs (Fin.last n)) (hx (Fin.last n))
    simp only [Fin.foldl_succ_last]
    rw [Fin.sum_univ_castSucc, ← sub_sub]
    exact h2

end

/-! ### Gaussian elimination -/

/-- Schur complement. -/
theorem schur_det {n : ℕ} {M : Matrix (Fin (n + 1)) (Fin (n + 1)) ℝ} (hM : M.det ≠ 0) (h0 : M 0 0 ≠ 0) :
    (Matrix.of fun i j : Fin n => M i.succ j.succ - M i.succ 0 / M 0 0 * M 0 j.succ).det ≠ 0 := by
  intro hd
  obtain ⟨v, hv, h⟩ := Matrix.exists_mulVec_eq_zero_iff.2 hd
  refine hM (Matrix.exists_mulVec_eq_zero_iff.1 ⟨Fin.cons (-(∑ j, M 0 (Fin.succ j) * v j) / M 0 0) v, ?_, ?_⟩)
  · intro he
    apply hv
    funext i
    have := congrFun he i.succ
    simpa using this
  · funext i
    rw [mulVec, dotProduct, Fin.sum_univ_succ]
    simp only [Fin.cons_zero, Fin.cons_succ, Pi.zero_apply]
    refine Fin.cases ?_ (fun i => ?_) i
    · field_simp
      ring
    · have := congrFun h i
      simp only [mulVec, dotProduct, of_apply, Pi.zero_apply, sub_mul, Finset.sum_sub_distrib] at this
      have e : ∑ x, M i.succ 0 / M 0 0 * M 0 (Fin.succ x) * v x = M i.succ 0 / M 0 0 * ∑ x, M 0 (Fin.succ x) * v x := by
        rw [Finset.mul_sum]
        exact Finset.sum_congr rfl fun x _ => by ring
      rw [e] at this
      have h2 : M i.succ 0 * (-(∑ j, M 0 (Fin.succ j) * v j) / M 0 0) = -(M i.succ 0 / M 0 0 * ∑ x, M 0 (Fin.succ x) * v x) := by
        ring
      rw [h2]
      linarith

theorem ultrafilter_const {κ : Type} [Finite κ] (u : Ultrafilter ι) (p : ι → κ) : ∃ q, ∀ᶠ i in u, p i = q := by
  obtain ⟨q, hq⟩ := (u.map p).eq_pure_of_finite
  refine ⟨q, ?_⟩
  have : ({q} : Set κ) ∈ u.map p := by rw [hq]; exact Set.mem_singleton q
  exact this

theorem gauss_ultra {u : Ultrafilter ι} {δ : ι → ℝ} (hδ0 : ∀ i, 0 < δ i) (hδ : Tendsto δ u (𝓝 0)) {fl : ι → ℝ → Fl}
    (hfl : ∀ i, Rounds (δ i) (δ i) (1 / δ i) (fl i)) (fused : ι → Bool)
    (pivot : ι → (n : ℕ) → (Fin (n + 1) → Fl) → Fin (n + 1))
    (hp : ∀ i n (v : Fin (n + 1) → Fl) j, |(v j).toReal| ≤ |(v (pivot i n v)).toReal|)
    {n k : ℕ} (S : ι → Matrix (Fin n) (Fin n) Fl) (T : ι → Matrix (Fin n) (Fin k) Fl) (M : Matrix (Fin n) (Fin n) ℝ)
    (N X : Matrix (Fin n) (Fin k) ℝ) (hS : MT u S (finM M)) (hT : MT u T (finM N)) (hdet : M.det ≠ 0) (hX : M * X = N) :
    ∃ Y, MT u Y (finM X) ∧ ∀ᶠ i in u, gauss (fl i) (fused i) (pivot i) (S i) (T i) = some (Y i) := by
  induction n with
  | zero => exact ⟨fun _ i => i.elim0, fun i => i.elim0, .of_forall fun i => by
      simp only [gauss]⟩
  | succ n ih =>
    obtain ⟨q, hq⟩ := ultrafilter_const u fun i => pivot i n fun j => S i j 0
    -- the limit of the pivots is of maximal size, so not zero
    have hmax : ∀ j, |M j 0| ≤ |M q 0| := by
      intro j
      refine le_of_tendsto_of_tendsto (hS j 0).2.abs (hS q 0).2.abs ?_
      filter_upwards [hq] with i hi
      have := hp i n (fun j => S i j 0) j
      rw [hi] at this
      exact this
    have hq0 : M q 0 ≠ 0 := by
      intro h0
      apply hdet
      refine det_eq_zero_of_column_eq_zero 0 fun j => ?_
      have := hmax j
      rw [h0, abs_zero] at this
      exact abs_nonpos_iff.1 this
    have hne : ∀ᶠ i in u, S i q 0 ≠ .fin 0 := by
      filter_upwards [(hS q 0).2.eventually (eventually_ne_nhds (show M q 0 ≠ 0 from hq0))] with i hi h0
      rw [h0] at hi
      exact hi rfl
    set S' : ι → Matrix (Fin (n + 1)) (Fin (n + 1)) Fl := fun i => (S i).submatrix (Equiv.swap 0 q) id with hS'd
    set T' : ι → Matrix (Fin (n + 1)) (Fin k) Fl := fun i => (T i).submatrix (Equiv.swap 0 q) id with hT'd
    set M' : Matrix (Fin (n + 1)) (Fin (n + 1)) ℝ := M.submatrix (Equiv.swap 0 q) id with hM'd
    set N' : Matrix (Fin (n + 1)) (Fin k) ℝ := N.submatrix (Equiv.swap 0 q) id with hN'd
    have hS' : ∀ a b, FlT u (fun i => S' i a b) (.fin (M' a b)) := fun a b => hS _ b
    have hT' : ∀ a b, FlT u (fun i => T' i a b) (.fin (N' a b)) := fun a b => hT _ b
    have hM0 : M' 0 0 ≠ 0 := by simpa [hM'd] using hq0
    have hM'det : M'.det ≠ 0 := by
      have : M' = M.submatrix (Equiv.swap 0 q) id := rfl
      rw [this, det_permute]
      exact mul_ne_zero (by
        rcases Int.units_eq_one_or (Equiv.Perm.sign (Equiv.swap 0 q)) with h | h <;> rw [h] <;> norm_num) hdet
    have hX' : ∀ a j, ∑ b, M' a b * X b j = N' a j := fun a j => by
      have := congrFun (congrFun hX (Equiv.swap 0 q a)) j
      rw [mul_apply] at this
      exact this
    -- the eliminated system
    have hfac : ∀ a : Fin n, FlT u (fun i => fdiv (fl i) (S' i a.succ 0) (S' i 0 0)) (.fin (M' a.succ 0 / M' 0 0)) := fun a =>
      fdiv_T hδ0 hδ hfl (hS' _ _) (hS' _ _) hM0
    obtain ⟨Y, hY, hYe⟩ := ih (fun i => elim (fl i) (fused i) (S' i) ((S' i).submatrix id Fin.succ))
      (fun i => elim (fl i) (fused i) (S' i) (T' i))
      (Matrix.of fun a b => M' a.succ b.succ - M' a.succ 0 / M' 0 0 * M' 0 b.succ)
      (Matrix.of fun a b => N' a.succ b - M' a.succ 0 / M' 0 0 * N' 0 b) (X.submatrix Fin.succ id)
      (fun a b => fmsub_T hδ0 hδ hfl fused (hS' _ _) (hfac a) (hS' _ _))
      (fun a b => fmsub_T hδ0 hδ hfl fused (hT' _ _) (hfac a) (hT' _ _))
      (schur_det hM'det hM0) (by
        ext a j
        rw [mul_apply, of_apply, ← hX' a.succ j, ← hX' 0 j, Fin.sum_univ_succ, Fin.sum_univ_succ, mul_add, Finset.mul_sum]
        simp only [of_apply, submatrix_apply, id_eq, sub_mul, Finset.sum_sub_distrib]
        have e : M' a.succ 0 / M' 0 0 * (M' 0 0 * X 0 j) = M' a.succ 0 * X 0 j := by field_simp
        rw [e]
        have e2 : ∑ x : Fin n, M' a.succ 0 / M' 0 0 * M' 0 x.succ * X x.succ j =
            ∑ x : Fin n, M' a.succ 0 / M' 0 0 * (M' 0 x.succ * X x.succ j) :=
          Finset.sum_congr rfl fun x _ => by ring
        rw [e2]
        ring)
    refine ⟨fun i => Fin.cons (fun j => backSubst (fl i) (fused i) (S' i) (T' i) (Y i) j) (Y i), ?_, ?_⟩
    · intro a j
      refine Fin.cases ?_ (fun a => ?_) a
      · have h1 := foldl_T hδ0 hδ hfl fused (fun i b => S' i 0 b.succ) (fun i b => Y i b j) (fun b => M' 0 b.succ)
          (fun b => X b.succ j) (fun b => hS' _ _) (fun b => hY b j) (fun i => T' i 0 j) (N' 0 j) (hT' 0 j)
        have h2 := fdiv_T hδ0 hδ hfl h1 (hS' 0 0) hM0
        have e : (N' 0 j - ∑ b : Fin n, M' 0 b.succ * X b.succ j) / M' 0 0 = X 0 j := by
          rw [← hX' 0 j, Fin.sum_univ_succ, add_sub_cancel_right]
          field_simp
        rw [e] at h2
        exact h2
      · exact hY a j
    · filter_upwards [hq, hne, hYe] with i h1 h2 h3
      rw [gauss]
      simp only
      rw [h1, if_neg h2]
      simp only [hS'd, hT'd] at h3 ⊢
      rw [h3]
      rfl

/-! ### uniformity -/

theorem Rounds.mono {u μ M u' μ' M' : ℝ} {fl : ℝ → Fl} (h : Rounds u μ M fl) (hu : u ≤ u') (hμ : μ ≤ μ') (hM : M' ≤ M) :
    Rounds u' μ' M' fl := by
  intro x hx
  obtain ⟨r, h1, h2⟩ := h x (hx.trans hM)
  exact ⟨r, h1, h2.trans (by gcongr)⟩

theorem ultra_limit {u : Ultrafilter ι} {x : ι → ℝ} {C : ℝ} (hx : ∀ i, |x i| ≤ C) : ∃ a, Tendsto x u (𝓝 a) := by
  obtain ⟨a, -, ha⟩ := (isCompact_Icc (a := -C) (b := C)).ultrafilter_le_nhds (u.map x) (by
    rw [le_principal_iff]
    show x ⁻¹' Set.Icc (-C) C ∈ (u : Filter ι)
    exact Filter.univ_mem' fun i => abs_le.1 (hx i))
  exact ⟨a, ha⟩

/-- Gaussian elimination is accurate, uniformly over bounded systems bounded away from singular ones. -/
theorem gauss_accurate (n k : ℕ) {C η : ℝ} (hη : 0 < η) :
    ∃ δ > 0, ∀ (a : FloatUnit) (S : Matrix (Fin n) (Fin n) ℝ) (T : Matrix (Fin n) (Fin k) ℝ), a.Valid →
      Rounds δ δ (1 / δ) a.fl → (∀ i j, |S i j| ≤ C) → (∀ i j, |T i j| ≤ C) → η ≤ |S.det| →
      ∃ X : Matrix (Fin n) (Fin k) ℝ, gauss a.fl a.fused a.pivot (finM S) (finM T) = some (finM X) ∧
        ∀ i j, |X i j - (S⁻¹ * T) i j| ≤ η := by
  by_contra hc
  have hn := fun k => eta_of_seq hc k
  push Not at hn
  choose a S T hv hr hS hT hd hX using hn
  set u : Ultrafilter ℕ := hyperfilter ℕ
  have hu : (u : Filter ℕ) ≤ atTop := Nat.hyperfilter_le_atTop
  have hSl : ∀ i j, ∃ m, Tendsto (fun t => S t i j) u (𝓝 m) := fun i j => ultra_limit fun t => hS t i j
  have hTl : ∀ i j, ∃ m, Tendsto (fun t => T t i j) u (𝓝 m) := fun i j => ultra_limit fun t => hT t i j
  choose M hM using hSl
  choose N hN using hTl
  have tS : Tendsto S u (𝓝 (Matrix.of M)) := tendsto_pi_nhds.2 fun i => tendsto_pi_nhds.2 fun j => hM i j
  have tT : Tendsto T u (𝓝 (Matrix.of N)) := tendsto_pi_nhds.2 fun i => tendsto_pi_nhds.2 fun j => hN i j
  have tD : Tendsto (fun t => (S t).det) u (𝓝 (Matrix.of M).det) := ((Continuous.matrix_det continuous_id).tendsto _).comp tS
  have hdet : (Matrix.of M).det ≠ 0 := by
    have : η ≤ |(Matrix.of M).det| := ge_of_tendsto tD.abs (.of_forall hd)
    intro h0
    rw [h0, abs_zero] at this
    linarith
  have hunit : IsUnit (Matrix.of M).det := isUnit_iff_ne_zero.2 hdet
  obtain ⟨Y, hY, he⟩ := gauss_ultra seq_pos (seq_tendsto.mono_left hu) hr (fun t => (a t).fused) (fun t => (a t).pivot)
    (fun t => (hv t).pivot) (fun t => finM (S t)) (fun t => finM (T t)) (Matrix.of M) (Matrix.of N)
    ((Matrix.of M)⁻¹ * Matrix.of N) (fun i j => ⟨.of_forall fun _ => rfl, hM i j⟩) (fun i j => ⟨.of_forall fun _ => rfl, hN i j⟩)
    hdet (by rw [← Matrix.mul_assoc, mul_nonsing_inv _ hunit, Matrix.one_mul])
  obtain ⟨-, hfin⟩ := hY.real fun _ _ => rfl
  have tX := inv_mul_tendsto tS tT hdet
  have hclose : ∀ i j, ∀ᶠ t in (u : Filter ℕ), |((Y t) i j).toReal - ((S t)⁻¹ * T t) i j| ≤ η := by
    intro i j
    have h1 : Tendsto (fun t => ((Y t) i j).toReal - ((S t)⁻¹ * T t) i j) u
        (𝓝 (((Matrix.of M)⁻¹ * Matrix.of N) i j - ((Matrix.of M)⁻¹ * Matrix.of N) i j)) :=
      (hY i j).2.sub (tendsto_pi_nhds.1 (tendsto_pi_nhds.1 tX i) j)
    rw [sub_self] at h1
    have h2 := h1.abs
    rw [abs_zero] at h2
    filter_upwards [h2.eventually (gt_mem_nhds hη)] with t ht using ht.le
  obtain ⟨t, h1, h2, h3⟩ := (he.and (hfin.and (eventually_all.2 fun i => eventually_all.2 fun j => hclose i j))).exists
  obtain ⟨i, j, h4⟩ := hX t ((Y t).map Fl.toReal) (by rw [← h2]; exact h1)
  exact absurd (h3 i j) (not_le.2 h4)

/-- A sum of `N` products, none larger than `b`, in any order. -/
theorem SumTree.accurate {k : ℕ} {δ b : ℝ} (hδ : 0 < δ) (hδ1 : δ ≤ 1) (hb : 0 ≤ b) {fl : ℝ → Fl} (hfl : Rounds δ δ (1 / δ) fl)
    (x y : Fin k → ℝ) (hxy : ∀ l, |x l * y l| ≤ b) (t : SumTree k) (hN : (b + 1) * 8 ^ t.indices.length ≤ 1 / δ) :
    1 ≤ t.indices.length ∧ ∃ r, t.eval fl (fun l => .fin (x l)) (fun l => .fin (y l)) = .fin r ∧
      |r| ≤ (b + 1) * 8 ^ t.indices.length ∧
      |r - (t.indices.map fun l => x l * y l).sum| ≤ δ * ((b + 1) * 8 ^ t.indices.length) := by
  have hpow : ∀ N : ℕ, 1 ≤ N → (8 : ℝ) ≤ 8 ^ N := fun N hN => by
    calc (8 : ℝ) = 8 ^ 1 := by norm_num
      _ ≤ 8 ^ N := pow_le_pow_right₀ (by norm_num) hN
  -- one rounding
  have hround : ∀ s B : ℝ, |s| ≤ B → B ≤ 1 / δ → ∃ r, fl s = .fin r ∧ |r| ≤ 2 * B + 1 ∧ |r - s| ≤ δ * (B + 1) := by
    intro s B hs hB
    obtain ⟨r, h1, h2⟩ := hfl s (hs.trans hB)
    have h3 : |r - s| ≤ δ * (B + 1) := h2.trans (by nlinarith)
    refine ⟨r, h1, ?_, h3⟩
    have h4 : |r| ≤ |r - s| + |s| := by
      have := abs_add_le (r - s) s
      rwa [sub_add_cancel] at this
    have hB0 : 0 ≤ B := (abs_nonneg s).trans hs
    nlinarith
  induction t with
  | prod l =>
    simp only [SumTree.indices, List.length_singleton, pow_one] at hN ⊢
    obtain ⟨r, h1, h2, h3⟩ := hround (x l * y l) b (hxy l) (by linarith)
    refine ⟨le_rfl, r, h1, by linarith, ?_⟩
    simp only [List.map_cons, List.map_nil, List.sum_cons, List.sum_nil, add_zero]
    nlinarith
  | add s t ihs iht =>
    simp only [SumTree.indices, List.length_append, pow_add] at hN ⊢
    have hs8 : (1 : ℝ) ≤ 8 ^ s.indices.length := one_le_pow₀ (by norm_num)
    have ht8 : (1 : ℝ) ≤ 8 ^ t.indices.length := one_le_pow₀ (by norm_num)
    have hb1 : 0 < b + 1 := by linarith
    obtain ⟨hs1, r, hr1, hr2, hr3⟩ := ihs (le_trans (by nlinarith [mul_pos hb1 (by linarith : (0:ℝ) < 8 ^ s.indices.length)]) hN)
    obtain ⟨ht1, q, hq1, hq2, hq3⟩ := iht (le_trans (by nlinarith [mul_pos hb1 (by linarith : (0:ℝ) < 8 ^ t.indices.length)]) hN)
    have hX := hpow _ hs1
    have hY := hpow _ ht1
    generalize (8 : ℝ) ^ s.indices.length = X at *
    generalize (8 : ℝ) ^ t.indices.length = Y at *
    have hXY : 2 * (X + Y) + 1 ≤ X * Y := by nlinarith
    have hG : 2 * ((b + 1) * X + (b + 1) * Y) + 1 ≤ (b + 1) * (X * Y) := by nlinarith
    have hsum : |r + q| ≤ (b + 1) * X + (b + 1) * Y := (abs_add_le r q).trans (by linarith)
    have hpos : 0 ≤ (b + 1) * X + (b + 1) * Y := (abs_nonneg _).trans hsum
    obtain ⟨w, h1, h2, h3⟩ := hround (r + q) _ hsum (by linarith)
    refine ⟨by omega, w, ?_, by linarith, ?_⟩
    · rw [SumTree.eval, hr1, hq1]; exact h1
    · rw [List.map_append, List.sum_append]
      generalize (List.map (fun l => x l * y l) s.indices).sum = e at *
      generalize (List.map (fun l => x l * y l) t.indices).sum = f at *
      have : w - (e + f) = (w - (r + q)) + ((r - e) + (q - f)) := by ring
      rw [this]
      refine (abs_add_le _ _).trans ?_
      have h4 := abs_add_le (r - e) (q - f)
      have h5 : δ * (2 * ((b + 1) * X + (b + 1) * Y) + 1) ≤ δ * ((b + 1) * (X * Y)) := by gcongr
      nlinarith
  | fma s l ihs =>
    simp only [SumTree.indices, List.length_cons, pow_succ] at hN ⊢
    have hs8 : (1 : ℝ) ≤ 8 ^ s.indices.length := one_le_pow₀ (by norm_num)
    have hb1 : 0 < b + 1 := by linarith
    obtain ⟨hs1, r, hr1, hr2, hr3⟩ := ihs (le_trans (by nlinarith [mul_pos hb1 (by linarith : (0:ℝ) < 8 ^ s.indices.length)]) hN)
    have hX := hpow _ hs1
    generalize (8 : ℝ) ^ s.indices.length = X at *
    have hG : 2 * ((b + 1) * X + b) + 1 ≤ (b + 1) * (X * 8) := by nlinarith
    have hsum : |r + x l * y l| ≤ (b + 1) * X + b := (abs_add_le r _).trans (by linarith [hxy l])
    have hpos : 0 ≤ (b + 1) * X + b := (abs_nonneg _).trans hsum
    obtain ⟨w, h1, h2, h3⟩ := hround (r + x l * y l) _ hsum (by linarith)
    refine ⟨by omega, w, ?_, by linarith, ?_⟩
    · rw [SumTree.eval, hr1]; exact h1
    · rw [List.map_cons, List.sum_cons]
      generalize (List.map (fun l => x l * y l) s.indices).sum = e at *
      have : w - (x l * y l + e) = (w - (r + x l * y l)) + (r - e) := by ring
      rw [this]
      refine (abs_add_le _ _).trans ?_
      have h5 : δ * (2 * ((b + 1) * X + b) + 1) ≤ δ * ((b + 1) * (X * 8)) := by gcongr
      nlinarith [mul_nonneg hδ.le hb]

theorem SumTree.nan {k : ℕ} (fl : ℝ → Fl) (x y : Fin k → Fl) (t : SumTree k) (l : Fin k) (hl : l ∈ t.indices)
    (h : x l = .nan ∨ y l = .nan) : t.eval fl x y = .nan := by
  induction t with
  | prod l' =>
    simp only [SumTree.indices, List.mem_singleton] at hl
    subst hl
    rw [SumTree.eval]
    rcases h with h | h
    · rw [h]; rfl
    · rw [h]; cases x l <;> rfl
  | add s t ihs iht =>
    rw [SumTree.eval]
    rcases List.mem_append.1 hl with hl | hl
    · rw [ihs hl]; rfl
    · rw [iht hl]; cases s.eval fl x y <;> rfl
  | fma s l' ihs =>
    rw [SumTree.eval]
    rcases List.mem_cons.1 hl with rfl | hl
    · rcases h with h | h
      · rw [h]; cases s.eval fl x y <;> rfl
      · rw [h]; cases s.eval fl x y <;> cases x l <;> rfl
    · rw [ihs hl]; rfl

/-! ### accuracy of the whole arithmetic -/

/-- A positive number below finitely many. -/
theorem exists_pos_le (p : ℕ → ℕ → ℝ) (hp : ∀ n k, 0 < p n k) (N : ℕ) : ∃ δ > 0, ∀ n ≤ N, ∀ k ≤ N, δ ≤ p n k := by
  have h1 : ∀ n, ∃ δ > 0, ∀ k ≤ N, δ ≤ p n k := by
    intro n
    obtain ⟨k, -, hk⟩ := Finset.exists_min_image (Finset.range (N + 1)) (p n) ⟨0, by simp⟩
    exact ⟨p n k, hp n k, fun j hj => hk j (by simp; omega)⟩
  choose q hq hq' using h1
  obtain ⟨n, -, hn⟩ := Finset.exists_min_image (Finset.range (N + 1)) q ⟨0, by simp⟩
  exact ⟨q n, hq n, fun j hj k hk => (hn j (by simp; omega)).trans (hq' j k hk)⟩

/-- For every `η`, floating-point arithmetic with enough digits and exponent range is accurate to `η`. -/
theorem float_accurate (nanInt : ℝ) {η : ℝ} (hη : 0 < η) :
    ∃ δ > 0, ∀ (a : FloatUnit) (u μ M : ℝ), a.Valid → Rounds u μ M a.fl → u ≤ δ → μ ≤ δ → 1 / δ ≤ M →
      Accurate nanInt η (floatB nanInt a) := by
  have hg := fun n k : ℕ => gauss_accurate n k (C := 1 / η) hη
  choose p hp hp' using hg
  set N := ⌈1 / η⌉₊ with hNd
  have hN : 1 / η ≤ N := Nat.le_ceil _
  obtain ⟨δ₁, hδ₁, hle⟩ := exists_pos_le p hp N
  set b : ℝ := 1 / η * (1 / η)
  have hi : 0 < 1 / η := by positivity
  have hb : 0 ≤ b := by positivity
  set G : ℝ := (b + 1) * 8 ^ N with hGd
  have hG : 0 < G := by positivity
  set s : ℝ := 2 * (1 / η) + 1 with hsd
  have hs : 0 < s := by positivity
  -- the accuracy
  set δ := min (min δ₁ 1) (min (min (1 / G) (η / G)) (min (1 / s) (η / s))) with hδd
  have hδ : 0 < δ := by
    simp only [hδd, lt_min_iff]
    exact ⟨⟨hδ₁, one_pos⟩, ⟨by positivity, by positivity⟩, by positivity, by positivity⟩
  have e1 : δ ≤ δ₁ := (min_le_left _ _).trans (min_le_left _ _)
  have e2 : δ ≤ 1 := (min_le_left _ _).trans (min_le_right _ _)
  have e3 : G ≤ 1 / δ := by
    rw [le_div_iff₀ hδ, mul_comm, ← le_div_iff₀ hG]
    exact (min_le_right _ _).trans ((min_le_left _ _).trans (min_le_left _ _))
  have e4 : δ * G ≤ η := by
    rw [← le_div_iff₀ hG]
    exact (min_le_right _ _).trans ((min_le_left _ _).trans (min_le_right _ _))
  have e5 : s ≤ 1 / δ := by
    rw [le_div_iff₀ hδ, mul_comm, ← le_div_iff₀ hs]
    exact (min_le_right _ _).trans ((min_le_right _ _).trans (min_le_left _ _))
  have e6 : δ * s ≤ η := by
    rw [← le_div_iff₀ hs]
    exact (min_le_right _ _).trans ((min_le_right _ _).trans (min_le_right _ _))
  refine ⟨δ, hδ, fun a u μ M hv hr hu hμ hM => ?_⟩
  have hr' : Rounds δ δ (1 / δ) a.fl := hr.mono hu hμ hM
  have hround : ∀ x : ℝ, |x| ≤ 2 * (1 / η) → ∃ r, a.fl x = .fin r ∧ |r - x| ≤ η := by
    intro x hx
    obtain ⟨r, h1, h2⟩ := hr' x (by linarith)
    refine ⟨r, h1, h2.trans ?_⟩
    have : δ * |x| ≤ δ * (2 * (1 / η)) := by gcongr
    have e : δ * s = δ * (2 * (1 / η)) + δ := by rw [hsd]; ring
    linarith
  exact {
    zero := rfl
    one := rfl
    nan := rfl
    nanInt := rfl
    isnan := fun _ => rfl
    add_nan := by
      intro x y h
      show fadd a.fl x y = .nan
      rcases h with rfl | rfl
      · rfl
      · cases x <;> rfl
    add := fun x y hx hy => hround (x + y) ((abs_add_le x y).trans (by linarith))
    sub_nan := by
      intro x y h
      show fsub a.fl x y = .nan
      rcases h with rfl | rfl
      · rfl
      · cases x <;> rfl
    sub := fun x y hx hy => hround (x - y) ((abs_sub x y).trans (by linarith))
    gemm_nan := by
      intro m k n S T i j l hl
      cases k with
      | zero => exact l.elim0
      | succ k =>
        refine SumTree.nan a.fl (fun l => S i l) (fun l => T l j) _ l ?_ hl
        exact (hv.order m k n i j).mem_iff.2 (List.mem_finRange l)
    gemm := by
      intro m k n S T i j x y hk hxy
      cases k with
      | zero => exact ⟨0, rfl, by simpa using hη.le⟩
      | succ k =>
        have hlen : (a.order m k n i j).indices.length = k + 1 := by
          rw [(hv.order m k n i j).length_eq, List.length_finRange]
        have hkN : k + 1 ≤ N := by
          have : ((k + 1 : ℕ) : ℝ) ≤ N := hk.trans hN
          exact_mod_cast this
        have hGk : (b + 1) * 8 ^ (k + 1) ≤ G := by
          rw [hGd]
          gcongr
          norm_num
        obtain ⟨-, r, h1, -, h3⟩ := SumTree.accurate hδ e2 hb hr' x y (fun l => by
          rw [abs_mul]
          exact mul_le_mul (hxy l).2.2.1 (hxy l).2.2.2 (abs_nonneg _) hi.le) (a.order m k n i j) (by
            rw [hlen]; exact hGk.trans e3)
        refine ⟨r, ?_, ?_⟩
        · show (a.order m k n i j).eval a.fl (fun l => S i l) (fun l => T l j) = _
          rw [← h1]
          congr 1
          · funext l; exact (hxy l).1
          · funext l; exact (hxy l).2.1
        · have hsum : ((a.order m k n i j).indices.map fun l => x l * y l).sum = ∑ l, x l * y l := by
            rw [((hv.order m k n i j).map _).sum_eq, Fin.sum_univ_def]
          rw [hsum, hlen] at h3
          refine h3.trans ((mul_le_mul_of_nonneg_left hGk hδ.le).trans e4)
    solve := by
      intro n k S T hn hk hS hT hd
      have hnN : n ≤ N := by have : (n : ℝ) ≤ N := hn.trans hN; exact_mod_cast this
      have hkN : k ≤ N := by have : (k : ℝ) ≤ N := hk.trans hN; exact_mod_cast this
      have hpδ := e1.trans (hle n hnN k hkN)
      exact hp' n k a S T hv (hr'.mono hpδ hpδ (one_div_le_one_div_of_le hδ hpδ)) hS hT hd }

end KK
