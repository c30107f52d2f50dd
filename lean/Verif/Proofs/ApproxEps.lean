import Verif.Proofs.ApproxRun
import Verif.Proofs.Exact
import Mathlib.Topology.Algebra.Order.Field

/-!
# From accuracy to convergence and back
-/

set_option linter.unusedSectionVars false

namespace KK

open Matrix Filter Topology

variable {ι : Type} {l : Filter ι}

theorem Fl.sum_nan {κ : Type} (s : Finset κ) (f : κ → Fl) {k : κ} (hk : k ∈ s) (h : f k = .nan) :
    ∑ k ∈ s, f k = .nan := by
  classical
  rw [← Finset.add_sum_erase s f hk, h, Fl.nan_add]

theorem FlT.approx {η : ι → ℝ} (hη : Tendsto η l (𝓝 0)) {h : ι → Fl} {u : ι → ℝ} {c : ℝ}
    (hu : Tendsto u l (𝓝 c)) (hh : ∀ᶠ i in l, ∃ r : ℝ, h i = .fin r ∧ |r - u i| ≤ η i) : FlT l h (.fin c) := by
  refine ⟨hh.mono fun i ⟨r, hr, _⟩ => by rw [hr]; rfl, ?_⟩
  have h1 : Tendsto (fun i => (h i).toReal - u i) l (𝓝 0) :=
    squeeze_zero_norm' (hh.mono fun i ⟨r, hr, h2⟩ => by rw [hr, Real.norm_eq_abs]; exact h2) hη
  simpa using h1.add hu

section
variable {η : ι → ℝ} (hη0 : ∀ i, 0 < η i) (hη : Tendsto η l (𝓝 0))
include hη0 hη

theorem inv_atTop : Tendsto (fun i => 1 / η i) l atTop := by
  simp only [one_div]
  exact tendsto_inv_nhdsGT_zero.comp (tendsto_nhdsWithin_iff.2 ⟨hη, .of_forall hη0⟩)

theorem abs_le_inv {f : ι → ℝ} {a : ℝ} (hf : Tendsto f l (𝓝 a)) : ∀ᶠ i in l, |f i| ≤ 1 / η i := by
  filter_upwards [hf.abs.eventually (eventually_lt_nhds (lt_add_one |a|)),
    (inv_atTop hη0 hη).eventually_ge_atTop (|a| + 1)] with i h1 h2
  exact h1.le.trans h2

theorem Accurate.addT {nanInt : ℝ} {B : ι → Backend Fl} (hB : ∀ i, Accurate nanInt (η i) (B i)) :
    OpT l (fun i => (B i).add) (· + ·) := by
  intro f g a b hf hg
  cases a with
  | nan =>
    show FlT l _ (Fl.nan + b)
    rw [Fl.nan_add]
    exact FlT.nan.2 ((FlT.nan.1 hf).mono fun i h => (hB i).add_nan _ _ (.inl h))
  | fin x =>
    cases b with
    | nan =>
      show FlT l _ (Fl.fin x + Fl.nan)
      rw [Fl.add_nan]
      exact FlT.nan.2 ((FlT.nan.1 hg).mono fun i h => (hB i).add_nan _ _ (.inr h))
    | fin y =>
      refine FlT.approx hη (hf.fin.2.add hg.fin.2) ?_
      filter_upwards [hf.fin.1, hg.fin.1, abs_le_inv hη0 hη hf.fin.2, abs_le_inv hη0 hη hg.fin.2] with i h1 h2 h3 h4
      rw [h1, h2]
      exact (hB i).add _ _ h3 h4

theorem Accurate.subT {nanInt : ℝ} {B : ι → Backend Fl} (hB : ∀ i, Accurate nanInt (η i) (B i)) :
    OpT l (fun i => (B i).sub) (· - ·) := by
  intro f g a b hf hg
  cases a with
  | nan =>
    show FlT l _ (Fl.nan - b)
    rw [Fl.nan_sub]
    exact FlT.nan.2 ((FlT.nan.1 hf).mono fun i h => (hB i).sub_nan _ _ (.inl h))
  | fin x =>
    cases b with
    | nan =>
      show FlT l _ (Fl.fin x - Fl.nan)
      rw [Fl.sub_nan]
      exact FlT.nan.2 ((FlT.nan.1 hg).mono fun i h => (hB i).sub_nan _ _ (.inr h))
    | fin y =>
      refine FlT.approx hη (hf.fin.2.sub hg.fin.2) ?_
      filter_upwards [hf.fin.1, hg.fin.1, abs_le_inv hη0 hη hf.fin.2, abs_le_inv hη0 hη hg.fin.2] with i h1 h2 h3 h4
      rw [h1, h2]
      exact (hB i).sub _ _ h3 h4

theorem Accurate.gemmT {nanInt : ℝ} {B : ι → Backend Fl} (hB : ∀ i, Accurate nanInt (η i) (B i))
    {m k n : ℕ} (F : ι → Matrix (Fin m) (Fin k) Fl) (G : ι → Matrix (Fin k) (Fin n) Fl) (M : Matrix (Fin m) (Fin k) Fl)
    (N : Matrix (Fin k) (Fin n) Fl) (hF : MT l F M) (hG : MT l G N) :
    MT l (fun i => (B i).gemm (F i) (G i)) ((exactB nanInt).gemm M N) := by
  intro a b
  by_cases hn : ∃ c, M a c = .nan ∨ N c b = .nan
  · obtain ⟨c, hc⟩ := hn
    have : (exactB nanInt).gemm M N a b = .nan := by
      refine Fl.sum_nan _ _ (Finset.mem_univ c) ?_
      rcases hc with hc | hc <;> simp [hc]
    rw [this]
    refine FlT.nan.2 ?_
    rcases hc with hc | hc
    · have := hF a c
      rw [hc] at this
      exact (FlT.nan.1 this).mono fun i h => (hB i).gemm_nan _ _ _ _ c (.inl h)
    · have := hG c b
      rw [hc] at this
      exact (FlT.nan.1 this).mono fun i h => (hB i).gemm_nan _ _ _ _ c (.inr h)
  · push Not at hn
    have hM : ∀ c, M a c = .fin (M a c).toReal := fun c => by
      cases h : M a c with
      | nan => exact absurd h (hn c).1
      | fin x => rfl
    have hN : ∀ c, N c b = .fin (N c b).toReal := fun c => by
      cases h : N c b with
      | nan => exact absurd h (hn c).2
      | fin x => rfl
    have e : (exactB nanInt).gemm M N a b = .fin (∑ c, (M a c).toReal * (N c b).toReal) := by
      show ∑ c, M a c * N c b = _
      rw [← @Fl.sum_fin (strict nanInt)]
      refine Finset.sum_congr rfl fun c _ => ?_
      conv_lhs => rw [hM c, hN c]
      rfl
    rw [e]
    have hF' : ∀ c, FlT l (fun i => F i a c) (.fin (M a c).toReal) := fun c => by rw [← hM c]; exact hF a c
    have hG' : ∀ c, FlT l (fun i => G i c b) (.fin (N c b).toReal) := fun c => by rw [← hN c]; exact hG c b
    refine FlT.approx hη (u := fun i => ∑ c, (F i a c).toReal * (G i c b).toReal)
      (tendsto_finsetSum _ fun c _ => (hF' c).2.mul (hG' c).2) ?_
    filter_upwards [eventually_all.2 fun c => (hF' c).fin.1, eventually_all.2 fun c => (hG' c).fin.1,
      eventually_all.2 fun c => abs_le_inv hη0 hη (hF' c).2, eventually_all.2 fun c => abs_le_inv hη0 hη (hG' c).2,
      (inv_atTop hη0 hη).eventually_ge_atTop (k : ℝ)] with i h1 h2 h3 h4 h5
    exact (hB i).gemm _ _ _ _ _ _ h5 fun c => ⟨h1 c, h2 c, h3 c, h4 c⟩

omit hη0 hη in
theorem exactSolve_some {nanInt : ℝ} {n k : ℕ} {M : Matrix (Fin n) (Fin n) Fl} {N X : Matrix (Fin n) (Fin k) Fl}
    (hX : (exactB nanInt).solve M N = some X) :
    (NoNan M ∧ NoNan N) ∧ (M.map Fl.toReal).det ≠ 0 ∧
      X = finM ((M.map Fl.toReal)⁻¹ * N.map Fl.toReal) := by
  have hX' : @exactSolve (strict nanInt) _ _ M N = some X := hX
  simp only [exactSolve] at hX'
  by_cases h1 : NoNan M ∧ NoNan N
  · rw [if_pos h1] at hX'
    by_cases h2 : (M.map Fl.toReal).det = 0
    · rw [if_pos h2] at hX'; cases hX'
    · rw [if_neg h2, Option.some.injEq] at hX'
      exact ⟨h1, h2, hX'.symm⟩
  · rw [if_neg h1] at hX'; cases hX'

omit hη0 hη in
theorem inv_mul_tendsto {n k : ℕ} {S : ι → Matrix (Fin n) (Fin n) ℝ} {T : ι → Matrix (Fin n) (Fin k) ℝ}
    {M : Matrix (Fin n) (Fin n) ℝ} {N : Matrix (Fin n) (Fin k) ℝ} (hS : Tendsto S l (𝓝 M)) (hT : Tendsto T l (𝓝 N))
    (hdet : M.det ≠ 0) : Tendsto (fun i => (S i)⁻¹ * T i) l (𝓝 (M⁻¹ * N)) := by
  have tD : Tendsto (fun i => (S i).det) l (𝓝 M.det) :=
    ((Continuous.matrix_det continuous_id).tendsto M).comp hS
  have tA : Tendsto (fun i => (S i).adjugate) l (𝓝 M.adjugate) :=
    ((Continuous.matrix_adjugate continuous_id).tendsto M).comp hS
  have tI : Tendsto (fun i => (S i)⁻¹) l (𝓝 M⁻¹) := by
    have e : ∀ X : Matrix (Fin n) (Fin n) ℝ, X⁻¹ = X.det⁻¹ • X.adjugate := fun X => by
      rw [Matrix.inv_def, Ring.inverse_eq_inv']
    rw [e M, show (fun i => (S i)⁻¹) = fun i => (S i).det⁻¹ • (S i).adjugate from funext fun i => e (S i)]
    exact (tD.inv₀ hdet).smul tA
  refine tendsto_pi_nhds.2 fun a => tendsto_pi_nhds.2 fun b => ?_
  simp only [Matrix.mul_apply]
  exact tendsto_finsetSum _ fun c _ => (tendsto_pi_nhds.1 (tendsto_pi_nhds.1 tI a) c).mul
    (tendsto_pi_nhds.1 (tendsto_pi_nhds.1 hT c) b)

theorem det_bound {n : ℕ} {S : ι → Matrix (Fin n) (Fin n) ℝ} {M : Matrix (Fin n) (Fin n) ℝ} (hS : Tendsto S l (𝓝 M))
    (hdet : M.det ≠ 0) : ∀ᶠ i in l, η i ≤ |(S i).det| := by
  have tD : Tendsto (fun i => (S i).det) l (𝓝 M.det) :=
    ((Continuous.matrix_det continuous_id).tendsto M).comp hS
  have hpos : 0 < |M.det| := abs_pos.2 hdet
  filter_upwards [tD.abs.eventually (lt_mem_nhds (half_lt_self hpos)),
    hη.eventually (gt_mem_nhds (half_pos hpos))] with i h1 h2
  exact h2.le.trans h1.le

omit hη0 hη in
/-- NaN-free limits. -/
theorem MT.real {m n : ℕ} {F : ι → Matrix (Fin m) (Fin n) Fl} {M : Matrix (Fin m) (Fin n) Fl} (hF : MT l F M)
    (hM : NoNan M) : Tendsto (fun i => (F i).map Fl.toReal) l (𝓝 (M.map Fl.toReal)) ∧
      ∀ᶠ i in l, F i = finM ((F i).map Fl.toReal) := by
  have hM' : ∀ a b, M a b = .fin (M a b).toReal := fun a b => by
    have := hM a b
    cases h : M a b with
    | nan => rw [h] at this; cases this
    | fin x => rfl
  have hF' : ∀ a b, FlT l (fun i => F i a b) (.fin (M a b).toReal) := fun a b => by rw [← hM' a b]; exact hF a b
  refine ⟨tendsto_pi_nhds.2 fun a => tendsto_pi_nhds.2 fun b => (hF' a b).2, ?_⟩
  filter_upwards [eventually_all.2 fun a => eventually_all.2 fun b => (hF' a b).fin.1] with i h1
  ext a b; exact h1 a b

theorem abs_le_inv_mat {m n : ℕ} {S : ι → Matrix (Fin m) (Fin n) ℝ} {M : Matrix (Fin m) (Fin n) ℝ}
    (hS : Tendsto S l (𝓝 M)) : ∀ᶠ i in l, ∀ a b, |S i a b| ≤ 1 / η i :=
  eventually_all.2 fun a => eventually_all.2 fun b =>
    abs_le_inv hη0 hη (tendsto_pi_nhds.1 (tendsto_pi_nhds.1 hS a) b)

theorem Accurate.solveT {nanInt : ℝ} {B : ι → Backend Fl} (hB : ∀ i, Accurate nanInt (η i) (B i))
    {n k : ℕ} (F : ι → Matrix (Fin n) (Fin n) Fl) (G : ι → Matrix (Fin n) (Fin k) Fl) (M : Matrix (Fin n) (Fin n) Fl)
    (N X : Matrix (Fin n) (Fin k) Fl) (hF : MT l F M) (hG : MT l G N) (hX : (exactB nanInt).solve M N = some X) :
    ∃ Y, MT l Y X ∧ ∀ᶠ i in l, (B i).solve (F i) (G i) = some (Y i) := by
  obtain ⟨hnn, hdet, hXe⟩ := exactSolve_some hX
  obtain ⟨tF, eF⟩ := hF.real hnn.1
  obtain ⟨tG, eG⟩ := hG.real hnn.2
  generalize hS : (fun i => (F i).map Fl.toReal) = S at *
  generalize hT : (fun i => (G i).map Fl.toReal) = T at *
  have hS' : ∀ i, (F i).map Fl.toReal = S i := fun i => by rw [← hS]
  have hT' : ∀ i, (G i).map Fl.toReal = T i := fun i => by rw [← hT]
  have tX := inv_mul_tendsto tF tG hdet
  have key : ∀ᶠ i in l, ∃ Y : Matrix (Fin n) (Fin k) ℝ, (B i).solve (F i) (G i) = some (finM Y) ∧
      ∀ a b, |Y a b - ((S i)⁻¹ * T i) a b| ≤ η i := by
    filter_upwards [eF, eG, abs_le_inv_mat hη0 hη tF, abs_le_inv_mat hη0 hη tG,
      (inv_atTop hη0 hη).eventually_ge_atTop (n : ℝ), (inv_atTop hη0 hη).eventually_ge_atTop (k : ℝ),
      det_bound hη0 hη tF hdet] with i h1 h2 h3 h4 h5 h6 h7
    rw [h1, h2, hS', hT']
    exact (hB i).solve (S i) (T i) h5 h6 h3 h4 h7
  obtain ⟨Y, hY⟩ : ∃ Y : ι → Matrix (Fin n) (Fin k) ℝ, ∀ᶠ i in l, (B i).solve (F i) (G i) = some (finM (Y i)) ∧
      ∀ a b, |Y i a b - ((S i)⁻¹ * T i) a b| ≤ η i :=
    ⟨fun i => Classical.epsilon fun Y => (B i).solve (F i) (G i) = some (finM Y) ∧
      ∀ a b, |Y a b - ((S i)⁻¹ * T i) a b| ≤ η i, key.mono fun i h => Classical.epsilon_spec h⟩
  refine ⟨fun i => finM (Y i), ?_, hY.mono fun i h => h.1⟩
  rw [hXe]
  intro a b
  refine FlT.approx hη (tendsto_pi_nhds.1 (tendsto_pi_nhds.1 tX a) b) ?_
  filter_upwards [hY] with i h
  exact ⟨Y i a b, rfl, h.2 a b⟩

theorem Accurate.consistent {nanInt : ℝ} {B : ι → Backend Fl} (hB : ∀ i, Accurate nanInt (η i) (B i)) :
    Consistent l nanInt B where
  zero i := (hB i).zero
  one i := (hB i).one
  nan i := (hB i).nan
  nanI i := (hB i).nanInt
  isnan i := (hB i).isnan
  add := Accurate.addT hη0 hη hB
  sub := Accurate.subT hη0 hη hB
  gemm := Accurate.gemmT hη0 hη hB
  solve := fun F G M N X hF hG hX => Accurate.solveT hη0 hη hB F G M N X hF hG hX

/-! ### close inputs converge -/

theorem Fl.Close.T {f : ι → Fl} {a : Fl} (h : ∀ i, a.Close (η i) (f i)) : FlT l f a := by
  refine ⟨.of_forall fun i => (h i).1.symm, ?_⟩
  refine tendsto_iff_norm_sub_tendsto_zero.2 (squeeze_zero (fun _ => norm_nonneg _) (fun i => ?_) hη)
  rw [Real.norm_eq_abs, abs_sub_comm]; exact (h i).2

theorem Arr.Close.T {f : ι → Arr Fl} {a : Arr Fl} (h : ∀ i, a.Close (η i) (f i)) : ArrT l f a := by
  cases a with
  | scalar d x => choose g h1 h2 using h; exact ⟨g, Fl.Close.T hη0 hη h2, .of_forall h1⟩
  | vec d x => choose g h1 h2 using h; exact ⟨g, fun k => Fl.Close.T hη0 hη fun i => h2 i k, .of_forall h1⟩
  | mat d x => choose g h1 h2 using h; exact ⟨g, fun k j => Fl.Close.T hη0 hη fun i => h2 i k j, .of_forall h1⟩

theorem closeList_T {L : ι → List (Arr Fl)} {a : List (Arr Fl)} (h : ∀ i, List.Forall₂ (Arr.Close (η i)) a (L i)) :
    ListT l (ArrT l) L a := by
  induction a generalizing L with
  | nil => exact ⟨[], .nil, .of_forall fun i => List.forall₂_nil_left_iff.1 (h i)⟩
  | cons a as ih =>
    have : ∀ i, ∃ b bs, L i = b :: bs ∧ a.Close (η i) b ∧ List.Forall₂ (Arr.Close (η i)) as bs := by
      intro i
      have h1 := h i
      rcases hL : L i with _ | ⟨b, bs⟩
      · rw [hL] at h1; cases h1
      · rw [hL] at h1; cases h1 with | cons h2 h3 => exact ⟨b, bs, rfl, h2, h3⟩
    choose b bs h1 h2 h3 using this
    obtain ⟨gs, hg, he⟩ := ih h3
    refine ⟨b :: gs, .cons (Arr.Close.T hη0 hη h2) hg, ?_⟩
    filter_upwards [he] with i h4
    rw [h1, h4]; rfl

theorem NDArray.Close.T {f : ι → NDArray Fl} {a : NDArray Fl} (h : ∀ i, a.Close (η i) (f i)) : NDT l f a := by
  cases a with
  | d0 d x => choose g h1 h2 using h; exact ⟨g, Fl.Close.T hη0 hη h2, .of_forall h1⟩
  | stack rows => choose g h1 h2 using h; exact ⟨g, closeList_T hη0 hη h2, .of_forall h1⟩

theorem CloseOpt.T {f : ι → Option (NDArray Fl)} {a : Option (NDArray Fl)} (h : ∀ i, CloseOpt (η i) a (f i)) :
    OptT (NDT l) l f a := by
  cases a with
  | none => exact .of_forall h
  | some a => choose g h1 h2 using h; exact ⟨g, NDArray.Close.T hη0 hη h2, .of_forall h1⟩

theorem KalmanFilter.Close.T {S : ι → KalmanFilter Fl} {s : KalmanFilter Fl} (h : ∀ i, s.Close (η i) (S i)) :
    KFT l S s :=
  ⟨NDArray.Close.T hη0 hη fun i => (h i).A, Arr.Close.T hη0 hη fun i => (h i).xk, NDArray.Close.T hη0 hη fun i => (h i).B,
    Arr.Close.T hη0 hη fun i => (h i).Pk, NDArray.Close.T hη0 hη fun i => (h i).H, NDArray.Close.T hη0 hη fun i => (h i).Q,
    NDArray.Close.T hη0 hη fun i => (h i).R, .of_forall fun i => (h i).stateSize, Arr.Close.T hη0 hη fun i => (h i).I,
    closeList_T hη0 hη fun i => (h i).kalmanGains⟩

end

/-! ### converging results are eventually close -/

theorem FlT.close {f : ι → Fl} {a : Fl} (h : FlT l f a) {ε : ℝ} (hε : 0 < ε) : ∀ᶠ i in l, a.Close ε (f i) := by
  filter_upwards [h.1, (Metric.tendsto_nhds.1 h.2) ε hε] with i h1 h2
  refine ⟨h1.symm, ?_⟩
  rw [Real.dist_eq, abs_sub_comm] at h2; exact h2.le

theorem ArrT.close {f : ι → Arr Fl} {a : Arr Fl} (h : ArrT l f a) {ε : ℝ} (hε : 0 < ε) : ∀ᶠ i in l, a.Close ε (f i) := by
  cases a with
  | scalar d x =>
    obtain ⟨u, hu, h1⟩ := h
    filter_upwards [h1, hu.close hε] with i h2 h3; exact ⟨_, h2, h3⟩
  | vec d x =>
    obtain ⟨u, hu, h1⟩ := h
    filter_upwards [h1, eventually_all.2 fun k => (hu k).close hε] with i h2 h3; exact ⟨_, h2, h3⟩
  | mat d x =>
    obtain ⟨u, hu, h1⟩ := h
    filter_upwards [h1, eventually_all.2 fun k => eventually_all.2 fun j => (hu k j).close hε] with i h2 h3
    exact ⟨_, h2, h3⟩

theorem ListT.close {L : ι → List (Arr Fl)} {a : List (Arr Fl)} (h : ListT l (ArrT l) L a) {ε : ℝ} (hε : 0 < ε) :
    ∀ᶠ i in l, List.Forall₂ (Arr.Close ε) a (L i) := by
  obtain ⟨gs, hg, he⟩ := h
  suffices ∀ᶠ i in l, List.Forall₂ (Arr.Close ε) a (gs.map fun g => g i) by
    filter_upwards [he, this] with i h1 h2; rw [h1]; exact h2
  clear he
  induction hg with
  | nil => exact .of_forall fun _ => .nil
  | cons h1 h2 ih => filter_upwards [h1.close hε, ih] with i h3 h4; exact .cons h3 h4

theorem NDT.close {f : ι → NDArray Fl} {a : NDArray Fl} (h : NDT l f a) {ε : ℝ} (hε : 0 < ε) :
    ∀ᶠ i in l, a.Close ε (f i) := by
  cases a with
  | d0 d x =>
    obtain ⟨u, hu, h1⟩ := h
    filter_upwards [h1, hu.close hε] with i h2 h3; exact ⟨_, h2, h3⟩
  | stack rows =>
    obtain ⟨u, hu, h1⟩ := h
    filter_upwards [h1, hu.close hε] with i h2 h3; exact ⟨_, h2, h3⟩

theorem KFT.close {S : ι → KalmanFilter Fl} {s : KalmanFilter Fl} (h : KFT l S s) {ε : ℝ} (hε : 0 < ε) :
    ∀ᶠ i in l, s.Close ε (S i) := by
  filter_upwards [h.A.close hε, h.xk.close hε, h.B.close hε, h.Pk.close hε, h.H.close hε, h.Q.close hε, h.R.close hε,
    h.stateSize, h.I.close hε, h.kalmanGains.close hε] with i h1 h2 h3 h4 h5 h6 h7 h8 h9 h10
  exact ⟨h1, h2, h3, h4, h5, h6, h7, h8, h9, h10⟩

/-- A sequence of counterexamples, one for each accuracy `1 / (k + 1)`. -/
theorem eta_of_seq {p : ℝ → Prop} (h : ¬ ∃ η > 0, p η) (k : ℕ) : ¬ p (1 / ((k : ℝ) + 1)) := fun hp =>
  h ⟨_, by positivity, hp⟩

theorem seq_pos (k : ℕ) : (0 : ℝ) < 1 / ((k : ℝ) + 1) := by positivity

theorem seq_tendsto : Tendsto (fun k : ℕ => (1 : ℝ) / ((k : ℝ) + 1)) atTop (𝓝 0) := tendsto_one_div_add_atTop_nhds_zero_nat

end KK
