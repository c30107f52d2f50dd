import Mathlib.LinearAlgebra.Matrix.AbsoluteValue
import Verif.Props.NoDrift
import Verif.Proofs.FixedLag

/-!
# The backward pass under an accurate arithmetic, uniformly in the number of steps
-/

set_option linter.unusedSectionVars false

namespace KK

open Matrix Filter Topology

section
variable {n m : ℕ}

theorem ArrT.vecEq {ι : Type} {l : Filter ι} {f : ι → Arr Fl} {d : DType} {w : Fin n → ℝ} (h : ArrT l f (.vec d (finV w))) :
    ∃ v : ι → Fin n → ℝ, (∀ᶠ i in l, f i = .vec d (finV (v i))) ∧ Tendsto v l (𝓝 w) := by
  obtain ⟨g, hg, he⟩ := h
  refine ⟨fun i k => (g i k).toReal, ?_, tendsto_pi_nhds.2 fun k => (hg k).2⟩
  filter_upwards [he, eventually_all.2 fun k => (FlT.fin (hg k)).1] with i h1 h2
  rw [h1]; congr 1; funext k; exact h2 k

theorem stateRow_T {F : Filter ℕ} {b : ℕ → Belief n} {a : Belief n} (h : Tendsto (fun i => (b i).x) F (𝓝 a.x)) :
    ArrT F (fun i => stateRow (b i)) (stateRow a) :=
  ⟨fun i => finV (b i).x, fun k => ⟨.of_forall fun _ => rfl, tendsto_pi_nhds.1 h k⟩, .of_forall fun _ => rfl⟩

theorem covRow_T {F : Filter ℕ} {b : ℕ → Belief n} {a : Belief n} (h : Tendsto (fun i => (b i).P) F (𝓝 a.P)) :
    ArrT F (fun i => covRow (b i)) (covRow a) :=
  ⟨fun i => finM (b i).P, fun k j => ⟨.of_forall fun _ => rfl, tendsto_pi_nhds.1 (tendsto_pi_nhds.1 h k) j⟩, .of_forall fun _ => rfl⟩

theorem prior_det_continuous : Continuous fun t : Matrix (Fin n) (Fin n) ℝ × Matrix (Fin n) (Fin n) ℝ × Matrix (Fin n) (Fin n) ℝ =>
    (priorCov t.1 t.2.1 t.2.2).det := by
  unfold priorCov
  fun_prop

/-- One step of the backward pass, from beliefs that are not too large and with a predicted covariance that is not close to
singular: an accurate arithmetic returns a belief near the textbook one. -/
theorem one_back (nanInt D : ℝ) {c δ : ℝ} (hc : 0 < c) (hδ : 0 < δ) : ∃ η > 0, ∀ (B : Backend Fl) (s : LinStep n m) (f f' q : Belief n)
    (r r₁ : KalmanFilter.Row Fl), Accurate nanInt η B → @RowIs (strict nanInt) n m s r → RowSmall D r → RowClose η r r₁ →
    BeliefWithin D f → BeliefNear η f' f → BeliefWithin D q → c ≤ |(s.predict f).P.det| →
    ∃ q' : Belief n, @KalmanFilter.smoothStep Fl B (stateRow f') (covRow f') r₁.1 r₁.2.2.2.2.2.1 r₁.2.2.1 r₁.2.2.2.1 (stateRow q)
      (covRow q) = .ok (beliefRows q') ∧ BeliefNear δ q' (rtsStep f s q) := by
  letI : Platform := strict nanInt
  by_contra hcon
  have hn := fun k => eta_of_seq hcon k
  push Not at hn
  choose B s f f' q r r₁ hB hrow hsm hcl hfw hff hqw hdet hbad using hn
  set l : Filter ℕ := (hyperfilter ℕ : Filter ℕ) with hl
  have hη : Tendsto (fun k : ℕ => (1 : ℝ) / ((k : ℝ) + 1)) l (𝓝 0) := hyper_tendsto seq_tendsto
  obtain ⟨a1, h1⟩ := ultra_arr (l := hyperfilter ℕ) (.of_forall fun i => (hsm i).1)
  obtain ⟨a2, h2⟩ := ultra_arr (l := hyperfilter ℕ) (.of_forall fun i => (hsm i).2.1)
  obtain ⟨a3, h3⟩ := ultra_arr (l := hyperfilter ℕ) (.of_forall fun i => (hsm i).2.2.1)
  obtain ⟨a4, h4⟩ := ultra_arr (l := hyperfilter ℕ) (.of_forall fun i => (hsm i).2.2.2.1)
  obtain ⟨a5, h5⟩ := ultra_arr (l := hyperfilter ℕ) (.of_forall fun i => (hsm i).2.2.2.2.1)
  obtain ⟨a6, h6⟩ := ultra_arr (l := hyperfilter ℕ) (.of_forall fun i => (hsm i).2.2.2.2.2.1)
  obtain ⟨a7, h7⟩ := ultra_arr (l := hyperfilter ℕ) (.of_forall fun i => (hsm i).2.2.2.2.2.2)
  obtain ⟨fx, hfx⟩ := ultra_vec (l := hyperfilter ℕ) (f := fun i => (f i).x) (D := D) (.of_forall fun i => (hfw i).1)
  obtain ⟨fP, hfP⟩ := ultra_mat (l := hyperfilter ℕ) (f := fun i => (f i).P) (D := D) (.of_forall fun i => (hfw i).2)
  obtain ⟨qx, hqx⟩ := ultra_vec (l := hyperfilter ℕ) (f := fun i => (q i).x) (D := D) (.of_forall fun i => (hqw i).1)
  obtain ⟨qP, hqP⟩ := ultra_mat (l := hyperfilter ℕ) (f := fun i => (q i).P) (D := D) (.of_forall fun i => (hqw i).2)
  obtain ⟨sA, m1, t1⟩ := MatIs.lim (F := l) (.of_forall fun i => (hrow i).A) h1
  obtain ⟨sH, m2, t2⟩ := MatIs.lim (F := l) (.of_forall fun i => (hrow i).H) h2
  obtain ⟨sc, m3, t3⟩ := CtrlIs.lim (.of_forall fun i => (hrow i).ctrl) h3 h4
  obtain ⟨sz, m5, t5⟩ := ObsIs.lim (l := hyperfilter ℕ) (.of_forall fun i => (hrow i).z) h5
  obtain ⟨sQ, m6, t6⟩ := NoiseIs.lim (l := hyperfilter ℕ) (.of_forall fun i => (hrow i).Q) h6
  obtain ⟨sR, m7, t7⟩ := NoiseIs.lim (l := hyperfilter ℕ) (.of_forall fun i => (hrow i).R) h7
  have hrL : RowIs (⟨sA, sc, sH, sQ, sR, sz⟩ : LinStep n m) (a1, a2, a3, a4, a5, a6, a7) := ⟨m1, m2, m3, m5, m6, m7⟩
  have hdL : (LinStep.predict (⟨sA, sc, sH, sQ, sR, sz⟩ : LinStep n m) ⟨fx, fP⟩).P.det ≠ 0 := by
    have := (prior_det_continuous.tendsto (sA, fP, sQ)).comp (t1.prodMk_nhds (hfP.prodMk_nhds t6))
    have hge := ge_of_tendsto this.abs (.of_forall hdet)
    intro h0
    have : c ≤ |(0 : ℝ)| := by rw [← h0]; exact hge
    rw [abs_zero] at this; linarith
  have hst := (smoothStep_exact (f := ⟨fx, fP⟩) (q := ⟨qx, qP⟩) hrL).1 hdL
  have hf1 := stateRow_T (F := l) (b := f) (a := ⟨fx, fP⟩) hfx
  have hf2 := covRow_T (F := l) (b := f) (a := ⟨fx, fP⟩) hfP
  have hq1 := stateRow_T (F := l) (b := q) (a := ⟨qx, qP⟩) hqx
  have hq2 := covRow_T (F := l) (b := q) (a := ⟨qx, qP⟩) hqP
  have hf1' := hf1.transfer hη (.of_forall fun i => stateRow_close (hff i))
  have hf2' := hf2.transfer hη (.of_forall fun i => covRow_close (hff i))
  obtain ⟨u, hu, eu⟩ := smoothStep_T (Accurate.consistent seq_pos hη hB) hf1' hf2'
    (h1.transfer hη (.of_forall fun i => (hcl i).1)) (h6.transfer hη (.of_forall fun i => (hcl i).2.2.2.2.2.1))
    (h3.transfer hη (.of_forall fun i => (hcl i).2.2.1)) (h4.transfer hη (.of_forall fun i => (hcl i).2.2.2.1)) hq1 hq2 _ hst
  obtain ⟨v, hv, ev⟩ := smoothStep_T (exact_consistent nanInt) hf1 hf2 h1 h6 h3 h4 hq1 hq2 _ hst
  have hdi : ∀ i, ((s i).predict (f i)).P.det ≠ 0 := fun i h0 => by
    have := hdet i
    rw [h0, abs_zero] at this; linarith
  have hE : ∀ᶠ i in l, v i = beliefRows (rtsStep (f i) (s i) (q i)) := by
    filter_upwards [ev] with i hi
    have e := ((smoothStep_exact (f := f i) (q := q i) (hrow i)).1 (hdi i)).symm.trans hi
    exact (Except.ok.inj e).symm
  obtain ⟨w1, q1, u1⟩ := VecIs.lim (v := fun i => (rtsStep (f i) (s i) (q i)).x) (hE.mono fun i hi => ⟨_, by rw [hi]; rfl⟩) hv.1
  obtain ⟨w2, q2, u2⟩ := MatIs.lim (M := fun i => (rtsStep (f i) (s i) (q i)).P) (hE.mono fun i hi => ⟨_, by rw [hi]; rfl⟩) hv.2
  have d1 := VecIs.inj q1
  have d2 := MatIs.inj q2
  subst d1 d2
  obtain ⟨xr, g1, g2⟩ := ArrT.vecEq hu.1
  obtain ⟨Pr, g3, g4⟩ := ArrT.matEq hu.2
  have n1 := tendsto_near g2 u1 hδ
  have n2 : ∀ᶠ i in l, ∀ k, ∀ j, |Pr i k j - (rtsStep (f i) (s i) (q i)).P k j| ≤ δ :=
    eventually_all.2 fun k => tendsto_near (tendsto_pi_nhds.1 g4 k) (tendsto_pi_nhds.1 u2 k) hδ
  obtain ⟨i, e1, e2, e3, e4, e5⟩ := (eu.and (g1.and (g3.and (n1.and n2)))).exists
  refine hbad i ⟨xr i, Pr i⟩ ?_ ⟨e4, e5⟩
  exact Eq.trans e1 (congrArg Except.ok (Prod.ext e2 e3))

end

open scoped Matrix.Norms.Elementwise

/-! ### decay of the smoother gains -/

section
variable {n m : ℕ} {A Q : Matrix (Fin n) (Fin n) ℝ} {H : Matrix (Fin m) (Fin n) ℝ} {R : Matrix (Fin m) (Fin m) ℝ}

/-- The smoother gain at filtered covariance `X`. -/
noncomputable def smGain (A Q X : Matrix (Fin n) (Fin n) ℝ) : Matrix (Fin n) (Fin n) ℝ := X * Aᵀ * (priorCov A X Q)⁻¹

/-- The product of the smoother gains at the times `t, ..., t+k-1`. -/
noncomputable def backProd (A Q : Matrix (Fin n) (Fin n) ℝ) (H : Matrix (Fin m) (Fin n) ℝ) (R : Matrix (Fin m) (Fin m) ℝ)
    (P : Matrix (Fin n) (Fin n) ℝ) : ℕ → ℕ → Matrix (Fin n) (Fin n) ℝ
  | _, 0 => 1
  | t, k + 1 => smGain A Q ((ric A H Q R)^[t] P) * backProd A Q H R P (t + 1) k

theorem backProd_add (P : Matrix (Fin n) (Fin n) ℝ) (t j k : ℕ) :
    backProd A Q H R P t (j + k) = backProd A Q H R P t j * backProd A Q H R P (t + j) k := by
  induction j generalizing t with
  | zero => simp [backProd]
  | succ j ih => rw [Nat.add_right_comm j 1 k, backProd, ih, backProd, Matrix.mul_assoc, show t + 1 + j = t + (j + 1) by omega]

theorem backProd_backTo (hQ : Q.PosSemidef) (hR : R.PosDef) (P : Matrix (Fin n) (Fin n) ℝ) (t k : ℕ)
    (h : Lasting A Q H R ((ric A H Q R)^[t] P)) : backProd A Q H R P t k = backTo A Q H R ((ric A H Q R)^[t] P) k := by
  induction k generalizing t with
  | zero => rw [backTo_zero h.pd]; rfl
  | succ k ih =>
    have h' := h.next
    rw [← Function.iterate_succ_apply' (ric A H Q R)] at h'
    rw [backTo_succ h hQ hR, ← Function.iterate_succ_apply' (ric A H Q R), ← ih (t + 1) h']
    rfl

theorem backProd_decay {c δ : ℝ} (u : Uniform A Q H R c δ) (hQ : Q.PosSemidef) (hR : R.PosDef) {P : Matrix (Fin n) (Fin n) ℝ}
    (hP : P.PosSemidef) : ∃ C ρ : ℝ, 1 ≤ C ∧ 0 < ρ ∧ ρ < 1 ∧ ∀ t k : ℕ, ‖backProd A Q H R P t k‖ ≤ C * ρ ^ k := by
  obtain ⟨C, ρ, hC, h0, h1, hd⟩ := u.backTo hQ hR
  have hd' : ∀ t k, n ≤ t → ‖backProd A Q H R P t k‖ ≤ C * ρ ^ k := fun t k ht => by
    rw [backProd_backTo hQ hR P t k (u.lasting hP ht)]
    exact (mat_norm_le (by positivity)).2 (hd P hP t ht k)
  obtain ⟨G, hG, hb⟩ : ∃ G : ℝ, 1 ≤ G ∧ ∀ j ≤ n, ∀ k ≤ n, ‖backProd A Q H R P j k‖ ≤ G := by
    refine ⟨1 + ∑ j ∈ Finset.range (n + 1), ∑ k ∈ Finset.range (n + 1), ‖backProd A Q H R P j k‖, ?_, ?_⟩
    · have : 0 ≤ ∑ j ∈ Finset.range (n + 1), ∑ k ∈ Finset.range (n + 1), ‖backProd A Q H R P j k‖ :=
        Finset.sum_nonneg fun j _ => Finset.sum_nonneg fun k _ => norm_nonneg _
      linarith
    · intro j hj k hk
      have e1 := Finset.single_le_sum (f := fun j => ∑ k ∈ Finset.range (n + 1), ‖backProd A Q H R P j k‖)
        (fun j _ => Finset.sum_nonneg fun k _ => norm_nonneg _) (Finset.mem_range.2 (Nat.lt_succ_of_le hj))
      have e2 := Finset.single_le_sum (f := fun k => ‖backProd A Q H R P j k‖)
        (fun k _ => norm_nonneg _) (Finset.mem_range.2 (Nat.lt_succ_of_le hk))
      linarith
  have hρ : 0 < ρ ^ n := by positivity
  have hinv : 1 ≤ (ρ ^ n)⁻¹ := (one_le_inv₀ hρ).2 (pow_le_one₀ h0.le h1.le)
  have hGi : 1 ≤ G * (ρ ^ n)⁻¹ := one_le_mul_of_one_le_of_one_le hG hinv
  have hnG : 0 ≤ n * G * C * (ρ ^ n)⁻¹ := by positivity
  refine ⟨C + G * (ρ ^ n)⁻¹ + n * G * C * (ρ ^ n)⁻¹, ρ, by linarith, h0, h1, fun j k => ?_⟩
  have hk0 : 0 ≤ ρ ^ k := by positivity
  have x1 : 0 ≤ C * ρ ^ k := by positivity
  have x2 : 0 ≤ G * (ρ ^ n)⁻¹ * ρ ^ k := by positivity
  have x3 : 0 ≤ n * G * C * (ρ ^ n)⁻¹ * ρ ^ k := by positivity
  rcases Nat.lt_or_ge j n with hj | hj
  · rcases Nat.lt_or_ge k n with hk | hk
    · refine (hb j hj.le k hk.le).trans ?_
      have e : ρ ^ n ≤ ρ ^ k := pow_le_pow_of_le_one h0.le h1.le hk.le
      have e' : 1 ≤ (ρ ^ n)⁻¹ * ρ ^ k := by
        rw [← inv_mul_cancel₀ hρ.ne']; exact mul_le_mul_of_nonneg_left e (by positivity)
      have : G ≤ G * ((ρ ^ n)⁻¹ * ρ ^ k) := le_mul_of_one_le_right (by linarith) e'
      linarith
    · obtain ⟨k', rfl⟩ : ∃ k', k = (n - j) + k' := ⟨k - (n - j), by omega⟩
      rw [backProd_add]
      refine (mul_norm_le _ _).trans ?_
      have e1 := mul_le_mul (hb j hj.le (n - j) (by omega)) (hd' (j + (n - j)) k' (by omega)) (norm_nonneg _) (by linarith)
      have e2 := mul_le_mul_of_nonneg_left e1 (Nat.cast_nonneg (α := ℝ) n)
      refine e2.trans ?_
      have e : ρ ^ n ≤ ρ ^ (n - j) := pow_le_pow_of_le_one h0.le h1.le (by omega)
      have e' : 1 ≤ (ρ ^ n)⁻¹ * ρ ^ (n - j) := by
        rw [← inv_mul_cancel₀ hρ.ne']; exact mul_le_mul_of_nonneg_left e (by positivity)
      have e3 : n * (G * (C * ρ ^ k')) ≤ n * (G * (C * ρ ^ k')) * ((ρ ^ n)⁻¹ * ρ ^ (n - j)) :=
        le_mul_of_one_le_right (by positivity) e'
      have e4 : n * (G * (C * ρ ^ k')) * ((ρ ^ n)⁻¹ * ρ ^ (n - j)) = n * G * C * (ρ ^ n)⁻¹ * ρ ^ (n - j + k') := by
        rw [pow_add]; ring
      linarith
  · have := hd' j k hj
    linarith

/-- `(v, X) ↦ (M v, M X M')` -/
def backHom (M : Matrix (Fin n) (Fin n) ℝ) : (Fin n → ℝ) × Matrix (Fin n) (Fin n) ℝ →+ (Fin n → ℝ) × Matrix (Fin n) (Fin n) ℝ where
  toFun d := (M *ᵥ d.1, M * d.2 * Mᵀ)
  map_zero' := by simp
  map_add' X Y := by
    refine Prod.ext (mulVec_add M X.1 Y.1) ?_
    show M * (X.2 + Y.2) * Mᵀ = M * X.2 * Mᵀ + M * Y.2 * Mᵀ
    rw [Matrix.mul_add, Matrix.add_mul]

theorem seg_back (P : Matrix (Fin n) (Fin n) ℝ) (N j k : ℕ) (d : (Fin n → ℝ) × Matrix (Fin n) (Fin n) ℝ) (h : j + k ≤ N) :
    seg (fun i => backHom (smGain A Q ((ric A H Q R)^[N - 1 - i] P))) j k d = backHom (backProd A Q H R P (N - j - k) k) d := by
  induction k with
  | zero => simp [seg, backProd, backHom]
  | succ k ih =>
    rw [seg, AddMonoidHom.comp_apply, ih (by omega), backProd, show N - 1 - (j + k) = N - j - (k + 1) by omega,
      show N - j - (k + 1) + 1 = N - j - k by omega]
    refine Prod.ext ?_ ?_
    · simp [backHom, mulVec_mulVec]
    · simp [backHom, Matrix.mul_assoc]

theorem backHom_norm (M : Matrix (Fin n) (Fin n) ℝ) (d : (Fin n → ℝ) × Matrix (Fin n) (Fin n) ℝ) :
    ‖backHom M d‖ ≤ (n * ‖M‖ + (n * ‖M‖) ^ 2) * ‖d‖ := by
  have a1 : 0 ≤ n * ‖M‖ := by positivity
  have a2 : 0 ≤ (n * ‖M‖) ^ 2 := by positivity
  refine Prod.norm_def (backHom M d) ▸ max_le ?_ ?_
  · refine (mulVec_norm M d.1).trans (mul_le_mul (by linarith) (norm_fst_le d) (norm_nonneg _) (by linarith))
  · refine (conj_norm_le M d.2).trans (mul_le_mul (by linarith) (norm_snd_le d) (norm_nonneg _) (by linarith))

/-! ### the predicted covariances stay away from singular ones -/

theorem pos_min (f : ℕ → ℝ) (N : ℕ) : ∃ c > 0, ∀ k < N, f k ≠ 0 → c ≤ |f k| := by
  induction N with
  | zero => exact ⟨1, one_pos, fun k hk => absurd hk (by omega)⟩
  | succ N ih =>
    obtain ⟨c, hc, h⟩ := ih
    by_cases h0 : f N = 0
    · refine ⟨c, hc, fun k hk hf => ?_⟩
      rcases Nat.lt_succ_iff_lt_or_eq.1 hk with hk | rfl
      · exact h k hk hf
      · exact absurd h0 hf
    · refine ⟨min c |f N|, lt_min hc (abs_pos.2 h0), fun k hk hf => ?_⟩
      rcases Nat.lt_succ_iff_lt_or_eq.1 hk with hk | rfl
      · exact (min_le_left _ _).trans (h k hk hf)
      · exact min_le_right _ _

theorem prior_det_bound {c δ : ℝ} (u : Uniform A Q H R c δ) (hQ : Q.PosSemidef) (hR : R.PosDef) {P : Matrix (Fin n) (Fin n) ℝ}
    (hP : P.PosSemidef) : ∃ c₀ > 0, ∀ k, (priorCov A ((ric A H Q R)^[k] P) Q).det ≠ 0 →
      c₀ ≤ |(priorCov A ((ric A H Q R)^[k] P) Q).det| := by
  have hc := u.c_pos
  obtain ⟨c₁, hc₁, h⟩ := pos_min (fun k => (priorCov A ((ric A H Q R)^[k] P) Q).det) n
  have hF : (0 : ℝ) < (Nat.factorial n : ℝ) * c ^ n := by positivity
  refine ⟨min c₁ ((Nat.factorial n : ℝ) * c ^ n)⁻¹, lt_min hc₁ (inv_pos.2 hF), fun k hk => ?_⟩
  rcases Nat.lt_or_ge k n with hkn | hkn
  · exact (min_le_left _ _).trans (h k hkn hk)
  · refine (min_le_right _ _).trans ?_
    have hl := u.lasting hP hkn
    have hpd := hl.prior hQ hR
    have hlow := u.lower P hP (k + 1) (by omega)
    rw [Function.iterate_succ_apply'] at hlow
    have hle : (priorCov A ((ric A H Q R)^[k] P) Q - ric A H Q R ((ric A H Q R)^[k] P)).PosSemidef :=
      postCov_le hpd.posSemidef hR.posSemidef (posDef_det_ne (innovCov_posDef (H := H) hpd.posSemidef hR))
    have hb := psd_entry hc.le hpd.inv.posSemidef (inv_upper hc (psd_trans hlow hle))
    have hd := Matrix.det_le (abv := AbsoluteValue.abs) hb
    simp only [AbsoluteValue.abs_apply, Fintype.card_fin, nsmul_eq_mul, Matrix.det_nonsing_inv, Ring.inverse_eq_inv', abs_inv] at hd
    exact inv_le_of_inv_le₀ (abs_pos.2 hk) hd

/-! ### the recursion -/

theorem smoothSolvable_get {b : Belief n} {ss : List (LinStep n m)} (h : SmoothSolvable b ss) {t : ℕ} {s : LinStep n m}
    (hs : ss[t + 1]? = some s) : (s.predict (lastOf b (ss.take (t + 1)))).P.det ≠ 0 := by
  cases ss with
  | nil => simp at hs
  | cons s₀ ts =>
    simp only [List.getElem?_cons_succ] at hs
    rw [SmoothSolvable, rtsSolvable_iff] at h
    refine h t _ s ?_ hs
    have ht : t < ts.length := (List.getElem?_eq_some_iff.1 hs).1
    rw [List.take_succ_cons, lastOf]
    rcases t with _ | t
    · rfl
    · rw [List.getElem?_cons_succ]
      obtain ⟨q, hq⟩ : ∃ q, (filtered (s₀.next b) ts)[t]? = some q := ⟨_, List.getElem?_eq_getElem (by rw [filtered_length]; omega)⟩
      rw [hq]
      exact congrArg some (filtered_lastOf hq).2

/-- The smoothed belief at time `t`. -/
noncomputable def smoothAt (b : Belief n) (ss : List (LinStep n m)) (t : ℕ) : Belief n := front (lastOf b (ss.take t)) (ss.drop t)

theorem smoothAt_step (b : Belief n) (ss : List (LinStep n m)) {t : ℕ} {s : LinStep n m} (hs : ss[t]? = some s) :
    smoothAt b ss t = rtsStep (lastOf b (ss.take t)) s (smoothAt b ss (t + 1)) := by
  obtain ⟨ht, e⟩ := List.getElem?_eq_some_iff.1 hs
  rw [smoothAt, List.drop_eq_getElem_cons ht, e, front, smoothAt, lastOf_take_succ b ss t s hs]

theorem smoothAt_last (b : Belief n) (ss : List (LinStep n m)) : smoothAt b ss ss.length = lastOf b ss := by
  rw [smoothAt, List.take_length, List.drop_length]; rfl

/-- Mean and covariance as a pair. -/
def toE (b : Belief n) : (Fin n → ℝ) × Matrix (Fin n) (Fin n) ℝ := (b.x, b.P)

theorem rtsStep_affine {s : LinStep n m} (h : s.A = A ∧ s.H = H ∧ s.Q = Q ∧ s.R = R) (f q : Belief n) :
    toE (rtsStep f s q) = backHom (smGain A Q f.P) (toE q) + toE (rtsStep f s ⟨0, 0⟩) := by
  have hG : f.P * s.Aᵀ * (s.predict f).P⁻¹ = smGain A Q f.P := by
    simp only [LinStep.predict, h.1, h.2.2.1]; rfl
  refine Prod.ext ?_ ?_
  · simp only [toE, rtsStep, hG, backHom, AddMonoidHom.coe_mk, ZeroHom.coe_mk, Prod.fst_add, mulVec_sub, mulVec_zero]
    abel
  · simp only [toE, rtsStep, hG, backHom, AddMonoidHom.coe_mk, ZeroHom.coe_mk, Prod.snd_add, Matrix.mul_sub, Matrix.sub_mul,
      Matrix.mul_zero, Matrix.zero_mul]
    abel

/-- What the backward recursion needs besides: its errors decay, and the predicted covariances stay away from singular ones. -/
structure SettlesBack (A Q : Matrix (Fin n) (Fin n) ℝ) (H : Matrix (Fin m) (Fin n) ℝ) (R : Matrix (Fin m) (Fin m) ℝ)
    (P : Matrix (Fin n) (Fin n) ℝ) : Prop where
  fwd : Settles A Q H R P
  back : ∃ C ρ : ℝ, 1 ≤ C ∧ 0 < ρ ∧ ρ < 1 ∧ ∀ t k : ℕ, ‖backProd A Q H R P t k‖ ≤ C * ρ ^ k
  det : ∃ c₀ > 0, ∀ k, (priorCov A ((ric A H Q R)^[k] P) Q).det ≠ 0 → c₀ ≤ |(priorCov A ((ric A H Q R)^[k] P) Q).det|

theorem SettlesBack.of_observable (hQ : Q.PosSemidef) (hR : R.PosDef) (hc : Controllable A Q) (ho : Observable A H)
    {P : Matrix (Fin n) (Fin n) ℝ} (hP : P.PosSemidef) : SettlesBack A Q H R P := by
  obtain ⟨c, δ₀, u⟩ := exists_uniform (A := A) (H := H) hQ hR hc ho
  exact ⟨.of_observable hQ hR hc ho hP, backProd_decay u hQ hR hP, prior_det_bound u hQ hR hP⟩

/-- A backward recursion that errs by at most `δ` in each step stays within `ε` of the exact one, for as long as it runs. -/
theorem back_near (b : Belief n)
    (hS : SettlesBack A Q H R b.P) {D ε : ℝ} (hD : 0 ≤ D) (hε : 0 < ε) : ∃ δ > 0, ∃ X : ℝ, ∃ c > 0, ∀ (ss : List (LinStep n m)),
      ConstantModel A H Q R ss → (∀ (l : ℕ) (s : LinStep n m), ss[l]? = some s → ‖s.z‖ ≤ D ∧ ‖s.c‖ ≤ D) → SmoothSolvable b ss →
      (∀ (t : ℕ) (s : LinStep n m), ss[t + 1]? = some s → ‖(lastOf b (ss.take (t + 1))).x‖ ≤ X ∧ ‖(lastOf b (ss.take (t + 1))).P‖ ≤ X ∧
        c ≤ |(s.predict (lastOf b (ss.take (t + 1)))).P.det|) ∧
      ∀ (q' : ℕ → Belief n) (M : ℕ), M < ss.length → ‖toE (q' 0) - toE (lastOf b ss)‖ ≤ δ →
      (∀ (i : ℕ) (s : LinStep n m), i < M → ss[ss.length - 1 - i]? = some s →
        ‖toE (q' (i + 1)) - toE (rtsStep (lastOf b (ss.take (ss.length - 1 - i))) s (q' i))‖ ≤ δ) →
      ∀ i ≤ M, ‖toE (q' i) - toE (smoothAt b ss (ss.length - i))‖ ≤ ε ∧ ‖toE (q' i)‖ ≤ X := by
  obtain ⟨C, ρ, hC, h0, h1, hd⟩ := hS.back
  obtain ⟨Y, hY0, hY⟩ := hS.fwd.bound
  obtain ⟨c₀, hc₀, hdet⟩ := hS.det
  obtain ⟨C', ρ', hC', h0', h1', hrun⟩ := hS.fwd.run
  have hC0 : 0 < C := by linarith
  have hρ : 0 < (1 - ρ)⁻¹ := inv_pos.2 (by linarith)
  obtain ⟨C₁, hC₁⟩ : ∃ C₁ : ℝ, C₁ = 1 + n * C + (n * C) ^ 2 := ⟨_, rfl⟩
  have hC₁1 : 1 ≤ C₁ := by rw [hC₁]; have : 0 ≤ n * C := by positivity
                           nlinarith
  obtain ⟨Γ, hΓ⟩ : ∃ Γ : ℝ, Γ = C₁ * (1 - ρ)⁻¹ := ⟨_, rfl⟩
  have hΓ0 : 0 < Γ := by rw [hΓ]; positivity
  obtain ⟨X₀, hX₀⟩ : ∃ X₀ : ℝ, X₀ = C' * ‖b.x‖ + C' * D := ⟨_, rfl⟩
  have hX₀0 : 0 ≤ X₀ := by rw [hX₀]; positivity
  -- the inhomogeneity
  obtain ⟨β, hβ⟩ : ∃ β : ℝ, β = X₀ + n * C * (n * ‖A‖ * X₀ + D) + (Y + (n * C) ^ 2 * ((n * ‖A‖) ^ 2 * Y + ‖Q‖)) := ⟨_, rfl⟩
  have hβ0 : 0 ≤ β := by rw [hβ]; positivity
  obtain ⟨r, hr⟩ : ∃ r : ℝ, r = C₁ * (X₀ + Y) + Γ * β := ⟨_, rfl⟩
  have hr0 : 0 ≤ r := by rw [hr]; positivity
  obtain ⟨ε', hε', hε'ε, hε'1⟩ : ∃ ε' : ℝ, 0 < ε' ∧ ε' ≤ ε ∧ ε' ≤ 1 :=
    ⟨min ε 1, lt_min hε one_pos, min_le_left _ _, min_le_right _ _⟩
  obtain ⟨δ, hδ, hδr⟩ : ∃ δ : ℝ, 0 < δ ∧ (C₁ + Γ) * δ = ε' :=
    ⟨ε' / (C₁ + Γ), by positivity, by field_simp⟩
  refine ⟨δ, hδ, X₀ + Y + r + 1, c₀, hc₀, fun ss hcm hdat hsol => ?_⟩
  have hexP : ∀ i ≤ ss.length, (lastOf b (ss.take i)).P = (ric A H Q R)^[i] b.P := fun i hi => lastOf_const hcm b i (by omega)
  have hexx : ∀ i ≤ ss.length, ‖(lastOf b (ss.take i)).x‖ ≤ X₀ := fun i hi => by
    refine (hrun b ss rfl hcm D hD hdat i (by omega)).trans ?_
    rw [hX₀]
    have : C' * ρ' ^ i * ‖b.x‖ ≤ C' * ‖b.x‖ :=
      mul_le_mul_of_nonneg_right (mul_le_of_le_one_right hC'.le (pow_le_one₀ h0'.le h1'.le)) (norm_nonneg _)
    linarith
  constructor
  · intro t s hs
    have ht : t + 1 < ss.length := (List.getElem?_eq_some_iff.1 hs).1
    have e1 := hexx (t + 1) ht.le
    have e2 := hY (t + 1)
    rw [← hexP (t + 1) ht.le] at e2
    refine ⟨by linarith, by linarith, ?_⟩
    have hne := smoothSolvable_get hsol hs
    obtain ⟨m1, m2, m3, m4⟩ := hcm s (List.mem_of_getElem? hs)
    have e3 : (s.predict (lastOf b (ss.take (t + 1)))).P = priorCov A ((ric A H Q R)^[t + 1] b.P) Q := by
      rw [← hexP (t + 1) ht.le, ← m1, ← m3]; rfl
    rw [e3] at hne ⊢
    exact hdet (t + 1) hne
  -- products of gains
  obtain ⟨L, hL⟩ : ∃ L : ℕ → (Fin n → ℝ) × Matrix (Fin n) (Fin n) ℝ →+ (Fin n → ℝ) × Matrix (Fin n) (Fin n) ℝ,
    L = fun i => backHom (smGain A Q ((ric A H Q R)^[ss.length - 1 - i] b.P)) := ⟨_, rfl⟩
  have hseg : ∀ j k d, j + k ≤ ss.length → ‖seg L j k d‖ ≤ C₁ * ρ ^ k * ‖d‖ := fun j k d hjk => by
    rw [hL, seg_back b.P ss.length j k d hjk]
    refine (backHom_norm _ d).trans (mul_le_mul_of_nonneg_right ?_ (norm_nonneg d))
    have e0 : n * ‖backProd A Q H R b.P (ss.length - j - k) k‖ ≤ n * C * ρ ^ k := by
      rw [mul_assoc]; exact mul_le_mul_of_nonneg_left (hd _ k) (Nat.cast_nonneg _)
    have e1 : (n * ‖backProd A Q H R b.P (ss.length - j - k) k‖) ^ 2 ≤ (n * C * ρ ^ k) ^ 2 :=
      pow_le_pow_left₀ (by positivity) e0 2
    have e3 : (n * C * ρ ^ k) ^ 2 ≤ (n * C) ^ 2 * ρ ^ k := by
      have : (n * C * ρ ^ k) ^ 2 = (n * C) ^ 2 * ρ ^ k * ρ ^ k := by ring
      rw [this]
      exact mul_le_of_le_one_right (by positivity) (pow_le_one₀ h0.le h1.le)
    have e4 : 0 ≤ ρ ^ k := by positivity
    rw [hC₁]
    linarith
  have hsg : ∀ t, ‖smGain A Q ((ric A H Q R)^[t] b.P)‖ ≤ C := fun t => by
    have := hd t 1
    rw [backProd, backProd, Matrix.mul_one, pow_one] at this
    exact this.trans (mul_le_of_le_one_right hC0.le h1.le)
  have hlast : ss.take ss.length = ss := List.take_length
  -- one exact step
  have hex : ∀ (i : ℕ) (s : LinStep n m) (q : Belief n), i < ss.length → ss[ss.length - 1 - i]? = some s →
      toE (rtsStep (lastOf b (ss.take (ss.length - 1 - i))) s q) = L i (toE q) +
        toE (rtsStep (lastOf b (ss.take (ss.length - 1 - i))) s ⟨0, 0⟩) := fun i s q hi hs => by
    rw [rtsStep_affine (hcm s (List.mem_of_getElem? hs)), hexP _ (by omega), hL]
  have hw : ∀ (i : ℕ) (s : LinStep n m), i < ss.length → ss[ss.length - 1 - i]? = some s →
      ‖toE (rtsStep (lastOf b (ss.take (ss.length - 1 - i))) s ⟨0, 0⟩)‖ ≤ β := fun i s hi hs => by
    have hm := hcm s (List.mem_of_getElem? hs)
    have hG : (lastOf b (ss.take (ss.length - 1 - i))).P * s.Aᵀ * (s.predict (lastOf b (ss.take (ss.length - 1 - i)))).P⁻¹ =
        smGain A Q ((ric A H Q R)^[ss.length - 1 - i] b.P) := by
      simp only [LinStep.predict, hm.1, hm.2.2.1, hexP _ (show ss.length - 1 - i ≤ ss.length by omega)]; rfl
    have b1 := hexx (ss.length - 1 - i) (by omega)
    have b2 := hY (ss.length - 1 - i)
    have b3 := hsg (ss.length - 1 - i)
    have p1 : ‖(s.predict (lastOf b (ss.take (ss.length - 1 - i)))).x‖ ≤ n * ‖A‖ * X₀ + D := by
      show ‖s.A *ᵥ _ + s.c‖ ≤ _
      rw [hm.1]
      exact (norm_add_le _ _).trans (add_le_add ((mulVec_norm _ _).trans (mul_le_mul_of_nonneg_left b1 (by positivity))) (hdat _ s hs).2)
    have p2 : ‖(s.predict (lastOf b (ss.take (ss.length - 1 - i)))).P‖ ≤ (n * ‖A‖) ^ 2 * Y + ‖Q‖ := by
      show ‖priorCov s.A _ s.Q‖ ≤ _
      rw [hm.1, hm.2.2.1, hexP _ (by omega), priorCov]
      exact (norm_add_le _ _).trans (add_le_add ((conj_norm_le _ _).trans (mul_le_mul_of_nonneg_left b2 (by positivity))) le_rfl)
    have n1 : 0 ≤ n * C * (n * ‖A‖ * X₀ + D) := by positivity
    have n2 : 0 ≤ (n * C) ^ 2 * ((n * ‖A‖) ^ 2 * Y + ‖Q‖) := by positivity
    refine Prod.norm_def (toE _) ▸ max_le ?_ ?_
    · show ‖_ + _ *ᵥ (0 - _)‖ ≤ β
      rw [hG]
      refine (norm_add_le _ _).trans ?_
      have k1 := mulVec_norm (smGain A Q ((ric A H Q R)^[ss.length - 1 - i] b.P))
        (0 - (s.predict (lastOf b (ss.take (ss.length - 1 - i)))).x)
      rw [zero_sub, norm_neg] at k1
      have k2 := k1.trans (mul_le_mul (mul_le_mul_of_nonneg_left b3 (Nat.cast_nonneg _)) p1 (norm_nonneg _) (by positivity))
      rw [zero_sub, hβ]
      linarith
    · show ‖_ + _ * (0 - _) * _ᵀ‖ ≤ β
      rw [hG]
      refine (norm_add_le _ _).trans ?_
      have k1 := conj_norm_le (smGain A Q ((ric A H Q R)^[ss.length - 1 - i] b.P))
        (0 - (s.predict (lastOf b (ss.take (ss.length - 1 - i)))).P)
      rw [zero_sub, norm_neg] at k1
      have k3 : (n * ‖smGain A Q ((ric A H Q R)^[ss.length - 1 - i] b.P)‖) ^ 2 ≤ (n * C) ^ 2 :=
        pow_le_pow_left₀ (by positivity) (mul_le_mul_of_nonneg_left b3 (Nat.cast_nonneg _)) 2
      have k2 := k1.trans (mul_le_mul k3 p2 (norm_nonneg _) (by positivity))
      rw [zero_sub, hβ, hexP _ (by omega)]
      linarith
  have hss : ∀ i < ss.length, ∃ s, ss[ss.length - 1 - i]? = some s := fun i hi => ⟨_, List.getElem?_eq_getElem (by omega)⟩
  -- the exact smoothed beliefs are bounded
  have hbound : ∀ i ≤ ss.length - 1, ‖toE (smoothAt b ss (ss.length - i))‖ ≤ r := by
    refine trap (L := L) (C := C₁) (ρ := ρ) (β := β) hC₁1 h0 h1 (fun j k d hjk => hseg j k d (by omega))
      (e := fun i => toE (smoothAt b ss (ss.length - i)))
      (w := fun i => toE (smoothAt b ss (ss.length - (i + 1))) - L i (toE (smoothAt b ss (ss.length - i))))
      (fun i hi => by abel) hβ0 (fun i hi _ => ?_) ?_
    · obtain ⟨s, hs⟩ := hss i (by omega)
      have e : smoothAt b ss (ss.length - (i + 1)) = rtsStep (lastOf b (ss.take (ss.length - 1 - i))) s (smoothAt b ss (ss.length - i)) := by
        rw [show ss.length - (i + 1) = ss.length - 1 - i by omega, smoothAt_step b ss hs, show ss.length - 1 - i + 1 = ss.length - i by omega]
      rw [e, hex i s _ (by omega) hs, add_sub_cancel_left]
      exact hw i s (by omega) hs
    · rw [Nat.sub_zero, smoothAt_last, ← hΓ, hr]
      have : ‖toE (lastOf b ss)‖ ≤ X₀ + Y := by
        have e1 := hexx ss.length le_rfl
        have e2 := hY ss.length
        rw [← hexP _ le_rfl] at e2
        rw [hlast] at e1 e2
        exact Prod.norm_def (toE _) ▸ max_le (show ‖(lastOf b ss).x‖ ≤ _ by linarith) (show ‖(lastOf b ss).P‖ ≤ _ by linarith)
      have := mul_le_mul_of_nonneg_left this (show 0 ≤ C₁ by linarith)
      linarith
  intro q' M hM hq0 hstep
  have hmain : ∀ i ≤ M, ‖toE (q' i) - toE (smoothAt b ss (ss.length - i))‖ ≤ ε' := by
    refine trap (L := L) (C := C₁) (ρ := ρ) (β := δ) hC₁1 h0 h1 (fun j k d hjk => hseg j k d (by omega))
      (e := fun i => toE (q' i) - toE (smoothAt b ss (ss.length - i)))
      (w := fun i => toE (q' (i + 1)) - toE (smoothAt b ss (ss.length - (i + 1))) -
        L i (toE (q' i) - toE (smoothAt b ss (ss.length - i))))
      (fun i hi => by abel) hδ.le (fun i hi _ => ?_) ?_
    · obtain ⟨s, hs⟩ := hss i (by omega)
      have e : smoothAt b ss (ss.length - (i + 1)) = rtsStep (lastOf b (ss.take (ss.length - 1 - i))) s (smoothAt b ss (ss.length - i)) := by
        rw [show ss.length - (i + 1) = ss.length - 1 - i by omega, smoothAt_step b ss hs, show ss.length - 1 - i + 1 = ss.length - i by omega]
      have e2 := hex i s (q' i) (by omega) hs
      have e3 := hstep i s hi hs
      rw [e2] at e3
      rw [e, hex i s _ (by omega) hs, map_sub]
      refine le_trans (le_of_eq (congrArg _ ?_)) e3
      abel
    · rw [Nat.sub_zero, smoothAt_last, ← hΓ]
      have := mul_le_mul_of_nonneg_left hq0 (show 0 ≤ C₁ by linarith)
      linarith
  intro i hi
  have k1 := hmain i hi
  refine ⟨k1.trans hε'ε, ?_⟩
  have k2 := hbound i (by omega)
  have k3 : toE (q' i) = (toE (q' i) - toE (smoothAt b ss (ss.length - i))) + toE (smoothAt b ss (ss.length - i)) := by abel
  rw [k3]
  refine (norm_add_le _ _).trans ?_
  linarith

end

end KK
