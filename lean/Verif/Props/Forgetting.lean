import Verif.Props.Convergence
import Verif.Proofs.Batch

/-!
# C83-C85: forgetting the initial state, and stability
-/

set_option linter.unusedSectionVars false

namespace KK

open Matrix Filter Topology

variable {n m : ℕ} {A Q : Matrix (Fin n) (Fin n) ℝ} {H : Matrix (Fin m) (Fin n) ℝ} {R : Matrix (Fin m) (Fin m) ℝ}

theorem mulVec_norm_le {a b : ℕ} {M : Matrix (Fin a) (Fin b) ℝ} {ε : ℝ} (hε : 0 ≤ ε) (h : ∀ i j, |M i j| ≤ ε)
    (v : Fin b → ℝ) : ‖M *ᵥ v‖ ≤ ε * b * ‖v‖ := by
  refine (pi_norm_le_iff_of_nonneg (by positivity)).2 fun i => ?_
  rw [Real.norm_eq_abs, Matrix.mulVec, dotProduct]
  refine (Finset.abs_sum_le_sum_abs _ _).trans ?_
  have : ∀ j ∈ Finset.univ, |M i j * v j| ≤ ε * ‖v‖ := fun j _ => by
    rw [abs_mul]
    exact mul_le_mul (h i j) (by rw [← Real.norm_eq_abs]; exact norm_le_pi_norm v j) (abs_nonneg _) hε
  refine (Finset.sum_le_sum this).trans ?_
  rw [Finset.sum_const, Finset.card_univ, Fintype.card_fin, nsmul_eq_mul]
  exact le_of_eq (by ring)

/-- A bound on the entries of a matrix. -/
noncomputable def entrySum {a b : ℕ} (M : Matrix (Fin a) (Fin b) ℝ) : ℝ := ∑ k, ∑ l, |M k l|

theorem entrySum_nonneg {a b : ℕ} (M : Matrix (Fin a) (Fin b) ℝ) : 0 ≤ entrySum M :=
  Finset.sum_nonneg fun _ _ => Finset.sum_nonneg fun _ _ => abs_nonneg _

theorem le_entrySum {a b : ℕ} (M : Matrix (Fin a) (Fin b) ℝ) (i : Fin a) (j : Fin b) : |M i j| ≤ entrySum M :=
  (Finset.single_le_sum (f := fun l => |M i l|) (fun l _ => abs_nonneg _) (Finset.mem_univ j)).trans
    (Finset.single_le_sum (f := fun k => ∑ l, |M k l|) (fun k _ => Finset.sum_nonneg fun l _ => abs_nonneg _)
      (Finset.mem_univ i))

theorem exists_mulVec_bound {a b : ℕ} (M : Matrix (Fin a) (Fin b) ℝ) : ∃ c : ℝ, 0 ≤ c ∧ ∀ v, ‖M *ᵥ v‖ ≤ c * ‖v‖ :=
  ⟨entrySum M * b, mul_nonneg (entrySum_nonneg M) (Nat.cast_nonneg _), fun v =>
    mulVec_norm_le (entrySum_nonneg M) (le_entrySum M) v⟩

/-- Variation of constants. -/
theorem variation (K : ℕ → Matrix (Fin n) (Fin m) ℝ) (x w : ℕ → Fin n → ℝ) (L : ℕ)
    (h : ∀ i < L, x (i + 1) = ((1 - K i * H) * A) *ᵥ x i + w i) :
    x L = propagator A H K L *ᵥ x 0 +
      ∑ i ∈ Finset.range L, propagator A H (fun l => K (i + 1 + l)) (L - 1 - i) *ᵥ w i := by
  induction L with
  | zero => simp [propagator]
  | succ L ih =>
    have e0 : propagator A H K (L + 1) = (1 - K L * H) * A * propagator A H K L := rfl
    rw [h L (by omega), ih fun i hi => h i (by omega), Finset.sum_range_succ, mulVec_add, mulVec_mulVec, e0, add_assoc]
    congr 1
    rw [mulVec_sum]
    congr 1
    · refine Finset.sum_congr rfl fun i hi => ?_
      rw [Finset.mem_range] at hi
      have e : L + 1 - 1 - i = (L - 1 - i) + 1 := by omega
      have e2 : i + 1 + (L - 1 - i) = L := by omega
      have e3 : propagator A H (fun l => K (i + 1 + l)) (L - 1 - i + 1) =
          (1 - K (i + 1 + (L - 1 - i)) * H) * A * propagator A H (fun l => K (i + 1 + l)) (L - 1 - i) := rfl
      rw [e, e3, mulVec_mulVec, e2]
    · have e : L + 1 - 1 - L = 0 := by omega
      rw [e, propagator, one_mulVec]

theorem iss {C ρ : ℝ}
    (hd : ∀ P : Matrix (Fin n) (Fin n) ℝ, P.PosSemidef → ∀ j, n ≤ j → ∀ (d : Fin n → ℝ) (k : ℕ),
      ‖prop A Q H R ((ric A H Q R)^[j] P) k *ᵥ d‖ ≤ C * ρ ^ k * ‖d‖) {P : Matrix (Fin n) (Fin n) ℝ} (hP : P.PosSemidef)
    {j : ℕ} (hj : n ≤ j) (x w : ℕ → Fin n → ℝ) (L : ℕ)
    (h : ∀ i < L, x (i + 1) = ((1 - ownGains A Q H R P (j + i) * H) * A) *ᵥ x i + w i) :
    ‖x L‖ ≤ C * ρ ^ L * ‖x 0‖ + ∑ i ∈ Finset.range L, C * ρ ^ (L - 1 - i) * ‖w i‖ := by
  have e := variation (fun i => ownGains A Q H R P (j + i)) x w L h
  rw [e]
  refine (norm_add_le _ _).trans (add_le_add ?_ ((norm_sum_le _ _).trans (Finset.sum_le_sum fun i _ => ?_)))
  · have := hd P hP j hj (x 0) L
    rwa [prop, ← ownGains_shift] at this
  · have := hd P hP (j + (i + 1)) (by omega) (w i) (L - 1 - i)
    rw [prop, ← ownGains_shift] at this
    simpa only [Nat.add_assoc] using this

/-- The mean after a step of a constant model. -/
theorem next_mean {s : LinStep n m} (h : s.A = A ∧ s.H = H ∧ s.Q = Q ∧ s.R = R) {P : Matrix (Fin n) (Fin n) ℝ} {k : ℕ}
    (b : Belief n) (hb : b.P = (ric A H Q R)^[k] P) :
    (s.next b).x = A *ᵥ b.x + s.c + ownGains A Q H R P k *ᵥ (s.z - H *ᵥ (A *ᵥ b.x + s.c)) := by
  obtain ⟨h1, h2, h3, h4⟩ := h
  rw [ownGains, ← hb, ← h1, ← h2, ← h3, ← h4]; rfl

theorem lastOf_take_succ (b : Belief n) (ss : List (LinStep n m)) (k : ℕ) (s : LinStep n m) (hs : ss[k]? = some s) :
    lastOf b (ss.take (k + 1)) = s.next (lastOf b (ss.take k)) := by
  induction ss generalizing b k with
  | nil => simp at hs
  | cons a ss ih =>
    rcases k with _ | k
    · simp only [List.getElem?_cons_zero, Option.some.injEq] at hs
      subst hs; simp [lastOf]
    · simp only [List.getElem?_cons_succ] at hs
      rw [List.take_succ_cons, List.take_succ_cons, lastOf, lastOf, ih _ _ hs]

theorem lastOf_const {ss : List (LinStep n m)} (hc : ConstantModel A H Q R ss) (b : Belief n) (k : ℕ) (hk : k ≤ ss.length) :
    (lastOf b (ss.take k)).P = (ric A H Q R)^[k] b.P := by
  induction k with
  | zero => simp [lastOf]
  | succ k ih =>
    have hs : ss[k]? = some ss[k] := List.getElem?_eq_getElem hk
    obtain ⟨h1, h2, h3, h4⟩ := hc ss[k] (List.getElem_mem _)
    rw [lastOf_take_succ b ss k _ hs, Function.iterate_succ_apply', ← ih (by omega)]
    show postCov _ (priorCov _ _ _) _ = _
    rw [h1, h2, h3, h4]; rfl

theorem filtered_lastOf {b : Belief n} {ss : List (LinStep n m)} {k : ℕ} {q : Belief n} (hq : (filtered b ss)[k]? = some q) :
    k < ss.length ∧ q = lastOf b (ss.take (k + 1)) := by
  have hk : k < ss.length := by
    have := (List.getElem?_eq_some_iff.1 hq).1
    rwa [filtered_length] at this
  rw [filtered_get b ss k hk] at hq
  exact ⟨hk, (Option.some.inj hq).symm⟩

theorem abs_le_iff_norm {v : Fin n → ℝ} {r : ℝ} (hr : 0 ≤ r) : (∀ i, |v i| ≤ r) ↔ ‖v‖ ≤ r := by
  rw [pi_norm_le_iff_of_nonneg hr]; rfl

variable [Platform]

/-- C83: a constant model with PSD `Q` and PD `R`, observable and controllable.  Two runs with the same (arbitrary PSD)
initial covariance and the same data, but different initial means.  From the `n`-th step on the difference between the
two estimates decays geometrically: if all components differ by at most `r` after step `j`, they differ by at most
`C ρ^(k-j) r` after step `k`, where `C` and `ρ < 1` depend on the model only - not on the data, the controls, the initial
covariance or the initial means. -/
theorem C83_forgetting (A Q : Matrix (Fin n) (Fin n) ℝ) (H : Matrix (Fin m) (Fin n) ℝ) (R : Matrix (Fin m) (Fin m) ℝ)
    (hQ : Q.PosSemidef) (hR : R.PosDef) (hc : Controllable A Q) (ho : Observable A H) :
    ∃ C ρ : ℝ, 0 < ρ ∧ ρ < 1 ∧
      ∀ (kf kf' : KalmanFilter Fl) (Z Z' : NDArray Fl) (U U' : Option (NDArray Fl)) (x x' : Fin n → ℝ)
        (P : Matrix (Fin n) (Fin n) ℝ) (ss : List (LinStep n m)),
        Represents kf Z U ⟨x, P⟩ ss → Represents kf' Z' U' ⟨x', P⟩ ss → P.PosSemidef → ConstantModel A H Q R ss →
        ∃ (bs bs' : List (Belief n)) (Ks Ks' : List (Matrix (Fin n) (Fin m) ℝ)), FilterReturns kf Z U bs Ks ∧
          FilterReturns kf' Z' U' bs' Ks' ∧ bs.length = ss.length ∧ bs'.length = ss.length ∧
          ∀ j k p p' q q', n ≤ j + 1 → j ≤ k → bs[j]? = some p → bs'[j]? = some p' → bs[k]? = some q → bs'[k]? = some q' →
            ∀ r : ℝ, (∀ i, |p.x i - p'.x i| ≤ r) → ∀ i, |q.x i - q'.x i| ≤ C * ρ ^ (k - j) * r := by
  obtain ⟨c, δ, u⟩ := exists_uniform (A := A) (H := H) hQ hR hc ho
  obtain ⟨C, ρ, hC, h0, h1, hd⟩ := u.decay hQ hR
  refine ⟨C, ρ, h0, h1, fun kf kf' Z Z' U U' x x' P ss h h' hP hcm => ?_⟩
  have hs : ∀ b : Belief n, b.P.PosSemidef → Solvable b ss := fun b hb =>
    solvable_psd hb (fun s hs => (hcm s hs).2.2.1 ▸ hQ) fun s hs => (hcm s hs).2.2.2 ▸ hR
  refine ⟨_, _, _, _, h.returns (hs _ hP), h'.returns (hs _ hP), filtered_length _ _, filtered_length _ _, ?_⟩
  intro j k p p' q q' hj hjk hp hp' hq hq' r hr i
  have hr0 : 0 ≤ r := (abs_nonneg _).trans (hr i)
  obtain ⟨-, rfl⟩ := filtered_lastOf hp
  obtain ⟨-, rfl⟩ := filtered_lastOf hp'
  obtain ⟨hk, rfl⟩ := filtered_lastOf hq
  obtain ⟨-, rfl⟩ := filtered_lastOf hq'
  have key := iss hd hP hj (fun i => (lastOf ⟨x, P⟩ (ss.take (j + 1 + i))).x - (lastOf ⟨x', P⟩ (ss.take (j + 1 + i))).x)
    (fun _ => 0) (k - j) (fun i hi => by
      have hl : j + 1 + i < ss.length := by omega
      have hss : ss[j + 1 + i]? = some ss[j + 1 + i] := List.getElem?_eq_getElem hl
      have hm := hcm ss[j + 1 + i] (List.getElem_mem _)
      rw [← Nat.add_assoc (j + 1) i 1, lastOf_take_succ _ ss _ _ hss, lastOf_take_succ _ ss _ _ hss,
        next_mean hm (P := P) (k := j + 1 + i) _ (lastOf_const hcm _ _ (by omega)),
        next_mean hm (P := P) (k := j + 1 + i) _ (lastOf_const hcm _ _ (by omega)), add_zero]
      simp only [Matrix.sub_mul, Matrix.one_mul, sub_mulVec, mulVec_sub, mulVec_add, ← mulVec_mulVec]
      abel)
  simp only [norm_zero, mul_zero, Finset.sum_const_zero, add_zero] at key
  have e : j + 1 + (k - j) = k + 1 := by omega
  rw [e] at key
  have hr' := (abs_le_iff_norm (v := (lastOf ⟨x, P⟩ (ss.take (j + 1))).x - (lastOf ⟨x', P⟩ (ss.take (j + 1))).x) hr0).1 hr
  exact (abs_le_iff_norm (by positivity)).2 (key.trans (mul_le_mul_of_nonneg_left hr' (by positivity))) i

/-- A common bound on the gains from step `n` on. -/
theorem Uniform.gain_bound {c δ : ℝ} (u : Uniform A Q H R c δ) (hQ : Q.PosSemidef) (hR : R.PosDef) :
    ∃ κ : ℝ, 0 ≤ κ ∧ ∀ P : Matrix (Fin n) (Fin n) ℝ, P.PosSemidef → ∀ k, n ≤ k + 1 → ∀ v,
      ‖ownGains A Q H R P k *ᵥ v‖ ≤ κ * ‖v‖ := by
  have hs := entrySum_nonneg (Hᵀ * R⁻¹)
  have hc := u.c_pos
  refine ⟨c * entrySum (Hᵀ * R⁻¹) * m, by positivity, fun P hP k hk v => ?_⟩
  have hp := iter_psd (A := A) (H := H) hQ hR hP (k + 1)
  have h1 : ∀ i j, |((ric A H Q R)^[k + 1] P) i j| ≤ c :=
    entry_le (IsHermitian.symm' hp.1) (u.upper P hP (k + 1) hk) ((psd_smul Matrix.PosSemidef.one hc.le).add hp)
  rw [ownGains_post hQ hR hP]
  exact mulVec_norm_le (by positivity) (mul_entry_le h1 (Hᵀ * R⁻¹)) v

/-- The gains of two runs approach each other geometrically. -/
theorem Uniform.gain_decay {c δ : ℝ} (u : Uniform A Q H R c δ) (hQ : Q.PosSemidef) (hR : R.PosDef) :
    ∃ κ ρ : ℝ, 0 ≤ κ ∧ 0 < ρ ∧ ρ < 1 ∧ ∀ P X : Matrix (Fin n) (Fin n) ℝ, P.PosSemidef → X.PosSemidef → ∀ k, n ≤ k + 1 → ∀ v,
      ‖(ownGains A Q H R P k - ownGains A Q H R X k) *ᵥ v‖ ≤ κ * ρ ^ k * ‖v‖ := by
  obtain ⟨C, ρ, hC, h0, h1, hd⟩ := u.cov_decay hQ hR
  have hs := entrySum_nonneg (Hᵀ * R⁻¹)
  refine ⟨C * ρ * entrySum (Hᵀ * R⁻¹) * m, ρ, by positivity, h0, h1, fun P X hP hX k hk v => ?_⟩
  rw [ownGains_post hQ hR hP, ownGains_post hQ hR hX, ← Matrix.sub_mul]
  have h2 : ∀ i j, |((ric A H Q R)^[k + 1] P - (ric A H Q R)^[k + 1] X) i j| ≤ C * ρ ^ (k + 1) := fun i j => by
    rw [Matrix.sub_apply]; exact hd P X hP hX (k + 1) hk i j
  have h3 : ∀ i j, |(((ric A H Q R)^[k + 1] P - (ric A H Q R)^[k + 1] X) * (Hᵀ * R⁻¹)) i j| ≤
      C * ρ ^ (k + 1) * entrySum (Hᵀ * R⁻¹) := mul_entry_le h2 (Hᵀ * R⁻¹)
  refine (mulVec_norm_le (by positivity) h3 v).trans (le_of_eq ?_)
  rw [pow_succ]; ring

theorem geom_le {ρ : ℝ} (h0 : 0 < ρ) (h1 : ρ < 1) (L : ℕ) : ∑ i ∈ Finset.range L, ρ ^ (L - 1 - i) ≤ (1 - ρ)⁻¹ := by
  rw [Finset.sum_range_reflect (fun i => ρ ^ i) L, geom_sum_eq h1.ne, ← neg_sub 1 ρ, div_neg, ← neg_div, neg_sub,
    div_le_iff₀ (by linarith), inv_mul_cancel₀ (by linarith)]
  have := pow_nonneg h0.le L; linarith

theorem lin_geom_le {ρ : ℝ} (h0 : 0 < ρ) (h1 : ρ < 1) (L : ℕ) : (L : ℝ) * ρ ^ L ≤ (1 - ρ)⁻¹ := by
  refine le_trans ?_ (geom_le h0 h1 L)
  have : ∀ i ∈ Finset.range L, ρ ^ L ≤ ρ ^ (L - 1 - i) := fun i _ =>
    pow_le_pow_of_le_one h0.le h1.le (by omega)
  have h := Finset.sum_le_sum this
  rwa [Finset.sum_const, Finset.card_range, nsmul_eq_mul] at h

/-- The forcing of the mean by the data and controls, for an arbitrary gain. -/
theorem step_affine (K : Matrix (Fin n) (Fin m) ℝ) (x c : Fin n → ℝ) (z : Fin m → ℝ) :
    A *ᵥ x + c + K *ᵥ (z - H *ᵥ (A *ᵥ x + c)) = ((1 - K * H) * A) *ᵥ x + (c - K *ᵥ (H *ᵥ c) + K *ᵥ z) := by
  simp only [Matrix.sub_mul, Matrix.one_mul, sub_mulVec, mulVec_sub, mulVec_add, ← mulVec_mulVec]
  abel

/-- All steps after step `j` up to step `k` have measurements and controls bounded by `D`. -/
def DataWithin (ss : List (LinStep n m)) (j k : ℕ) (D : ℝ) : Prop :=
  ∀ l s, j < l → l ≤ k → ss[l]? = some s → (∀ i, |s.z i| ≤ D) ∧ ∀ i, |s.c i| ≤ D

theorem run_bound {c δ : ℝ} (u : Uniform A Q H R c δ) (hQ : Q.PosSemidef) (hR : R.PosDef) :
    ∃ C ρ : ℝ, 0 < C ∧ 0 < ρ ∧ ρ < 1 ∧ ∀ (b : Belief n) (ss : List (LinStep n m)), b.P.PosSemidef →
      ConstantModel A H Q R ss → ∀ j k, n ≤ j + 1 → j ≤ k → k < ss.length → ∀ D, 0 ≤ D → DataWithin ss j k D →
        ‖(lastOf b (ss.take (k + 1))).x‖ ≤ C * ρ ^ (k - j) * ‖(lastOf b (ss.take (j + 1))).x‖ + C * D := by
  obtain ⟨C, ρ, hC, h0, h1, hd⟩ := u.decay hQ hR
  obtain ⟨κ, hκ, hg⟩ := u.gain_bound hQ hR
  obtain ⟨η, hη, hH⟩ := exists_mulVec_bound H
  have hρ : 0 < (1 - ρ)⁻¹ := inv_pos.2 (by linarith)
  have hm : 0 ≤ (1 - ρ)⁻¹ * (1 + κ * η + κ) := by positivity
  refine ⟨C * (1 + (1 - ρ)⁻¹ * (1 + κ * η + κ)), ρ, by positivity, h0, h1,
    fun b ss hP hcm j k hj hjk hk D hD hdat => ?_⟩
  have hex : ∀ i, ∃ w : Fin n → ℝ, i < k - j → ‖w‖ ≤ (1 + κ * η + κ) * D ∧
      (lastOf b (ss.take (j + 1 + (i + 1)))).x =
        ((1 - ownGains A Q H R b.P (j + 1 + i) * H) * A) *ᵥ (lastOf b (ss.take (j + 1 + i))).x + w := by
    intro i
    by_cases hi : i < k - j
    · have hl : j + 1 + i < ss.length := by omega
      have hss : ss[j + 1 + i]? = some ss[j + 1 + i] := List.getElem?_eq_getElem hl
      have hmm := hcm ss[j + 1 + i] (List.getElem_mem _)
      obtain ⟨hz, hu⟩ := hdat (j + 1 + i) _ (by omega) (by omega) hss
      rw [abs_le_iff_norm hD] at hz hu
      refine ⟨ss[j + 1 + i].c - ownGains A Q H R b.P (j + 1 + i) *ᵥ (H *ᵥ ss[j + 1 + i].c) +
        ownGains A Q H R b.P (j + 1 + i) *ᵥ ss[j + 1 + i].z, fun _ => ⟨?_, ?_⟩⟩
      rotate_left
      · rw [← Nat.add_assoc (j + 1) i 1, lastOf_take_succ _ ss _ _ hss,
          next_mean hmm (P := b.P) (k := j + 1 + i) _ (lastOf_const hcm _ _ (by omega)), step_affine]
      · have e1 := hg b.P hP (j + 1 + i) (by omega) (H *ᵥ ss[j + 1 + i].c)
        have e2 := hg b.P hP (j + 1 + i) (by omega) ss[j + 1 + i].z
        have e3 : κ * ‖H *ᵥ ss[j + 1 + i].c‖ ≤ κ * (η * D) :=
          mul_le_mul_of_nonneg_left ((hH _).trans (mul_le_mul_of_nonneg_left hu hη)) hκ
        have e4 : κ * ‖ss[j + 1 + i].z‖ ≤ κ * D := mul_le_mul_of_nonneg_left hz hκ
        refine (norm_add_le _ _).trans ?_
        have := norm_sub_le ss[j + 1 + i].c (ownGains A Q H R b.P (j + 1 + i) *ᵥ (H *ᵥ ss[j + 1 + i].c))
        linarith
    · exact ⟨0, fun h => absurd h hi⟩
  choose w hw using hex
  have key := iss hd hP hj (fun i => (lastOf b (ss.take (j + 1 + i))).x) w (k - j) (fun i hi => (hw i hi).2)
  have e : j + 1 + (k - j) = k + 1 := by omega
  rw [e] at key
  have hsum : ∑ i ∈ Finset.range (k - j), C * ρ ^ (k - j - 1 - i) * ‖w i‖ ≤
      C * ((1 - ρ)⁻¹ * ((1 + κ * η + κ) * D)) := by
    have : ∀ i ∈ Finset.range (k - j), C * ρ ^ (k - j - 1 - i) * ‖w i‖ ≤
        C * ((1 + κ * η + κ) * D) * ρ ^ (k - j - 1 - i) := fun i hi => by
      rw [mul_right_comm C (_ * D)]
      exact mul_le_mul_of_nonneg_left (hw i (Finset.mem_range.1 hi)).1 (by positivity)
    refine (Finset.sum_le_sum this).trans ?_
    rw [← Finset.mul_sum]
    refine (mul_le_mul_of_nonneg_left (geom_le h0 h1 _) (by positivity)).trans (le_of_eq ?_)
    ring
  refine (key.trans (add_le_add_right hsum _)).trans ?_
  have h3 : C * ρ ^ (k - j) * ‖(lastOf b (ss.take (j + 1 + 0))).x‖ ≤
      C * (1 + (1 - ρ)⁻¹ * (1 + κ * η + κ)) * ρ ^ (k - j) * ‖(lastOf b (ss.take (j + 1))).x‖ := by
    rw [Nat.add_zero]
    refine mul_le_mul_of_nonneg_right (mul_le_mul_of_nonneg_right ?_ (by positivity)) (norm_nonneg _)
    exact le_mul_of_one_le_right hC.le (by linarith)
  have h4 : C * ((1 - ρ)⁻¹ * ((1 + κ * η + κ) * D)) ≤ C * (1 + (1 - ρ)⁻¹ * (1 + κ * η + κ)) * D := by
    have : 0 ≤ C * D := by positivity
    linarith
  exact add_le_add h3 h4

/-- C84: a constant model with PSD `Q` and PD `R`, observable and controllable - the system itself may be unstable.  If the
estimate after step `j` (`j ≥ n`, counting from one) is at most `r` in every component and all later measurements and
control contributions are at most `D`, then the estimate after any later step `k` is at most `C ρ^(k-j) r + C D`, where
`C` and `ρ < 1` depend on the model only.  So bounded data give bounded estimates, however long the run. -/
theorem C84_bounded (A Q : Matrix (Fin n) (Fin n) ℝ) (H : Matrix (Fin m) (Fin n) ℝ) (R : Matrix (Fin m) (Fin m) ℝ)
    (hQ : Q.PosSemidef) (hR : R.PosDef) (hc : Controllable A Q) (ho : Observable A H) :
    ∃ C ρ : ℝ, 0 < ρ ∧ ρ < 1 ∧
      ∀ (kf : KalmanFilter Fl) (Z : NDArray Fl) (U : Option (NDArray Fl)) (b : Belief n) (ss : List (LinStep n m)),
        Represents kf Z U b ss → b.P.PosSemidef → ConstantModel A H Q R ss →
        ∃ (bs : List (Belief n)) (Ks : List (Matrix (Fin n) (Fin m) ℝ)), FilterReturns kf Z U bs Ks ∧
          bs.length = ss.length ∧
          ∀ j k p q, n ≤ j + 1 → j ≤ k → bs[j]? = some p → bs[k]? = some q →
            ∀ r D : ℝ, 0 ≤ D → DataWithin ss j k D → (∀ i, |p.x i| ≤ r) → ∀ i, |q.x i| ≤ C * ρ ^ (k - j) * r + C * D := by
  obtain ⟨c, δ, u⟩ := exists_uniform (A := A) (H := H) hQ hR hc ho
  obtain ⟨C, ρ, hC, h0, h1, hb⟩ := run_bound u hQ hR
  refine ⟨C, ρ, h0, h1, fun kf Z U b ss h hP hcm => ?_⟩
  refine ⟨_, _, h.returns (solvable_psd hP (fun s hs => (hcm s hs).2.2.1 ▸ hQ) fun s hs => (hcm s hs).2.2.2 ▸ hR),
    filtered_length _ _, ?_⟩
  intro j k p q hj hjk hp hq r D hD hdat hr i
  have hr0 : 0 ≤ r := (abs_nonneg _).trans (hr i)
  obtain ⟨-, rfl⟩ := filtered_lastOf hp
  obtain ⟨hk, rfl⟩ := filtered_lastOf hq
  have key := hb b ss hP hcm j k hj hjk hk D hD hdat
  rw [abs_le_iff_norm hr0] at hr
  refine (abs_le_iff_norm (by positivity)).2 (key.trans ?_) i
  exact add_le_add_left (mul_le_mul_of_nonneg_left hr (by positivity)) _

/-- C85: a constant model with PSD `Q` and PD `R`, observable and controllable.  Two runs on the same data from entirely
different initial states - means and PSD covariances.  If after step `j` both estimates are at most `r` in every
component, and all later measurements and control contributions are at most `D`, then after any later step `k` the two
estimates differ by at most `C ρ^(k-j) (r + D)`, where `C` and `ρ < 1` depend on the model only. -/
theorem C85_initial_state (A Q : Matrix (Fin n) (Fin n) ℝ) (H : Matrix (Fin m) (Fin n) ℝ) (R : Matrix (Fin m) (Fin m) ℝ)
    (hQ : Q.PosSemidef) (hR : R.PosDef) (hc : Controllable A Q) (ho : Observable A H) :
    ∃ C ρ : ℝ, 0 < ρ ∧ ρ < 1 ∧
      ∀ (kf kf' : KalmanFilter Fl) (Z Z' : NDArray Fl) (U U' : Option (NDArray Fl)) (b b' : Belief n)
        (ss : List (LinStep n m)),
        Represents kf Z U b ss → Represents kf' Z' U' b' ss → b.P.PosSemidef → b'.P.PosSemidef → ConstantModel A H Q R ss →
        ∃ (bs bs' : List (Belief n)) (Ks Ks' : List (Matrix (Fin n) (Fin m) ℝ)), FilterReturns kf Z U bs Ks ∧
          FilterReturns kf' Z' U' bs' Ks' ∧ bs.length = ss.length ∧ bs'.length = ss.length ∧
          ∀ j k p p' q q', n ≤ j + 1 → j ≤ k → bs[j]? = some p → bs'[j]? = some p' → bs[k]? = some q → bs'[k]? = some q' →
            ∀ r D : ℝ, 0 ≤ D → DataWithin ss j k D → (∀ i, |p.x i| ≤ r) → (∀ i, |p'.x i| ≤ r) →
              ∀ i, |q.x i - q'.x i| ≤ C * ρ ^ (k - j) * (r + D) := by
  obtain ⟨c, δ, u⟩ := exists_uniform (A := A) (H := H) hQ hR hc ho
  obtain ⟨C₀, ρ₀, hC₀, h00, h01, hd⟩ := u.decay hQ hR
  obtain ⟨κ, ρ₁, hκ, h10, h11, hg⟩ := u.gain_decay hQ hR
  obtain ⟨C₂, ρ₂, hC₂, h20, h21, hb⟩ := run_bound u hQ hR
  obtain ⟨η, hη, hH⟩ := exists_mulVec_bound H
  obtain ⟨α, hα, hA⟩ := exists_mulVec_bound A
  -- a common rate
  obtain ⟨ρ, hρ⟩ : ∃ ρ, ρ = max ρ₀ ρ₁ := ⟨_, rfl⟩
  have hρ0 : 0 < ρ := hρ ▸ lt_max_of_lt_left h00
  have hρ1 : ρ < 1 := hρ ▸ max_lt h01 h11
  have hle0 : ρ₀ ≤ ρ := hρ ▸ le_max_left _ _
  have hle1 : ρ₁ ≤ ρ := hρ ▸ le_max_right _ _
  obtain ⟨σ, hσ⟩ : ∃ σ, σ = Real.sqrt ρ := ⟨_, rfl⟩
  have hσ2 : σ * σ = ρ := by rw [hσ, Real.mul_self_sqrt hρ0.le]
  have hσ0 : 0 < σ := hσ ▸ Real.sqrt_pos.2 hρ0
  have hσ1 : σ < 1 := by rw [hσ, Real.sqrt_lt' one_pos]; simpa using hρ1
  have hσi : 0 < (1 - σ)⁻¹ := inv_pos.2 (by linarith)
  have hρσ : ρ ≤ σ := by rw [← hσ2]; exact mul_le_of_le_one_left hσ0.le hσ1.le
  -- bound on the innovations
  obtain ⟨M, hM⟩ : ∃ M, M = 1 + η * (α * C₂ + 1) := ⟨_, rfl⟩
  have hM0 : 0 ≤ M := by rw [hM]; positivity
  obtain ⟨E, hE⟩ : ∃ E, E = C₀ * κ * M * (ρ⁻¹ * (1 - σ)⁻¹) := ⟨_, rfl⟩
  have hE0 : 0 ≤ E := by rw [hE]; positivity
  refine ⟨2 * C₀ + E, σ, hσ0, hσ1, fun kf kf' Z Z' U U' b b' ss h h' hP hP' hcm => ?_⟩
  have hs : ∀ b : Belief n, b.P.PosSemidef → Solvable b ss := fun b hb =>
    solvable_psd hb (fun s hs => (hcm s hs).2.2.1 ▸ hQ) fun s hs => (hcm s hs).2.2.2 ▸ hR
  refine ⟨_, _, _, _, h.returns (hs _ hP), h'.returns (hs _ hP'), filtered_length _ _, filtered_length _ _, ?_⟩
  intro j k p p' q q' hj hjk hp hp' hq hq' r D hD hdat hr hr' i
  have hr0 : 0 ≤ r := (abs_nonneg _).trans (hr i)
  obtain ⟨-, rfl⟩ := filtered_lastOf hp
  obtain ⟨-, rfl⟩ := filtered_lastOf hp'
  obtain ⟨hk, rfl⟩ := filtered_lastOf hq
  obtain ⟨-, rfl⟩ := filtered_lastOf hq'
  rw [abs_le_iff_norm hr0] at hr hr'
  have hex : ∀ i, ∃ w : Fin n → ℝ, i < k - j → ‖w‖ ≤ κ * ρ ^ i * (M * (r + D)) ∧
      (lastOf b (ss.take (j + 1 + (i + 1)))).x - (lastOf b' (ss.take (j + 1 + (i + 1)))).x =
        ((1 - ownGains A Q H R b.P (j + 1 + i) * H) * A) *ᵥ
          ((lastOf b (ss.take (j + 1 + i))).x - (lastOf b' (ss.take (j + 1 + i))).x) + w := by
    intro i
    by_cases hi : i < k - j
    swap
    · exact ⟨0, fun h => absurd h hi⟩
    have hl : j + 1 + i < ss.length := by omega
    have hss : ss[j + 1 + i]? = some ss[j + 1 + i] := List.getElem?_eq_getElem hl
    have hmm := hcm ss[j + 1 + i] (List.getElem_mem _)
    obtain ⟨hz, hu⟩ := hdat (j + 1 + i) _ (by omega) (by omega) hss
    rw [abs_le_iff_norm hD] at hz hu
    refine ⟨(ownGains A Q H R b.P (j + 1 + i) - ownGains A Q H R b'.P (j + 1 + i)) *ᵥ
      (ss[j + 1 + i].z - H *ᵥ (A *ᵥ (lastOf b' (ss.take (j + 1 + i))).x + ss[j + 1 + i].c)), fun _ => ⟨?_, ?_⟩⟩
    · have hx' : ‖(lastOf b' (ss.take (j + 1 + i))).x‖ ≤ C₂ * (r + D) := by
        have h1 := hb b' ss hP' hcm j (j + i) hj (by omega) (by omega) D hD
          (fun l s h1 h2 h3 => hdat l s h1 (by omega) h3)
        have e : j + i + 1 = j + 1 + i := by omega
        rw [e, Nat.add_sub_cancel_left] at h1
        have h2 : C₂ * ρ₂ ^ i * ‖(lastOf b' (ss.take (j + 1))).x‖ ≤ C₂ * 1 * r :=
          mul_le_mul (mul_le_mul_of_nonneg_left (pow_le_one₀ h20.le h21.le) hC₂.le) hr' (norm_nonneg _) (by positivity)
        linarith
      have hin : ‖ss[j + 1 + i].z - H *ᵥ (A *ᵥ (lastOf b' (ss.take (j + 1 + i))).x + ss[j + 1 + i].c)‖ ≤ M * (r + D) := by
        have a1 := norm_sub_le ss[j + 1 + i].z (H *ᵥ (A *ᵥ (lastOf b' (ss.take (j + 1 + i))).x + ss[j + 1 + i].c))
        have a2 := hH (A *ᵥ (lastOf b' (ss.take (j + 1 + i))).x + ss[j + 1 + i].c)
        have a3 := norm_add_le (A *ᵥ (lastOf b' (ss.take (j + 1 + i))).x) ss[j + 1 + i].c
        have a4 := hA (lastOf b' (ss.take (j + 1 + i))).x
        have a5 : α * ‖(lastOf b' (ss.take (j + 1 + i))).x‖ ≤ α * (C₂ * (r + D)) := mul_le_mul_of_nonneg_left hx' hα
        have a6 : η * ‖A *ᵥ (lastOf b' (ss.take (j + 1 + i))).x + ss[j + 1 + i].c‖ ≤
            η * (α * (C₂ * (r + D)) + (r + D)) := mul_le_mul_of_nonneg_left (by linarith) hη
        rw [hM]
        nlinarith
      have h2 := hg b.P b'.P hP hP' (j + 1 + i) (by omega)
        (ss[j + 1 + i].z - H *ᵥ (A *ᵥ (lastOf b' (ss.take (j + 1 + i))).x + ss[j + 1 + i].c))
      refine h2.trans (mul_le_mul (mul_le_mul_of_nonneg_left ?_ hκ) hin (norm_nonneg _) (by positivity))
      calc ρ₁ ^ (j + 1 + i) ≤ ρ₁ ^ i := pow_le_pow_of_le_one h10.le h11.le (by omega)
        _ ≤ ρ ^ i := pow_le_pow_left₀ h10.le hle1 i
    · rw [← Nat.add_assoc (j + 1) i 1, lastOf_take_succ _ ss _ _ hss, lastOf_take_succ _ ss _ _ hss,
        next_mean hmm (P := b.P) (k := j + 1 + i) _ (lastOf_const hcm _ _ (by omega)),
        next_mean hmm (P := b'.P) (k := j + 1 + i) _ (lastOf_const hcm _ _ (by omega))]
      simp only [Matrix.sub_mul, Matrix.one_mul, sub_mulVec, mulVec_sub, mulVec_add, ← mulVec_mulVec]
      abel
  choose w hw using hex
  have key := iss hd hP hj (fun i => (lastOf b (ss.take (j + 1 + i))).x - (lastOf b' (ss.take (j + 1 + i))).x) w (k - j)
    (fun i hi => (hw i hi).2)
  have e : j + 1 + (k - j) = k + 1 := by omega
  rw [e, Nat.add_zero] at key
  obtain ⟨L, hL⟩ : ∃ L, L = k - j := ⟨_, rfl⟩
  rw [← hL] at key hw ⊢
  have hsum : ∑ i ∈ Finset.range L, C₀ * ρ₀ ^ (L - 1 - i) * ‖w i‖ ≤ E * σ ^ L * (r + D) := by
    have h1 : ∀ i ∈ Finset.range L, C₀ * ρ₀ ^ (L - 1 - i) * ‖w i‖ ≤ C₀ * κ * M * (r + D) * (ρ⁻¹ * ρ ^ L) := fun i hi => by
      have hi' := Finset.mem_range.1 hi
      have e1 : ρ⁻¹ * ρ ^ L = ρ ^ (L - 1 - i) * ρ ^ i := by
        rw [← pow_add]
        have : L = (L - 1 - i + i) + 1 := by omega
        conv_lhs => rw [this, pow_succ]
        field_simp
      calc C₀ * ρ₀ ^ (L - 1 - i) * ‖w i‖ ≤ C₀ * ρ ^ (L - 1 - i) * (κ * ρ ^ i * (M * (r + D))) :=
            mul_le_mul (mul_le_mul_of_nonneg_left (pow_le_pow_left₀ h00.le hle0 _) hC₀.le) (hw i hi').1 (norm_nonneg _)
              (by positivity)
        _ = C₀ * κ * M * (r + D) * (ρ⁻¹ * ρ ^ L) := by rw [e1]; ring
    refine (Finset.sum_le_sum h1).trans ?_
    rw [Finset.sum_const, Finset.card_range, nsmul_eq_mul]
    have h2 := lin_geom_le hσ0 hσ1 L
    have h3 : ρ ^ L = σ ^ L * σ ^ L := by rw [← hσ2, mul_pow]
    rw [h3, hE]
    have h4 : 0 ≤ C₀ * κ * M * (r + D) * ρ⁻¹ * σ ^ L := by positivity
    have h5 := mul_le_mul_of_nonneg_left h2 h4
    calc (L : ℝ) * (C₀ * κ * M * (r + D) * (ρ⁻¹ * (σ ^ L * σ ^ L))) =
          C₀ * κ * M * (r + D) * ρ⁻¹ * σ ^ L * (L * σ ^ L) := by ring
      _ ≤ _ := h5
      _ = _ := by ring
  refine (abs_le_iff_norm (v := (lastOf b (ss.take (k + 1))).x - (lastOf b' (ss.take (k + 1))).x) (by positivity)).2 ?_ i
  refine key.trans ?_
  have h3 : C₀ * ρ₀ ^ L * ‖(lastOf b (ss.take (j + 1))).x - (lastOf b' (ss.take (j + 1))).x‖ ≤ C₀ * σ ^ L * (2 * (r + D)) := by
    refine mul_le_mul (mul_le_mul_of_nonneg_left (pow_le_pow_left₀ h00.le (hle0.trans hρσ) _) hC₀.le) ?_ (norm_nonneg _)
      (by positivity)
    have := norm_sub_le (lastOf b (ss.take (j + 1))).x (lastOf b' (ss.take (j + 1))).x
    linarith
  linarith

-- C83, C84, C85: the constant-velocity model from two arbitrary initial states, on arbitrary data; all data of a run are
-- within some bound.
example (uz : List (ℝ × ℝ)) (b b' : Belief 2) :
    (∃ kf Z U, Represents kf Z U b (Ex.cvSteps uz)) ∧ (∃ kf Z U, Represents kf Z U b' (Ex.cvSteps uz)) ∧
    ConstantModel (Ex.cvStep 0 0).A (Ex.cvStep 0 0).H (Ex.cvStep 0 0).Q (Ex.cvStep 0 0).R (Ex.cvSteps uz) ∧
    (Ex.cvStep 0 0).Q.PosSemidef ∧ (Ex.cvStep 0 0).R.PosDef ∧
    Controllable (Ex.cvStep 0 0).A (Ex.cvStep 0 0).Q ∧ Observable (Ex.cvStep 0 0).A (Ex.cvStep 0 0).H ∧
    ((∀ p ∈ uz, |p.1| ≤ 5 ∧ |p.2| ≤ 5) → ∀ j k, DataWithin (Ex.cvSteps uz) j k 5) := by
  refine ⟨⟨_, _, _, Ex.encode_represents _ _⟩, ⟨_, _, _, Ex.encode_represents _ _⟩, ?_, (Ex.cvStep_Q 0 0).posSemidef,
    Ex.cvStep_R 0 0, Ex.cv_controllable, Ex.cv_observable, ?_⟩
  · intro s hs
    simp only [Ex.cvSteps, List.mem_map] at hs
    obtain ⟨p, -, rfl⟩ := hs
    exact ⟨rfl, rfl, rfl, rfl⟩
  · intro hb j k l s _ _ hs
    simp only [Ex.cvSteps, List.getElem?_map, Option.map_eq_some_iff] at hs
    obtain ⟨p, hp, rfl⟩ := hs
    obtain ⟨h1, h2⟩ := hb p (List.mem_of_getElem? hp)
    have h3 : |p.1 / 2| ≤ 5 := by rw [abs_div, abs_two]; linarith [abs_nonneg p.1]
    refine ⟨fun i => ?_, fun i => ?_⟩
    · fin_cases i; simpa [Ex.cvStep] using h2
    · fin_cases i
      · simpa [Ex.cvStep] using h3
      · simpa [Ex.cvStep] using h1

end KK
