import Verif.Props.Forgetting
import Verif.Props.Superposition

/-!
# C99: the filter as an observer - bounded disturbances give bounded errors, without any statistics
-/

set_option linter.unusedSectionVars false

namespace KK

open Matrix

variable {n m : ℕ} {A Q : Matrix (Fin n) (Fin n) ℝ} {H : Matrix (Fin m) (Fin n) ℝ} {R : Matrix (Fin m) (Fin m) ℝ}

variable [Platform]

/-- Growth during the first steps. -/
theorem start_bound (P : Matrix (Fin n) (Fin n) ℝ) (N : ℕ) : ∃ G : ℝ, 1 ≤ G ∧ ∀ (b : Belief n) (ss : List (LinStep n m)),
    b.P = P → ConstantModel A H Q R ss → ∀ D, 0 ≤ D → (∀ (l : ℕ) (s : LinStep n m), ss[l]? = some s → ‖s.z‖ ≤ D ∧ ‖s.c‖ ≤ D) →
      ∀ k, k ≤ N → k ≤ ss.length → ‖(lastOf b (ss.take k)).x‖ ≤ G * (‖b.x‖ + D) := by
  induction N with
  | zero =>
    refine ⟨1, le_rfl, fun b ss _ _ D hD _ k hk _ => ?_⟩
    obtain rfl : k = 0 := by omega
    simpa [lastOf] using hD
  | succ N ih =>
    obtain ⟨G, hG, h⟩ := ih
    obtain ⟨a, ha, hA⟩ := exists_mulVec_bound ((1 - ownGains A Q H R P N * H) * A)
    obtain ⟨κ, hκ, hK⟩ := exists_mulVec_bound (ownGains A Q H R P N)
    obtain ⟨η, hη, hH⟩ := exists_mulVec_bound H
    refine ⟨G + a * G + (1 + κ * η + κ), by nlinarith, fun b ss hb hcm D hD hdat k hk hkl => ?_⟩
    have hx := norm_nonneg b.x
    rcases Nat.lt_or_ge N k with h1 | h1
    · obtain rfl : k = N + 1 := by omega
      have hs : ss[N]? = some ss[N] := List.getElem?_eq_getElem hkl
      have hm := hcm ss[N] (List.getElem_mem _)
      obtain ⟨hz, hc⟩ := hdat N _ hs
      have hN := h b ss hb hcm D hD hdat N le_rfl (by omega)
      rw [lastOf_take_succ b ss N _ hs, next_mean hm (P := b.P) _ (lastOf_const hcm b N (by omega)), hb, step_affine]
      have e1 := hA (lastOf b (ss.take N)).x
      have e2 := hK (H *ᵥ ss[N].c)
      have e3 := hK ss[N].z
      have e4 : κ * ‖H *ᵥ ss[N].c‖ ≤ κ * (η * D) :=
        mul_le_mul_of_nonneg_left ((hH _).trans (mul_le_mul_of_nonneg_left hc hη)) hκ
      have e5 : κ * ‖ss[N].z‖ ≤ κ * D := mul_le_mul_of_nonneg_left hz hκ
      have e6 := norm_sub_le ss[N].c (ownGains A Q H R P N *ᵥ (H *ᵥ ss[N].c))
      have e7 : a * ‖(lastOf b (ss.take N)).x‖ ≤ a * (G * (‖b.x‖ + D)) := mul_le_mul_of_nonneg_left hN ha
      have e8 := norm_add_le (((1 - ownGains A Q H R P N * H) * A) *ᵥ (lastOf b (ss.take N)).x)
        (ss[N].c - ownGains A Q H R P N *ᵥ (H *ᵥ ss[N].c) + ownGains A Q H R P N *ᵥ ss[N].z)
      have e9 := norm_add_le (ss[N].c - ownGains A Q H R P N *ᵥ (H *ᵥ ss[N].c)) (ownGains A Q H R P N *ᵥ ss[N].z)
      have e10 : 0 ≤ (1 + κ * η + κ) * ‖b.x‖ := by positivity
      have e11 : 0 ≤ G * (‖b.x‖ + D) := by positivity
      linarith
    · refine (h b ss hb hcm D hD hdat k h1 hkl).trans (mul_le_mul_of_nonneg_right ?_ (by linarith))
      have : 0 ≤ a * G := by positivity
      have : 0 ≤ κ * η := by positivity
      linarith

theorem run_bound_start {c δ : ℝ} (u : Uniform A Q H R c δ) (hQ : Q.PosSemidef) (hR : R.PosDef)
    (P : Matrix (Fin n) (Fin n) ℝ) (hP : P.PosSemidef) :
    ∃ C ρ : ℝ, 0 < C ∧ 0 < ρ ∧ ρ < 1 ∧ ∀ (b : Belief n) (ss : List (LinStep n m)), b.P = P →
      ConstantModel A H Q R ss → ∀ D, 0 ≤ D → (∀ (l : ℕ) (s : LinStep n m), ss[l]? = some s → ‖s.z‖ ≤ D ∧ ‖s.c‖ ≤ D) →
      ∀ k, k ≤ ss.length → ‖(lastOf b (ss.take k)).x‖ ≤ C * ρ ^ k * ‖b.x‖ + C * D := by
  obtain ⟨C, ρ, hC, h0, h1, hb⟩ := run_bound u hQ hR
  obtain ⟨G, hG, hs⟩ := start_bound (A := A) (Q := Q) (H := H) (R := R) P (n + 1)
  have hρ : 0 < ρ ^ (n + 1) := by positivity
  refine ⟨(1 + C) * G * (ρ ^ (n + 1))⁻¹ + C, ρ, by positivity, h0, h1, fun b ss hbP hcm D hD hdat k hk => ?_⟩
  have hx := norm_nonneg b.x
  have hinv : 1 ≤ (ρ ^ (n + 1))⁻¹ := (one_le_inv₀ hρ).2 (pow_le_one₀ h0.le h1.le)
  have hCG : 0 ≤ C * G := by positivity
  rcases le_or_gt k (n + 1) with hkn | hkn
  · have key := hs b ss hbP hcm D hD hdat k hkn hk
    have e1 : G ≤ ((1 + C) * G * (ρ ^ (n + 1))⁻¹ + C) * ρ ^ k := by
      have : 1 ≤ (ρ ^ (n + 1))⁻¹ * ρ ^ k := by
        rw [← div_eq_inv_mul, one_le_div hρ]
        exact pow_le_pow_of_le_one h0.le h1.le hkn
      have e2 : G ≤ (1 + C) * G := by linarith
      have e3 : (1 + C) * G ≤ (1 + C) * G * ((ρ ^ (n + 1))⁻¹ * ρ ^ k) := le_mul_of_one_le_right (by positivity) this
      have e4 : 0 ≤ C * ρ ^ k := by positivity
      linarith
    have e5 : G ≤ (1 + C) * G * (ρ ^ (n + 1))⁻¹ + C := by
      have e3 : (1 + C) * G ≤ (1 + C) * G * (ρ ^ (n + 1))⁻¹ := le_mul_of_one_le_right (by positivity) hinv
      linarith
    have := mul_le_mul_of_nonneg_right e1 hx
    have := mul_le_mul_of_nonneg_right e5 hD
    linarith
  · obtain ⟨l, rfl⟩ : ∃ l, k = l + 1 := ⟨k - 1, by omega⟩
    have key := hb b ss (hbP ▸ hP) hcm n l (by omega) (by omega) (by omega) D hD (fun i s _ _ hi => by
      obtain ⟨h2, h3⟩ := hdat i s hi
      exact ⟨(abs_le_iff_norm hD).2 h2, (abs_le_iff_norm hD).2 h3⟩)
    have key2 := hs b ss hbP hcm D hD hdat (n + 1) le_rfl (by omega)
    refine key.trans ?_
    have e : ρ ^ (l - n) = (ρ ^ (n + 1))⁻¹ * ρ ^ (l + 1) := by
      rw [eq_inv_mul_iff_mul_eq₀ hρ.ne', ← pow_add]
      congr 1; omega
    have f1 : C * ρ ^ (l - n) * ‖(lastOf b (ss.take (n + 1))).x‖ ≤ C * ρ ^ (l - n) * (G * (‖b.x‖ + D)) :=
      mul_le_mul_of_nonneg_left key2 (by positivity)
    have f2 : C * ρ ^ (l - n) * (G * ‖b.x‖) ≤ ((1 + C) * G * (ρ ^ (n + 1))⁻¹ + C) * ρ ^ (l + 1) * ‖b.x‖ := by
      rw [e, ← mul_assoc]
      refine mul_le_mul_of_nonneg_right ?_ hx
      have : 0 ≤ G * (ρ ^ (n + 1))⁻¹ * ρ ^ (l + 1) := by positivity
      have : 0 ≤ C * ρ ^ (l + 1) := by positivity
      linarith
    have f3 : C * ρ ^ (l - n) * (G * D) ≤ (1 + C) * G * (ρ ^ (n + 1))⁻¹ * D := by
      rw [← mul_assoc]
      refine mul_le_mul_of_nonneg_right ?_ hD
      have g1 : C * ρ ^ (l - n) * G ≤ C * G := by
        have := pow_le_one₀ (n := l - n) h0.le h1.le
        have := mul_le_mul_of_nonneg_right (mul_le_mul_of_nonneg_left this hC.le) (by linarith : (0 : ℝ) ≤ G)
        linarith
      have g2 : (1 + C) * G ≤ (1 + C) * G * (ρ ^ (n + 1))⁻¹ := le_mul_of_one_le_right (by positivity) hinv
      linarith
    linarith

/-- The errors of a run are the estimates of a run on the disturbances. -/
theorem error_run (b : Belief n) (ss : List (LinStep n m)) (x w : ℕ → Fin n → ℝ) (v : ℕ → Fin m → ℝ)
    (h : ∀ (k : ℕ) (s : LinStep n m), ss[k]? = some s → x (k + 1) = s.A *ᵥ x k + s.c + w k ∧ s.z = s.H *ᵥ x (k + 1) + v k) (k : ℕ)
    (hk : k ≤ ss.length) :
    lastOf ⟨b.x - x 0, b.P⟩ ((ss.mapIdx fun i s => ({ s with c := -w i, z := v i } : LinStep n m)).take k) =
      ⟨(lastOf b (ss.take k)).x - x k, (lastOf b (ss.take k)).P⟩ := by
  induction k with
  | zero => simp [lastOf]
  | succ k ih =>
    have hs : ss[k]? = some ss[k] := List.getElem?_eq_getElem hk
    obtain ⟨h1, h2⟩ := h k _ hs
    rw [lastOf_take_succ b ss k _ hs, lastOf_take_succ _ _ k { ss[k] with c := -w k, z := v k } (by simp [hs]), ih (by omega)]
    ext1
    · simp only [LinStep.next, LinStep.update, LinStep.predict, LinStep.gain, h1, h2, mulVec_add, mulVec_sub, mulVec_neg]
      abel
    · rfl

/-- C99: a constant model with PSD `Q` and PD `R`, observable and controllable, and an initial covariance `P`.  Whatever the
true states `x 0, x 1, ...` are, let `w` be the disturbances of the transitions, `x (k+1) = A x k + B u + w k`, and `v` the
errors of the measurements, `z = H x (k+1) + v k` - no statistics assumed.  If all disturbances and errors are at most `D` and
the initial estimate is off by at most `r` then the estimate after step `k` is off by at most `C ρ^(k+1) r + C D`, where `C`
and `ρ < 1` depend only on the model and `P`.  In particular without disturbances the estimates converge to the true state. -/
theorem C99_observer (A Q : Matrix (Fin n) (Fin n) ℝ) (H : Matrix (Fin m) (Fin n) ℝ) (R : Matrix (Fin m) (Fin m) ℝ)
    (P : Matrix (Fin n) (Fin n) ℝ) (hQ : Q.PosSemidef) (hR : R.PosDef) (hP : P.PosSemidef) (hc : Controllable A Q)
    (ho : Observable A H) :
    ∃ C ρ : ℝ, 0 < ρ ∧ ρ < 1 ∧
      ∀ (kf : KalmanFilter Fl) (Z : NDArray Fl) (U : Option (NDArray Fl)) (x₀ : Fin n → ℝ) (ss : List (LinStep n m)),
        Represents kf Z U ⟨x₀, P⟩ ss → ConstantModel A H Q R ss →
        ∃ (bs : List (Belief n)) (Ks : List (Matrix (Fin n) (Fin m) ℝ)), FilterReturns kf Z U bs Ks ∧
          bs.length = ss.length ∧
          ∀ (x w : ℕ → Fin n → ℝ) (v : ℕ → Fin m → ℝ) (r D : ℝ), 0 ≤ D →
            (∀ (k : ℕ) (s : LinStep n m), ss[k]? = some s → x (k + 1) = A *ᵥ x k + s.c + w k ∧ s.z = H *ᵥ x (k + 1) + v k ∧
              (∀ i, |w k i| ≤ D) ∧ ∀ i, |v k i| ≤ D) →
            (∀ i, |x₀ i - x 0 i| ≤ r) →
            ∀ k q, bs[k]? = some q → ∀ i, |q.x i - x (k + 1) i| ≤ C * ρ ^ (k + 1) * r + C * D := by
  obtain ⟨c, δ, u⟩ := exists_uniform (A := A) (H := H) hQ hR hc ho
  obtain ⟨C, ρ, hC, h0, h1, hb⟩ := run_bound_start u hQ hR P hP
  refine ⟨C, ρ, h0, h1, fun kf Z U x₀ ss h hcm => ?_⟩
  refine ⟨_, _, h.returns (solvable_psd hP (fun s hs => (hcm s hs).2.2.1 ▸ hQ) fun s hs => (hcm s hs).2.2.2 ▸ hR),
    filtered_length _ _, ?_⟩
  intro x w v r D hD hx hr k q hq i
  have hr0 : 0 ≤ r := (abs_nonneg _).trans (hr i)
  obtain ⟨hk, rfl⟩ := filtered_lastOf hq
  have herr := error_run ⟨x₀, P⟩ ss x w v (fun k s hs => by
    obtain ⟨e1, e2, -, -⟩ := hx k s hs
    obtain ⟨m1, m2, -, -⟩ := hcm s (List.mem_of_getElem? hs)
    rw [m1, m2]; exact ⟨e1, e2⟩) (k + 1) hk
  have key := hb ⟨x₀ - x 0, P⟩ (ss.mapIdx fun i s => { s with c := -w i, z := v i }) rfl (fun s hs => by
    obtain ⟨i, hi, rfl⟩ := List.mem_mapIdx.1 hs
    exact hcm ss[i] (List.getElem_mem _)) D hD (fun l s hs => by
    rw [List.getElem?_mapIdx] at hs
    obtain ⟨s', hs', rfl⟩ := Option.map_eq_some_iff.1 hs
    obtain ⟨-, -, e3, e4⟩ := hx l s' hs'
    exact ⟨(abs_le_iff_norm hD).1 e4, by rw [norm_neg]; exact (abs_le_iff_norm hD).1 e3⟩) (k + 1) (by simpa using hk)
  rw [herr] at key
  have hr' := (abs_le_iff_norm (v := x₀ - x 0) hr0).1 hr
  refine (abs_le_iff_norm (v := (lastOf ⟨x₀, P⟩ (ss.take (k + 1))).x - x (k + 1)) (by positivity)).2 (key.trans ?_) i
  exact add_le_add_left (mul_le_mul_of_nonneg_left hr' (by positivity)) _

/-- C99 (no disturbances): from a wrong initial mean the estimates converge to the true states: for every error bound there is
a number of steps, which depends only on the model, the initial covariance and the initial error, after which every estimate on
noise-free data is within the bound. -/
theorem C99_converges (A Q : Matrix (Fin n) (Fin n) ℝ) (H : Matrix (Fin m) (Fin n) ℝ) (R : Matrix (Fin m) (Fin m) ℝ)
    (P : Matrix (Fin n) (Fin n) ℝ) (hQ : Q.PosSemidef) (hR : R.PosDef) (hP : P.PosSemidef) (hc : Controllable A Q)
    (ho : Observable A H) (r ε : ℝ) (hε : 0 < ε) :
    ∃ N : ℕ,
      ∀ (kf : KalmanFilter Fl) (Z : NDArray Fl) (U : Option (NDArray Fl)) (x₀ : Fin n → ℝ) (ss : List (LinStep n m)),
        Represents kf Z U ⟨x₀, P⟩ ss → ConstantModel A H Q R ss →
        ∃ (bs : List (Belief n)) (Ks : List (Matrix (Fin n) (Fin m) ℝ)), FilterReturns kf Z U bs Ks ∧
          bs.length = ss.length ∧
          ∀ x : ℕ → Fin n → ℝ, (∀ (k : ℕ) (s : LinStep n m), ss[k]? = some s → x (k + 1) = A *ᵥ x k + s.c ∧ s.z = H *ᵥ x (k + 1)) →
            (∀ i, |x₀ i - x 0 i| ≤ r) → ∀ k q, N ≤ k → bs[k]? = some q → ∀ i, |q.x i - x (k + 1) i| ≤ ε := by
  obtain ⟨C, ρ, h0, h1, hb⟩ := C99_observer A Q H R P hQ hR hP hc ho
  have ht : Filter.Tendsto (fun k : ℕ => C * ρ ^ (k + 1) * r) Filter.atTop (nhds 0) := by
    have := (((tendsto_pow_atTop_nhds_zero_of_lt_one h0.le h1).comp (Filter.tendsto_add_atTop_nat 1)).const_mul C).mul_const r
    simpa using this
  obtain ⟨N, hN⟩ := Filter.eventually_atTop.1 (ht.eventually (gt_mem_nhds hε))
  refine ⟨N, fun kf Z U x₀ ss h hcm => ?_⟩
  obtain ⟨bs, Ks, hret, hl, hbd⟩ := hb kf Z U x₀ ss h hcm
  refine ⟨bs, Ks, hret, hl, fun x hx hr k q hk hq i => ?_⟩
  have := hbd x (fun _ => 0) (fun _ => 0) r 0 le_rfl (fun k s hs => by
    obtain ⟨e1, e2⟩ := hx k s hs
    simp [e1, e2]) hr k q hq i
  have h2 := hN k hk
  linarith

/-- C84 from the first step on: bounded data give bounded estimates, with constants that depend on the model and the initial
covariance. -/
theorem C84_bounded_start (A Q : Matrix (Fin n) (Fin n) ℝ) (H : Matrix (Fin m) (Fin n) ℝ) (R : Matrix (Fin m) (Fin m) ℝ)
    (P : Matrix (Fin n) (Fin n) ℝ) (hQ : Q.PosSemidef) (hR : R.PosDef) (hP : P.PosSemidef) (hc : Controllable A Q)
    (ho : Observable A H) :
    ∃ C ρ : ℝ, 0 < ρ ∧ ρ < 1 ∧
      ∀ (kf : KalmanFilter Fl) (Z : NDArray Fl) (U : Option (NDArray Fl)) (x₀ : Fin n → ℝ) (ss : List (LinStep n m)),
        Represents kf Z U ⟨x₀, P⟩ ss → ConstantModel A H Q R ss →
        ∃ (bs : List (Belief n)) (Ks : List (Matrix (Fin n) (Fin m) ℝ)), FilterReturns kf Z U bs Ks ∧
          bs.length = ss.length ∧
          ∀ r D : ℝ, 0 ≤ D → (∀ s ∈ ss, (∀ i, |s.z i| ≤ D) ∧ ∀ i, |s.c i| ≤ D) → (∀ i, |x₀ i| ≤ r) →
            ∀ k q, bs[k]? = some q → ∀ i, |q.x i| ≤ C * ρ ^ (k + 1) * r + C * D := by
  obtain ⟨c, δ, u⟩ := exists_uniform (A := A) (H := H) hQ hR hc ho
  obtain ⟨C, ρ, hC, h0, h1, hb⟩ := run_bound_start u hQ hR P hP
  refine ⟨C, ρ, h0, h1, fun kf Z U x₀ ss h hcm => ?_⟩
  refine ⟨_, _, h.returns (solvable_psd hP (fun s hs => (hcm s hs).2.2.1 ▸ hQ) fun s hs => (hcm s hs).2.2.2 ▸ hR),
    filtered_length _ _, ?_⟩
  intro r D hD hdat hr k q hq i
  have hr0 : 0 ≤ r := (abs_nonneg _).trans (hr i)
  obtain ⟨hk, rfl⟩ := filtered_lastOf hq
  have key := hb ⟨x₀, P⟩ ss rfl hcm D hD (fun l s hs => by
    obtain ⟨e1, e2⟩ := hdat s (List.mem_of_getElem? hs)
    exact ⟨(abs_le_iff_norm hD).1 e1, (abs_le_iff_norm hD).1 e2⟩) (k + 1) hk
  refine (abs_le_iff_norm (by positivity)).2 (key.trans ?_) i
  exact add_le_add_left (mul_le_mul_of_nonneg_left ((abs_le_iff_norm hr0).1 hr) (by positivity)) _

-- C99: the constant-velocity model started at the wrong position and velocity, on noise-free data of any length; the true
-- states are `x`.
example (us : List ℝ) (x₀ : Fin 2 → ℝ) (p v : ℝ) :
    (∃ kf Z U, Represents kf Z U ⟨x₀, Ex.cvBelief.P⟩ (Ex.cvExact p v us)) ∧
    ConstantModel (Ex.cvStep 0 0).A (Ex.cvStep 0 0).H (Ex.cvStep 0 0).Q (Ex.cvStep 0 0).R (Ex.cvExact p v us) ∧
    ∃ x : ℕ → Fin 2 → ℝ, x 0 = ![p, v] ∧ ∀ k s, (Ex.cvExact p v us)[k]? = some s →
      x (k + 1) = (Ex.cvStep 0 0).A *ᵥ x k + s.c ∧ s.z = (Ex.cvStep 0 0).H *ᵥ x (k + 1) := by
  refine ⟨⟨_, _, _, Ex.encode_represents _ _⟩, ?_, ?_⟩
  · induction us generalizing p v with
    | nil => intro s hs; simp [Ex.cvExact] at hs
    | cons u us ih =>
      intro s hs
      rw [Ex.cvExact, List.mem_cons] at hs
      rcases hs with rfl | hs
      · exact ⟨rfl, rfl, rfl, rfl⟩
      · exact ih _ _ s hs
  · induction us generalizing p v with
    | nil => exact ⟨fun _ => ![p, v], rfl, by simp [Ex.cvExact]⟩
    | cons u us ih =>
      obtain ⟨x, h0, hx⟩ := ih (p + v + u / 2) (v + u)
      refine ⟨fun k => match k with | 0 => ![p, v] | k + 1 => x k, rfl, fun k s hs => ?_⟩
      rcases k with _ | k
      · simp only [Ex.cvExact, List.getElem?_cons_zero, Option.some.injEq] at hs
        subst hs
        simp only [h0]
        refine ⟨?_, ?_⟩
        · funext i; fin_cases i <;> simp [Ex.cvStep, Matrix.mulVec, dotProduct, Fin.sum_univ_two]
        · funext i; fin_cases i; simp [Ex.cvStep, Matrix.mulVec, dotProduct, Fin.sum_univ_two]
      · exact hx k s (by simpa [Ex.cvExact] using hs)

end KK
