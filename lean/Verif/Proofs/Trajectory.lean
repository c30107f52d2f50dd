import Verif.Spec.Trajectory
import Verif.Proofs.StochRun
import Verif.Proofs.Posterior

/-!
# Errors of smoothed estimates at different times
-/

set_option linter.unusedSectionVars false

namespace KK

open Matrix MeasureTheory ProbabilityTheory

variable {n m : ℕ}

theorem chain_shift (g : ℕ → Matrix (Fin n) (Fin n) ℝ) (k d : ℕ) : chain (fun j => g (j + 1)) k d = chain g (k + 1) d := by
  induction d generalizing k with
  | zero => rfl
  | succ d ih => rw [chain, chain, ih]

theorem chain_congr {g g' : ℕ → Matrix (Fin n) (Fin n) ℝ} (k d : ℕ) (h : ∀ j, k ≤ j → j < k + d → g j = g' j) :
    chain g k d = chain g' k d := by
  induction d generalizing k with
  | zero => rfl
  | succ d ih => rw [chain, chain, h k (by omega) (by omega), ih (k + 1) fun j h1 h2 => h j (by omega) (by omega)]

namespace Stoch

section abstract

variable {V : Type} [AddCommGroup V] [Module ℝ V] {B : LinearMap.BilinForm ℝ V} {S : Submodule ℝ V}
  {one : V} {X : ℕ → Fin n → V} {b : VB V n} {s : ModelStep n m} {ms : List (ModelStep n m)}
  {w : ℕ → Fin n → V} {v z : ℕ → Fin m → V}

/-- Something uncorrelated with the data and state so far and with all later noises is uncorrelated with all later states. -/
theorem Sys.perp_states (hB : ∀ x y, B x y = B y x) (h : Sys B one S X b ms w v z) (hd : VSolvable one b ms z)
    {κ : Type} [Fintype κ] {y : κ → V} (h1 : cc B y (X 0) = 0) (h2 : Perp B y S)
    (h3 : ∀ k < ms.length, cc B y (w k) = 0) (h4 : ∀ k < ms.length, cc B y (v k) = 0) (k : ℕ) (hk : k ≤ ms.length) :
    cc B y (X k) = 0 := by
  induction ms generalizing S X b w v z k with
  | nil =>
    obtain rfl : k = 0 := by simpa using hk
    exact h1
  | cons s ms ih =>
    rcases k with _ | k
    · exact h1
    · have hs := h.step hB hd.1
      refine ih hs hd.2 ?_ ?_ (fun k hk => h3 (k + 1) (by simpa using hk)) (fun k hk => h4 (k + 1) (by simpa using hk)) k
        (by simpa using hk)
      · exact h.noise_state h1 h2 (h3 0 (by simp))
      · exact h.noise_obs h1 h2 (h3 0 (by simp)) (h4 0 (by simp))

/-- The smoothed error is the gain applied to the next one, plus something uncorrelated with all data and all later states. -/
theorem Sys.smooth_split (hB : ∀ x y, B x y = B y x) (h : Sys B one S X b (s :: ms) w v z) (hd : VSolvable one b (s :: ms) z)
    (hdp : (vpredict one s b).P.det ≠ 0) :
    ∃ d : Fin n → V, Perp B d (upTo S z (s :: ms).length) ∧ (∀ l ≤ ms.length, cc B d (X (l + 1)) = 0) ∧
      ∀ q : VB V n, X 0 - (vrtsStep one b s q).x =
        d + act (b.P * s.Aᵀ * (vpredict one s b).P⁻¹) (X 1 - q.x) := by
  have hs := h.step hB hd.1
  have hp := h.prior hB
  rw [List.length_cons, upTo_succ]
  obtain ⟨p, hpdef⟩ : ∃ p, p = vpredict one s b := ⟨_, rfl⟩
  obtain ⟨e, he⟩ : ∃ e, e = X 0 - b.x := ⟨_, rfl⟩
  obtain ⟨e', he'⟩ : ∃ e', e' = X 1 - p.x := ⟨_, rfl⟩
  obtain ⟨G, hG⟩ : ∃ G, G = b.P * s.Aᵀ * p.P⁻¹ := ⟨_, rfl⟩
  obtain ⟨F, hF⟩ : ∃ F, F = upTo (S ⊔ Submodule.span ℝ (Set.range (z 0))) (fun k => z (k + 1)) ms.length := ⟨_, rfl⟩
  rw [← hF]
  rw [← hpdef] at hdp
  have hee : cc B e e = b.P := by rw [he]; exact h.good.cov
  have he'e' : cc B e' e' = p.P := by rw [he', hpdef]; exact hp.cov
  have hew : ∀ {κ : Type} [Fintype κ] {y : κ → V}, cc B y (X 0) = 0 → Perp B y S → cc B e y = 0 := by
    intro κ _ y h1 h2
    rw [← cc_symm hB, he, cc_sub_right, h1, cc_perp h2 h.good.mem, sub_zero, Matrix.transpose_zero]
  have he'eq : e' = act s.A e + w 0 := by rw [he', he, hpdef]; exact h.prior_err
  have hee' : cc B e e' = b.P * s.Aᵀ := by
    rw [he'eq, cc_add_right, cc_act_right, hee, hew (h.wX 0 (by simp)) (h.wS 0 (by simp)), add_zero]
  have hGp : G * p.P = b.P * s.Aᵀ := by
    rw [hG, Matrix.mul_assoc, Matrix.nonsing_inv_mul _ (isUnit_iff_ne_zero.2 hdp), Matrix.mul_one]
  obtain ⟨d, hdd⟩ : ∃ d, d = e - act G e' := ⟨_, rfl⟩
  have hde' : cc B d e' = 0 := by
    rw [hdd, cc_sub_left, cc_act_left, hee', he'e', hGp, sub_self]
  have heS : Perp B e S := by rw [he]; exact h.good.perp
  have he'S : Perp B e' S := by rw [he', hpdef]; exact hp.perp
  have hdS : Perp B d S := by rw [hdd]; exact heS.sub (he'S.act _)
  have hpx : InS p.x S := by rw [hpdef]; exact hp.mem
  have hdX : cc B d (X 1) = 0 := by
    have : X 1 = e' + p.x := by rw [he']; abel
    rw [this, cc_add_right, hde', cc_perp hdS hpx, add_zero]
  have hdn : ∀ {κ : Type} [Fintype κ] {y : κ → V}, cc B y (X 0) = 0 → Perp B y S → cc B (w 0) y = 0 →
      cc B d y = 0 := by
    intro κ _ y h1 h2 h3
    rw [hdd, cc_sub_left, cc_act_left, hew h1 h2, he'eq, cc_add_left, cc_act_left, hew h1 h2, h3]
    simp
  have hdv0 : cc B d (v 0) = 0 := hdn (h.vX 0 (by simp)) (h.vS 0 (by simp)) (h.wv 0 (by simp) 0 (by simp))
  have hdS' : Perp B d (S ⊔ Submodule.span ℝ (Set.range (z 0))) := by
    refine hdS.sup_span ?_
    rw [h.obs 0 s rfl, cc_add_right, cc_act_right, hdX, hdv0]
    simp
  have hdw : ∀ k < ms.length, cc B d (w (k + 1)) = 0 := fun k hk =>
    hdn (h.wX (k + 1) (by simpa using hk)) (h.wS (k + 1) (by simpa using hk))
      (h.ww' 0 (by simp) (k + 1) (by simpa using hk) (by simp))
  have hdv : ∀ k < ms.length, cc B d (v (k + 1)) = 0 := fun k hk =>
    hdn (h.vX (k + 1) (by simpa using hk)) (h.vS (k + 1) (by simpa using hk))
      (h.wv 0 (by simp) (k + 1) (by simpa using hk))
  refine ⟨d, ?_, fun l hl => hs.perp_states hB hd.2 hdX hdS' hdw hdv l hl, fun q => ?_⟩
  · rw [hF]
    exact hs.perp_all hB hd.2 hdX hdS' hdw hdv
  · have hx : (vrtsStep one b s q).x = b.x + act G (q.x - p.x) := by rw [hG, hpdef]; rfl
    obtain ⟨f, hf⟩ : ∃ f, f = X 1 - q.x := ⟨_, rfl⟩
    have hqp : q.x - p.x = e' - f := by rw [he', hf]; abel
    rw [← hf, ← hpdef, ← hG, hx, hqp, hdd, he, act_sub]
    abel

/-- The gain from time `j` to the next. -/
noncomputable def vlag (one : V) (b : VB V n) (ms : List (ModelStep n m)) (z : ℕ → Fin m → V) (j : ℕ) :
    Matrix (Fin n) (Fin n) ℝ :=
  ((b :: vfiltered one b ms z)[j]?.bind fun f => ms[j]?.map fun s => f.P * s.Aᵀ * (vpredict one s f).P⁻¹).getD 0

theorem smooth_cross (hB : ∀ x y, B x y = B y x) (h : Sys B one S X b ms w v z) (hd : VSolvable one b ms z)
    (hd' : VRtsSolvable one b ms z) (k d : ℕ) (q q' : VB V n) (hk : (vrts one b ms z)[k]? = some q)
    (hl : (vrts one b ms z)[k + d]? = some q') :
    cc B (X k - q.x) (X (k + d) - q'.x) = chain (vlag one b ms z) k d * q'.P := by
  induction ms generalizing S X b w v z k d q q' with
  | nil =>
    have hlen : (vrts one b ([] : List (ModelStep n m)) z).length = 1 := rfl
    have h1 := (List.getElem?_eq_some_iff.1 hl).1
    obtain ⟨rfl, rfl⟩ : k = 0 ∧ d = 0 := by omega
    rw [hk, Option.some.injEq] at hl
    subst hl
    rw [chain, Matrix.one_mul]
    exact (smooth_good hB h hd hd' 0 q hk).cov
  | cons s ms ih =>
    have hs := h.step hB hd.1
    have hgood := smooth_good hB h hd hd'
    have hsplit := h.smooth_split hB hd hd'.1
    have hvs : ∀ j, vlag one b (s :: ms) z (j + 1) = vlag one (vnext one s b (z 0)) ms (fun k => z (k + 1)) j := fun j => rfl
    rcases hr : vrts one (vnext one s b (z 0)) ms (fun k => z (k + 1)) with _ | ⟨r, rs⟩
    · rw [vrts, hr] at hk; simp at hk
    have hv : vrts one b (s :: ms) z = vrtsStep one b s r :: r :: rs := by rw [vrts, hr]
    have ih' := ih hs hd.2 hd'.2
    rw [hr] at ih'
    rcases k with _ | k
    · rcases d with _ | d
      · rw [hk, Option.some.injEq] at hl
        subst hl
        rw [chain, Matrix.one_mul]
        exact (hgood 0 q hk).cov
      · rw [Nat.zero_add] at hl ⊢
        have hq' := hgood (d + 1) q' hl
        rw [hv, List.getElem?_cons_zero, Option.some.injEq] at hk
        rw [hv, List.getElem?_cons_succ] at hl
        subst hk
        obtain ⟨y, y1, y2, y3⟩ := hsplit
        have hdl : d ≤ ms.length := by
          have h1 := (List.getElem?_eq_some_iff.1 hl).1
          have h2 : (r :: rs).length = ms.length + 1 := by
            rw [← hr]
            clear *-
            generalize vnext one s b (z 0) = c
            generalize (fun k => z (k + 1)) = y
            induction ms generalizing c y with
            | nil => rfl
            | cons t ms ih =>
              rw [vrts]
              have := ih (vnext one t c (y 0)) fun k => y (k + 1)
              rcases hr : vrts one (vnext one t c (y 0)) ms (fun k => y (k + 1)) with _ | ⟨r, rs⟩
              · rw [hr] at this; simp at this
              · rw [hr] at this; simpa using this
          omega
        have hy : cc B y (X (d + 1) - q'.x) = 0 := by
          rw [cc_sub_right, y2 d hdl, cc_perp y1 hq'.mem, sub_zero]
        have h0 := ih' 0 d r q' (by rw [List.getElem?_cons_zero]) (by rw [Nat.zero_add]; exact hl)
        simp only [Nat.zero_add] at h0
        rw [y3 r, cc_add_left, hy, zero_add, cc_act_left]
        have h0' : cc B (X 1 - r.x) (X (d + 1) - q'.x) =
          chain (vlag one (vnext one s b (z 0)) ms fun k => z (k + 1)) 0 d * q'.P := h0
        have hg : vlag one b (s :: ms) z 0 = b.P * s.Aᵀ * (vpredict one s b).P⁻¹ := rfl
        rw [h0', chain, ← chain_shift, hg, Matrix.mul_assoc _ (chain _ _ _)]
        rfl
    · rw [hv, List.getElem?_cons_succ] at hk
      rw [Nat.add_right_comm, hv, List.getElem?_cons_succ] at hl
      have h0 := ih' k d q q' hk hl
      have h0' : cc B (X (k + 1) - q.x) (X (k + d + 1) - q'.x) =
          chain (vlag one (vnext one s b (z 0)) ms fun k => z (k + 1)) k d * q'.P := h0
      rw [Nat.add_right_comm, h0', ← chain_shift]
      rfl

end abstract

section run

variable {Ω : Type} [MeasurableSpace Ω] {μ : Measure Ω} [IsProbabilityMeasure μ]
  {b : Belief n} {ms : List (ModelStep n m)} {N : Src n m → Ω → ℝ} {X : ℕ → Ω → Fin n → ℝ}
  {z : ℕ → Ω → Fin m → ℝ}

/-- The random filtered and smoothed beliefs, with the errors of the smoothed ones at different times. -/
theorem trajectory_core (hN : WhiteNoise μ b.P ms N) (hX : Follows b.x ms N X z)
    (hs : ∃ ω, Solvable b (withData ms fun k => z k ω) ∧ SmoothSolvable b (withData ms fun k => z k ω)) :
    ∃ (f q : ℕ → VB (L2 μ) n), (∀ k < ms.length, ∀ ω,
        (filtered b (withData ms fun k => z k ω))[k]? = some ⟨(f k).fn ω, (f k).P⟩ ∧
        (smoothed b (withData ms fun k => z k ω))[k]? = some ⟨(q k).fn ω, (q k).P⟩) ∧
      (∀ k < ms.length, Good (ip μ) (obsSpan μ z ms.length) (liftV μ (X (k + 1))) (q k)) ∧
      ∀ k d, k + d < ms.length → cc (ip μ) (liftV μ (X (k + 1)) - (q k).x) (liftV μ (X (k + d + 1)) - (q (k + d)).x) =
        chain (lagGain ms fun j => (f j).P) k d * (q (k + d)).P := by
  obtain ⟨ω₀, hs, hs'⟩ := hs
  have hsys := sys hN hX
  have hdata := data_eval hN hX
  have hv : VSolvable (one μ) (bV μ b) ms fun k => liftV μ (z k) := by
    rw [vsolvable_eval (ev ω₀) (ev_one ω₀), data_eval hN hX, bV_eval]; exact hs
  clear hN hX
  cases ms with
  | nil => exact ⟨fun _ => bV μ b, fun _ => bV μ b, by simp, by simp, by simp⟩
  | cons s ms =>
    have hv' : VRtsSolvable (one μ) (vnext (one μ) s (bV μ b) (liftV μ (z 0))) ms fun k => liftV μ (z (k + 1)) := by
      rw [vrtsSolvable_eval (ev ω₀) (ev_one ω₀), vnext_eval (ev ω₀) (ev_one ω₀), bV_eval]
      rw [← hdata ω₀] at hs'
      exact hs'
    have hst := hsys.step ip_symm hv.1
    obtain ⟨c, hc⟩ : ∃ c, c = vnext (one μ) s (bV μ b) (liftV μ (z 0)) := ⟨_, rfl⟩
    have hfe : ∀ ω, (c :: vfiltered (one μ) c ms fun k => liftV μ (z (k + 1))).map (VB.eval (ev ω)) =
        filtered b (withData (s :: ms) fun k => z k ω) := by
      intro ω
      have := vfiltered_eval (ev ω) (ev_one ω) (bV μ b) (s :: ms) fun k => liftV μ (z k)
      rw [hdata, bV_eval] at this
      rw [← this, hc]
      rfl
    have hse : ∀ ω, (vrts (one μ) c ms fun k => liftV μ (z (k + 1))).map
        (VB.eval (ev ω)) = smoothed b (withData (s :: ms) fun k => z k ω) := by
      intro ω
      rw [vrts_eval (ev ω) (ev_one ω), hc, vnext_eval (ev ω) (ev_one ω), bV_eval, ← hdata ω]
      rfl
    rw [← hc] at hst hv'
    have hv2 : VSolvable (one μ) c ms fun k => liftV μ (z (k + 1)) := by rw [hc]; exact hv.2
    have hlf : (c :: vfiltered (one μ) c ms fun k => liftV μ (z (k + 1))).length = (s :: ms).length := by
      have := congrArg List.length (hfe ω₀)
      rwa [List.length_map, filtered_length, withData_length] at this
    have hls : (vrts (one μ) c ms fun k => liftV μ (z (k + 1))).length = (s :: ms).length := by
      have := congrArg List.length (hse ω₀)
      rwa [List.length_map, smoothed_length, withData_length] at this
    obtain ⟨F, hF⟩ : ∃ F, F = c :: vfiltered (one μ) c ms fun k => liftV μ (z (k + 1)) := ⟨_, rfl⟩
    obtain ⟨Q, hQ⟩ : ∃ Q, Q = vrts (one μ) c ms fun k => liftV μ (z (k + 1)) := ⟨_, rfl⟩
    rw [← hF] at hlf
    rw [← hQ] at hls
    have hFk : ∀ k < (s :: ms).length, F[k]? = some (F[k]?.getD c) := fun k hk => by
      rw [List.getElem?_eq_getElem (by rw [hlf]; exact hk)]; rfl
    have hQk : ∀ k < (s :: ms).length, Q[k]? = some (Q[k]?.getD c) := fun k hk => by
      rw [List.getElem?_eq_getElem (by rw [hls]; exact hk)]; rfl
    refine ⟨fun k => F[k]?.getD c, fun k => Q[k]?.getD c, fun k hk ω => ⟨?_, ?_⟩, fun k hk => ?_, fun k d hkd => ?_⟩
    · rw [← hfe ω, ← hF, List.getElem?_map, hFk k hk]; rfl
    · rw [← hse ω, ← hQ, List.getElem?_map, hQk k hk]; rfl
    · have := smooth_good ip_symm hst hv2 hv' k _ (by rw [← hQ]; exact hQk k hk)
      rw [← upTo_succ (z := fun k => liftV μ (z k))] at this
      exact this
    · have := smooth_cross ip_symm hst hv2 hv' k d _ _ (by rw [← hQ]; exact hQk k (by omega))
        (by rw [← hQ]; exact hQk (k + d) hkd)
      have e : chain (vlag (one μ) c ms fun k => liftV μ (z (k + 1))) k d =
          chain (lagGain (s :: ms) fun j => (F[j]?.getD c).P) k d := by
        refine chain_congr k d fun j h1 h2 => ?_
        rw [vlag, ← hF, lagGain, List.getElem?_cons_succ, hFk j (by omega), Option.bind_some]
        rfl
      rw [e] at this
      exact this

end run

end Stoch

end KK
