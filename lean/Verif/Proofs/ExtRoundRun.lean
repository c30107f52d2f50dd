import Verif.Proofs.ExtRound

/-!
# The computed run of the extended filter
-/

set_option linter.unusedSectionVars false

namespace KK

open Matrix
open scoped Matrix.Norms.Elementwise

variable {n m : ℕ}

theorem VecIs.small {D : ℝ} {v : Fin n → ℝ} {a : Arr Fl} (h : VecIs v a) (hv : ∀ i, |v i| ≤ D) (hn : (n : ℝ) ≤ D) : a.Small D := by
  obtain ⟨d, rfl⟩ := h
  refine ⟨hv, fun k hk => ?_⟩
  simp only [Arr.shape, List.mem_cons, List.not_mem_nil, or_false] at hk
  subst hk; exact hn

theorem MatIs.small {D : ℝ} {M : Matrix (Fin n) (Fin m) ℝ} {a : Arr Fl} (h : MatIs M a) (hv : ∀ i j, |M i j| ≤ D) (hn : (n : ℝ) ≤ D)
    (hm : (m : ℝ) ≤ D) : a.Small D := by
  obtain ⟨d, rfl⟩ := h
  refine ⟨hv, fun k hk => ?_⟩
  simp only [Arr.shape, List.mem_cons, List.not_mem_nil, or_false] at hk
  rcases hk with rfl | rfl
  · exact hn
  · exact hm

theorem obsOrVec_small {D : ℝ} {v : Fin m → ℝ} {a : Arr Fl} (h : VecIs v a ∨ m = 1 ∧ ObsIs v a) (hv : ∀ i, |v i| ≤ D) (hn : (m : ℝ) ≤ D) :
    a.Small D := by
  rcases h with h | ⟨rfl, h | ⟨d, r, rfl, rfl⟩⟩
  · exact h.small hv hn
  · exact h.small hv hn
  · exact ⟨hv 0, fun k hk => by simp [Arr.shape] at hk⟩

theorem ObsIs.norm_le {D : ℝ} {v : Fin m → ℝ} {a : Arr Fl} (h : ObsIs v a) (hs : a.Small D) (hD : 0 ≤ D) : ‖v‖ ≤ D := by
  refine (pi_norm_le_iff_of_nonneg hD).2 fun i => ?_
  rw [Real.norm_eq_abs]
  rcases h with ⟨d, rfl⟩ | ⟨d, r, rfl, rfl⟩
  · exact hs.1 i
  · exact hs.1

theorem Arr.Small.mono {D D' : ℝ} (h : D ≤ D') {a : Arr Fl} (ha : a.Small D) : a.Small D' := by
  refine ⟨?_, fun k hk => (ha.2 k hk).trans h⟩
  cases a with
  | scalar d x => exact ha.1.trans h
  | vec d x => exact fun i => (ha.1 i).trans h
  | mat d x => exact fun i j => (ha.1 i j).trans h

/-- Rows with the same control and otherwise close arrays. -/
def ExtRowClose (η : ℝ) (r r₁ : ExtendedKalmanFilter.Row Fl) : Prop :=
  r₁.1 = r.1 ∧ r.2.1.Close η r₁.2.1 ∧ r.2.2.1.Close η r₁.2.2.1 ∧ r.2.2.2.Close η r₁.2.2.2

/-- Small arrays in all four places. -/
def ExtRowSmall (D : ℝ) (r : ExtendedKalmanFilter.Row Fl) : Prop :=
  r.1.Small D ∧ r.2.1.Small D ∧ r.2.2.1.Small D ∧ r.2.2.2.Small D

/-- `g'` computes `g`. -/
theorem Computes.at {η C : ℝ} (hC : C ≤ 1 / η) {g g' : Arr Fl → Except PyErr (Arr Fl)} (h : Computes η g g') {x y : Arr Fl}
    (hx : x.Small C) (hy : g x = .ok y) : ∃ y', g' x = .ok y' ∧ y.Close η y' := h x y (hx.mono hC).1 hy

theorem Computes₂.at {η C : ℝ} (hC : C ≤ 1 / η) {g g' : Arr Fl → Option (Arr Fl) → Except PyErr (Arr Fl)} (h : Computes₂ η g g')
    {x u y : Arr Fl} (hx : x.Small C) (hu : u.Small C) (hy : g x (some u) = .ok y) : ∃ y', g' x (some u) = .ok y' ∧ y.Close η y' :=
  h x u y (hx.mono hC).1 (hu.mono hC).1 hy

set_option maxHeartbeats 2000000 in
/-- The computed run. -/
theorem ext_round_run (n m N : ℕ) (nanInt : ℝ) {q r a p κ d l γ : ℝ} (hN : 0 < N) (hq : 0 < q) (hr : 0 < r) (ha : 0 ≤ a) (hp : 0 < p)
    (hκ : 0 ≤ κ) (hd : 0 < d) (hl : 0 ≤ l) (hγ : 0 < γ) :
    ∃ ε C ρ : ℝ, 0 < ε ∧ 0 < C ∧ 0 < ρ ∧ ρ < 1 ∧ ∀ Y τ : ℝ, 0 ≤ Y → 0 < τ → ∃ η > 0,
      ∀ (B : Backend Fl) (kf kf₁ : ExtendedKalmanFilter Fl) (ss : List (ExtStep n m)) (rs rs₁ : List (ExtendedKalmanFilter.Row Fl))
        (b b₀ : Belief n) (x₀ P₀ : Arr Fl) (x w : ℕ → Fin n → ℝ) (v : ℕ → Fin m → ℝ) (r₀ D : ℝ),
        Accurate nanInt η B → List.Forall₂ (ExtRowIs kf) ss rs → (∀ r ∈ rs, ExtRowSmall Y r) → List.Forall₂ (ExtRowClose η) rs rs₁ →
        Computes₂ η kf.f kf₁.f → Computes₂ η kf.jacobianA kf₁.jacobianA → Computes η kf.h kf₁.h → Computes η kf.jacobianH kf₁.jacobianH →
        kf₁.stateSize = n → (@Arr.identity Fl (exactB nanInt) n).Close η kf₁.I → VecIs b₀.x x₀ → MatIs b₀.P P₀ → BeliefNear η b₀ b →
        (∀ (j : ℕ) (s : ExtStep n m), ss[j]? = some s → Tracks q r a κ d D x w v j s ∧ NearSmooth l d s (x j) (x (j + 1))) →
        (∀ s ∈ ss, (a • (1 : Matrix (Fin n) (Fin n) ℝ) - s.Q).PosSemidef ∧ (a • (1 : Matrix (Fin m) (Fin m) ℝ) - s.R).PosSemidef) →
        (∀ w, w <:+: alongTruth ss x → w.length = N → (obsGram w - γ • (1 : Matrix (Fin n) (Fin n) ℝ)).PosSemidef) →
        (∀ j ≤ ss.length, ‖x j‖ ≤ Y) → 0 ≤ D → D ≤ ε → Between q p b.P → ‖x 0 - b.x‖ ≤ r₀ → r₀ ≤ ε →
        ∃ (b' : ℕ → Belief n) (Ks : ℕ → Matrix (Fin n) (Fin m) ℝ), (trace (@ExtendedKalmanFilter.step Fl B kf₁) rs₁ x₀ P₀).err = none ∧
          (trace (@ExtendedKalmanFilter.step Fl B kf₁) rs₁ x₀ P₀).outs =
            (List.range ss.length).map (fun i => (stateRow (b' (i + 1)), covRow (b' (i + 1)))) ∧
          (trace (@ExtendedKalmanFilter.step Fl B kf₁) rs₁ x₀ P₀).gains = (List.range ss.length).map (fun i => gainRow (Ks i)) ∧
          ∀ i ≤ ss.length, ‖x i - (b' i).x‖ ≤ C * ρ ^ i * r₀ + C * D + τ := by
  obtain ⟨ε, C, ρ, hε, hC, h0, h1, key⟩ := round_observer n m N hN hq hr ha hp hκ hd hl hγ
  refine ⟨ε, C, ρ, hε, hC, h0, h1, fun Y τ hY hτ => ?_⟩
  obtain ⟨δ, hδ, X, hδ1, hobs⟩ := key τ hτ
  obtain ⟨D', hD'⟩ : ∃ D' : ℝ, D' = Y + a + n + m + n * a + κ + ε + |X| + 3 := ⟨_, rfl⟩
  have hna : (0 : ℝ) ≤ n * a := by positivity
  have hn0 : (0 : ℝ) ≤ n := Nat.cast_nonneg n
  have hm0 : (0 : ℝ) ≤ m := Nat.cast_nonneg m
  have hX0 := abs_nonneg X
  have hXX := le_abs_self X
  have hD'0 : 0 < D' := by rw [hD']; positivity
  obtain ⟨η₁, hη₁, hstep⟩ := ext_one_step (n := n) (m := m) nanInt D' hδ hδ
  obtain ⟨η, hη⟩ : ∃ η, η = min (min η₁ δ) (1 / D') := ⟨_, rfl⟩
  have hη0 : 0 < η := by rw [hη]; positivity
  have hηη₁ : η ≤ η₁ := hη ▸ (min_le_left _ _).trans (min_le_left _ _)
  have hηδ : η ≤ δ := hη ▸ (min_le_left _ _).trans (min_le_right _ _)
  have hηD : D' ≤ 1 / η := by
    have : η ≤ 1 / D' := hη ▸ min_le_right _ _
    rw [le_div_iff₀ hD'0] at this
    rw [le_div_iff₀ hη0]; linarith
  refine ⟨η, hη0, fun B kf kf₁ ss rs rs₁ b b₀ x₀ P₀ x w v r₀ D hB hrow hsm hcl hcf hcA hch hcH hsz hI hx₀ hP₀ hb₀ htr hQR hobsw hxY hD hDε hb hx0 hr₀ => ?_⟩
  have hlen : ss.length = rs.length := hrow.length_eq
  have hlen₁ : rs.length = rs₁.length := hcl.length_eq
  have hbx := (BeliefNear.norm hη0.le).1 hb₀
  have main : ∀ N ≤ ss.length, ∃ (b' : ℕ → Belief n) (y : ℕ → Fin n → ℝ) (Ks : ℕ → Matrix (Fin n) (Fin m) ℝ) (x' P' : Arr Fl),
      (b' 0 = b₀) ∧ (trace (@ExtendedKalmanFilter.step Fl B kf₁) (rs₁.take N) x₀ P₀) =
        ⟨(List.range N).map (fun i => (stateRow (b' (i + 1)), covRow (b' (i + 1)))),
          (List.range N).map (fun i => gainRow (Ks i)), none, (x', P')⟩ ∧ VecIs (b' N).x x' ∧ MatIs (b' N).P P' ∧
      (∀ (i : ℕ) (s : ExtStep n m), i < N → ss[i]? = some s → ‖y i - s.f (b' i).x‖ ≤ δ ∧
          ‖(b' (i + 1)).x - ((linAt s (b' i) (y i)).next (b' i)).x‖ ≤ δ ∧
          ‖(b' (i + 1)).P - (linAt s (b' i) (y i)).covNext (b' i).P‖ ≤ δ) := by
    intro N
    induction N with
    | zero => exact fun _ => ⟨fun _ => b₀, fun _ => 0, fun _ => 0, x₀, P₀, rfl, by simp [trace], hx₀, hP₀, fun i s hi => absurd hi (by omega)⟩
    | succ N ih =>
      intro hN
      obtain ⟨b', y, Ks, x', P', e0, et, hvx, hvP, hst⟩ := ih (by omega)
      obtain ⟨s, hs⟩ : ∃ s, ss[N]? = some s := ⟨_, List.getElem?_eq_getElem (by omega)⟩
      obtain ⟨⟨uk, zk, Qk, Rk⟩, hr⟩ : ∃ r, rs[N]? = some r := ⟨_, List.getElem?_eq_getElem (by omega)⟩
      obtain ⟨⟨uk₁, zk₁, Qk₁, Rk₁⟩, hr₁⟩ : ∃ r, rs₁[N]? = some r := ⟨_, List.getElem?_eq_getElem (by omega)⟩
      have hsr : ExtRowIs kf s (uk, zk, Qk, Rk) := by
        have h2 := (List.forall₂_iff_get.1 hrow).2 N (by omega) (by omega)
        have e1 := (List.getElem?_eq_some_iff.1 hs).2
        have e2 := (List.getElem?_eq_some_iff.1 hr).2
        simp only [List.get_eq_getElem] at h2
        rwa [e1, e2] at h2
      have hrr : ExtRowClose η (uk, zk, Qk, Rk) (uk₁, zk₁, Qk₁, Rk₁) := by
        have h2 := (List.forall₂_iff_get.1 hcl).2 N (by omega) (by omega)
        have e1 := (List.getElem?_eq_some_iff.1 hr).2
        have e2 := (List.getElem?_eq_some_iff.1 hr₁).2
        simp only [List.get_eq_getElem] at h2
        rwa [e1, e2] at h2
      obtain ⟨eu, cz, cQ, cR⟩ := hrr
      obtain rfl : uk₁ = uk := eu
      obtain ⟨su, sz, sQ, sR⟩ := hsm _ (List.mem_of_getElem? hr)
      obtain ⟨-, g1, gd, g2, g3⟩ := hobs ss b x w v r₀ D htr hQR hobsw hD hDε hb hx0 hr₀ b' y N (by omega)
        (by rw [e0]; exact hbx.1.trans hηδ) (by rw [e0]; exact hbx.2.trans hηδ) hst N le_rfl
      obtain ⟨tr, -⟩ := htr N s hs
      have hxN := hxY N (by omega)
      have hxN1 := hxY (N + 1) (by omega)
      have hb'x : ‖(b' N).x‖ ≤ Y + 1 := by
        have e : (b' N).x = x N - (x N - (b' N).x) := by abel
        rw [e]
        exact (norm_sub_le _ _).trans (add_le_add hxN g1)
      have hYD : Y ≤ D' := by rw [hD']; linarith
      have hx's : x'.Small D' := hvx.small (fun i => ((norm_le_pi_norm (b' N).x i).trans hb'x).trans (by rw [hD']; linarith))
        (by rw [hD']; linarith)
      -- the callbacks
      obtain ⟨yF, hyF, iF⟩ := hsr.f _ _ hvx
      obtain ⟨yA, hyA, iA⟩ := hsr.jA _ _ hvx
      obtain ⟨yF₁, hyF₁, cF⟩ := Computes₂.at hηD hcf hx's (su.mono hYD) hyF
      obtain ⟨yA₁, hyA₁, cA⟩ := Computes₂.at hηD hcA hx's (su.mono hYD) hyA
      obtain ⟨F₁, iF₁, nF⟩ := iF.of_close cF
      have hF₁ : ‖F₁ - s.f (b' N).x‖ ≤ δ := ((abs_le_iff_norm hη0.le).1 nF).trans hηδ
      obtain ⟨d1, d2, d3⟩ := g3 s F₁ hs hF₁
      have hF₁n : ‖F₁‖ ≤ Y + 1 := by
        have e : F₁ = x (N + 1) - (x (N + 1) - F₁) := by abel
        rw [e]
        exact (norm_sub_le _ _).trans (add_le_add hxN1 d1)
      have hFn : ‖s.f (b' N).x‖ ≤ Y + 2 := by
        have e : s.f (b' N).x = F₁ - (F₁ - s.f (b' N).x) := by abel
        rw [e]
        refine (norm_sub_le _ _).trans ?_
        linarith
      have hyF₁s : yF₁.Small D' := iF₁.small (fun i => ((norm_le_pi_norm F₁ i).trans hF₁n).trans (by rw [hD']; linarith))
        (by rw [hD']; linarith)
      obtain ⟨yH, hyH, iH⟩ := hsr.jH _ _ iF₁
      obtain ⟨yh, hyh, ih⟩ := hsr.h _ _ iF₁
      obtain ⟨yH₁, hyH₁, cH⟩ := Computes.at hηD hcH hyF₁s hyH
      obtain ⟨yh₁, hyh₁, ch⟩ := Computes.at hηD hch hyF₁s hyh
      have hjA := tr.near.jA (b' N).x gd
      have hjH := tr.near.jH F₁ d2
      have hzn : ‖s.z‖ ≤ Y := hsr.z.norm_le sz hY
      have hhn : ‖s.h F₁‖ ≤ Y + ε + n * a + κ := by
        have h2 := tr.near.h F₁ d2
        have e : s.h F₁ = s.z - v N - s.jH F₁ *ᵥ (x (N + 1) - F₁) - (s.h (x (N + 1)) - (s.h F₁ + s.jH F₁ *ᵥ (x (N + 1) - F₁))) := by
          rw [tr.obs]; abel
        rw [e]
        have f1 : ‖s.jH F₁ *ᵥ (x (N + 1) - F₁)‖ ≤ n * a := by
          refine (mulVec_norm _ _).trans ?_
          have := mul_le_mul (mul_le_mul_of_nonneg_left ((mat_norm_le ha).2 hjH) hn0) d1 (norm_nonneg _) hna
          linarith
        have f2 : κ * ‖x (N + 1) - F₁‖ ^ 2 ≤ κ := by
          refine mul_le_of_le_one_right hκ (pow_le_one₀ (norm_nonneg _) d1)
        have f3 := norm_sub_le (s.z - v N - s.jH F₁ *ᵥ (x (N + 1) - F₁)) (s.h (x (N + 1)) - (s.h F₁ + s.jH F₁ *ᵥ (x (N + 1) - F₁)))
        have f4 := norm_sub_le (s.z - v N) (s.jH F₁ *ᵥ (x (N + 1) - F₁))
        have f5 := norm_sub_le s.z (v N)
        have f6 := tr.err
        linarith
      have harr : StepArrays D' (s.jA (b' N).x) (s.f (b' N).x) (s.jH F₁) (s.h F₁) s.Q s.R s.z yA yF yH yh zk Qk Rk :=
        { A := iA, F := iF, H := iH, h := ih, Q := hsr.Q, R := hsr.R, z := hsr.z
          sA := iA.small (fun i j => (hjA i j).trans (by rw [hD']; linarith)) (by rw [hD']; linarith) (by rw [hD']; linarith)
          sF := iF.small (fun i => ((norm_le_pi_norm _ i).trans hFn).trans (by rw [hD']; linarith)) (by rw [hD']; linarith)
          sH := iH.small (fun i j => (hjH i j).trans (by rw [hD']; linarith)) (by rw [hD']; linarith) (by rw [hD']; linarith)
          sh := obsOrVec_small ih (fun i => ((norm_le_pi_norm _ i).trans hhn).trans (by rw [hD']; linarith)) (by rw [hD']; linarith)
          sQ := sQ.mono hYD, sR := sR.mono hYD, sz := sz.mono hYD }
      have hwithin : BeliefWithin D' (b' N) :=
        ⟨fun i => ((norm_le_pi_norm (b' N).x i).trans hb'x).trans (by rw [hD']; linarith),
          fun i j => ((entry_le_norm (b' N).P i j).trans g2).trans (by rw [hD']; linarith)⟩
      obtain ⟨K, b'', x'', P'', es, hx'', hP'', hn⟩ := hstep B _ _ _ _ _ _ _ (b' N) yA yF yH yh uk₁ zk Qk Rk yA₁ yF₁ yH₁ yh₁ zk₁ Qk₁ Rk₁
        x' P' kf₁.I (hB.mono hη0 hηη₁) harr (cA.mono hηη₁) (cF.mono hηη₁) (cH.mono hηη₁) (ch.mono hηη₁) (cz.mono hηη₁) (cQ.mono hηη₁)
        (cR.mono hηη₁) (hI.mono hηη₁) (su.mono hYD) hvx hvP hwithin d3
      rw [linAt_next] at hn
      have hn := (BeliefNear.norm hδ.le).1 hn
      have es' : @ExtendedKalmanFilter.step Fl B kf₁ (uk₁, zk₁, Qk₁, Rk₁) x' P' = (some (gainRow K), .ok ((x'', P''), (stateRow b'', covRow b''))) := by
        rw [step_constKF B hyA₁ hyF₁ hyH₁ hyh₁, hsz, es]
      refine ⟨fun i => if i = N + 1 then b'' else b' i, fun i => if i = N then F₁ else y i, fun i => if i = N then K else Ks i, x'', P'', ?_, ?_, ?_, ?_, ?_⟩
      · simp [e0]
      · rw [List.take_add_one, hr₁, Option.toList_some, trace_append, et]
        simp only [trace, es', List.range_succ, List.map_append, List.map_cons, List.map_nil, Option.toList_some, if_true,
          List.append_nil]
        congr 1
        · congr 1
          refine List.map_congr_left fun i hi => ?_
          have := List.mem_range.1 hi
          rw [if_neg (by omega)]
        · congr 1
          refine List.map_congr_left fun i hi => ?_
          have := List.mem_range.1 hi
          rw [if_neg (by omega)]
      · simpa using hx''
      · simpa using hP''
      · intro i s' hi hs'
        rcases Nat.lt_or_ge i N with hlt | hge
        · have := hst i s' hlt hs'
          beta_reduce
          rw [if_neg (show ¬ i + 1 = N + 1 by omega), if_neg (show ¬ i = N + 1 by omega), if_neg (show ¬ i = N by omega)]
          exact this
        · obtain rfl : i = N := by omega
          obtain rfl : s' = s := by rw [hs] at hs'; exact (Option.some.inj hs').symm
          beta_reduce
          rw [if_pos rfl, if_neg (show ¬ i = i + 1 by omega), if_pos rfl]
          exact ⟨hF₁, hn.1, hn.2⟩
  obtain ⟨b', y, Ks, x', P', e0, et, -, -, hst⟩ := main ss.length le_rfl
  rw [List.take_of_length_le (by omega)] at et
  refine ⟨b', Ks, by rw [et], by rw [et], by rw [et], fun i hi => ?_⟩
  exact (hobs ss b x w v r₀ D htr hQR hobsw hD hDε hb hx0 hr₀ b' y ss.length le_rfl
        (by rw [e0]; exact hbx.1.trans hηδ) (by rw [e0]; exact hbx.2.trans hηδ) hst i hi).1

end KK
