import Verif.Proofs.TimeVaryingRun

/-! # Windows of the extended filter near the true states -/

set_option linter.unusedSectionVars false

namespace KK

open Matrix

variable {n m : ℕ}

/-- Two steps whose matrices are bounded and close. -/
structure StepClose (a δ : ℝ) (s t : LinStep n m) : Prop where
  A : ∀ i j, |s.A i j| ≤ a
  A' : ∀ i j, |t.A i j| ≤ a
  H : ∀ i j, |s.H i j| ≤ a
  H' : ∀ i j, |t.H i j| ≤ a
  dA : ∀ i j, |(s.A - t.A) i j| ≤ δ
  dH : ∀ i j, |(s.H - t.H) i j| ≤ δ

theorem mul_close {k l q : ℕ} {M M' : Matrix (Fin k) (Fin l) ℝ} {W W' : Matrix (Fin l) (Fin q) ℝ} {α β μ ν : ℝ} (hα : 0 ≤ α)
    (hμ : 0 ≤ μ) (h1 : ∀ i j, |M i j| ≤ α) (h2 : ∀ i j, |W' i j| ≤ β) (h3 : ∀ i j, |(M - M') i j| ≤ μ) (h4 : ∀ i j, |(W - W') i j| ≤ ν)
    (i : Fin k) (j : Fin q) : |(M * W - M' * W') i j| ≤ l * (α * ν) + l * (μ * β) := by
  have e : M * W - M' * W' = M * (W - W') + (M - M') * W' := by rw [Matrix.mul_sub, Matrix.sub_mul]; abel
  rw [e, Matrix.add_apply]
  exact (abs_add_le _ _).trans (add_le_add (mul_entry_abs hα h1 h4 i j) (mul_entry_abs hμ h3 h2 i j))

theorem gram_close (n m N : ℕ) {a : ℝ} (ha : 0 ≤ a) : ∃ B L : ℝ, 0 ≤ B ∧ 0 ≤ L ∧ ∀ (ss ts : List (LinStep n m)) (δ : ℝ), 0 ≤ δ →
    ss.length = N → List.Forall₂ (StepClose a δ) ss ts →
      (∀ i j, |gram ss i j| ≤ B) ∧ (∀ i j, |gram ts i j| ≤ B) ∧ (∀ i j, |obsGram ss i j - obsGram ts i j| ≤ L * δ) ∧
        ∀ i j, |(gram ss - gram ts) i j| ≤ L * δ := by
  induction N with
  | zero =>
    refine ⟨0, 0, le_rfl, le_rfl, fun ss ts δ _ hl h => ?_⟩
    obtain rfl := List.eq_nil_of_length_eq_zero hl
    obtain rfl := List.forall₂_nil_left_iff.1 h
    simp [gram]
  | succ N ih =>
    obtain ⟨B, L, hB, hL, key⟩ := ih
    obtain ⟨c, hc⟩ : ∃ c : ℝ, c = m * (a * a) + B := ⟨_, rfl⟩
    obtain ⟨M, hM⟩ : ∃ M : ℝ, M = m * (a * 1) + m * (1 * a) + L := ⟨_, rfl⟩
    have hc0 : 0 ≤ c := by rw [hc]; positivity
    have hM0 : 0 ≤ M := by rw [hM]; positivity
    obtain ⟨c', hc'⟩ : ∃ c' : ℝ, c' = n * (a * c) := ⟨_, rfl⟩
    have hc0' : 0 ≤ c' := by rw [hc']; positivity
    refine ⟨n * (c' * a), M + (n * (c' * 1) + n * ((n * (a * M) + n * (1 * c)) * a)), by positivity, by positivity,
      fun ss ts δ hδ hl h => ?_⟩
    rcases h with _ | @⟨s, t, ss, ts, hst, hrest⟩
    · simp at hl
    obtain ⟨g1, g2, -, g3⟩ := key ss ts δ hδ (by simpa using hl) hrest
    have b1 : ∀ i j, |(s.Hᵀ * s.H + gram ss) i j| ≤ c := fun i j => by
      rw [hc, Matrix.add_apply]
      exact (abs_add_le _ _).trans (add_le_add (mul_entry_abs ha (fun i j => hst.H j i) hst.H i j) (g1 i j))
    have b2 : ∀ i j, |(t.Hᵀ * t.H + gram ts) i j| ≤ c := fun i j => by
      rw [hc, Matrix.add_apply]
      exact (abs_add_le _ _).trans (add_le_add (mul_entry_abs ha (fun i j => hst.H' j i) hst.H' i j) (g2 i j))
    have b3 : ∀ i j, |((s.Hᵀ * s.H + gram ss) - (t.Hᵀ * t.H + gram ts)) i j| ≤ M * δ := fun i j => by
      have e : (s.Hᵀ * s.H + gram ss) - (t.Hᵀ * t.H + gram ts) = (s.Hᵀ * s.H - t.Hᵀ * t.H) + (gram ss - gram ts) := by abel
      rw [e, Matrix.add_apply]
      have h1 := mul_close (M := s.Hᵀ) (M' := t.Hᵀ) (W := s.H) (W' := t.H) ha hδ (fun i j => hst.H j i) hst.H'
        (fun i j => hst.dH j i) hst.dH i j
      have h2 := g3 i j
      have h3 := abs_add_le ((s.Hᵀ * s.H - t.Hᵀ * t.H) i j) ((gram ss - gram ts) i j)
      have h4 : M * δ = m * (a * δ) + m * (δ * a) + L * δ := by rw [hM]; ring
      linarith
    have d1 : ∀ i j, |(s.Aᵀ * (s.Hᵀ * s.H + gram ss)) i j| ≤ c' := by
      rw [hc']; exact mul_entry_abs ha (fun i j => hst.A j i) b1
    have d2 : ∀ i j, |(t.Aᵀ * (t.Hᵀ * t.H + gram ts)) i j| ≤ c' := by
      rw [hc']; exact mul_entry_abs ha (fun i j => hst.A' j i) b2
    have d3 := mul_close (M := s.Aᵀ) (M' := t.Aᵀ) (W := s.Hᵀ * s.H + gram ss) (W' := t.Hᵀ * t.H + gram ts) ha hδ (fun i j => hst.A j i)
      b2 (fun i j => hst.dA j i) b3
    have d4 := mul_close (M := s.Aᵀ * (s.Hᵀ * s.H + gram ss)) (M' := t.Aᵀ * (t.Hᵀ * t.H + gram ts)) (W := s.A) (W' := t.A) hc0'
      (by positivity) d1 hst.A' d3 hst.dA
    refine ⟨mul_entry_abs hc0' d1 hst.A, mul_entry_abs hc0' d2 hst.A', fun i j => ?_, fun i j => ?_⟩
    · rw [obsGram_cons, obsGram_cons]
      refine (b3 i j).trans (mul_le_mul_of_nonneg_right ?_ hδ)
      have : 0 ≤ n * (c' * 1) + n * ((n * (a * M) + n * (1 * c)) * a) := by positivity
      linarith
    · refine (d4 i j).trans ?_
      have : 0 ≤ M * δ := by positivity
      have e : (M + (n * (c' * 1) + n * ((n * (a * M) + n * (1 * c)) * a))) * δ =
        M * δ + (n * (c' * δ) + n * ((n * (a * (M * δ)) + n * (δ * c)) * a)) := by ring
      rw [e]; linarith

theorem lower_close {k : ℕ} {O O' : Matrix (Fin k) (Fin k) ℝ} {γ e : ℝ} (hγ : 0 < γ) (he : 0 ≤ e)
    (hO : (O - γ • (1 : Matrix (Fin k) (Fin k) ℝ)).PosSemidef) (hs : O'ᵀ = O') (h : ∀ i j, |(O - O') i j| ≤ e)
    (hk : k * (e * k) ^ 2 ≤ (γ / 2) ^ 2) : (O' - (γ / 2) • (1 : Matrix (Fin k) (Fin k) ℝ)).PosSemidef := by
  refine lower_of_quad hs fun y => ?_
  have h1 := lower_quad hO y
  have h2 := mulVec_dot_le he h y
  have h3 := dot_self_nonneg ((γ / 2) • y - (O - O') *ᵥ y)
  simp only [dotProduct_sub, sub_dotProduct, dotProduct_smul, smul_dotProduct, smul_eq_mul] at h3
  have h4 : y ⬝ᵥ ((O - O') *ᵥ y) = y ⬝ᵥ (O *ᵥ y) - y ⬝ᵥ (O' *ᵥ y) := by rw [sub_mulVec, dotProduct_sub]
  have hy := dot_self_nonneg y
  have h5 := mul_le_mul_of_nonneg_right hk hy
  rw [dotProduct_comm ((O - O') *ᵥ y) y] at h3
  rw [h4] at h3
  obtain ⟨Y, hY⟩ : ∃ Y, Y = y ⬝ᵥ y := ⟨_, rfl⟩
  obtain ⟨X, hX⟩ : ∃ X, X = y ⬝ᵥ (O *ᵥ y) := ⟨_, rfl⟩
  obtain ⟨X', hX'⟩ : ∃ X', X' = y ⬝ᵥ (O' *ᵥ y) := ⟨_, rfl⟩
  rw [← hY] at h1 h2 h3 h5 ⊢
  rw [← hX, ← hX'] at h3
  rw [← hX] at h1
  rw [← hX']
  have h6 : γ * (X - X') ≤ γ * (γ / 2 * Y) := by nlinarith
  have h7 := le_of_mul_le_mul_left h6 hγ
  linarith

theorem obsGram_symm (ss : List (LinStep n m)) : (obsGram ss)ᵀ = obsGram ss := by
  have hg : ∀ ss : List (LinStep n m), (gram ss)ᵀ = gram ss := by
    intro ss
    induction ss with
    | nil => simp [gram]
    | cons s ss ih => rw [gram]; simp [transpose_mul, ih, Matrix.mul_assoc]
  rcases ss with _ | ⟨s, ss⟩
  · simp [obsGram]
  · rw [obsGram_cons]; simp [hg]

theorem linRun_get (b : Belief n) (ss : List (ExtStep n m)) (k : ℕ) (l : LinStep n m) (h : (linRun b ss)[k]? = some l) :
    ∃ s b', ss[k]? = some s ∧ (b :: extFiltered b ss)[k]? = some b' ∧ l = s.lin b' := by
  induction ss generalizing b k with
  | nil => simp [linRun] at h
  | cons s ss ih =>
    rcases k with _ | k
    · simp only [linRun, List.getElem?_cons_zero, Option.some.injEq] at h
      exact ⟨s, b, rfl, rfl, h.symm⟩
    · simp only [linRun, List.getElem?_cons_succ] at h
      obtain ⟨s', b', h1, h2, h3⟩ := ih (s.next b) k h
      exact ⟨s', b', by simpa using h1, by simpa [extFiltered] using h2, h3⟩

/-- Near an observable trajectory the covariances of the extended filter are bounded. -/
theorem ext_cov_upper (n m N : ℕ) {q r a κ d l p γ : ℝ} (hN : 0 < N) (hq : 0 < q) (hr : 0 < r) (ha : 0 ≤ a) (hp : 0 ≤ p) (hd : 0 < d)
    (hl : 0 ≤ l) (hγ : 0 < γ) :
    ∃ p' d' : ℝ, p ≤ p' ∧ 0 < d' ∧ d' ≤ d ∧
      ∀ (ss : List (ExtStep n m)) (b : Belief n) (x : ℕ → Fin n → ℝ), Between 0 p b.P →
        (∀ s ∈ ss, Between q a s.Q ∧ Between r a s.R) →
        (∀ (k : ℕ) (s : ExtStep n m), ss[k]? = some s → NearLinear a κ d s (x k) (x (k + 1)) ∧ NearSmooth l d s (x k) (x (k + 1))) →
        (∀ w, w <:+: alongTruth ss x → w.length = N → (obsGram w - γ • (1 : Matrix (Fin n) (Fin n) ℝ)).PosSemidef) →
        ∀ j : ℕ, (∀ i, i ≤ j → NearAt d' b ss x i) → ∀ (s : ExtStep n m) (b' : Belief n), ss[j]? = some s →
          (b :: extFiltered b ss)[j]? = some b' → (p' • (1 : Matrix (Fin n) (Fin n) ℝ) - (s.next b').P).PosSemidef := by
  obtain ⟨p₁, hp₁, grow⟩ := cov_growth (n := n) (m := m) ha hr N p hp
  obtain ⟨p₂, hp₂, upper⟩ := window_upper n m (N - 1) ha hr (half_pos hγ)
  obtain ⟨B, L, hB, hL, gc⟩ := gram_close n m N ha
  obtain ⟨e, he⟩ : ∃ e : ℝ, e = γ / 2 / (n + 1) ^ 2 := ⟨_, rfl⟩
  have he0 : 0 < e := by rw [he]; positivity
  have hen : n * (e * n) ^ 2 ≤ (γ / 2) ^ 2 := by
    have h1 : e * (n + 1) ^ 2 = γ / 2 := by rw [he]; field_simp
    have hn : (0 : ℝ) ≤ n := Nat.cast_nonneg n
    rw [← h1]
    have h2 : n * (e * n) ^ 2 = e ^ 2 * (n * n ^ 2) := by ring
    have h3 : (e * (n + 1) ^ 2) ^ 2 = e ^ 2 * ((n + 1) * ((n + 1) * (n + 1) ^ 2)) := by ring
    rw [h2, h3]
    refine mul_le_mul_of_nonneg_left ?_ (by positivity)
    have h4 : (n : ℝ) ^ 2 ≤ (n + 1) * (n + 1) ^ 2 := by
      have : (n : ℝ) ^ 2 ≤ (n + 1) ^ 2 := by nlinarith
      have h5 : (n + 1 : ℝ) ^ 2 ≤ (n + 1) * (n + 1) ^ 2 := le_mul_of_one_le_left (by positivity) (by linarith)
      linarith
    exact mul_le_mul (by linarith) h4 (by positivity) (by positivity)
  obtain ⟨d', hd'⟩ : ∃ d', d' = min d (e / ((L + 1) * (l + 1))) := ⟨_, rfl⟩
  have hdd : d' ≤ d := hd' ▸ min_le_left _ _
  have hde : d' ≤ e / ((L + 1) * (l + 1)) := hd' ▸ min_le_right _ _
  have hd0 : 0 < d' := hd' ▸ lt_min hd (by positivity)
  rw [le_div_iff₀ (by positivity)] at hde
  have hLe : L * (l * d') ≤ e := by
    have h1 : 0 ≤ L * d' := by positivity
    have h2 : 0 ≤ l * d' := by positivity
    nlinarith
  refine ⟨max p₁ p₂, d', hp₁.trans (le_max_left _ _), hd0, hdd, fun ss b x hb hQR hnl hobs j hnear s b' hs hb' => ?_⟩
  have hbP : b.P.PosSemidef := by simpa using hb.1
  have hjl := (List.getElem?_eq_some_iff.1 hs).1
  have hnext := extFiltered_succ b ss j s b' hs hb'
  rw [extFiltered_eq] at hnext
  obtain ⟨-, e1⟩ := filtered_lastOf hnext
  rw [e1, lastOf_covRun]
  -- the linearised steps
  have hstep : ∀ (i : ℕ) (t : LinStep n m), i ≤ j → (linRun b ss)[i]? = some t → ∃ s', ss[i]? = some s' ∧ TameStep a r t ∧
      (∀ k k', |s'.jA (x i) k k' - t.A k k'| ≤ l * d') ∧ (∀ k k', |s'.jH (x (i + 1)) k k' - t.H k k'| ≤ l * d') := by
    intro i t hi ht
    obtain ⟨s', b'', h1, h2, rfl⟩ := linRun_get b ss i t ht
    obtain ⟨-, n1, n2⟩ := hnear i hi s' b'' h1 h2
    obtain ⟨hA, hS⟩ := hnl i s' h1
    obtain ⟨hQ, hR⟩ := hQR s' (List.mem_of_getElem? h1)
    refine ⟨s', h1, ⟨hA.jA _ (n1.trans hdd), hA.jH _ (n2.trans hdd), (posDef_of_lower hq hQ.1).posSemidef, hQ.2, hR.1, hR.2⟩,
      fun k k' => ?_, fun k k' => ?_⟩
    · exact (hS.jA _ (n1.trans hdd) k k').trans (mul_le_mul_of_nonneg_left n1 hl)
    · exact (hS.jH _ (n2.trans hdd) k k').trans (mul_le_mul_of_nonneg_left n2 hl)
  have htame : ∀ t ∈ (linRun b ss).take (j + 1), TameStep a r t := fun t ht => by
    obtain ⟨i, hi⟩ := List.mem_iff_getElem?.1 ht
    rw [List.getElem?_take] at hi
    split at hi
    · obtain ⟨-, -, h, -⟩ := hstep i t (by omega) hi
      exact h
    · simp at hi
  rcases Nat.lt_or_ge N (j + 1) with hjN | hjN
  · refine upper_mono (le_max_right _ _) ?_
    obtain ⟨o, ho⟩ : ∃ o, o = j + 1 - N := ⟨_, rfl⟩
    have e2 : (linRun b ss).take (j + 1) = (linRun b ss).take o ++ ((linRun b ss).drop o).take N := by
      rw [← List.take_add]; congr 1; omega
    rw [e2, covRun_append]
    have htame' := htame
    rw [e2] at htame'
    have hlen : (((linRun b ss).drop o).take N).length = N := by
      rw [List.length_take, List.length_drop, linRun_length]; omega
    refine upper _ (by omega) (fun t ht => htame' t (by simp [ht])) ?_ _
      (covRun_psd (fun t ht => (htame' t (by simp [ht])).noisy hr) hbP)
    have hcl : List.Forall₂ (StepClose a (l * d')) (((alongTruth ss x).drop o).take N) (((linRun b ss).drop o).take N) := by
      rw [List.forall₂_iff_get]
      have hla : (alongTruth ss x).length = ss.length := by simp [alongTruth]
      refine ⟨by rw [hlen, List.length_take, List.length_drop, hla]; omega, fun i hi hi' => ?_⟩
      rw [hlen] at hi'
      simp only [List.get_eq_getElem, List.getElem_take, List.getElem_drop]
      have hil : o + i < ss.length := by omega
      obtain ⟨s', h1, h2, h3, h4⟩ := hstep (o + i) ((linRun b ss)[o + i]'(by rw [linRun_length]; exact hil)) (by omega) (List.getElem?_eq_getElem _)
      have e3 : (alongTruth ss x)[o + i]'(by rw [hla]; exact hil) =
          { A := s'.jA (x (o + i)), c := 0, H := s'.jH (x (o + i + 1)), Q := s'.Q, R := s'.R, z := 0 } := by
        obtain ⟨hs1, rfl⟩ := List.getElem?_eq_some_iff.1 h1
        simp [alongTruth]
      rw [e3]
      have hA := (hnl (o + i) s' h1).1
      have z1 : ‖x (o + i) - x (o + i)‖ ≤ d := by simpa using hd.le
      have z2 : ‖x (o + i + 1) - x (o + i + 1)‖ ≤ d := by simpa using hd.le
      exact ⟨hA.jA _ z1, h2.A, hA.jH _ z2, h2.H, h3, h4⟩
    have hlen' : (((alongTruth ss x).drop o).take N).length = N := by rw [hcl.length_eq, hlen]
    obtain ⟨-, -, hg, -⟩ := gc _ _ (l * d') (by positivity) hlen' hcl
    refine lower_close hγ he0.le (hobs _ ?_ hlen') (obsGram_symm _) (fun i k => ?_) hen
    · exact (List.take_prefix _ _).isInfix.trans (List.drop_suffix _ _).isInfix
    · rw [Matrix.sub_apply]
      exact (hg i k).trans hLe
  · refine upper_mono (le_max_left _ _) (grow _ ?_ htame _ hbP hb.2)
    rw [List.length_take, linRun_length]; omega

end KK
