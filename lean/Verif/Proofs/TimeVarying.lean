import Verif.Proofs.Window

/-! # Stability of the filter for a time-varying model -/

set_option linter.unusedSectionVars false

namespace KK

open Matrix

variable {n m : ℕ}

/-! ### Uniform models -/

theorem UniformModel.mono {N : ℕ} {a r γ : ℝ} {ss ts : List (LinStep n m)} (h : UniformModel N a r γ ss) (ht : ts <:+: ss) :
    UniformModel N a r γ ts :=
  ⟨fun s hs => h.A s (ht.subset hs), fun s hs => h.H s (ht.subset hs), fun s hs => h.Q s (ht.subset hs), fun s hs => h.R s (ht.subset hs),
    fun w hw => h.observable w (hw.trans ht), fun w hw => h.controllable w (hw.trans ht)⟩

/-- The matrices of a step. -/
def LinStep.model (s : LinStep n m) :
    Matrix (Fin n) (Fin n) ℝ × Matrix (Fin m) (Fin n) ℝ × Matrix (Fin n) (Fin n) ℝ × Matrix (Fin m) (Fin m) ℝ := (s.A, s.H, s.Q, s.R)

theorem gram_congr {ss ts : List (LinStep n m)} (h : ss.map LinStep.model = ts.map LinStep.model) : gram ss = gram ts := by
  induction ss generalizing ts with
  | nil =>
    obtain rfl : ts = [] := by simpa using h.symm
    rfl
  | cons s ss ih =>
    rcases ts with _ | ⟨t, ts⟩
    · simp at h
    rw [List.map_cons, List.map_cons, List.cons.injEq] at h
    obtain ⟨h1, h2⟩ := h
    simp only [LinStep.model, Prod.mk.injEq] at h1
    rw [gram, gram, ih h2, h1.1, h1.2.1]

theorem obsGram_congr {ss ts : List (LinStep n m)} (h : ss.map LinStep.model = ts.map LinStep.model) : obsGram ss = obsGram ts := by
  rcases ss with _ | ⟨s, ss⟩
  · obtain rfl : ts = [] := by simpa using h.symm
    rfl
  · rcases ts with _ | ⟨t, ts⟩
    · simp at h
    rw [List.map_cons, List.map_cons, List.cons.injEq] at h
    obtain ⟨h1, h2⟩ := h
    simp only [LinStep.model, Prod.mk.injEq] at h1
    rw [obsGram_cons, obsGram_cons, gram_congr h2, h1.2.1]

theorem conGram_congr {ss ts : List (LinStep n m)} (h : ss.map LinStep.model = ts.map LinStep.model) : conGram ss = conGram ts := by
  have : ∀ (ss ts : List (LinStep n m)), ss.map LinStep.model = ts.map LinStep.model → ∀ W : Matrix (Fin n) (Fin n) ℝ,
      ss.foldl (fun W s => s.A * W * s.Aᵀ + s.Q) W = ts.foldl (fun W s => s.A * W * s.Aᵀ + s.Q) W := by
    intro ss
    induction ss with
    | nil =>
      intro ts h W
      obtain rfl : ts = [] := by simpa using h.symm
      rfl
    | cons s ss ih =>
      intro ts h W
      rcases ts with _ | ⟨t, ts⟩
      · simp at h
      rw [List.map_cons, List.map_cons, List.cons.injEq] at h
      obtain ⟨h1, h2⟩ := h
      simp only [LinStep.model, Prod.mk.injEq] at h1
      rw [List.foldl_cons, List.foldl_cons, ih _ h2, h1.1, h1.2.2.1]
  exact this ss ts h 0

/-- Being uniform is a property of the matrices only, not of the data. -/
theorem UniformModel.congr {N : ℕ} {a r γ : ℝ} {ss ts : List (LinStep n m)} (h : UniformModel N a r γ ss)
    (e : ss.map LinStep.model = ts.map LinStep.model) : UniformModel N a r γ ts := by
  have hmem : ∀ t ∈ ts, ∃ s ∈ ss, s.A = t.A ∧ s.H = t.H ∧ s.Q = t.Q ∧ s.R = t.R := fun t ht => by
    have : t.model ∈ ss.map LinStep.model := by rw [e]; exact List.mem_map_of_mem ht
    obtain ⟨s, hs, hst⟩ := List.mem_map.1 this
    simp only [LinStep.model, Prod.mk.injEq] at hst
    exact ⟨s, hs, hst.1, hst.2.1, hst.2.2.1, hst.2.2.2⟩
  have hw : ∀ w, w <:+: ts → ∃ w', w' <:+: ss ∧ w'.length = w.length ∧ w'.map LinStep.model = w.map LinStep.model := by
    rintro w ⟨x, y, rfl⟩
    refine ⟨(ss.drop x.length).take w.length, ?_, ?_, ?_⟩
    · exact (List.take_prefix _ _).isInfix.trans (List.drop_suffix _ _).isInfix
    · have := congrArg List.length e
      simp only [List.length_map, List.length_append] at this
      simp only [List.length_take, List.length_drop]
      omega
    · rw [List.map_take, List.map_drop, e]
      simp
  refine ⟨fun t ht => ?_, fun t ht => ?_, fun t ht => ?_, fun t ht => ?_, fun w hwt hl => ?_, fun w hwt hl => ?_⟩
  · obtain ⟨s, hs, e1, -⟩ := hmem t ht; rw [← e1]; exact h.A s hs
  · obtain ⟨s, hs, -, e1, -⟩ := hmem t ht; rw [← e1]; exact h.H s hs
  · obtain ⟨s, hs, -, -, e1, -⟩ := hmem t ht; rw [← e1]; exact h.Q s hs
  · obtain ⟨s, hs, -, -, -, e1⟩ := hmem t ht; rw [← e1]; exact h.R s hs
  · obtain ⟨w', h1, h2, h3⟩ := hw w hwt
    rw [← obsGram_congr h3]; exact h.observable w' h1 (h2.trans hl)
  · obtain ⟨w', h1, h2, h3⟩ := hw w hwt
    rw [← conGram_congr h3]; exact h.controllable w' h1 (h2.trans hl)

/-! ### Covariances -/

/-- The constants of a uniform model. -/
structure Margins (n m N : ℕ) (a r γ lo hi : ℝ) : Prop where
  pN : 0 < N
  pa : 0 ≤ a
  pr : 0 < r
  plo : 0 < lo
  phi : lo ≤ hi
  upper : ∀ w : List (LinStep n m), UniformModel N a r γ w → w.length = N → ∀ P : Matrix (Fin n) (Fin n) ℝ, P.PosSemidef →
    (hi • (1 : Matrix (Fin n) (Fin n) ℝ) - covRun P w).PosSemidef
  lower : ∀ w : List (LinStep n m), UniformModel N a r γ w → w.length = N → ∀ P : Matrix (Fin n) (Fin n) ℝ,
    (noiseIn P w - lo • (1 : Matrix (Fin n) (Fin n) ℝ)).PosSemidef

theorem exists_margins (n m N : ℕ) {a r γ : ℝ} (hN : 0 < N) (ha : 0 ≤ a) (hr : 0 < r) (hγ : 0 < γ) :
    ∃ lo hi, Margins n m N a r γ lo hi := by
  obtain ⟨hi, h1, h2⟩ := window_upper n m (N - 1) ha hr hγ
  obtain ⟨lo, h3, h4⟩ := window_lower n m N ha hr hγ
  have e : N - 1 + 1 = N := by omega
  rw [e] at h2
  refine ⟨lo, max lo hi, hN, ha, hr, h3, le_max_left _ _, fun w hw hl P hP => ?_, fun w hw hl P => ?_⟩
  · exact upper_mono (le_max_right _ _) (h2 w hl hw.tame (hw.observable w (List.infix_refl w) hl) P hP)
  · exact h4 w hl hw.tame (hw.controllable w (List.infix_refl w) hl) P

section

variable {N : ℕ} {a r γ lo hi : ℝ}

theorem UniformModel.noisy (M : Margins n m N a r γ lo hi) {ss : List (LinStep n m)} (h : UniformModel N a r γ ss) : ∀ s ∈ ss, Noisy s :=
  fun s hs => (h.tame s hs).noisy M.pr

/-- From the `N`-th step on the covariance is between fixed bounds. -/
theorem Margins.between (M : Margins n m N a r γ lo hi) {ss : List (LinStep n m)} (h : UniformModel N a r γ ss) (hl : N ≤ ss.length)
    {P : Matrix (Fin n) (Fin n) ℝ} (hP : P.PosSemidef) : Between lo hi (covRun P ss) := by
  obtain ⟨x, w, rfl, hw⟩ : ∃ x w, ss = x ++ w ∧ w.length = N :=
    ⟨ss.take (ss.length - N), ss.drop (ss.length - N), (List.take_append_drop _ _).symm, by simp; omega⟩
  have hW : UniformModel N a r γ w := h.mono (List.suffix_append x w).isInfix
  have hx : ∀ s ∈ x, Noisy s := fun s hs => h.noisy M s (by simp [hs])
  have hX := covRun_psd hx hP
  rw [covRun_append]
  refine ⟨?_, M.upper w hW hw _ hX⟩
  rw [covRun_eq (hW.noisy M) hX, add_sub_assoc]
  exact (posSemidef_conj hX _).add (M.lower w hW hw _)

theorem Margins.pd (M : Margins n m N a r γ lo hi) {ss : List (LinStep n m)} (h : UniformModel N a r γ ss) (hl : N ≤ ss.length)
    {P : Matrix (Fin n) (Fin n) ℝ} (hP : P.PosSemidef) : (covRun P ss).PosDef := posDef_of_lower M.plo (M.between h hl hP).1

theorem Margins.hi_pos (M : Margins n m N a r γ lo hi) : 0 < hi := M.plo.trans_le M.phi

/-- The contraction over one window. -/
noncomputable def cRate (lo hi : ℝ) : ℝ := lo / (hi + lo)

theorem Margins.rate (M : Margins n m N a r γ lo hi) : 0 < cRate lo hi ∧ cRate lo hi < 1 ∧ cRate lo hi * hi ≤ lo := by
  have h1 := M.plo
  have h2 := M.hi_pos
  refine ⟨by unfold cRate; positivity, ?_, ?_⟩
  · rw [cRate, div_lt_one (by positivity)]; linarith
  · rw [cRate, div_mul_eq_mul_div, div_le_iff₀ (by positivity)]; nlinarith

/-- Errors, measured by the covariance, do not grow over steps, and contract over windows. -/
theorem Margins.mahal_step (M : Margins n m N a r γ lo hi) {x l : List (LinStep n m)} (h : UniformModel N a r γ (x ++ l))
    (hx : N ≤ x.length) {P : Matrix (Fin n) (Fin n) ℝ} (hP : P.PosSemidef) (d : Fin n → ℝ) :
    mahal (covRun P (x ++ l)) (clo (covRun P x) l *ᵥ d) ≤ mahal (covRun P x) d ∧
    (l.length = N → mahal (covRun P (x ++ l)) (clo (covRun P x) l *ᵥ d) ≤ (1 - cRate lo hi) * mahal (covRun P x) d) := by
  have hxu : UniformModel N a r γ x := h.mono (List.prefix_append x l).isInfix
  have hlu : UniformModel N a r γ l := h.mono (List.suffix_append x l).isInfix
  have hX := M.pd hxu hx hP
  have hX' := M.pd h (by rw [List.length_append]; omega) hP
  have hb := M.between h (by rw [List.length_append]; omega) hP
  rw [covRun_append] at hX' hb ⊢
  have e := covRun_eq (hlu.noisy M) hX.posSemidef
  constructor
  · have := mahal_contract hX hX' (δ := 0) zero_lt_one e (by rw [zero_smul, sub_zero]; exact noiseIn_psd (hlu.noisy M) _) d
    rwa [sub_zero, one_mul] at this
  · intro hl
    obtain ⟨h1, h2, h3⟩ := M.rate
    refine mahal_contract hX hX' h2 e ?_ d
    refine psd_trans (Y := (cRate lo hi * hi) • (1 : Matrix (Fin n) (Fin n) ℝ)) ?_ (lower_mono h3 (M.lower l hlu hl _))
    have := psd_smul hb.2 h1.le
    rwa [smul_sub, smul_smul] at this

theorem Margins.mahal_decay (M : Margins n m N a r γ lo hi) {x l : List (LinStep n m)} (h : UniformModel N a r γ (x ++ l))
    (hx : N ≤ x.length) {P : Matrix (Fin n) (Fin n) ℝ} (hP : P.PosSemidef) (d : Fin n → ℝ) :
    mahal (covRun P (x ++ l)) (clo (covRun P x) l *ᵥ d) ≤ (1 - cRate lo hi) ^ (l.length / N) * mahal (covRun P x) d := by
  obtain ⟨k, hk⟩ : ∃ k, k = l.length / N := ⟨_, rfl⟩
  induction k generalizing x l d with
  | zero =>
    rw [← hk, pow_zero, one_mul]
    exact (M.mahal_step h hx hP d).1
  | succ k ih =>
    have hN := M.pN
    have hle : N ≤ l.length := by
      by_contra hc
      rw [Nat.div_eq_of_lt (by omega)] at hk
      omega
    obtain ⟨w, l', rfl, hw⟩ : ∃ w l', l = w ++ l' ∧ w.length = N :=
      ⟨l.take N, l.drop N, (List.take_append_drop _ _).symm, by simp; omega⟩
    have hl' : (w ++ l').length / N = l'.length / N + 1 := by
      rw [List.length_append, hw, Nat.add_div_left _ hN]
    rw [← List.append_assoc] at h ⊢
    have h1 := ih h (by simp; omega) (clo (covRun P x) w *ᵥ d) (by omega)
    have h2 := (M.mahal_step (h.mono (List.prefix_append _ _).isInfix) hx hP d).2 hw
    rw [clo_append, ← mulVec_mulVec, hl', pow_succ, mul_assoc, ← covRun_append]
    have h3 : 0 ≤ 1 - cRate lo hi := by linarith [M.rate.2.1]
    exact h1.trans (mul_le_mul_of_nonneg_left h2 (by positivity))

/-- From the `N`-th step on errors decay geometrically. -/
theorem Margins.decay (M : Margins n m N a r γ lo hi) : ∃ C ρ : ℝ, 1 ≤ C ∧ 0 < ρ ∧ ρ < 1 ∧
    ∀ (x l : List (LinStep n m)), UniformModel N a r γ (x ++ l) → N ≤ x.length → ∀ P : Matrix (Fin n) (Fin n) ℝ, P.PosSemidef →
      ∀ d : Fin n → ℝ, ‖clo (covRun P x) l *ᵥ d‖ ≤ C * ρ ^ l.length * ‖d‖ := by
  obtain ⟨hδ0, hδ1, -⟩ := M.rate
  obtain ⟨δ, hδ⟩ : ∃ δ, δ = cRate lo hi := ⟨_, rfl⟩
  rw [← hδ] at hδ0 hδ1
  have hq0 : 0 < 1 - δ := by linarith
  obtain ⟨ρ, h0, h1, -, h2⟩ := geometric_blocks (n := N) hq0 (by linarith) M.pN
  have hs : Real.sqrt ρ ^ 2 = ρ := Real.sq_sqrt h0.le
  have hlo := M.plo
  have hhi := M.hi_pos
  refine ⟨max 1 (Real.sqrt (hi * ((1 - δ)⁻¹ * (lo⁻¹ * n)))), Real.sqrt ρ, le_max_left _ _, Real.sqrt_pos.2 h0, ?_,
    fun x l h hx P hP d => ?_⟩
  · rw [Real.sqrt_lt' one_pos]; simpa using h1
  have key : ‖clo (covRun P x) l *ᵥ d‖ ≤ Real.sqrt (hi * ((1 - δ)⁻¹ * (lo⁻¹ * n))) * Real.sqrt ρ ^ l.length * ‖d‖ := by
    refine le_of_sq_le_sq ?_ (by positivity)
    rw [mul_pow, mul_pow, Real.sq_sqrt (by positivity), ← pow_mul, mul_comm l.length 2, pow_mul, hs]
    refine (norm_sq_le_dot _).trans ?_
    have hd := M.mahal_decay h hx hP d
    rw [← hδ] at hd
    have hxu : UniformModel N a r γ x := h.mono (List.prefix_append x l).isInfix
    have hX := M.pd hxu hx hP
    have hm : 0 ≤ mahal (covRun P x) d := mahal_nonneg hX _
    have hle : N ≤ (x ++ l).length := by rw [List.length_append]; omega
    calc _ ≤ hi * mahal (covRun P (x ++ l)) (clo (covRun P x) l *ᵥ d) :=
          le_mahal_of_upper (M.pd h hle hP) hhi (M.between h hle hP).2 _
      _ ≤ hi * ((1 - δ) ^ (l.length / N) * mahal (covRun P x) d) := mul_le_mul_of_nonneg_left hd hhi.le
      _ ≤ hi * (((1 - δ)⁻¹ * ρ ^ l.length) * (lo⁻¹ * (n * ‖d‖ ^ 2))) := by
          refine mul_le_mul_of_nonneg_left (mul_le_mul (h2 _) ?_ hm (by positivity)) hhi.le
          exact (mahal_le_of_lower hX (inv_pos.2 hlo) (by rw [inv_inv]; exact (M.between hxu hx hP).1) d).trans
            (mul_le_mul_of_nonneg_left (dot_le_norm_sq d) (by positivity))
      _ = _ := by ring
  refine key.trans (mul_le_mul_of_nonneg_right (mul_le_mul_of_nonneg_right (le_max_right _ _) (by positivity)) (norm_nonneg _))

end

end KK
