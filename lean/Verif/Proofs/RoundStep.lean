import Verif.Proofs.Compact
import Verif.Props.Approx

/-!
# One step of the loop under an accurate arithmetic, uniformly over bounded data
-/

set_option linter.unusedSectionVars false

namespace KK

open Matrix Filter Topology

theorem ArrT.shape {ι : Type} {F : Filter ι} {f : ι → Arr Fl} {a : Arr Fl} (h : ArrT F f a) : ∀ᶠ i in F, (f i).shape = a.shape := by
  cases a with
  | scalar d x => obtain ⟨g, -, hg⟩ := h; exact hg.mono fun i hi => by rw [hi]; rfl
  | vec d x => obtain ⟨g, -, hg⟩ := h; exact hg.mono fun i hi => by rw [hi]; rfl
  | mat d x => obtain ⟨g, -, hg⟩ := h; exact hg.mono fun i hi => by rw [hi]; rfl

theorem hyper_tendsto {f : ℕ → ℝ} {a : ℝ} (h : Tendsto f atTop (𝓝 a)) : Tendsto f (hyperfilter ℕ) (𝓝 a) :=
  h.mono_left Nat.hyperfilter_le_atTop

theorem exact_consistent (nanInt : ℝ) : Consistent (hyperfilter ℕ : Filter ℕ) nanInt fun _ => exactB nanInt :=
  Accurate.consistent seq_pos (hyper_tendsto seq_tendsto) fun i => exactB_accurate nanInt (seq_pos i)

theorem CtrlIs.lim {nanInt : ℝ} {n : ℕ} {c : ℕ → Fin n → ℝ} {f g : ℕ → Arr Fl} {a b : Arr Fl}
    (h : ∀ᶠ i in (hyperfilter ℕ : Filter ℕ), @CtrlIs (strict nanInt) n (c i) (f i) (g i))
    (ha : ArrT (hyperfilter ℕ : Filter ℕ) f a) (hb : ArrT (hyperfilter ℕ : Filter ℕ) g b) :
    ∃ w, @CtrlIs (strict nanInt) n w a b ∧ Tendsto c (hyperfilter ℕ) (𝓝 w) := by
  letI : Platform := strict nanInt
  rcases Ultrafilter.eventually_or.1 h with h | h
  · refine ⟨0, .inl ⟨?_, rfl⟩, tendsto_const_nhds.congr' (h.mono fun i hi => hi.2.symm)⟩
    have hB := exact_consistent nanInt
    obtain ⟨i, h1, h2, h3⟩ := (h.and ((isnanAll_T hB ha).and (isnanAll_T hB hb))).exists
    have h1' := h1.1
    rw [← Arr.isnanAll_iff_blank, ← Arr.isnanAll_iff_blank] at h1' ⊢
    have e2 : (f i).isnanAll = a.isnanAll := h2
    have e3 : (g i).isnanAll = b.isnanAll := h3
    rw [← e2, ← e3]; exact h1'
  · obtain ⟨p, hp⟩ : ∃ p, a.shape = [n, p] := by
      obtain ⟨i, ⟨p, B, u, ⟨d, h1⟩, -⟩, h2⟩ := (h.and ha.shape).exists
      exact ⟨p, by rw [← h2, h1]; rfl⟩
    have hex : ∀ᶠ i in (hyperfilter ℕ : Filter ℕ), ∃ t : Matrix (Fin n) (Fin p) ℝ × (Fin p → ℝ),
        MatIs t.1 (f i) ∧ VecIs t.2 (g i) ∧ c i = t.1 *ᵥ t.2 := by
      filter_upwards [h, ha.shape] with i ⟨q, B, u, ⟨d, h1⟩, h2, h3⟩ h4
      obtain rfl : q = p := by
        rw [h1, hp] at h4
        simpa [Arr.shape] using h4
      exact ⟨(B, u), ⟨d, h1⟩, h2, h3⟩
    obtain ⟨t, ht⟩ : ∃ t : ℕ → Matrix (Fin n) (Fin p) ℝ × (Fin p → ℝ), ∀ᶠ i in (hyperfilter ℕ : Filter ℕ),
        MatIs (t i).1 (f i) ∧ VecIs (t i).2 (g i) ∧ c i = (t i).1 *ᵥ (t i).2 :=
      ⟨fun i => Classical.epsilon fun t : Matrix (Fin n) (Fin p) ℝ × (Fin p → ℝ) =>
        MatIs t.1 (f i) ∧ VecIs t.2 (g i) ∧ c i = t.1 *ᵥ t.2, hex.mono fun i hi => Classical.epsilon_spec hi⟩
    obtain ⟨B, h1, h2⟩ := MatIs.lim (M := fun i => (t i).1) (ht.mono fun i hi => hi.1) ha
    obtain ⟨u, h3, h4⟩ := VecIs.lim (v := fun i => (t i).2) (ht.mono fun i hi => hi.2.1) hb
    refine ⟨B *ᵥ u, .inr ⟨p, B, u, h1, h3, rfl⟩, ?_⟩
    have hc : Continuous fun t : Matrix (Fin n) (Fin p) ℝ × (Fin p → ℝ) => t.1 *ᵥ t.2 :=
      continuous_fst.matrix_mulVec continuous_snd
    exact ((hc.tendsto (B, u)).comp (h2.prodMk_nhds h4)).congr' (ht.mono fun i hi => hi.2.2.symm)

section
variable {ι : Type} {l : Filter ι} {nanInt : ℝ} {B : ι → Backend Fl} (hB : Consistent l nanInt B)
include hB

/-- The loop body. -/
theorem step_T (s : ℕ) {I x P : ι → Arr Fl} {I' x' P' : Arr Fl} {r : ι → KalmanFilter.Row Fl} {r' : KalmanFilter.Row Fl}
    (hI : ArrT l I I') (hr : RowT l r r') (hx : ArrT l x x') (hP : ArrT l P P') {K y X v V : Arr Fl}
    (h : @KalmanFilter.step Fl (exactB nanInt) s I' r' x' P' = (some K, .ok ((y, X), (v, V)))) :
    ∃ K₁ y₁ X₁ v₁ V₁ : ι → Arr Fl, ArrT l K₁ K ∧ ArrT l y₁ y ∧ ArrT l X₁ X ∧ ArrT l v₁ v ∧ ArrT l V₁ V ∧
      ∀ᶠ i in l, @KalmanFilter.step Fl (B i) s (I i) (r i) (x i) (P i) = (some (K₁ i), .ok ((y₁ i, X₁ i), (v₁ i, V₁ i))) ∧
        (y₁ i).assignVec s = .ok (v₁ i) ∧ (X₁ i).assignMat s = .ok (V₁ i) := by
  obtain ⟨Ak, Hk, Bk, uk, zk, Qk, Rk⟩ := r'
  obtain ⟨hA, hH, hBk, hu, hz, hQ, hR⟩ := hr
  simp only [KalmanFilter.step] at h
  split at h
  · simp at h
  rename_i xp Pp e1
  obtain ⟨p, hp, hp'⟩ := predict_T hB hA hx hBk hu hP hQ _ e1
  split at h
  · simp at h
  rename_i K' e2
  obtain ⟨k, hk, hk'⟩ := gain_T hB hH hp.2 hR _ e2
  simp only [Prod.mk.injEq, Option.some.injEq] at h
  obtain ⟨rfl, h⟩ := h
  rcases e3 : @KalmanFilter.correct Fl (exactB nanInt) I' K' Hk xp Pp zk with _ | q
  · rw [e3] at h; simp at h
  rw [e3] at h
  simp only [Except.bind_ok'] at h
  obtain ⟨q₁, hq, hq'⟩ := correct_T hB hI hk hH hp.1 hp.2 hz _ e3
  rcases e4 : q.1.assignVec s with _ | w
  · rw [e4] at h; simp at h
  rw [e4] at h
  simp only [Except.bind_ok'] at h
  rcases e5 : q.2.assignMat s with _ | W
  · rw [e5] at h; simp at h
  rw [e5] at h
  simp only [Except.bind_ok', Except.ok.injEq, Prod.mk.injEq] at h
  obtain ⟨rfl, rfl, rfl⟩ := h
  obtain ⟨w₁, hw, hw'⟩ := assignVec_T s hq.1 _ e4
  obtain ⟨W₁, hW, hW'⟩ := assignMat_T s hq.2 _ e5
  refine ⟨k, fun i => (q₁ i).1, fun i => (q₁ i).2, w₁, W₁, hk, hq.1, hq.2, hw, hW, ?_⟩
  filter_upwards [hp', hk', hq', hw', hW'] with i g1 g2 g3 g4 g5
  rcases hri : r i with ⟨a1, a2, a3, a4, a5, a6, a7⟩
  simp only [hri] at g1 g2 g3
  refine ⟨?_, g4, g5⟩
  simp only [KalmanFilter.step, g1, g2, g3, Except.bind_ok', g4, g5]

end

/-! ### arrays near arrays that hold something -/

section
variable {ι : Type} {l : Filter ι}

theorem ArrT.transfer {f g : ι → Arr Fl} {a : Arr Fl} {η : ι → ℝ} (hη : Tendsto η l (𝓝 0)) (h : ArrT l f a)
    (hc : ∀ᶠ i in l, (f i).Close (η i) (g i)) : ArrT l g a := by
  have key : ∀ {u v : ι → Fl} {x : Fl}, FlT l u x → (∀ᶠ i in l, (u i).Close (η i) (v i)) → FlT l v x := by
    intro u v x hu huv
    refine ⟨by filter_upwards [hu.1, huv] with i h1 h2; rw [← h1, h2.1], ?_⟩
    have h0 : Tendsto (fun i => (u i).toReal - (v i).toReal) l (𝓝 0) :=
      squeeze_zero_norm' (huv.mono fun i hi => by rw [Real.norm_eq_abs]; exact hi.2) hη
    simpa using hu.2.sub h0
  cases a with
  | scalar d x =>
    obtain ⟨u, hu, he⟩ := h
    have : ∀ᶠ i in l, ∃ y, g i = .scalar d y ∧ (u i).Close (η i) y := by
      filter_upwards [he, hc] with i h1 h2; rw [h1] at h2; exact h2
    refine ⟨fun i => @Classical.epsilon Fl ⟨.nan⟩ fun y => g i = .scalar d y ∧ (u i).Close (η i) y, ?_,
      this.mono fun i hi => (Classical.epsilon_spec hi).1⟩
    exact key hu (this.mono fun i hi => (Classical.epsilon_spec hi).2)
  | @vec d n x =>
    obtain ⟨u, hu, he⟩ := h
    have : ∀ᶠ i in l, ∃ y : Fin n → Fl, g i = .vec d y ∧ ∀ k, (u i k).Close (η i) (y k) := by
      filter_upwards [he, hc] with i h1 h2; rw [h1] at h2; exact h2
    refine ⟨fun i => @Classical.epsilon (Fin n → Fl) ⟨fun _ => .nan⟩ fun y => g i = .vec d y ∧ ∀ k, (u i k).Close (η i) (y k), fun k => ?_,
      this.mono fun i hi => (Classical.epsilon_spec hi).1⟩
    exact key (hu k) (this.mono fun i hi => (Classical.epsilon_spec hi).2 k)
  | @mat d m n x =>
    obtain ⟨u, hu, he⟩ := h
    have : ∀ᶠ i in l, ∃ y : Matrix (Fin m) (Fin n) Fl, g i = .mat d y ∧ ∀ k j, (u i k j).Close (η i) (y k j) := by
      filter_upwards [he, hc] with i h1 h2; rw [h1] at h2; exact h2
    refine ⟨fun i => @Classical.epsilon (Matrix (Fin m) (Fin n) Fl) ⟨fun _ _ => .nan⟩ fun y =>
      g i = .mat d y ∧ ∀ k j, (u i k j).Close (η i) (y k j), fun k j => ?_,
      this.mono fun i hi => (Classical.epsilon_spec hi).1⟩
    exact key (hu k j) (this.mono fun i hi => (Classical.epsilon_spec hi).2 k j)

theorem ArrT.vecIs {n : ℕ} {f : ι → Arr Fl} {a : Arr Fl} {w : Fin n → ℝ} (h : ArrT l f a) (hw : VecIs w a) :
    ∃ v : ι → Fin n → ℝ, (∀ᶠ i in l, VecIs (v i) (f i)) ∧ Tendsto v l (𝓝 w) := by
  obtain ⟨d, rfl⟩ := hw
  obtain ⟨g, hg, he⟩ := h
  refine ⟨fun i k => (g i k).toReal, ?_, tendsto_pi_nhds.2 fun k => (hg k).2⟩
  filter_upwards [he, eventually_all.2 fun k => (FlT.fin (hg k)).1] with i h1 h2
  exact ⟨d, by rw [h1]; congr 1; funext k; exact h2 k⟩

theorem ArrT.matIs {m n : ℕ} {f : ι → Arr Fl} {a : Arr Fl} {w : Matrix (Fin m) (Fin n) ℝ} (h : ArrT l f a) (hw : MatIs w a) :
    ∃ v : ι → Matrix (Fin m) (Fin n) ℝ, (∀ᶠ i in l, MatIs (v i) (f i)) ∧ Tendsto v l (𝓝 w) := by
  obtain ⟨d, rfl⟩ := hw
  obtain ⟨g, hg, he⟩ := h
  refine ⟨fun i k j => (g i k j).toReal, ?_, tendsto_pi_nhds.2 fun k => tendsto_pi_nhds.2 fun j => (hg k j).2⟩
  filter_upwards [he, eventually_all.2 fun k => eventually_all.2 fun j => (FlT.fin (hg k j)).1] with i h1 h2
  exact ⟨d, by rw [h1]; congr 1; funext k j; exact h2 k j⟩

end

theorem ArrT.matEq {m n : ℕ} {f : ι → Arr Fl} {d : DType} {w : Matrix (Fin m) (Fin n) ℝ} (h : ArrT l f (.mat d (finM w))) :
    ∃ v : ι → Matrix (Fin m) (Fin n) ℝ, (∀ᶠ i in l, f i = .mat d (finM (v i))) ∧ Tendsto v l (𝓝 w) := by
  obtain ⟨g, hg, he⟩ := h
  refine ⟨fun i k j => (g i k j).toReal, ?_, tendsto_pi_nhds.2 fun k => tendsto_pi_nhds.2 fun j => (hg k j).2⟩
  filter_upwards [he, eventually_all.2 fun k => eventually_all.2 fun j => (FlT.fin (hg k j)).1] with i h1 h2
  rw [h1]; congr 1; funext k j; exact h2 k j

theorem finV_inj {n : ℕ} {v w : Fin n → ℝ} (h : finV v = finV w) : v = w := by
  funext k
  have := congrFun h k
  simpa [finV] using this

theorem finM_inj {m n : ℕ} {v w : Matrix (Fin m) (Fin n) ℝ} (h : finM v = finM w) : v = w := by
  funext k j
  have := congrFun (congrFun h k) j
  simpa [finM] using this

theorem VecIs.inj {n : ℕ} {v w : Fin n → ℝ} {d : DType} (h : VecIs v (.vec d (finV w))) : v = w := by
  obtain ⟨e, h⟩ := h
  exact (finV_inj (vec_eq h)).symm

theorem MatIs.inj {m n : ℕ} {v w : Matrix (Fin m) (Fin n) ℝ} {d : DType} (h : MatIs v (.mat d (finM w))) : v = w := by
  obtain ⟨e, h⟩ := h
  exact (finM_inj (mat_eq h)).symm

/-! ### one step -/

/-- All seven arrays of a row are small. -/
def RowSmall (D : ℝ) (r : KalmanFilter.Row Fl) : Prop :=
  r.1.Small D ∧ r.2.1.Small D ∧ r.2.2.1.Small D ∧ r.2.2.2.1.Small D ∧ r.2.2.2.2.1.Small D ∧ r.2.2.2.2.2.1.Small D ∧
    r.2.2.2.2.2.2.Small D

/-- Close arrays in all seven places. -/
def RowClose (η : ℝ) (r r₁ : KalmanFilter.Row Fl) : Prop :=
  r.1.Close η r₁.1 ∧ r.2.1.Close η r₁.2.1 ∧ r.2.2.1.Close η r₁.2.2.1 ∧ r.2.2.2.1.Close η r₁.2.2.2.1 ∧
    r.2.2.2.2.1.Close η r₁.2.2.2.2.1 ∧ r.2.2.2.2.2.1.Close η r₁.2.2.2.2.2.1 ∧ r.2.2.2.2.2.2.Close η r₁.2.2.2.2.2.2

/-- Entries at most `D`. -/
def BeliefWithin {n : ℕ} (D : ℝ) (b : Belief n) : Prop := (∀ i, |b.x i| ≤ D) ∧ ∀ i j, |b.P i j| ≤ D

/-- Entries at distance at most `δ`. -/
def BeliefNear {n : ℕ} (δ : ℝ) (b b' : Belief n) : Prop := (∀ i, |b.x i - b'.x i| ≤ δ) ∧ ∀ i j, |b.P i j - b'.P i j| ≤ δ

section
variable {n m : ℕ}

theorem det_continuous : Continuous fun t : Matrix (Fin n) (Fin n) ℝ × Matrix (Fin m) (Fin n) ℝ × Matrix (Fin n) (Fin n) ℝ ×
    Matrix (Fin m) (Fin m) ℝ × Matrix (Fin n) (Fin n) ℝ =>
    (innovCov t.2.1 (priorCov t.1 t.2.2.2.2 t.2.2.1) t.2.2.2.1).det := by
  unfold innovCov priorCov
  fun_prop

theorem carried_small {D : ℝ} {b : Belief n} {x P : Arr Fl} {colOk : Prop} (h : Carried b x P colOk) (hb : BeliefWithin D b) :
    x.Small (max D (n + 1)) ∧ P.Small (max D (n + 1)) := by
  obtain ⟨⟨d, rfl⟩, hx⟩ := h
  refine ⟨?_, fun i j => (hb.2 i j).trans (le_max_left _ _), fun k hk => ?_⟩
  · rcases hx with ⟨e, rfl⟩ | ⟨hn, ⟨e, rfl⟩, -⟩
    · refine ⟨fun i => (hb.1 i).trans (le_max_left _ _), fun k hk => ?_⟩
      simp only [Arr.shape, List.mem_cons, List.not_mem_nil, or_false] at hk
      subst hk
      exact le_max_of_le_right (by linarith)
    · refine ⟨fun i _ => (hb.1 i).trans (le_max_left _ _), fun k hk => ?_⟩
      simp only [Arr.shape, List.mem_cons, List.not_mem_nil, or_false] at hk
      refine le_max_of_le_right ?_
      rcases hk with rfl | rfl
      · linarith
      · push_cast; linarith [Nat.cast_nonneg (α := ℝ) n]
  · simp only [Arr.shape, List.mem_cons, List.not_mem_nil, or_false, or_self] at hk
    subst hk
    exact le_max_of_le_right (by linarith)

theorem carried_lim {b : ℕ → Belief n} {f g : ℕ → Arr Fl} {x P : Arr Fl} {colOk : ℕ → Prop} {q : Prop}
    (h : ∀ᶠ i in (hyperfilter ℕ : Filter ℕ), Carried (b i) (f i) (g i) (colOk i))
    (hx : ArrT (hyperfilter ℕ : Filter ℕ) f x) (hP : ArrT (hyperfilter ℕ : Filter ℕ) g P)
    (hq : (∀ᶠ i in (hyperfilter ℕ : Filter ℕ), colOk i) → q) :
    ∃ c : Belief n, Carried c x P q ∧ Tendsto (fun i => (b i).x) (hyperfilter ℕ) (𝓝 c.x) ∧
      Tendsto (fun i => (b i).P) (hyperfilter ℕ) (𝓝 c.P) := by
  obtain ⟨N, h1, h2⟩ := MatIs.lim (h.mono fun i hi => hi.1) hP
  rcases Ultrafilter.eventually_or.1 (h.mono fun i hi => hi.2) with h3 | h3
  · obtain ⟨w, h4, h5⟩ := VecIs.lim h3 hx
    exact ⟨⟨w, N⟩, ⟨h1, .inl h4⟩, h5, h2⟩
  · obtain ⟨W, h4, h5⟩ := MatIs.lim (h3.mono fun i hi => hi.2.1) hx
    obtain ⟨i, hi⟩ := h3.exists
    have hW : W = colM fun k => W k 0 := by
      ext k j; rw [colM, Subsingleton.elim j 0]
    refine ⟨⟨fun k => W k 0, N⟩, ⟨h1, .inr ⟨hi.1, by rw [← hW]; exact h4, hq (h3.mono fun i hi => hi.2.2)⟩⟩, ?_, h2⟩
    exact tendsto_pi_nhds.2 fun k => tendsto_pi_nhds.1 (tendsto_pi_nhds.1 h5 k) 0

theorem tendsto_near {v w : ℕ → Fin n → ℝ} {F : Filter ℕ} {a : Fin n → ℝ} (h : Tendsto v F (𝓝 a)) (h' : Tendsto w F (𝓝 a)) {δ : ℝ}
    (hδ : 0 < δ) : ∀ᶠ i in F, ∀ k, |v i k - w i k| ≤ δ := by
  refine eventually_all.2 fun k => ?_
  have := (tendsto_pi_nhds.1 h k).sub (tendsto_pi_nhds.1 h' k)
  rw [sub_self] at this
  filter_upwards [Metric.tendsto_nhds.1 this δ hδ] with i hi
  rw [dist_zero_right, Real.norm_eq_abs] at hi
  exact hi.le

/-- One step of the loop, from a belief that is not too large and whose innovation covariance is not close to singular:
an accurate arithmetic returns a belief near the textbook one. -/
theorem one_step (nanInt D : ℝ) {c δ : ℝ} (hc : 0 < c) (hδ : 0 < δ) : ∃ η > 0, ∀ (B : Backend Fl) (s : LinStep n m) (b : Belief n)
    (r r₁ : KalmanFilter.Row Fl) (x P I₁ : Arr Fl) (colOk : Prop), Accurate nanInt η B → @RowIs (strict nanInt) n m s r →
    RowSmall D r → RowClose η r r₁ → (@Arr.identity Fl (exactB nanInt) n).Close η I₁ → Carried b x P colOk →
    (colOk → m = 1 ∨ r.2.2.2.2.1.shape = []) → BeliefWithin D b → c ≤ |(s.innov (s.predict b)).det| →
    ∃ (K : Matrix (Fin n) (Fin m) ℝ) (b' : Belief n) (x' P' : Arr Fl),
      @KalmanFilter.step Fl B n I₁ r₁ x P = (some (gainRow K), .ok ((x', P'), (stateRow b', covRow b'))) ∧
      Carried b' x' P' colOk ∧ BeliefNear δ b' (s.next b) ∧ ∀ i j, |K i j - s.gain (s.predict b) i j| ≤ δ := by
  letI : Platform := strict nanInt
  by_contra hcon
  have hn := fun k => eta_of_seq hcon k
  push Not at hn
  choose B s b r r₁ x P I₁ colOk hB hrow hsm hcl hI hcar hco hbw hdet hbad using hn
  set l : Filter ℕ := (hyperfilter ℕ : Filter ℕ) with hl
  have hη : Tendsto (fun k : ℕ => (1 : ℝ) / ((k : ℝ) + 1)) l (𝓝 0) := hyper_tendsto seq_tendsto
  -- limits
  have A := fun i => carried_small (hcar i) (hbw i)
  obtain ⟨xL, hx⟩ := ultra_arr (l := hyperfilter ℕ) (.of_forall fun i => (A i).1)
  obtain ⟨PL, hP⟩ := ultra_arr (l := hyperfilter ℕ) (.of_forall fun i => (A i).2)
  obtain ⟨a1, h1⟩ := ultra_arr (l := hyperfilter ℕ) (.of_forall fun i => (hsm i).1)
  obtain ⟨a2, h2⟩ := ultra_arr (l := hyperfilter ℕ) (.of_forall fun i => (hsm i).2.1)
  obtain ⟨a3, h3⟩ := ultra_arr (l := hyperfilter ℕ) (.of_forall fun i => (hsm i).2.2.1)
  obtain ⟨a4, h4⟩ := ultra_arr (l := hyperfilter ℕ) (.of_forall fun i => (hsm i).2.2.2.1)
  obtain ⟨a5, h5⟩ := ultra_arr (l := hyperfilter ℕ) (.of_forall fun i => (hsm i).2.2.2.2.1)
  obtain ⟨a6, h6⟩ := ultra_arr (l := hyperfilter ℕ) (.of_forall fun i => (hsm i).2.2.2.2.2.1)
  obtain ⟨a7, h7⟩ := ultra_arr (l := hyperfilter ℕ) (.of_forall fun i => (hsm i).2.2.2.2.2.2)
  have hr : RowT l r (a1, a2, a3, a4, a5, a6, a7) := ⟨h1, h2, h3, h4, h5, h6, h7⟩
  have hr₁ : RowT l r₁ (a1, a2, a3, a4, a5, a6, a7) :=
    ⟨h1.transfer hη (.of_forall fun i => (hcl i).1), h2.transfer hη (.of_forall fun i => (hcl i).2.1),
      h3.transfer hη (.of_forall fun i => (hcl i).2.2.1), h4.transfer hη (.of_forall fun i => (hcl i).2.2.2.1),
      h5.transfer hη (.of_forall fun i => (hcl i).2.2.2.2.1), h6.transfer hη (.of_forall fun i => (hcl i).2.2.2.2.2.1),
      h7.transfer hη (.of_forall fun i => (hcl i).2.2.2.2.2.2)⟩
  have hI₁ : ArrT l I₁ (@Arr.identity Fl (exactB nanInt) n) := Arr.Close.T seq_pos hη hI
  have hI₀ : ArrT l (fun _ => @Arr.identity Fl (exactB nanInt) n) (@Arr.identity Fl (exactB nanInt) n) :=
    Arr.Close.T seq_pos hη fun i => Arr.close_refl (seq_pos i).le _
  obtain ⟨sA, m1, t1⟩ := MatIs.lim (F := l) (.of_forall fun i => (hrow i).A) h1
  obtain ⟨sH, m2, t2⟩ := MatIs.lim (F := l) (.of_forall fun i => (hrow i).H) h2
  obtain ⟨sc, m3, t3⟩ := CtrlIs.lim (.of_forall fun i => (hrow i).ctrl) h3 h4
  obtain ⟨sz, m5, t5⟩ := ObsIs.lim (l := hyperfilter ℕ) (.of_forall fun i => (hrow i).z) h5
  obtain ⟨sQ, m6, t6⟩ := NoiseIs.lim (l := hyperfilter ℕ) (.of_forall fun i => (hrow i).Q) h6
  obtain ⟨sR, m7, t7⟩ := NoiseIs.lim (l := hyperfilter ℕ) (.of_forall fun i => (hrow i).R) h7
  obtain ⟨bL, hcL, tx, tP⟩ := carried_lim (q := ∀ᶠ i in l, colOk i) (.of_forall hcar) hx hP id
  have hqL : (∀ᶠ i in l, colOk i) → m = 1 ∨ a5.shape = [] := fun hq => by
    obtain ⟨i, g1, g2⟩ := (hq.and h5.shape).exists
    rw [← g2]; exact hco i g1
  have hrL : RowIs (⟨sA, sc, sH, sQ, sR, sz⟩ : LinStep n m) (a1, a2, a3, a4, a5, a6, a7) := ⟨m1, m2, m3, m5, m6, m7⟩
  have hdL : (LinStep.innov (⟨sA, sc, sH, sQ, sR, sz⟩ : LinStep n m) (LinStep.predict ⟨sA, sc, sH, sQ, sR, sz⟩ bL)).det ≠ 0 := by
    have := (det_continuous.tendsto (sA, sH, sQ, sR, bL.P)).comp
      (t1.prodMk_nhds (t2.prodMk_nhds (t6.prodMk_nhds (t7.prodMk_nhds tP))))
    have hge := ge_of_tendsto this.abs (.of_forall hdet)
    intro h0
    have : c ≤ |(0 : ℝ)| := by rw [← h0]; exact hge
    rw [abs_zero] at this; linarith
  obtain ⟨xN, PN, hcN, hst⟩ := (step_exact hrL hcL hqL).2 hdL
  obtain ⟨K₁, y₁, X₁, v₁, V₁, k1, k2, k3, -, -, k4⟩ := step_T (Accurate.consistent seq_pos hη hB) n hI₁ hr₁ hx hP hst
  obtain ⟨K₂, y₂, X₂, v₂, V₂, j1, -, -, j2, j3, j4⟩ := step_T (exact_consistent nanInt) n hI₀ hr hx hP hst
  -- the exact results converge
  have hdi : ∀ i, (LinStep.innov (s i) ((s i).predict (b i))).det ≠ 0 := fun i h0 => by
    have := hdet i
    rw [h0, abs_zero] at this; linarith
  have hex := fun i => (step_exact (hrow i) (hcar i) (hco i)).2 (hdi i)
  have hE : ∀ᶠ i in l, v₂ i = stateRow ((s i).next (b i)) ∧ V₂ i = covRow ((s i).next (b i)) ∧
      K₂ i = gainRow ((s i).gain ((s i).predict (b i))) := by
    filter_upwards [j4] with i hi
    obtain ⟨x', P', -, he⟩ := hex i
    have e := he.symm.trans hi.1
    simp only [Prod.mk.injEq, Option.some.injEq, Except.ok.injEq] at e
    exact ⟨e.2.2.1.symm, e.2.2.2.symm, e.1.symm⟩
  obtain ⟨w1, q1, u1⟩ := VecIs.lim (v := fun i => ((s i).next (b i)).x) (hE.mono fun i hi => ⟨_, hi.1⟩) j2
  obtain ⟨w2, q2, u2⟩ := MatIs.lim (M := fun i => ((s i).next (b i)).P) (hE.mono fun i hi => ⟨_, hi.2.1⟩) j3
  obtain ⟨w3, q3, u3⟩ := MatIs.lim (M := fun i => (s i).gain ((s i).predict (b i))) (hE.mono fun i hi => ⟨_, hi.2.2⟩) j1
  have d1 := VecIs.inj q1
  have d2 := MatIs.inj q2
  have d3 := MatIs.inj q3
  subst d1 d2 d3
  -- the computed results
  obtain ⟨Kr, g1, g2⟩ := ArrT.matEq k1
  obtain ⟨Pr, g3, g4⟩ := ArrT.matIs k3 hcN.1
  have hxr : ∃ xr : ℕ → Fin n → ℝ, (∀ᶠ i in l, (VecIs (xr i) (y₁ i) ∨ n = 1 ∧ MatIs (colM (xr i)) (y₁ i) ∧ colOk i) ∧
      v₁ i = .vec .float64 (finV (xr i))) ∧ Tendsto xr l (𝓝 (LinStep.next (⟨sA, sc, sH, sQ, sR, sz⟩ : LinStep n m) bL).x) := by
    rcases hcN.2 with hv | ⟨hn1, hv, hq⟩
    · obtain ⟨xr, g5, g6⟩ := ArrT.vecIs k2 hv
      refine ⟨xr, ?_, g6⟩
      filter_upwards [g5, k4] with i e1 e2
      refine ⟨.inl e1, ?_⟩
      obtain ⟨d, e1⟩ := e1
      have := e2.2.1
      rw [e1, Arr.assignVec_vec, Except.ok.injEq] at this
      exact this.symm
    · obtain ⟨W, g5, g6⟩ := ArrT.matIs k2 hv
      refine ⟨fun i k => W i k 0, ?_, tendsto_pi_nhds.2 fun k => tendsto_pi_nhds.1 (tendsto_pi_nhds.1 g6 k) 0⟩
      filter_upwards [g5, k4, hq] with i e1 e2 e3
      have hW : W i = colM fun k => W i k 0 := by
        ext k j; rw [colM, Subsingleton.elim j 0]
      rw [hW] at e1
      refine ⟨.inr ⟨hn1, e1, e3⟩, ?_⟩
      obtain ⟨d, e1⟩ := e1
      have := e2.2.1
      clear_value l
      subst hn1
      rw [e1, Arr.assignVec_col1, Except.ok.injEq] at this
      exact this.symm
  obtain ⟨xr, g5, g6⟩ := hxr
  have n1 := tendsto_near g6 u1 hδ
  have n2 : ∀ᶠ i in l, ∀ k, ∀ j, |Pr i k j - ((s i).next (b i)).P k j| ≤ δ :=
    eventually_all.2 fun k => tendsto_near (tendsto_pi_nhds.1 g4 k) (tendsto_pi_nhds.1 u2 k) hδ
  have n3 : ∀ᶠ i in l, ∀ k, ∀ j, |Kr i k j - (s i).gain ((s i).predict (b i)) k j| ≤ δ :=
    eventually_all.2 fun k => tendsto_near (tendsto_pi_nhds.1 g2 k) (tendsto_pi_nhds.1 u3 k) hδ
  have hfin : ∀ᶠ i in l, False := by
    filter_upwards [g1, g3, g5, n1, n2, n3, k4] with i e1 e3 e5 f1 f2 f3 e4
    obtain ⟨d, e3⟩ := e3
    have e6 := e4.2.2
    rw [e3, Arr.assignMat_mat, Except.ok.injEq] at e6
    obtain ⟨k, j, hkj⟩ := hbad i (Kr i) ⟨xr i, Pr i⟩ (y₁ i) (X₁ i) (by
      rw [e4.1, e1, e5.2, ← e6]; rfl) ⟨⟨d, e3⟩, e5.1⟩ ⟨f1, f2⟩
    exact absurd (f3 k j) (not_le.2 hkj)
  exact hfin.exists.choose_spec

end

end KK
