import Verif.Proofs.RoundStable

/-!
# A whole run under an accurate arithmetic, uniformly in the number of steps
-/

set_option linter.unusedSectionVars false

namespace KK

open Matrix Filter Topology

/-! ### rows -/

theorem NDArray.Close.rows {η : ℝ} {a b : NDArray Fl} (h : a.Close η b) : List.Forall₂ (Arr.Close η) a.rows b.rows := by
  cases a with
  | d0 d x => obtain ⟨y, rfl, -⟩ := h; exact .nil
  | stack r => obtain ⟨r', rfl, h⟩ := h; exact h

theorem NDArray.Close.iterable {η : ℝ} {a b : NDArray Fl} (h : a.Close η b) (ha : a.Iterable) : b.Iterable := by
  cases a with
  | d0 d x => exact ha.elim
  | stack r => obtain ⟨r', rfl, h⟩ := h; trivial

theorem forall₂_zip {α β α' β' : Type} {p : α → α' → Prop} {q : β → β' → Prop} {a : List α} {a' : List α'} {b : List β}
    {b' : List β'} (h : List.Forall₂ p a a') (h' : List.Forall₂ q b b') :
    List.Forall₂ (fun x y => p x.1 y.1 ∧ q x.2 y.2) (a.zip b) (a'.zip b') := by
  induction h generalizing b b' with
  | nil => exact .nil
  | cons h1 _ ih =>
    cases h' with
    | nil => exact .nil
    | cons h2 h3 => exact .cons ⟨h1, h2⟩ (ih h3)

theorem Fl.close_self {η : ℝ} (hη : 0 ≤ η) (x : Fl) : x.Close η x := ⟨rfl, by rw [sub_self, abs_zero]; exact hη⟩

theorem effU_close {nanInt η : ℝ} (hη : 0 ≤ η) {B : Backend Fl} (hB : Accurate nanInt η B) {Z Z₁ : NDArray Fl}
    {U U₁ : Option (NDArray Fl)} (hZ : Z.Close η Z₁) (hU : CloseOpt η U U₁) :
    (@effU Fl (exactB nanInt) U Z).Close η (@effU Fl B U₁ Z₁) := by
  cases U with
  | some u => obtain ⟨V, rfl, h⟩ := hU; exact h
  | none =>
    obtain rfl : U₁ = none := hU
    have key : ∀ d : DType, (@Arr.nanFill Fl (exactB nanInt) d) = (@Arr.nanFill Fl B d) := by
      intro d
      cases d with
      | float64 => exact hB.nan.symm
      | int64 => exact hB.nanInt.symm
    have key' : ∀ a b : Arr Fl, a.Close η b → (@Arr.fullLikeNan Fl (exactB nanInt) a).Close η (@Arr.fullLikeNan Fl B b) := by
      intro a b h
      cases a with
      | scalar d x => obtain ⟨y, rfl, -⟩ := h; exact ⟨_, rfl, by rw [key]; exact Fl.close_self hη _⟩
      | vec d x => obtain ⟨y, rfl, -⟩ := h; exact ⟨_, rfl, fun _ => by rw [key]; exact Fl.close_self hη _⟩
      | mat d x => obtain ⟨y, rfl, -⟩ := h; exact ⟨_, rfl, fun _ _ => by rw [key]; exact Fl.close_self hη _⟩
    cases Z with
    | d0 d x => obtain ⟨y, rfl, -⟩ := hZ; exact ⟨_, rfl, by rw [key]; exact Fl.close_self hη _⟩
    | stack r =>
      obtain ⟨r', rfl, h⟩ := hZ
      refine ⟨_, rfl, ?_⟩
      induction h with
      | nil => exact .nil
      | cons h1 _ ih => exact .cons (key' _ _ h1) ih

theorem zrows_close {nanInt η : ℝ} (hη : 0 ≤ η) {B : Backend Fl} (hB : Accurate nanInt η B) {kf kf₁ : KalmanFilter Fl}
    {Z Z₁ : NDArray Fl} {U U₁ : Option (NDArray Fl)} (hk : kf.Close η kf₁) (hZ : Z.Close η Z₁) (hU : CloseOpt η U U₁) :
    List.Forall₂ (RowClose η) (@KalmanFilter.zrows Fl (exactB nanInt) kf Z U) (@KalmanFilter.zrows Fl B kf₁ Z₁ U₁) :=
  forall₂_zip hk.A.rows (forall₂_zip hk.H.rows (forall₂_zip hk.B.rows (forall₂_zip (effU_close hη hB hZ hU).rows
    (forall₂_zip hZ.rows (forall₂_zip hk.Q.rows hk.R.rows)))))

theorem RowClose.mono {η η' : ℝ} (h : η ≤ η') {r r₁ : KalmanFilter.Row Fl} (hr : RowClose η r r₁) : RowClose η' r r₁ :=
  ⟨hr.1.mono h, hr.2.1.mono h, hr.2.2.1.mono h, hr.2.2.2.1.mono h, hr.2.2.2.2.1.mono h, hr.2.2.2.2.2.1.mono h, hr.2.2.2.2.2.2.mono h⟩

theorem Accurate.mono {nanInt η η' : ℝ} (h0 : 0 < η) (h : η ≤ η') {B : Backend Fl} (hB : Accurate nanInt η B) : Accurate nanInt η' B := by
  have hi : 1 / η' ≤ 1 / η := one_div_le_one_div_of_le h0 h
  refine ⟨hB.zero, hB.one, hB.nan, hB.nanInt, hB.isnan, hB.add_nan, fun x y hx hy => ?_, hB.sub_nan, fun x y hx hy => ?_, hB.gemm_nan,
    fun S T i j x y hk hl => ?_, fun S T hn hk hS hT hd => ?_⟩
  · obtain ⟨r, e, h1⟩ := hB.add x y (hx.trans hi) (hy.trans hi)
    exact ⟨r, e, h1.trans h⟩
  · obtain ⟨r, e, h1⟩ := hB.sub x y (hx.trans hi) (hy.trans hi)
    exact ⟨r, e, h1.trans h⟩
  · obtain ⟨r, e, h1⟩ := hB.gemm S T i j x y (hk.trans hi) fun l =>
      ⟨(hl l).1, (hl l).2.1, (hl l).2.2.1.trans hi, (hl l).2.2.2.trans hi⟩
    exact ⟨r, e, h1.trans h⟩
  · obtain ⟨X, e, h1⟩ := hB.solve S T (hn.trans hi) (hk.trans hi) (fun i j => (hS i j).trans hi) (fun i j => (hT i j).trans hi) (h.trans hd)
    exact ⟨X, e, fun i j => (h1 i j).trans h⟩

theorem Fl.close_fin {η x : ℝ} {y : Fl} (h : (Fl.fin x).Close η y) : ∃ r : ℝ, y = .fin r ∧ |x - r| ≤ η := by
  cases y with
  | nan => exact absurd h.1 (by simp [Fl.isNan])
  | fin r => exact ⟨r, rfl, h.2⟩

section
variable {n m : ℕ} {A Q : Matrix (Fin n) (Fin n) ℝ} {H : Matrix (Fin m) (Fin n) ℝ} {R : Matrix (Fin m) (Fin m) ℝ}

theorem VecIs.of_close {η : ℝ} {v : Fin n → ℝ} {a b : Arr Fl} (h : VecIs v a) (hc : a.Close η b) :
    ∃ w, VecIs w b ∧ ∀ i, |w i - v i| ≤ η := by
  obtain ⟨d, rfl⟩ := h
  obtain ⟨w, rfl, hw⟩ := hc
  choose r e hr using fun i => Fl.close_fin (hw i)
  exact ⟨r, ⟨d, congrArg _ (funext e)⟩, fun i => by rw [abs_sub_comm]; exact hr i⟩

theorem MatIs.of_close {η : ℝ} {v : Matrix (Fin n) (Fin m) ℝ} {a b : Arr Fl} (h : MatIs v a) (hc : a.Close η b) :
    ∃ w, MatIs w b ∧ ∀ i j, |w i j - v i j| ≤ η := by
  obtain ⟨d, rfl⟩ := h
  obtain ⟨w, rfl, hw⟩ := hc
  choose r e hr using fun i j => Fl.close_fin (hw i j)
  exact ⟨r, ⟨d, congrArg _ (funext fun i => funext fun j => e i j)⟩, fun i j => by rw [abs_sub_comm]; exact hr i j⟩

theorem Carried.of_close {η : ℝ} {b : Belief n} {x P x₁ P₁ : Arr Fl} {q : Prop} (h : Carried b x P q) (hx : x.Close η x₁)
    (hP : P.Close η P₁) : ∃ b', Carried b' x₁ P₁ q ∧ BeliefNear η b' b := by
  obtain ⟨N, h1, h2⟩ := h.1.of_close hP
  rcases h.2 with h3 | ⟨hn, h3, hq⟩
  · obtain ⟨w, h4, h5⟩ := h3.of_close hx
    exact ⟨⟨w, N⟩, ⟨h1, .inl h4⟩, h5, h2⟩
  · obtain ⟨W, h4, h5⟩ := h3.of_close hx
    have hW : W = colM fun k => W k 0 := by
      ext k j; rw [colM, Subsingleton.elim j 0]
    refine ⟨⟨fun k => W k 0, N⟩, ⟨h1, .inr ⟨hn, by rw [← hW]; exact h4, hq⟩⟩, fun i => h5 i 0, h2⟩

/-- Bounds on the measurement and the control contribution. -/
theorem data_small {nanInt D : ℝ} {s : LinStep n m} {r : KalmanFilter.Row Fl} (h : @RowIs (strict nanInt) n m s r) (hs : RowSmall D r) :
    ‖s.z‖ ≤ |D| + |D| * |D| * |D| ∧ ‖s.c‖ ≤ |D| + |D| * |D| * |D| := by
  letI : Platform := strict nanInt
  have hD : 0 ≤ |D| * |D| * |D| := by positivity
  constructor
  · refine (pi_norm_le_iff_of_nonneg (by positivity)).2 fun i => ?_
    rw [Real.norm_eq_abs]
    have : |s.z i| ≤ D := by
      have hz := hs.2.2.2.2.1.1
      rcases h.z with ⟨d, e⟩ | ⟨d, x, e, e'⟩
      · rw [e] at hz; exact hz i
      · rw [e] at hz; rw [e']; exact hz
    have := le_abs_self D
    linarith
  · rcases h.ctrl with ⟨-, h0⟩ | ⟨p, M, u, ⟨d, e1⟩, ⟨d', e2⟩, e3⟩
    · rw [h0, norm_zero]; positivity
    · have hB := hs.2.2.1
      have hu := hs.2.2.2.1.1
      rw [e1] at hB
      rw [e2] at hu
      have hp : (p : ℝ) ≤ |D| := (hB.2 p (by simp [Arr.shape])).trans (le_abs_self D)
      have a1 : ‖M *ᵥ u‖ ≤ |D| * p * ‖u‖ := mulVec_norm_le (abs_nonneg D) (fun i j => (hB.1 i j).trans (le_abs_self D)) u
      have a2 : ‖u‖ ≤ |D| := (pi_norm_le_iff_of_nonneg (abs_nonneg D)).2 fun i => by
        rw [Real.norm_eq_abs]; exact (hu i).trans (le_abs_self D)
      rw [e3]
      refine a1.trans ?_
      have a3 : |D| * p * ‖u‖ ≤ |D| * |D| * |D| :=
        mul_le_mul (mul_le_mul_of_nonneg_left hp (abs_nonneg D)) a2 (norm_nonneg _) (by positivity)
      have := abs_nonneg D
      linarith

open scoped Matrix.Norms.Elementwise

theorem BeliefNear.norm {δ : ℝ} (hδ : 0 ≤ δ) {b b' : Belief n} : BeliefNear δ b b' ↔ ‖b.x - b'.x‖ ≤ δ ∧ ‖b.P - b'.P‖ ≤ δ := by
  rw [pi_norm_le_iff_of_nonneg hδ, mat_norm_le hδ]; rfl

/-- The computed run. -/
theorem run_near (nanInt : ℝ) (hQ : Q.PosSemidef) (hR : R.PosDef) (b : Belief n)
    (hP : b.P.PosSemidef) (hS : Settles A Q H R b.P) (D : ℝ) {ε : ℝ} (hε : 0 < ε) : ∃ η > 0, ∀ (B : Backend Fl) (ss : List (LinStep n m))
      (rs rs₁ : List (KalmanFilter.Row Fl)) (b₀ : Belief n) (x P I₁ : Arr Fl) (colOk : Prop), Accurate nanInt η B →
      List.Forall₂ (@RowIs (strict nanInt) n m) ss rs → ConstantModel A H Q R ss → (∀ r ∈ rs, RowSmall D r) →
      List.Forall₂ (RowClose η) rs rs₁ → (@Arr.identity Fl (exactB nanInt) n).Close η I₁ → Carried b₀ x P colOk → BeliefNear η b₀ b →
      (colOk → ∀ r ∈ rs, m = 1 ∨ r.2.2.2.2.1.shape = []) →
      ∃ (b' : ℕ → Belief n) (Ks : ℕ → Matrix (Fin n) (Fin m) ℝ), (trace (@KalmanFilter.step Fl B n I₁) rs₁ x P).err = none ∧
        (trace (@KalmanFilter.step Fl B n I₁) rs₁ x P).outs =
          (List.range ss.length).map (fun i => (stateRow (b' (i + 1)), covRow (b' (i + 1)))) ∧
        (trace (@KalmanFilter.step Fl B n I₁) rs₁ x P).gains = (List.range ss.length).map (fun i => gainRow (Ks i)) ∧
        (∀ i < ss.length, BeliefNear ε (b' (i + 1)) (lastOf b (ss.take (i + 1))) ∧
          ∀ j k, |Ks i j k - ownGains A Q H R b.P i j k| ≤ ε) := by
  obtain ⟨δ, hδ, X, hX⟩ := stay_near (A := A) (H := H) hQ hR b hP hS (D := |D| + |D| * |D| * |D|) (by positivity) (half_pos hε)
  have hδ' : 0 < min δ (ε / 2) := lt_min hδ (half_pos hε)
  obtain ⟨η₁, hη₁, h1⟩ := one_step (n := n) (m := m) nanInt (max D X) hδ hδ'
  refine ⟨min η₁ δ, lt_min hη₁ hδ, fun B ss rs rs₁ b₀ x P I₁ colOk hB hrow hcm hsm hcl hI hcar hb₀ hco => ?_⟩
  have hle1 : min η₁ δ ≤ η₁ := min_le_left _ _
  have hle2 : min η₁ δ ≤ δ := min_le_right _ _
  have hlen : ss.length = rs.length := hrow.length_eq
  have hlen₁ : rs.length = rs₁.length := hcl.length_eq
  have hdat : ∀ (l : ℕ) (s : LinStep n m), ss[l]? = some s → ‖s.z‖ ≤ |D| + |D| * |D| * |D| ∧ ‖s.c‖ ≤ |D| + |D| * |D| * |D| := by
    intro l s hs
    have hl : l < ss.length := (List.getElem?_eq_some_iff.1 hs).1
    have h2 := (List.forall₂_iff_get.1 hrow).2 l hl (by omega)
    have e : ss.get ⟨l, hl⟩ = s := by
      have := (List.getElem?_eq_some_iff.1 hs).2; simpa using this
    rw [e] at h2
    exact data_small h2 (hsm _ (List.get_mem _ _))
  have hbx := (BeliefNear.norm (lt_min hη₁ hδ).le).1 hb₀
  have main : ∀ N ≤ ss.length, ∃ (b' : ℕ → Belief n) (Ks : ℕ → Matrix (Fin n) (Fin m) ℝ) (x' P' : Arr Fl),
      (b' 0 = b₀) ∧ (trace (@KalmanFilter.step Fl B n I₁) (rs₁.take N) x P) =
        ⟨(List.range N).map (fun i => (stateRow (b' (i + 1)), covRow (b' (i + 1)))),
          (List.range N).map (fun i => gainRow (Ks i)), none, (x', P')⟩ ∧ Carried (b' N) x' P' colOk ∧
      (∀ (i : ℕ) (s : LinStep n m), i < N → ss[i]? = some s → BeliefNear δ (b' (i + 1)) (s.next (b' i)) ∧
        ∀ j k, |Ks i j k - s.gain (s.predict (b' i)) j k| ≤ ε / 2) := by
    intro N
    induction N with
    | zero => exact fun _ => ⟨fun _ => b₀, fun _ => 0, x, P, rfl, by simp [trace], hcar, fun i s hi => absurd hi (by omega)⟩
    | succ N ih =>
      intro hN
      obtain ⟨b', Ks, x', P', e0, et, hc', hst⟩ := ih (by omega)
      obtain ⟨s, hs⟩ : ∃ s, ss[N]? = some s := ⟨_, List.getElem?_eq_getElem (by omega)⟩
      obtain ⟨r, hr⟩ : ∃ r, rs[N]? = some r := ⟨_, List.getElem?_eq_getElem (by omega)⟩
      obtain ⟨r₁, hr₁⟩ : ∃ r, rs₁[N]? = some r := ⟨_, List.getElem?_eq_getElem (by omega)⟩
      have hsr : @RowIs (strict nanInt) n m s r := by
        have h2 := (List.forall₂_iff_get.1 hrow).2 N (by omega) (by omega)
        have e1 := (List.getElem?_eq_some_iff.1 hs).2
        have e2 := (List.getElem?_eq_some_iff.1 hr).2
        simp only [List.get_eq_getElem] at h2
        rwa [e1, e2] at h2
      have hrr : RowClose (min η₁ δ) r r₁ := by
        have h2 := (List.forall₂_iff_get.1 hcl).2 N (by omega) (by omega)
        have e1 := (List.getElem?_eq_some_iff.1 hr).2
        have e2 := (List.getElem?_eq_some_iff.1 hr₁).2
        simp only [List.get_eq_getElem] at h2
        rwa [e1, e2] at h2
      have hrm : r ∈ rs := List.mem_of_getElem? hr
      obtain ⟨-, -, g1, g2, g3, -⟩ := hX ss hcm hdat b' N (by omega) (by rw [e0]; exact hbx.1.trans hle2) (by rw [e0]; exact hbx.2.trans hle2)
        (fun i s hi hs => (BeliefNear.norm hδ.le).1 (hst i s hi hs).1) N le_rfl
      obtain ⟨m1, m2, m3, m4⟩ := hcm s (List.mem_of_getElem? hs)
      have hdet : δ ≤ |(s.innov (s.predict (b' N))).det| := by
        rw [← m1, ← m2, ← m3, ← m4] at g3; exact g3
      have hsmall : RowSmall (max D X) r := by
        have := hsm r hrm
        have key : ∀ a : Arr Fl, a.Small D → a.Small (max D X) := fun a ha => by
          refine ⟨?_, fun k hk => (ha.2 k hk).trans (le_max_left _ _)⟩
          cases a with
          | scalar d x => exact ha.1.trans (le_max_left _ _)
          | vec d x => exact fun i => (ha.1 i).trans (le_max_left _ _)
          | mat d x => exact fun i j => (ha.1 i j).trans (le_max_left _ _)
        obtain ⟨k1, k2, k3, k4, k5, k6, k7⟩ := this
        exact ⟨key _ k1, key _ k2, key _ k3, key _ k4, key _ k5, key _ k6, key _ k7⟩
      have hwithin : BeliefWithin (max D X) (b' N) :=
        ⟨fun i => ((norm_le_pi_norm (b' N).x i).trans g1).trans (le_max_right _ _),
          fun i j => ((entry_le_norm (b' N).P i j).trans g2).trans (le_max_right _ _)⟩
      obtain ⟨K, b'', x'', P'', es, hc'', hn, hg⟩ := h1 B s (b' N) r r₁ x' P' I₁ colOk (hB.mono (lt_min hη₁ hδ) hle1) hsr hsmall
        (hrr.mono hle1) (hI.mono hle1) hc' (fun hk => hco hk r hrm) hwithin hdet
      refine ⟨fun i => if i = N + 1 then b'' else b' i, fun i => if i = N then K else Ks i, x'', P'', ?_, ?_, ?_, ?_⟩
      · simp [e0]
      · rw [List.take_add_one, hr₁, Option.toList_some, trace_append, et]
        simp only [trace, es, List.range_succ, List.map_append, List.map_cons, List.map_nil, Option.toList_some, if_true,
          List.append_nil]
        congr 1
        · congr 1
          refine List.map_congr_left fun i hi => ?_
          have := List.mem_range.1 hi
          rw [if_neg (by omega)]
        · congr 1
          refine List.map_congr_left fun i hi => ?_
          have := List.mem_range.1 hi
          rw [if_neg (by omega)]
      · simpa using hc''
      · intro i s' hi hs'
        rcases Nat.lt_or_ge i N with hlt | hge
        · have := hst i s' hlt hs'
          beta_reduce
          rw [if_neg (show ¬ i + 1 = N + 1 by omega), if_neg (show ¬ i = N + 1 by omega), if_neg (show ¬ i = N by omega)]
          exact this
        · obtain rfl : i = N := by omega
          obtain rfl : s' = s := by rw [hs] at hs'; exact (Option.some.inj hs').symm
          beta_reduce
          rw [if_pos rfl, if_neg (show ¬ i = i + 1 by omega), if_pos rfl]
          exact ⟨⟨fun i => (hn.1 i).trans (min_le_left _ _), fun i j => (hn.2 i j).trans (min_le_left _ _)⟩,
            fun j k => (hg j k).trans (min_le_right _ _)⟩
  obtain ⟨b', Ks, x', P', e0, et, -, hst⟩ := main ss.length le_rfl
  rw [List.take_of_length_le (by omega)] at et
  have hfin := hX ss hcm hdat b' ss.length le_rfl (by rw [e0]; exact hbx.1.trans hle2) (by rw [e0]; exact hbx.2.trans hle2)
    (fun i s hi hs => (BeliefNear.norm hδ.le).1 (hst i s hi hs).1)
  refine ⟨b', Ks, by rw [et], by rw [et], by rw [et], fun i hi => ⟨?_, fun j k => ?_⟩⟩
  · obtain ⟨g1, g2, -⟩ := hfin (i + 1) hi
    rw [BeliefNear.norm hε.le]
    exact ⟨by linarith, by linarith⟩
  · obtain ⟨-, -, -, -, -, g⟩ := hfin i hi.le
    obtain ⟨s, hs⟩ : ∃ s, ss[i]? = some s := ⟨_, List.getElem?_eq_getElem hi⟩
    obtain ⟨m1, m2, m3, m4⟩ := hcm s (List.mem_of_getElem? hs)
    have q := (hst i s hi hs).2 j k
    have e : s.gain (s.predict (b' i)) = kGain H (priorCov A (b' i).P Q) R := by rw [← m1, ← m2, ← m3, ← m4]; rfl
    rw [e] at q
    have q' := (entry_le_norm _ j k).trans g
    rw [Matrix.sub_apply] at q'
    calc |Ks i j k - ownGains A Q H R b.P i j k| ≤ |Ks i j k - kGain H (priorCov A (b' i).P Q) R j k| +
          |kGain H (priorCov A (b' i).P Q) R j k - ownGains A Q H R b.P i j k| := abs_sub_le _ _ _
      _ ≤ ε := by linarith

end

end KK
