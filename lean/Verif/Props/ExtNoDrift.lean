import Verif.Proofs.ExtRoundRun
import Verif.Props.ExtObservable
import Verif.Props.NoDrift
import Verif.Props.Float

/-!
# C130: the extended filter follows a nonlinear system in inexact arithmetic, in runs of any length
-/

set_option linter.unusedSectionVars false

namespace KK

open Matrix

section
variable {n m : ℕ}

/-- The controls do not depend on the observations' values, nor on the arithmetic. -/
theorem effU_same {nanInt η : ℝ} {B : Backend Fl} (hB : Accurate nanInt η B) {Z Z₁ : NDArray Fl}
    (U : Option (NDArray Fl)) (hZ : Z.Close η Z₁) : @effU Fl B U Z₁ = @effU Fl (exactB nanInt) U Z := by
  cases U with
  | some u => rfl
  | none =>
    have key : ∀ d : DType, (@Arr.nanFill Fl (exactB nanInt) d) = (@Arr.nanFill Fl B d) := by
      intro d
      cases d with
      | float64 => exact hB.nan.symm
      | int64 => exact hB.nanInt.symm
    have key' : ∀ a b : Arr Fl, a.Close η b → @Arr.fullLikeNan Fl B b = @Arr.fullLikeNan Fl (exactB nanInt) a := by
      intro a b h
      cases a with
      | scalar d x => obtain ⟨y, rfl, -⟩ := h; simp only [Arr.fullLikeNan, key]
      | vec d x => obtain ⟨y, rfl, -⟩ := h; simp only [Arr.fullLikeNan, key]
      | mat d x => obtain ⟨y, rfl, -⟩ := h; simp only [Arr.fullLikeNan, key]
    cases Z with
    | d0 d x =>
      obtain ⟨y, rfl, -⟩ := hZ
      show NDArray.d0 d _ = NDArray.d0 d _
      rw [key]
    | stack r =>
      obtain ⟨r', rfl, h⟩ := hZ
      show NDArray.stack _ = NDArray.stack _
      congr 1
      induction h with
      | nil => rfl
      | cons h1 _ ih => exact congrArg₂ List.cons (key' _ _ h1) ih

variable [P : Platform]

/-- **C130**: as `C117_observable` (the system follows the model up to disturbances and observation errors `D`, the model linearised
along the true states is observable over stretches of `N` steps), but in an arithmetic with rounding errors, with attributes and
observations rounded, and with callbacks that compute `f`, `jacobian_A`, `h`, `jacobian_H` inexactly: for every tolerance `τ` there is an
accuracy `η` such that `filter` returns in runs of any length, and the returned means follow the true states up to `τ` more than in exact
arithmetic.  `η` depends on the bounds and `τ`, not on the length of the run: neither rounding nor linearisation errors accumulate. -/
theorem C130_ext_no_drift (N : ℕ) (q r a p κ d l γ : ℝ) (hN : 0 < N) (hq : 0 < q) (hr : 0 < r) (ha : 0 ≤ a) (hp : 0 < p) (hκ : 0 ≤ κ)
    (hd : 0 < d) (hl : 0 ≤ l) (hγ : 0 < γ) :
    ∃ ε C ρ : ℝ, 0 < ε ∧ 0 < C ∧ 0 < ρ ∧ ρ < 1 ∧ ∀ Y τ : ℝ, 0 ≤ Y → 0 < τ → ∃ η > 0,
      ∀ (kf : ExtendedKalmanFilter Fl) (Z : NDArray Fl) (U : Option (NDArray Fl)) (b : Belief n) (ss : List (ExtStep n m))
        (x w : ℕ → Fin n → ℝ) (v : ℕ → Fin m → ℝ) (r₀ D : ℝ),
        ExtRepresents kf Z U b ss → Between q p b.P → (∀ s ∈ ss, Between q a s.Q ∧ Between r a s.R) →
        0 ≤ D → D ≤ ε → 0 ≤ r₀ → r₀ ≤ ε →
        (∀ (k : ℕ) (s : ExtStep n m), ss[k]? = some s →
          x (k + 1) = s.f (x k) + w k ∧ s.z = s.h (x (k + 1)) + v k ∧ (∀ i, |w k i| ≤ D) ∧ (∀ i, |v k i| ≤ D) ∧
          NearLinear a κ d s (x k) (x (k + 1)) ∧ NearSmooth l d s (x k) (x (k + 1))) →
        (∀ w', w' <:+: alongTruth ss x → w'.length = N → (obsGram w' - γ • (1 : Matrix (Fin n) (Fin n) ℝ)).PosSemidef) →
        (∀ i, |b.x i - x 0 i| ≤ r₀) →
        (∀ k ≤ ss.length, ∀ i, |x k i| ≤ Y) → ExtInputsWithin Y kf Z U →
        ∀ (B : Backend Fl) (kf₁ : ExtendedKalmanFilter Fl) (Z₁ : NDArray Fl), Accurate P.nanInt η B → kf.Close η kf₁ → Z.Close η Z₁ →
          ∃ (bs : List (Belief n)) (Ks : List (Matrix (Fin n) (Fin m) ℝ)), (@ExtendedKalmanFilter.filter Fl B Z₁ U).run kf₁ =
              (.ok (bs.map stateRow ++ List.replicate (Z₁.rows.length - bs.length) (@Arr.zerosVec Fl B n),
                bs.map covRow ++ List.replicate (Z₁.rows.length - bs.length) (@Arr.zerosMat Fl B n)),
               { kf₁ with kalmanGains := kf₁.kalmanGains ++ Ks.map gainRow }) ∧
            bs.length = ss.length ∧ Ks.length = ss.length ∧
            ∀ (k : ℕ) (b' : Belief n), bs[k]? = some b' → ∀ i, |b'.x i - x (k + 1) i| ≤ C * ρ ^ (k + 1) * r₀ + C * D + τ := by
  obtain ⟨ε, C, ρ, hε, hC, h0, h1, key⟩ := ext_round_run n m N P.nanInt hN hq hr ha hp hκ hd hl hγ
  refine ⟨ε, C, ρ, hε, hC, h0, h1, fun Y τ hY hτ => ?_⟩
  obtain ⟨η, hη, hrun⟩ := key Y τ hY hτ
  refine ⟨η, hη, fun kf Z U b ss x w v r₀ D hrep hb hQR hD hDε hr₀ hr₀ε hdat hobs hx0 hxY hin => ?_⟩
  have hrows := hrep.rowsIs
  have hsmall : ∀ r ∈ kf.zrows Z U, ExtRowSmall Y r := by
    rintro ⟨a1, a2, a3, a4⟩ hr
    obtain ⟨k, hk⟩ := List.mem_iff_getElem?.1 hr
    simp only [ExtendedKalmanFilter.zrows, List.getElem?_zip_eq_some] at hk
    obtain ⟨h1, h2, h3, h4⟩ := hk
    exact ⟨hin _ (.inl (List.mem_of_getElem? h1)), hin _ (.inr (.inl (List.mem_of_getElem? h2))),
      hin _ (.inr (.inr (.inl (List.mem_of_getElem? h3)))), hin _ (.inr (.inr (.inr (List.mem_of_getElem? h4))))⟩
  have hid : kf.I = @Arr.identity Fl (exactB P.nanInt) n := hrep.ident
  have i1 := hrep.iter.U
  have i2 := hrep.iter.Z
  have i3 := hrep.iter.Q
  have i4 := hrep.iter.R
  have hsize := hrep.size
  have hx := hrep.x
  have hPk := hrep.P
  have hes := effU_strict U Z
  obtain ⟨EU, hEU⟩ : ∃ E, E = effU U Z := ⟨_, rfl⟩
  rw [← hEU] at i1 hes
  have hzr : kf.zrows Z U = EU.rows.zip (Z.rows.zip (kf.Q.rows.zip kf.R.rows)) := by rw [hEU]; rfl
  rw [hzr] at hrows hsmall
  intro B kf₁ Z₁ hB hk hZ
  have hE : @effU Fl B U Z₁ = EU := (effU_same hB U hZ).trans hes
  have hU₁ : (@effU Fl B U Z₁).Iterable := by rw [hE]; exact i1
  have hiter₁ : @ExtendedKalmanFilter.AllIterable Fl B kf₁ Z₁ U :=
    @ExtendedKalmanFilter.AllIterable.mk Fl B kf₁ Z₁ U hU₁ (hZ.iterable i2) (hk.Q.iterable i3) (hk.R.iterable i4)
  have hself : List.Forall₂ (fun u u₁ : Arr Fl => u₁ = u) EU.rows (@effU Fl B U Z₁).rows := by
    rw [hE]; exact List.forall₂_same.2 fun _ _ => rfl
  have hcl : List.Forall₂ (ExtRowClose η) (EU.rows.zip (Z.rows.zip (kf.Q.rows.zip kf.R.rows))) (@ExtendedKalmanFilter.zrows Fl B kf₁ Z₁ U) :=
    forall₂_zip hself (forall₂_zip hZ.rows (forall₂_zip hk.Q.rows hk.R.rows))
  have hsz : kf₁.stateSize = n := hk.stateSize.trans hsize
  have hI : (@Arr.identity Fl (exactB P.nanInt) n).Close η kf₁.I := by
    have := hk.I
    rw [hid] at this; exact this
  obtain ⟨x₀, hx₀, nx₀⟩ := hx.of_close hk.xk
  obtain ⟨P₀, hP₀, nP₀⟩ := hPk.of_close hk.Pk
  obtain ⟨b', Ks, t1, t2, t3, t4⟩ := hrun B kf kf₁ ss _ _ b ⟨x₀, P₀⟩ kf₁.xk kf₁.Pk x w v r₀ D hB hrows hsmall hcl hk.f hk.jacobianA hk.h
    hk.jacobianH hsz hI hx₀ hP₀ ⟨nx₀, nP₀⟩ (fun j s hj => by
      obtain ⟨h1, h2, h3, h4, h5, h6⟩ := hdat j s hj
      have hm := hQR s (List.mem_of_getElem? hj)
      exact ⟨⟨h5, h1, h2, (abs_le_iff_norm hD).1 h3, (abs_le_iff_norm hD).1 h4, hm.1.1, hm.2.1⟩, h6⟩)
    (fun s hs => ⟨(hQR s hs).1.2, (hQR s hs).2.2⟩) hobs (fun j hj => (abs_le_iff_norm hY).1 (hxY j hj)) hD hDε hb
    ((abs_le_iff_norm hr₀).1 fun i => by rw [Pi.sub_apply, abs_sub_comm]; exact hx0 i) hr₀ε
  have hst : @ExtendedKalmanFilter.steps Fl B kf₁ Z₁ U = ss.length := by
    rw [← @ExtendedKalmanFilter.zrows_length Fl B, ← hcl.length_eq, ← hrows.length_eq]
  have hrunk := @ExtendedKalmanFilter.filter_iter Fl B kf₁ Z₁ U hiter₁
  simp only [ExtendedKalmanFilter.tr] at hrunk
  rw [t1, t2, t3, hst, hsz] at hrunk
  refine ⟨(List.range ss.length).map fun i => b' (i + 1), (List.range ss.length).map Ks, hrunk.trans ?_, by simp, by simp, fun k b'' hb'' i => ?_⟩
  · simp only [List.map_map, List.length_map, List.length_range]
    rfl
  · rw [List.getElem?_map, Option.map_eq_some_iff] at hb''
    obtain ⟨j, hj, rfl⟩ := hb''
    have hlt : k < ss.length := by
      have := (List.getElem?_eq_some_iff.1 hj).1
      simpa using this
    rw [List.getElem?_range hlt, Option.some.injEq] at hj
    subst hj
    have h2 := t4 (k + 1) hlt
    have h3 := (abs_le_iff_norm ((norm_nonneg _).trans h2)).2 h2 i
    rwa [Pi.sub_apply, abs_sub_comm] at h3

/-- **C130** in floating point: on every floating-point unit of a certain precision (e.g. binary formats with enough digits), with the order
of summation chosen by the BLAS. -/
theorem C130_ext_no_drift_float (N : ℕ) (q r a p κ d l γ : ℝ) (hN : 0 < N) (hq : 0 < q) (hr : 0 < r) (ha : 0 ≤ a) (hp : 0 < p) (hκ : 0 ≤ κ)
    (hd : 0 < d) (hl : 0 ≤ l) (hγ : 0 < γ) :
    ∃ ε C ρ : ℝ, 0 < ε ∧ 0 < C ∧ 0 < ρ ∧ ρ < 1 ∧ ∀ Y τ : ℝ, 0 ≤ Y → 0 < τ → ∃ δ > 0, ∃ η > 0,
      ∀ (kf : ExtendedKalmanFilter Fl) (Z : NDArray Fl) (U : Option (NDArray Fl)) (b : Belief n) (ss : List (ExtStep n m))
        (x w : ℕ → Fin n → ℝ) (v : ℕ → Fin m → ℝ) (r₀ D : ℝ),
        ExtRepresents kf Z U b ss → Between q p b.P → (∀ s ∈ ss, Between q a s.Q ∧ Between r a s.R) →
        0 ≤ D → D ≤ ε → 0 ≤ r₀ → r₀ ≤ ε →
        (∀ (k : ℕ) (s : ExtStep n m), ss[k]? = some s →
          x (k + 1) = s.f (x k) + w k ∧ s.z = s.h (x (k + 1)) + v k ∧ (∀ i, |w k i| ≤ D) ∧ (∀ i, |v k i| ≤ D) ∧
          NearLinear a κ d s (x k) (x (k + 1)) ∧ NearSmooth l d s (x k) (x (k + 1))) →
        (∀ w', w' <:+: alongTruth ss x → w'.length = N → (obsGram w' - γ • (1 : Matrix (Fin n) (Fin n) ℝ)).PosSemidef) →
        (∀ i, |b.x i - x 0 i| ≤ r₀) →
        (∀ k ≤ ss.length, ∀ i, |x k i| ≤ Y) → ExtInputsWithin Y kf Z U →
        ∀ (f : FloatUnit) (kf₁ : ExtendedKalmanFilter Fl) (Z₁ : NDArray Fl), f.Precise δ → kf.Close η kf₁ → Z.Close η Z₁ →
          ∃ (bs : List (Belief n)) (Ks : List (Matrix (Fin n) (Fin m) ℝ)), (@ExtendedKalmanFilter.filter Fl (floatB P.nanInt f) Z₁ U).run kf₁ =
              (.ok (bs.map stateRow ++ List.replicate (Z₁.rows.length - bs.length) (@Arr.zerosVec Fl (floatB P.nanInt f) n),
                bs.map covRow ++ List.replicate (Z₁.rows.length - bs.length) (@Arr.zerosMat Fl (floatB P.nanInt f) n)),
               { kf₁ with kalmanGains := kf₁.kalmanGains ++ Ks.map gainRow }) ∧
            bs.length = ss.length ∧ Ks.length = ss.length ∧
            ∀ (k : ℕ) (b' : Belief n), bs[k]? = some b' → ∀ i, |b'.x i - x (k + 1) i| ≤ C * ρ ^ (k + 1) * r₀ + C * D + τ := by
  obtain ⟨ε, C, ρ, hε, hC, h0, h1, key⟩ := C130_ext_no_drift (n := n) (m := m) N q r a p κ d l γ hN hq hr ha hp hκ hd hl hγ
  refine ⟨ε, C, ρ, hε, hC, h0, h1, fun Y τ hY hτ => ?_⟩
  obtain ⟨η, hη, hrun⟩ := key Y τ hY hτ
  obtain ⟨δ, hδ, g⟩ := Precise.accurate P.nanInt hη
  exact ⟨δ, hδ, η, hη, fun kf Z U b ss x w v r₀ D hrep hb hQR hD hDε hr₀ hr₀ε hdat hobs hx0 hxY hin f kf₁ Z₁ hf hk hZ =>
    hrun kf Z U b ss x w v r₀ D hrep hb hQR hD hDε hr₀ hr₀ε hdat hobs hx0 hxY hin (floatB P.nanInt f) kf₁ Z₁ (g f hf) hk hZ⟩

theorem ExtendedKalmanFilter.close_refl {ε : ℝ} (hε : 0 ≤ ε) (x : ExtendedKalmanFilter Fl) : x.Close ε x :=
  ⟨fun _ _ y _ _ h => ⟨y, h, Arr.close_refl hε y⟩, fun _ _ y _ _ h => ⟨y, h, Arr.close_refl hε y⟩,
    fun _ y _ h => ⟨y, h, Arr.close_refl hε y⟩, fun _ y _ h => ⟨y, h, Arr.close_refl hε y⟩, Arr.close_refl hε _, Arr.close_refl hε _,
    NDArray.close_refl hε _, NDArray.close_refl hε _, rfl, Arr.close_refl hε _, closeList_refl hε _⟩

/-- C130 is not vacuous: the pendulum of the examples, at rest, filtered in fixed-point arithmetic from a wrong initial state.  The step `u`
of the arithmetic is chosen once for all runs: in a run of any length the estimates converge to rest up to `τ`. -/
example : ∃ ε C ρ : ℝ, 0 < ε ∧ 0 < ρ ∧ ρ < 1 ∧ ∀ τ > 0, ∃ u > 0, ∀ T : ℕ, ∃ kf, Examples.pendulum 1 9.81 1 1 1 ε (-ε) T = .ok kf ∧
    ∃ (bs : List (Belief 2)) (xs Ps : List (Arr Fl)),
      ((@ExtendedKalmanFilter.filter Fl (Ex.fixedPoint P.nanInt u) (Examples.data .float64 (List.replicate T 0)) none).run kf).1 = .ok (xs, Ps) ∧
      xs = bs.map stateRow ∧ bs.length = T ∧
      ∀ k b', bs[k]? = some b' → ∀ i, |b'.x i| ≤ C * ρ ^ (k + 1) * ε + τ := by
  obtain ⟨q₁, hq₁, hQ⟩ := exists_lower (Examples.pendQ_posDef (dt := 1) (c := 1) one_pos one_pos 9.81 1 0)
  obtain ⟨q₂, hq₂, hQ₂⟩ := exists_upper (Examples.pendQ_posDef (dt := 1) (c := 1) one_pos one_pos 9.81 1 0).posSemidef
  obtain ⟨r, hr', hR⟩ := exists_lower (posDef_one one_pos)
  obtain ⟨r₂, hr₂, hR₂⟩ := exists_upper (posDef_one one_pos).posSemidef
  obtain ⟨q, hqe⟩ : ∃ q, q = min q₁ 1 := ⟨_, rfl⟩
  have hq : 0 < q := hqe ▸ lt_min hq₁ one_pos
  obtain ⟨a, hae⟩ : ∃ a, a = 1 + 1 + |9.81| * 1 + q₂ + r₂ := ⟨_, rfl⟩
  have h9 : (0 : ℝ) ≤ |9.81| * 1 := by positivity
  obtain ⟨ε, C, ρ, hε, hC, h0, h1, key⟩ := C130_ext_no_drift (n := 2) (m := 1) 2 q r a 1 (3 * (1 + |9.81| * 1)) 1 (1 + |9.81| * 1) (1/4)
    (by norm_num) hq hr' (by rw [hae]; positivity) one_pos (by positivity) one_pos (by positivity) (by norm_num)
  refine ⟨ε, C, ρ, hε, h0, h1, fun τ hτ => ?_⟩
  obtain ⟨η, hη, hrun⟩ := key 2 τ (by norm_num) hτ
  have hu : 0 < min η (η ^ 2 / 2) := by positivity
  refine ⟨min η (η ^ 2 / 2), hu, fun T => ?_⟩
  obtain ⟨kf, hk, hrep⟩ := Examples.pendulum_represents 1 9.81 1 1 1 ε (-ε) .float64 (List.replicate T 0)
  rw [List.length_replicate] at hk
  have hbP : (Examples.pendBelief 1 ε (-ε)).P = (1 : Matrix (Fin 2) (Fin 2) ℝ) := by
    ext i j; fin_cases i <;> fin_cases j <;> simp [Examples.pendBelief]
  have hmem : ∀ s ∈ (List.replicate T (0 : ℝ)).map (Examples.pendStep 1 9.81 1 1), s = Examples.pendStep 1 9.81 1 1 0 := fun s hs => by
    obtain ⟨z, hz, rfl⟩ := List.mem_map.1 hs
    rw [List.eq_of_mem_replicate hz]
  have hin : ExtInputsWithin 2 kf (Examples.data .float64 (List.replicate T 0)) none := by
    have e : kf.Q = .stack (List.replicate T (Examples.pendQ 1 1)) ∧ kf.R = .stack (List.replicate T (.scalar .float64 (.fin 1))) := by
      have := Except.ok.inj hk
      rw [← this]
      exact ⟨rfl, rfl⟩
    rintro x (hx | hx | hx | hx)
    · simp only [effU, checkNoneAndBroadcast, Examples.data, NDArray.fullLikeNan, NDArray.rows, List.map_replicate] at hx
      rw [List.eq_of_mem_replicate hx]
      refine ⟨?_, by simp [Arr.fullLikeNan, Arr.shape]⟩
      show |Fl.toReal Fl.nan| ≤ 2
      simp [Fl.toReal]
    · simp only [Examples.data, NDArray.rows, List.map_replicate] at hx
      rw [List.eq_of_mem_replicate hx]
      exact ⟨by simp [Arr.Within], by simp [Arr.shape]⟩
    · rw [e.1] at hx
      rw [List.eq_of_mem_replicate hx]
      refine ⟨fun i j => ?_, by simp [Arr.shape, Examples.pendQ]⟩
      fin_cases i <;> fin_cases j <;> simp [Examples.pendQ] <;> norm_num
    · rw [e.2] at hx
      rw [List.eq_of_mem_replicate hx]
      exact ⟨by simp [Arr.Within], by simp [Arr.shape]⟩
  have hgo := hrun kf _ _ _ _ (fun _ => 0) (fun _ => 0) (fun _ => 0) ε 0 hrep
    ⟨by
      rw [hbP]
      have := psd_smul (Matrix.PosDef.one (n := Fin 2) (R := ℝ)).posSemidef (sub_nonneg.2 (hqe ▸ min_le_right q₁ 1 : q ≤ 1))
      rwa [sub_smul, one_smul] at this, by rw [hbP, one_smul, sub_self]; exact Matrix.PosSemidef.zero⟩
    (fun s hs => by
      rw [hmem s hs]
      exact ⟨⟨lower_mono (hqe ▸ min_le_left q₁ 1) hQ, upper_mono (by rw [hae]; linarith) hQ₂⟩, ⟨hR, upper_mono (by rw [hae]; linarith) hR₂⟩⟩)
    le_rfl hε.le hε.le le_rfl (fun k s hs => by
    rw [hmem s (List.mem_of_getElem? hs)]
    refine ⟨?_, ?_, by simp, by simp, ?_, Examples.pend_nearSmooth 1 9.81 1 1 0 1 one_pos _ _⟩
    · funext i; fin_cases i <;> simp [Examples.pendStep]
    · funext i; simp [Examples.pendStep]
    · have := Examples.pend_nearLinear 1 9.81 1 1 0 1 one_pos 0 0
      refine ⟨fun y hy i j => (this.jA y hy i j).trans ?_, fun y hy i j => (this.jH y hy i j).trans ?_, this.f, this.h⟩ <;>
        (rw [hae]; linarith))
    (fun w hw hl => by
      obtain ⟨s, t, rfl⟩ := List.length_eq_two.1 hl
      have hst : ∀ s ∈ alongTruth ((List.replicate T (0 : ℝ)).map (Examples.pendStep 1 9.81 1 1)) (fun _ => (0 : Fin 2 → ℝ)),
          s.A = !![1, 1; -9.81, 1] ∧ s.H = !![1, 0] := fun s hs => by
        obtain ⟨i, hi, rfl⟩ := List.mem_mapIdx.1 hs
        rw [hmem _ (List.getElem_mem _)]
        constructor
        · ext i j; fin_cases i <;> fin_cases j <;> simp [Examples.pendStep]
        · ext i j; fin_cases i; fin_cases j <;> simp [Examples.pendStep]
      obtain ⟨-, s2⟩ := hst s (hw.subset (by simp))
      obtain ⟨t1, t2⟩ := hst t (hw.subset (by simp))
      have e : obsGram [s, t] - (1/4 : ℝ) • (1 : Matrix (Fin 2) (Fin 2) ℝ) = !![7/4, 1; 1, 3/4] := by
        rw [obsGram, obsGram, s2, t1, t2]
        ext i j
        fin_cases i <;> fin_cases j <;> simp [Matrix.mul_apply, Fin.sum_univ_two] <;> norm_num
      rw [e]
      refine psd_two ?_ ?_ ?_ ?_ <;> simp <;> norm_num) (fun i => by
      fin_cases i <;> simp [Examples.pendBelief, abs_of_pos hε])
    (fun k _ i => by simp) hin
  have hzr : (Examples.data .float64 (List.replicate T (0 : ℝ))).rows.length = T := by simp [Examples.data, NDArray.rows]
  have hss : ((List.replicate T (0 : ℝ)).map (Examples.pendStep 1 9.81 1 1)).length = T := by simp
  obtain ⟨bs, Ks, g1, g2, -, g4⟩ := hgo (Ex.fixedPoint P.nanInt (min η (η ^ 2 / 2))) kf _
    (Ex.fixedPoint_accurate P.nanInt hη hu (min_le_left _ _) (by linarith [min_le_right η (η ^ 2 / 2)]))
    (ExtendedKalmanFilter.close_refl hη.le kf) (NDArray.close_refl hη.le _)
  rw [hss] at g2
  rw [hzr, g2, Nat.sub_self, List.replicate_zero, List.append_nil] at g1
  refine ⟨kf, hk, bs, _, _, congrArg Prod.fst g1, rfl, g2, fun k b' hb' i => ?_⟩
  have := g4 k b' hb' i
  simpa using this

end

end KK
