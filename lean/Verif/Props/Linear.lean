import Verif.Props.Interface
import Verif.Proofs.Layout

/-!
# The extended filter on a linear model is the standard filter (C13, C14)

Both statements are about equality of outcomes (values or exceptions) and recorded gains, for every
arithmetic.
-/

set_option linter.unusedSectionVars false

namespace KK

variable {F : Type} [Backend F]

/-- `ekf` and `kf` have the same initial estimate, noise sequences, state size and gain record; `kf`
uses the constant matrices `A`, `B`, `H`, repeated at least `N` times. -/
structure SameModel (A B H : Arr F) (N : ℕ) (kf : KalmanFilter F) (ekf : ExtendedKalmanFilter F) :
    Prop where
  hA : ∃ a, N ≤ a ∧ kf.A = .stack (List.replicate a A)
  hB : ∃ b, N ≤ b ∧ kf.B = .stack (List.replicate b B)
  hH : ∃ h, N ≤ h ∧ kf.H = .stack (List.replicate h H)
  x : kf.xk = ekf.xk
  P : kf.Pk = ekf.Pk
  Q : kf.Q = ekf.Q
  R : kf.R = ekf.R
  size : kf.stateSize = ekf.stateSize
  ident : kf.I = ekf.I
  gains : kf.kalmanGains = ekf.kalmanGains
  jA : ∀ x u, ekf.jacobianA x u = .ok A
  jH : ∀ x, ekf.jacobianH x = .ok H
  h : ∀ x, ekf.h x = H.matmul x

theorem zip_replicate {α β : Type} (a : α) (l : List β) (n : ℕ) (h : l.length ≤ n) :
    (List.replicate n a).zip l = l.map fun b => (a, b) := by
  induction l generalizing n with
  | nil => simp
  | cons b l ih =>
    obtain ⟨m, rfl⟩ : ∃ m, n = m + 1 := ⟨n - 1, by simp at h; omega⟩
    simp only [List.replicate_succ, List.zip_cons_cons, List.map_cons]
    rw [ih m (by simpa using h)]

theorem trace_map {ρ ρ' : Type} (s : ρ → Arr F → Arr F → StepOut F) (s' : ρ' → Arr F → Arr F → StepOut F)
    (f : ρ → ρ') (rs : List ρ) (h : ∀ r ∈ rs, ∀ x P, s' (f r) x P = s r x P) (x P : Arr F) :
    trace s' (rs.map f) x P = trace s rs x P := by
  induction rs generalizing x P with
  | nil => rfl
  | cons r rs ih =>
    simp only [List.map_cons, trace, h r (by simp) x P]
    rcases s r x P with ⟨g, e | ⟨xP, o⟩⟩
    · rfl
    · simp only [ih (fun r' hr' => h r' (by simp [hr']))]

/-- `f` is the state prediction of the standard filter for the control `u`. -/
def PredictsAs (A B : Arr F) (f : Arr F → Option (Arr F) → Except PyErr (Arr F)) (u : Arr F) : Prop :=
  ∀ x, f x (some u) = if (B.isnanAll || u.isnanAll) = true then A.matmul x else do
    let ax ← A.matmul x
    let bu ← B.matmul u
    ax.add bu

theorem linear_predict {A B : Arr F} {ekf : ExtendedKalmanFilter F} {u : Arr F}
    (hjA : ∀ x u, ekf.jacobianA x u = .ok A) (hf : PredictsAs A B ekf.f u) (x P Q : Arr F) :
    ekf.predict x (some u) P Q = KalmanFilter.predict A x (some B) (some u) P Q := by
  rcases hb : (B.isnanAll || u.isnanAll) with _ | _
  · rw [KalmanFilter.predict_ctrl hb]
    simp only [ExtendedKalmanFilter.predict, hjA, hf x, hb, Except.bind_ok', Bool.false_eq_true,
      if_false]
    rcases A.matmul x with e | ax; · rfl
    simp only [Except.bind_ok']
    rcases B.matmul u with e | bu; · rfl
    simp only [Except.bind_ok']
  · rw [KalmanFilter.predict_skip hb]
    simp only [ExtendedKalmanFilter.predict, hjA, hf x, hb, Except.bind_ok', if_true]

theorem linear_step {A B H : Arr F} {N : ℕ} {kf : KalmanFilter F} {ekf : ExtendedKalmanFilter F}
    (hm : SameModel A B H N kf ekf) {r : ExtendedKalmanFilter.Row F} (hf : PredictsAs A B ekf.f r.1)
    (x P : Arr F) :
    KalmanFilter.step kf.stateSize kf.I (A, H, B, r.1, r.2.1, r.2.2.1, r.2.2.2) x P = ekf.step r x P := by
  obtain ⟨u, z, Q, R⟩ := r
  simp only [KalmanFilter.step, ExtendedKalmanFilter.step, linear_predict hm.jA hf, hm.jH]
  rcases KalmanFilter.predict A x (some B) (some u) P Q with e | ⟨xp, Pp⟩; · rfl
  simp only [ext_gain_eq]
  rcases KalmanFilter.gain H Pp R with e | K; · rfl
  simp only [KalmanFilter.correct, ExtendedKalmanFilter.correct, hm.h, hm.size, hm.ident]

theorem linear_zrows {A B H : Arr F} {kf : KalmanFilter F} {ekf : ExtendedKalmanFilter F}
    {Z : NDArray F} {U : Option (NDArray F)} (hm : SameModel A B H Z.rows.length kf ekf) :
    kf.zrows Z U = (ekf.zrows Z U).map fun r => (A, H, B, r.1, r.2.1, r.2.2.1, r.2.2.2) := by
  obtain ⟨a, ha, hA⟩ := hm.hA
  obtain ⟨b, hb, hB⟩ := hm.hB
  obtain ⟨h, hh, hH⟩ := hm.hH
  have hl : (ekf.zrows Z U).length ≤ Z.rows.length := by
    rw [ExtendedKalmanFilter.zrows_length]; exact ekf.steps_le Z U
  simp only [KalmanFilter.zrows, hA, hB, hH, NDArray.rows_stack, hm.Q, hm.R]
  change (List.replicate a A).zip ((List.replicate h H).zip ((List.replicate b B).zip (ekf.zrows Z U))) = _
  rw [zip_replicate B _ _ (by omega), zip_replicate H _ _ (by rw [List.length_map]; omega),
    zip_replicate A _ _ (by simp only [List.length_map]; omega)]
  simp

theorem linear_filter {A B H : Arr F} {kf : KalmanFilter F} {ekf : ExtendedKalmanFilter F}
    {Z : NDArray F} {U : Option (NDArray F)} (hm : SameModel A B H Z.rows.length kf ekf)
    (hf : ∀ u ∈ (effU U Z).rows, PredictsAs A B ekf.f u) :
    ((ExtendedKalmanFilter.filter Z U).run ekf).1 = ((KalmanFilter.filter Z U).run kf).1 ∧
    ((ExtendedKalmanFilter.filter Z U).run ekf).2.kalmanGains =
      ((KalmanFilter.filter Z U).run kf).2.kalmanGains := by
  obtain ⟨a, ha, hA⟩ := hm.hA
  obtain ⟨b, hb, hB⟩ := hm.hB
  obtain ⟨h, hh, hH⟩ := hm.hH
  have iA : kf.A.Iterable := by rw [hA]; trivial
  have iB : kf.B.Iterable := by rw [hB]; trivial
  have iH : kf.H.Iterable := by rw [hH]; trivial
  by_cases hi : ekf.AllIterable Z U
  · have hi' : kf.AllIterable Z U :=
      ⟨iA, iH, iB, hi.U, hi.Z, by rw [hm.Q]; exact hi.Q, by rw [hm.R]; exact hi.R⟩
    rw [KalmanFilter.filter_iter hi', ExtendedKalmanFilter.filter_iter hi]
    have ht : kf.tr Z U = ekf.tr Z U := by
      simp only [KalmanFilter.tr, ExtendedKalmanFilter.tr, linear_zrows hm, hm.x, hm.P]
      apply trace_map
      intro r hr x P
      refine linear_step hm (hf _ ?_) x P
      obtain ⟨k, hk⟩ := List.mem_iff_getElem?.1 hr
      simp only [ExtendedKalmanFilter.zrows, List.getElem?_zip_eq_some] at hk
      exact List.mem_of_getElem? hk.1
    have hs : kf.steps Z U = ekf.steps Z U := by
      rw [← KalmanFilter.zrows_length, ← ExtendedKalmanFilter.zrows_length, linear_zrows hm,
        List.length_map]
    rw [ht, hs, hm.size]
    exact ⟨rfl, by simp [KalmanFilter.addGains, ExtendedKalmanFilter.addGains, hm.gains]⟩
  · have hno : ¬ ekf.Q.Iterable ∨ ¬ ekf.R.Iterable ∨ ¬ Z.Iterable ∨ ∃ u, U = some u ∧ ¬ u.Iterable := by
      by_contra hc
      push Not at hc
      refine hi ⟨?_, hc.2.2.1, hc.1, hc.2.1⟩
      cases hU : U with
      | none =>
        obtain ⟨z, rfl⟩ := hc.2.2.1.exists
        trivial
      | some u => exact hc.2.2.2 u hU
    rw [(C19_ekf_scalar_parameter ekf Z U hno).1, (C19_scalar_parameter kf Z U ?_).1]
    · exact ⟨rfl, hm.gains.symm⟩
    · rcases hno with h | h | h | h
      · exact .inr <| .inr <| .inr <| .inl <| by rwa [hm.Q]
      · exact .inr <| .inr <| .inr <| .inr <| .inl <| by rwa [hm.R]
      · exact .inr <| .inr <| .inr <| .inr <| .inr <| .inl h
      · exact .inr <| .inr <| .inr <| .inr <| .inr <| .inr h

theorem item_replicate {a : ℕ} {A : Arr F} {k : ℕ} (h : k < a) :
    (NDArray.stack (List.replicate a A)).item k = .ok A := by
  simp [NDArray.item, h]

theorem linear_body {A B H : Arr F} {N : ℕ} {kf : KalmanFilter F} {ekf : ExtendedKalmanFilter F}
    (hm : SameModel A B H N kf ekf) {U : NDArray F} (hf : ∀ u ∈ U.rows, PredictsAs A B ekf.f u)
    {xe Pe : List (Arr F)} {k : ℕ} (hk : k + 1 < N) (x P : Arr F) :
    ekf.body ekf.Q U xe Pe k x P = KalmanFilter.body kf.A kf.Q kf.B U kf.stateSize xe Pe k x P := by
  obtain ⟨a, ha, hA⟩ := hm.hA
  obtain ⟨b, hb, hB⟩ := hm.hB
  simp only [ExtendedKalmanFilter.body, KalmanFilter.body, hA, hB, hm.Q, hm.size,
    item_replicate (show k + 1 < a by omega), item_replicate (show k + 1 < b by omega),
    Except.bind_ok']
  rcases ekf.Q.item (k + 1) with e | Q; · rfl
  simp only [Except.bind_ok']
  rcases hu : U.item (k + 1) with e | u; · rfl
  have hmem : u ∈ U.rows := by
    cases U with
    | d0 => simp [NDArray.item] at hu
    | stack l =>
      simp only [NDArray.item] at hu
      split at hu
      · rename_i r hr; simp only [Except.ok.injEq] at hu; subst hu; exact List.mem_of_getElem? hr
      · simp at hu
  simp only [Except.bind_ok']
  rcases getRow Pe k with e | Pk; · rfl
  simp only [Except.bind_ok']
  rcases getRow xe k with e | xk; · rfl
  simp only [Except.bind_ok', ExtendedKalmanFilter.smoothStep, KalmanFilter.smoothStep,
    linear_predict hm.jA (hf u hmem), hm.jA]

theorem linear_smooth {A B H : Arr F} {kf : KalmanFilter F} {ekf : ExtendedKalmanFilter F}
    {Z : NDArray F} {U : Option (NDArray F)} (hm : SameModel A B H Z.rows.length kf ekf)
    (hf : ∀ u ∈ (effU U Z).rows, PredictsAs A B ekf.f u) :
    ((ExtendedKalmanFilter.smooth Z U).run ekf).1 = ((KalmanFilter.smooth Z U).run kf).1 ∧
    ((ExtendedKalmanFilter.smooth Z U).run ekf).2.kalmanGains =
      ((KalmanFilter.smooth Z U).run kf).2.kalmanGains := by
  obtain ⟨h1, h2⟩ := linear_filter hm hf
  rw [KalmanFilter.smooth_eq, ExtendedKalmanFilter.smooth_eq]
  rcases he : (ExtendedKalmanFilter.filter Z U).run ekf with ⟨re, e'⟩
  rcases hk : (KalmanFilter.filter Z U).run kf with ⟨rk, k'⟩
  rw [he, hk] at h1 h2
  simp only at h1 h2
  subst h1
  rcases re with e | ⟨xe, Pe⟩
  · exact ⟨rfl, h2⟩
  refine ⟨?_, h2⟩
  obtain ⟨n, hn, hx, hP, -⟩ := ExtendedKalmanFilter.filter_rowsOk he
  obtain ⟨z, rfl, hz⟩ := NDArray.len_ok hn
  simp only
  have hc : ∀ last, back (ExtendedKalmanFilter.body ekf ekf.Q (checkNoneAndBroadcast U (.stack z)) xe Pe)
      (xe.length - 1) last =
      back (KalmanFilter.body kf.A kf.Q kf.B (checkNoneAndBroadcast U (.stack z)) kf.stateSize xe Pe)
        (xe.length - 1) last := by
    intro last
    refine back_congr (fun _ => True) (fun _ _ _ _ _ _ _ => trivial) (fun k x P hk _ => ?_) trivial
    refine linear_body hm hf ?_ x P
    simp only [NDArray.rows_stack]; omega
  simp only [hc]

/-! ## C13, C14 -/

/-- C13 with control: `f(x, u) = A x + B u`, `h(x) = H x`, constant Jacobians, no all-NaN control. -/
theorem C13_ekf_eq_kf (A B H : Arr F) (kf : KalmanFilter F) (ekf : ExtendedKalmanFilter F)
    (Z U : NDArray F) (hm : SameModel A B H Z.rows.length kf ekf)
    (hf : ∀ x u, ekf.f x (some u) = do
      let ax ← A.matmul x
      let bu ← B.matmul u
      ax.add bu)
    (hB : ¬ B.Blank) (hu : ∀ u ∈ U.rows, ¬ u.Blank) :
    ((ExtendedKalmanFilter.filter Z (some U)).run ekf).1 = ((KalmanFilter.filter Z (some U)).run kf).1 ∧
    ((ExtendedKalmanFilter.filter Z (some U)).run ekf).2.kalmanGains =
      ((KalmanFilter.filter Z (some U)).run kf).2.kalmanGains :=
  linear_filter hm fun u h x => by
    simp [hf, (Arr.isnanAll_false_iff _).2 hB, (Arr.isnanAll_false_iff _).2 (hu u (by simpa using h))]

/-- C13 without control: `f(x, u) = A x` whatever `u` is, and the standard filter's `B` (or the control)
is all-NaN. -/
theorem C13_ekf_eq_kf_no_control (A B H : Arr F) (kf : KalmanFilter F) (ekf : ExtendedKalmanFilter F)
    (Z : NDArray F) (U : Option (NDArray F)) (hm : SameModel A B H Z.rows.length kf ekf)
    (hf : ∀ x u, ekf.f x u = A.matmul x) (hB : B.Blank) :
    ((ExtendedKalmanFilter.filter Z U).run ekf).1 = ((KalmanFilter.filter Z U).run kf).1 ∧
    ((ExtendedKalmanFilter.filter Z U).run ekf).2.kalmanGains =
      ((KalmanFilter.filter Z U).run kf).2.kalmanGains :=
  linear_filter hm fun u _ x => by simp [hf, (Arr.isnanAll_iff_blank _).2 hB]

/-- C14 with control. -/
theorem C14_ekf_smooth_eq_kf (A B H : Arr F) (kf : KalmanFilter F) (ekf : ExtendedKalmanFilter F)
    (Z U : NDArray F) (hm : SameModel A B H Z.rows.length kf ekf)
    (hf : ∀ x u, ekf.f x (some u) = do
      let ax ← A.matmul x
      let bu ← B.matmul u
      ax.add bu)
    (hB : ¬ B.Blank) (hu : ∀ u ∈ U.rows, ¬ u.Blank) :
    ((ExtendedKalmanFilter.smooth Z (some U)).run ekf).1 = ((KalmanFilter.smooth Z (some U)).run kf).1 ∧
    ((ExtendedKalmanFilter.smooth Z (some U)).run ekf).2.kalmanGains =
      ((KalmanFilter.smooth Z (some U)).run kf).2.kalmanGains :=
  linear_smooth hm fun u h x => by
    simp [hf, (Arr.isnanAll_false_iff _).2 hB, (Arr.isnanAll_false_iff _).2 (hu u (by simpa using h))]

/-- C14 without control. -/
theorem C14_ekf_smooth_eq_kf_no_control (A B H : Arr F) (kf : KalmanFilter F)
    (ekf : ExtendedKalmanFilter F)
    (Z : NDArray F) (U : Option (NDArray F)) (hm : SameModel A B H Z.rows.length kf ekf)
    (hf : ∀ x u, ekf.f x u = A.matmul x) (hB : B.Blank) :
    ((ExtendedKalmanFilter.smooth Z U).run ekf).1 = ((KalmanFilter.smooth Z U).run kf).1 ∧
    ((ExtendedKalmanFilter.smooth Z U).run ekf).2.kalmanGains =
      ((KalmanFilter.smooth Z U).run kf).2.kalmanGains :=
  linear_smooth hm fun u _ x => by simp [hf, (Arr.isnanAll_iff_blank _).2 hB]

/-- The constant-velocity pair meets the hypotheses, and the runs return. -/
example : SameModel (Ex.mat2 (some 1) (some 1) (some 0) (some 1)) (Ex.col2 (some (1/2)) (some 1))
    (Ex.row2 (some 1) (some 0)) Ex.zs.rows.length (Ex.cv 3) (Ex.ecv 3) where
  hA := ⟨3, le_refl _, rfl⟩
  hB := ⟨3, le_refl _, rfl⟩
  hH := ⟨3, le_refl _, rfl⟩
  x := rfl
  P := rfl
  Q := rfl
  R := rfl
  size := rfl
  ident := rfl
  gains := rfl
  jA _ _ := rfl
  jH _ := rfl
  h _ := rfl
example : (∀ u ∈ Ex.us.rows, ¬ u.Blank) ∧ ¬ (Ex.col2 (some (1/2)) (some 1)).Blank := by
  simp only [← Arr.isnanAll_false_iff]
  constructor
  · intro u hu
    simp only [Ex.us, NDArray.rows_stack, List.mem_cons, List.not_mem_nil, or_false] at hu
    rcases hu with rfl | rfl | rfl <;> rfl
  · rfl

end KK
