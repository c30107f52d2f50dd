import Verif.Proofs.Layout
import Verif.Test.Encode
import Verif.Test.Pushed
import Verif.Proofs.Transfer

/-! # C53: a scalar noise entry is broadcast to every entry of the matrix -/

set_option linter.unusedSectionVars false
set_option linter.unusedSimpArgs false

namespace KK

variable {F : Type}

/-- The `k x k` array with a scalar's value in *every* entry; other arrays are left alone. -/
def Arr.full (k : ℕ) : Arr F → Arr F
  | .scalar d x => .mat d (Matrix.of fun (_ _ : Fin k) => x)
  | a => a

/-- `Arr.full` on every row. -/
def NDArray.full (k : ℕ) : NDArray F → NDArray F
  | .d0 d x => .d0 d x
  | .stack rows => .stack (rows.map (Arr.full k))

variable [Backend F]

theorem add_full {n : ℕ} (d : DType) (M : Matrix (Fin n) (Fin n) F) (Q : Arr F) :
    (Arr.mat d M).add (Q.full n) = (Arr.mat d M).add Q := by
  cases Q with
  | scalar e x => rw [Arr.full, Arr.add_mm, Arr.add_ms]; rfl
  | vec => rfl
  | mat => rfl

@[simp] theorem NDArray.full_rows (k : ℕ) (a : NDArray F) : (a.full k).rows = a.rows.map (Arr.full k) := by
  cases a <;> rfl

theorem NDArray.full_item (k j : ℕ) (a : NDArray F) : (a.full k).item j = (a.item j).map (Arr.full k) := by
  cases a with
  | d0 => rfl
  | stack rows =>
    simp only [NDArray.full, NDArray.item, List.getElem?_map]
    rcases rows[j]? with _ | r <;> rfl

theorem NDArray.full_iterable (k : ℕ) (a : NDArray F) : (a.full k).Iterable ↔ a.Iterable := by
  cases a <;> rfl

section
variable {ρ : Type} (step : ρ → Arr F → Arr F → StepOut F)

theorem trace_map_congr (f : ρ → ρ) (inv : Arr F → Arr F → Prop) (rs : List ρ)
    (heq : ∀ r ∈ rs, ∀ x P, inv x P → step (f r) x P = step r x P)
    (hs : ∀ r ∈ rs, ∀ x P g xP o, inv x P → step r x P = (g, .ok (xP, o)) → o = xP ∧ inv xP.1 xP.2)
    (x P : Arr F) (hi : inv x P) : trace step (rs.map f) x P = trace step rs x P := by
  induction rs generalizing x P with
  | nil => rfl
  | cons r rs ih =>
    simp only [List.map_cons, trace, heq r (by simp) x P hi]
    rcases hr : step r x P with ⟨g, e | ⟨xP, out⟩⟩
    · rfl
    · simp only
      obtain ⟨-, hi'⟩ := hs r (by simp) x P g xP out hi hr
      rw [ih (fun r' h => heq r' (by simp [h])) (fun r' h => hs r' (by simp [h])) _ _ hi']

end

namespace KalmanFilter

/-- The same filter, every scalar `Q_k` (`R_k`) replaced by the `n x n` (`m x m`) array with that value in
every entry. -/
def fullNoise (kf : KalmanFilter F) (n m : ℕ) : KalmanFilter F :=
  { kf with Q := kf.Q.full n, R := kf.R.full m }

/-- `Arr.full` on the noise entries of a row. -/
def fullRow (n m : ℕ) (r : Row F) : Row F :=
  (r.1, r.2.1, r.2.2.1, r.2.2.2.1, r.2.2.2.2.1, r.2.2.2.2.2.1.full n, r.2.2.2.2.2.2.full m)

theorem predict_full {n : ℕ} {Ak x P : Arr F} (Bk uk : Option (Arr F)) (Qk : Arr F)
    (hA : Ak.shape = [n, n]) (hP : P.shape = [n, n]) :
    predict Ak x Bk uk P (Qk.full n) = predict Ak x Bk uk P Qk := by
  obtain ⟨dA, A, rfl⟩ := Arr.eq_mat hA
  obtain ⟨dP, P, rfl⟩ := Arr.eq_mat hP
  simp only [predict, Arr.T_mat, Arr.matmul_mm, Except.bind_ok', add_full]

theorem gain_full {n m : ℕ} {Hk P : Arr F} (Rk : Arr F) (hH : Hk.shape = [m, n]) (hP : P.shape = [n, n]) :
    gain Hk P (Rk.full m) = gain Hk P Rk := by
  obtain ⟨dA, A, rfl⟩ := Arr.eq_mat hH
  obtain ⟨dP, P, rfl⟩ := Arr.eq_mat hP
  simp only [gain, Arr.T_mat, Arr.matmul_mm, Except.bind_ok', add_full]

theorem step_full {n m : ℕ} {r : Row F} {x P : Arr F}
    (h : RowLayout n m r.1 r.2.1 r.2.2.1 r.2.2.2.1 r.2.2.2.2.1 r.2.2.2.2.2.1 r.2.2.2.2.2.2)
    (hs : Shaped n x P) :
    step n (Arr.identity n) (fullRow n m r) x P = step n (Arr.identity n) r x P := by
  obtain ⟨Ak, Hk, Bk, uk, zk, Qk, Rk⟩ := r
  simp only at h
  obtain ⟨d, xp, e, Pp, hp⟩ := predict_layout h hs.1 hs.2
  simp only [step, fullRow, predict_full (some Bk) (some uk) Qk h.A hs.2, hp]
  rw [gain_full Rk h.H rfl]

theorem zrows_full (kf : KalmanFilter F) (Z : NDArray F) (U : Option (NDArray F)) (n m : ℕ) :
    (kf.fullNoise n m).zrows Z U = (kf.zrows Z U).map (fullRow n m) := by
  simp only [zrows, fullNoise, NDArray.full_rows]
  rw [List.zip_map]
  simp only [List.zip_map_right]
  rfl

theorem tr_full {kf : KalmanFilter F} {Z : NDArray F} {U : Option (NDArray F)} {n m : ℕ}
    (h : Layout n m kf Z U) : (kf.fullNoise n m).tr Z U = kf.tr Z U := by
  have hr := mem_zrows h
  simp only [tr, zrows_full]
  show trace (step kf.stateSize kf.I) _ kf.xk kf.Pk = _
  rw [h.size, h.ident]
  exact trace_map_congr _ _ (Shaped n) _ (fun r hm x P => step_full (hr r hm))
    (fun r hm x P g xP o => step_keeps (hr r hm) g xP o) _ _ ⟨h.x, h.P⟩

theorem fullNoise_iterable (kf : KalmanFilter F) (Z : NDArray F) (U : Option (NDArray F)) (n m : ℕ) :
    (kf.fullNoise n m).AllIterable Z U ↔ kf.AllIterable Z U := by
  constructor
  · rintro ⟨h1, h2, h3, h4, h5, h6, h7⟩
    exact ⟨h1, h2, h3, h4, h5, (NDArray.full_iterable _ _).1 h6, (NDArray.full_iterable _ _).1 h7⟩
  · rintro ⟨h1, h2, h3, h4, h5, h6, h7⟩
    exact ⟨h1, h2, h3, h4, h5, (NDArray.full_iterable _ _).2 h6, (NDArray.full_iterable _ _).2 h7⟩

theorem steps_full (kf : KalmanFilter F) (Z : NDArray F) (U : Option (NDArray F)) (n m : ℕ) :
    (kf.fullNoise n m).steps Z U = kf.steps Z U := by
  simp [steps, fullNoise]

end KalmanFilter

/-- C53.  On a well-shaped run a scalar `Q_k` or `R_k` means the matrix with that value in EVERY entry: `filter`
with the scalars replaced by those matrices gives the same result (value or exception) and records the
same gains. -/
theorem C53_scalar_noise_is_full_matrix {kf : KalmanFilter F} {Z : NDArray F} {U : Option (NDArray F)} {n m : ℕ}
    (h : Layout n m kf Z U) (hi : kf.AllIterable Z U) :
    ((KalmanFilter.filter Z U).run (kf.fullNoise n m)).1 = ((KalmanFilter.filter Z U).run kf).1 ∧
    ((KalmanFilter.filter Z U).run (kf.fullNoise n m)).2.kalmanGains =
      ((KalmanFilter.filter Z U).run kf).2.kalmanGains := by
  rw [KalmanFilter.filter_iter hi, KalmanFilter.filter_iter ((KalmanFilter.fullNoise_iterable _ _ _ _ _).2 hi),
    KalmanFilter.tr_full h, KalmanFilter.steps_full]
  exact ⟨rfl, rfl⟩

/-- C53 for `smooth` (every sequence at least as long as `Z`). -/
theorem C53_smooth_scalar_noise_is_full_matrix {kf : KalmanFilter F} {Z : NDArray F} {U : Option (NDArray F)}
    {n m : ℕ} (h : Layout n m kf Z U) (hi : kf.AllIterable Z U) (hlen : kf.steps Z U = Z.rows.length) :
    ((KalmanFilter.smooth Z U).run (kf.fullNoise n m)).1 = ((KalmanFilter.smooth Z U).run kf).1 ∧
    ((KalmanFilter.smooth Z U).run (kf.fullNoise n m)).2.kalmanGains =
      ((KalmanFilter.smooth Z U).run kf).2.kalmanGains := by
  obtain ⟨h1, h2⟩ := C53_scalar_noise_is_full_matrix h hi
  rw [KalmanFilter.smooth_eq, KalmanFilter.smooth_eq]
  rcases hf : (KalmanFilter.filter Z U).run kf with ⟨e | ⟨xe, Pe⟩, kf'⟩
  all_goals rcases hf' : (KalmanFilter.filter Z U).run (kf.fullNoise n m) with ⟨r, kf''⟩
  all_goals rw [hf, hf'] at h1 h2
  all_goals simp only at h1 h2
  all_goals subst h1
  · exact ⟨rfl, h2⟩
  refine ⟨?_, h2⟩
  obtain ⟨N, hN, hx, hP, hxs, hPs⟩ := KalmanFilter.filter_rowsOk hf
  have hNZ : Z.rows.length = N := by
    obtain ⟨z, rfl⟩ := hi.Z.exists
    simpa [NDArray.len, NDArray.rows] using hN
  simp only
  rcases xe[xe.length - 1]? with _ | x
  · rfl
  rcases Pe[xe.length - 1]? with _ | P
  · rfl
  simp only
  congr 1
  refine back_congr (fun _ => True) (fun _ _ _ _ _ _ _ => trivial) (fun k x P hk _ => ?_) trivial
  have hkk : k + 1 < (kf.zrows Z U).length := by rw [KalmanFilter.zrows_length, hlen]; omega
  have hrow := KalmanFilter.mem_zrows h _ (List.getElem_mem hkk)
  have hget : (kf.zrows Z U)[k + 1]? = some (kf.zrows Z U)[k + 1] := List.getElem?_eq_getElem hkk
  generalize (kf.zrows Z U)[k + 1] = row at hrow hget
  obtain ⟨Ak, Hk, Bk, uk, zk, Qk, Rk⟩ := row
  simp only [KalmanFilter.zrows, List.getElem?_zip_eq_some] at hget
  obtain ⟨hA, -, -, -, -, -, -⟩ := hget
  have hA' : kf.A.item (k + 1) = .ok Ak := by
    obtain ⟨a, ha⟩ := hi.A.exists
    rw [ha] at hA ⊢
    simp only [NDArray.rows] at hA
    simp only [NDArray.item, hA]
  have hPk : Pe[k]? = some (Pe[k]'(by omega)) := List.getElem?_eq_getElem (by omega)
  have hPsh := (hPs (Pe[k]'(by omega)) (List.getElem_mem _)).1
  rw [h.size] at hPsh
  show KalmanFilter.body kf.A (kf.Q.full n) kf.B _ kf.stateSize xe Pe k x P = _
  simp only [KalmanFilter.body, hA', NDArray.full_item, Except.bind_ok', getRow_some hPk]
  rcases kf.Q.item (k + 1) with e | Qk
  · rfl
  simp only [Except.map, Except.bind_ok', KalmanFilter.smoothStep]
  rcases kf.B.item (k + 1) with e | Bk
  · rfl
  rcases (checkNoneAndBroadcast U Z).item (k + 1) with e | uk
  · rfl
  rcases getRow xe k with e | xk
  · rfl
  simp only [Except.bind_ok', KalmanFilter.predict_full _ _ _ hrow.A hPsh]

namespace ExtendedKalmanFilter
open KalmanFilter (Shaped)

/-- As `KalmanFilter.fullNoise`. -/
def fullNoise (kf : ExtendedKalmanFilter F) (n m : ℕ) : ExtendedKalmanFilter F :=
  { kf with Q := kf.Q.full n, R := kf.R.full m }

/-- `Arr.full` on the noise entries of a row. -/
def fullRow (n m : ℕ) (r : Row F) : Row F := (r.1, r.2.1, r.2.2.1.full n, r.2.2.2.full m)

theorem predict_full {kf : ExtendedKalmanFilter F} {Z : NDArray F} {U : Option (NDArray F)} {n m : ℕ}
    (h : ExtLayout n m kf Z U) {x P : Arr F} (uk : Option (Arr F)) (Qk : Arr F)
    (hx : x.shape = [n]) (hP : P.shape = [n, n]) :
    predict kf x uk P (Qk.full n) = predict kf x uk P Qk := by
  obtain ⟨dP, P, rfl⟩ := Arr.eq_mat hP
  simp only [predict]
  rcases hA : kf.jacobianA x uk with e | Ak
  · rfl
  obtain ⟨dA, A, rfl⟩ := Arr.eq_mat (h.jA _ _ _ hx hA)
  simp only [predict, Arr.T_mat, Arr.matmul_mm, Except.bind_ok', add_full]

theorem step_full {kf : ExtendedKalmanFilter F} {Z : NDArray F} {U : Option (NDArray F)} {n m : ℕ}
    (h : ExtLayout n m kf Z U) {r : Row F} {x P : Arr F}
    (hQ : r.2.2.1.shape = [n, n] ∨ r.2.2.1.shape = [])
    (hs : Shaped n x P) : step kf (fullRow n m r) x P = step kf r x P := by
  obtain ⟨uk, zk, Qk, Rk⟩ := r
  simp only [step, fullRow, predict_full h (some uk) Qk hs.1 hs.2]
  rcases hp : predict kf x (some uk) P Qk with e | ⟨xp, Pp⟩
  · rfl
  simp only
  rcases hH : kf.jacobianH xp with e | Hk
  · rfl
  have hpp : xp.shape = [n] ∧ Pp.shape = [n, n] := by
    simp only [predict] at hp
    rcases hA : kf.jacobianA x (some uk) with e | Ak; · simp [hA] at hp
    obtain ⟨dA, A, rfl⟩ := Arr.eq_mat (h.jA _ _ _ hs.1 hA)
    obtain ⟨dP, P, rfl⟩ := Arr.eq_mat hs.2
    rcases hf : kf.f x (some uk) with e | xp'; · simp [hA, hf] at hp
    obtain ⟨e, Pp', hPp⟩ := add_noise (dA.promote (dP.promote dA))
      (Backend.gemm A (Backend.gemm P A.transpose)) hQ
    simp only [hA, hf, Except.bind_ok', Arr.T_mat, Arr.matmul_mm, hPp, Except.ok.injEq, Prod.mk.injEq] at hp
    obtain ⟨rfl, rfl⟩ := hp
    exact ⟨h.f _ _ _ hs.1 hf, rfl⟩
  simp only [ext_gain_eq, KalmanFilter.gain_full Rk (h.jH _ _ hpp.1 hH) hpp.2]

theorem zrows_full (kf : ExtendedKalmanFilter F) (Z : NDArray F) (U : Option (NDArray F)) (n m : ℕ) :
    (kf.fullNoise n m).zrows Z U = (kf.zrows Z U).map (fullRow n m) := by
  simp only [zrows, fullNoise, NDArray.full_rows]
  rw [List.zip_map]
  simp only [List.zip_map_right]
  rfl

theorem tr_full {kf : ExtendedKalmanFilter F} {Z : NDArray F} {U : Option (NDArray F)} {n m : ℕ}
    (h : ExtLayout n m kf Z U) : (kf.fullNoise n m).tr Z U = kf.tr Z U := by
  have hr := mem_zrows h
  simp only [tr, zrows_full]
  show trace (step kf) _ kf.xk kf.Pk = _
  exact trace_map_congr _ _ (Shaped n) _ (fun r hm x P => step_full h (hr r hm).2.1)
    (fun r hm x P g xP o => step_keeps h (hr r hm).1 (hr r hm).2.1 (hr r hm).2.2 g xP o) _ _ ⟨h.x, h.P⟩

theorem fullNoise_iterable (kf : ExtendedKalmanFilter F) (Z : NDArray F) (U : Option (NDArray F)) (n m : ℕ)
    (h : kf.AllIterable Z U) : (kf.fullNoise n m).AllIterable Z U := by
  obtain ⟨h1, h2, h3, h4⟩ := h
  exact ⟨h1, h2, (NDArray.full_iterable _ _).2 h3, (NDArray.full_iterable _ _).2 h4⟩

theorem steps_full (kf : ExtendedKalmanFilter F) (Z : NDArray F) (U : Option (NDArray F)) (n m : ℕ) :
    (kf.fullNoise n m).steps Z U = kf.steps Z U := by
  simp [steps, fullNoise]

end ExtendedKalmanFilter

/-- C53 for the extended filter and smoother, whatever the (well-shaped) callbacks are. -/
theorem C53_ekf_scalar_noise_is_full_matrix {kf : ExtendedKalmanFilter F} {Z : NDArray F}
    {U : Option (NDArray F)} {n m : ℕ} (h : ExtLayout n m kf Z U) (hi : kf.AllIterable Z U) :
    ((ExtendedKalmanFilter.filter Z U).run (kf.fullNoise n m)).1 =
      ((ExtendedKalmanFilter.filter Z U).run kf).1 ∧
    ((ExtendedKalmanFilter.smooth Z U).run (kf.fullNoise n m)).1 =
      ((ExtendedKalmanFilter.smooth Z U).run kf).1 ∧
    ((ExtendedKalmanFilter.filter Z U).run (kf.fullNoise n m)).2.kalmanGains =
      ((ExtendedKalmanFilter.filter Z U).run kf).2.kalmanGains := by
  have hfil : ((ExtendedKalmanFilter.filter Z U).run (kf.fullNoise n m)).1 =
      ((ExtendedKalmanFilter.filter Z U).run kf).1 ∧
    ((ExtendedKalmanFilter.filter Z U).run (kf.fullNoise n m)).2.kalmanGains =
      ((ExtendedKalmanFilter.filter Z U).run kf).2.kalmanGains := by
    rw [ExtendedKalmanFilter.filter_iter hi,
      ExtendedKalmanFilter.filter_iter (ExtendedKalmanFilter.fullNoise_iterable _ _ _ _ _ hi),
      ExtendedKalmanFilter.tr_full h, ExtendedKalmanFilter.steps_full]
    exact ⟨rfl, rfl⟩
  refine ⟨hfil.1, ?_, hfil.2⟩
  obtain ⟨h1, h2⟩ := hfil
  rw [ExtendedKalmanFilter.smooth_eq, ExtendedKalmanFilter.smooth_eq]
  rcases hf : (ExtendedKalmanFilter.filter Z U).run kf with ⟨e | ⟨xe, Pe⟩, kf'⟩
  all_goals rcases hf' : (ExtendedKalmanFilter.filter Z U).run (kf.fullNoise n m) with ⟨r, kf''⟩
  all_goals rw [hf, hf'] at h1 h2
  all_goals simp only at h1 h2
  all_goals subst h1
  · rfl
  obtain ⟨N, hN, hx, hP, hxs, hPs⟩ := ExtendedKalmanFilter.filter_rowsOk hf
  simp only
  rcases xe[xe.length - 1]? with _ | x
  · rfl
  rcases Pe[xe.length - 1]? with _ | P
  · rfl
  simp only
  congr 1
  refine back_congr (fun _ => True) (fun _ _ _ _ _ _ _ => trivial) (fun k x P hk _ => ?_) trivial
  have hPk : Pe[k]? = some (Pe[k]'(by omega)) := List.getElem?_eq_getElem (by omega)
  have hPsh := (hPs (Pe[k]'(by omega)) (List.getElem_mem _)).1
  have hxk : xe[k]? = some (xe[k]'(by omega)) := List.getElem?_eq_getElem (by omega)
  have hxsh := (hxs (xe[k]'(by omega)) (List.getElem_mem _)).1
  rw [h.size] at hPsh hxsh
  show ExtendedKalmanFilter.body kf (kf.Q.full n) _ xe Pe k x P = _
  simp only [ExtendedKalmanFilter.body, NDArray.full_item, Except.bind_ok', getRow_some hPk, getRow_some hxk]
  rcases kf.Q.item (k + 1) with e | Qk
  · rfl
  simp only [Except.map, Except.bind_ok', ExtendedKalmanFilter.smoothStep]
  rcases (checkNoneAndBroadcast U Z).item (k + 1) with e | uk
  · rfl
  simp only [Except.bind_ok', ExtendedKalmanFilter.predict_full h _ _ hxsh hPsh]

/-! ### Consequences in exact arithmetic -/

section exact
open Matrix
variable [Platform]

theorem not_solvable_of_mem {n m : ℕ} {s : LinStep n m} (hs : ∀ p, (s.innov p).det = 0) :
    ∀ (ss : List (LinStep n m)) (b : Belief n), s ∈ ss → ¬ Solvable b ss
  | t :: ss, b, hm, h => by
    rcases List.mem_cons.1 hm with rfl | hm
    · exact h.1 (hs _)
    · exact not_solvable_of_mem hs ss _ hm h.2

/-- C53: with a scalar `R_k` and two sensors whose rows of `H_k` coincide (a duplicated sensor), the innovation
covariance has two equal rows: `filter` raises LinAlgError, whatever the value of the scalar. -/
theorem C53_duplicated_sensor_raises {n m : ℕ} {kf : KalmanFilter Fl} {Z : NDArray Fl} {U : Option (NDArray Fl)}
    {b : Belief n} {ss : List (LinStep n m)} (h : Represents kf Z U b ss) {k : ℕ} {d : DType} {r : Fl}
    (hk : k < kf.steps Z U) (hR : kf.R.rows[k]? = some (.scalar d r))
    {s : LinStep n m} (hs : ss[k]? = some s) {i j : Fin m} (hij : i ≠ j) (hH : s.H i = s.H j) :
    FilterSingular kf Z U := by
  refine h.singular (not_solvable_of_mem (s := s) ?_ ss b (List.mem_of_getElem? hs))
  intro p
  have hkk : k < (kf.zrows Z U).length := by rw [KalmanFilter.zrows_length]; exact hk
  have hget : (kf.zrows Z U)[k]? = some (kf.zrows Z U)[k] := List.getElem?_eq_getElem hkk
  generalize (kf.zrows Z U)[k] = row at hget
  obtain ⟨Ak, Hk, Bk, uk, zk, Qk, Rk⟩ := row
  simp only [KalmanFilter.zrows, List.getElem?_zip_eq_some] at hget
  obtain ⟨h1, h2, h3, h4, h5, h6, h7⟩ := hget
  have hst := h.rows k s _ _ _ _ _ _ _ hs h1 h2 h3 h4 h5 h6 h7
  rw [hR] at h7
  simp only [Option.some.injEq] at h7
  subst h7
  obtain ⟨q, hq⟩ : ∃ q : ℝ, ∀ i j, s.R i j = q := by
    rcases hst.R with ⟨e, he⟩ | ⟨e, q, -, he⟩
    · simp at he
    · exact ⟨q, fun i j => by rw [he]⟩
  refine Matrix.det_zero_of_row_eq hij ?_
  funext l
  simp only [LinStep.innov, innovCov, hq, Matrix.add_apply, Matrix.mul_apply, hH]

/-- One step, one state, two sensors (one of which sees nothing), variance entry as given. -/
noncomputable def Ex.twoSensors (R : Arr Fl) : KalmanFilter Fl where
  A := .stack [.mat .float64 (finM (1 : Matrix (Fin 1) (Fin 1) ℝ))]
  xk := .vec .float64 (finV (0 : Fin 1 → ℝ))
  B := .stack [.mat .float64 (finM (0 : Matrix (Fin 1) (Fin 1) ℝ))]
  Pk := .mat .float64 (finM (1 : Matrix (Fin 1) (Fin 1) ℝ))
  H := .stack [.mat .float64 (finM (!![1; 0] : Matrix (Fin 2) (Fin 1) ℝ))]
  Q := .stack [.scalar .float64 (.fin 0)]
  R := .stack [R]
  stateSize := 1
  I := Arr.identity 1
  kalmanGains := []

/-- Its only observation. -/
noncomputable def Ex.twoZ : NDArray Fl := .stack [.vec .float64 (finV (![1, 1] : Fin 2 → ℝ))]
/-- Its only control. -/
noncomputable def Ex.twoU : NDArray Fl := .stack [.vec .float64 (finV (0 : Fin 1 → ℝ))]

/-- The matrix with 1 in every entry. -/
def Ex.onesM : Matrix (Fin 2) (Fin 2) ℝ := Matrix.of fun _ _ => 1

/-- Its model. -/
noncomputable def Ex.twoStep (R : Matrix (Fin 2) (Fin 2) ℝ) : LinStep 1 2 := ⟨1, 0, !![1; 0], 0, R, ![1, 1]⟩

theorem Ex.two_represents {R : Matrix (Fin 2) (Fin 2) ℝ} {a : Arr Fl} (hR : NoiseIs R a) :
    Represents (Ex.twoSensors a) Ex.twoZ (some Ex.twoU) (⟨0, 1⟩ : Belief 1) [Ex.twoStep R] where
  iter := ⟨trivial, trivial, trivial, trivial, trivial, trivial, trivial⟩
  len := rfl
  size := rfl
  ident := rfl
  x := .inl ⟨_, rfl⟩
  P := ⟨_, rfl⟩
  rows := by
    rintro (_ | k) s Ak Hk Bk uk zk Qk Rk hs hA hH hB hu hz hQ hR'
    · simp only [Ex.twoSensors, Ex.twoZ, Ex.twoU, effU, checkNoneAndBroadcast, NDArray.rows,
        List.getElem?_cons_zero, Option.some.injEq] at hs hA hH hB hu hz hQ hR'
      subst hs hA hH hB hu hz hQ hR'
      refine ⟨⟨_, rfl⟩, ⟨_, rfl⟩, .inr ⟨1, 0, 0, ⟨_, rfl⟩, ⟨_, rfl⟩, ?_⟩, .inl ⟨_, rfl⟩,
        .inr ⟨_, 0, rfl, rfl⟩, hR⟩
      simp [Ex.twoStep]
    · simp at hs
  col := .inl ⟨_, rfl⟩

theorem Ex.two_ones : Solvable (⟨0, 1⟩ : Belief 1) [Ex.twoStep Ex.onesM] ∧
    ((Ex.twoStep Ex.onesM).next ⟨0, 1⟩).P = 0 := by
  have hS : innovCov (!![1; 0] : Matrix (Fin 2) (Fin 1) ℝ) (priorCov 1 1 0) Ex.onesM = !![2, 1; 1, 1] := by
    ext i j; fin_cases i <;> fin_cases j <;> norm_num [innovCov, priorCov, Ex.onesM, Matrix.mul_apply, Matrix.vecMul, dotProduct, Fin.sum_univ_succ]
  constructor
  · simp [Solvable, Ex.twoStep, LinStep.innov, LinStep.predict, hS, Matrix.det_fin_two]
    norm_num
  · simp only [LinStep.next, LinStep.predict, LinStep.update, Ex.twoStep, postCov, kGain, hS]
    rw [Matrix.inv_def, Matrix.adjugate_fin_two]
    ext i j
    fin_cases i; fin_cases j
    norm_num [priorCov, Matrix.mul_apply, Fin.sum_univ_succ, Matrix.det_fin_two, Matrix.sub_apply]

theorem Ex.two_id : Solvable (⟨0, 1⟩ : Belief 1) [Ex.twoStep 1] ∧
    ((Ex.twoStep 1).next ⟨0, 1⟩).P = fun _ _ => 1 / 2 := by
  have hS : innovCov (!![1; 0] : Matrix (Fin 2) (Fin 1) ℝ) (priorCov 1 1 0) 1 = !![2, 0; 0, 1] := by
    ext i j; fin_cases i <;> fin_cases j <;> norm_num [innovCov, priorCov, Ex.onesM, Matrix.mul_apply, Matrix.vecMul, dotProduct, Fin.sum_univ_succ]
  constructor
  · simp [Solvable, Ex.twoStep, LinStep.innov, LinStep.predict, hS, Matrix.det_fin_two]
  · simp only [LinStep.next, LinStep.predict, LinStep.update, Ex.twoStep, postCov, kGain, hS]
    rw [Matrix.inv_def, Matrix.adjugate_fin_two]
    ext i j
    fin_cases i; fin_cases j
    norm_num [priorCov, Matrix.mul_apply, Fin.sum_univ_succ, Matrix.det_fin_two, Matrix.sub_apply]

/-- C53: a scalar variance is NOT "that variance for each sensor".  There is a run with two sensors, `R_k` the
scalar `1`, whose returned covariance is `0` (full confidence), while with `R_k` the identity matrix the
returned covariance is `1/2`. -/
theorem C53_scalar_is_not_identity :
    (∃ K, FilterReturns (n := 1) (m := 2) (Ex.twoSensors (.scalar .float64 (.fin 1))) Ex.twoZ (some Ex.twoU)
        [⟨((Ex.twoStep Ex.onesM).next ⟨0, 1⟩).x, 0⟩] [K]) ∧
    (∃ K, FilterReturns (n := 1) (m := 2) (Ex.twoSensors (.mat .float64 (finM (1 : Matrix (Fin 2) (Fin 2) ℝ)))) Ex.twoZ (some Ex.twoU)
        [⟨((Ex.twoStep 1).next ⟨0, 1⟩).x, fun _ _ => 1 / 2⟩] [K]) := by
  constructor
  · have := (Ex.two_represents (R := Ex.onesM) (.inr ⟨.float64, 1, rfl, rfl⟩)).returns Ex.two_ones.1
    refine ⟨(Ex.twoStep Ex.onesM).gain ((Ex.twoStep Ex.onesM).predict ⟨0, 1⟩), ?_⟩
    rw [filtered, filtered, gainsOf, gainsOf] at this
    rw [← Ex.two_ones.2]
    exact this
  · have := (Ex.two_represents (R := 1) (.inl ⟨.float64, rfl⟩)).returns Ex.two_id.1
    refine ⟨(Ex.twoStep 1).gain ((Ex.twoStep 1).predict ⟨0, 1⟩), ?_⟩
    rw [filtered, filtered, gainsOf, gainsOf] at this
    rw [← Ex.two_id.2]
    exact this

-- C53: the generic theorem applies to the two-sensor run with a scalar `R`.
example : Layout 1 2 (Ex.twoSensors (.scalar .float64 (.fin 1))) Ex.twoZ (some Ex.twoU) where
  x := rfl
  P := rfl
  size := rfl
  ident := rfl
  rows := by
    rintro (_ | k) Ak Hk Bk uk zk Qk Rk hA hH hB hu hz hQ hR
    · simp only [Ex.twoSensors, Ex.twoZ, Ex.twoU, effU, checkNoneAndBroadcast, NDArray.rows,
        List.getElem?_cons_zero, Option.some.injEq] at hA hH hB hu hz hQ hR
      subst hA hH hB hu hz hQ hR
      exact ⟨rfl, rfl, .inr (.inr ⟨1, rfl, rfl⟩), .inl rfl, .inr rfl, .inr rfl⟩
    · simp [Ex.twoSensors, NDArray.rows] at hA

end exact

/-- C53, extended filter: both noise covariances are scalars; `filter` and `smooth` return. -/
example : let kf := Ex.pushed (.scalar .float64 (some (1/4))) (.scalar .float64 (some 1)) 3
    ExtLayout 2 1 kf Ex.zs (some Ex.us) ∧ kf.AllIterable Ex.zs (some Ex.us) ∧
    (∃ r k, (ExtendedKalmanFilter.smooth Ex.zs (some Ex.us)).run kf = (.ok r, k)) :=
  ⟨Ex.pushed_layout _ _ 3 [some 1, some 3, some 2] _ (.inr rfl) (.inr rfl), ⟨trivial, trivial, trivial, trivial⟩,
    (Ex.returned_iff _).1 (by decide +kernel)⟩

end KK
