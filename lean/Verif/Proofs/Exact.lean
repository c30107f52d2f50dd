import Verif.Spec.Textbook
import Verif.Proofs.Runs
import Verif.Proofs.Layout

/-!
# Array operations on arrays that hold real matrices
-/

set_option linter.unusedSectionVars false

namespace KK

open Matrix

variable [Platform]

theorem Fl.sum_fin {ι : Type} (s : Finset ι) (f : ι → ℝ) :
    ∑ i ∈ s, Fl.fin (f i) = Fl.fin (∑ i ∈ s, f i) := by
  classical
  induction s using Finset.induction_on with
  | empty => rfl
  | insert a s ha ih => rw [Finset.sum_insert ha, Finset.sum_insert ha, ih, Fl.fin_add]

theorem gemm_fin {m k n : ℕ} (A : Matrix (Fin m) (Fin k) ℝ) (B : Matrix (Fin k) (Fin n) ℝ) :
    Backend.gemm (finM A) (finM B) = finM (A * B) := by
  funext i j
  simp only [Backend.gemm, finM, Fl.fin_mul, Fl.sum_fin, Matrix.mul_apply]

theorem mAdd_fin {m n : ℕ} (A B : Matrix (Fin m) (Fin n) ℝ) : Arr.mAdd (finM A) (finM B) = finM (A + B) := rfl

theorem mSub_fin {m n : ℕ} (A B : Matrix (Fin m) (Fin n) ℝ) : Arr.mSub (finM A) (finM B) = finM (A - B) := rfl

theorem mAddS_fin {m n : ℕ} (A : Matrix (Fin m) (Fin n) ℝ) (r : ℝ) :
    Arr.mAddS (finM A) (.fin r) = finM (A + Matrix.of (fun _ _ => r)) := rfl

theorem idM_fin (n : ℕ) : (idM n : Matrix (Fin n) (Fin n) Fl) = finM 1 := by
  funext i j
  simp only [idM, finM, Matrix.one_apply]
  split <;> rfl

theorem finM_T {m n : ℕ} (A : Matrix (Fin m) (Fin n) ℝ) : (finM A).transpose = finM Aᵀ := rfl

theorem toReal_finM {m n : ℕ} (A : Matrix (Fin m) (Fin n) ℝ) : (finM A).map Fl.toReal = A := by
  ext i j; rfl

theorem noNan_finM {m n : ℕ} (A : Matrix (Fin m) (Fin n) ℝ) : NoNan (finM A) := fun _ _ => rfl

theorem solve_fin {n k : ℕ} (S : Matrix (Fin n) (Fin n) ℝ) (B : Matrix (Fin n) (Fin k) ℝ) :
    Backend.solve (finM S) (finM B) = if S.det = 0 then none else some (finM (S⁻¹ * B)) := by
  simp only [Backend.solve, exactSolve, noNan_finM, toReal_finM, and_self, if_true]
  rfl

/-- Column matrix of a vector. -/
def colM {n : ℕ} (v : Fin n → ℝ) : Matrix (Fin n) (Fin 1) ℝ := fun i _ => v i

theorem mul_colM {m n : ℕ} (A : Matrix (Fin m) (Fin n) ℝ) (v : Fin n → ℝ) : A * colM v = colM (A *ᵥ v) := by
  ext i j
  simp [Matrix.mul_apply, colM, Matrix.mulVec, dotProduct]

namespace Arr

variable {d e : DType} {m n k : ℕ}

theorem fmm (M : Matrix (Fin m) (Fin k) ℝ) (N : Matrix (Fin k) (Fin n) ℝ) :
    (Arr.mat d (finM M)).matmul (.mat e (finM N)) = .ok (.mat (d.promote e) (finM (M * N))) := by
  rw [matmul_mm, gemm_fin]

theorem fmv (M : Matrix (Fin m) (Fin k) ℝ) (v : Fin k → ℝ) :
    (Arr.mat d (finM M)).matmul (.vec e (finV v)) = .ok (.vec (d.promote e) (finV (M *ᵥ v))) := by
  rw [matmul_mv]
  congr 2
  funext i
  simp only [Backend.gemm, finM, finV, Fl.fin_mul, Fl.sum_fin, Matrix.mulVec, dotProduct]

theorem fT (M : Matrix (Fin m) (Fin n) ℝ) : (Arr.mat d (finM M)).T = .mat d (finM Mᵀ) := rfl

theorem fadd_mm (M N : Matrix (Fin m) (Fin n) ℝ) :
    (Arr.mat d (finM M)).add (.mat e (finM N)) = .ok (.mat (d.promote e) (finM (M + N))) := by
  rw [add_mm, mAdd_fin]

theorem fsub_mm (M N : Matrix (Fin m) (Fin n) ℝ) :
    (Arr.mat d (finM M)).sub (.mat e (finM N)) = .ok (.mat (d.promote e) (finM (M - N))) := by
  rw [sub_mm, mSub_fin]

theorem fadd_vv (v w : Fin n → ℝ) :
    (Arr.vec d (finV v)).add (.vec e (finV w)) = .ok (.vec (d.promote e) (finV (v + w))) := by
  rw [add_vv]; rfl

theorem fsub_vv (v w : Fin n → ℝ) :
    (Arr.vec d (finV v)).sub (.vec e (finV w)) = .ok (.vec (d.promote e) (finV (v - w))) := by
  rw [sub_vv]; rfl

theorem fsub_sv (r : ℝ) (w : Fin n → ℝ) :
    (Arr.scalar d (.fin r)).sub (.vec e (finV w)) =
      .ok (.vec (d.promote e) (finV ((fun _ => r) - w))) := by
  rw [sub_sv]; rfl

theorem fsub_sm (r : ℝ) (M : Matrix (Fin m) (Fin n) ℝ) :
    (Arr.scalar d (.fin r)).sub (.mat e (finM M)) =
      .ok (.mat (d.promote e) (finM (Matrix.of (fun _ _ => r) - M))) := by
  simp only [sub, zipWith, zipWith2, dims2, dtype, bdim_one_left, Except.bind_ok', toMat_self]
  rfl

theorem fadd_noise {M : Matrix (Fin n) (Fin n) ℝ} {Q : Matrix (Fin n) (Fin n) ℝ} {a : Arr Fl}
    (h : NoiseIs Q a) : ∃ d', (Arr.mat d (finM M)).add a = .ok (.mat d' (finM (M + Q))) := by
  rcases h with ⟨e, rfl⟩ | ⟨e, r, rfl, rfl⟩
  · exact ⟨_, fadd_mm _ _⟩
  · exact ⟨_, by rw [add_ms, mAddS_fin]; rfl⟩

theorem fsolve (S : Matrix (Fin n) (Fin n) ℝ) (B : Matrix (Fin n) (Fin k) ℝ) :
    Arr.solve (.mat d (finM S)) (.mat e (finM B)) =
      if S.det = 0 then .error .linAlgError else .ok (.mat .float64 (finM (S⁻¹ * B))) := by
  rw [solve_mm, solve_fin]
  by_cases h : S.det = 0
  · simp only [h, if_true]
  · simp only [h, if_false]

theorem fadd_mv1 (v w : Fin 1 → ℝ) :
    (Arr.mat d (finM (colM v))).add (.vec e (finV w)) =
      .ok (.mat (d.promote e) (finM (colM (v + w)))) := by
  simp only [add, zipWith, zipWith2, dims2, dtype, bdim_self, Except.bind_ok', toMat, stretch, dite_true]
  refine congrArg (fun M => Except.ok (Arr.mat _ M)) ?_
  funext i j
  have hj : j = i := Subsingleton.elim _ _
  subst hj; rfl

theorem fsub_vm1 (v w : Fin 1 → ℝ) :
    (Arr.vec d (finV v)).sub (.mat e (finM (colM w))) =
      .ok (.mat (d.promote e) (finM (colM (v - w)))) := by
  simp only [sub, zipWith, zipWith2, dims2, dtype, bdim_self, Except.bind_ok', toMat, stretch, dite_true]
  refine congrArg (fun M => Except.ok (Arr.mat _ M)) ?_
  funext i j
  have hj : j = i := Subsingleton.elim _ _
  subst hj; rfl

theorem assignVec_col1 (v : Fin 1 → ℝ) :
    (Arr.mat d (finM (colM v))).assignVec 1 = .ok (.vec .float64 (finV v)) := by
  simp only [assignVec, dite_true, stretch, Except.bind_ok']
  congr 2
  funext i
  have hi : i = 0 := Subsingleton.elim _ _
  subst hi; rfl

end Arr

/-! ### all-NaN tests on finite arrays -/

theorem isnanEntry_fin (d : DType) (x : ℝ) : Arr.isnanEntry d (Fl.fin x) = false := by
  cases d <;> rfl

theorem isnanAll_vec_fin {n : ℕ} {d : DType} {v : Fin n → ℝ}
    (h : (Arr.vec d (finV v)).isnanAll = true) : n = 0 := by
  rcases n with _ | n
  · rfl
  · have := of_decide_eq_true h 0
    rw [finV, isnanEntry_fin] at this
    simp at this

theorem isnanAll_mat_fin {m n : ℕ} {d : DType} {M : Matrix (Fin m) (Fin n) ℝ}
    (h : (Arr.mat d (finM M)).isnanAll = true) : m = 0 ∨ n = 0 := by
  rcases m with _ | m
  · exact .inl rfl
  rcases n with _ | n
  · exact .inr rfl
  · have := of_decide_eq_true h 0 0
    rw [finM, isnanEntry_fin] at this
    simp at this

/-- A control pair either is switched off and contributes nothing, or is a finite pair contributing `B u`. -/
theorem CtrlIs.cases {n : ℕ} {c : Fin n → ℝ} {Bk uk : Arr Fl} (h : CtrlIs c Bk uk) :
    ((Bk.isnanAll || uk.isnanAll) = true ∧ c = 0) ∨
    ((Bk.isnanAll || uk.isnanAll) = false ∧
      ∃ (p : ℕ) (B : Matrix (Fin n) (Fin p) ℝ) (u : Fin p → ℝ) (dB du : DType),
        Bk = .mat dB (finM B) ∧ uk = .vec du (finV u) ∧ c = B *ᵥ u) := by
  rcases h with ⟨h, rfl⟩ | ⟨p, B, u, ⟨dB, rfl⟩, ⟨du, rfl⟩, rfl⟩
  · left; exact ⟨by simpa [Arr.isnanAll_iff_blank] using h, rfl⟩
  · rcases hn : (Arr.mat dB (finM B)).isnanAll || (Arr.vec du (finV u)).isnanAll with _ | _
    · right; exact ⟨rfl, p, B, u, dB, du, rfl, rfl, rfl⟩
    · left
      refine ⟨rfl, ?_⟩
      simp only [Bool.or_eq_true] at hn
      have : n = 0 ∨ p = 0 := by
        rcases hn with hn | hn
        · exact isnanAll_mat_fin hn
        · exact .inr (isnanAll_vec_fin hn)
      rcases this with rfl | rfl
      · exact Subsingleton.elim _ _
      · funext i; simp [Matrix.mulVec, dotProduct]

/-! ### one step -/

variable {n m : ℕ}

/-- The prior of a represented step. -/
theorem predict_exact {s : LinStep n m} {b : Belief n} {Ak Hk Bk uk zk Qk Rk x P : Arr Fl}
    (h : StepIs s Ak Hk Bk uk zk Qk Rk) (hP : MatIs b.P P) :
    (VecIs b.x x → ∃ d e, KalmanFilter.predict Ak x (some Bk) (some uk) P Qk =
      .ok (.vec d (finV (s.predict b).x), .mat e (finM (s.predict b).P))) ∧
    (n = 1 → MatIs (colM b.x) x → ∃ d e, KalmanFilter.predict Ak x (some Bk) (some uk) P Qk =
      .ok (.mat d (finM (colM (s.predict b).x)), .mat e (finM (s.predict b).P))) := by
  obtain ⟨dA, rfl⟩ := h.A
  obtain ⟨dP, rfl⟩ := hP
  obtain ⟨e, he⟩ := Arr.fadd_noise (d := dA.promote (dP.promote dA)) (M := s.A * (b.P * s.Aᵀ)) h.Q
  have hcov : s.A * (b.P * s.Aᵀ) + s.Q = (s.predict b).P := by
    simp [LinStep.predict, priorCov, Matrix.mul_assoc]
  constructor
  · rintro ⟨dx, rfl⟩
    rcases h.ctrl.cases with ⟨hn, hc⟩ | ⟨hn, p, B, u, dB, du, rfl, rfl, hc⟩
    · rw [KalmanFilter.predict_skip hn]
      simp only [Arr.fmv, Arr.fT, Arr.fmm, Except.bind_ok', he, hcov]
      refine ⟨_, _, by simp only [LinStep.predict, hc, add_zero]; rfl⟩
    · rw [KalmanFilter.predict_ctrl hn]
      simp only [Arr.fmv, Arr.fT, Arr.fmm, Except.bind_ok', he, hcov, Arr.fadd_vv]
      refine ⟨_, _, by simp only [LinStep.predict, hc]; rfl⟩
  · rintro rfl ⟨dx, rfl⟩
    rcases h.ctrl.cases with ⟨hn, hc⟩ | ⟨hn, p, B, u, dB, du, rfl, rfl, hc⟩
    · rw [KalmanFilter.predict_skip hn]
      simp only [Arr.fT, Arr.fmm, Except.bind_ok', he, hcov, mul_colM]
      refine ⟨_, _, by simp only [LinStep.predict, hc, add_zero]; rfl⟩
    · rw [KalmanFilter.predict_ctrl hn]
      simp only [Arr.fmv, Arr.fT, Arr.fmm, Except.bind_ok', he, hcov, mul_colM, Arr.fadd_mv1]
      refine ⟨_, _, by simp only [LinStep.predict, hc]; rfl⟩

theorem gain_exact {s : LinStep n m} {p : Belief n} {Ak Hk Bk uk zk Qk Rk : Arr Fl} {e : DType}
    (h : StepIs s Ak Hk Bk uk zk Qk Rk) :
    KalmanFilter.gain Hk (.mat e (finM p.P)) Rk =
      if (s.innov p).det = 0 then .error .linAlgError else .ok (.mat .float64 (finM (s.gain p))) := by
  obtain ⟨dH, rfl⟩ := h.H
  obtain ⟨e', he⟩ := Arr.fadd_noise (d := dH.promote (e.promote dH)) (M := s.H * (p.P * s.Hᵀ)) h.R
  have hS : s.H * (p.P * s.Hᵀ) + s.R = s.innov p := by
    simp [LinStep.innov, innovCov, Matrix.mul_assoc]
  simp only [KalmanFilter.gain, Arr.fT, Arr.fmm, Except.bind_ok', he, hS, Arr.fsolve, Matrix.det_transpose]
  split
  · rfl
  · simp only [Except.bind_ok', Arr.fT]
    congr 3
    rw [Matrix.transpose_mul, Matrix.transpose_mul, Matrix.transpose_transpose,
      ← Matrix.transpose_nonsing_inv, Matrix.transpose_transpose]
    rfl

theorem correct_exact {s : LinStep n m} {p : Belief n} {Ak Hk Bk uk zk Qk Rk : Arr Fl} {d e : DType}
    (h : StepIs s Ak Hk Bk uk zk Qk Rk) :
    (KalmanFilter.correct (Arr.identity n) (.mat .float64 (finM (s.gain p))) Hk (.vec d (finV p.x))
        (.mat e (finM p.P)) zk =
      .ok (.vec .float64 (finV (s.update p).x), .mat .float64 (finM (s.update p).P))) ∧
    (n = 1 → (m = 1 ∨ zk.shape = []) →
      KalmanFilter.correct (Arr.identity n) (.mat .float64 (finM (s.gain p))) Hk (.mat d (finM (colM p.x)))
        (.mat e (finM p.P)) zk =
      .ok (.mat .float64 (finM (colM (s.update p).x)), .mat .float64 (finM (s.update p).P))) := by
  obtain ⟨dH, rfl⟩ := h.H
  constructor
  · have hres : ∃ d', zk.sub (.vec (dH.promote d) (finV (s.H *ᵥ p.x))) =
        .ok (.vec d' (finV (s.z - s.H *ᵥ p.x))) := by
      rcases h.z with ⟨dz, rfl⟩ | ⟨dz, r, rfl, hz⟩
      · exact ⟨_, Arr.fsub_vv _ _⟩
      · exact ⟨_, by rw [Arr.fsub_sv, hz]⟩
    obtain ⟨d', hd'⟩ := hres
    simp only [KalmanFilter.correct, Arr.fmv, Except.bind_ok', hd', Arr.atleast1d_vec, Arr.fadd_vv,
      Arr.fmm, identity_eq, idM_fin, Arr.fsub_mm, Arr.promote_float_left, Arr.promote_float_right,
      LinStep.update]
    rfl
  · intro hn hz'
    have hres : ∃ d', zk.sub (.mat (dH.promote d) (finM (colM (s.H *ᵥ p.x)))) =
        .ok (.mat d' (finM (colM (s.z - s.H *ᵥ p.x)))) := by
      rcases h.z with ⟨dz, rfl⟩ | ⟨dz, r, rfl, hz⟩
      · have hm : m = 1 := by simpa [Arr.shape] using hz'
        subst hm
        exact ⟨_, Arr.fsub_vm1 _ _⟩
      · exact ⟨_, by rw [Arr.fsub_sm, hz]; first | done | rfl⟩
    obtain ⟨d', hd'⟩ := hres
    simp only [KalmanFilter.correct, Arr.fmm, mul_colM, Except.bind_ok', hd', Arr.atleast1d_mat,
      Arr.fadd_mm, identity_eq, idM_fin, Arr.fsub_mm, Arr.promote_float_left, Arr.promote_float_right,
      LinStep.update]
    rfl

/-- How the loop carries the state: as a vector, or as a 1x1 matrix (only if observations allow it). -/
def Carried (b : Belief n) (x P : Arr Fl) (colOk : Prop) : Prop :=
  MatIs b.P P ∧ (VecIs b.x x ∨ n = 1 ∧ MatIs (colM b.x) x ∧ colOk)

theorem step_exact {s : LinStep n m} {b : Belief n} {r : KalmanFilter.Row Fl} {x P : Arr Fl} {colOk : Prop}
    (h : StepIs s r.1 r.2.1 r.2.2.1 r.2.2.2.1 r.2.2.2.2.1 r.2.2.2.2.2.1 r.2.2.2.2.2.2)
    (hc : Carried b x P colOk) (hco : colOk → m = 1 ∨ r.2.2.2.2.1.shape = []) :
    ((s.innov (s.predict b)).det = 0 → KalmanFilter.step n (Arr.identity n) r x P = (none, .error .linAlgError)) ∧
    ((s.innov (s.predict b)).det ≠ 0 → ∃ x' P', Carried (s.next b) x' P' colOk ∧
      KalmanFilter.step n (Arr.identity n) r x P =
        (some (.mat .float64 (finM (s.gain (s.predict b)))),
          .ok ((x', P'), (.vec .float64 (finV (s.next b).x), .mat .float64 (finM (s.next b).P))))) := by
  obtain ⟨Ak, Hk, Bk, uk, zk, Qk, Rk⟩ := r
  simp only at h hco
  obtain ⟨hP, hx⟩ := hc
  obtain ⟨hp1, hp2⟩ := predict_exact h hP
  rcases hx with hx | ⟨hn, hx, hcol⟩
  · obtain ⟨d, e, hp⟩ := hp1 hx
    simp only [KalmanFilter.step, hp, gain_exact h]
    constructor
    · intro h0; simp only [h0, if_true]
    · intro h0
      simp only [h0, if_false, (correct_exact h).1, Except.bind_ok', Arr.assignVec_vec, Arr.assignMat_mat]
      exact ⟨_, _, ⟨⟨_, rfl⟩, .inl ⟨_, rfl⟩⟩, rfl⟩
  · obtain ⟨d, e, hp⟩ := hp2 hn hx
    simp only [KalmanFilter.step, hp, gain_exact h]
    constructor
    · intro h0; simp only [h0, if_true]
    · intro h0
      simp only [h0, if_false, (correct_exact h).2 hn (hco hcol), Except.bind_ok', Arr.assignMat_mat]
      subst hn
      simp only [Arr.assignVec_col1, Except.bind_ok']
      exact ⟨_, _, ⟨⟨_, rfl⟩, .inr ⟨rfl, ⟨_, rfl⟩, hcol⟩⟩, rfl⟩

/-! ### whole runs -/

def RowIs (s : LinStep n m) (r : KalmanFilter.Row Fl) : Prop :=
  StepIs s r.1 r.2.1 r.2.2.1 r.2.2.2.1 r.2.2.2.2.1 r.2.2.2.2.2.1 r.2.2.2.2.2.2

open Classical in
/-- The trace of a represented run. -/
theorem trace_exact {ss : List (LinStep n m)} {rs : List (KalmanFilter.Row Fl)} {b : Belief n} {x P : Arr Fl}
    {colOk : Prop} (h : List.Forall₂ RowIs ss rs) (hc : Carried b x P colOk)
    (hco : colOk → ∀ r ∈ rs, m = 1 ∨ r.2.2.2.2.1.shape = []) :
    (Solvable b ss →
      (trace (KalmanFilter.step n (Arr.identity n)) rs x P).err = none ∧
      (trace (KalmanFilter.step n (Arr.identity n)) rs x P).outs =
        (filtered b ss).map (fun q => (stateRow q, covRow q)) ∧
      (trace (KalmanFilter.step n (Arr.identity n)) rs x P).gains = (gainsOf b ss).map gainRow) ∧
    (∀ k, Solvable b (ss.take k) → ¬ Solvable b (ss.take (k + 1)) →
      (trace (KalmanFilter.step n (Arr.identity n)) rs x P).err = some .linAlgError ∧
      (trace (KalmanFilter.step n (Arr.identity n)) rs x P).gains =
        (gainsOf b (ss.take k)).map gainRow) := by
  induction h generalizing b x P with
  | nil => simp [trace, filtered, gainsOf, Solvable]
  | @cons s r ss rs h1 h2 ih =>
    obtain ⟨hs1, hs2⟩ := step_exact h1 hc (fun hk => hco hk r (by simp))
    by_cases h0 : (s.innov (s.predict b)).det = 0
    · refine ⟨fun hh => absurd h0 hh.1, ?_⟩
      rintro (_ | k) hk hk'
      · simp [trace, hs1 h0, gainsOf]
      · exact absurd h0 hk.1
    · obtain ⟨x', P', hc', hst⟩ := hs2 h0
      obtain ⟨ih1, ih2⟩ := ih hc' (fun hk r hr => hco hk r (by simp [hr]))
      refine ⟨fun hh => ?_, ?_⟩
      · obtain ⟨e1, e2, e3⟩ := ih1 hh.2
        simp only [trace, hst, filtered, gainsOf, List.map_cons]
        exact ⟨e1, by rw [e2]; rfl, by rw [e3]; rfl⟩
      · rintro (_ | k) hk hk'
        · exact absurd ⟨h0, trivial⟩ hk'
        · obtain ⟨e1, e2⟩ := ih2 k hk.2 (fun hh => hk' ⟨h0, hh⟩)
          simp only [trace, hst, gainsOf, List.map_cons, List.take_succ_cons]
          exact ⟨e1, by rw [e2]; rfl⟩

theorem forall₂_of_get {α β : Type} (rel : α → β → Prop) (l : List α) (l' : List β)
    (hlen : l.length = l'.length)
    (h : ∀ (k : ℕ) (a : α) (b : β), l[k]? = some a → l'[k]? = some b → rel a b) :
    List.Forall₂ rel l l' := by
  rw [List.forall₂_iff_get]
  refine ⟨hlen, fun i h1 h2 => h i _ _ ?_ ?_⟩
  · simp [List.getElem?_eq_getElem h1]
  · simp [List.getElem?_eq_getElem h2]

variable {kf : KalmanFilter Fl} {Z : NDArray Fl} {U : Option (NDArray Fl)} {b : Belief n}
  {ss : List (LinStep n m)}

theorem Represents.rowsIs (h : Represents kf Z U b ss) : List.Forall₂ RowIs ss (kf.zrows Z U) := by
  refine forall₂_of_get _ _ _ (by rw [h.len, KalmanFilter.zrows_length]) ?_
  rintro k s ⟨Ak, Hk, Bk, uk, zk, Qk, Rk⟩ hs hr
  simp only [KalmanFilter.zrows, List.getElem?_zip_eq_some] at hr
  obtain ⟨h1, h2, h3, h4, h5, h6, h7⟩ := hr
  exact h.rows k s _ _ _ _ _ _ _ hs h1 h2 h3 h4 h5 h6 h7

theorem Represents.carried (h : Represents kf Z U b ss) :
    Carried b kf.xk kf.Pk (m = 1 ∨ ∀ z ∈ Z.rows, z.shape = []) := by
  refine ⟨h.P, ?_⟩
  rcases h.x with hx | ⟨hn, hx⟩
  · exact .inl hx
  · rcases h.col with hc | hc
    · exact .inl hc
    · exact .inr ⟨hn, hx, hc⟩

theorem zrows_z {r : KalmanFilter.Row Fl} (h : r ∈ kf.zrows Z U) : r.2.2.2.2.1 ∈ Z.rows := by
  obtain ⟨k, hk⟩ := List.mem_iff_getElem?.1 h
  obtain ⟨Ak, Hk, Bk, uk, zk, Qk, Rk⟩ := r
  simp only [KalmanFilter.zrows, List.getElem?_zip_eq_some] at hk
  exact List.mem_of_getElem? hk.2.2.2.2.1

theorem Represents.trace (h : Represents kf Z U b ss) :
    (Solvable b ss →
      (kf.tr Z U).err = none ∧
      (kf.tr Z U).outs = (filtered b ss).map (fun q => (stateRow q, covRow q)) ∧
      (kf.tr Z U).gains = (gainsOf b ss).map gainRow) ∧
    (∀ k, Solvable b (ss.take k) → ¬ Solvable b (ss.take (k + 1)) →
      (kf.tr Z U).err = some .linAlgError ∧
      (kf.tr Z U).gains = (gainsOf b (ss.take k)).map gainRow) := by
  have := trace_exact h.rowsIs h.carried (fun hk r hr => by
    rcases hk with hk | hk
    · exact .inl hk
    · exact .inr (hk _ (zrows_z hr)))
  rw [KalmanFilter.tr, h.size, h.ident]
  exact this

omit [Platform] in
theorem filtered_length (b : Belief n) (ss : List (LinStep n m)) : (filtered b ss).length = ss.length := by
  induction ss generalizing b with
  | nil => rfl
  | cons s ss ih => simp [filtered, ih]

omit [Platform] in
theorem gainsOf_length (b : Belief n) (ss : List (LinStep n m)) : (gainsOf b ss).length = ss.length := by
  induction ss generalizing b with
  | nil => rfl
  | cons s ss ih => simp [gainsOf, ih]

/-- A list of steps is solvable or has a first singular step. -/
theorem solvable_or (b : Belief n) (ss : List (LinStep n m)) :
    Solvable b ss ∨ ∃ k, k < ss.length ∧ Solvable b (ss.take k) ∧ ¬ Solvable b (ss.take (k + 1)) := by
  induction ss generalizing b with
  | nil => exact .inl trivial
  | cons s ss ih =>
    by_cases h0 : (s.innov (s.predict b)).det = 0
    · refine .inr ⟨0, by simp, trivial, fun h => h.1 h0⟩
    · rcases ih (s.next b) with h | ⟨k, hk, h1, h2⟩
      · exact .inl ⟨h0, h⟩
      · exact .inr ⟨k + 1, by simpa using hk, ⟨h0, h1⟩, fun h => h2 h.2⟩

end KK
