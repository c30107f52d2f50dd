import Verif.Props.Control
import Verif.Props.Smoother
import Verif.Test.Encode

/-!
# C09, last part: no control is zero control
-/

set_option linter.unusedSectionVars false

namespace KK

open Matrix

variable [Platform] {n m : ℕ}

theorem MatIs.size_zero_of_blank {m n : ℕ} {M : Matrix (Fin m) (Fin n) ℝ} {a : Arr Fl} (h : MatIs M a) (hb : a.Blank) :
    IsEmpty (Fin m) ∨ IsEmpty (Fin n) := by
  obtain ⟨d, rfl⟩ := h
  by_contra hc
  simp only [not_or, not_isEmpty_iff] at hc
  obtain ⟨⟨i⟩, ⟨j⟩⟩ := hc
  have := (hb i j).2
  simp [finM, Backend.isnan] at this

theorem VecIs.size_zero_of_blank {n : ℕ} {v : Fin n → ℝ} {a : Arr Fl} (h : VecIs v a) (hb : a.Blank) :
    IsEmpty (Fin n) := by
  obtain ⟨d, rfl⟩ := h
  by_contra hc
  obtain ⟨i⟩ := not_isEmpty_iff.1 hc
  have := (hb i).2
  simp [finV, Backend.isnan] at this

/-- A switched-off control contributes nothing. -/
theorem CtrlIs.zero_of_blank {c : Fin n → ℝ} {Bk uk : Arr Fl} (h : CtrlIs c Bk uk) (hb : Bk.Blank ∨ uk.Blank) : c = 0 := by
  rcases h with ⟨-, h⟩ | ⟨p, B, u, hB, hu, rfl⟩
  · exact h
  · rcases hb with hb | hb
    · rcases hB.size_zero_of_blank hb with h0 | h0
      · funext i; exact h0.elim i
      · funext i; simp [Matrix.mulVec, dotProduct]
    · have h0 := hu.size_zero_of_blank hb
      funext i; simp [Matrix.mulVec, dotProduct]

/-- Every processed step of the call has a real control matrix and the zero vector as control. -/
def ZeroControl (kf : KalmanFilter Fl) (n : ℕ) (U : NDArray Fl) : Prop :=
  ∀ (k : ℕ) (Bk uk : Arr Fl), kf.B.rows[k]? = some Bk → U.rows[k]? = some uk →
    ∃ (p : ℕ) (B : Matrix (Fin n) (Fin p) ℝ), MatIs B Bk ∧ VecIs (0 : Fin p → ℝ) uk

/-- C09: a run whose control is switched off (`B=None`, `U=None`, or NaN rows) equals, in exact arithmetic, the run
with any control matrices `B'` and the all-zero control: same result or exception and same gains for `filter`, and for
`smooth` when no sequence is shorter than `Z`. -/
theorem C09_zero_control (kf : KalmanFilter Fl) (B' : NDArray Fl) (Z : NDArray Fl) (U : Option (NDArray Fl))
    (U0 : NDArray Fl) (b : Belief n) (ss : List (LinStep n m)) (h : Represents kf Z U b ss) (hno : NoControl kf Z U)
    (iB : B'.Iterable) (iU : U0.Iterable)
    (hsteps : ({ kf with B := B' } : KalmanFilter Fl).steps Z (some U0) = kf.steps Z U)
    (hzero : ZeroControl { kf with B := B' } n U0) :
    (((KalmanFilter.filter Z U).run kf).1 = ((KalmanFilter.filter Z (some U0)).run { kf with B := B' }).1 ∧
      ((KalmanFilter.filter Z U).run kf).2.kalmanGains =
        ((KalmanFilter.filter Z (some U0)).run { kf with B := B' }).2.kalmanGains) ∧
    (kf.steps Z U = Z.rows.length →
      ((KalmanFilter.smooth Z U).run kf).1 = ((KalmanFilter.smooth Z (some U0)).run { kf with B := B' }).1) := by
  have h' : Represents { kf with B := B' } Z (some U0) b ss := by
    refine ⟨⟨h.iter.A, h.iter.H, iB, iU, h.iter.Z, h.iter.Q, h.iter.R⟩, by rw [hsteps, h.len], h.size, h.ident, h.x, h.P,
      ?_, h.col⟩
    intro k s Ak Hk Bk uk zk Qk Rk hs hA hH hB hu hz hQ hR
    have hk : k < kf.steps Z U := by
      rw [← h.len]; exact (List.getElem?_eq_some_iff.1 hs).1
    obtain ⟨B0, hB0⟩ : ∃ B0, kf.B.rows[k]? = some B0 :=
      ⟨_, List.getElem?_eq_getElem (by simp only [KalmanFilter.steps] at hk; omega)⟩
    obtain ⟨u0, hu0⟩ : ∃ u0, (effU U Z).rows[k]? = some u0 :=
      ⟨_, List.getElem?_eq_getElem (by simp only [KalmanFilter.steps] at hk; omega)⟩
    have st := h.rows k s Ak Hk B0 u0 zk Qk Rk hs hA hH hB0 hu0 hz hQ hR
    have hc := st.ctrl.zero_of_blank (hno k B0 u0 hB0 hu0)
    obtain ⟨p, B, hMB, hMu⟩ := hzero k Bk uk hB hu
    exact ⟨st.A, st.H, .inr ⟨p, B, 0, hMB, hMu, by rw [hc]; simp⟩, st.z, st.Q, st.R⟩
  have fe := fun hs : Solvable b ss => C24_filter_textbook kf Z U b ss h hs
  have fe' := fun hs : Solvable b ss => C24_filter_textbook _ Z (some U0) b ss h' hs
  refine ⟨?_, fun hfull => ?_⟩
  · by_cases hs : Solvable b ss
    · rw [fe hs, fe' hs]; exact ⟨rfl, rfl⟩
    · obtain ⟨k, -, h1, h2, -⟩ := (C25_linalgerror kf Z U b ss h).2.2 hs
      rw [(C25_linalgerror kf Z U b ss h).2.1 k h1 h2, (C25_linalgerror _ Z (some U0) b ss h').2.1 k h1 h2]
      exact ⟨rfl, rfl⟩
  · have hlen : ss.length = Z.rows.length := by rw [h.len, hfull]
    by_cases hne : ss = []
    · have hz : Z.len = .ok 0 := by
        obtain ⟨z, rfl⟩ := h.iter.Z.exists
        simp [hne, NDArray.rows_stack] at hlen
        simp [NDArray.len, ← hlen]
      rw [(C16_empty kf Z U hz h.iter.A h.iter.B h.iter.H h.iter.Q h.iter.R
          (fun u hu => by have := h.iter.U; rw [hu] at this; exact this)).2,
        (C16_empty { kf with B := B' } Z (some U0) hz h.iter.A iB h.iter.H h.iter.Q h.iter.R
          (fun u hu => by simp only [Option.some.injEq] at hu; exact hu ▸ iU)).2]
    · have r := C41_smooth_rts kf Z U b ss h hlen hne
      have r' := C41_smooth_rts _ Z (some U0) b ss h' hlen hne
      by_cases hs : Solvable b ss ∧ SmoothSolvable b ss
      · rw [r.1 hs.1 hs.2, r'.1 hs.1 hs.2]
      · obtain ⟨k1, e1⟩ := r.2 hs
        obtain ⟨k2, e2⟩ := r'.2 hs
        rw [e1, e2]

/-- The constant-velocity model: `U=None` versus controls that are all zero; the hypotheses are met. -/
example (zs : List ℝ) : ∃ (ss : List (LinStep 2 1)) (U0 : NDArray Fl), ss.length = zs.length ∧
    (let kf := Ex.encode Ex.cvBelief ss
     Represents kf (Ex.encZ ss) none Ex.cvBelief ss ∧ NoControl kf (Ex.encZ ss) none ∧
     U0.Iterable ∧ kf.steps (Ex.encZ ss) (some U0) = kf.steps (Ex.encZ ss) none ∧ ZeroControl kf 2 U0 ∧
     kf.steps (Ex.encZ ss) none = (Ex.encZ ss).rows.length) := by
  refine ⟨zs.map (Ex.cvStep 0), .stack (zs.map fun _ => .vec .float64 (finV (0 : Fin 1 → ℝ))), by simp, ?_⟩
  have hno : NoControl (Ex.encode Ex.cvBelief (zs.map (Ex.cvStep 0))) (Ex.encZ (zs.map (Ex.cvStep 0))) none :=
    C09_none_U rfl _ _ (by
      intro z hz
      simp only [Ex.encZ, NDArray.rows_stack, List.mem_map] at hz
      obtain ⟨s, -, rfl⟩ := hz
      rfl)
  refine ⟨?_, hno, trivial, ?_, ?_, ?_⟩
  · have h := Ex.encode_represents Ex.cvBelief (zs.map (Ex.cvStep 0))
    refine ⟨⟨trivial, trivial, trivial, trivial, trivial, trivial, trivial⟩, ?_, h.size, h.ident, h.x, h.P, ?_, h.col⟩
    · simp [KalmanFilter.steps, Ex.encode, Ex.encZ, NDArray.rows]
    · intro k s Ak Hk Bk uk zk Qk Rk hs hA hH hB hu hz hQ hR
      have hu' : ∃ u, (effU (some (Ex.encU (zs.map (Ex.cvStep 0)))) (Ex.encZ (zs.map (Ex.cvStep 0)))).rows[k]? = some u := by
        have := (List.getElem?_eq_some_iff.1 hs).1
        exact ⟨_, List.getElem?_eq_getElem (by simpa [effU, checkNoneAndBroadcast, Ex.encU, NDArray.rows] using this)⟩
      obtain ⟨u, hu'⟩ := hu'
      have st := h.rows k s Ak Hk Bk u zk Qk Rk hs hA hH hB hu' hz hQ hR
      refine ⟨st.A, st.H, .inl ⟨hno k Bk uk hB hu, ?_⟩, st.z, st.Q, st.R⟩
      rw [List.getElem?_map, Option.map_eq_some_iff] at hs
      obtain ⟨z, -, rfl⟩ := hs
      simp [Ex.cvStep]
  · simp [KalmanFilter.steps, Ex.encode, Ex.encZ, NDArray.rows, effU, checkNoneAndBroadcast, NDArray.fullLikeNan]
  · intro k Bk uk hB hu
    simp only [Ex.encode, NDArray.rows_stack, List.getElem?_map, Option.map_eq_some_iff] at hB hu
    obtain ⟨s, -, rfl⟩ := hB
    obtain ⟨z, -, rfl⟩ := hu
    exact ⟨1, _, ⟨_, rfl⟩, ⟨_, rfl⟩⟩
  · simp [KalmanFilter.steps, Ex.encode, Ex.encZ, NDArray.rows]

end KK
