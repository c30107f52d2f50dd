import Verif.Proofs.Exact
import Verif.Proofs.Back
import Verif.Props.Textbook

/-!
# The backward pass in exact arithmetic
-/

set_option linter.unusedSectionVars false

namespace KK

open Matrix

variable {n m : ℕ}

/-- Backward recursion on beliefs. -/
def backR (g : ℕ → Belief n → Belief n) : ℕ → Belief n → List (Belief n)
  | 0, q => [q]
  | k + 1, q => backR g k (g k q) ++ [q]

theorem backR_ne (g : ℕ → Belief n → Belief n) (k : ℕ) (q : Belief n) : backR g k q ≠ [] := by
  cases k <;> simp [backR]

theorem backR_succ (g : ℕ → Belief n → Belief n) (k : ℕ) (q : Belief n) :
    ∃ a l, backR (fun i => g (i + 1)) k q = a :: l ∧ backR g (k + 1) q = g 0 a :: a :: l := by
  induction k generalizing q with
  | zero => exact ⟨q, [], rfl, rfl⟩
  | succ k ih =>
    obtain ⟨a, l, h1, h2⟩ := ih (g (k + 1) q)
    refine ⟨a, l ++ [q], ?_, ?_⟩
    · simp only [backR, h1, List.cons_append]
    · rw [backR, h2]; rfl

/-- The step function of the RTS pass over filtered beliefs `fs` and following steps `ss`. -/
noncomputable def rtsG (fs : List (Belief n)) (ss : List (LinStep n m)) (k : ℕ) (q : Belief n) : Belief n :=
  match fs[k]?, ss[k]? with
  | some f, some s => rtsStep f s q
  | _, _ => q

/-- Last belief of a run. -/
noncomputable def lastOf : Belief n → List (LinStep n m) → Belief n
  | b, [] => b
  | b, s :: ss => lastOf (s.next b) ss

theorem rts_eq_backR (b : Belief n) (ss : List (LinStep n m)) :
    rts b ss = backR (rtsG (b :: filtered b ss) ss) ss.length (lastOf b ss) := by
  induction ss generalizing b with
  | nil => rfl
  | cons s ss ih =>
    obtain ⟨a, l, h1, h2⟩ := backR_succ (rtsG (b :: filtered b (s :: ss)) (s :: ss)) ss.length
      (lastOf b (s :: ss))
    have hg : (fun i => rtsG (b :: filtered b (s :: ss)) (s :: ss) (i + 1)) =
        rtsG (s.next b :: filtered (s.next b) ss) ss := by
      funext i q; simp [rtsG, filtered]
    rw [hg] at h1
    rw [List.length_cons, h2, rts, ih, lastOf] at *
    rw [h1]
    rfl

theorem lastOf_filtered (b : Belief n) (ss : List (LinStep n m)) :
    (b :: filtered b ss)[ss.length]? = some (lastOf b ss) := by
  induction ss generalizing b with
  | nil => rfl
  | cons s ss ih =>
    rw [List.length_cons, List.getElem?_cons_succ, filtered, ih]
    rfl

theorem rtsSolvable_iff (b : Belief n) (ss : List (LinStep n m)) :
    RtsSolvable b ss ↔ ∀ (k : ℕ) (f : Belief n) (s : LinStep n m), (b :: filtered b ss)[k]? = some f → ss[k]? = some s →
      (s.predict f).P.det ≠ 0 := by
  induction ss generalizing b with
  | nil => simp [RtsSolvable]
  | cons s ss ih =>
    rw [RtsSolvable, ih]
    constructor
    · rintro ⟨h1, h2⟩ (_ | k) f s' hf hs
      · simp only [List.getElem?_cons_zero, Option.some.injEq] at hf hs
        subst hf hs; exact h1
      · simp only [List.getElem?_cons_succ, filtered] at hf hs
        exact h2 k f s' hf hs
    · intro h
      refine ⟨h 0 b s rfl rfl, fun k f s' hf hs => h (k + 1) f s' ?_ ?_⟩
      · simpa [filtered] using hf
      · simpa using hs

variable [Platform]

def beliefRows (q : Belief n) : Arr Fl × Arr Fl := (stateRow q, covRow q)

theorem back_exact (body : ℕ → Arr Fl → Arr Fl → Except PyErr (Arr Fl × Arr Fl))
    (g : ℕ → Belief n → Belief n) (bad : ℕ → Prop) (k : ℕ)
    (h : ∀ j < k, ∀ q, (¬ bad j → body j (stateRow q) (covRow q) = .ok (beliefRows (g j q))) ∧
      (bad j → body j (stateRow q) (covRow q) = .error .linAlgError)) (q : Belief n) :
    ((∀ j < k, ¬ bad j) → back body k (beliefRows q) = .ok ((backR g k q).map beliefRows)) ∧
    ((∃ j < k, bad j) → back body k (beliefRows q) = .error .linAlgError) := by
  induction k generalizing q with
  | zero =>
    refine ⟨fun _ => rfl, ?_⟩
    rintro ⟨j, hj, -⟩; omega
  | succ k ih =>
    obtain ⟨h1, h2⟩ := ih (fun j hj => h j (by omega)) (g k q)
    obtain ⟨h3, h4⟩ := h k (by omega) q
    by_cases hb : bad k
    · refine ⟨fun hh => absurd hb (hh k (by omega)), fun _ => ?_⟩
      simp only [back, beliefRows, h4 hb, Except.bind_error']
    · simp only [back]
      rw [show body k (beliefRows q).1 (beliefRows q).2 = .ok (beliefRows (g k q)) from h3 hb]
      simp only [Except.bind_ok']
      constructor
      · intro hh
        rw [h1 (fun j hj => hh j (by omega))]
        simp [backR]
      · rintro ⟨j, hj, hbj⟩
        rw [h2 ⟨j, by
          rcases Nat.lt_succ_iff_lt_or_eq.1 hj with hj | rfl
          · exact hj
          · exact absurd hbj hb, hbj⟩]
        rfl

/-- One backward step on arrays. -/
theorem smoothStep_exact {s : LinStep n m} {f q : Belief n} {Ak Hk Bk uk zk Qk Rk : Arr Fl}
    (h : StepIs s Ak Hk Bk uk zk Qk Rk) :
    ((s.predict f).P.det ≠ 0 →
      KalmanFilter.smoothStep (stateRow f) (covRow f) Ak Qk Bk uk (stateRow q) (covRow q) =
        .ok (beliefRows (rtsStep f s q))) ∧
    ((s.predict f).P.det = 0 →
      KalmanFilter.smoothStep (stateRow f) (covRow f) Ak Qk Bk uk (stateRow q) (covRow q) =
        .error .linAlgError) := by
  obtain ⟨d, e, hp⟩ := (predict_exact (b := f) (x := stateRow f) (P := covRow f) h ⟨_, rfl⟩).1 ⟨_, rfl⟩
  obtain ⟨dA, hA⟩ := h.A
  have hG : ((s.predict f).Pᵀ⁻¹ * (f.P * s.Aᵀ)ᵀ)ᵀ = f.P * s.Aᵀ * (s.predict f).P⁻¹ := by
    rw [Matrix.transpose_mul, Matrix.transpose_transpose, ← Matrix.transpose_nonsing_inv,
      Matrix.transpose_transpose]
  constructor
  · intro h0
    rw [KalmanFilter.smoothStep, hp]
    simp only [Except.bind_ok', hA, Arr.fT, covRow, stateRow, Arr.fmm,
      Arr.fsolve, Matrix.det_transpose, h0, if_false, Arr.fsub_vv, Arr.fmv, Arr.fadd_vv, Arr.fsub_mm,
      Arr.fadd_mm, hG]
    simp only [Arr.promote_float_left, rtsStep, beliefRows, stateRow, covRow, Matrix.mul_assoc]
  · intro h0
    rw [KalmanFilter.smoothStep, hp]
    simp only [Except.bind_ok', hA, Arr.fT, covRow, Arr.fmm,
      Arr.fsolve, Matrix.det_transpose, h0, if_true, Except.bind_error']

theorem item_of_rows {a : NDArray Fl} {k : ℕ} {x : Arr Fl} (h : a.rows[k]? = some x) : a.item k = .ok x := by
  cases a with
  | d0 => simp [NDArray.rows] at h
  | stack l => simp only [NDArray.rows] at h; simp [NDArray.item, h]

variable {kf : KalmanFilter Fl} {Z : NDArray Fl} {U : Option (NDArray Fl)} {b : Belief n}
  {ss : List (LinStep n m)}

/-- The arrays of a represented step exist. -/
theorem Represents.row (h : Represents kf Z U b ss) {k : ℕ} {s : LinStep n m} (hs : ss[k]? = some s) :
    ∃ Ak Hk Bk uk zk Qk Rk, kf.A.rows[k]? = some Ak ∧ kf.H.rows[k]? = some Hk ∧ kf.B.rows[k]? = some Bk ∧
      (effU U Z).rows[k]? = some uk ∧ Z.rows[k]? = some zk ∧ kf.Q.rows[k]? = some Qk ∧
      kf.R.rows[k]? = some Rk ∧ StepIs s Ak Hk Bk uk zk Qk Rk := by
  have hk : k < (kf.zrows Z U).length := by
    rw [KalmanFilter.zrows_length, ← h.len]
    exact (List.getElem?_eq_some_iff.1 hs).1
  have hg := List.getElem?_eq_getElem hk
  generalize (kf.zrows Z U)[k] = r at hg
  obtain ⟨Ak, Hk, Bk, uk, zk, Qk, Rk⟩ := r
  simp only [KalmanFilter.zrows, List.getElem?_zip_eq_some] at hg
  obtain ⟨h1, h2, h3, h4, h5, h6, h7⟩ := hg
  exact ⟨_, _, _, _, _, _, _, h1, h2, h3, h4, h5, h6, h7, h.rows k s _ _ _ _ _ _ _ hs h1 h2 h3 h4 h5 h6 h7⟩

theorem Represents.smooth (h : Represents kf Z U b ss) (hfull : ss.length = Z.rows.length)
    (hne : ss ≠ []) (hs : Solvable b ss) :
    (SmoothSolvable b ss → (KalmanFilter.smooth Z U).run kf =
      (.ok ((smoothed b ss).map stateRow, (smoothed b ss).map covRow),
       { kf with kalmanGains := kf.kalmanGains ++ (gainsOf b ss).map gainRow })) ∧
    (¬ SmoothSolvable b ss → (KalmanFilter.smooth Z U).run kf =
      (.error .linAlgError,
       { kf with kalmanGains := kf.kalmanGains ++ (gainsOf b ss).map gainRow })) := by
  have hf := C24_filter_textbook kf Z U b ss h hs
  rw [hfull, Nat.sub_self, List.replicate_zero, List.append_nil, List.replicate_zero, List.append_nil] at hf
  obtain ⟨s, ts, rfl⟩ : ∃ s ts, ss = s :: ts := by
    cases ss with
    | nil => exact absurd rfl hne
    | cons s ts => exact ⟨s, ts, rfl⟩
  have hlast := lastOf_filtered (s.next b) ts
  have hl : (filtered b (s :: ts)).length - 1 = ts.length := by simp [filtered_length]
  rw [KalmanFilter.smooth_eq, hf]
  have e1 : ((filtered b (s :: ts)).map stateRow)[((filtered b (s :: ts)).map stateRow).length - 1]? =
      some (stateRow (lastOf (s.next b) ts)) := by
    rw [List.length_map, hl, List.getElem?_map, filtered, hlast]; rfl
  have e2 : ((filtered b (s :: ts)).map covRow)[((filtered b (s :: ts)).map stateRow).length - 1]? =
      some (covRow (lastOf (s.next b) ts)) := by
    rw [List.length_map, hl, List.getElem?_map, filtered, hlast]; rfl
  simp only [e1, e2]
  rw [List.length_map, hl]
  have hbody : ∀ j < ts.length, ∀ q,
      (¬ (∃ f s', (filtered b (s :: ts))[j]? = some f ∧ ts[j]? = some s' ∧ (s'.predict f).P.det = 0) →
        KalmanFilter.body kf.A kf.Q kf.B (checkNoneAndBroadcast U Z) kf.stateSize
          ((filtered b (s :: ts)).map stateRow) ((filtered b (s :: ts)).map covRow) j (stateRow q) (covRow q) =
        .ok (beliefRows (rtsG (filtered b (s :: ts)) ts j q))) ∧
      ((∃ f s', (filtered b (s :: ts))[j]? = some f ∧ ts[j]? = some s' ∧ (s'.predict f).P.det = 0) →
        KalmanFilter.body kf.A kf.Q kf.B (checkNoneAndBroadcast U Z) kf.stateSize
          ((filtered b (s :: ts)).map stateRow) ((filtered b (s :: ts)).map covRow) j (stateRow q) (covRow q) =
        .error .linAlgError) := by
    intro j hj q
    have hjs : ts[j]? = some ts[j] := List.getElem?_eq_getElem hj
    have hjf : j < (filtered b (s :: ts)).length := by rw [filtered_length]; simp; omega
    have hjf' := List.getElem?_eq_getElem hjf
    generalize (filtered b (s :: ts))[j] = f at hjf'
    generalize ts[j] = s' at hjs
    obtain ⟨Ak, Hk, Bk, uk, zk, Qk, Rk, hA, hH, hB, hu, hz, hQ, hR, hst⟩ :=
      h.row (k := j + 1) (s := s') (by simpa using hjs)
    have hx1 : getRow ((filtered b (s :: ts)).map stateRow) j = .ok (stateRow f) :=
      getRow_some (by rw [List.getElem?_map, hjf']; rfl)
    have hx2 : getRow ((filtered b (s :: ts)).map covRow) j = .ok (covRow f) :=
      getRow_some (by rw [List.getElem?_map, hjf']; rfl)
    obtain ⟨hs1, hs2⟩ := smoothStep_exact (f := f) (q := q) hst
    simp only [KalmanFilter.body, item_of_rows hA, item_of_rows hB, item_of_rows hQ, item_of_rows hu, hx1, hx2,
      Except.bind_ok', hjf', hjs, Option.some.injEq, rtsG]
    constructor
    · intro hh
      rw [hs1 (fun h0 => hh ⟨f, s', rfl, rfl, h0⟩)]
      simp only [beliefRows, Except.bind_ok', h.size]
      simp only [stateRow, covRow, Arr.assignVec_vec, Arr.assignMat_mat, Except.bind_ok']
    · rintro ⟨f', s'', rfl, rfl, h0⟩
      rw [hs2 h0]
      rfl
  have hg := back_exact _ _ _ ts.length hbody (lastOf (s.next b) ts)
  have hiff : SmoothSolvable b (s :: ts) ↔ ∀ j < ts.length,
      ¬ (∃ f s', (filtered b (s :: ts))[j]? = some f ∧ ts[j]? = some s' ∧ (s'.predict f).P.det = 0) := by
    rw [SmoothSolvable, rtsSolvable_iff]
    constructor
    · rintro hh j hj ⟨f, s', h1, h2, h3⟩
      exact hh j f s' h1 h2 h3
    · intro hh j f s' h1 h2 h3
      exact hh j (List.getElem?_eq_some_iff.1 h2).1 ⟨f, s', h1, h2, h3⟩
  constructor
  · intro hsm
    have hb := hg.1 (hiff.1 hsm)
    simp only [beliefRows] at hb
    rw [hb, smoothed, rts_eq_backR]
    simp only [Except.map, List.map_map]
    rfl
  · intro hsm
    rw [hiff] at hsm
    push Not at hsm
    have hb := hg.2 (by
      obtain ⟨j, hj, hh⟩ := hsm
      exact ⟨j, hj, hh⟩)
    simp only [beliefRows] at hb
    rw [hb]
    rfl

end KK
