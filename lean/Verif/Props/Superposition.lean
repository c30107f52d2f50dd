import Verif.Proofs.Transfer

/-!
# C36, C37: the means are linear in the data; noise-free data are tracked exactly
-/

set_option linter.unusedSectionVars false

namespace KK

open Matrix

variable {n m : ℕ}

/-! ## C36: superposition -/

/-- One step of a model together with two sets of data for it (`c` is the control contribution). -/
structure TwoData (n m : ℕ) where
  A : Matrix (Fin n) (Fin n) ℝ
  H : Matrix (Fin m) (Fin n) ℝ
  Q : Matrix (Fin n) (Fin n) ℝ
  R : Matrix (Fin m) (Fin m) ℝ
  c₁ : Fin n → ℝ
  c₂ : Fin n → ℝ
  z₁ : Fin m → ℝ
  z₂ : Fin m → ℝ

/-- The step with the first set of data. -/
def TwoData.fst (t : TwoData n m) : LinStep n m := ⟨t.A, t.c₁, t.H, t.Q, t.R, t.z₁⟩
/-- The step with the second set of data. -/
def TwoData.snd (t : TwoData n m) : LinStep n m := ⟨t.A, t.c₂, t.H, t.Q, t.R, t.z₂⟩
/-- The step with a linear combination of the two. -/
def TwoData.comb (α β : ℝ) (t : TwoData n m) : LinStep n m :=
  ⟨t.A, α • t.c₁ + β • t.c₂, t.H, t.Q, t.R, α • t.z₁ + β • t.z₂⟩

/-- Combination of two estimates that have the same covariance. -/
def Belief.comb (α β : ℝ) (p q : Belief n) : Belief n := ⟨α • p.x + β • q.x, p.P⟩

theorem next_fst_cov (t : TwoData n m) (p q : Belief n) (h : p.P = q.P) :
    (t.fst.next p).P = (t.snd.next q).P := by
  simp only [LinStep.next, LinStep.update, LinStep.predict, TwoData.fst, TwoData.snd, h]

theorem next_comb (α β : ℝ) (t : TwoData n m) (p q : Belief n) (h : p.P = q.P) :
    (t.comb α β).next (Belief.comb α β p q) = Belief.comb α β (t.fst.next p) (t.snd.next q) := by
  ext1
  · simp only [LinStep.next, LinStep.update, LinStep.predict, LinStep.gain, TwoData.fst, TwoData.snd,
      TwoData.comb, Belief.comb, h, Matrix.mulVec_add, Matrix.mulVec_sub, Matrix.mulVec_smul, smul_add, smul_sub]
    abel
  · simp only [LinStep.next, LinStep.update, LinStep.predict, TwoData.fst, TwoData.comb, Belief.comb]

theorem innov_comb (α β : ℝ) (t : TwoData n m) (p q : Belief n) (h : p.P = q.P) :
    (t.comb α β).innov ((t.comb α β).predict (Belief.comb α β p q)) = t.fst.innov (t.fst.predict p) ∧
    t.snd.innov (t.snd.predict q) = t.fst.innov (t.fst.predict p) := by
  simp only [LinStep.innov, LinStep.predict, TwoData.fst, TwoData.snd, TwoData.comb, Belief.comb, h, and_self]

theorem gain_comb (α β : ℝ) (t : TwoData n m) (p q : Belief n) (h : p.P = q.P) :
    (t.comb α β).gain ((t.comb α β).predict (Belief.comb α β p q)) = t.fst.gain (t.fst.predict p) ∧
    t.snd.gain (t.snd.predict q) = t.fst.gain (t.fst.predict p) := by
  simp only [LinStep.gain, LinStep.predict, TwoData.fst, TwoData.snd, TwoData.comb, Belief.comb, h, and_self]

theorem rtsStep_comb (α β : ℝ) (t : TwoData n m) (p q p' q' : Belief n) (h : p.P = q.P) (h' : p'.P = q'.P) :
    rtsStep (Belief.comb α β p q) (t.comb α β) (Belief.comb α β p' q') =
      Belief.comb α β (rtsStep p t.fst p') (rtsStep q t.snd q') ∧
    (rtsStep p t.fst p').P = (rtsStep q t.snd q').P := by
  constructor
  · ext1
    · simp only [rtsStep, LinStep.predict, TwoData.fst, TwoData.snd, TwoData.comb, Belief.comb, h,
        Matrix.mulVec_add, Matrix.mulVec_sub, Matrix.mulVec_smul, smul_add, smul_sub]
      abel
    · simp only [rtsStep, LinStep.predict, TwoData.fst, TwoData.comb, Belief.comb]
  · simp only [rtsStep, LinStep.predict, TwoData.fst, TwoData.snd, h, h']

theorem comb_runs (α β : ℝ) (ts : List (TwoData n m)) (p q : Belief n) (h : p.P = q.P) :
    (Solvable (Belief.comb α β p q) (ts.map (TwoData.comb α β)) ↔ Solvable p (ts.map TwoData.fst)) ∧
    (Solvable q (ts.map TwoData.snd) ↔ Solvable p (ts.map TwoData.fst)) ∧
    (RtsSolvable (Belief.comb α β p q) (ts.map (TwoData.comb α β)) ↔ RtsSolvable p (ts.map TwoData.fst)) ∧
    (RtsSolvable q (ts.map TwoData.snd) ↔ RtsSolvable p (ts.map TwoData.fst)) ∧
    filtered (Belief.comb α β p q) (ts.map (TwoData.comb α β)) =
      List.zipWith (Belief.comb α β) (filtered p (ts.map TwoData.fst)) (filtered q (ts.map TwoData.snd)) ∧
    (filtered q (ts.map TwoData.snd)).map Belief.P = (filtered p (ts.map TwoData.fst)).map Belief.P ∧
    gainsOf (Belief.comb α β p q) (ts.map (TwoData.comb α β)) = gainsOf p (ts.map TwoData.fst) ∧
    gainsOf q (ts.map TwoData.snd) = gainsOf p (ts.map TwoData.fst) ∧
    rts (Belief.comb α β p q) (ts.map (TwoData.comb α β)) =
      List.zipWith (Belief.comb α β) (rts p (ts.map TwoData.fst)) (rts q (ts.map TwoData.snd)) ∧
    (rts q (ts.map TwoData.snd)).map Belief.P = (rts p (ts.map TwoData.fst)).map Belief.P := by
  induction ts generalizing p q with
  | nil => simp [Solvable, RtsSolvable, filtered, gainsOf, rts, h]
  | cons t ts ih =>
    obtain ⟨i1, i2, i3, i4, i5, i6, i7, i8, i9, i10⟩ := ih (t.fst.next p) (t.snd.next q) (next_fst_cov t p q h)
    have hp : ((t.comb α β).predict (Belief.comb α β p q)).P = (t.fst.predict p).P := rfl
    have hp' : (t.snd.predict q).P = (t.fst.predict p).P := by
      simp only [LinStep.predict, TwoData.fst, TwoData.snd, h]
    simp only [List.map_cons, Solvable, RtsSolvable, filtered, gainsOf, next_comb α β t p q h,
      (innov_comb α β t p q h).1, (innov_comb α β t p q h).2, (gain_comb α β t p q h).1,
      (gain_comb α β t p q h).2, i1, i2, i3, i4, i5, i6, i7, i8, hp, hp', List.zipWith_cons_cons,
      next_fst_cov t p q h, true_and, rts, i9]
    rcases h1 : rts (t.fst.next p) (ts.map TwoData.fst) with _ | ⟨a, as⟩
    · have := rts_length (t.fst.next p) (ts.map TwoData.fst); rw [h1] at this; simp at this
    rcases h2 : rts (t.snd.next q) (ts.map TwoData.snd) with _ | ⟨a', as'⟩
    · have := rts_length (t.snd.next q) (ts.map TwoData.snd); rw [h2] at this; simp at this
    rw [h1, h2] at i10
    simp only [List.map_cons, List.cons.injEq] at i10
    obtain ⟨j1, j2⟩ := rtsStep_comb α β t p q a a' h i10.1.symm
    simp only [List.zipWith_cons_cons, List.map_cons, j1, j2, i10.1, i10.2, and_self]

theorem comb_smooth (α β : ℝ) (ts : List (TwoData n m)) (p q : Belief n) (h : p.P = q.P) :
    (SmoothSolvable (Belief.comb α β p q) (ts.map (TwoData.comb α β)) ↔ SmoothSolvable p (ts.map TwoData.fst)) ∧
    (SmoothSolvable q (ts.map TwoData.snd) ↔ SmoothSolvable p (ts.map TwoData.fst)) ∧
    smoothed (Belief.comb α β p q) (ts.map (TwoData.comb α β)) =
      List.zipWith (Belief.comb α β) (smoothed p (ts.map TwoData.fst)) (smoothed q (ts.map TwoData.snd)) ∧
    (smoothed q (ts.map TwoData.snd)).map Belief.P = (smoothed p (ts.map TwoData.fst)).map Belief.P := by
  cases ts with
  | nil => simp [SmoothSolvable, smoothed]
  | cons t ts =>
    obtain ⟨-, -, i3, i4, -, -, -, -, i9, i10⟩ :=
      comb_runs α β ts (t.fst.next p) (t.snd.next q) (next_fst_cov t p q h)
    simp only [List.map_cons, SmoothSolvable, smoothed, next_comb α β t p q h]
    exact ⟨i3, i4, i9, i10⟩

section
variable [Platform]

/-- C36: three runs of one model (same `A`, `H`, `Q`, `R`, initial covariance): with initial mean, controls and
observations of a first data set, of a second, and of the combination `α·first + β·second`.  Either all
raise LinAlgError or all return; then gains and covariances agree, and the filtered (smoothed) means of the
combination are the same combination of the filtered (smoothed) means. -/
theorem C36_superposition (α β : ℝ) (ts : List (TwoData n m)) (x₁ x₂ : Fin n → ℝ) (P : Matrix (Fin n) (Fin n) ℝ)
    (kf₁ kf₂ kf₃ : KalmanFilter Fl) (Z₁ Z₂ Z₃ : NDArray Fl) (U₁ U₂ U₃ : Option (NDArray Fl))
    (h₁ : Represents kf₁ Z₁ U₁ ⟨x₁, P⟩ (ts.map TwoData.fst))
    (h₂ : Represents kf₂ Z₂ U₂ ⟨x₂, P⟩ (ts.map TwoData.snd))
    (h₃ : Represents kf₃ Z₃ U₃ ⟨α • x₁ + β • x₂, P⟩ (ts.map (TwoData.comb α β))) :
    ((FilterSingular kf₁ Z₁ U₁ ∧ FilterSingular kf₂ Z₂ U₂ ∧ FilterSingular kf₃ Z₃ U₃) ∨
      ∃ (bs₁ bs₂ : List (Belief n)) (Ks : List (Matrix (Fin n) (Fin m) ℝ)), bs₁.length = ts.length ∧
        bs₂.map Belief.P = bs₁.map Belief.P ∧
        FilterReturns kf₁ Z₁ U₁ bs₁ Ks ∧ FilterReturns kf₂ Z₂ U₂ bs₂ Ks ∧
        FilterReturns kf₃ Z₃ U₃ (List.zipWith (fun p q => ⟨α • p.x + β • q.x, p.P⟩) bs₁ bs₂) Ks) ∧
    (ts ≠ [] → ts.length = Z₁.rows.length → ts.length = Z₂.rows.length → ts.length = Z₃.rows.length →
      (SmoothSingular kf₁ Z₁ U₁ ∧ SmoothSingular kf₂ Z₂ U₂ ∧ SmoothSingular kf₃ Z₃ U₃) ∨
      ∃ (bs₁ bs₂ : List (Belief n)) (Ks : List (Matrix (Fin n) (Fin m) ℝ)), bs₁.length = ts.length ∧
        bs₂.map Belief.P = bs₁.map Belief.P ∧
        SmoothReturns kf₁ Z₁ U₁ bs₁ Ks ∧ SmoothReturns kf₂ Z₂ U₂ bs₂ Ks ∧
        SmoothReturns kf₃ Z₃ U₃ (List.zipWith (fun p q => ⟨α • p.x + β • q.x, p.P⟩) bs₁ bs₂) Ks) := by
  have h₃' : Represents kf₃ Z₃ U₃ (Belief.comb α β ⟨x₁, P⟩ ⟨x₂, P⟩) (ts.map (TwoData.comb α β)) := h₃
  obtain ⟨i1, i2, -, -, i5, i6, i7, i8, -, -⟩ := comb_runs α β ts ⟨x₁, P⟩ ⟨x₂, P⟩ rfl
  obtain ⟨j1, j2, j3, j4⟩ := comb_smooth α β ts ⟨x₁, P⟩ ⟨x₂, P⟩ rfl
  by_cases hs : Solvable ⟨x₁, P⟩ (ts.map TwoData.fst)
  · have r1 := h₁.returns hs
    have r2 := h₂.returns (i2.2 hs)
    have r3 := h₃'.returns (i1.2 hs)
    rw [i8] at r2
    rw [i7, i5] at r3
    refine ⟨.inr ⟨_, _, _, by rw [filtered_length, List.length_map], i6, r1, r2, r3⟩, ?_⟩
    intro hne l1 l2 l3
    have hne1 : ts.map TwoData.fst ≠ [] := by simpa using hne
    have hne2 : ts.map TwoData.snd ≠ [] := by simpa using hne
    have hne3 : ts.map (TwoData.comb α β) ≠ [] := by simpa using hne
    by_cases hm : SmoothSolvable ⟨x₁, P⟩ (ts.map TwoData.fst)
    · have s1 := h₁.smoothReturns (by simpa using l1) hne1 hs hm
      have s2 := h₂.smoothReturns (by simpa using l2) hne2 (i2.2 hs) (j2.2 hm)
      have s3 := h₃'.smoothReturns (by simpa using l3) hne3 (i1.2 hs) (j1.2 hm)
      rw [i8] at s2
      rw [i7, j3] at s3
      exact .inr ⟨_, _, _, by rw [smoothed_length, List.length_map], j4, s1, s2, s3⟩
    · exact .inl ⟨h₁.smoothSingular (by simpa using l1) hne1 fun h => hm h.2,
        h₂.smoothSingular (by simpa using l2) hne2 fun h => hm (j2.1 h.2),
        h₃'.smoothSingular (by simpa using l3) hne3 fun h => hm (j1.1 h.2)⟩
  · refine ⟨.inl ⟨h₁.singular hs, h₂.singular fun h => hs (i2.1 h), h₃'.singular fun h => hs (i1.1 h)⟩, ?_⟩
    intro hne l1 l2 l3
    exact .inl ⟨h₁.smoothSingular (by simpa using l1) (by simpa using hne) fun h => hs h.1,
      h₂.smoothSingular (by simpa using l2) (by simpa using hne) fun h => hs (i2.1 h.1),
      h₃'.smoothSingular (by simpa using l3) (by simpa using hne) fun h => hs (i1.1 h.1)⟩

-- C36: every choice of model and data can be represented.
example (α β : ℝ) (ts : List (TwoData n m)) (p q : Belief n) :
    (∃ kf Z U, Represents kf Z U p (ts.map TwoData.fst)) ∧ (∃ kf Z U, Represents kf Z U q (ts.map TwoData.snd)) ∧
    ∃ kf Z U, Represents kf Z U (Belief.comb α β p q) (ts.map (TwoData.comb α β)) :=
  ⟨⟨_, _, _, Ex.encode_represents _ _⟩, ⟨_, _, _, Ex.encode_represents _ _⟩, ⟨_, _, _, Ex.encode_represents _ _⟩⟩

end

/-! ## C37: exact tracking -/

/-- The states of the noise-free system started at `x`. -/
def trueStates : (Fin n → ℝ) → List (LinStep n m) → List (Fin n → ℝ)
  | _, [] => []
  | x, s :: ss => (s.A *ᵥ x + s.c) :: trueStates (s.A *ᵥ x + s.c) ss

theorem noiseFree_runs (b : Belief n) (ss : List (LinStep n m))
    (h : List.Forall₂ (fun (s : LinStep n m) y => s.z = s.H *ᵥ y) ss (trueStates b.x ss)) :
    (filtered b ss).map Belief.x = trueStates b.x ss ∧ (rts b ss).map Belief.x = b.x :: trueStates b.x ss := by
  induction ss generalizing b with
  | nil => simp [filtered, trueStates, rts]
  | cons s ss ih =>
    simp only [trueStates, List.forall₂_cons] at h
    have hx : (s.next b).x = s.A *ᵥ b.x + s.c := by
      simp only [LinStep.next, LinStep.update, LinStep.predict, h.1, sub_self, Matrix.mulVec_zero, add_zero]
    have hn := ih (s.next b) (by rw [hx]; exact h.2)
    rw [hx] at hn
    refine ⟨by simp [filtered, trueStates, hx, hn.1], ?_⟩
    rw [rts]
    rcases hr : rts (s.next b) ss with _ | ⟨q, qs⟩
    · rw [hr] at hn; simp at hn
    · rw [hr] at hn
      simp only [List.map_cons, List.cons.injEq] at hn
      simp only [List.map_cons, trueStates, hn.2.1, hn.2.2, List.cons.injEq, true_and, and_true]
      simp [rtsStep, LinStep.predict, hn.2.1]

theorem noiseFree_smoothed (b : Belief n) (ss : List (LinStep n m))
    (hz : List.Forall₂ (fun (s : LinStep n m) y => s.z = s.H *ᵥ y) ss (trueStates b.x ss)) :
    (smoothed b ss).map Belief.x = trueStates b.x ss := by
  cases ss with
  | nil => rfl
  | cons s ss =>
    simp only [trueStates, List.forall₂_cons] at hz
    have hx : (s.next b).x = s.A *ᵥ b.x + s.c := by
      simp only [LinStep.next, LinStep.update, LinStep.predict, hz.1, sub_self, Matrix.mulVec_zero, add_zero]
    have := (noiseFree_runs (s.next b) ss (by rw [hx]; exact hz.2)).2
    rw [smoothed, this, trueStates, hx]

variable [Platform]

/-- C37: let the true states follow the model without noise from the given initial mean, and let every
observation be exactly `H` times the true state.  If `filter` (`smooth`) does not raise LinAlgError then every
mean it returns is the true state, whatever the initial covariance and the noise covariances are. -/
theorem C37_exact_tracking (kf : KalmanFilter Fl) (Z : NDArray Fl) (U : Option (NDArray Fl)) (b : Belief n)
    (ss : List (LinStep n m)) (h : Represents kf Z U b ss)
    (hz : List.Forall₂ (fun (s : LinStep n m) y => s.z = s.H *ᵥ y) ss (trueStates b.x ss)) :
    (FilterSingular kf Z U ∨
      ∃ (bs : List (Belief n)) (Ks : List (Matrix (Fin n) (Fin m) ℝ)), FilterReturns kf Z U bs Ks ∧
        bs.map Belief.x = trueStates b.x ss) ∧
    (ss ≠ [] → ss.length = Z.rows.length → SmoothSingular kf Z U ∨
      ∃ (bs : List (Belief n)) (Ks : List (Matrix (Fin n) (Fin m) ℝ)), SmoothReturns kf Z U bs Ks ∧
        bs.map Belief.x = trueStates b.x ss) := by
  have hr := (noiseFree_runs b ss hz).1
  have hsm := noiseFree_smoothed b ss hz
  constructor
  · by_cases hs : Solvable b ss
    · exact .inr ⟨_, _, h.returns hs, hr⟩
    · exact .inl (h.singular hs)
  · intro hne hf
    by_cases hs : Solvable b ss ∧ SmoothSolvable b ss
    · exact .inr ⟨_, _, h.smoothReturns hf hne hs.1 hs.2, hsm⟩
    · exact .inl (h.smoothSingular hf hne hs)

/-- Data of the constant-velocity model without noise: position `p`, velocity `v`, accelerations `us`. -/
noncomputable def Ex.cvExact : ℝ → ℝ → List ℝ → List (LinStep 2 1)
  | _, _, [] => []
  | p, v, u :: us => Ex.cvStep u (p + v + u / 2) :: Ex.cvExact (p + v + u / 2) (v + u) us

theorem Ex.cvExact_ok (p v : ℝ) (us : List ℝ) :
    List.Forall₂ (fun (s : LinStep 2 1) y => s.z = s.H *ᵥ y) (Ex.cvExact p v us)
      (trueStates ![p, v] (Ex.cvExact p v us)) := by
  induction us generalizing p v with
  | nil => simp [Ex.cvExact, trueStates]
  | cons u us ih =>
    have e : (Ex.cvStep u (p + v + u / 2)).A *ᵥ ![p, v] + (Ex.cvStep u (p + v + u / 2)).c =
        ![p + v + u / 2, v + u] := by
      funext i
      fin_cases i <;> simp [Ex.cvStep, Matrix.mulVec, dotProduct, Fin.sum_univ_two]
    rw [Ex.cvExact, trueStates, e]
    refine List.forall₂_cons.2 ⟨?_, ih _ _⟩
    funext i
    fin_cases i
    simp [Ex.cvStep, Matrix.mulVec, dotProduct, Fin.sum_univ_two]

-- C37: noise-free data of the constant-velocity model, any controls, any initial position and velocity.
example (p v : ℝ) (us : List ℝ) :
    (∃ kf Z U, Represents kf Z U (⟨![p, v], Ex.cvBelief.P⟩ : Belief 2) (Ex.cvExact p v us)) ∧
    List.Forall₂ (fun (s : LinStep 2 1) y => s.z = s.H *ᵥ y) (Ex.cvExact p v us)
      (trueStates ![p, v] (Ex.cvExact p v us)) :=
  ⟨⟨_, _, _, Ex.encode_represents _ _⟩, Ex.cvExact_ok p v us⟩

end KK
