import Verif.Spec.Carry
import Verif.Props.Subsystems
import Verif.Props.Smoother
import Verif.Props.FixedLag
import Verif.Props.Forgetting

/-!
# C167: smoothed states from the filter, by carrying earlier states along
-/

set_option linter.unusedSectionVars false

namespace KK

open Matrix

section blocks

variable {a b c d e f : ℕ}

/-- Two matrices, one above the other. -/
def vcat (X : Matrix (Fin a) (Fin e) ℝ) (Y : Matrix (Fin b) (Fin e) ℝ) : Matrix (Fin (a + b)) (Fin e) ℝ :=
  (fromRows X Y).submatrix finSumFinEquiv.symm id

theorem blk4_mul (A : Matrix (Fin a) (Fin b) ℝ) (B : Matrix (Fin a) (Fin d) ℝ) (C : Matrix (Fin c) (Fin b) ℝ)
    (D : Matrix (Fin c) (Fin d) ℝ) (A' : Matrix (Fin b) (Fin e) ℝ) (B' : Matrix (Fin b) (Fin f) ℝ) (C' : Matrix (Fin d) (Fin e) ℝ)
    (D' : Matrix (Fin d) (Fin f) ℝ) :
    blk4 A B C D * blk4 A' B' C' D' = blk4 (A * A' + B * C') (A * B' + B * D') (C * A' + D * C') (C * B' + D * D') := by
  rw [blk4, blk4, blk4, submatrix_mul_equiv, fromBlocks_multiply]

theorem blk4_add (A A' : Matrix (Fin a) (Fin b) ℝ) (B B' : Matrix (Fin a) (Fin d) ℝ) (C C' : Matrix (Fin c) (Fin b) ℝ)
    (D D' : Matrix (Fin c) (Fin d) ℝ) : blk4 A B C D + blk4 A' B' C' D' = blk4 (A + A') (B + B') (C + C') (D + D') := by
  rw [blk4, blk4, blk4, ← fromBlocks_add]
  rfl

theorem blk4_one : blk4 (1 : Matrix (Fin a) (Fin a) ℝ) 0 0 (1 : Matrix (Fin c) (Fin c) ℝ) = 1 := by
  rw [blk4, fromBlocks_one, submatrix_one_equiv]

theorem blk4_sub (A A' : Matrix (Fin a) (Fin b) ℝ) (B B' : Matrix (Fin a) (Fin d) ℝ) (C C' : Matrix (Fin c) (Fin b) ℝ)
    (D D' : Matrix (Fin c) (Fin d) ℝ) : blk4 A B C D - blk4 A' B' C' D' = blk4 (A - A') (B - B') (C - C') (D - D') := by
  rw [sub_eq_iff_eq_add, blk4_add]
  simp

theorem blk4_transpose (A : Matrix (Fin a) (Fin b) ℝ) (B : Matrix (Fin a) (Fin d) ℝ) (C : Matrix (Fin c) (Fin b) ℝ)
    (D : Matrix (Fin c) (Fin d) ℝ) : (blk4 A B C D)ᵀ = blk4 Aᵀ Cᵀ Bᵀ Dᵀ := by
  rw [blk4, blk4, transpose_submatrix, fromBlocks_transpose]

theorem blk_eq4 (A : Matrix (Fin a) (Fin b) ℝ) (D : Matrix (Fin c) (Fin d) ℝ) : blk A D = blk4 A 0 0 D := rfl

theorem blk4_mulVec (A : Matrix (Fin a) (Fin b) ℝ) (B : Matrix (Fin a) (Fin d) ℝ) (C : Matrix (Fin c) (Fin b) ℝ)
    (D : Matrix (Fin c) (Fin d) ℝ) (v : Fin b → ℝ) (w : Fin d → ℝ) :
    blk4 A B C D *ᵥ Fin.append v w = Fin.append (A *ᵥ v + B *ᵥ w) (C *ᵥ v + D *ᵥ w) := by
  funext i
  refine Fin.addCases (fun i => ?_) (fun i => ?_) i <;>
    simp [blk4, mulVec, dotProduct, Fin.sum_univ_add, Fin.append_left, Fin.append_right]

theorem hcat_mulVec (X : Matrix (Fin a) (Fin b) ℝ) (Y : Matrix (Fin a) (Fin d) ℝ) (v : Fin b → ℝ) (w : Fin d → ℝ) :
    hcat X Y *ᵥ Fin.append v w = X *ᵥ v + Y *ᵥ w := by
  funext i
  simp [hcat, mulVec, dotProduct, Fin.sum_univ_add, Fin.append_left, Fin.append_right]

theorem vcat_mulVec (X : Matrix (Fin a) (Fin e) ℝ) (Y : Matrix (Fin b) (Fin e) ℝ) (v : Fin e → ℝ) :
    vcat X Y *ᵥ v = Fin.append (X *ᵥ v) (Y *ᵥ v) := by
  funext i
  refine Fin.addCases (fun i => ?_) (fun i => ?_) i <;> simp [vcat, mulVec, dotProduct]

theorem blk4_mul_vcat (A : Matrix (Fin a) (Fin b) ℝ) (B : Matrix (Fin a) (Fin d) ℝ) (C : Matrix (Fin c) (Fin b) ℝ)
    (D : Matrix (Fin c) (Fin d) ℝ) (X : Matrix (Fin b) (Fin e) ℝ) (Y : Matrix (Fin d) (Fin e) ℝ) :
    blk4 A B C D * vcat X Y = vcat (A * X + B * Y) (C * X + D * Y) := by
  rw [blk4, vcat, submatrix_mul_equiv, fromBlocks_mul_fromRows]
  rfl

theorem hcat_mul_vcat (X : Matrix (Fin a) (Fin b) ℝ) (Y : Matrix (Fin a) (Fin d) ℝ) (X' : Matrix (Fin b) (Fin e) ℝ)
    (Y' : Matrix (Fin d) (Fin e) ℝ) : hcat X Y * vcat X' Y' = X * X' + Y * Y' := by
  rw [hcat, vcat, submatrix_mul_equiv, fromCols_mul_fromRows]
  rfl

theorem vcat_mul_hcat (X : Matrix (Fin a) (Fin e) ℝ) (Y : Matrix (Fin c) (Fin e) ℝ) (X' : Matrix (Fin e) (Fin b) ℝ)
    (Y' : Matrix (Fin e) (Fin d) ℝ) : vcat X Y * hcat X' Y' = blk4 (X * X') (X * Y') (Y * X') (Y * Y') := by
  rw [vcat, hcat, blk4]
  have : (fromRows X Y).submatrix finSumFinEquiv.symm id * (fromCols X' Y').submatrix id finSumFinEquiv.symm =
      (fromRows X Y * fromCols X' Y').submatrix finSumFinEquiv.symm finSumFinEquiv.symm := rfl
  rw [this, fromRows_mul_fromCols]

theorem vcat_mul (X : Matrix (Fin a) (Fin e) ℝ) (Y : Matrix (Fin b) (Fin e) ℝ) (M : Matrix (Fin e) (Fin f) ℝ) :
    vcat X Y * M = vcat (X * M) (Y * M) := by
  ext i j
  refine Fin.addCases (fun i => ?_) (fun i => ?_) i <;> simp [vcat, mul_apply]

theorem hcat_transpose (X : Matrix (Fin a) (Fin b) ℝ) (Y : Matrix (Fin a) (Fin d) ℝ) : (hcat X Y)ᵀ = vcat Xᵀ Yᵀ := by
  rw [hcat, vcat, transpose_submatrix, transpose_fromCols]

end blocks

variable {n m p : ℕ}

/-- Joint belief with covariance `C` between the further components and the state. -/
def Belief.glue (b : Belief n) (l : Fin p → ℝ) (C : Matrix (Fin p) (Fin n) ℝ) (W : Matrix (Fin p) (Fin p) ℝ) : Belief (n + p) :=
  ⟨Fin.append b.x l, blk4 b.P Cᵀ C W⟩

theorem glue_first (b : Belief n) (l : Fin p → ℝ) (C : Matrix (Fin p) (Fin n) ℝ) (W : Matrix (Fin p) (Fin p) ℝ) :
    (b.glue l C W).first = b := by
  ext <;> simp [Belief.glue, Belief.first, blk4]

theorem glue_further (b : Belief n) (l : Fin p → ℝ) (C : Matrix (Fin p) (Fin n) ℝ) (W : Matrix (Fin p) (Fin p) ℝ) :
    (b.glue l C W).further = ⟨l, W⟩ := by
  ext <;> simp [Belief.glue, Belief.further, blk4]

variable (s : LinStep n m) (E : Matrix (Fin p) (Fin n) ℝ) (D : Matrix (Fin p) (Fin p) ℝ) (b : Belief n) (l : Fin p → ℝ)
  (C : Matrix (Fin p) (Fin n) ℝ) (W : Matrix (Fin p) (Fin p) ℝ)

theorem carry_predict (hb : b.Pᵀ = b.P) :
    (s.carry E D).predict (b.glue l C W) =
      (s.predict b).glue (E *ᵥ b.x + D *ᵥ l) ((E * b.P + D * C) * s.Aᵀ)
        ((E * b.P + D * C) * Eᵀ + (E * Cᵀ + D * W) * Dᵀ) := by
  ext1
  · simp only [LinStep.predict, LinStep.carry, Belief.glue, blk4_mulVec, append_add, zero_mulVec, add_zero]
  · simp only [LinStep.predict, LinStep.carry, Belief.glue, priorCov, blk_eq4, blk4_mul, blk4_transpose, blk4_add, Matrix.zero_mul,
      Matrix.mul_zero, add_zero, transpose_zero, zero_add, transpose_mul, transpose_add, transpose_transpose, hb]
    congr 1
    rw [Matrix.mul_add]
    simp only [Matrix.mul_assoc]

theorem carry_innov : (s.carry E D).innov (b.glue l C W) = s.innov b := by
  simp only [LinStep.innov, LinStep.carry, Belief.glue, innovCov, hcat_transpose, Matrix.mul_assoc, blk4_mul_vcat, hcat_mul_vcat,
    transpose_zero, Matrix.mul_zero, Matrix.zero_mul, add_zero]

theorem carry_gain : (s.carry E D).gain (b.glue l C W) = vcat (s.gain b) (C * s.Hᵀ * (s.innov b)⁻¹) := by
  have h := carry_innov s E D b l C W
  rw [LinStep.innov] at h
  rw [LinStep.gain, kGain, h]
  simp only [LinStep.carry, Belief.glue, hcat_transpose, blk4_mul_vcat, transpose_zero, Matrix.mul_zero, add_zero, vcat_mul]
  rfl

theorem carry_update (hb : b.Pᵀ = b.P) (hR : s.Rᵀ = s.R) :
    (s.carry E D).update (b.glue l C W) =
      (s.update b).glue (l + (C * s.Hᵀ * (s.innov b)⁻¹) *ᵥ (s.z - s.H *ᵥ b.x))
        (C - C * s.Hᵀ * (s.innov b)⁻¹ * s.H * b.P) (W - C * s.Hᵀ * (s.innov b)⁻¹ * s.H * Cᵀ) := by
  have hS : (s.innov b)ᵀ = s.innov b := by
    rw [LinStep.innov, innovCov, transpose_add, transpose_mul, transpose_mul, transpose_transpose, hb, hR, Matrix.mul_assoc]
  have hk := carry_gain s E D b l C W
  ext1
  · rw [LinStep.update, hk]
    simp only [LinStep.update, LinStep.carry, Belief.glue, vcat_mulVec, hcat_mulVec, zero_mulVec, add_zero, append_add]
  · rw [LinStep.update, postCov]
    rw [LinStep.gain] at hk
    rw [hk]
    simp only [LinStep.update, LinStep.carry, Belief.glue, vcat_mul_hcat, Matrix.mul_zero, ← blk4_one, blk4_sub, blk4_mul, postCov,
      Matrix.zero_mul, add_zero, zero_add, sub_zero, zero_sub, Matrix.neg_mul, Matrix.one_mul, sub_self]
    congr 1
    · rw [LinStep.gain, kGain, Matrix.sub_mul, transpose_sub, Matrix.one_mul]
      simp only [transpose_mul, transpose_transpose, transpose_nonsing_inv, hS, hb, Matrix.mul_assoc]
      rfl
    · abel
    · abel

/-- One step, when the covariance between the further components and the state is `T` times the covariance of the state. -/
theorem carry_next (T : Matrix (Fin p) (Fin n) ℝ) (G : Matrix (Fin n) (Fin n) ℝ) (hb : b.Pᵀ = b.P) (hR : s.Rᵀ = s.R)
    (hM : (s.predict b).Pᵀ = (s.predict b).P) (hG : G * (s.predict b).P = b.P * s.Aᵀ) :
    (s.carry E D).next (b.glue l (T * b.P) W) =
      (s.next b).glue (E *ᵥ b.x + D *ᵥ l + ((E + D * T) * G) *ᵥ ((s.next b).x - (s.predict b).x))
        ((E + D * T) * G * (s.next b).P)
        ((E + D * T) * b.P * Eᵀ + (E * (b.P * Tᵀ) + D * W) * Dᵀ
          - (E + D * T) * G * ((s.predict b).P - (s.next b).P) * ((E + D * T) * G)ᵀ) := by
  have h1 : (s.carry E D).next (b.glue l (T * b.P) W) = (s.carry E D).update ((s.carry E D).predict (b.glue l (T * b.P) W)) := rfl
  have h2 : s.next b = s.update (s.predict b) := rfl
  have hC : (E * b.P + D * (T * b.P)) * s.Aᵀ = (E + D * T) * G * (s.predict b).P := by
    rw [Matrix.mul_assoc _ G, hG, ← Matrix.mul_assoc D, ← Matrix.add_mul, Matrix.mul_assoc]
  have hP : (s.update (s.predict b)).P = (s.predict b).P - s.gain (s.predict b) * s.H * (s.predict b).P := by
    rw [LinStep.update, postCov, Matrix.sub_mul, Matrix.one_mul]
    rfl
  have hk : ∀ X : Matrix (Fin p) (Fin n) ℝ, X * (s.predict b).P * s.Hᵀ * (s.innov (s.predict b))⁻¹ = X * s.gain (s.predict b) := by
    intro X
    rw [LinStep.gain, kGain]
    simp only [Matrix.mul_assoc]
    rfl
  have hx : (s.update (s.predict b)).x - (s.predict b).x = s.gain (s.predict b) *ᵥ (s.z - s.H *ᵥ (s.predict b).x) := by
    rw [LinStep.update]
    simp only [add_sub_cancel_left]
  rw [h1, carry_predict s E D b l _ W hb, hC, carry_update s E D (s.predict b) _ _ _ hM hR, hk, h2, hx, hP]
  congr 1
  · rw [mulVec_mulVec]
  · rw [Matrix.mul_sub]
    simp only [Matrix.mul_assoc]
  · have e1 : (T * b.P)ᵀ = b.P * Tᵀ := by rw [transpose_mul, hb]
    have e2 : (E * b.P + D * (T * b.P)) = (E + D * T) * b.P := by rw [Matrix.add_mul, Matrix.mul_assoc]
    rw [e1, e2, sub_sub_cancel]
    congr 1
    rw [transpose_mul _ (s.predict b).P, hM]
    simp only [Matrix.mul_assoc]

/-- The carried step of `t`. -/
local notation "carriedBy" t:max => LinStep.carry (Prod.fst t) (Prod.fst (Prod.snd t)) (Prod.snd (Prod.snd t))

theorem rts_head (b : Belief n) (ss : List (LinStep n m)) : ∃ q qs, rts b ss = q :: qs := by
  have h := rts_length b ss
  rcases hr : rts b ss with _ | ⟨q, qs⟩
  · rw [hr] at h; simp at h
  · exact ⟨q, qs, rfl⟩

theorem carry_run (ts : List (LinStep n m × Matrix (Fin p) (Fin n) ℝ × Matrix (Fin p) (Fin p) ℝ)) (b : Belief n) (l : Fin p → ℝ)
    (T : Matrix (Fin p) (Fin n) ℝ) (W : Matrix (Fin p) (Fin p) ℝ) (hb : b.P.PosDef) (hss : ∀ t ∈ ts, PdStep t.1) (q : Belief n)
    (qs : List (Belief n)) (hq : rts b (ts.map fun t => t.1) = q :: qs) :
    ∃ T' W', lastOf (b.glue l (T * b.P) W) (ts.map fun t => carriedBy t) =
      (lastOf b (ts.map fun t => t.1)).glue
        (runAlong (ts.map fun t => t.2) ((q :: qs).map fun r => r.x) (l + T *ᵥ (q.x - b.x)))
        (T' * (lastOf b (ts.map fun t => t.1)).P) W' ∧
      ((∀ t ∈ ts, t.2 = (0, 1)) → W' = W + T * (q.P - b.P) * Tᵀ ∧
        runAlong (ts.map fun t => t.2) ((q :: qs).map fun r => r.x) (l + T *ᵥ (q.x - b.x)) = l + T *ᵥ (q.x - b.x)) := by
  induction ts generalizing b l T W q qs with
  | nil =>
    simp only [List.map_nil, rts, List.cons.injEq] at hq
    obtain ⟨rfl, rfl⟩ := hq
    exact ⟨T, W, by simp [lastOf, runAlong], fun _ => by simp [runAlong]⟩
  | cons t ts ih =>
    obtain ⟨s, E, D⟩ := t
    have hs : PdStep s := hss (s, E, D) (by simp)
    obtain ⟨q', qs', hq'⟩ := rts_head (s.next b) (ts.map fun t => t.1)
    have hq2 : rts b (s :: ts.map fun t => t.1) = rtsStep b s q' :: q' :: qs' := by rw [rts, hq']
    simp only [List.map_cons] at hq
    rw [hq2, List.cons.injEq] at hq
    obtain ⟨rfl, rfl⟩ := hq
    have hM := hs.prior hb
    have hG : (b.P * s.Aᵀ * (s.predict b).P⁻¹) * (s.predict b).P = b.P * s.Aᵀ :=
      Matrix.nonsing_inv_mul_cancel_right _ _ (isUnit_iff_ne_zero.2 (posDef_det_ne hM))
    have hn := carry_next s E D b l W T _ hb.isHermitian hs.2.1.isHermitian hM.isHermitian hG
    set G := b.P * s.Aᵀ * (s.predict b).P⁻¹ with hGd
    clear_value G
    obtain ⟨T', W', h1, h2⟩ := ih (s.next b)
      (E *ᵥ b.x + D *ᵥ l + ((E + D * T) * G) *ᵥ ((s.next b).x - (s.predict b).x)) ((E + D * T) * G)
      ((E + D * T) * b.P * Eᵀ + (E * (b.P * Tᵀ) + D * W) * Dᵀ -
        (E + D * T) * G * ((s.predict b).P - (s.next b).P) * ((E + D * T) * G)ᵀ) (hs.next hb) (fun t ht => hss t (by simp [ht])) q' qs' hq'
    have ex : (rtsStep b s q').x - b.x = G *ᵥ (q'.x - (s.predict b).x) := by
      simp only [rtsStep, ← hGd, add_sub_cancel_left]
    have eP : (rtsStep b s q').P - b.P = G * (q'.P - (s.predict b).P) * Gᵀ := by
      simp only [rtsStep, ← hGd, add_sub_cancel_left]
    have ey : E *ᵥ b.x + D *ᵥ l + ((E + D * T) * G) *ᵥ ((s.next b).x - (s.predict b).x) + ((E + D * T) * G) *ᵥ (q'.x - (s.next b).x) =
        E *ᵥ (rtsStep b s q').x + D *ᵥ (l + T *ᵥ ((rtsStep b s q').x - b.x)) := by
      have e0 : (rtsStep b s q').x = b.x + G *ᵥ (q'.x - (s.predict b).x) := by rw [← ex, add_sub_cancel]
      rw [add_assoc, ← mulVec_add, add_comm ((s.next b).x - _), sub_add_sub_cancel, ex, e0, ← mulVec_mulVec, add_mulVec, mulVec_add, mulVec_add, mulVec_mulVec, mulVec_mulVec, mulVec_mulVec, mulVec_mulVec]
      abel
    refine ⟨T', W', ?_, fun hc => ?_⟩
    · simp only [List.map_cons, lastOf]
      rw [hn, h1]
      simp only [List.map_cons, runAlong, ey]
    · have hED := hc (s, E, D) (by simp)
      simp only [Prod.mk.injEq] at hED
      obtain ⟨rfl, rfl⟩ := hED
      obtain ⟨g1, g2⟩ := h2 fun t ht => hc t (by simp [ht])
      refine ⟨?_, ?_⟩
      · rw [g1, eP]
        simp only [zero_add, Matrix.one_mul, transpose_zero, Matrix.mul_zero, Matrix.zero_mul, transpose_one, Matrix.mul_one,
          transpose_mul, Matrix.mul_sub, Matrix.sub_mul, Matrix.mul_assoc]
        abel
      · simp only [List.map_cons, runAlong] at g2 ⊢
        rw [← ey, g2, ey, zero_mulVec, one_mulVec, zero_add]

/-! ### The plain part -/

/-- `g` is about a state of which the belief alone is `b`. -/
def Extends' (g : Belief (n + p)) (b : Belief n) : Prop :=
  ∃ (l : Fin p → ℝ) (C' : Matrix (Fin n) (Fin p) ℝ) (C : Matrix (Fin p) (Fin n) ℝ) (W : Matrix (Fin p) (Fin p) ℝ),
    g = ⟨Fin.append b.x l, blk4 b.P C' C W⟩

theorem Extends'.first {g : Belief (n + p)} {b : Belief n} (h : Extends' g b) : g.first = b := by
  obtain ⟨l, C', C, W, rfl⟩ := h
  ext <;> simp [Belief.first, blk4]

theorem extends_first (g : Belief (n + p)) : Extends' g g.first := by
  refine ⟨g.further.x, fun i j => g.P (Fin.castAdd p i) (Fin.natAdd n j), fun i j => g.P (Fin.natAdd n i) (Fin.castAdd p j),
    g.further.P, ?_⟩
  ext i j
  · refine Fin.addCases (fun i => ?_) (fun i => ?_) i <;> simp [Belief.first, Belief.further]
  · refine Fin.addCases (fun i => ?_) (fun i => ?_) i <;> refine Fin.addCases (fun j => ?_) (fun j => ?_) j <;>
      simp [Belief.first, Belief.further, blk4] <;> rfl

theorem carry_plain {g : Belief (n + p)} (h : Extends' g b) :
    Extends' ((s.carry E D).next g) (s.next b) ∧ (s.carry E D).innov ((s.carry E D).predict g) = s.innov (s.predict b) ∧
      ∃ K₂, (s.carry E D).gain ((s.carry E D).predict g) = vcat (s.gain (s.predict b)) K₂ := by
  have hp : Extends' ((s.carry E D).predict g) (s.predict b) := by
    obtain ⟨l, C', C, W, rfl⟩ := h
    refine ⟨E *ᵥ b.x + D *ᵥ l, s.A * b.P * Eᵀ + s.A * C' * Dᵀ, E * b.P * s.Aᵀ + D * C * s.Aᵀ,
      (E * b.P + D * C) * Eᵀ + (E * C' + D * W) * Dᵀ, ?_⟩
    · ext1
      · simp only [LinStep.predict, LinStep.carry, blk4_mulVec, append_add, zero_mulVec, add_zero]
      · simp only [LinStep.predict, LinStep.carry, priorCov, blk_eq4, blk4_mul, blk4_transpose, blk4_add, Matrix.zero_mul,
          Matrix.mul_zero, add_zero, transpose_zero, Matrix.add_mul]
  have h1 : (s.carry E D).next g = (s.carry E D).update ((s.carry E D).predict g) := rfl
  have h2 : s.next b = s.update (s.predict b) := rfl
  rw [h1, h2]
  obtain ⟨l, C', C, W, he⟩ := hp
  rw [he]
  generalize s.predict b = q
  have hi : (s.carry E D).innov ⟨Fin.append q.x l, blk4 q.P C' C W⟩ = s.innov q := by
    simp only [LinStep.innov, LinStep.carry, innovCov, hcat_transpose, Matrix.mul_assoc, blk4_mul_vcat, hcat_mul_vcat,
      transpose_zero, Matrix.mul_zero, Matrix.zero_mul, add_zero]
  have hk : (s.carry E D).gain ⟨Fin.append q.x l, blk4 q.P C' C W⟩ = vcat (s.gain q) (C * s.Hᵀ * (s.innov q)⁻¹) := by
    have h := hi
    rw [LinStep.innov] at h
    rw [LinStep.gain, kGain, h]
    simp only [LinStep.carry, hcat_transpose, blk4_mul_vcat, transpose_zero, Matrix.mul_zero, add_zero, vcat_mul]
    rfl
  refine ⟨⟨l + (C * s.Hᵀ * (s.innov q)⁻¹) *ᵥ (s.z - s.H *ᵥ q.x), C' - s.gain q * s.H * C',
    C - C * s.Hᵀ * (s.innov q)⁻¹ * s.H * q.P, W - C * s.Hᵀ * (s.innov q)⁻¹ * s.H * C', ?_⟩, hi, _, hk⟩
  ext1
  · rw [LinStep.update, hk]
    simp only [LinStep.update, LinStep.carry, vcat_mulVec, hcat_mulVec, zero_mulVec, add_zero, append_add]
  · rw [LinStep.update, postCov]
    rw [LinStep.gain] at hk
    rw [hk]
    simp only [LinStep.update, LinStep.carry, vcat_mul_hcat, Matrix.mul_zero, ← blk4_one, blk4_sub, blk4_mul, postCov,
      Matrix.zero_mul, add_zero, zero_add, sub_zero, zero_sub, Matrix.neg_mul, Matrix.one_mul, sub_self]
    congr 1 <;> first | (rw [LinStep.gain, Matrix.sub_mul, Matrix.one_mul]) | abel

/-- The first rows of a matrix. -/
def topRows {k : ℕ} (K : Matrix (Fin (n + p)) (Fin k) ℝ) : Matrix (Fin n) (Fin k) ℝ := fun i j => K (Fin.castAdd p i) j

theorem carry_plain_run (ts : List (LinStep n m × Matrix (Fin p) (Fin n) ℝ × Matrix (Fin p) (Fin p) ℝ)) {b : Belief n}
    {g : Belief (n + p)} (h : Extends' g b) :
    (Solvable g (ts.map fun t => carriedBy t) ↔ Solvable b (ts.map fun t => t.1)) ∧
    (filtered g (ts.map fun t => carriedBy t)).map Belief.first = filtered b (ts.map fun t => t.1) ∧
    (gainsOf g (ts.map fun t => carriedBy t)).map topRows = gainsOf b (ts.map fun t => t.1) := by
  induction ts generalizing b g with
  | nil => exact ⟨Iff.rfl, rfl, rfl⟩
  | cons t ts ih =>
    obtain ⟨h1, h2, K₂, h3⟩ := carry_plain t.1 t.2.1 t.2.2 b h
    obtain ⟨i1, i2, i3⟩ := ih h1
    refine ⟨?_, ?_, ?_⟩
    · simp only [List.map_cons, Solvable, h2, i1]
    · simp only [List.map_cons, filtered, i2, h1.first]
    · simp only [List.map_cons, gainsOf, i3, h3]
      congr 1
      ext i j
      simp [topRows, vcat]

variable [Platform]

/-- C167: further components that only ever take in the state and themselves, without noise and without being measured, leave the rest
alone: whatever they are and whatever the filter believes about them at first, `filter` returns exactly the estimates, covariances and
gains of the plain model in the rows and columns of the state — or both raise LinAlgError. -/
theorem C167_filter (kf kf' : KalmanFilter Fl) (Z Z' : NDArray Fl) (U U' : Option (NDArray Fl)) (g : Belief (n + p))
    (ts : List (LinStep n m × Matrix (Fin p) (Fin n) ℝ × Matrix (Fin p) (Fin p) ℝ))
    (h : Represents kf Z U g.first (ts.map fun t => t.1))
    (h' : Represents kf' Z' U' g (ts.map fun t => t.1.carry t.2.1 t.2.2)) :
    (FilterSingular kf Z U ∧ FilterSingular kf' Z' U') ∨
    ∃ (bs : List (Belief (n + p))) (Ks : List (Matrix (Fin (n + p)) (Fin m) ℝ)), bs.length = ts.length ∧ Ks.length = ts.length ∧
      FilterReturns kf' Z' U' bs Ks ∧ FilterReturns kf Z U (bs.map Belief.first) (Ks.map topRows) := by
  obtain ⟨i1, i2, i3⟩ := carry_plain_run ts (extends_first g)
  by_cases hs : Solvable g.first (ts.map fun t => t.1)
  · refine .inr ⟨_, _, ?_, ?_, h'.returns (i1.2 hs), ?_⟩
    · rw [filtered_length, List.length_map]
    · rw [gainsOf_length, List.length_map]
    · rw [i2, i3]
      exact h.returns hs
  · exact .inl ⟨h.singular hs, h'.singular fun hh => hs (i1.1 hh)⟩

theorem carry_solvable {ts : List (LinStep n m × Matrix (Fin p) (Fin n) ℝ × Matrix (Fin p) (Fin p) ℝ)} {g : Belief (n + p)}
    (hP : g.first.P.PosDef) (hss : ∀ t ∈ ts, PdStep t.1) : Solvable g (ts.map fun t => carriedBy t) := by
  refine (carry_plain_run ts (extends_first g)).1.2 (solvable_pd _ _ hP fun s hs => ?_)
  obtain ⟨t, ht, rfl⟩ := List.mem_map.1 hs
  exact hss t ht

theorem join_glue (b : Belief n) (l : Belief p) : b.join l = b.glue l.x ((0 : Matrix (Fin p) (Fin n) ℝ) * b.P) l.P := by
  rw [Matrix.zero_mul]
  ext1
  · rfl
  · rw [Belief.join, Belief.glue, blk_eq4, transpose_zero]

theorem lastOf_getLast (b : Belief n) (s : LinStep n m) (ss : List (LinStep n m)) :
    (filtered b (s :: ss)).getLast? = some (lastOf b (s :: ss)) := by
  have := lastOf_filtered b (s :: ss)
  rw [List.length_cons, List.getElem?_cons_succ] at this
  rw [List.getLast?_eq_getElem?, filtered_length, List.length_cons]
  exact this

/-- C167: further components that start from a mean `l.x` and turn, at every step after the first, into `E x + D y` end up, in the last
row returned by `filter`, with the estimates obtained by putting the *smoothed* states of the plain model in the place of `x`: running
sums of smoothed states, say, or states of some steps ago. -/
theorem C167_means (kf kf' : KalmanFilter Fl) (Z Z' : NDArray Fl) (U U' : Option (NDArray Fl)) (b : Belief n) (l : Belief p)
    (s : LinStep n m) (ts : List (LinStep n m × Matrix (Fin p) (Fin n) ℝ × Matrix (Fin p) (Fin p) ℝ))
    (h : Represents kf Z U b (s :: ts.map fun t => t.1))
    (h' : Represents kf' Z' U' (b.join l) (s.carry 0 1 :: ts.map fun t => t.1.carry t.2.1 t.2.2))
    (hfull : ts.length + 1 = Z.rows.length) (hP : b.P.PosDef) (hs : PdStep s) (hss : ∀ t ∈ ts, PdStep t.1) :
    ∃ (bs : List (Belief (n + p))) (Ks : List (Matrix (Fin (n + p)) (Fin m) ℝ)) (qs : List (Belief n))
      (Js : List (Matrix (Fin n) (Fin m) ℝ)) (last : Belief (n + p)), FilterReturns kf' Z' U' bs Ks ∧ SmoothReturns kf Z U qs Js ∧
      bs.getLast? = some last ∧ qs.getLast? = some last.first ∧
      last.further.x = runAlong (ts.map fun t => t.2) (qs.map fun q => q.x) l.x := by
  have hS : ∀ t ∈ (s, (0 : Matrix (Fin p) (Fin n) ℝ), (1 : Matrix (Fin p) (Fin p) ℝ)) :: ts, PdStep t.1 := by
    intro t ht
    rcases List.mem_cons.1 ht with rfl | ht
    · exact hs
    · exact hss t ht
  have hS' : ∀ u ∈ s :: ts.map (fun t => t.1), PdStep u := by
    intro u hu
    rcases List.mem_cons.1 hu with rfl | hu
    · exact hs
    · obtain ⟨t, ht, rfl⟩ := List.mem_map.1 hu
      exact hss t ht
  obtain ⟨q', qs', hq'⟩ := rts_head (s.next b) (ts.map fun t => t.1)
  have hq : rts b (s :: ts.map fun t => t.1) = rtsStep b s q' :: q' :: qs' := by rw [rts, hq']
  obtain ⟨T', W', h1, -⟩ := carry_run ((s, 0, 1) :: ts) b l.x 0 l.P hP hS _ _ hq
  rw [← join_glue] at h1
  simp only [List.map_cons] at h1
  have hsolv := carry_solvable (ts := (s, 0, 1) :: ts) (g := b.join l) (by rw [join_glue, glue_first]; exact hP) hS
  refine ⟨_, _, _, _, _, h'.returns hsolv, h.smoothReturns (by simpa using hfull) (by simp) (solvable_pd _ _ hP hS')
    (smoothSolvable_pd _ _ hP hS'), lastOf_getLast _ _ _, ?_, ?_⟩
  · rw [h1, glue_first, smoothed, rts_last, lastOf]
  · rw [h1, glue_further]
    simp only [runAlong, zero_mulVec, one_mulVec, add_zero, zero_add, smoothed, hq', List.map_cons]

theorem rts_mid (b : Belief n) (ps ss : List (LinStep n m)) : (rts b (ps ++ ss))[ps.length]? = (rts (lastOf b ps) ss).head? := by
  induction ps generalizing b with
  | nil => rw [List.nil_append, List.length_nil, lastOf, List.head?_eq_getElem?]
  | cons s ps ih =>
    obtain ⟨q, qs, hq⟩ := rts_head (s.next b) (ps ++ ss)
    have := ih (s.next b)
    rw [List.cons_append, rts, lastOf, ← this, hq]
    rfl

theorem lastOf_pd (b : Belief n) (ss : List (LinStep n m)) (hb : b.P.PosDef) (h : ∀ s ∈ ss, PdStep s) : (lastOf b ss).P.PosDef := by
  induction ss generalizing b with
  | nil => exact hb
  | cons s ss ih => exact ih _ ((h s (by simp)).next hb) fun t ht => h t (by simp [ht])

/-- C167: further components that become `T x` at one step (`x` being the state before it) and are otherwise left alone keep up with what
is learnt about that one state: in every later row of the one call of `filter`, their estimate and covariance are exactly what `smooth`,
called on the measurements so far, says about `T x` at that time: `T x̂ₛ` and `T Pₛ Tᵀ`.  (`ps` are the steps up to that state, `ss` the
further ones that have been seen, `rest` those that have not.) -/
theorem C167_memory (kf kf' : KalmanFilter Fl) (Z Z' : NDArray Fl) (U U' : Option (NDArray Fl)) (b : Belief n) (l : Belief p)
    (T : Matrix (Fin p) (Fin n) ℝ) (ps : List (LinStep n m)) (s : LinStep n m) (ss rest : List (LinStep n m))
    (h : Represents kf Z U b (ps ++ s :: ss)) (hfull : (ps ++ s :: ss).length = Z.rows.length) (hne : ps ≠ [])
    (h' : Represents kf' Z' U' (b.join l) (ps.map (fun t => t.carry 0 1) ++ s.carry T 0 :: (ss ++ rest).map (fun t => t.carry 0 1)))
    (hP : b.P.PosDef) (hss : ∀ t ∈ ps ++ s :: (ss ++ rest), PdStep t) :
    ∃ (bs : List (Belief (n + p))) (Ks : List (Matrix (Fin (n + p)) (Fin m) ℝ)) (qs : List (Belief n))
      (Js : List (Matrix (Fin n) (Fin m) ℝ)) (g : Belief (n + p)) (q : Belief n), FilterReturns kf' Z' U' bs Ks ∧
      SmoothReturns kf Z U qs Js ∧ bs[ps.length + ss.length]? = some g ∧ qs[ps.length - 1]? = some q ∧
      g.further = ⟨T *ᵥ q.x, T * q.P * Tᵀ⟩ := by
  have hm : ∀ us : List (LinStep n m), us.map (fun t => t.carry (0 : Matrix (Fin p) (Fin n) ℝ) 1) =
      (us.map fun t => (t, (0 : Matrix (Fin p) (Fin n) ℝ), (1 : Matrix (Fin p) (Fin p) ℝ))).map fun t => carriedBy t := by
    intro us
    rw [List.map_map]
    rfl
  have hm' : ∀ us : List (LinStep n m), (us.map fun t => (t, (0 : Matrix (Fin p) (Fin n) ℝ), (1 : Matrix (Fin p) (Fin p) ℝ))).map
      (fun t => t.1) = us := by
    intro us
    rw [List.map_map]
    exact List.map_id us
  have hps : ∀ t ∈ ps, PdStep t := fun t ht => hss t (by simp [ht])
  have hs : PdStep s := hss s (by simp)
  have hs1 : ∀ t ∈ ss, PdStep t := fun t ht => hss t (by simp [ht])
  have hS : ∀ t ∈ ps ++ s :: ss, PdStep t := fun t ht => hss t (by
    simp only [List.mem_append, List.mem_cons] at ht ⊢
    tauto)
  -- up to the step
  obtain ⟨q₀, qs₀, hq₀⟩ := rts_head b ps
  obtain ⟨T₁, W₁, h1, -⟩ := carry_run (ps.map fun t => (t, (0 : Matrix (Fin p) (Fin n) ℝ), (1 : Matrix (Fin p) (Fin p) ℝ))) b l.x 0 l.P
    hP (fun t ht => by
      obtain ⟨u, hu, rfl⟩ := List.mem_map.1 ht
      exact hps u hu) q₀ qs₀ (by rw [hm', hq₀])
  rw [← join_glue, ← hm, hm'] at h1
  generalize runAlong _ _ _ = l₁ at h1
  have hb₁ := lastOf_pd b ps hP hps
  have hd₁ := rts_mid b ps (s :: ss)
  set b₁ := lastOf b ps with hb₁d
  clear_value b₁
  -- the step
  have hM := hs.prior hb₁
  have hG : (b₁.P * s.Aᵀ * (s.predict b₁).P⁻¹) * (s.predict b₁).P = b₁.P * s.Aᵀ :=
    Matrix.nonsing_inv_mul_cancel_right _ _ (isUnit_iff_ne_zero.2 (posDef_det_ne hM))
  have hn := carry_next s T 0 b₁ l₁ W₁ T₁ _ hb₁.isHermitian hs.2.1.isHermitian hM.isHermitian hG
  obtain ⟨q₁, qs₁, hq₁⟩ := rts_head (s.next b₁) ss
  have hr : rts b₁ (s :: ss) = rtsStep b₁ s q₁ :: q₁ :: qs₁ := by rw [rts, hq₁]
  -- after it
  set G := b₁.P * s.Aᵀ * (s.predict b₁).P⁻¹ with hGd
  clear_value G
  obtain ⟨T₂, W₂, h2, h3⟩ := carry_run (ss.map fun t => (t, (0 : Matrix (Fin p) (Fin n) ℝ), (1 : Matrix (Fin p) (Fin p) ℝ))) (s.next b₁)
    (T *ᵥ b₁.x + (0 : Matrix (Fin p) (Fin p) ℝ) *ᵥ l₁ + ((T + (0 : Matrix (Fin p) (Fin p) ℝ) * T₁) * G) *ᵥ ((s.next b₁).x - (s.predict b₁).x)) ((T + (0 : Matrix (Fin p) (Fin p) ℝ) * T₁) * G)
    ((T + (0 : Matrix (Fin p) (Fin p) ℝ) * T₁) * b₁.P * Tᵀ + (T * (b₁.P * T₁ᵀ) + 0 * W₁) * (0 : Matrix (Fin p) (Fin p) ℝ)ᵀ -
      (T + (0 : Matrix (Fin p) (Fin p) ℝ) * T₁) * G * ((s.predict b₁).P - (s.next b₁).P) * ((T + (0 : Matrix (Fin p) (Fin p) ℝ) * T₁) * G)ᵀ) (hs.next hb₁) (fun t ht => by
      obtain ⟨u, hu, rfl⟩ := List.mem_map.1 ht
      exact hs1 u hu) q₁ qs₁ (by rw [hm', hq₁])
  obtain ⟨h4, h5⟩ := h3 fun t ht => by
    obtain ⟨u, hu, rfl⟩ := List.mem_map.1 ht
    rfl
  rw [← hm, h5] at h2
  -- together
  have hlast : lastOf (b.join l) (ps.map (fun t => t.carry 0 1) ++ s.carry T 0 :: ss.map (fun t => t.carry 0 1)) =
      lastOf ((s.carry T 0).next (b₁.glue l₁ (T₁ * b₁.P) W₁)) (ss.map fun t => t.carry 0 1) := by
    rw [lastOf_append, h1, lastOf]
  have hsolv : Solvable (b.join l)
      (ps.map (fun t => t.carry 0 1) ++ s.carry T 0 :: (ss ++ rest).map (fun t => t.carry 0 1)) := by
    have := carry_solvable (p := p) (ts := ps.map (fun t => (t, 0, 1)) ++ (s, T, 0) :: (ss ++ rest).map (fun t => (t, 0, 1)))
      (g := b.join l) (by rw [join_glue, glue_first]; exact hP) (by
        intro t ht
        rcases List.mem_append.1 ht with ht | ht
        · obtain ⟨u, hu, rfl⟩ := List.mem_map.1 ht
          exact hps u hu
        · rcases List.mem_cons.1 ht with rfl | ht
          · exact hs
          · obtain ⟨u, hu, rfl⟩ := List.mem_map.1 ht
            exact hss u (by simp only [List.mem_append, List.mem_cons] at hu ⊢; tauto))
    rwa [List.map_append, List.map_cons, ← hm, ← hm] at this
  refine ⟨_, _, _, _, lastOf (b.join l) (ps.map (fun t => t.carry 0 1) ++ s.carry T 0 :: ss.map (fun t => t.carry 0 1)),
    rtsStep b₁ s q₁, h'.returns hsolv,
    h.smoothReturns hfull (by simp) (solvable_pd _ _ hP hS) (smoothSolvable_pd _ _ hP hS), ?_, ?_, ?_⟩
  · rw [filtered_get _ _ _ (by simp)]
    congr 2
    rw [List.map_append, ← List.cons_append, ← List.append_assoc, List.take_append_of_le_length (by simp),
      List.take_of_length_le (by simp; omega)]
  · cases ps with
    | nil => exact absurd rfl hne
    | cons s₀ ps =>
      rw [List.cons_append, smoothed, List.length_cons, Nat.add_sub_cancel, rts_mid]
      rw [lastOf] at hb₁d
      rw [← hb₁d, hr, List.head?_cons]
  · rw [hlast, hn, h2, glue_further, h4]
    simp only [rtsStep, ← hGd, Matrix.zero_mul, add_zero, zero_mulVec, transpose_zero, Matrix.mul_zero]
    ext1
    · rw [add_assoc, ← mulVec_add, add_comm ((s.next b₁).x - _), sub_add_sub_cancel, mulVec_add, mulVec_mulVec]
    · simp only [transpose_mul, Matrix.mul_sub, Matrix.sub_mul, Matrix.mul_add, Matrix.add_mul, Matrix.mul_assoc]
      abel

-- C167_filter, C167_means: the constant-velocity model, with the running sum of all states carried along.
example (uz : List (ℝ × ℝ)) (z : ℝ) : let ts := (Ex.cvSteps uz).map fun t => (t, (1 : Matrix (Fin 2) (Fin 2) ℝ), (1 : Matrix (Fin 2) (Fin 2) ℝ))
    let l : Belief 2 := ⟨0, 0⟩
    (∃ kf Z U, Represents kf Z U Ex.cvBelief (Ex.cvStep 0 z :: ts.map fun t => t.1) ∧ ts.length + 1 = Z.rows.length) ∧
    (∃ kf Z U, Represents kf Z U (Ex.cvBelief.join l)
      ((Ex.cvStep 0 z).carry 0 1 :: ts.map fun t => t.1.carry t.2.1 t.2.2)) ∧
    Ex.cvBelief.P.PosDef ∧ PdStep (Ex.cvStep 0 z) ∧ (∀ t ∈ ts, PdStep t.1) ∧ (Ex.cvBelief.join l).first = Ex.cvBelief ∧
    ∀ (u v y : Fin 2 → ℝ) (E₁ E₂ : Matrix (Fin 2) (Fin 2) ℝ), runAlong [(E₁, 1), (E₂, 1)] [u, v] y = E₂ *ᵥ v + (E₁ *ᵥ u + y) := by
  intro ts l
  refine ⟨⟨_, _, _, Ex.encode_represents _ _, ?_⟩, ⟨_, _, _, Ex.encode_represents _ _⟩, Ex.cv_posDef, Ex.cv_pdStep [(0, z)] _ (by simp [Ex.cvSteps]), ?_, ?_, ?_⟩
  · rw [Ex.encZ_length]; simp
  · intro t ht
    obtain ⟨u, hu, rfl⟩ := List.mem_map.1 ht
    exact Ex.cv_pdStep uz u hu
  · rw [join_glue, glue_first]
  · intro u v y E₁ E₂
    simp [runAlong]

-- C167_memory: the constant-velocity model, remembering the position at the time of the second measurement.
example (z₁ z₂ z₃ z₄ z₅ : ℝ) (l : Belief 1) : let ps := Ex.cvSteps [(0, z₁), (0, z₂)]
    let ss := Ex.cvSteps [(0, z₄)]
    let rest := Ex.cvSteps [(0, z₅)]
    let T : Matrix (Fin 1) (Fin 2) ℝ := !![1, 0]
    (∃ kf Z U, Represents kf Z U Ex.cvBelief (ps ++ Ex.cvStep 0 z₃ :: ss) ∧ (ps ++ Ex.cvStep 0 z₃ :: ss).length = Z.rows.length) ∧
    (∃ kf Z U, Represents kf Z U (Ex.cvBelief.join l)
      (ps.map (fun t => t.carry 0 1) ++ (Ex.cvStep 0 z₃).carry T 0 :: (ss ++ rest).map (fun t => t.carry 0 1))) ∧
    ps ≠ [] ∧ Ex.cvBelief.P.PosDef ∧ ∀ t ∈ ps ++ Ex.cvStep 0 z₃ :: (ss ++ rest), PdStep t := by
  intro ps ss rest T
  refine ⟨⟨_, _, _, Ex.encode_represents _ _, (Ex.encZ_length _).symm⟩, ⟨_, _, _, Ex.encode_represents _ _⟩, by simp [ps, Ex.cvSteps],
    Ex.cv_posDef, fun t ht => Ex.cv_pdStep [(0, z₁), (0, z₂), (0, z₃), (0, z₄), (0, z₅)] t ?_⟩
  simpa [ps, ss, rest, Ex.cvSteps, or_assoc] using ht

end KK
