import Verif.Proofs.Stoch

/-!
# From probability spaces to the orthogonality calculus
-/

set_option linter.unusedSectionVars false

namespace KK

open Matrix MeasureTheory

namespace Stoch

/-! ### Square-integrable random variables -/

variable {Ω : Type} [MeasurableSpace Ω] {μ : Measure Ω} [IsProbabilityMeasure μ]

/-- Measurable square-integrable random variables (functions, not classes). -/
def L2 (μ : Measure Ω) : Submodule ℝ (Ω → ℝ) where
  carrier := {f | Measurable f ∧ MemLp f 2 μ}
  add_mem' ha hb := ⟨ha.1.add hb.1, ha.2.add hb.2⟩
  zero_mem' := ⟨measurable_const, MemLp.zero⟩
  smul_mem' c _ hf := ⟨hf.1.const_smul c, hf.2.const_smul c⟩

omit [IsProbabilityMeasure μ] in
theorem L2.int_mul (f g : L2 μ) : Integrable (fun ω => f.1 ω * g.1 ω) μ := f.2.2.integrable_mul g.2.2

/-- Expectation of the product. -/
noncomputable def ip (μ : Measure Ω) : LinearMap.BilinForm ℝ (L2 μ) :=
  LinearMap.mk₂ ℝ (fun f g => ∫ ω, f.1 ω * g.1 ω ∂μ)
    (fun f f' g => by
      rw [← integral_add (L2.int_mul f g) (L2.int_mul f' g)]
      exact integral_congr_ae (.of_forall fun ω => by simp [add_mul]))
    (fun c f g => by
      rw [smul_eq_mul, ← integral_const_mul]
      exact integral_congr_ae (.of_forall fun ω => by simp [mul_assoc]))
    (fun f g g' => by
      rw [← integral_add (L2.int_mul f g) (L2.int_mul f g')]
      exact integral_congr_ae (.of_forall fun ω => by simp [mul_add]))
    (fun c f g => by
      rw [smul_eq_mul, ← integral_const_mul]
      exact integral_congr_ae (.of_forall fun ω => by simp only [Submodule.coe_smul, Pi.smul_apply, smul_eq_mul]; ring))

theorem ip_apply (f g : L2 μ) : ip μ f g = ∫ ω, f.1 ω * g.1 ω ∂μ := rfl

theorem ip_symm (f g : L2 μ) : ip μ f g = ip μ g f := by
  rw [ip_apply, ip_apply]; exact integral_congr_ae (.of_forall fun ω => mul_comm _ _)

theorem ip_nonneg (f : L2 μ) : 0 ≤ ip μ f f := integral_nonneg fun ω => mul_self_nonneg _

/-- The constant `1`. -/
noncomputable def one (μ : Measure Ω) [IsProbabilityMeasure μ] : L2 μ := ⟨fun _ => 1, measurable_const, memLp_const 1⟩

theorem ip_one (f : L2 μ) : ip μ f (one μ) = ∫ ω, f.1 ω ∂μ := by simp [ip_apply, one]

/-- Value at a sample point. -/
def ev (ω : Ω) : L2 μ →ₗ[ℝ] ℝ where
  toFun f := f.1 ω
  map_add' _ _ := rfl
  map_smul' _ _ := rfl

theorem ev_one (ω : Ω) : ev ω (one μ) = 1 := rfl

open Classical in
/-- A function as a random variable, if it is one. -/
noncomputable def lift (μ : Measure Ω) (f : Ω → ℝ) : L2 μ := if h : Measurable f ∧ MemLp f 2 μ then ⟨f, h⟩ else 0

theorem lift_coe {f : Ω → ℝ} (h : Measurable f ∧ MemLp f 2 μ) : (lift μ f).1 = f := by
  rw [lift, dif_pos h]

theorem lift_of (f : L2 μ) : lift μ f.1 = f := Subtype.ext (lift_coe f.2)

/-! ### Evaluation of the recursions -/

section eval
variable {V : Type} [AddCommGroup V] [Module ℝ V] {n m : ℕ} (φ : V →ₗ[ℝ] ℝ) {one : V}

/-- The belief at a sample point. -/
def VB.eval (b : VB V n) : Belief n := ⟨fun i => φ (b.x i), b.P⟩

theorem act_eval {ι κ : Type} [Fintype ι] [Fintype κ] (M : Matrix κ ι ℝ) (X : ι → V) (i : κ) :
    φ (act M X i) = (M *ᵥ fun j => φ (X j)) i := by
  simp [act, Matrix.mulVec, dotProduct]

theorem vpredict_eval (h1 : φ one = 1) (s : ModelStep n m) (b : VB V n) (z : Fin m → ℝ) :
    (vpredict one s b).eval φ = (s.withObs z).predict (b.eval φ) := by
  simp only [vpredict, VB.eval, LinStep.predict, ModelStep.withObs]
  congr 1
  funext i
  simp [act_eval, cst, h1]

theorem vnext_eval (h1 : φ one = 1) (s : ModelStep n m) (b : VB V n) (z : Fin m → V) :
    (vnext one s b z).eval φ = (s.withObs fun i => φ (z i)).next (b.eval φ) := by
  have hp := vpredict_eval φ h1 s b fun i => φ (z i)
  have hP : ((s.withObs fun i => φ (z i)).predict (b.eval φ)).P = (vpredict one s b).P := by rw [← hp]; rfl
  have hx : ((s.withObs fun i => φ (z i)).predict (b.eval φ)).x = fun i => φ ((vpredict one s b).x i) := by rw [← hp]; rfl
  rw [LinStep.next, LinStep.update, LinStep.gain, hP, hx]
  simp only [vnext, VB.eval, ModelStep.withObs]
  congr 1
  funext i
  simp only [Pi.add_apply, map_add, act_eval]
  congr 3
  funext j
  simp [act_eval]

theorem vfiltered_eval (h1 : φ one = 1) (b : VB V n) (ms : List (ModelStep n m)) (z : ℕ → Fin m → V) :
    (vfiltered one b ms z).map (VB.eval φ) = filtered (b.eval φ) (withData ms fun k i => φ (z k i)) := by
  induction ms generalizing b z with
  | nil => rfl
  | cons s ms ih => simp only [vfiltered, List.map_cons, withData, filtered, vnext_eval φ h1, ih]

theorem vsolvable_eval (h1 : φ one = 1) (b : VB V n) (ms : List (ModelStep n m)) (z : ℕ → Fin m → V) :
    VSolvable one b ms z ↔ Solvable (b.eval φ) (withData ms fun k i => φ (z k i)) := by
  induction ms generalizing b z with
  | nil => rfl
  | cons s ms ih =>
    simp only [VSolvable, withData, Solvable, ← vnext_eval φ h1, ih, LinStep.innov, ← vpredict_eval φ h1]
    rfl

theorem vrtsSolvable_eval (h1 : φ one = 1) (b : VB V n) (ms : List (ModelStep n m)) (z : ℕ → Fin m → V) :
    VRtsSolvable one b ms z ↔ RtsSolvable (b.eval φ) (withData ms fun k i => φ (z k i)) := by
  induction ms generalizing b z with
  | nil => rfl
  | cons s ms ih =>
    simp only [VRtsSolvable, withData, RtsSolvable, ← vnext_eval φ h1, ih, ← vpredict_eval φ h1]
    rfl

theorem vrtsStep_eval (h1 : φ one = 1) (b : VB V n) (s : ModelStep n m) (q : VB V n) (z : Fin m → ℝ) :
    (vrtsStep one b s q).eval φ = rtsStep (b.eval φ) (s.withObs z) (q.eval φ) := by
  have hp := vpredict_eval φ h1 s b z
  rw [rtsStep, ← hp]
  simp only [vrtsStep, VB.eval, ModelStep.withObs]
  congr 1
  funext i
  simp only [Pi.add_apply, map_add, act_eval]
  congr 3
  funext j
  simp

theorem vrts_eval (h1 : φ one = 1) (b : VB V n) (ms : List (ModelStep n m)) (z : ℕ → Fin m → V) :
    (vrts one b ms z).map (VB.eval φ) = rts (b.eval φ) (withData ms fun k i => φ (z k i)) := by
  induction ms generalizing b z with
  | nil => rfl
  | cons s ms ih =>
    have ih' := ih (vnext one s b (z 0)) fun k => z (k + 1)
    rw [vrts, withData, rts, ← vnext_eval φ h1, ← ih']
    rcases vrts one (vnext one s b (z 0)) ms (fun k => z (k + 1)) with _ | ⟨q, qs⟩
    · rfl
    · simp only [List.map_cons]
      rw [← vrtsStep_eval φ h1]

end eval

/-! ### The random system -/

variable {n m : ℕ} {b : Belief n} {ms : List (ModelStep n m)} {N : Src n m → Ω → ℝ} {X : ℕ → Ω → Fin n → ℝ}
  {z : ℕ → Ω → Fin m → ℝ}

section sys
variable (μ)

noncomputable def liftV {k : ℕ} (Y : Ω → Fin k → ℝ) : Fin k → L2 μ := fun i => lift μ fun ω => Y ω i
noncomputable def wV (N : Src n m → Ω → ℝ) (k : ℕ) : Fin n → L2 μ := fun i => lift μ (N (.w k i))
noncomputable def vV (N : Src n m → Ω → ℝ) (k : ℕ) : Fin m → L2 μ := fun i => lift μ (N (.v k i))
noncomputable def eV (N : Src n m → Ω → ℝ) : Fin n → L2 μ := fun i => lift μ (N (.e i))
noncomputable def bV (b : Belief n) : VB (L2 μ) n := ⟨cst (one μ) b.x, b.P⟩

end sys

theorem src_lift (hN : WhiteNoise μ b.P ms N) {a : Src n m} (ha : a.Active ms.length) : (lift μ (N a)).1 = N a :=
  lift_coe ⟨hN.meas a ha, hN.sq a ha⟩

theorem lin_lift {ι : Type} [Fintype ι] (c : ι → ℝ) (f : ι → Ω → ℝ) (hf : ∀ j, Measurable (f j) ∧ MemLp (f j) 2 μ) :
    Measurable (fun ω => ∑ j, c j * f j ω) ∧ MemLp (fun ω => ∑ j, c j * f j ω) 2 μ :=
  ⟨Finset.measurable_sum _ fun j _ => (hf j).1.const_mul _, memLp_finsetSum _ fun j _ => (hf j).2.const_mul _⟩

theorem state_lift (hN : WhiteNoise μ b.P ms N) (hX : Follows b.x ms N X z) (k : ℕ) (hk : k ≤ ms.length) (i : Fin n) :
    Measurable (fun ω => X k ω i) ∧ MemLp (fun ω => X k ω i) 2 μ := by
  induction k generalizing i with
  | zero =>
    have : (fun ω => X 0 ω i) = (fun _ => b.x i) + N (.e i) := funext fun ω => hX.init ω i
    rw [this]
    have he : (Src.e i : Src n m).Active ms.length := trivial
    have hc : MemLp (fun _ : Ω => b.x i) 2 μ := memLp_const (b.x i)
    exact ⟨measurable_const.add (hN.meas _ he), hc.add (hN.sq _ he)⟩
  | succ k ih =>
    obtain ⟨s, hs⟩ : ∃ s, ms[k]? = some s := ⟨_, List.getElem?_eq_getElem (by omega)⟩
    have hw : (Src.w k i : Src n m).Active ms.length := show k < ms.length by omega
    have : (fun ω => X (k + 1) ω i) = (fun ω => ∑ j, s.A i j * X k ω j) + (fun _ => s.c i) + N (.w k i) :=
      funext fun ω => hX.state k s hs ω i
    rw [this]
    have hs := lin_lift (μ := μ) (fun j => s.A i j) (fun j ω => X k ω j) fun j => ih (by omega) j
    have hc : MemLp (fun _ : Ω => s.c i) 2 μ := memLp_const (s.c i)
    exact ⟨(hs.1.add measurable_const).add (hN.meas _ hw), (hs.2.add hc).add (hN.sq _ hw)⟩

theorem obs_lift (hN : WhiteNoise μ b.P ms N) (hX : Follows b.x ms N X z) (k : ℕ) (hk : k < ms.length) (i : Fin m) :
    Measurable (fun ω => z k ω i) ∧ MemLp (fun ω => z k ω i) 2 μ := by
  obtain ⟨s, hs⟩ : ∃ s, ms[k]? = some s := ⟨_, List.getElem?_eq_getElem (by omega)⟩
  have hv : (Src.v k i : Src n m).Active ms.length := hk
  have : (fun ω => z k ω i) = (fun ω => ∑ j, s.H i j * X (k + 1) ω j) + N (.v k i) :=
    funext fun ω => hX.obs k s hs ω i
  rw [this]
  have hs := lin_lift (μ := μ) (fun j => s.H i j) (fun j ω => X (k + 1) ω j) fun j => state_lift hN hX (k + 1) (by omega) j
  exact ⟨hs.1.add (hN.meas _ hv), hs.2.add (hN.sq _ hv)⟩

theorem L2.ext {f g : L2 μ} (h : ∀ ω, f.1 ω = g.1 ω) : f = g := Subtype.ext (funext h)

theorem sum_coe {ι : Type} (s : Finset ι) (f : ι → L2 μ) (ω : Ω) : (∑ j ∈ s, f j).1 ω = ∑ j ∈ s, (f j).1 ω := by
  have := map_sum (ev ω) f s
  exact this

/-- The assumptions put the system in operation with no data. -/
theorem sys (hN : WhiteNoise μ b.P ms N) (hX : Follows b.x ms N X z) :
    Sys (ip μ) (one μ) (Submodule.span ℝ {one μ}) (fun k => liftV μ (X k)) (bV μ b) ms (wV μ N) (vV μ N)
      (fun k => liftV μ (z k)) := by
  have hcov : ∀ {a a' : Src n m}, a.Active ms.length → a'.Active ms.length →
      ip μ (lift μ (N a)) (lift μ (N a')) = srcCov b.P ms a a' := by
    intro a a' ha ha'
    rw [ip_apply, src_lift hN ha, src_lift hN ha', hN.cov a a' ha ha']
  have hone : ∀ {a : Src n m}, a.Active ms.length → ∀ s ∈ Submodule.span ℝ {one μ}, ip μ (lift μ (N a)) s = 0 := by
    intro a ha s hs
    obtain ⟨c, rfl⟩ := Submodule.mem_span_singleton.1 hs
    rw [map_smul, ip_one, src_lift hN ha, hN.mean a ha, smul_zero]
  have hX0 : liftV μ (X 0) = cst (one μ) b.x + eV μ N := by
    funext i
    refine L2.ext fun ω => ?_
    have h1 : (liftV μ (X 0) i).1 ω = X 0 ω i := congrFun (lift_coe (state_lift hN hX 0 (by omega) i)) ω
    have h2 : (eV μ N i).1 ω = N (.e i) ω := congrFun (src_lift hN (a := .e i) trivial) ω
    rw [h1, hX.init]
    show _ = b.x i * 1 + (eV μ N i).1 ω
    rw [h2, mul_one]
  have hnX0 : ∀ {a : Src n m}, a.Active ms.length → (∀ j, srcCov b.P ms a (.e j) = 0) →
      ∀ j, ip μ (lift μ (N a)) (liftV μ (X 0) j) = 0 := by
    intro a ha h0 j
    rw [hX0]
    show ip μ (lift μ (N a)) (b.x j • one μ + lift μ (N (.e j))) = 0
    rw [map_add, hcov ha (show (Src.e j : Src n m).Active _ from trivial), h0,
      hone ha _ (Submodule.smul_mem _ _ (Submodule.mem_span_singleton_self _)), add_zero]
  refine ⟨Submodule.mem_span_singleton_self _, ⟨?_, ?_, ?_⟩, ?_, ?_, ?_, ?_, ?_, ?_, ?_, ?_, ?_, ?_, ?_, ?_⟩
  · exact fun i => Submodule.smul_mem _ _ (Submodule.mem_span_singleton_self _)
  · have : liftV μ (X 0) - (bV μ b).x = eV μ N := by rw [hX0]; exact add_sub_cancel_left _ _
    rw [this]
    exact fun i s hs => hone (a := .e i) trivial s hs
  · have : liftV μ (X 0) - (bV μ b).x = eV μ N := by rw [hX0]; exact add_sub_cancel_left _ _
    rw [this]
    ext i j
    exact hcov (a := .e i) (a' := .e j) trivial trivial
  · intro k s hs
    have hk : k < ms.length := (List.getElem?_eq_some_iff.1 hs).1
    funext i
    refine L2.ext fun ω => ?_
    have h1 : ∀ k ≤ ms.length, ∀ i, (liftV μ (X k) i).1 ω = X k ω i := fun k hk i =>
      congrFun (lift_coe (state_lift hN hX k hk i)) ω
    have h2 : (wV μ N k i).1 ω = N (.w k i) ω := congrFun (src_lift hN (a := .w k i) hk) ω
    rw [h1 (k + 1) (by omega), hX.state k s hs]
    show _ = (act s.A (liftV μ (X k)) i).1 ω + s.c i * 1 + (wV μ N k i).1 ω
    rw [h2, mul_one]
    congr 2
    rw [act, sum_coe]
    simp only [Matrix.mulVec, dotProduct]
    exact Finset.sum_congr rfl fun j _ => by
      show _ = s.A i j * (liftV μ (X k) j).1 ω
      rw [h1 k (by omega)]
  · intro k s hs
    have hk : k < ms.length := (List.getElem?_eq_some_iff.1 hs).1
    funext i
    refine L2.ext fun ω => ?_
    have h1 : ∀ k ≤ ms.length, ∀ i, (liftV μ (X k) i).1 ω = X k ω i := fun k hk i =>
      congrFun (lift_coe (state_lift hN hX k hk i)) ω
    have h2 : (vV μ N k i).1 ω = N (.v k i) ω := congrFun (src_lift hN (a := .v k i) hk) ω
    have h3 : (liftV μ (z k) i).1 ω = z k ω i := congrFun (lift_coe (obs_lift hN hX k hk i)) ω
    rw [h3, hX.obs k s hs]
    show _ = (act s.H (liftV μ (X (k + 1))) i).1 ω + (vV μ N k i).1 ω
    rw [h2]
    congr 1
    rw [act, sum_coe]
    simp only [Matrix.mulVec, dotProduct]
    exact Finset.sum_congr rfl fun j _ => by
      show _ = s.H i j * (liftV μ (X (k + 1)) j).1 ω
      rw [h1 (k + 1) (by omega)]
  · exact fun k hk i s hs => hone (a := .w k i) hk s hs
  · exact fun k hk i s hs => hone (a := .v k i) hk s hs
  · intro k hk; ext i j
    exact hnX0 (a := .w k i) hk (fun _ => rfl) j
  · intro k hk; ext i j
    exact hnX0 (a := .v k i) hk (fun _ => rfl) j
  · intro k s hs; ext i j
    have hk : k < ms.length := (List.getElem?_eq_some_iff.1 hs).1
    refine (hcov (a := .w k i) (a' := .w k j) hk hk).trans ?_
    simp [srcCov, hs]
  · intro k s hs; ext i j
    have hk : k < ms.length := (List.getElem?_eq_some_iff.1 hs).1
    refine (hcov (a := .v k i) (a' := .v k j) hk hk).trans ?_
    simp [srcCov, hs]
  · intro k hk l hl hkl; ext i j
    refine (hcov (a := .w k i) (a' := .w l j) hk hl).trans ?_
    simp [srcCov, hkl]
  · intro k hk l hl hkl; ext i j
    refine (hcov (a := .v k i) (a' := .v l j) hk hl).trans ?_
    simp [srcCov, hkl]
  · intro k hk l hl; ext i j
    exact hcov (a := .w k i) (a' := .v l j) hk hl
  · intro k hk l hl; ext i j
    exact hcov (a := .v k i) (a' := .w l j) hk hl

end Stoch

end KK
