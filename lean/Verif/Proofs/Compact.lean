import Verif.Proofs.ApproxEps
import Mathlib.Topology.Compactness.Compact
import Mathlib.Order.Filter.Ultrafilter.Basic
import Mathlib.Topology.Order.Compact

/-!
# Limits of bounded arrays along an ultrafilter
-/

set_option linter.unusedSectionVars false

namespace KK

open Matrix Filter Topology

variable {ι : Type} {l : Ultrafilter ι}

theorem ultra_real {f : ι → ℝ} {D : ℝ} (h : ∀ᶠ i in (l : Filter ι), |f i| ≤ D) :
    ∃ a, Tendsto f l (𝓝 a) := by
  have hc : IsCompact (Set.Icc (-D) D) := isCompact_Icc
  have hm : (l.map f : Filter ℝ) ≤ 𝓟 (Set.Icc (-D) D) := by
    rw [Ultrafilter.coe_map, Filter.le_principal_iff, Filter.mem_map]
    filter_upwards [h] with i hi
    exact abs_le.1 hi
  obtain ⟨a, -, ha⟩ := hc.ultrafilter_le_nhds _ hm
  exact ⟨a, ha⟩

theorem ultra_vec {n : ℕ} {f : ι → Fin n → ℝ} {D : ℝ} (h : ∀ᶠ i in (l : Filter ι), ∀ k, |f i k| ≤ D) :
    ∃ a, Tendsto f l (𝓝 a) := by
  have : ∀ k, ∃ a, Tendsto (fun i => f i k) l (𝓝 a) := fun k => ultra_real (h.mono fun i hi => hi k)
  choose a ha using this
  exact ⟨a, tendsto_pi_nhds.2 ha⟩

theorem ultra_mat {m n : ℕ} {f : ι → Matrix (Fin m) (Fin n) ℝ} {D : ℝ} (h : ∀ᶠ i in (l : Filter ι), ∀ k j, |f i k j| ≤ D) :
    ∃ a, Tendsto f l (𝓝 a) := by
  have : ∀ k, ∃ a, Tendsto (fun i => f i k) l (𝓝 a) := fun k => ultra_vec (h.mono fun i hi => hi k)
  choose a ha using this
  exact ⟨a, tendsto_pi_nhds.2 ha⟩

theorem ultra_fl {f : ι → Fl} {D : ℝ} (h : ∀ᶠ i in (l : Filter ι), |(f i).toReal| ≤ D) : ∃ a, FlT (l : Filter ι) f a := by
  by_cases hn : ∀ᶠ i in (l : Filter ι), f i = .nan
  · exact ⟨.nan, FlT.nan.2 hn⟩
  · have hn' := Ultrafilter.eventually_not.2 hn
    obtain ⟨a, ha⟩ := ultra_real h
    refine ⟨.fin a, hn'.mono fun i hi => ?_, ha⟩
    cases h : f i with
    | nan => exact absurd h hi
    | fin x => rfl

/-- A function with finitely many values is eventually constant. -/
theorem ultra_const {α : Type} {f : ι → α} {s : Set α} (hs : s.Finite) (h : ∀ᶠ i in (l : Filter ι), f i ∈ s) :
    ∃ a ∈ s, ∀ᶠ i in (l : Filter ι), f i = a := by
  by_contra hc
  push Not at hc
  have h1 : ∀ a ∈ s, ∀ᶠ i in (l : Filter ι), f i ≠ a := hc
  obtain ⟨i, hi, hj⟩ := (h.and ((hs.eventually_all (l := (l : Filter ι))).2 h1)).exists
  exact hj _ hi rfl

/-- Kind, dtype and dimensions. -/
def Arr.kind : Arr Fl → DType × ℕ × ℕ × ℕ
  | .scalar d _ => (d, 0, 0, 0)
  | .vec (n := n) d _ => (d, 1, n, 0)
  | .mat (m := m) (n := n) d _ => (d, 2, m, n)

theorem kind_finite (D : ℝ) : {k : DType × ℕ × ℕ × ℕ | k.2.1 ≤ 2 ∧ k.2.2.1 ≤ ⌊D⌋₊ ∧ k.2.2.2 ≤ ⌊D⌋₊}.Finite := by
  have hd : (Set.univ : Set DType).Finite := by
    refine Set.Finite.subset (s := {DType.float64, DType.int64}) (by simp) fun d _ => ?_
    cases d <;> simp
  refine Set.Finite.subset (hd.prod ((Set.finite_Iic 2).prod ((Set.finite_Iic ⌊D⌋₊).prod (Set.finite_Iic ⌊D⌋₊)))) ?_
  rintro ⟨d, a, b, c⟩ ⟨h1, h2, h3⟩
  exact ⟨trivial, h1, h2, h3⟩

/-- Bounded arrays converge. -/
theorem ultra_arr {f : ι → Arr Fl} {D : ℝ} (h : ∀ᶠ i in (l : Filter ι), (f i).Small D) : ∃ a, ArrT (l : Filter ι) f a := by
  obtain ⟨⟨d, t, p, q⟩, -, hk⟩ := ultra_const (f := fun i => (f i).kind) (kind_finite D) (h.mono fun i hi => by
    have hd := hi.2
    cases hf : f i with
    | scalar d x => simp [Arr.kind]
    | @vec d n v =>
      simp only [hf, Arr.shape, List.mem_cons, List.not_mem_nil, or_false, forall_eq] at hd
      simp [Arr.kind, Nat.le_floor hd]
    | @mat d m n v =>
      simp only [hf, Arr.shape, List.mem_cons, List.not_mem_nil, or_false, forall_eq_or_imp, forall_eq] at hd
      simp [Arr.kind, Nat.le_floor hd.1, Nat.le_floor hd.2])
  have hw := h.mono fun i hi => hi.1
  rcases t with _ | _ | _ | t
  · -- scalars
    have : ∀ᶠ i in (l : Filter ι), ∃ x, f i = .scalar d x := by
      filter_upwards [hk] with i hi
      cases hf : f i with
      | scalar d' x => simp only [hf, Arr.kind, Prod.mk.injEq] at hi; exact ⟨x, by rw [hi.1]⟩
      | vec => simp [hf, Arr.kind] at hi
      | mat => simp [hf, Arr.kind] at hi
    obtain ⟨g, hg⟩ : ∃ g : ι → Fl, ∀ᶠ i in (l : Filter ι), f i = .scalar d (g i) :=
      ⟨fun i => @Classical.epsilon Fl ⟨.nan⟩ fun x => f i = .scalar d x, this.mono fun i hi => Classical.epsilon_spec hi⟩
    obtain ⟨a, ha⟩ := ultra_fl (f := g) (D := D) (by
      filter_upwards [hw, hg] with i h1 h2; rw [h2] at h1; exact h1)
    exact ⟨.scalar d a, g, ha, hg⟩
  · have : ∀ᶠ i in (l : Filter ι), ∃ x : Fin p → Fl, f i = .vec d x := by
      filter_upwards [hk] with i hi
      cases hf : f i with
      | scalar d' x => simp [hf, Arr.kind] at hi
      | vec d' v =>
        simp only [hf, Arr.kind, Prod.mk.injEq] at hi
        obtain ⟨rfl, -, rfl, -⟩ := hi
        exact ⟨v, rfl⟩
      | mat => simp [hf, Arr.kind] at hi
    obtain ⟨g, hg⟩ : ∃ g : ι → Fin p → Fl, ∀ᶠ i in (l : Filter ι), f i = .vec d (g i) :=
      ⟨fun i => @Classical.epsilon _ ⟨fun _ => .nan⟩ fun x : Fin p → Fl => f i = .vec d x, this.mono fun i hi => Classical.epsilon_spec hi⟩
    have : ∀ k, ∃ a, FlT (l : Filter ι) (fun i => g i k) a := fun k => ultra_fl (D := D) (by
      filter_upwards [hw, hg] with i h1 h2; rw [h2] at h1; exact h1 k)
    choose a ha using this
    exact ⟨.vec d a, g, ha, hg⟩
  · have : ∀ᶠ i in (l : Filter ι), ∃ x : Matrix (Fin p) (Fin q) Fl, f i = .mat d x := by
      filter_upwards [hk] with i hi
      cases hf : f i with
      | scalar d' x => simp [hf, Arr.kind] at hi
      | vec => simp [hf, Arr.kind] at hi
      | mat d' v =>
        simp only [hf, Arr.kind, Prod.mk.injEq] at hi
        obtain ⟨rfl, -, rfl, rfl⟩ := hi
        exact ⟨v, rfl⟩
    obtain ⟨g, hg⟩ : ∃ g : ι → Matrix (Fin p) (Fin q) Fl, ∀ᶠ i in (l : Filter ι), f i = .mat d (g i) :=
      ⟨fun i => @Classical.epsilon _ ⟨fun _ _ => .nan⟩ fun x : Matrix (Fin p) (Fin q) Fl => f i = .mat d x,
        this.mono fun i hi => Classical.epsilon_spec hi⟩
    have : ∀ k j, ∃ a, FlT (l : Filter ι) (fun i => g i k j) a := fun k j => ultra_fl (D := D) (by
      filter_upwards [hw, hg] with i h1 h2; rw [h2] at h1; exact h1 k j)
    choose a ha using this
    exact ⟨.mat d a, g, ha, hg⟩
  · exfalso
    obtain ⟨i, hi⟩ := hk.exists
    cases hf : f i <;> simp [hf, Arr.kind] at hi

/-! ### limits of arrays that hold something -/

theorem FlT.real {F : Filter ι} [F.NeBot] {f : ι → Fl} {a : Fl} {x : ι → ℝ} (h : FlT F f a) (hf : ∀ᶠ i in F, f i = .fin (x i)) :
    a = .fin a.toReal ∧ Tendsto x F (𝓝 a.toReal) := by
  constructor
  · obtain ⟨i, h1, h2⟩ := (h.1.and hf).exists
    cases a with
    | nan => rw [h2] at h1; cases h1
    | fin y => rfl
  · exact h.2.congr' (hf.mono fun i hi => by rw [hi]; rfl)

variable {F : Filter ι} [F.NeBot]

theorem mat_dims {m n p q : ℕ} {d e : DType} {M : Matrix (Fin m) (Fin n) Fl} {N : Matrix (Fin p) (Fin q) Fl}
    (h : Arr.mat d M = Arr.mat e N) : m = p ∧ n = q := by
  have := congrArg Arr.shape h
  simpa [Arr.shape] using this

theorem mat_eq {m n : ℕ} {d e : DType} {M N : Matrix (Fin m) (Fin n) Fl} (h : Arr.mat d M = Arr.mat e N) : M = N := by
  simp only [Arr.mat.injEq, heq_eq_eq, true_and] at h; exact h.2

theorem vec_dims {m p : ℕ} {d e : DType} {M : Fin m → Fl} {N : Fin p → Fl}
    (h : Arr.vec d M = Arr.vec e N) : m = p := by
  have := congrArg Arr.shape h
  simpa [Arr.shape] using this

theorem vec_eq {m : ℕ} {d e : DType} {M N : Fin m → Fl} (h : Arr.vec d M = Arr.vec e N) : M = N := by
  simp only [Arr.vec.injEq, heq_eq_eq, true_and] at h; exact h.2

theorem MatIs.lim {m n : ℕ} {M : ι → Matrix (Fin m) (Fin n) ℝ} {f : ι → Arr Fl} {a : Arr Fl} (h : ∀ᶠ i in F, MatIs (M i) (f i))
    (ha : ArrT F f a) : ∃ N, MatIs N a ∧ Tendsto M F (𝓝 N) := by
  cases a with
  | scalar d x =>
    obtain ⟨g, -, hg⟩ := ha
    obtain ⟨i, ⟨d', h1⟩, h2⟩ := (h.and hg).exists
    rw [h1] at h2; cases h2
  | vec d v =>
    obtain ⟨g, -, hg⟩ := ha
    obtain ⟨i, ⟨d', h1⟩, h2⟩ := (h.and hg).exists
    rw [h1] at h2; cases h2
  | @mat d p q X =>
    obtain ⟨g, hX, hg⟩ := ha
    obtain ⟨rfl, rfl⟩ : m = p ∧ n = q := by
      obtain ⟨i, ⟨d', h1⟩, h2⟩ := (h.and hg).exists
      rw [h1] at h2; exact mat_dims h2
    have he : ∀ᶠ i in F, g i = finM (M i) := by
      filter_upwards [h, hg] with i ⟨d', h1⟩ h2
      rw [h1] at h2; exact (mat_eq h2).symm
    have key := fun k j => (hX k j).real (x := fun i => M i k j) (he.mono fun i hi => by rw [hi]; rfl)
    refine ⟨fun k j => (X k j).toReal, ⟨d, ?_⟩, tendsto_pi_nhds.2 fun k => tendsto_pi_nhds.2 fun j => (key k j).2⟩
    congr 1; funext k j; exact (key k j).1

theorem VecIs.lim {n : ℕ} {v : ι → Fin n → ℝ} {f : ι → Arr Fl} {a : Arr Fl} (h : ∀ᶠ i in F, VecIs (v i) (f i))
    (ha : ArrT F f a) : ∃ w, VecIs w a ∧ Tendsto v F (𝓝 w) := by
  cases a with
  | scalar d x =>
    obtain ⟨g, -, hg⟩ := ha
    obtain ⟨i, ⟨d', h1⟩, h2⟩ := (h.and hg).exists
    rw [h1] at h2; cases h2
  | mat d v =>
    obtain ⟨g, -, hg⟩ := ha
    obtain ⟨i, ⟨d', h1⟩, h2⟩ := (h.and hg).exists
    rw [h1] at h2; cases h2
  | @vec d p X =>
    obtain ⟨g, hX, hg⟩ := ha
    obtain rfl : n = p := by
      obtain ⟨i, ⟨d', h1⟩, h2⟩ := (h.and hg).exists
      rw [h1] at h2; exact vec_dims h2
    have he : ∀ᶠ i in F, g i = finV (v i) := by
      filter_upwards [h, hg] with i ⟨d', h1⟩ h2
      rw [h1] at h2; exact (vec_eq h2).symm
    have key := fun k => (hX k).real (x := fun i => v i k) (he.mono fun i hi => by rw [hi]; rfl)
    refine ⟨fun k => (X k).toReal, ⟨d, ?_⟩, tendsto_pi_nhds.2 fun k => (key k).2⟩
    congr 1; funext k; exact (key k).1

theorem scalar_lim {r : ι → ℝ} {f : ι → Arr Fl} {a : Arr Fl} (h : ∀ᶠ i in F, ∃ d, f i = .scalar d (.fin (r i)))
    (ha : ArrT F f a) : ∃ d s, a = .scalar d (.fin s) ∧ Tendsto r F (𝓝 s) := by
  cases a with
  | vec d x =>
    obtain ⟨g, -, hg⟩ := ha
    obtain ⟨i, ⟨d', h1⟩, h2⟩ := (h.and hg).exists
    rw [h1] at h2; cases h2
  | mat d v =>
    obtain ⟨g, -, hg⟩ := ha
    obtain ⟨i, ⟨d', h1⟩, h2⟩ := (h.and hg).exists
    rw [h1] at h2; cases h2
  | scalar d x =>
    obtain ⟨g, hX, hg⟩ := ha
    have key := hX.real (x := r) (by
      filter_upwards [h, hg] with i ⟨d', h1⟩ h2
      rw [h1] at h2; exact (Arr.scalar.inj h2).2.symm)
    exact ⟨d, x.toReal, by rw [← key.1], key.2⟩

theorem NoiseIs.lim {n : ℕ} {M : ι → Matrix (Fin n) (Fin n) ℝ} {f : ι → Arr Fl} {a : Arr Fl}
    (h : ∀ᶠ i in (l : Filter ι), NoiseIs (M i) (f i)) (ha : ArrT (l : Filter ι) f a) :
    ∃ N, NoiseIs N a ∧ Tendsto M l (𝓝 N) := by
  rcases Ultrafilter.eventually_or.1 h with h | h
  · obtain ⟨N, h1, h2⟩ := MatIs.lim h ha
    exact ⟨N, .inl h1, h2⟩
  · obtain ⟨r, hr⟩ : ∃ r : ι → ℝ, ∀ᶠ i in (l : Filter ι), (∃ d, f i = .scalar d (.fin (r i))) ∧ M i = fun _ _ => r i :=
      ⟨fun i => Classical.epsilon fun r => (∃ d, f i = .scalar d (.fin r)) ∧ M i = fun _ _ => r, h.mono fun i ⟨d, r, h1, h2⟩ =>
        Classical.epsilon_spec (p := fun r => (∃ d, f i = .scalar d (.fin r)) ∧ M i = fun _ _ => r) ⟨r, ⟨d, h1⟩, h2⟩⟩
    obtain ⟨d, s, rfl, hs⟩ := scalar_lim (hr.mono fun i hi => hi.1) ha
    refine ⟨fun _ _ => s, .inr ⟨d, s, rfl, rfl⟩, ?_⟩
    refine tendsto_pi_nhds.2 fun k => tendsto_pi_nhds.2 fun j => hs.congr' (hr.mono fun i hi => (congrFun (congrFun hi.2 k) j).symm)

theorem ObsIs.lim {n : ℕ} {v : ι → Fin n → ℝ} {f : ι → Arr Fl} {a : Arr Fl}
    (h : ∀ᶠ i in (l : Filter ι), ObsIs (v i) (f i)) (ha : ArrT (l : Filter ι) f a) :
    ∃ w, ObsIs w a ∧ Tendsto v l (𝓝 w) := by
  rcases Ultrafilter.eventually_or.1 h with h | h
  · obtain ⟨N, h1, h2⟩ := VecIs.lim h ha
    exact ⟨N, .inl h1, h2⟩
  · obtain ⟨r, hr⟩ : ∃ r : ι → ℝ, ∀ᶠ i in (l : Filter ι), (∃ d, f i = .scalar d (.fin (r i))) ∧ v i = fun _ => r i :=
      ⟨fun i => Classical.epsilon fun r => (∃ d, f i = .scalar d (.fin r)) ∧ v i = fun _ => r, h.mono fun i ⟨d, r, h1, h2⟩ =>
        Classical.epsilon_spec (p := fun r => (∃ d, f i = .scalar d (.fin r)) ∧ v i = fun _ => r) ⟨r, ⟨d, h1⟩, h2⟩⟩
    obtain ⟨d, s, rfl, hs⟩ := scalar_lim (hr.mono fun i hi => hi.1) ha
    refine ⟨fun _ => s, .inr ⟨d, s, rfl, rfl⟩, ?_⟩
    exact tendsto_pi_nhds.2 fun k => hs.congr' (hr.mono fun i hi => (congrFun hi.2 k).symm)

end KK
