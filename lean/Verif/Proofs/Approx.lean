import Verif.Spec.Approx
import Verif.Proofs.Trace
import Mathlib.Topology.Instances.Matrix
import Mathlib.Topology.Algebra.InfiniteSum.Real

/-!
# Programs under a sequence of arithmetics that converges to the exact one
-/

set_option linter.unusedSectionVars false

namespace KK

open Matrix Filter Topology

variable {ι : Type} (l : Filter ι)

/-- Convergence of entries: eventually the same kind, and the values converge. -/
def FlT (f : ι → Fl) (a : Fl) : Prop :=
  (∀ᶠ i in l, (f i).isNan = a.isNan) ∧ Tendsto (fun i => (f i).toReal) l (𝓝 a.toReal)

def VT {n : ℕ} (F : ι → Fin n → Fl) (v : Fin n → Fl) : Prop := ∀ k, FlT l (fun i => F i k) (v k)

def MT {m n : ℕ} (F : ι → Matrix (Fin m) (Fin n) Fl) (M : Matrix (Fin m) (Fin n) Fl) : Prop :=
  ∀ a b, FlT l (fun i => F i a b) (M a b)

def ArrT (f : ι → Arr Fl) : Arr Fl → Prop
  | .scalar d x => ∃ g, FlT l g x ∧ ∀ᶠ i in l, f i = .scalar d (g i)
  | .vec (n := n) d v => ∃ g : ι → Fin n → Fl, VT l g v ∧ ∀ᶠ i in l, f i = .vec d (g i)
  | .mat (m := m) (n := n) d M => ∃ g : ι → Matrix (Fin m) (Fin n) Fl, MT l g M ∧ ∀ᶠ i in l, f i = .mat d (g i)

/-- Computations that may raise: if the limit returns, then eventually all do, with results that converge. -/
def ET {α : Type} (r : (ι → α) → α → Prop) (X : ι → Except PyErr α) (x : Except PyErr α) : Prop :=
  ∀ a, x = .ok a → ∃ f, r f a ∧ ∀ᶠ i in l, X i = .ok (f i)

/-- Method calls. -/
def PT {σ α : Type} (rs : (ι → σ) → σ → Prop) (r : (ι → α) → α → Prop) (X : ι → Py σ α) (x : Py σ α) : Prop :=
  ∀ S s, rs S s → ∀ a s', x.run s = (.ok a, s') → ∃ f S', r f a ∧ rs S' s' ∧ ∀ᶠ i in l, (X i).run (S i) = (.ok (f i), S' i)

def PairT {α β : Type} (r : (ι → α) → α → Prop) (s : (ι → β) → β → Prop) (f : ι → α × β) (p : α × β) : Prop :=
  r (fun i => (f i).1) p.1 ∧ s (fun i => (f i).2) p.2

/-- Lists: eventually lists of the same length, entrywise. -/
def ListT {α : Type} (r : (ι → α) → α → Prop) (L : ι → List α) (a : List α) : Prop :=
  ∃ gs : List (ι → α), List.Forall₂ r gs a ∧ ∀ᶠ i in l, L i = gs.map (fun g => g i)

variable {l}

section combinators
variable {α β σ : Type} {r : (ι → α) → α → Prop} {s : (ι → β) → β → Prop} {rs : (ι → σ) → σ → Prop}

theorem ET.ok {f : ι → α} {a : α} (h : r f a) : ET l r (fun i => .ok (f i)) (.ok a) := by
  intro b hb; cases hb; exact ⟨f, h, .of_forall fun _ => rfl⟩

theorem ET.error {X : ι → Except PyErr α} {e : PyErr} : ET l r X (.error e) := by
  intro b hb; cases hb

theorem ET.congr {X Y : ι → Except PyErr α} {x : Except PyErr α} (h : ET l r Y x) (hXY : ∀ᶠ i in l, X i = Y i) :
    ET l r X x := by
  intro a ha
  obtain ⟨f, hf, he⟩ := h a ha
  exact ⟨f, hf, by filter_upwards [he, hXY] with i h1 h2; rw [h2, h1]⟩

theorem ET.bind {X : ι → Except PyErr α} {x : Except PyErr α} {K : ι → α → Except PyErr β} {k : α → Except PyErr β}
    (hX : ET l r X x) (hK : ∀ f a, r f a → ET l s (fun i => K i (f i)) (k a)) :
    ET l s (fun i => X i >>= K i) (x >>= k) := by
  intro b hb
  rcases x with e | a
  · cases hb
  · obtain ⟨f, hf, he⟩ := hX a rfl
    obtain ⟨g, hg, he'⟩ := hK f a hf b hb
    refine ⟨g, hg, ?_⟩
    filter_upwards [he, he'] with i h1 h2
    rw [h1]; exact h2

theorem PT.pure {f : ι → α} {a : α} (h : r f a) : PT l rs r (fun i => Py.pure (f i)) (Py.pure a) := by
  intro S s hS b s' hb
  simp only [Py.run_pure', Prod.mk.injEq, Except.ok.injEq] at hb
  obtain ⟨rfl, rfl⟩ := hb
  exact ⟨f, S, h, hS, .of_forall fun _ => rfl⟩

theorem PT.lift {X : ι → Except PyErr α} {x : Except PyErr α} (h : ET l r X x) :
    PT l rs r (fun i => Py.lift (X i)) (Py.lift x) := by
  intro S s hS b s' hb
  simp only [Py.run_lift, Prod.mk.injEq] at hb
  obtain ⟨rfl, rfl⟩ := hb
  obtain ⟨f, hf, he⟩ := h b rfl
  exact ⟨f, S, hf, hS, by filter_upwards [he] with i h1; rw [Py.run_lift, h1]⟩

theorem PT.self : PT l rs rs (fun _ => Py.self) Py.self := by
  intro S s hS b s' hb
  simp only [Py.run_self, Prod.mk.injEq, Except.ok.injEq] at hb
  obtain ⟨rfl, rfl⟩ := hb
  exact ⟨S, S, hS, hS, .of_forall fun _ => rfl⟩

theorem PT.mutate {F : ι → σ → σ} {f : σ → σ} (h : ∀ S s, rs S s → rs (fun i => F i (S i)) (f s)) :
    PT l rs (fun _ _ => True) (fun i => Py.mutate (F i)) (Py.mutate f) := by
  intro S s hS b s' hb
  simp only [Py.run_mutate, Prod.mk.injEq, Except.ok.injEq] at hb
  obtain ⟨-, rfl⟩ := hb
  exact ⟨fun _ => (), _, trivial, h S s hS, .of_forall fun _ => rfl⟩

theorem PT.bind {X : ι → Py σ α} {x : Py σ α} {K : ι → α → Py σ β} {k : α → Py σ β}
    (hX : PT l rs r X x) (hK : ∀ f a, r f a → PT l rs s (fun i => K i (f i)) (k a)) :
    PT l rs s (fun i => X i >>= K i) (x >>= k) := by
  intro S t hS b t' hb
  rw [Py.run_bind] at hb
  rcases hx : x.run t with ⟨e | a, t₁⟩
  · rw [hx] at hb; simp at hb
  · rw [hx] at hb
    obtain ⟨f, S₁, hf, hS₁, he⟩ := hX S t hS a t₁ hx
    obtain ⟨g, S₂, hg, hS₂, he'⟩ := hK f a hf S₁ t₁ hS₁ b t' hb
    refine ⟨g, S₂, hg, hS₂, ?_⟩
    filter_upwards [he, he'] with i h1 h2
    rw [Py.run_bind, h1]; exact h2

end combinators

/-! ### entries -/

theorem FlT.const (a : Fl) : FlT l (fun _ : ι => a) a := ⟨.of_forall fun _ => rfl, tendsto_const_nhds⟩

theorem FlT.congr {f g : ι → Fl} {a : Fl} (h : FlT l f a) (e : ∀ᶠ i in l, g i = f i) : FlT l g a :=
  ⟨by filter_upwards [h.1, e] with i h1 h2; rw [h2, h1],
    h.2.congr' (by filter_upwards [e] with i h1; rw [h1])⟩

theorem Fl.eq_nan {x : Fl} : x.isNan = true ↔ x = .nan := by cases x <;> simp

theorem FlT.nan {f : ι → Fl} : FlT l f .nan ↔ ∀ᶠ i in l, f i = .nan := by
  constructor
  · rintro ⟨h, -⟩
    filter_upwards [h] with i hi
    exact Fl.eq_nan.1 hi
  · intro h
    exact (FlT.const .nan).congr h

theorem FlT.fin {f : ι → Fl} {x : ℝ} (h : FlT l f (.fin x)) :
    (∀ᶠ i in l, f i = .fin (f i).toReal) ∧ Tendsto (fun i => (f i).toReal) l (𝓝 x) := by
  refine ⟨?_, h.2⟩
  filter_upwards [h.1] with i hi
  cases hf : f i with
  | nan => rw [hf] at hi; cases hi
  | fin y => rfl

theorem FlT.of_fin {g : ι → ℝ} {x : ℝ} (h : Tendsto g l (𝓝 x)) : FlT l (fun i => .fin (g i)) (.fin x) :=
  ⟨.of_forall fun _ => rfl, h⟩

/-! ### shapes -/

theorem stretch_nat {n d : ℕ} :
    (∃ σ : Fin d → Fin n, ∀ {α : Type} (v : Fin n → α), Arr.stretch d v = .ok fun i => v (σ i)) ∨
    ∀ {α : Type} (v : Fin n → α), Arr.stretch d v = .error .valueError := by
  by_cases h : n = d
  · left; exact ⟨fun i => i.cast h.symm, fun v => by rw [Arr.stretch, dif_pos h]⟩
  · by_cases h1 : n = 1
    · left; exact ⟨fun _ => ⟨0, by omega⟩, fun v => by rw [Arr.stretch, dif_neg h, dif_pos h1]⟩
    · right; intro α v; rw [Arr.stretch, dif_neg h, dif_neg h1]

theorem stretch_VT {n : ℕ} (d : ℕ) {F : ι → Fin n → Fl} {v : Fin n → Fl} (h : VT l F v) :
    ET l (VT l) (fun i => Arr.stretch d (F i)) (Arr.stretch d v) := by
  rcases stretch_nat (n := n) (d := d) with ⟨σ, hσ⟩ | hσ
  · simp only [hσ]; exact ET.ok fun k => h (σ k)
  · simp only [hσ]; exact ET.error

theorem toMat_mat {F : Type} {m n : ℕ} (r c : ℕ) :
    (∃ (σ : Fin r → Fin m) (τ : Fin c → Fin n), ∀ (d : DType) (M : Matrix (Fin m) (Fin n) F),
      (Arr.mat d M).toMat r c = .ok fun i j => M (σ i) (τ j)) ∨
    ∀ (d : DType) (M : Matrix (Fin m) (Fin n) F), (Arr.mat d M).toMat r c = .error .valueError := by
  have key : ∀ (d : DType) (M : Fin m → Fin n → F), (Arr.mat d (M : Matrix (Fin m) (Fin n) F)).toMat r c =
      (Arr.stretch r M >>= fun M' => Arr.stretch c (fun j i => M' i j) >>= fun N => .ok fun i j => N j i) :=
    fun _ _ => rfl
  rcases stretch_nat (n := m) (d := r) with ⟨σ, hσ⟩ | hσ
  · rcases stretch_nat (n := n) (d := c) with ⟨τ, hτ⟩ | hτ
    · left
      refine ⟨σ, τ, fun d M => (key d M).trans ?_⟩
      erw [hσ]; rw [Except.bind_ok', hτ]; rfl
    · right
      intro d M
      refine (key d M).trans ?_
      erw [hσ]; rw [Except.bind_ok', hτ]; rfl
  · right
    intro d M
    refine (key d M).trans ?_
    erw [hσ]; rfl

theorem toMat_T {F : ι → Arr Fl} {a : Arr Fl} (r c : ℕ) (h : ArrT l F a) :
    ET l (MT l) (fun i => (F i).toMat r c) (a.toMat r c) := by
  cases a with
  | scalar d x =>
    obtain ⟨g, hg, he⟩ := h
    refine ET.congr (Y := fun i => .ok fun _ _ => g i) (ET.ok fun _ _ => hg) ?_
    filter_upwards [he] with i h1; rw [h1]; rfl
  | @vec d n v =>
    obtain ⟨g, hg, he⟩ := h
    refine ET.congr (Y := fun i => Arr.stretch c (g i) >>= fun w => .ok fun _ => w)
      (ET.bind (stretch_VT c hg) fun f a hf => ET.ok fun _ k => hf k) ?_
    filter_upwards [he] with i h1; rw [h1]; rfl
  | @mat d m n M =>
    obtain ⟨g, hg, he⟩ := h
    refine ET.congr (Y := fun i => (Arr.mat d (g i)).toMat r c) ?_ (by filter_upwards [he] with i h1; rw [h1])
    rcases toMat_mat (F := Fl) (m := m) (n := n) r c with ⟨σ, τ, h1⟩ | h1
    · simp only [h1]; exact ET.ok fun a b => hg (σ a) (τ b)
    · simp only [h1]; exact ET.error

theorem ArrT.meta {F : ι → Arr Fl} {a : Arr Fl} (h : ArrT l F a) :
    ∀ᶠ i in l, (F i).dims2 = a.dims2 ∧ (F i).dtype = a.dtype ∧ (F i).shape = a.shape := by
  cases a with
  | scalar d x => obtain ⟨g, -, he⟩ := h; filter_upwards [he] with i h1; rw [h1]; exact ⟨rfl, rfl, rfl⟩
  | vec d v => obtain ⟨g, -, he⟩ := h; filter_upwards [he] with i h1; rw [h1]; exact ⟨rfl, rfl, rfl⟩
  | mat d M => obtain ⟨g, -, he⟩ := h; filter_upwards [he] with i h1; rw [h1]; exact ⟨rfl, rfl, rfl⟩

/-- Entrywise operations that converge. -/
def OpT (l : Filter ι) (op : ι → Fl → Fl → Fl) (op₀ : Fl → Fl → Fl) : Prop :=
  ∀ f g a b, FlT l f a → FlT l g b → FlT l (fun i => op i (f i) (g i)) (op₀ a b)

theorem eqT {α : Type} {x : Except PyErr α} : ET l (fun f a => ∀ᶠ i in l, f i = a) (fun _ => x) x := by
  intro a ha; subst ha; exact ⟨fun _ => a, .of_forall fun _ => rfl, .of_forall fun _ => rfl⟩

theorem zipWith2_T {op : ι → Fl → Fl → Fl} {op₀ : Fl → Fl → Fl} (ho : OpT l op op₀) {F G : ι → Arr Fl} {a b : Arr Fl}
    (hF : ArrT l F a) (hG : ArrT l G b) :
    ET l (ArrT l) (fun i => Arr.zipWith2 (op i) (F i) (G i)) (Arr.zipWith2 op₀ a b) := by
  refine ET.congr (Y := fun i => do
    let r ← Arr.bdim a.dims2.1 b.dims2.1
    let c ← Arr.bdim a.dims2.2 b.dims2.2
    let A ← (F i).toMat r c
    let B ← (G i).toMat r c
    .ok (.mat (a.dtype.promote b.dtype) fun x y => op i (A x y) (B x y))) ?_ ?_
  · simp only [Arr.zipWith2]
    rcases h1 : Arr.bdim a.dims2.1 b.dims2.1 with e | r
    · simp only [Except.bind_error']; exact ET.error
    rcases h2 : Arr.bdim a.dims2.2 b.dims2.2 with e | c
    · simp only [Except.bind_ok', Except.bind_error']; exact ET.error
    simp only [Except.bind_ok']
    exact ET.bind (toMat_T r c hF) fun f A hf => ET.bind (toMat_T r c hG) fun g B hg =>
      ET.ok ⟨_, fun x y => ho _ _ _ _ (hf x y) (hg x y), .of_forall fun _ => rfl⟩
  · filter_upwards [hF.meta, hG.meta] with i h1 h2
    simp only [Arr.zipWith2, h1.1, h1.2.1, h2.1, h2.2.1]

theorem zipWith_T {op : ι → Fl → Fl → Fl} {op₀ : Fl → Fl → Fl} (ho : OpT l op op₀) {F G : ι → Arr Fl} {a b : Arr Fl}
    (hF : ArrT l F a) (hG : ArrT l G b) :
    ET l (ArrT l) (fun i => Arr.zipWith (op i) (F i) (G i)) (Arr.zipWith op₀ a b) := by
  have h2 := zipWith2_T ho hF hG
  cases a with
  | scalar d x =>
    obtain ⟨f, hf, ef⟩ := hF
    cases b with
    | scalar e y =>
      obtain ⟨g, hg, eg⟩ := hG
      refine ET.congr (ET.ok (f := fun i => .scalar (d.promote e) (op i (f i) (g i)))
        ⟨_, ho _ _ _ _ hf hg, .of_forall fun _ => rfl⟩) ?_
      filter_upwards [ef, eg] with i h1 h2; rw [h1, h2]; rfl
    | vec e w =>
      obtain ⟨g, hg, eg⟩ := hG
      refine ET.congr (ET.ok (f := fun i => .vec (d.promote e) fun k => op i (f i) (g i k))
        ⟨_, fun k => ho _ _ _ _ hf (hg k), .of_forall fun _ => rfl⟩) ?_
      filter_upwards [ef, eg] with i h1 h2; rw [h1, h2]; rfl
    | mat e N =>
      obtain ⟨g, hg, eg⟩ := hG
      refine ET.congr h2 ?_
      filter_upwards [ef, eg] with i h1 h2; rw [h1, h2]; rfl
  | vec d v =>
    obtain ⟨f, hf, ef⟩ := hF
    cases b with
    | scalar e y =>
      obtain ⟨g, hg, eg⟩ := hG
      refine ET.congr (ET.ok (f := fun i => .vec (d.promote e) fun k => op i (f i k) (g i))
        ⟨_, fun k => ho _ _ _ _ (hf k) hg, .of_forall fun _ => rfl⟩) ?_
      filter_upwards [ef, eg] with i h1 h2; rw [h1, h2]; rfl
    | vec e w =>
      obtain ⟨g, hg, eg⟩ := hG
      refine ET.congr (Y := fun i => Arr.zipWith (op i) (.vec d (f i)) (.vec e (g i))) ?_
        (by filter_upwards [ef, eg] with i h1 h2; rw [h1, h2])
      simp only [Arr.zipWith]
      rename_i n n'
      rcases h1 : Arr.bdim n n' with e' | k
      · simp only [Except.bind_error']; exact ET.error
      simp only [Except.bind_ok']
      exact ET.bind (stretch_VT k hf) fun f' A hf' => ET.bind (stretch_VT k hg) fun g' B hg' =>
        ET.ok ⟨_, fun x => ho _ _ _ _ (hf' x) (hg' x), .of_forall fun _ => rfl⟩
    | mat e N =>
      obtain ⟨g, hg, eg⟩ := hG
      refine ET.congr h2 ?_
      filter_upwards [ef, eg] with i h1 h2; rw [h1, h2]; rfl
  | mat d M =>
    obtain ⟨f, hf, ef⟩ := hF
    refine ET.congr (x := Arr.zipWith op₀ (.mat d M) b) (Y := fun i => Arr.zipWith2 (op i) (F i) (G i)) ?_ ?_
    · have : Arr.zipWith op₀ (.mat d M) b = Arr.zipWith2 op₀ (.mat d M) b := by cases b <;> rfl
      rw [this]; exact h2
    · filter_upwards [ef] with i h1; rw [h1]; cases G i <;> rfl

/-! ### a converging family of arithmetics -/

/-- The exact arithmetic, which answers `LinAlgError` for operands of `solve` that contain NaN. -/
noncomputable abbrev strict (nanInt : ℝ) : Platform := ⟨nanInt, fun _ _ => none⟩

/-- The exact backend. -/
noncomputable abbrev exactB (nanInt : ℝ) : Backend Fl := @instBackendFlOfPlatform (strict nanInt)

structure Consistent (l : Filter ι) (nanInt : ℝ) (B : ι → Backend Fl) : Prop where
  zero : ∀ i, (B i).zero = .fin 0
  one : ∀ i, (B i).one = .fin 1
  nan : ∀ i, (B i).nan = .nan
  nanI : ∀ i, (B i).nanInt = .fin nanInt
  isnan : ∀ i x, (B i).isnan x = x.isNan
  add : OpT l (fun i => (B i).add) (· + ·)
  sub : OpT l (fun i => (B i).sub) (· - ·)
  gemm : ∀ {m k n : ℕ} (F : ι → Matrix (Fin m) (Fin k) Fl) (G : ι → Matrix (Fin k) (Fin n) Fl) M N,
    MT l F M → MT l G N → MT l (fun i => (B i).gemm (F i) (G i)) ((exactB nanInt).gemm M N)
  solve : ∀ {n k : ℕ} (F : ι → Matrix (Fin n) (Fin n) Fl) (G : ι → Matrix (Fin n) (Fin k) Fl) M N X,
    MT l F M → MT l G N → (exactB nanInt).solve M N = some X →
    ∃ Y, MT l Y X ∧ ∀ᶠ i in l, (B i).solve (F i) (G i) = some (Y i)

end KK
