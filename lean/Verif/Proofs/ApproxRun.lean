import Verif.Proofs.Approx
import Verif.Proofs.Layout

/-!
# `filter` and `smooth` under a sequence of arithmetics that converges to the exact one
-/

set_option linter.unusedSectionVars false

namespace KK

open Matrix Filter Topology

variable {ι : Type} {l : Filter ι}

/-! ### relations on the other types -/

/-- Eventually equal. -/
def CT {α : Type} (l : Filter ι) (f : ι → α) (a : α) : Prop := ∀ᶠ i in l, f i = a

def NDT (l : Filter ι) (f : ι → NDArray Fl) : NDArray Fl → Prop
  | .d0 d x => ∃ g, FlT l g x ∧ ∀ᶠ i in l, f i = .d0 d (g i)
  | .stack rows => ∃ L, ListT l (ArrT l) L rows ∧ ∀ᶠ i in l, f i = .stack (L i)

def OptT {α : Type} (r : (ι → α) → α → Prop) (l : Filter ι) (f : ι → Option α) : Option α → Prop
  | none => ∀ᶠ i in l, f i = none
  | some a => ∃ g, r g a ∧ ∀ᶠ i in l, f i = some (g i)

structure KFT (l : Filter ι) (S : ι → KalmanFilter Fl) (s : KalmanFilter Fl) : Prop where
  A : NDT l (fun i => (S i).A) s.A
  xk : ArrT l (fun i => (S i).xk) s.xk
  B : NDT l (fun i => (S i).B) s.B
  Pk : ArrT l (fun i => (S i).Pk) s.Pk
  H : NDT l (fun i => (S i).H) s.H
  Q : NDT l (fun i => (S i).Q) s.Q
  R : NDT l (fun i => (S i).R) s.R
  stateSize : ∀ᶠ i in l, (S i).stateSize = s.stateSize
  I : ArrT l (fun i => (S i).I) s.I
  kalmanGains : ListT l (ArrT l) (fun i => (S i).kalmanGains) s.kalmanGains

theorem ArrT.congr {f g : ι → Arr Fl} {a : Arr Fl} (h : ArrT l f a) (e : ∀ᶠ i in l, g i = f i) : ArrT l g a := by
  cases a with
  | scalar d x => obtain ⟨u, hu, h1⟩ := h; exact ⟨u, hu, by filter_upwards [e, h1] with i h2 h3; rw [h2, h3]⟩
  | vec d x => obtain ⟨u, hu, h1⟩ := h; exact ⟨u, hu, by filter_upwards [e, h1] with i h2 h3; rw [h2, h3]⟩
  | mat d x => obtain ⟨u, hu, h1⟩ := h; exact ⟨u, hu, by filter_upwards [e, h1] with i h2 h3; rw [h2, h3]⟩

theorem PT.congr {α σ : Type} {rs : (ι → σ) → σ → Prop} {r : (ι → α) → α → Prop} {X Y : ι → Py σ α} {x : Py σ α}
    (h : PT l rs r Y x) (e : ∀ᶠ i in l, X i = Y i) : PT l rs r X x := by
  intro S s hS a s' ha
  obtain ⟨f, S', hf, hS', he⟩ := h S s hS a s' ha
  exact ⟨f, S', hf, hS', by filter_upwards [e, he] with i h1 h2; rw [h1, h2]⟩

/-! ### array operations -/

section ops
variable {nanInt : ℝ} {B : ι → Backend Fl} (hB : Consistent l nanInt B)
include hB

theorem add_T {f g : ι → Arr Fl} {a b : Arr Fl} (hf : ArrT l f a) (hg : ArrT l g b) :
    ET l (ArrT l) (fun i => @Arr.add Fl (B i) (f i) (g i)) (@Arr.add Fl (exactB nanInt) a b) :=
  zipWith_T hB.add hf hg

theorem sub_T {f g : ι → Arr Fl} {a b : Arr Fl} (hf : ArrT l f a) (hg : ArrT l g b) :
    ET l (ArrT l) (fun i => @Arr.sub Fl (B i) (f i) (g i)) (@Arr.sub Fl (exactB nanInt) a b) :=
  zipWith_T hB.sub hf hg

omit hB in
theorem T_T {f : ι → Arr Fl} {a : Arr Fl} (hf : ArrT l f a) : ArrT l (fun i => (f i).T) a.T := by
  cases a with
  | scalar d x => obtain ⟨u, hu, h1⟩ := hf; exact ⟨u, hu, by filter_upwards [h1] with i h2; rw [h2]; rfl⟩
  | vec d x => obtain ⟨u, hu, h1⟩ := hf; exact ⟨u, hu, by filter_upwards [h1] with i h2; rw [h2]; rfl⟩
  | mat d x =>
    obtain ⟨u, hu, h1⟩ := hf
    exact ⟨fun i => (u i).transpose, fun p q => hu q p, by filter_upwards [h1] with i h2; rw [h2]; rfl⟩

omit hB in
theorem atleast1d_T {f : ι → Arr Fl} {a : Arr Fl} (hf : ArrT l f a) : ArrT l (fun i => (f i).atleast1d) a.atleast1d := by
  cases a with
  | scalar d x =>
    obtain ⟨u, hu, h1⟩ := hf
    exact ⟨fun i _ => u i, fun _ => hu, by filter_upwards [h1] with i h2; rw [h2]; rfl⟩
  | vec d x => obtain ⟨u, hu, h1⟩ := hf; exact ⟨u, hu, by filter_upwards [h1] with i h2; rw [h2]; rfl⟩
  | mat d x => obtain ⟨u, hu, h1⟩ := hf; exact ⟨u, hu, by filter_upwards [h1] with i h2; rw [h2]; rfl⟩

theorem matmul_T {f g : ι → Arr Fl} {a b : Arr Fl} (hf : ArrT l f a) (hg : ArrT l g b) :
    ET l (ArrT l) (fun i => @Arr.matmul Fl (B i) (f i) (g i)) (@Arr.matmul Fl (exactB nanInt) a b) := by
  cases a with
  | scalar d x => intro r hr; cases hr
  | @vec d n v =>
    obtain ⟨f', hf', ef⟩ := hf
    cases b with
    | scalar e y => intro r hr; cases hr
    | @vec e n' w =>
      obtain ⟨g', hg', eg⟩ := hg
      by_cases h : n = n'
      · subst h
        refine ET.congr (Y := fun i => @Arr.matmul Fl (B i) (.vec d (f' i)) (.vec e (g' i))) ?_
          (by filter_upwards [ef, eg] with i h1 h2; rw [h1, h2])
        simp only [Arr.matmul, dite_true, Fin.cast_eq_self]
        exact ET.ok ⟨_, hB.gemm (fun i _ k => f' i k) (fun i k _ => g' i k) _ _ (fun _ k => hf' k) (fun k _ => hg' k) 0 0,
          .of_forall fun _ => rfl⟩
      · intro r hr; simp only [Arr.matmul, dif_neg h] at hr; cases hr
    | @mat e k' n' N =>
      obtain ⟨g', hg', eg⟩ := hg
      by_cases h : n = k'
      · subst h
        refine ET.congr (Y := fun i => @Arr.matmul Fl (B i) (.vec d (f' i)) (.mat e (g' i))) ?_
          (by filter_upwards [ef, eg] with i h1 h2; rw [h1, h2])
        simp only [Arr.matmul, dite_true, Fin.cast_eq_self]
        exact ET.ok ⟨_, fun j => hB.gemm (fun i _ k => f' i k) (fun i k j => g' i k j) _ _ (fun _ k => hf' k)
          (fun k j => hg' k j) 0 j, .of_forall fun _ => rfl⟩
      · intro r hr; simp only [Arr.matmul, dif_neg h] at hr; cases hr
  | @mat d m n M =>
    obtain ⟨f', hf', ef⟩ := hf
    cases b with
    | scalar e y => intro r hr; cases hr
    | @vec e n' w =>
      obtain ⟨g', hg', eg⟩ := hg
      by_cases h : n = n'
      · subst h
        refine ET.congr (Y := fun i => @Arr.matmul Fl (B i) (.mat d (f' i)) (.vec e (g' i))) ?_
          (by filter_upwards [ef, eg] with i h1 h2; rw [h1, h2])
        simp only [Arr.matmul, dite_true, Fin.cast_eq_self]
        exact ET.ok ⟨_, fun j => hB.gemm f' (fun i k _ => g' i k) _ _ hf' (fun k _ => hg' k) j 0,
          .of_forall fun _ => rfl⟩
      · intro r hr; simp only [Arr.matmul, dif_neg h] at hr; cases hr
    | @mat e k' n' N =>
      obtain ⟨g', hg', eg⟩ := hg
      by_cases h : n = k'
      · subst h
        refine ET.congr (Y := fun i => @Arr.matmul Fl (B i) (.mat d (f' i)) (.mat e (g' i))) ?_
          (by filter_upwards [ef, eg] with i h1 h2; rw [h1, h2])
        simp only [Arr.matmul, dite_true, Fin.cast_eq_self]
        exact ET.ok ⟨_, hB.gemm f' (fun i k j => g' i k j) _ _ hf' (fun k j => hg' k j), .of_forall fun _ => rfl⟩
      · intro r hr; simp only [Arr.matmul, dif_neg h] at hr; cases hr

theorem solve_T {f g : ι → Arr Fl} {a b : Arr Fl} (hf : ArrT l f a) (hg : ArrT l g b) :
    ET l (ArrT l) (fun i => @Arr.solve Fl (B i) (f i) (g i)) (@Arr.solve Fl (exactB nanInt) a b) := by
  cases a with
  | scalar d x => intro r hr; cases hr
  | vec d v => intro r hr; cases hr
  | @mat d m n M =>
    obtain ⟨f', hf', ef⟩ := hf
    by_cases h : m = n
    swap
    · intro r hr; simp only [Arr.solve, dif_neg h] at hr; cases hr
    subst h
    cases b with
    | scalar e y => intro r hr; simp only [Arr.solve, dite_true] at hr; cases hr
    | @vec e n' w =>
      obtain ⟨g', hg', eg⟩ := hg
      by_cases h : m = n'
      swap
      · intro r hr; simp only [Arr.solve, dite_true, dif_neg h] at hr; cases hr
      subst h
      intro r hr
      simp only [Arr.solve, dite_true, Fin.cast_eq_self] at hr
      split at hr
      · cases hr
      · rename_i X hX
        cases hr
        obtain ⟨Y, hY, he⟩ := hB.solve f' (fun i k (_ : Fin 1) => g' i k) _ _ X hf' (fun k _ => hg' k) hX
        refine ⟨fun i => .vec .float64 fun k => Y i k 0, ⟨_, fun k => hY k 0, .of_forall fun _ => rfl⟩, ?_⟩
        filter_upwards [ef, eg, he] with i h1 h2 h3
        rw [h1, h2]
        simp only [Arr.solve, dite_true, Fin.cast_eq_self]
        erw [h3]
    | @mat e k' n' N =>
      obtain ⟨g', hg', eg⟩ := hg
      by_cases h : m = k'
      swap
      · intro r hr; simp only [Arr.solve, dite_true, dif_neg h] at hr; cases hr
      subst h
      intro r hr
      simp only [Arr.solve, dite_true, Fin.cast_eq_self] at hr
      split at hr
      · cases hr
      · rename_i X hX
        cases hr
        obtain ⟨Y, hY, he⟩ := hB.solve f' g' _ _ X hf' hg' hX
        refine ⟨fun i => .mat .float64 (Y i), ⟨_, hY, .of_forall fun _ => rfl⟩, ?_⟩
        filter_upwards [ef, eg, he] with i h1 h2 h3
        rw [h1, h2]
        simp only [Arr.solve, dite_true, Fin.cast_eq_self]
        erw [h3]

theorem isnanEntry_T (d : DType) {f : ι → Fl} {x : Fl} (hf : FlT l f x) :
    ∀ᶠ i in l, @Arr.isnanEntry Fl (B i) d (f i) = @Arr.isnanEntry Fl (exactB nanInt) d x := by
  cases d with
  | int64 => exact .of_forall fun _ => rfl
  | float64 =>
    filter_upwards [hf.1] with i h1
    exact (hB.isnan i _).trans h1

theorem isnanAll_T {f : ι → Arr Fl} {a : Arr Fl} (hf : ArrT l f a) :
    ∀ᶠ i in l, @Arr.isnanAll Fl (B i) (f i) = @Arr.isnanAll Fl (exactB nanInt) a := by
  cases a with
  | scalar d x =>
    obtain ⟨u, hu, h1⟩ := hf
    filter_upwards [h1, isnanEntry_T hB d hu] with i h2 h3
    rw [h2]; exact h3
  | vec d x =>
    obtain ⟨u, hu, h1⟩ := hf
    filter_upwards [h1, eventually_all.2 fun k => isnanEntry_T hB d (hu k)] with i h2 h3
    rw [h2]; simp only [Arr.isnanAll, h3]
  | mat d x =>
    obtain ⟨u, hu, h1⟩ := hf
    filter_upwards [h1, eventually_all.2 fun k => eventually_all.2 fun j => isnanEntry_T hB d (hu k j)] with i h2 h3
    rw [h2]; simp only [Arr.isnanAll, h3]

theorem nanFill_T (d : DType) : FlT l (fun i => @Arr.nanFill Fl (B i) d) (@Arr.nanFill Fl (exactB nanInt) d) := by
  cases d with
  | float64 => exact (FlT.const _).congr (.of_forall fun i => hB.nan i)
  | int64 => exact (FlT.const _).congr (.of_forall fun i => hB.nanI i)

theorem fullLikeNan_T {f : ι → Arr Fl} {a : Arr Fl} (hf : ArrT l f a) :
    ArrT l (fun i => @Arr.fullLikeNan Fl (B i) (f i)) (@Arr.fullLikeNan Fl (exactB nanInt) a) := by
  cases a with
  | scalar d x =>
    obtain ⟨u, hu, h1⟩ := hf
    exact ⟨_, nanFill_T hB d, by filter_upwards [h1] with i h2; rw [h2]; rfl⟩
  | vec d x =>
    obtain ⟨u, hu, h1⟩ := hf
    exact ⟨_, fun _ => nanFill_T hB d, by filter_upwards [h1] with i h2; rw [h2]; rfl⟩
  | mat d x =>
    obtain ⟨u, hu, h1⟩ := hf
    exact ⟨_, fun _ _ => nanFill_T hB d, by filter_upwards [h1] with i h2; rw [h2]; rfl⟩

theorem zerosVec_T (s : ℕ) : ArrT l (fun i => @Arr.zerosVec Fl (B i) s) (@Arr.zerosVec Fl (exactB nanInt) s) :=
  ⟨_, fun _ => (FlT.const _).congr (.of_forall fun i => hB.zero i), .of_forall fun _ => rfl⟩

theorem zerosMat_T (s : ℕ) : ArrT l (fun i => @Arr.zerosMat Fl (B i) s) (@Arr.zerosMat Fl (exactB nanInt) s) :=
  ⟨_, fun _ _ => (FlT.const _).congr (.of_forall fun i => hB.zero i), .of_forall fun _ => rfl⟩

omit hB in
theorem assignVec_T (s : ℕ) {f : ι → Arr Fl} {a : Arr Fl} (hf : ArrT l f a) :
    ET l (ArrT l) (fun i => (f i).assignVec s) (a.assignVec s) := by
  cases a with
  | scalar d x =>
    obtain ⟨u, hu, h1⟩ := hf
    refine ET.congr (ET.ok (f := fun i => .vec .float64 fun (_ : Fin s) => u i)
      ⟨fun i _ => u i, fun _ => hu, .of_forall fun _ => rfl⟩) ?_
    filter_upwards [h1] with i h2; rw [h2]; rfl
  | vec d x =>
    obtain ⟨u, hu, h1⟩ := hf
    refine ET.congr (Y := fun i => Arr.stretch s (u i) >>= fun w => .ok (.vec .float64 w))
      (ET.bind (stretch_VT s hu) fun g b hg => ET.ok ⟨_, hg, .of_forall fun _ => rfl⟩) ?_
    filter_upwards [h1] with i h2; rw [h2]; rfl
  | @mat d m n M =>
    obtain ⟨u, hu, h1⟩ := hf
    by_cases h : m = 1
    · subst h
      refine ET.congr (Y := fun i => Arr.stretch s (u i 0) >>= fun w => .ok (.vec .float64 w)) ?_ ?_
      · have := stretch_VT s (F := fun i => u i 0) (v := M 0) fun k => hu 0 k
        exact ET.bind this fun g b hg => ET.ok ⟨_, hg, .of_forall fun _ => rfl⟩
      · filter_upwards [h1] with i h2; rw [h2]; rfl
    · intro r hr; simp only [Arr.assignVec, dif_neg h] at hr; cases hr

omit hB in
theorem assignMat_T (s : ℕ) {f : ι → Arr Fl} {a : Arr Fl} (hf : ArrT l f a) :
    ET l (ArrT l) (fun i => (f i).assignMat s) (a.assignMat s) :=
  ET.bind (toMat_T s s hf) fun g b hg => ET.ok ⟨_, hg, .of_forall fun _ => rfl⟩

end ops

/-! ### lists -/

section lists
variable {α β : Type} {r : (ι → α) → α → Prop} {q : (ι → β) → β → Prop}

theorem ListT.congr {L M : ι → List α} {a : List α} (h : ListT l r L a) (e : ∀ᶠ i in l, M i = L i) :
    ListT l r M a := by
  obtain ⟨gs, hg, he⟩ := h
  exact ⟨gs, hg, by filter_upwards [e, he] with i h1 h2; rw [h1, h2]⟩

theorem ListT.nil : ListT l r (fun _ => []) [] := ⟨[], .nil, .of_forall fun _ => rfl⟩

theorem ListT.length {L : ι → List α} {a : List α} (h : ListT l r L a) : ∀ᶠ i in l, (L i).length = a.length := by
  obtain ⟨gs, hg, he⟩ := h
  filter_upwards [he] with i h1
  rw [h1, List.length_map, hg.length_eq]

theorem ListT.append {L M : ι → List α} {a b : List α} (h : ListT l r L a) (h' : ListT l r M b) :
    ListT l r (fun i => L i ++ M i) (a ++ b) := by
  obtain ⟨gs, hg, he⟩ := h
  obtain ⟨gs', hg', he'⟩ := h'
  refine ⟨gs ++ gs', List.rel_append hg hg', ?_⟩
  filter_upwards [he, he'] with i h1 h2
  rw [h1, h2, List.map_append]

theorem ListT.single {f : ι → α} {a : α} (h : r f a) : ListT l r (fun i => [f i]) [a] :=
  ⟨[f], .cons h .nil, .of_forall fun _ => rfl⟩

theorem ListT.replicate (n : ℕ) {f : ι → α} {a : α} (h : r f a) :
    ListT l r (fun i => List.replicate n (f i)) (List.replicate n a) := by
  refine ⟨List.replicate n f, ?_, .of_forall fun i => by rw [List.map_replicate]⟩
  induction n with
  | zero => exact .nil
  | succ n ih => exact .cons h ih

theorem forall₂_set {γ δ : Type} {R : γ → δ → Prop} {xs : List γ} {ys : List δ} (h : List.Forall₂ R xs ys) (k : ℕ)
    {x : γ} {y : δ} (hxy : R x y) : List.Forall₂ R (xs.set k x) (ys.set k y) := by
  induction h generalizing k with
  | nil => exact .nil
  | cons h1 h2 ih =>
    cases k with
    | zero => exact .cons hxy h2
    | succ k => exact .cons h1 (ih k)

theorem ListT.set (k : ℕ) {L : ι → List α} {a : List α} (h : ListT l r L a) {f : ι → α} {x : α} (hf : r f x) :
    ListT l r (fun i => (L i).set k (f i)) (a.set k x) := by
  obtain ⟨gs, hg, he⟩ := h
  refine ⟨gs.set k f, forall₂_set hg k hf, ?_⟩
  filter_upwards [he] with i h1
  rw [h1, List.map_set]

theorem ListT.zip {L : ι → List α} {M : ι → List β} {a : List α} {b : List β} (h : ListT l r L a) (h' : ListT l q M b) :
    ListT l (PairT r q) (fun i => (L i).zip (M i)) (a.zip b) := by
  obtain ⟨gs, hg, he⟩ := h
  obtain ⟨gs', hg', he'⟩ := h'
  refine ListT.congr (L := fun i => (gs.map fun g => g i).zip (gs'.map fun g => g i)) ?_
    (by filter_upwards [he, he'] with i h1 h2; rw [h1, h2])
  clear he he'
  refine ⟨List.zipWith (fun g g' i => (g i, g' i)) gs gs', ?_, .of_forall fun i => ?_⟩
  · induction hg generalizing gs' b with
    | nil => exact .nil
    | cons h1 h2 ih =>
      cases hg' with
      | nil => exact .nil
      | cons h3 h4 => exact .cons ⟨h1, h3⟩ (ih _ h4)
  · clear hg hg'
    induction gs generalizing gs' with
    | nil => rfl
    | cons g gs ih =>
      cases gs' with
      | nil => rfl
      | cons g' gs' => simp [ih]

theorem ListT.get? {L : ι → List α} {a : List α} (h : ListT l r L a) (k : ℕ) :
    OptT r l (fun i => (L i)[k]?) a[k]? := by
  obtain ⟨gs, hg, he⟩ := h
  rcases hk : a[k]? with _ | x
  · have : gs.length ≤ k := by
      rw [hg.length_eq]; exact List.getElem?_eq_none_iff.1 hk
    filter_upwards [he] with i h1
    rw [h1, List.getElem?_eq_none_iff, List.length_map]; exact this
  · obtain ⟨hk', rfl⟩ := List.getElem?_eq_some_iff.1 hk
    have hk2 : k < gs.length := hg.length_eq ▸ hk'
    refine ⟨gs[k], ?_, ?_⟩
    · exact List.forall₂_iff_get.1 hg |>.2 k hk2 hk'
    · filter_upwards [he] with i h1
      rw [h1, List.getElem?_map, List.getElem?_eq_getElem hk2]; rfl

theorem getRow_T {L : ι → List (Arr Fl)} {a : List (Arr Fl)} (h : ListT l (ArrT l) L a) (k : ℕ) :
    ET l (ArrT l) (fun i => getRow (L i) k) (getRow a k) := by
  have := h.get? k
  intro x hx
  unfold getRow at hx ⊢
  rcases hk : a[k]? with _ | y
  · rw [hk] at hx; cases hx
  · rw [hk] at hx this
    cases hx
    obtain ⟨g, hg, he⟩ := this
    exact ⟨g, hg, by filter_upwards [he] with i h1; rw [h1]⟩

end lists

/-! ### sequences -/

theorem len_T {f : ι → NDArray Fl} {a : NDArray Fl} (h : NDT l f a) :
    ET l (CT l) (fun i => (f i).len) a.len := by
  cases a with
  | d0 d x => intro r hr; cases hr
  | stack rows =>
    obtain ⟨L, hL, he⟩ := h
    intro r hr; cases hr
    refine ⟨fun _ => rows.length, .of_forall fun _ => rfl, ?_⟩
    filter_upwards [he, hL.length] with i h1 h2
    rw [h1, ← h2]; rfl

theorem iter_T {f : ι → NDArray Fl} {a : NDArray Fl} (h : NDT l f a) :
    ET l (ListT l (ArrT l)) (fun i => (f i).iter) a.iter := by
  cases a with
  | d0 d x => intro r hr; cases hr
  | stack rows =>
    obtain ⟨L, hL, he⟩ := h
    refine ET.congr (ET.ok hL) ?_
    filter_upwards [he] with i h1
    rw [h1]; rfl

theorem item_T {f : ι → NDArray Fl} {a : NDArray Fl} (h : NDT l f a) (k : ℕ) :
    ET l (ArrT l) (fun i => (f i).item k) (a.item k) := by
  cases a with
  | d0 d x => intro r hr; cases hr
  | stack rows =>
    obtain ⟨L, hL, he⟩ := h
    refine ET.congr (getRow_T hL k) ?_
    filter_upwards [he] with i h1
    rw [h1]; rfl

section run
variable {nanInt : ℝ} {B : ι → Backend Fl} (hB : Consistent l nanInt B)
include hB

theorem ndFullLikeNan_T {f : ι → NDArray Fl} {a : NDArray Fl} (h : NDT l f a) :
    NDT l (fun i => @NDArray.fullLikeNan Fl (B i) (f i)) (@NDArray.fullLikeNan Fl (exactB nanInt) a) := by
  cases a with
  | d0 d x =>
    obtain ⟨g, hg, he⟩ := h
    exact ⟨_, nanFill_T hB d, by filter_upwards [he] with i h1; rw [h1]; rfl⟩
  | stack rows =>
    obtain ⟨L, ⟨gs, hgs, hL⟩, he⟩ := h
    refine ⟨fun i => (gs.map fun g j => @Arr.fullLikeNan Fl (B j) (g j)).map fun g => g i, ⟨_, ?_, .of_forall fun _ => rfl⟩, ?_⟩
    · rw [List.forall₂_map_left_iff, List.forall₂_map_right_iff]
      exact hgs.imp fun a b hab => fullLikeNan_T hB hab
    · filter_upwards [he, hL] with i h1 h2
      rw [h1, h2]
      simp only [NDArray.fullLikeNan, List.map_map]
      rfl

theorem check_T {U : ι → Option (NDArray Fl)} {u : Option (NDArray Fl)} {Z : ι → NDArray Fl} {z : NDArray Fl}
    (hU : OptT (NDT l) l U u) (hZ : NDT l Z z) :
    NDT l (fun i => @checkNoneAndBroadcast Fl (B i) (U i) (Z i)) (@checkNoneAndBroadcast Fl (exactB nanInt) u z) := by
  have hcongr : ∀ {f g : ι → NDArray Fl} {a : NDArray Fl}, NDT l f a → (∀ᶠ i in l, g i = f i) → NDT l g a := by
    intro f g a h e
    cases a with
    | d0 d x => obtain ⟨v, hv, h1⟩ := h; exact ⟨v, hv, by filter_upwards [e, h1] with i h2 h3; rw [h2, h3]⟩
    | stack rows => obtain ⟨v, hv, h1⟩ := h; exact ⟨v, hv, by filter_upwards [e, h1] with i h2 h3; rw [h2, h3]⟩
  cases u with
  | none =>
    refine hcongr (ndFullLikeNan_T hB hZ) ?_
    filter_upwards [hU] with i h1; rw [h1]; rfl
  | some u =>
    obtain ⟨g, hg, he⟩ := hU
    refine hcongr hg ?_
    filter_upwards [he] with i h1; rw [h1]; rfl

theorem predict_T {Ak x Bk uk P Qk : ι → Arr Fl} {Ak' x' Bk' uk' P' Qk' : Arr Fl} (hA : ArrT l Ak Ak') (hx : ArrT l x x')
    (hBk : ArrT l Bk Bk') (hu : ArrT l uk uk') (hP : ArrT l P P') (hQ : ArrT l Qk Qk') :
    ET l (PairT (ArrT l) (ArrT l))
      (fun i => @KalmanFilter.predict Fl (B i) (Ak i) (x i) (some (Bk i)) (some (uk i)) (P i) (Qk i))
      (@KalmanFilter.predict Fl (exactB nanInt) Ak' x' (some Bk') (some uk') P' Qk') := by
  have hskip : ∀ᶠ i in l, (@Arr.isnanAll Fl (B i) (Bk i) || @Arr.isnanAll Fl (B i) (uk i)) =
      (@Arr.isnanAll Fl (exactB nanInt) Bk' || @Arr.isnanAll Fl (exactB nanInt) uk') := by
    filter_upwards [isnanAll_T hB hBk, isnanAll_T hB hu] with i h1 h2
    rw [h1, h2]
  rcases hs : (@Arr.isnanAll Fl (exactB nanInt) Bk' || @Arr.isnanAll Fl (exactB nanInt) uk') with _ | _
  · rw [hs] at hskip
    rw [@KalmanFilter.predict_ctrl Fl (exactB nanInt) _ _ _ _ _ _ hs]
    refine ET.congr ?_ (hskip.mono fun i h => @KalmanFilter.predict_ctrl Fl (B i) _ _ _ _ _ _ h)
    exact ET.bind (matmul_T hB hA hx) fun _ _ h1 => ET.bind (matmul_T hB hBk hu) fun _ _ h2 =>
      ET.bind (add_T hB h1 h2) fun _ _ h3 => ET.bind (matmul_T hB hP (T_T hA)) fun _ _ h4 =>
      ET.bind (matmul_T hB hA h4) fun _ _ h5 => ET.bind (add_T hB h5 hQ) fun _ _ h6 => ET.ok ⟨h3, h6⟩
  · rw [hs] at hskip
    rw [@KalmanFilter.predict_skip Fl (exactB nanInt) _ _ _ _ _ _ hs]
    refine ET.congr ?_ (hskip.mono fun i h => @KalmanFilter.predict_skip Fl (B i) _ _ _ _ _ _ h)
    exact ET.bind (matmul_T hB hA hx) fun _ _ h3 => ET.bind (matmul_T hB hP (T_T hA)) fun _ _ h4 =>
      ET.bind (matmul_T hB hA h4) fun _ _ h5 => ET.bind (add_T hB h5 hQ) fun _ _ h6 => ET.ok ⟨h3, h6⟩

theorem gain_T {Hk P Rk : ι → Arr Fl} {Hk' P' Rk' : Arr Fl} (hH : ArrT l Hk Hk') (hP : ArrT l P P') (hR : ArrT l Rk Rk') :
    ET l (ArrT l) (fun i => @KalmanFilter.gain Fl (B i) (Hk i) (P i) (Rk i))
      (@KalmanFilter.gain Fl (exactB nanInt) Hk' P' Rk') :=
  ET.bind (matmul_T hB hP (T_T hH)) fun _ _ h1 => ET.bind (matmul_T hB hH h1) fun _ _ h2 =>
    ET.bind (add_T hB h2 hR) fun _ _ h3 => ET.bind (matmul_T hB hH (T_T hP)) fun _ _ h4 =>
    ET.bind (solve_T hB (T_T h3) h4) fun _ _ h5 => ET.ok (T_T h5)

theorem correct_T {I K Hk x P z : ι → Arr Fl} {I' K' Hk' x' P' z' : Arr Fl} (hI : ArrT l I I') (hK : ArrT l K K')
    (hH : ArrT l Hk Hk') (hx : ArrT l x x') (hP : ArrT l P P') (hz : ArrT l z z') :
    ET l (PairT (ArrT l) (ArrT l)) (fun i => @KalmanFilter.correct Fl (B i) (I i) (K i) (Hk i) (x i) (P i) (z i))
      (@KalmanFilter.correct Fl (exactB nanInt) I' K' Hk' x' P' z') :=
  ET.bind (matmul_T hB hH hx) fun _ _ h1 => ET.bind (sub_T hB hz h1) fun _ _ h2 =>
    ET.bind (matmul_T hB hK (atleast1d_T h2)) fun _ _ h3 => ET.bind (add_T hB hx h3) fun _ _ h4 =>
    ET.bind (matmul_T hB hK hH) fun _ _ h5 => ET.bind (sub_T hB hI h5) fun _ _ h6 =>
    ET.bind (matmul_T hB h6 hP) fun _ _ h7 => ET.ok ⟨h4, h7⟩

theorem update_T {Hk x P z Rk : ι → Arr Fl} {Hk' x' P' z' Rk' : Arr Fl}
    (hH : ArrT l Hk Hk') (hx : ArrT l x x') (hP : ArrT l P P') (hz : ArrT l z z') (hR : ArrT l Rk Rk') :
    PT l (KFT l) (PairT (ArrT l) (ArrT l)) (fun i => @KalmanFilter.update Fl (B i) (Hk i) (x i) (P i) (z i) (Rk i))
      (@KalmanFilter.update Fl (exactB nanInt) Hk' x' P' z' Rk') :=
  PT.bind (PT.lift (gain_T hB hH hP hR)) fun f a hK =>
    PT.bind (PT.mutate (l := l) (rs := KFT l)
      (F := fun i (kf : KalmanFilter Fl) => { kf with kalmanGains := kf.kalmanGains ++ [f i] })
      (f := fun kf : KalmanFilter Fl => { kf with kalmanGains := kf.kalmanGains ++ [a] }) fun S s hS =>
      ⟨hS.A, hS.xk, hS.B, hS.Pk, hS.H, hS.Q, hS.R, hS.stateSize, hS.I, hS.kalmanGains.append (ListT.single hK)⟩) fun _ _ _ =>
    PT.bind PT.self fun _ _ hS => PT.lift (correct_T hB hS.I hK hH hx hP hz)

/-- One element of the zipped sequences. -/
abbrev RowT (l : Filter ι) : (ι → KalmanFilter.Row Fl) → KalmanFilter.Row Fl → Prop :=
  PairT (ArrT l) (PairT (ArrT l) (PairT (ArrT l) (PairT (ArrT l) (PairT (ArrT l) (PairT (ArrT l) (ArrT l))))))

theorem filterLoop_T (k : ℕ) {rows : ι → List (KalmanFilter.Row Fl)} {rows' : List (KalmanFilter.Row Fl)}
    (hr : ListT l (RowT l) rows rows') {x P : ι → Arr Fl} {x' P' : Arr Fl} (hx : ArrT l x x') (hP : ArrT l P P')
    {st er : ι → List (Arr Fl)} {st' er' : List (Arr Fl)} (hs : ListT l (ArrT l) st st') (he : ListT l (ArrT l) er er') :
    PT l (KFT l) (PairT (ListT l (ArrT l)) (ListT l (ArrT l)))
      (fun i => @KalmanFilter.filterLoop Fl (B i) k (rows i) (x i) (P i) (st i) (er i))
      (@KalmanFilter.filterLoop Fl (exactB nanInt) k rows' x' P' st' er') := by
  obtain ⟨gs, hgs, hrows⟩ := hr
  refine PT.congr (Y := fun i => @KalmanFilter.filterLoop Fl (B i) k (gs.map fun g => g i) (x i) (P i) (st i) (er i)) ?_
    (by filter_upwards [hrows] with i h1; rw [h1])
  clear hrows
  induction hgs generalizing k x P x' P' st er st' er' with
  | nil => exact PT.pure ⟨hs, he⟩
  | cons h1 h2 ih =>
    rename_i g row gs rows'
    obtain ⟨Ak, Hk, Bk, uk, zk, Qk, Rk⟩ := row
    obtain ⟨hA, hH, hBk, hu, hz, hQ, hR⟩ := h1
    refine PT.bind (PT.lift (predict_T hB hA hx hBk hu hP hQ)) fun f a h3 => ?_
    obtain ⟨a1, a2⟩ := a
    refine PT.bind (update_T hB hH h3.1 h3.2 hz hR) fun f' b h4 => ?_
    obtain ⟨b1, b2⟩ := b
    refine PT.bind PT.self fun S s hS => ?_
    have hv := assignVec_T s.stateSize h4.1
    have hm := assignMat_T s.stateSize h4.2
    refine PT.bind (PT.lift (hv.congr (by filter_upwards [hS.stateSize] with i h; rw [h]))) fun f3 c h5 => ?_
    refine PT.bind (PT.lift (hm.congr (by filter_upwards [hS.stateSize] with i h; rw [h]))) fun f4 d h6 => ?_
    exact ih (k + 1) h4.1 h4.2 (hs.set k h5) (he.set k h6)

omit hB in
theorem zipRows_T {A H B U Z Q R : ι → NDArray Fl} {A' H' B' U' Z' Q' R' : NDArray Fl} (hA : NDT l A A') (hH : NDT l H H')
    (hB : NDT l B B') (hU : NDT l U U') (hZ : NDT l Z Z') (hQ : NDT l Q Q') (hR : NDT l R R') :
    ET l (ListT l (RowT l)) (fun i => KalmanFilter.zipRows (A i) (H i) (B i) (U i) (Z i) (Q i) (R i))
      (KalmanFilter.zipRows A' H' B' U' Z' Q' R') :=
  ET.bind (iter_T hA) fun _ _ h1 => ET.bind (iter_T hH) fun _ _ h2 => ET.bind (iter_T hB) fun _ _ h3 =>
    ET.bind (iter_T hU) fun _ _ h4 => ET.bind (iter_T hZ) fun _ _ h5 => ET.bind (iter_T hQ) fun _ _ h6 =>
    ET.bind (iter_T hR) fun _ _ h7 => ET.ok (h1.zip (h2.zip (h3.zip (h4.zip (h5.zip (h6.zip h7))))))

theorem filter_T {Z : ι → NDArray Fl} {z : NDArray Fl} {U : ι → Option (NDArray Fl)} {u : Option (NDArray Fl)}
    (hZ : NDT l Z z) (hU : OptT (NDT l) l U u) :
    PT l (KFT l) (PairT (ListT l (ArrT l)) (ListT l (ArrT l)))
      (fun i => @KalmanFilter.filter Fl (B i) (Z i) (U i)) (@KalmanFilter.filter Fl (exactB nanInt) z u) := by
  refine PT.bind PT.self fun S s hS => PT.bind (PT.lift (len_T hZ)) fun f n hn => ?_
  refine PT.bind (PT.lift (zipRows_T hS.A hS.H hS.B (check_T hB hU hZ) hZ hS.Q hS.R)) fun rows rows' hr => ?_
  refine filterLoop_T hB 0 hr hS.xk hS.Pk ?_ ?_
  · refine ListT.congr (ListT.replicate n (zerosVec_T hB s.stateSize)) ?_
    filter_upwards [hn, hS.stateSize] with i h1 h2; rw [h1, h2]
  · refine ListT.congr (ListT.replicate n (zerosMat_T hB s.stateSize)) ?_
    filter_upwards [hn, hS.stateSize] with i h1 h2; rw [h1, h2]

theorem smoothStep_T {x P Ak Qk Bk uk xn Pn : ι → Arr Fl} {x' P' Ak' Qk' Bk' uk' xn' Pn' : Arr Fl}
    (hx : ArrT l x x') (hP : ArrT l P P') (hA : ArrT l Ak Ak') (hQ : ArrT l Qk Qk') (hBk : ArrT l Bk Bk')
    (hu : ArrT l uk uk') (hxn : ArrT l xn xn') (hPn : ArrT l Pn Pn') :
    ET l (PairT (ArrT l) (ArrT l))
      (fun i => @KalmanFilter.smoothStep Fl (B i) (x i) (P i) (Ak i) (Qk i) (Bk i) (uk i) (xn i) (Pn i))
      (@KalmanFilter.smoothStep Fl (exactB nanInt) x' P' Ak' Qk' Bk' uk' xn' Pn') := by
  refine ET.bind (predict_T hB hA hx hBk hu hP hQ) fun f a h1 => ?_
  obtain ⟨a1, a2⟩ := a
  exact ET.bind (matmul_T hB hP (T_T hA)) fun _ _ h2 => ET.bind (solve_T hB (T_T h1.2) (T_T h2)) fun _ _ h3 =>
    ET.bind (sub_T hB hxn h1.1) fun _ _ h4 => ET.bind (matmul_T hB (T_T h3) h4) fun _ _ h5 =>
    ET.bind (add_T hB hx h5) fun _ _ h6 => ET.bind (sub_T hB hPn h1.2) fun _ _ h7 =>
    ET.bind (matmul_T hB h7 (T_T (T_T h3))) fun _ _ h8 => ET.bind (matmul_T hB (T_T h3) h8) fun _ _ h9 =>
    ET.bind (add_T hB hP h9) fun _ _ h10 => ET.ok ⟨h6, h10⟩

theorem smoothLoop_T {A Q Bm U : ι → NDArray Fl} {A' Q' Bm' U' : NDArray Fl} (hA : NDT l A A') (hQ : NDT l Q Q')
    (hBm : NDT l Bm Bm') (hU : NDT l U U') {s : ι → ℕ} {s' : ℕ} (hs : ∀ᶠ i in l, s i = s')
    {xe Pe : ι → List (Arr Fl)} {xe' Pe' : List (Arr Fl)} (hxe : ListT l (ArrT l) xe xe') (hPe : ListT l (ArrT l) Pe Pe')
    (ks : List ℕ) {xs Ps : ι → List (Arr Fl)} {xs' Ps' : List (Arr Fl)} (hxs : ListT l (ArrT l) xs xs')
    (hPs : ListT l (ArrT l) Ps Ps') :
    ET l (PairT (ListT l (ArrT l)) (ListT l (ArrT l)))
      (fun i => @KalmanFilter.smoothLoop Fl (B i) (A i) (Q i) (Bm i) (U i) (s i) (xe i) (Pe i) ks (xs i) (Ps i))
      (@KalmanFilter.smoothLoop Fl (exactB nanInt) A' Q' Bm' U' s' xe' Pe' ks xs' Ps') := by
  induction ks generalizing xs Ps xs' Ps' with
  | nil => exact ET.ok ⟨hxs, hPs⟩
  | cons k ks ih =>
    refine ET.bind (item_T hA (k + 1)) fun _ _ h1 => ET.bind (item_T hQ (k + 1)) fun _ _ h2 =>
      ET.bind (item_T hBm (k + 1)) fun _ _ h3 => ET.bind (item_T hU (k + 1)) fun _ _ h4 =>
      ET.bind (getRow_T hPe k) fun _ _ h5 => ET.bind (getRow_T hxe k) fun _ _ h6 =>
      ET.bind (getRow_T hxs (k + 1)) fun _ _ h7 => ET.bind (getRow_T hPs (k + 1)) fun _ _ h8 =>
      ET.bind (smoothStep_T hB h6 h5 h1 h2 h3 h4 h7 h8) fun f a h9 => ?_
    obtain ⟨a1, a2⟩ := a
    refine ET.bind ((assignVec_T s' h9.1).congr (by filter_upwards [hs] with i h; rw [h])) fun _ _ h10 => ?_
    refine ET.bind ((assignMat_T s' h9.2).congr (by filter_upwards [hs] with i h; rw [h])) fun _ _ h11 => ?_
    exact ih (hxs.set k h10) (hPs.set k h11)

theorem smooth_T {Z : ι → NDArray Fl} {z : NDArray Fl} {U : ι → Option (NDArray Fl)} {u : Option (NDArray Fl)}
    (hZ : NDT l Z z) (hU : OptT (NDT l) l U u) :
    PT l (KFT l) (PairT (ListT l (ArrT l)) (ListT l (ArrT l)))
      (fun i => @KalmanFilter.smooth Fl (B i) (Z i) (U i)) (@KalmanFilter.smooth Fl (exactB nanInt) z u) := by
  refine PT.bind (filter_T hB hZ hU) fun e e' he => ?_
  obtain ⟨xe', Pe'⟩ := e'
  refine PT.bind PT.self fun S s hS => PT.bind (PT.lift (len_T hZ)) fun f n hn => ?_
  have hrow : ∀ {L : ι → List (Arr Fl)} {a : List (Arr Fl)}, ListT l (ArrT l) L a →
      ET l (ArrT l) (fun i => if f i = 0 then .error .indexError else getRow (L i) (f i - 1))
        (if n = 0 then .error .indexError else getRow a (n - 1)) := by
    intro L a hL
    by_cases h0 : n = 0
    · rw [if_pos h0]; exact ET.error
    · rw [if_neg h0]
      refine ET.congr (getRow_T hL (n - 1)) ?_
      filter_upwards [hn] with i h1; rw [h1, if_neg h0]
  refine PT.bind (PT.lift (hrow he.1)) fun _ _ h1 => PT.bind (PT.lift (hrow he.2)) fun _ _ h2 => ?_
  refine PT.bind (PT.lift ((assignVec_T s.stateSize h1).congr
    (by filter_upwards [hS.stateSize] with i h; rw [h]))) fun f3 x3 h3 => ?_
  refine PT.bind (PT.lift ((assignMat_T s.stateSize h2).congr
    (by filter_upwards [hS.stateSize] with i h; rw [h]))) fun f4 x4 h4 => ?_
  have hx0 : ListT l (ArrT l) (fun i => (List.replicate (f i) (@Arr.zerosVec Fl (B i) (S i).stateSize)).set (f i - 1) (f3 i))
      ((List.replicate n (@Arr.zerosVec Fl (exactB nanInt) s.stateSize)).set (n - 1) x3) := by
    refine ListT.congr ((ListT.replicate n (zerosVec_T hB s.stateSize)).set (n - 1) h3) ?_
    filter_upwards [hn, hS.stateSize] with i h1 h2; rw [h1, h2]
  have hP0 : ListT l (ArrT l) (fun i => (List.replicate (f i) (@Arr.zerosMat Fl (B i) (S i).stateSize)).set (f i - 1) (f4 i))
      ((List.replicate n (@Arr.zerosMat Fl (exactB nanInt) s.stateSize)).set (n - 1) x4) := by
    refine ListT.congr ((ListT.replicate n (zerosMat_T hB s.stateSize)).set (n - 1) h4) ?_
    filter_upwards [hn, hS.stateSize] with i h1 h2; rw [h1, h2]
  refine PT.lift (ET.congr (smoothLoop_T hB hS.A hS.Q hS.B (check_T hB hU hZ) hS.stateSize he.1 he.2
    (List.range (n - 1)).reverse hx0 hP0) ?_)
  filter_upwards [hn] with i h; rw [h]

end run

end KK
