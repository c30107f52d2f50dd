import Verif.Proofs.Heap
import Verif.Spec.Heap
import Verif.Props.Interface

/-! # The heap model of `filter` and `smooth` -/

set_option linter.unusedSectionVars false
set_option linter.unusedVariables false

namespace KK

variable {F : Type} [Backend F]

namespace HFilter

variable {n : ℕ} {S : Set ℕ} {h : Heap F} {o : HFilter} {kf : KalmanFilter F}

theorem sim_post {α β γ : Type} {m : HM F α} {p : Py (KalmanFilter F) β} {R : Heap F → α → β → Prop}
    {R' : Heap F → γ → β → Prop} (f : α → γ) (x : Sim n S h o kf m p R) (hR : ∀ h' a b, R h' a b → R' h' (f a) b) :
    Sim n S h o kf (m >>= fun a => Py.lift (.ok (f a))) p R' := by
  obtain ⟨h', gs, vals, x1, x2, x3, x4, x5⟩ := x
  show Sim n S h o kf (Py.bind m _) p R'
  rcases hm : m.run ⟨h, o⟩ with ⟨e | a, st⟩ <;> rw [hm] at x3 x5 <;> dsimp only at x3 x5
  · refine ⟨h', gs, vals, x1, x2, ?_, x4, ?_⟩ <;> simp only [Py.bind, hm, x3]
    rcases hp : (p.run kf).1 with e' | b <;> rw [hp] at x5
    · exact x5
    · exact x5
  · refine ⟨h', gs, vals, x1, x2, ?_, x4, ?_⟩ <;> simp only [Py.bind, hm, x3]
    · rfl
    rcases hp : (p.run kf).1 with e' | b <;> rw [hp] at x5
    · exact x5
    · exact hR _ _ _ x5

/-- Buffers allocated during the run may be written. -/
theorem sim_shrink {α β : Type} {n n' : ℕ} {m : HM F α} {p : Py (KalmanFilter F) β} {R R' : Heap F → α → β → Prop}
    (hS : ∀ r ∈ S, h.length ≤ r) (hn : n ≤ n') (hR : ∀ h' a b, Frame ∅ h h' → R h' a b → R' h' a b)
    (x : Sim n' S h o kf m p R) : Sim n ∅ h o kf m p R' := by
  obtain ⟨h', gs, vals, x1, x2, x3, x4, x5⟩ := x
  have f : Frame ∅ h h' := ⟨x1.len, fun r hr _ => x1.eq r hr fun hc => absurd (hS r hc) (by omega)⟩
  refine ⟨h', gs, vals, f, x2.imp fun v a hv => ⟨hn.trans hv.1, hv.2⟩, x3, x4, ?_⟩
  revert x5
  rcases (m.run ⟨h, o⟩).1 with e | a <;> rcases (p.run kf).1 with e' | b <;> intro x5
  · exact x5
  · exact x5
  · exact x5
  · exact hR _ _ _ f x5

theorem forall₂_range {β : Type} {R : ℕ → β → Prop} (l : List β) (hR : ∀ k b, l[k]? = some b → R k b) :
    List.Forall₂ R (List.range l.length) l := by
  rw [List.forall₂_iff_get]
  refine ⟨by simp, fun i h1 h2 => ?_⟩
  simp only [List.get_eq_getElem, List.getElem_range]
  exact hR _ _ (List.getElem?_eq_getElem h2)

theorem forall₂_zip {α β γ δ : Type} {R : α → β → Prop} {R' : γ → δ → Prop} {a : List α} {b : List β} {c : List γ}
    {d : List δ} (x : List.Forall₂ R a b) (y : List.Forall₂ R' c d) :
    List.Forall₂ (fun p q => R p.1 q.1 ∧ R' p.2 q.2) (a.zip c) (b.zip d) := by
  induction x generalizing c d with
  | nil => exact .nil
  | cons h1 _ ih =>
    cases y with
    | nil => exact .nil
    | cons h2 y => exact .cons ⟨h1, h2⟩ (ih y)

theorem sim_rows {γ δ : Type} {r : ℕ} {a : NDArray F} (ha : HasSeq S h r a) {f : List View → HM F γ}
    {g : List (Arr F) → Py (KalmanFilter F) δ} {R : Heap F → γ → δ → Prop}
    (x : ∀ vs l, List.Forall₂ (Has S h) vs l → Sim n S h o kf (f vs) (g l) R) :
    Sim n S h o kf (HM.rows r >>= f) (Py.lift a.iter >>= g) R := by
  rcases a with ⟨d, c⟩ | l
  · have e : (HM.rows r >>= f).run ⟨h, o⟩ = (.error .typeError, ⟨h, o⟩) := by
      show (Py.bind (Py.bind _ _) f).run _ = _
      simp only [Py.bind, run_getSeq ha]
      rfl
    exact ⟨h, [], [], Frame.refl _ _, .nil, by rw [e]; simp, by show kf = _; simp, by rw [e]; rfl⟩
  · refine sim_left (a := (List.range l.length).map (View.row r)) ?_ (sim_right (b := l) rfl (x _ l ?_))
    · show (Py.bind _ _).run _ = _
      simp only [Py.bind, run_getSeq ha]
      rfl
    · rw [List.forall₂_map_left_iff]
      exact forall₂_range l fun k b hb => ha.row hb

theorem sim_item {γ δ : Type} {S' : Set ℕ} {r k : ℕ} {a : NDArray F} (ha : HasSeq S' h r a) {f : View → HM F γ}
    {g : Arr F → Py (KalmanFilter F) δ} {R : Heap F → γ → δ → Prop}
    (x : ∀ b, Has S' h (.row r k) b → Sim n S h o kf (f (.row r k)) (g b) R) :
    Sim n S h o kf (HM.item r k >>= f) (Py.lift (a.item k) >>= g) R := by
  have e : (HM.item r k).run ⟨h, o⟩ = ((a.item k).map fun _ => View.row r k, ⟨h, o⟩) := by
    show (Py.bind _ _).run _ = _
    simp only [Py.bind, run_getSeq ha]
    show (Py.bind _ _).run _ = _
    rcases a.item k with e | b <;> rfl
  rcases hi : a.item k with e' | b
  · rw [hi] at e
    have e2 : (HM.item r k >>= f).run ⟨h, o⟩ = (.error e', ⟨h, o⟩) := by
      show (Py.bind _ f).run _ = _
      simp only [Py.bind, e, Except.map]
    exact ⟨h, [], [], Frame.refl _ _, .nil, by rw [e2]; simp, by show kf = _; simp, by rw [e2]; rfl⟩
  · rw [hi] at e
    refine sim_left (a := .row r k) (by rw [e]; rfl) (sim_right (b := b) rfl (x b ?_))
    rcases a with ⟨d, c⟩ | l
    · simp [NDArray.item] at hi
    · refine ha.row ?_
      simp only [NDArray.item] at hi
      rcases hl : l[k]? with _ | q
      · rw [hl] at hi; simp at hi
      · rw [hl] at hi; simp only [Except.ok.injEq] at hi; rw [hi]

theorem sim_getRow {γ δ : Type} {S' : Set ℕ} {r k : ℕ} {l : List (Arr F)} (ha : HasSeq S' h r (.stack l))
    {f : View → HM F γ} {g : Arr F → Py (KalmanFilter F) δ} {R : Heap F → γ → δ → Prop}
    (x : ∀ b, Has S' h (.row r k) b → Sim n S h o kf (f (.row r k)) (g b) R) :
    Sim n S h o kf (HM.item r k >>= f) (Py.lift (getRow l k) >>= g) R := sim_item ha x

theorem sim_check {γ δ : Type} {Z : ℕ} {z : NDArray F} {U : Option ℕ} {u : Option (NDArray F)} (hS : ∀ r ∈ S, r < h.length)
    (hZ : HasSeq S h Z z) (hU : SeqArg h U u) (hUS : ∀ r, U = some r → r ∉ S) {f : ℕ → HM F γ} {p : Py (KalmanFilter F) δ}
    {R : Heap F → γ → δ → Prop}
    (x : ∀ h' r, Frame ∅ h h' → HasSeq S h' r (KK.checkNoneAndBroadcast u z) → Sim n S h' o kf (f r) p R) :
    Sim n S h o kf (checkNoneAndBroadcast U Z >>= f) p R := by
  rcases U with _ | r <;> rcases u with _ | a
  · refine sim_alloc (a := h.length) (c := .seq z.fullLikeNan) ?_
      (x _ _ (Frame.append _ _ _) ⟨fun hc => absurd (hS _ hc) (by omega), by simp [Heap.seqAt, KK.checkNoneAndBroadcast]⟩)
    show (Py.bind _ _).run _ = _
    simp only [Py.bind, run_getSeq hZ]
    rfl
  · exact absurd hU (by simp [SeqArg])
  · exact absurd hU (by simp [SeqArg])
  · exact sim_left (a := r) rfl (x h r (Frame.refl _ _) ⟨hUS r rfl, hU⟩)

theorem seqAt_append {r : ℕ} {a : NDArray F} (c : Cell F) (e : h.seqAt r = some a) : Heap.seqAt (h ++ [c]) r = some a := by
  rw [Heap.seqAt, List.getElem?_append_left (seqAt_lt e)]
  exact e

/-- The result of `filter` and `smooth`: two new buffers with the given contents. -/
def NewOut (n : ℕ) (h : Heap F) (p : ℕ × ℕ) (b : List (Arr F) × List (Arr F)) : Prop :=
  n ≤ p.1 ∧ n ≤ p.2 ∧ p.1 ≠ p.2 ∧ Out p.1 p.2 h b.1 b.2

theorem sim_filter (ho : ObjIs h o kf) {Z : ℕ} {z : NDArray F} {U : Option ℕ} {u : Option (NDArray F)}
    (hZ : h.seqAt Z = some z) (hU : SeqArg h U u) :
    Sim (h.length + 2) ∅ h o kf (filter Z U) (KalmanFilter.filter z u)
      (fun h' p b => p = (h.length, h.length + 1) ∧ Out h.length (h.length + 1) h' b.1 b.2) := by
  have key : Sim (h.length + 2) {h.length, h.length + 1} h o kf (filter Z U) (KalmanFilter.filter z u)
      (fun h' p b => p = (h.length, h.length + 1) ∧ Out h.length (h.length + 1) h' b.1 b.2) := by
    have hS : ∀ r ∈ ({h.length, h.length + 1} : Set ℕ), h.length ≤ r := by
      rintro r (rfl | rfl) <;> simp
    have nS : ∀ {r : ℕ}, r < h.length → r ∉ ({h.length, h.length + 1} : Set ℕ) := fun hr hc => absurd (hS _ hc) (by omega)
    have sq : ∀ {r : ℕ} {a : NDArray F}, h.seqAt r = some a → HasSeq {h.length, h.length + 1} h r a :=
      fun e => ⟨nS (seqAt_lt e), e⟩
    have dr : ∀ {v : View} {a : Arr F}, h.deref v = some a → Has {h.length, h.length + 1} h v a :=
      fun e => ⟨nS (deref_lt e), e⟩
    unfold filter KalmanFilter.filter
    refine sim_left (a := o) rfl (sim_right (b := kf) rfl ?_)
    refine sim_left (run_getSeq (sq hZ)) ?_
    rcases hl : z.len with e | l
    · exact ⟨h, [], [], Frame.refl _ _, .nil, by simp [Py.lift, bind, Py.bind], by simp [Py.lift, bind, Py.bind],
        by simp [Py.lift, bind, Py.bind]⟩
    refine sim_left (a := l) rfl (sim_right (b := l) rfl ?_)
    refine sim_alloc (a := h.length) (c := .seq (.stack (List.replicate l (Arr.zerosVec o.stateSize)))) rfl ?_
    refine sim_alloc (a := h.length + 1) (c := .seq (.stack (List.replicate l (Arr.zerosMat o.stateSize)))) ?_ ?_
    · simp [HM.newSeq]
    have f2 : Frame (F := F) {h.length, h.length + 1} h (h ++ [.seq (.stack (List.replicate l (Arr.zerosVec o.stateSize)))] ++
      [Cell.seq (.stack (List.replicate l (Arr.zerosMat o.stateSize)))]) := (Frame.append _ _ _).trans (Frame.append _ _ _)
    have o2 : Out (F := F) h.length (h.length + 1) (h ++ [.seq (.stack (List.replicate l (Arr.zerosVec o.stateSize)))] ++
      [Cell.seq (.stack (List.replicate l (Arr.zerosMat o.stateSize)))]) (List.replicate l (Arr.zerosVec o.stateSize))
      (List.replicate l (Arr.zerosMat o.stateSize)) := by
      constructor
      · exact seqAt_append _ (by simp [Heap.seqAt])
      · simp [Heap.seqAt]
    have len2 : h.length + 2 ≤ (h ++ [Cell.seq (.stack (List.replicate l (Arr.zerosVec (F := F) o.stateSize)))] ++
      [Cell.seq (.stack (List.replicate l (Arr.zerosMat o.stateSize)))]).length := by simp
    generalize (h ++ [Cell.seq (.stack (List.replicate l (Arr.zerosVec (F := F) o.stateSize)))] ++
      [Cell.seq (.stack (List.replicate l (Arr.zerosMat o.stateSize)))]) = h2 at f2 o2 len2 ⊢
    have hU2 : SeqArg h2 U u := by
      rcases U with _ | r <;> rcases u with _ | a
      · trivial
      · exact hU
      · exact hU
      · exact ((sq hU).mono f2).2
    refine sim_check (by rintro r (rfl | rfl) <;> omega) ((sq hZ).mono f2) hU2 ?_ fun h3 ur f3 hur => ?_
    · rintro r rfl
      rcases u with _ | a
      · exact absurd hU (by simp [SeqArg])
      · exact (sq hU).1
    have g3 : Frame {h.length, h.length + 1} h h3 := f2.trans (Frame.weaken f3)
    unfold KalmanFilter.zipRows
    simp only [lift_bind]
    have assoc : ∀ {α β γ : Type} (x : Py (KalmanFilter F) α) (f : α → Py (KalmanFilter F) β)
        (g : β → Py (KalmanFilter F) γ), (x >>= f) >>= g = x >>= fun a => f a >>= g := by
      intro α β γ x f g
      show Py.bind (Py.bind x f) g = Py.bind x fun a => Py.bind (f a) g
      simp only [Py.bind, Py.mk.injEq]
      funext s
      rcases x.run s with ⟨e | a, s'⟩ <;> rfl
    simp only [assoc]
    refine sim_rows ((sq ho.A).mono g3) fun va a ha => ?_
    refine sim_rows ((sq ho.H).mono g3) fun vh hh hhh => ?_
    refine sim_rows ((sq ho.B).mono g3) fun vb b hb => ?_
    refine sim_rows hur fun vu uu huu => ?_
    refine sim_rows ((sq hZ).mono g3) fun vz zz hzz => ?_
    refine sim_rows ((sq ho.Q).mono g3) fun vq q hq => ?_
    refine sim_rows ((sq ho.R).mono g3) fun vr r hr => ?_
    refine sim_right (b := a.zip (hh.zip (b.zip (uu.zip (zz.zip (q.zip r)))))) rfl ?_
    refine sim_post (R := fun h' _ b => Out h.length (h.length + 1) h' b.1 b.2) (fun _ => (h.length, h.length + 1)) ?_
      fun h' _ b hb => ⟨rfl, hb⟩
    have := sim_filterLoop (n := h.length + 2) (s := h.length) (e := h.length + 1) (d := kf.stateSize) (h := h3) (o := o)
      (kf := kf) (by omega) (by omega) (by omega) (len2.trans f3.len) rfl ((dr ho.I).mono g3)
      (forall₂_zip ha (forall₂_zip hhh (forall₂_zip hb (forall₂_zip huu (forall₂_zip hzz (forall₂_zip hq hr))))))
      ((dr ho.xk).mono g3) ((dr ho.Pk).mono g3) (Out.mono f3 o2) 0
    rw [ho.size] at this ⊢
    exact this
  refine sim_shrink ?_ le_rfl (fun _ _ _ _ hR => hR) key
  rintro r (rfl | rfl) <;> simp

end HFilter

end KK
