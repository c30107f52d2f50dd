import Verif.Spec.Heap
import Verif.Proofs.Heap

/-! # No method of the heap model writes memory that existed before the call -/

set_option linter.unusedSectionVars false
set_option linter.unusedVariables false

namespace KK

variable {F : Type} [Backend F]

/-- `m` leaves the cells below `n` and the attributes of the object alone, and records gains in cells from `n` on. -/
def Tame {α : Type} (n : ℕ) (m : HM F α) (P : α → Prop) : Prop :=
  ∀ st : HState F, n ≤ st.heap.length →
    (n ≤ (m.run st).2.heap.length ∧ ∀ r < n, (m.run st).2.heap[r]? = st.heap[r]?) ∧
    (∃ gs, (m.run st).2.self = { st.self with kalmanGains := st.self.kalmanGains ++ gs } ∧ ∀ v ∈ gs, n ≤ v.cell) ∧
    ∀ a, (m.run st).1 = .ok a → P a

namespace Tame

variable {α β : Type} {n : ℕ} {P : α → Prop} {P' : β → Prop}

theorem bind {m : HM F α} {f : α → HM F β} (x : Tame n m P) (y : ∀ a, P a → Tame n (f a) P') : Tame n (m >>= f) P' := by
  intro st hn
  obtain ⟨⟨x1, x2⟩, ⟨gs, x3, x4⟩, x5⟩ := x st hn
  show (_ ∧ _) ∧ _
  have e : (m >>= f).run st = (Py.bind m f).run st := rfl
  rcases hm : m.run st with ⟨e' | a, st'⟩ <;> rw [hm] at x1 x2 x3 x5 <;> dsimp only at x1 x2 x3 x5
  · simp only [e, Py.bind, hm]
    exact ⟨⟨x1, x2⟩, ⟨gs, x3, x4⟩, by simp⟩
  · obtain ⟨⟨y1, y2⟩, ⟨gs', y3, y4⟩, y5⟩ := y a (x5 a rfl) st' x1
    simp only [e, Py.bind, hm]
    refine ⟨⟨y1, fun r hr => (y2 r hr).trans (x2 r hr)⟩, ⟨gs ++ gs', ?_, ?_⟩, y5⟩
    · rw [y3, x3]; simp
    · intro v hv
      rcases List.mem_append.mp hv with h | h
      · exact x4 v h
      · exact y4 v h

theorem same {m : HM F α} (h : ∀ st, (m.run st).2 = st) (hP : ∀ st a, (m.run st).1 = .ok a → P a) : Tame n m P :=
  fun st hn => by
    rw [h st]
    exact ⟨⟨hn, fun _ _ => rfl⟩, ⟨[], by simp, by simp⟩, hP st⟩

theorem lift (y : Except PyErr α) (hP : ∀ a, y = .ok a → P a) : Tame n (Py.lift y : HM F α) P :=
  same (fun _ => rfl) fun _ a h => hP a h

theorem get (v : View) : Tame n (HM.get v : HM F (Arr F)) fun _ => True :=
  same (fun st => by simp only [HM.get]; rcases st.heap.deref v with _ | a <;> rfl) fun _ _ _ => trivial

theorem getSeq (v : ℕ) : Tame n (HM.getSeq v : HM F (NDArray F)) fun _ => True :=
  same (fun st => by simp only [HM.getSeq]; rcases st.heap.seqAt v with _ | a <;> rfl) fun _ _ _ => trivial

theorem self : Tame n (HM.self : HM F HFilter) fun _ => True := same (fun _ => rfl) fun _ _ _ => trivial

theorem new (a : Arr F) : Tame n (HM.new a) fun v => n ≤ v.cell := by
  intro st hn
  refine ⟨⟨by simp [HM.new]; omega, fun r hr => ?_⟩, ⟨[], by simp [HM.new], by simp⟩, ?_⟩
  · show (st.heap ++ [_])[r]? = _
    rw [List.getElem?_append_left (by omega)]
  · rintro v h
    simp only [HM.new, Except.ok.injEq] at h
    subst h
    exact hn

theorem newSeq (a : NDArray F) : Tame n (HM.newSeq a) fun r => n ≤ r := by
  intro st hn
  refine ⟨⟨by simp [HM.newSeq]; omega, fun r hr => ?_⟩, ⟨[], by simp [HM.newSeq], by simp⟩, ?_⟩
  · show (st.heap ++ [_])[r]? = _
    rw [List.getElem?_append_left (by omega)]
  · rintro v h
    simp only [HM.newSeq, Except.ok.injEq] at h
    subst h
    exact hn

theorem op (f : Arr F → Arr F → Except PyErr (Arr F)) (v w : View) : Tame n (HM.op f v w) fun v => n ≤ v.cell :=
  (get v).bind fun _ _ => (get w).bind fun _ _ => (lift (P := fun _ => True) _ fun _ _ => trivial).bind fun _ _ => new _

theorem setRow (assign : Arr F → Except PyErr (Arr F)) {r : ℕ} (hr : n ≤ r) (k : ℕ) (v : View) :
    Tame n (HM.setRow assign r k v) fun _ => True := by
  refine (get v).bind fun _ _ => (lift (P := fun _ => True) _ fun _ _ => trivial).bind fun row _ st hn => ?_
  dsimp only
  rcases hs : st.heap.seqAt r with _ | (⟨d, c⟩ | l)
  · exact ⟨⟨hn, fun _ _ => rfl⟩, ⟨[], by simp, by simp⟩, fun _ _ => trivial⟩
  · exact ⟨⟨hn, fun _ _ => rfl⟩, ⟨[], by simp, by simp⟩, fun _ _ => trivial⟩
  · refine ⟨⟨by simpa using hn, fun q hq => ?_⟩, ⟨[], by simp, by simp⟩, fun _ _ => trivial⟩
    exact List.getElem?_set_ne (by omega)

theorem rows (r : ℕ) : Tame n (HM.rows r : HM F (List View)) fun _ => True :=
  (getSeq r).bind fun _ _ => (lift (P := fun _ => True) _ fun _ _ => trivial).bind fun _ _ => lift _ fun _ _ => trivial

theorem item (r k : ℕ) : Tame n (HM.item r k : HM F View) fun _ => True :=
  (getSeq r).bind fun _ _ => (lift (P := fun _ => True) _ fun _ _ => trivial).bind fun _ _ => lift _ fun _ _ => trivial

theorem weaken {m : HM F α} {Q : α → Prop} (x : Tame n m P) (h : ∀ a, P a → Q a) : Tame n m Q :=
  fun st hn => ⟨(x st hn).1, (x st hn).2.1, fun a ha => h a ((x st hn).2.2 a ha)⟩

end Tame

namespace HFilter

open Tame

variable {n : ℕ}

theorem tame_check (U : Option ℕ) (Z : ℕ) : Tame n (checkNoneAndBroadcast (F := F) U Z) fun _ => True := by
  unfold checkNoneAndBroadcast
  rcases U with _ | r
  · exact (getSeq Z).bind fun _ _ => (newSeq _).weaken fun _ _ => trivial
  · exact Tame.lift _ fun _ _ => trivial

theorem tame_predict (vA vx vB vu vP vQ : View) :
    Tame n (predict (F := F) vA vx vB vu vP vQ) fun p => n ≤ p.1.cell ∧ n ≤ p.2.cell := by
  unfold predict
  refine Tame.bind (P := fun _ => True) ?_ fun skip _ => Tame.bind (P := fun v => n ≤ v.cell) ?_ fun x hx => ?_
  · unfold controlOff
    refine (get _).bind fun b _ => ?_
    split
    · exact Tame.lift _ fun _ _ => trivial
    · exact (get _).bind fun _ _ => Tame.lift _ fun _ _ => trivial
  · unfold priorMean
    split
    · exact op _ _ _
    · exact (op _ _ _).bind fun _ _ => (op _ _ _).bind fun _ _ => op _ _ _
  · refine (op _ _ _).bind fun _ _ => (op _ _ _).bind fun _ _ => (op _ _ _).bind fun P hP => Tame.lift _ ?_
    rintro a h
    simp only [Except.ok.injEq] at h
    subst h
    exact ⟨hx, hP⟩

theorem tame_update (vH vx vP vz vR : View) :
    Tame n (update (F := F) vH vx vP vz vR) fun p => n ≤ p.1.cell ∧ n ≤ p.2.cell := by
  unfold update
  refine Tame.bind (P := fun v => n ≤ v.cell) ?_ fun K hK => Tame.bind (P := fun _ => True) ?_ fun _ _ => self.bind
    fun o _ => ?_
  · unfold gain
    refine (op _ _ _).bind fun _ _ => (op _ _ _).bind fun _ _ => (op _ _ _).bind fun _ _ => (op _ _ _).bind fun _ _ =>
      (op _ _ _).bind fun X hX => Tame.lift _ ?_
    rintro a h
    simp only [Except.ok.injEq] at h
    subst h
    exact hX
  · intro st hn
    exact ⟨⟨hn, fun _ _ => rfl⟩, ⟨[K], rfl, by simpa using hK⟩, fun _ _ => trivial⟩
  · unfold correct
    refine (op _ _ _).bind fun _ _ => (op _ _ _).bind fun _ _ => (op _ _ _).bind fun _ _ => (op _ _ _).bind fun x hx =>
      (op _ _ _).bind fun _ _ => (op _ _ _).bind fun _ _ => (op _ _ _).bind fun P hP => Tame.lift _ ?_
    rintro a h
    simp only [Except.ok.injEq] at h
    subst h
    exact ⟨hx, hP⟩

theorem tame_filterLoop {s e : ℕ} (hs : n ≤ s) (he : n ≤ e) (d k : ℕ)
    (rows : List (View × View × View × View × View × View × View)) (x P : View) :
    Tame n (filterLoop (F := F) s e d k rows x P) fun _ => True := by
  induction rows generalizing k x P with
  | nil => exact Tame.lift _ fun _ _ => trivial
  | cons a rest ih =>
    obtain ⟨A, H, B, u, z, Q, R⟩ := a
    unfold filterLoop
    exact (tame_predict _ _ _ _ _ _).bind fun _ _ => (tame_update _ _ _ _ _).bind fun _ _ =>
      (setRow _ hs _ _).bind fun _ _ => (setRow _ he _ _).bind fun _ _ => ih _ _ _

theorem tame_filter (Z : ℕ) (U : Option ℕ) : Tame n (filter (F := F) Z U) fun p => n ≤ p.1 ∧ n ≤ p.2 := by
  unfold filter
  refine self.bind fun o _ => (getSeq _).bind fun z _ => (Tame.lift (P := fun _ => True) _ fun _ _ => trivial).bind
    fun l _ => (newSeq _).bind fun s hs => (newSeq _).bind fun e he => (tame_check _ _).bind fun U _ =>
    (Tame.rows _).bind fun _ _ => (Tame.rows _).bind fun _ _ => (Tame.rows _).bind fun _ _ => (Tame.rows _).bind fun _ _ =>
    (Tame.rows _).bind fun _ _ => (Tame.rows _).bind fun _ _ => (Tame.rows _).bind fun _ _ =>
    (tame_filterLoop hs he _ _ _ _ _).bind fun _ _ => Tame.lift _ ?_
  rintro a h
  simp only [Except.ok.injEq] at h
  subst h
  exact ⟨hs, he⟩

theorem tame_smoothStep (vx vP vA vQ vB vu vxn vPn : View) :
    Tame n (smoothStep (F := F) vx vP vA vQ vB vu vxn vPn) fun _ => True := by
  unfold smoothStep
  exact (tame_predict _ _ _ _ _ _).bind fun _ _ => (op _ _ _).bind fun _ _ => (op _ _ _).bind fun _ _ =>
    (op _ _ _).bind fun _ _ => (op _ _ _).bind fun _ _ => (op _ _ _).bind fun _ _ => (op _ _ _).bind fun _ _ =>
    (op _ _ _).bind fun _ _ => (op _ _ _).bind fun _ _ => (op _ _ _).bind fun _ _ => Tame.lift _ fun _ _ => trivial

theorem tame_smoothLoop {s e : ℕ} (hs : n ≤ s) (he : n ≤ e) (A Q B U d xE PE : ℕ) (ks : List ℕ) :
    Tame n (smoothLoop (F := F) A Q B U d xE PE s e ks) fun _ => True := by
  induction ks with
  | nil => exact Tame.lift _ fun _ _ => trivial
  | cons k ks ih =>
    unfold smoothLoop
    exact (Tame.item _ _).bind fun _ _ => (Tame.item _ _).bind fun _ _ => (Tame.item _ _).bind fun _ _ =>
      (Tame.item _ _).bind fun _ _ => (Tame.item _ _).bind fun _ _ => (Tame.item _ _).bind fun _ _ =>
      (Tame.item _ _).bind fun _ _ => (Tame.item _ _).bind fun _ _ => (tame_smoothStep _ _ _ _ _ _ _ _).bind fun _ _ =>
      (setRow _ hs _ _).bind fun _ _ => (setRow _ he _ _).bind fun _ _ => ih

theorem tame_smooth (Z : ℕ) (U : Option ℕ) : Tame n (smooth (F := F) Z U) fun p => n ≤ p.1 ∧ n ≤ p.2 := by
  unfold smooth
  refine (tame_filter Z U).bind fun p _ => self.bind fun o _ => (getSeq _).bind fun z _ =>
    (Tame.lift (P := fun _ => True) _ fun _ _ => trivial).bind
    fun l _ => (newSeq _).bind fun s hs => (newSeq _).bind fun e he => ?_
  have fin : Tame n (Py.lift (.ok (s, e)) : HM F (ℕ × ℕ)) fun p => n ≤ p.1 ∧ n ≤ p.2 := Tame.lift _ (by
    rintro a h
    simp only [Except.ok.injEq] at h
    subst h
    exact ⟨hs, he⟩)
  dsimp only
  rcases Nat.eq_zero_or_pos l with rfl | hl
  · simp only [if_true]
    exact (Tame.lift (P := fun _ => True) _ fun _ _ => trivial).bind fun _ _ => (setRow _ hs _ _).bind fun _ _ =>
      (Tame.lift (P := fun _ => True) _ fun _ _ => trivial).bind fun _ _ => (setRow _ he _ _).bind fun _ _ =>
      (tame_check _ _).bind fun _ _ => (tame_smoothLoop hs he _ _ _ _ _ _ _ _).bind fun _ _ => fin
  · simp only [Nat.pos_iff_ne_zero.mp hl, if_false]
    exact (Tame.item _ _).bind fun _ _ => (setRow _ hs _ _).bind fun _ _ =>
      (Tame.item _ _).bind fun _ _ => (setRow _ he _ _).bind fun _ _ =>
      (tame_check _ _).bind fun _ _ => (tame_smoothLoop hs he _ _ _ _ _ _ _ _).bind fun _ _ => fin

end HFilter

end KK
