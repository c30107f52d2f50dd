import Verif.Proofs.HeapExtRun

/-! # No method of the extended filter writes memory that existed before the call, except what its callbacks write -/

set_option linter.unusedSectionVars false
set_option linter.unusedVariables false

namespace KK

variable {F : Type} [Backend F]

/-- A program on memory that leaves the cells below `n` outside `W` alone. -/
def HTame {α : Type} (n : ℕ) (W : Set ℕ) (m : HeapM F α) (P : α → Prop) : Prop :=
  ∀ h : Heap F, n ≤ h.length →
    (n ≤ (m.run h).2.length ∧ ∀ r < n, r ∉ W → (m.run h).2[r]? = h[r]?) ∧ ∀ a, (m.run h).1 = .ok a → P a

/-- `m` leaves the cells below `n` outside `W` and the attributes of the object alone, and records gains in cells from
`n` on. -/
def ETame {α : Type} (n : ℕ) (W : Set ℕ) (m : EM F α) (P : α → Prop) : Prop :=
  ∀ st : EState F, n ≤ st.heap.length → Quiet W st.self →
    (n ≤ (m.run st).2.heap.length ∧ ∀ r < n, r ∉ W → (m.run st).2.heap[r]? = st.heap[r]?) ∧
    (∃ gs, (m.run st).2.self = { st.self with kalmanGains := st.self.kalmanGains ++ gs } ∧ ∀ v ∈ gs, n ≤ v.cell) ∧
    ∀ a, (m.run st).1 = .ok a → P a

open HFilter (run_bind)

namespace HTame

variable {α β : Type} {n : ℕ} {W : Set ℕ} {P : α → Prop} {P' : β → Prop}

theorem bind {m : HeapM F α} {f : α → HeapM F β} (x : HTame n W m P) (y : ∀ a, P a → HTame n W (f a) P') :
    HTame n W (m >>= f) P' := by
  intro h hn
  obtain ⟨⟨x1, x2⟩, x3⟩ := x h hn
  rw [run_bind]
  rcases hm : m.run h with ⟨e | a, h'⟩ <;> rw [hm] at x1 x2 x3
  · exact ⟨⟨x1, x2⟩, by simp⟩
  · obtain ⟨⟨y1, y2⟩, y3⟩ := y a (x3 a rfl) h' x1
    exact ⟨⟨y1, fun r hr hW => (y2 r hr hW).trans (x2 r hr hW)⟩, y3⟩

theorem same {m : HeapM F α} (hs : ∀ h, (m.run h).2 = h) (hP : ∀ h a, (m.run h).1 = .ok a → P a) : HTame n W m P :=
  fun h hn => by
    rw [hs h]
    exact ⟨⟨hn, fun _ _ _ => rfl⟩, hP h⟩

theorem lift (y : Except PyErr α) (hP : ∀ a, y = .ok a → P a) : HTame n W (Py.lift y : HeapM F α) P :=
  same (fun _ => rfl) fun _ a h => hP a h

theorem get (v : View) : HTame n W (HeapM.get v : HeapM F (Arr F)) fun _ => True :=
  same (fun h => by simp only [HeapM.get]; rcases h.deref v with _ | a <;> rfl) fun _ _ _ => trivial

theorem getSeq (v : ℕ) : HTame n W (HeapM.getSeq v : HeapM F (NDArray F)) fun _ => True :=
  same (fun h => by simp only [HeapM.getSeq]; rcases h.seqAt v with _ | a <;> rfl) fun _ _ _ => trivial

theorem new (a : Arr F) : HTame n W (HeapM.new a) fun v => n ≤ v.cell := by
  intro h hn
  refine ⟨⟨by simp [HeapM.new]; omega, fun r hr _ => ?_⟩, ?_⟩
  · show (h ++ [_])[r]? = _
    rw [List.getElem?_append_left (by omega)]
  · rintro v hv
    simp only [HeapM.new, Except.ok.injEq] at hv
    subst hv
    exact hn

theorem newSeq (a : NDArray F) : HTame n W (HeapM.newSeq a) fun r => n ≤ r := by
  intro h hn
  refine ⟨⟨by simp [HeapM.newSeq]; omega, fun r hr _ => ?_⟩, ?_⟩
  · show (h ++ [_])[r]? = _
    rw [List.getElem?_append_left (by omega)]
  · rintro v hv
    simp only [HeapM.newSeq, Except.ok.injEq] at hv
    subst hv
    exact hn

theorem op (f : Arr F → Arr F → Except PyErr (Arr F)) (v w : View) : HTame n W (HeapM.op f v w) fun v => n ≤ v.cell :=
  (get v).bind fun _ _ => (get w).bind fun _ _ => (lift (P := fun _ => True) _ fun _ _ => trivial).bind fun _ _ => new _

theorem setRow (assign : Arr F → Except PyErr (Arr F)) {r : ℕ} (hr : n ≤ r) (k : ℕ) (v : View) :
    HTame n W (HeapM.setRow assign r k v) fun _ => True := by
  refine (get v).bind fun _ _ => (lift (P := fun _ => True) _ fun _ _ => trivial).bind fun row _ h hn => ?_
  dsimp only
  rcases hs : h.seqAt r with _ | (⟨d, c⟩ | l)
  · exact ⟨⟨hn, fun _ _ _ => rfl⟩, fun _ _ => trivial⟩
  · exact ⟨⟨hn, fun _ _ _ => rfl⟩, fun _ _ => trivial⟩
  · refine ⟨⟨by simpa using hn, fun q hq _ => ?_⟩, fun _ _ => trivial⟩
    exact List.getElem?_set_ne (by omega)

theorem rows (r : ℕ) : HTame n W (HeapM.rows r : HeapM F (List View)) fun _ => True :=
  (getSeq r).bind fun _ _ => (lift (P := fun _ => True) _ fun _ _ => trivial).bind fun _ _ => lift _ fun _ _ => trivial

theorem item (r k : ℕ) : HTame n W (HeapM.item r k : HeapM F View) fun _ => True :=
  (getSeq r).bind fun _ _ => (lift (P := fun _ => True) _ fun _ _ => trivial).bind fun _ _ => lift _ fun _ _ => trivial

theorem weaken {m : HeapM F α} {Q : α → Prop} (x : HTame n W m P) (h : ∀ a, P a → Q a) : HTame n W m Q :=
  fun st hn => ⟨(x st hn).1, fun a ha => h a ((x st hn).2 a ha)⟩

theorem call {m : HeapM F α} (x : ∀ h, WritesOnly W h (m.run h).2) : HTame n W m fun _ => True :=
  fun h hn => ⟨⟨hn.trans (x h).grows, fun r hr hW => (x h).same r (hr.trans_le hn) hW⟩, fun _ _ => trivial⟩

theorem check (U : Option ℕ) (Z : ℕ) : HTame n W (HeapM.checkNoneAndBroadcast (F := F) U Z) fun _ => True := by
  unfold HeapM.checkNoneAndBroadcast
  rcases U with _ | r
  · exact (getSeq Z).bind fun _ _ => (newSeq _).weaken fun _ _ => trivial
  · exact lift _ fun _ _ => trivial

end HTame

namespace ETame

variable {α β : Type} {n : ℕ} {W : Set ℕ} {P : α → Prop} {P' : β → Prop}

theorem bind {m : EM F α} {f : α → EM F β} (x : ETame n W m P) (y : ∀ a, P a → ETame n W (f a) P') :
    ETame n W (m >>= f) P' := by
  intro st hn hq
  obtain ⟨⟨x1, x2⟩, ⟨gs, x3, x4⟩, x5⟩ := x st hn hq
  rw [run_bind]
  rcases hm : m.run st with ⟨e' | a, st'⟩ <;> rw [hm] at x1 x2 x3 x5 <;> dsimp only at x1 x2 x3 x5
  · exact ⟨⟨x1, x2⟩, ⟨gs, x3, x4⟩, by simp⟩
  · have hq' : Quiet W st'.self := by
      rw [x3]
      exact ⟨hq.f, hq.jacobianA, hq.h, hq.jacobianH⟩
    obtain ⟨⟨y1, y2⟩, ⟨gs', y3, y4⟩, y5⟩ := y a (x5 a rfl) st' x1 hq'
    refine ⟨⟨y1, fun r hr hW => (y2 r hr hW).trans (x2 r hr hW)⟩, ⟨gs ++ gs', ?_, ?_⟩, y5⟩
    · rw [y3, x3]; simp
    · intro v hv
      rcases List.mem_append.mp hv with h | h
      · exact x4 v h
      · exact y4 v h

theorem heap {m : HeapM F α} (x : HTame n W m P) : ETame n W (EM.onHeap m) P :=
  fun st hn _ => ⟨(x st.heap hn).1, ⟨[], by simp [EM.onHeap], by simp⟩, (x st.heap hn).2⟩

theorem lift (y : Except PyErr α) (hP : ∀ a, y = .ok a → P a) : ETame n W (Py.lift y : EM F α) P :=
  fun st hn _ => ⟨⟨hn, fun _ _ _ => rfl⟩, ⟨[], by simp [Py.lift], by simp⟩, fun a h => hP a h⟩

theorem self : ETame n W (EM.self : EM F (HEkf F)) fun o => Quiet W o := by
  intro st hn hq
  refine ⟨⟨hn, fun _ _ _ => rfl⟩, ⟨[], by simp [EM.self], by simp⟩, fun a h => ?_⟩
  simp only [EM.self, Except.ok.injEq] at h
  subst h
  exact hq

end ETame

namespace HEkf

variable {n : ℕ} {W : Set ℕ} {o : HEkf F}

open HTame

theorem htame_predict (hq : Quiet W o) (vx : View) (vu : Option View) (vP vQ : View) :
    HTame n W (predict o vx vu vP vQ) fun p => n ≤ p.2.cell := by
  unfold predict
  refine (HTame.call fun h => hq.jacobianA _ _ h).bind fun _ _ => (HTame.call fun h => hq.f _ _ h).bind fun _ _ =>
    (op _ _ _).bind fun _ _ => (op _ _ _).bind fun _ _ => (op _ _ _).bind fun P hP => HTame.lift _ ?_
  rintro a h
  simp only [Except.ok.injEq] at h
  subst h
  exact hP

theorem htame_gain (vH vP vR : View) : HTame n W (gain (F := F) vH vP vR) fun v => n ≤ v.cell := by
  unfold gain
  refine (op _ _ _).bind fun _ _ => (op _ _ _).bind fun _ _ => (op _ _ _).bind fun _ _ => (op _ _ _).bind fun _ _ =>
    (op _ _ _).bind fun X hX => HTame.lift _ ?_
  rintro a h
  simp only [Except.ok.injEq] at h
  subst h
  exact hX

theorem htame_correct (hq : Quiet W o) (vK vH vx vP vz : View) :
    HTame n W (correct o vK vH vx vP vz) fun p => n ≤ p.1.cell ∧ n ≤ p.2.cell := by
  unfold correct
  refine (HTame.call fun h => hq.h _ h).bind fun _ _ => (op _ _ _).bind fun _ _ => (op _ _ _).bind fun _ _ =>
    (op _ _ _).bind fun x hx => (op _ _ _).bind fun _ _ => (op _ _ _).bind fun _ _ => (op _ _ _).bind fun P hP =>
    HTame.lift _ ?_
  rintro a h
  simp only [Except.ok.injEq] at h
  subst h
  exact ⟨hx, hP⟩

theorem etame_update (vx vP vz vR : View) :
    ETame n W (update (F := F) vx vP vz vR) fun p => n ≤ p.1.cell ∧ n ≤ p.2.cell := by
  unfold update
  refine ETame.self.bind fun o hq => (ETame.heap (HTame.call fun h => hq.jacobianH _ h)).bind fun vH _ =>
    (ETame.heap (htame_gain _ _ _)).bind fun K hK => ETame.bind (P := fun _ => True) ?_ fun _ _ =>
    ETame.heap (htame_correct hq _ _ _ _ _)
  intro st hn _
  exact ⟨⟨hn, fun _ _ _ => rfl⟩, ⟨[K], rfl, by simpa using hK⟩, fun _ _ => trivial⟩

theorem etame_filterLoop {s e : ℕ} (hs : n ≤ s) (he : n ≤ e) (k : ℕ) (rows : List (View × View × View × View))
    (x P : View) : ETame n W (filterLoop (F := F) s e k rows x P) fun _ => True := by
  induction rows generalizing k x P with
  | nil => exact ETame.lift _ fun _ _ => trivial
  | cons a rest ih =>
    obtain ⟨u, z, Q, R⟩ := a
    unfold filterLoop
    exact ETame.self.bind fun o hq => (ETame.heap (htame_predict hq _ _ _ _)).bind fun _ _ =>
      (etame_update _ _ _ _).bind fun _ _ => (ETame.heap (setRow _ hs _ _)).bind fun _ _ =>
      (ETame.heap (setRow _ he _ _)).bind fun _ _ => ih _ _ _

theorem etame_filter (Z : ℕ) (U : Option ℕ) : ETame n W (filter (F := F) Z U) fun p => n ≤ p.1 ∧ n ≤ p.2 := by
  unfold filter
  refine ETame.self.bind fun o _ => (ETame.heap (getSeq _)).bind fun z _ =>
    (ETame.lift (P := fun _ => True) _ fun _ _ => trivial).bind
    fun l _ => (ETame.heap (newSeq _)).bind fun s hs => (ETame.heap (newSeq _)).bind fun e he =>
    (ETame.heap (HTame.check _ _)).bind fun U _ =>
    (ETame.heap (HTame.rows _)).bind fun _ _ => (ETame.heap (HTame.rows _)).bind fun _ _ =>
    (ETame.heap (HTame.rows _)).bind fun _ _ => (ETame.heap (HTame.rows _)).bind fun _ _ =>
    (etame_filterLoop hs he _ _ _ _).bind fun _ _ => ETame.lift _ ?_
  rintro a h
  simp only [Except.ok.injEq] at h
  subst h
  exact ⟨hs, he⟩

theorem htame_smoothStep (hq : Quiet W o) (vx vP vQ vu vxn vPn : View) :
    HTame n W (smoothStep o vx vP vQ vu vxn vPn) fun _ => True := by
  unfold smoothStep
  exact (htame_predict hq _ _ _ _).bind fun _ _ => (HTame.call fun h => hq.jacobianA _ _ h).bind fun _ _ =>
    (op _ _ _).bind fun _ _ => (op _ _ _).bind fun _ _ =>
    (op _ _ _).bind fun _ _ => (op _ _ _).bind fun _ _ => (op _ _ _).bind fun _ _ => (op _ _ _).bind fun _ _ =>
    (op _ _ _).bind fun _ _ => (op _ _ _).bind fun _ _ => (op _ _ _).bind fun _ _ => HTame.lift _ fun _ _ => trivial

theorem htame_smoothLoop (hq : Quiet W o) {s e : ℕ} (hs : n ≤ s) (he : n ≤ e) (Q U xE PE : ℕ) (ks : List ℕ) :
    HTame n W (smoothLoop o Q U xE PE s e ks) fun _ => True := by
  induction ks with
  | nil => exact HTame.lift _ fun _ _ => trivial
  | cons k ks ih =>
    unfold smoothLoop
    exact (HTame.item _ _).bind fun _ _ => (HTame.item _ _).bind fun _ _ => (HTame.item _ _).bind fun _ _ =>
      (HTame.item _ _).bind fun _ _ => (HTame.item _ _).bind fun _ _ => (HTame.item _ _).bind fun _ _ =>
      (htame_smoothStep hq _ _ _ _ _ _).bind fun _ _ =>
      (setRow _ hs _ _).bind fun _ _ => (setRow _ he _ _).bind fun _ _ => ih

theorem htame_smoothTail (hq : Quiet W o) (Z : ℕ) (U : Option ℕ) (xE PE : ℕ) :
    HTame n W (smoothTail o Z U xE PE) fun p => n ≤ p.1 ∧ n ≤ p.2 := by
  unfold smoothTail
  refine (getSeq _).bind fun z _ => (HTame.lift (P := fun _ => True) _ fun _ _ => trivial).bind
    fun l _ => (newSeq _).bind fun s hs => (newSeq _).bind fun e he => ?_
  have fin : HTame n W (Py.lift (.ok (s, e)) : HeapM F (ℕ × ℕ)) fun p => n ≤ p.1 ∧ n ≤ p.2 := HTame.lift _ (by
    rintro a h
    simp only [Except.ok.injEq] at h
    subst h
    exact ⟨hs, he⟩)
  dsimp only
  rcases Nat.eq_zero_or_pos l with rfl | hl
  · simp only [if_true]
    exact (HTame.lift (P := fun _ => True) _ fun _ _ => trivial).bind fun _ _ => (setRow _ hs _ _).bind fun _ _ =>
      (HTame.lift (P := fun _ => True) _ fun _ _ => trivial).bind fun _ _ => (setRow _ he _ _).bind fun _ _ =>
      (HTame.check _ _).bind fun _ _ => (htame_smoothLoop hq hs he _ _ _ _ _).bind fun _ _ => fin
  · simp only [Nat.pos_iff_ne_zero.mp hl, if_false]
    exact (HTame.item _ _).bind fun _ _ => (setRow _ hs _ _).bind fun _ _ =>
      (HTame.item _ _).bind fun _ _ => (setRow _ he _ _).bind fun _ _ =>
      (HTame.check _ _).bind fun _ _ => (htame_smoothLoop hq hs he _ _ _ _ _).bind fun _ _ => fin

theorem etame_smooth (Z : ℕ) (U : Option ℕ) : ETame n W (smooth (F := F) Z U) fun p => n ≤ p.1 ∧ n ≤ p.2 := by
  unfold smooth
  exact (etame_filter Z U).bind fun p _ => ETame.self.bind fun o hq => ETame.heap (htame_smoothTail hq _ _ _ _)

end HEkf

end KK
