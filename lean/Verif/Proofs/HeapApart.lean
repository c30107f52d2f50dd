import Verif.Proofs.HeapFrame

/-! # Every recorded gain of a run is in an array of its own -/

set_option linter.unusedSectionVars false

namespace KK

variable {F : Type} [Backend F]

/-- The memory only grows; the gains recorded are in new arrays, in the order of their allocation. -/
def Rising {α : Type} (m : HM F α) : Prop :=
  ∀ st : HState F, st.heap.length ≤ (m.run st).2.heap.length ∧
    ∃ gs, (m.run st).2.self.kalmanGains = st.self.kalmanGains ++ gs ∧ gs.Pairwise (fun v w => v.cell < w.cell) ∧
      ∀ v ∈ gs, st.heap.length ≤ v.cell ∧ v.cell < (m.run st).2.heap.length

/-- The memory only grows, no gain is recorded, and the result has `P`, given the sizes of the memory before and after. -/
def Still {α : Type} (m : HM F α) (P : ℕ → ℕ → α → Prop) : Prop :=
  ∀ st : HState F, st.heap.length ≤ (m.run st).2.heap.length ∧ (m.run st).2.self.kalmanGains = st.self.kalmanGains ∧
    ∀ a, (m.run st).1 = .ok a → P st.heap.length (m.run st).2.heap.length a

theorem run_andThen {σ α β : Type} (m : Py σ α) (f : α → Py σ β) (s : σ) : (m >>= f).run s =
    match m.run s with
    | (.ok a, s') => (f a).run s'
    | (.error e, s') => (.error e, s') := by
  show (Py.bind m f).run s = _
  rcases h : m.run s with ⟨e | a, s'⟩ <;> simp only [Py.bind, h]

/-- No requirement on the result. -/
abbrev any {α : Type} : ℕ → ℕ → α → Prop := fun _ _ _ => True

/-- A new array. -/
abbrev isNew : ℕ → ℕ → View → Prop := fun i j v => i ≤ v.cell ∧ v.cell < j

namespace Still

variable {α β : Type} {P : ℕ → ℕ → α → Prop} {P' : ℕ → ℕ → β → Prop}

theorem rising {m : HM F α} (x : Still m P) : Rising m := fun st =>
  ⟨(x st).1, [], by rw [(x st).2.1]; simp, .nil, by simp⟩

theorem bind' {m : HM F α} {f : α → HM F β} (x : Still m P) (y : ∀ a, Still (f a) P')
    (hP : ∀ i j k b, i ≤ j → P' j k b → P' i k b) : Still (m >>= f) P' := by
  intro st
  obtain ⟨x1, x2, -⟩ := x st
  rw [run_andThen]
  rcases hm : m.run st with ⟨e | a, st'⟩ <;> rw [hm] at x1 x2 <;> dsimp only at x1 x2 ⊢
  · exact ⟨x1, x2, by simp⟩
  · obtain ⟨y1, y2, y3⟩ := y a st'
    exact ⟨x1.trans y1, y2.trans x2, fun b hb => hP _ _ _ _ x1 (y3 b hb)⟩

theorem bind {m : HM F α} {f : α → HM F β} (x : Still m P) (y : ∀ a, Still (f a) any) : Still (m >>= f) any :=
  bind' x y fun _ _ _ _ _ h => h

theorem bindNew {m : HM F α} {f : α → HM F View} (x : Still m P) (y : ∀ a, Still (f a) isNew) : Still (m >>= f) isNew :=
  bind' x y fun _ _ _ _ h h' => ⟨h.trans h'.1, h'.2⟩

theorem same {m : HM F α} (h : ∀ st, (m.run st).2 = st) : Still m any := fun st => by
  rw [h st]; exact ⟨le_rfl, rfl, fun _ _ => trivial⟩

theorem lift (y : Except PyErr α) : Still (Py.lift y : HM F α) any := same fun _ => rfl

theorem get (v : View) : Still (HM.get v : HM F (Arr F)) any :=
  same fun st => by simp only [HM.get]; rcases st.heap.deref v with _ | a <;> rfl

theorem getSeq (v : ℕ) : Still (HM.getSeq v : HM F (NDArray F)) any :=
  same fun st => by simp only [HM.getSeq]; rcases st.heap.seqAt v with _ | a <;> rfl

theorem self : Still (HM.self : HM F HFilter) any := same fun _ => rfl

theorem new (a : Arr F) : Still (HM.new a) isNew := by
  intro st
  refine ⟨by simp [HM.new], rfl, ?_⟩
  rintro v h
  simp only [HM.new, Except.ok.injEq] at h
  subst h
  show st.heap.length ≤ st.heap.length ∧ st.heap.length < (st.heap ++ [_]).length
  simp

theorem newSeq (a : NDArray F) : Still (HM.newSeq a) any := fun st => ⟨by simp [HM.newSeq], rfl, fun _ _ => trivial⟩

theorem weaken {m : HM F α} (x : Still m P) : Still m any := fun st => ⟨(x st).1, (x st).2.1, fun _ _ => trivial⟩

theorem op (f : Arr F → Arr F → Except PyErr (Arr F)) (v w : View) : Still (HM.op f v w) isNew :=
  (get v).bindNew fun _ => (get w).bindNew fun _ => (lift _).bindNew fun _ => new _

theorem opAny (f : Arr F → Arr F → Except PyErr (Arr F)) (v w : View) : Still (HM.op f v w) any := (op f v w).weaken

theorem setRow (assign : Arr F → Except PyErr (Arr F)) (r k : ℕ) (v : View) : Still (HM.setRow assign r k v) any := by
  refine (get v).bind fun _ => (lift _).bind fun row st => ?_
  dsimp only
  rcases hs : st.heap.seqAt r with _ | (⟨d, c⟩ | l)
  · exact ⟨le_rfl, rfl, fun _ _ => trivial⟩
  · exact ⟨le_rfl, rfl, fun _ _ => trivial⟩
  · exact ⟨by simp, rfl, fun _ _ => trivial⟩

theorem rows (r : ℕ) : Still (HM.rows r : HM F (List View)) any :=
  (getSeq r).bind fun _ => (lift _).bind fun _ => lift _

theorem item (r k : ℕ) : Still (HM.item r k : HM F View) any :=
  (getSeq r).bind fun _ => (lift _).bind fun _ => lift _

end Still

theorem Rising.bind {α β : Type} {m : HM F α} {f : α → HM F β} (x : Rising m) (y : ∀ a, Rising (f a)) : Rising (m >>= f) := by
  intro st
  obtain ⟨x1, gs, x2, x3, x4⟩ := x st
  rw [run_andThen]
  rcases hm : m.run st with ⟨e | a, st'⟩ <;> rw [hm] at x1 x2 x4 <;> dsimp only at x1 x2 x4 ⊢
  · exact ⟨x1, gs, x2, x3, x4⟩
  · obtain ⟨y1, gs', y2, y3, y4⟩ := y a st'
    refine ⟨x1.trans y1, gs ++ gs', by rw [y2, x2, List.append_assoc], ?_, ?_⟩
    · rw [List.pairwise_append]
      exact ⟨x3, y3, fun v hv w hw => (x4 v hv).2.trans_le (y4 w hw).1⟩
    · intro v hv
      rcases List.mem_append.1 hv with h | h
      · exact ⟨(x4 v h).1, (x4 v h).2.trans_le y1⟩
      · exact ⟨x1.trans (y4 v h).1, (y4 v h).2⟩

namespace HFilter

open Still

theorem still_check (U : Option ℕ) (Z : ℕ) : Still (checkNoneAndBroadcast (F := F) U Z) any := by
  unfold checkNoneAndBroadcast
  rcases U with _ | r
  · exact (getSeq Z).bind fun _ => newSeq _
  · exact Still.lift _

theorem still_predict (vA vx vB vu vP vQ : View) : Still (predict (F := F) vA vx vB vu vP vQ) any := by
  unfold predict
  refine Still.bind (P := any) ?_ fun skip => Still.bind (P := any) ?_ fun x => ?_
  · unfold controlOff
    refine (get _).bind fun b => ?_
    split
    · exact Still.lift _
    · exact (get _).bind fun _ => Still.lift _
  · unfold priorMean
    split
    · exact opAny _ _ _
    · exact (op _ _ _).bind fun _ => (op _ _ _).bind fun _ => opAny _ _ _
  · exact (op _ _ _).bind fun _ => (op _ _ _).bind fun _ => (op _ _ _).bind fun P => Still.lift _

theorem still_gain (vH vP vR : View) : Still (gain (F := F) vH vP vR) isNew := by
  unfold gain
  refine (op _ _ _).bindNew fun _ => (op _ _ _).bindNew fun _ => (op _ _ _).bindNew fun vS => (op _ _ _).bindNew fun vX => ?_
  intro st
  obtain ⟨x1, x2, x3⟩ := op (F := F) Arr.solve (.trans vS) vX st
  rw [run_andThen]
  rcases hm : (HM.op (F := F) Arr.solve (.trans vS) vX).run st with ⟨e | a, st'⟩ <;> rw [hm] at x1 x2 x3 <;>
    dsimp only at x1 x2 x3 ⊢
  · exact ⟨x1, x2, by simp⟩
  · refine ⟨x1, x2, ?_⟩
    rintro b h
    simp only [Py.lift, Except.ok.injEq] at h
    subst h
    exact x3 a rfl

theorem still_correct (vI vK vH vx vP vz : View) : Still (correct (F := F) vI vK vH vx vP vz) any := by
  unfold correct
  exact (op _ _ _).bind fun _ => (op _ _ _).bind fun _ => (op _ _ _).bind fun _ => (op _ _ _).bind fun x =>
    (op _ _ _).bind fun _ => (op _ _ _).bind fun _ => (op _ _ _).bind fun P => Still.lift _

theorem rising_update (vH vx vP vz vR : View) : Rising (update (F := F) vH vx vP vz vR) := by
  unfold update
  intro st
  obtain ⟨x1, x2, x3⟩ := still_gain (F := F) vH vP vR st
  rw [run_andThen]
  rcases hm : (gain (F := F) vH vP vR).run st with ⟨e | K, st'⟩ <;> rw [hm] at x1 x2 x3 <;> dsimp only at x1 x2 x3 ⊢
  · exact ⟨x1, [], by simp [x2], .nil, by simp⟩
  · rw [run_andThen]
    dsimp only [Py.mutate]
    rw [run_andThen]
    dsimp only [HM.self]
    have hK := x3 K rfl
    generalize hst : (⟨st'.heap, { st'.self with kalmanGains := st'.self.kalmanGains ++ [K] }⟩ : HState F) = st2
    obtain ⟨y1, y2, -⟩ := still_correct (F := F) st'.self.I K vH vx vP vz st2
    have e1 : st2.heap = st'.heap := by rw [← hst]
    have e2 : st2.self.kalmanGains = st'.self.kalmanGains ++ [K] := by rw [← hst]
    rw [e1] at y1
    rw [e2] at y2
    exact ⟨x1.trans y1, [K], by rw [y2, x2], by simp, by
      intro v hv
      obtain rfl : v = K := by simpa using hv
      exact ⟨hK.1, hK.2.trans_le y1⟩⟩

theorem rising_filterLoop (s e d k : ℕ) (rows : List (View × View × View × View × View × View × View)) (x P : View) :
    Rising (filterLoop (F := F) s e d k rows x P) := by
  induction rows generalizing k x P with
  | nil => exact (Still.lift _).rising
  | cons a rest ih =>
    obtain ⟨A, H, B, u, z, Q, R⟩ := a
    unfold filterLoop
    exact (still_predict _ _ _ _ _ _).rising.bind fun _ => (rising_update _ _ _ _ _).bind fun _ =>
      (setRow _ _ _ _).rising.bind fun _ => (setRow _ _ _ _).rising.bind fun _ => ih _ _ _

theorem rising_filter (Z : ℕ) (U : Option ℕ) : Rising (filter (F := F) Z U) := by
  unfold filter
  exact self.rising.bind fun o => (getSeq _).rising.bind fun z => (Still.lift _).rising.bind
    fun l => (newSeq _).rising.bind fun s => (newSeq _).rising.bind fun e => (still_check _ _).rising.bind fun U =>
    (Still.rows _).rising.bind fun _ => (Still.rows _).rising.bind fun _ => (Still.rows _).rising.bind fun _ =>
    (Still.rows _).rising.bind fun _ => (Still.rows _).rising.bind fun _ => (Still.rows _).rising.bind fun _ =>
    (Still.rows _).rising.bind fun _ => (rising_filterLoop _ _ _ _ _ _ _).bind fun _ => (Still.lift _).rising

theorem still_smoothStep (vx vP vA vQ vB vu vxn vPn : View) :
    Still (smoothStep (F := F) vx vP vA vQ vB vu vxn vPn) any := by
  unfold smoothStep
  exact (still_predict _ _ _ _ _ _).bind fun _ => (op _ _ _).bind fun _ => (op _ _ _).bind fun _ =>
    (op _ _ _).bind fun _ => (op _ _ _).bind fun _ => (op _ _ _).bind fun _ => (op _ _ _).bind fun _ =>
    (op _ _ _).bind fun _ => (op _ _ _).bind fun _ => (op _ _ _).bind fun _ => Still.lift _

theorem still_smoothLoop (s e A Q B U d xE PE : ℕ) (ks : List ℕ) :
    Still (smoothLoop (F := F) A Q B U d xE PE s e ks) any := by
  induction ks with
  | nil => exact Still.lift _
  | cons k ks ih =>
    unfold smoothLoop
    exact (Still.item _ _).bind fun _ => (Still.item _ _).bind fun _ => (Still.item _ _).bind fun _ =>
      (Still.item _ _).bind fun _ => (Still.item _ _).bind fun _ => (Still.item _ _).bind fun _ =>
      (Still.item _ _).bind fun _ => (Still.item _ _).bind fun _ => (still_smoothStep _ _ _ _ _ _ _ _).bind fun _ =>
      (setRow _ _ _ _).bind fun _ => (setRow _ _ _ _).bind fun _ => ih

theorem rising_smooth (Z : ℕ) (U : Option ℕ) : Rising (smooth (F := F) Z U) := by
  unfold smooth
  refine (rising_filter Z U).bind fun p => self.rising.bind fun o => (getSeq _).rising.bind fun z =>
    (Still.lift _).rising.bind fun l => (newSeq _).rising.bind fun s => (newSeq _).rising.bind fun e => ?_
  have last := fun (A Q B U' d xE PE : ℕ) (ks : List ℕ) => (still_smoothLoop (F := F) s e A Q B U' d xE PE ks).bind
    fun _ => Still.lift (.ok (s, e))
  dsimp only
  rcases Nat.eq_zero_or_pos l with rfl | hl
  · simp only [if_true]
    exact ((Still.lift _).bind fun _ => (setRow _ _ _ _).bind fun _ => (Still.lift _).bind fun _ => (setRow _ _ _ _).bind fun _ =>
      (still_check _ _).bind fun _ => last _ _ _ _ _ _ _ _).rising
  · simp only [Nat.pos_iff_ne_zero.mp hl, if_false]
    exact ((Still.item _ _).bind fun _ => (setRow _ _ _ _).bind fun _ => (Still.item _ _).bind fun _ =>
      (setRow _ _ _ _).bind fun _ => (still_check _ _).bind fun _ => last _ _ _ _ _ _ _ _).rising

end HFilter

end KK
