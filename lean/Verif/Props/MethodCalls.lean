import Verif.Proofs.MethodCalls
import Verif.Props.Calls
import Verif.Props.Subclass

/-!
# C152: which methods `filter` and `smooth` call
-/

set_option linter.unusedSectionVars false
set_option linter.unusedSimpArgs false

namespace KK

variable {σ F : Type} [Backend F]

/-! ## Writing the calls down changes nothing -/

/-- The same instance but for the list of calls. -/
def SameButLog {O C : Type} (s : Instance (List C × σ) O) (t : Instance σ O) : Prop := s.base = t.base ∧ s.own.2 = t.own

theorem Instance.logged_matched {O C α : Type} (call : Except PyErr α → C) (p : Py (Instance σ O) α) :
    Matched SameButLog (Instance.logged call p) p := by
  rintro ⟨b, l, o⟩ ⟨b', o'⟩ ⟨h1, h2⟩
  simp only at h1 h2
  subst h1 h2
  exact ⟨rfl, rfl, rfl⟩

theorem Matched.readAttrs {O C α : Type} {f : O → Py (Instance (List C × σ) O) α} {g : O → Py (Instance σ O) α}
    (h : ∀ o, Matched SameButLog (f o) (g o)) : Matched SameButLog (Instance.attrs >>= f) (Instance.attrs >>= g) := by
  intro s t hst
  rw [Py.run_bind, Py.run_bind]
  simp only [Instance.attrs, hst.1]
  exact h t.base s t hst

namespace Methods

theorem logged_filterLoop (M : Methods σ F) (n k : ℕ) (rows : List (KalmanFilter.Row F)) (x P : Arr F) (states errors : List (Arr F)) :
    Matched SameButLog (M.logged.filterLoop n k rows x P states errors) (M.filterLoop n k rows x P states errors) := by
  induction rows generalizing k x P states errors with
  | nil => exact Matched.pure _
  | cons r rows ih =>
    obtain ⟨Ak, Hk, Bk, uk, zk, Qk, Rk⟩ := r
    exact (Instance.logged_matched _ _).bind fun _ => (Instance.logged_matched _ _).bind fun _ =>
      (Matched.lift _).bind fun _ => (Matched.lift _).bind fun _ => ih _ _ _ _ _

theorem logged_filter (M : Methods σ F) (Z : NDArray F) (U : Option (NDArray F)) : Matched SameButLog (M.logged.filter Z U) (M.filter Z U) :=
  Matched.readAttrs fun _ => (Matched.lift _).bind fun _ => (Matched.lift _).bind fun _ => M.logged_filterLoop _ _ _ _ _ _ _

theorem logged_smoothLoop (M : Methods σ F) (n : ℕ) (A Q B U : NDArray F) (xEst PEst : List (Arr F)) (ks : List ℕ) (xs Ps : List (Arr F)) :
    Matched SameButLog (M.logged.smoothLoop n A Q B U xEst PEst ks xs Ps) (M.smoothLoop n A Q B U xEst PEst ks xs Ps) := by
  induction ks generalizing xs Ps with
  | nil => exact Matched.pure _
  | cons k ks ih =>
    exact (Matched.lift _).bind fun ⟨⟨_, _, _, _⟩, _, _, _, _⟩ => (Instance.logged_matched _ _).bind fun _ =>
      (Matched.lift _).bind fun _ => (Matched.lift _).bind fun _ => (Matched.lift _).bind fun _ => ih _ _

theorem logged_smooth (M : Methods σ F) (Z : NDArray F) (U : Option (NDArray F)) : Matched SameButLog (M.logged.smooth Z U) (M.smooth Z U) :=
  (M.logged_filter Z U).bind fun _ => Matched.readAttrs fun _ => (Matched.lift _).bind fun _ => (Matched.lift _).bind fun _ =>
    (Matched.lift _).bind fun _ => (Matched.lift _).bind fun _ => (Matched.lift _).bind fun _ => M.logged_smoothLoop _ _ _ _ _ _ _ _ _ _

end Methods

namespace ExtMethods

theorem logged_filterLoop (M : ExtMethods σ F) (n k : ℕ) (rows : List (ExtendedKalmanFilter.Row F)) (x P : Arr F) (states errors : List (Arr F)) :
    Matched SameButLog (M.logged.filterLoop n k rows x P states errors) (M.filterLoop n k rows x P states errors) := by
  induction rows generalizing k x P states errors with
  | nil => exact Matched.pure _
  | cons r rows ih =>
    obtain ⟨uk, zk, Qk, Rk⟩ := r
    exact (Instance.logged_matched _ _).bind fun _ => (Instance.logged_matched _ _).bind fun _ =>
      (Matched.lift _).bind fun _ => (Matched.lift _).bind fun _ => ih _ _ _ _ _

theorem logged_filter (M : ExtMethods σ F) (Z : NDArray F) (U : Option (NDArray F)) : Matched SameButLog (M.logged.filter Z U) (M.filter Z U) :=
  Matched.readAttrs fun _ => (Matched.lift _).bind fun _ => (Matched.lift _).bind fun _ => M.logged_filterLoop _ _ _ _ _ _ _

theorem logged_smoothLoop (M : ExtMethods σ F) (n : ℕ) (Q U : NDArray F) (xEst PEst : List (Arr F)) (ks : List ℕ) (xs Ps : List (Arr F)) :
    Matched SameButLog (M.logged.smoothLoop n Q U xEst PEst ks xs Ps) (M.smoothLoop n Q U xEst PEst ks xs Ps) := by
  induction ks generalizing xs Ps with
  | nil => exact Matched.pure _
  | cons k ks ih =>
    exact (Matched.lift _).bind fun ⟨_, _, _, _, _, _⟩ => (Instance.logged_matched _ _).bind fun _ => Matched.readAttrs fun _ =>
      (Matched.lift _).bind fun _ => (Matched.lift _).bind fun _ => (Matched.lift _).bind fun _ => (Matched.lift _).bind fun _ => ih _ _

theorem logged_smooth (M : ExtMethods σ F) (Z : NDArray F) (U : Option (NDArray F)) : Matched SameButLog (M.logged.smooth Z U) (M.smooth Z U) :=
  (M.logged_filter Z U).bind fun _ => Matched.readAttrs fun _ => (Matched.lift _).bind fun _ => (Matched.lift _).bind fun _ =>
    (Matched.lift _).bind fun _ => (Matched.lift _).bind fun _ => (Matched.lift _).bind fun _ => M.logged_smoothLoop _ _ _ _ _ _ _ _

end ExtMethods

theorem SameButLog.outcome {O C α : Type} {p : Py (Instance (List C × σ) O) α} {q : Py (Instance σ O) α} (h : Matched SameButLog p q) (b : O)
    (log : List C) (o : σ) : ∃ log', p.run ⟨b, (log, o)⟩ = ((q.run ⟨b, o⟩).1, ⟨(q.run ⟨b, o⟩).2.base, (log', (q.run ⟨b, o⟩).2.own)⟩) := by
  obtain ⟨h1, h2, h3⟩ := h ⟨b, (log, o)⟩ ⟨b, o⟩ ⟨rfl, rfl⟩
  exact ⟨(p.run ⟨b, (log, o)⟩).2.own.1, by rw [← h1, ← h2, ← h3]⟩

/-- C152 (writing the calls down changes nothing): `filter` and `smooth` return or raise the same and leave the same attributes. -/
theorem C152_logging_is_invisible (M : Methods σ F) (kf : KalmanFilter F) (log : List (MethodCall F)) (o : σ) (Z : NDArray F) (U : Option (NDArray F)) :
    (∃ log', (M.logged.filter Z U).run ⟨kf, (log, o)⟩ = (((M.filter Z U).run ⟨kf, o⟩).1,
      ⟨((M.filter Z U).run ⟨kf, o⟩).2.base, (log', ((M.filter Z U).run ⟨kf, o⟩).2.own)⟩)) ∧
    (∃ log', (M.logged.smooth Z U).run ⟨kf, (log, o)⟩ = (((M.smooth Z U).run ⟨kf, o⟩).1,
      ⟨((M.smooth Z U).run ⟨kf, o⟩).2.base, (log', ((M.smooth Z U).run ⟨kf, o⟩).2.own)⟩)) :=
  ⟨SameButLog.outcome (M.logged_filter Z U) kf log o, SameButLog.outcome (M.logged_smooth Z U) kf log o⟩

/-- C152, extended class (writing the calls down changes nothing). -/
theorem C152_ext_logging_is_invisible (M : ExtMethods σ F) (kf : ExtendedKalmanFilter F) (log : List (ExtMethodCall F)) (o : σ) (Z : NDArray F)
    (U : Option (NDArray F)) :
    (∃ log', (M.logged.filter Z U).run ⟨kf, (log, o)⟩ = (((M.filter Z U).run ⟨kf, o⟩).1,
      ⟨((M.filter Z U).run ⟨kf, o⟩).2.base, (log', ((M.filter Z U).run ⟨kf, o⟩).2.own)⟩)) ∧
    (∃ log', (M.logged.smooth Z U).run ⟨kf, (log, o)⟩ = (((M.smooth Z U).run ⟨kf, o⟩).1,
      ⟨((M.smooth Z U).run ⟨kf, o⟩).2.base, (log', ((M.smooth Z U).run ⟨kf, o⟩).2.own)⟩)) :=
  ⟨SameButLog.outcome (M.logged_filter Z U) kf log o, SameButLog.outcome (M.logged_smooth Z U) kf log o⟩

/-! ## `filter` -/

theorem Methods.filter_unfold (M : Methods σ F) (Z : NDArray F) (U : Option (NDArray F)) (s : Instance σ (KalmanFilter F)) :
    (∃ e, (M.filter Z U).run s = (.error e, s)) ∨
    s.base.AllIterable Z U ∧ (M.filter Z U).run s = (M.filterLoop s.base.stateSize 0 (s.base.zrows Z U) s.base.xk s.base.Pk
        (List.replicate Z.rows.length (Arr.zerosVec s.base.stateSize)) (List.replicate Z.rows.length (Arr.zerosMat s.base.stateSize))).run s := by
  simp only [Methods.filter, Py.run_bind, Instance.attrs, Py.run_lift]
  rcases h1 : Z.len with e | len
  · exact Or.inl ⟨e, rfl⟩
  have hlen : len = Z.rows.length := by
    cases Z with
    | d0 => simp [NDArray.len] at h1
    | stack z => simp only [NDArray.len, Except.ok.injEq] at h1; exact h1.symm
  subst hlen
  rcases h2 : KalmanFilter.zipRows s.base.A s.base.H s.base.B (checkNoneAndBroadcast U Z) Z s.base.Q s.base.R with e | rows
  · exact Or.inl ⟨e, by simp only [h2]⟩
  · obtain ⟨hA, hH, hB, hU, hZ, hQ, hR⟩ := KalmanFilter.zipRows_ok h2
    refine Or.inr ⟨⟨hA, hH, hB, hU, hZ, hQ, hR⟩, ?_⟩
    obtain ⟨a, ha⟩ := hA.exists
    obtain ⟨hh, hhh⟩ := hH.exists
    obtain ⟨b, hb⟩ := hB.exists
    obtain ⟨u, hu⟩ := hU.exists
    obtain ⟨z, hz⟩ := hZ.exists
    obtain ⟨q, hq⟩ := hQ.exists
    obtain ⟨r, hr'⟩ := hR.exists
    have e2 : rows = s.base.zrows Z U := by
      have h3 := h2
      rw [ha, hhh, hb, hu, hz, hq, hr', KalmanFilter.zipRows_stack] at h3
      simp only [Except.ok.injEq] at h3
      have hu' : (effU U Z).rows = u := by
        have : effU U Z = checkNoneAndBroadcast U Z := rfl
        rw [this, hu]; rfl
      rw [← h3, KalmanFilter.zrows, hu', ha, hhh, hb, hz, hq, hr']
      rfl
    simp only [h2, e2]

theorem ExtMethods.filter_unfold (M : ExtMethods σ F) (Z : NDArray F) (U : Option (NDArray F)) (s : Instance σ (ExtendedKalmanFilter F)) :
    (∃ e, (M.filter Z U).run s = (.error e, s)) ∨
    s.base.AllIterable Z U ∧ (M.filter Z U).run s = (M.filterLoop s.base.stateSize 0 (s.base.zrows Z U) s.base.xk s.base.Pk
        (List.replicate Z.rows.length (Arr.zerosVec s.base.stateSize)) (List.replicate Z.rows.length (Arr.zerosMat s.base.stateSize))).run s := by
  simp only [ExtMethods.filter, Py.run_bind, Instance.attrs, Py.run_lift]
  rcases h1 : Z.len with e | len
  · exact Or.inl ⟨e, rfl⟩
  have hlen : len = Z.rows.length := by
    cases Z with
    | d0 => simp [NDArray.len] at h1
    | stack z => simp only [NDArray.len, Except.ok.injEq] at h1; exact h1.symm
  subst hlen
  rcases h2 : ExtendedKalmanFilter.zipRows (checkNoneAndBroadcast U Z) Z s.base.Q s.base.R with e | rows
  · exact Or.inl ⟨e, by simp only [h2]⟩
  · obtain ⟨hU, hZ, hQ, hR⟩ := ExtendedKalmanFilter.zipRows_ok h2
    refine Or.inr ⟨⟨hU, hZ, hQ, hR⟩, ?_⟩
    obtain ⟨u, hu⟩ := hU.exists
    obtain ⟨z, hz⟩ := hZ.exists
    obtain ⟨q, hq⟩ := hQ.exists
    obtain ⟨r, hr'⟩ := hR.exists
    have e2 : rows = s.base.zrows Z U := by
      have h3 := h2
      rw [hu, hz, hq, hr', ExtendedKalmanFilter.zipRows_stack] at h3
      simp only [Except.ok.injEq] at h3
      have hu' : (effU U Z).rows = u := by
        have : effU U Z = checkNoneAndBroadcast U Z := rfl
        rw [this, hu]; rfl
      rw [← h3, ExtendedKalmanFilter.zrows, hu', hz, hq, hr']
      rfl
    simp only [h2, e2]

theorem Methods.call_predict (kf : KalmanFilter F) (Z : NDArray F) (U : Option (NDArray F)) (k : ℕ) (est : Arr F × Arr F)
    (out : Except PyErr (Arr F × Arr F)) (c : MethodCall F)
    (h : CallAt (kf.zrows Z U) (fun r est => .predict r.1 est.1 (some r.2.2.1) (some r.2.2.2.1) est.2 r.2.2.2.2.2.1) k est out c) :
    kf.PredictCall Z U k est out c := by
  obtain ⟨⟨A, H, B, u, z, Q, R⟩, h1, h2⟩ := h
  simp only [KalmanFilter.zrows, List.getElem?_zip_eq_some] at h1
  obtain ⟨a1, a2, a3, a4, a5, a6, a7⟩ := h1
  exact ⟨A, B, u, Q, a1, a3, a4, a6, h2⟩

theorem Methods.call_update (kf : KalmanFilter F) (Z : NDArray F) (U : Option (NDArray F)) (k : ℕ) (est : Arr F × Arr F)
    (out : Except PyErr (Arr F × Arr F)) (c : MethodCall F)
    (h : CallAt (kf.zrows Z U) (fun r est => .update r.2.1 est.1 est.2 r.2.2.2.2.1 r.2.2.2.2.2.2) k est out c) :
    kf.UpdateCall Z k est out c := by
  obtain ⟨⟨A, H, B, u, z, Q, R⟩, h1, h2⟩ := h
  simp only [KalmanFilter.zrows, List.getElem?_zip_eq_some] at h1
  obtain ⟨a1, a2, a3, a4, a5, a6, a7⟩ := h1
  exact ⟨H, z, R, a2, a5, a7, h2⟩

theorem ExtMethods.call_predict (kf : ExtendedKalmanFilter F) (Z : NDArray F) (U : Option (NDArray F)) (k : ℕ) (est : Arr F × Arr F)
    (out : Except PyErr (Arr F × Arr F)) (c : ExtMethodCall F)
    (h : CallAt (kf.zrows Z U) (fun r est => .predict est.1 (some r.1) est.2 r.2.2.1) k est out c) :
    kf.PredictCall Z U k est out c := by
  obtain ⟨⟨u, z, Q, R⟩, h1, h2⟩ := h
  simp only [ExtendedKalmanFilter.zrows, List.getElem?_zip_eq_some] at h1
  obtain ⟨a4, a5, a6, a7⟩ := h1
  exact ⟨u, Q, a4, a6, h2⟩

theorem ExtMethods.call_update (kf : ExtendedKalmanFilter F) (Z : NDArray F) (U : Option (NDArray F)) (k : ℕ) (est : Arr F × Arr F)
    (out : Except PyErr (Arr F × Arr F)) (c : ExtMethodCall F)
    (h : CallAt (kf.zrows Z U) (fun r est => .update est.1 est.2 r.2.1 r.2.2.2) k est out c) :
    kf.UpdateCall Z k est out c := by
  obtain ⟨⟨u, z, Q, R⟩, h1, h2⟩ := h
  simp only [ExtendedKalmanFilter.zrows, List.getElem?_zip_eq_some] at h1
  obtain ⟨a4, a5, a6, a7⟩ := h1
  exact ⟨z, R, a5, a7, h2⟩

theorem written_of_split {len n : ℕ} {out rws : List (Arr F × Arr F)} {r : List (Arr F) × List (Arr F)}
    (h5 : List.Forall₂ (fun o row => o.1.assignVec n = .ok row.1 ∧ o.2.assignMat n = .ok row.2) out rws)
    (h6 : r = ((List.replicate len (Arr.zerosVec n)).take 0 ++ rws.map Prod.fst ++ (List.replicate len (Arr.zerosVec n)).drop (0 + rws.length),
      (List.replicate len (Arr.zerosMat n)).take 0 ++ rws.map Prod.snd ++ (List.replicate len (Arr.zerosMat n)).drop (0 + rws.length))) :
    WrittenTo len n out r :=
  ⟨rws, h5, by rw [h6]; simp [List.drop_replicate]⟩

/-- C152 (`filter` returns): on an instance of any subclass it has called, for every row `k` in turn, the subclass's `predict` with row `k` of
`A`, `B`, `U`, `Q` and the current estimate, and then its `update` with row `k` of `H`, `Z`, `R` and what `predict` returned; what
`update` returned is stored in row `k` of the results and is the estimate for the next row.  `A`, …, `R`, the initial
estimate and `state_size` are those the object had when `filter` was called. -/
theorem C152_filter_calls (M : Methods σ F) (kf : KalmanFilter F) (log : List (MethodCall F)) (o : σ) (Z : NDArray F) (U : Option (NDArray F))
    (r : List (Arr F) × List (Arr F)) (s' : Instance (List (MethodCall F) × σ) (KalmanFilter F))
    (h : (M.logged.filter Z U).run ⟨kf, (log, o)⟩ = (.ok r, s')) :
    ∃ (steps : List (MethodStep F)) (calls : List (MethodCall F)), steps.length = kf.steps Z U ∧ s'.own.1 = log ++ calls ∧
      StepCallsFrom (kf.PredictCall Z U) (kf.UpdateCall Z) 0 steps calls ∧ Chained (kf.xk, kf.Pk) steps ∧
      WrittenTo Z.rows.length kf.stateSize (steps.map MethodStep.post) r := by
  rcases M.logged.filter_unfold Z U ⟨kf, (log, o)⟩ with ⟨e, he⟩ | ⟨-, h1⟩
  · rw [h] at he; simp at he
  rw [h, Methods.filterLoop_gen] at h1
  have hl : kf.steps Z U ≤ Z.rows.length := by simp only [KalmanFilter.steps]; omega
  obtain ⟨steps, calls, rws, l1, l2, l3, l4, l5, l6⟩ := methodLoop_ok
    (cp := fun r est => MethodCall.predict r.1 est.1 (some r.2.2.1) (some r.2.2.2.1) est.2 r.2.2.2.2.2.1)
    (cu := fun r est => MethodCall.update r.2.1 est.1 est.2 r.2.2.2.2.1 r.2.2.2.2.2.2)
    (fun _ _ _ => rfl) (fun _ _ _ => rfl) kf.stateSize (kf.zrows Z U) (kf.zrows Z U) 0 _ _ _ _ _ _ rfl
    (by rw [KalmanFilter.zrows_length, List.length_replicate]; omega) (by rw [KalmanFilter.zrows_length, List.length_replicate]; omega) h1.symm
  exact ⟨steps, calls, by rw [l1, KalmanFilter.zrows_length], l2, l3.mono (Methods.call_predict kf Z U) (Methods.call_update kf Z U), l4,
    written_of_split l5 l6⟩

/-- C152 (`filter` raises `e`): either before any method is called, or after complete steps as above and a last one in which `predict` raises `e`, or
`update` raises `e`, or what `update` returned cannot be stored. -/
theorem C152_filter_calls_until (M : Methods σ F) (kf : KalmanFilter F) (log : List (MethodCall F)) (o : σ) (Z : NDArray F) (U : Option (NDArray F))
    (e : PyErr) (s' : Instance (List (MethodCall F) × σ) (KalmanFilter F)) (h : (M.logged.filter Z U).run ⟨kf, (log, o)⟩ = (.error e, s')) :
    s' = ⟨kf, (log, o)⟩ ∨
    ∃ (steps : List (MethodStep F)) (calls l : List (MethodCall F)), steps.length < kf.steps Z U ∧ s'.own.1 = log ++ calls ++ l ∧
      StepCallsFrom (kf.PredictCall Z U) (kf.UpdateCall Z) 0 steps calls ∧ Chained (kf.xk, kf.Pk) steps ∧
      BrokenStep (kf.PredictCall Z U) (kf.UpdateCall Z) kf.stateSize steps.length (lastPost (kf.xk, kf.Pk) steps) e l := by
  rcases M.logged.filter_unfold Z U ⟨kf, (log, o)⟩ with ⟨e, he⟩ | ⟨-, h1⟩
  · rw [h] at he
    simp only [Prod.mk.injEq] at he
    exact .inl he.2
  rw [h, Methods.filterLoop_gen] at h1
  obtain ⟨steps, calls, l, l1, l2, l3, l4, l5⟩ := methodLoop_error
    (cp := fun r est => MethodCall.predict r.1 est.1 (some r.2.2.1) (some r.2.2.2.1) est.2 r.2.2.2.2.2.1)
    (cu := fun r est => MethodCall.update r.2.1 est.1 est.2 r.2.2.2.2.1 r.2.2.2.2.2.2)
    (fun _ _ _ => rfl) (fun _ _ _ => rfl) kf.stateSize (kf.zrows Z U) (kf.zrows Z U) 0 _ _ _ _ _ _ rfl h1.symm
  rw [Nat.zero_add] at l5
  exact .inr ⟨steps, calls, l, by rw [← KalmanFilter.zrows_length]; exact l1, l2,
    l3.mono (Methods.call_predict kf Z U) (Methods.call_update kf Z U), l4, l5.mono (Methods.call_predict kf Z U) (Methods.call_update kf Z U)⟩

/-- C152, extended class (`filter` returns). -/
theorem C152_ext_filter_calls (M : ExtMethods σ F) (kf : ExtendedKalmanFilter F) (log : List (ExtMethodCall F)) (o : σ) (Z : NDArray F)
    (U : Option (NDArray F)) (r : List (Arr F) × List (Arr F)) (s' : Instance (List (ExtMethodCall F) × σ) (ExtendedKalmanFilter F))
    (h : (M.logged.filter Z U).run ⟨kf, (log, o)⟩ = (.ok r, s')) :
    ∃ (steps : List (MethodStep F)) (calls : List (ExtMethodCall F)), steps.length = kf.steps Z U ∧ s'.own.1 = log ++ calls ∧
      StepCallsFrom (kf.PredictCall Z U) (kf.UpdateCall Z) 0 steps calls ∧ Chained (kf.xk, kf.Pk) steps ∧
      WrittenTo Z.rows.length kf.stateSize (steps.map MethodStep.post) r := by
  rcases M.logged.filter_unfold Z U ⟨kf, (log, o)⟩ with ⟨e, he⟩ | ⟨-, h1⟩
  · rw [h] at he; simp at he
  rw [h, ExtMethods.filterLoop_gen] at h1
  have hl : kf.steps Z U ≤ Z.rows.length := by simp only [ExtendedKalmanFilter.steps]; omega
  obtain ⟨steps, calls, rws, l1, l2, l3, l4, l5, l6⟩ := methodLoop_ok
    (cp := fun r est => ExtMethodCall.predict est.1 (some r.1) est.2 r.2.2.1)
    (cu := fun r est => ExtMethodCall.update est.1 est.2 r.2.1 r.2.2.2)
    (fun _ _ _ => rfl) (fun _ _ _ => rfl) kf.stateSize (kf.zrows Z U) (kf.zrows Z U) 0 _ _ _ _ _ _ rfl
    (by rw [ExtendedKalmanFilter.zrows_length, List.length_replicate]; omega)
    (by rw [ExtendedKalmanFilter.zrows_length, List.length_replicate]; omega) h1.symm
  exact ⟨steps, calls, by rw [l1, ExtendedKalmanFilter.zrows_length], l2, l3.mono (ExtMethods.call_predict kf Z U) (ExtMethods.call_update kf Z U), l4,
    written_of_split l5 l6⟩

/-- C152, extended class (`filter` raises `e`). -/
theorem C152_ext_filter_calls_until (M : ExtMethods σ F) (kf : ExtendedKalmanFilter F) (log : List (ExtMethodCall F)) (o : σ) (Z : NDArray F)
    (U : Option (NDArray F)) (e : PyErr) (s' : Instance (List (ExtMethodCall F) × σ) (ExtendedKalmanFilter F))
    (h : (M.logged.filter Z U).run ⟨kf, (log, o)⟩ = (.error e, s')) :
    s' = ⟨kf, (log, o)⟩ ∨
    ∃ (steps : List (MethodStep F)) (calls l : List (ExtMethodCall F)), steps.length < kf.steps Z U ∧ s'.own.1 = log ++ calls ++ l ∧
      StepCallsFrom (kf.PredictCall Z U) (kf.UpdateCall Z) 0 steps calls ∧ Chained (kf.xk, kf.Pk) steps ∧
      BrokenStep (kf.PredictCall Z U) (kf.UpdateCall Z) kf.stateSize steps.length (lastPost (kf.xk, kf.Pk) steps) e l := by
  rcases M.logged.filter_unfold Z U ⟨kf, (log, o)⟩ with ⟨e, he⟩ | ⟨-, h1⟩
  · rw [h] at he
    simp only [Prod.mk.injEq] at he
    exact .inl he.2
  rw [h, ExtMethods.filterLoop_gen] at h1
  obtain ⟨steps, calls, l, l1, l2, l3, l4, l5⟩ := methodLoop_error
    (cp := fun r est => ExtMethodCall.predict est.1 (some r.1) est.2 r.2.2.1)
    (cu := fun r est => ExtMethodCall.update est.1 est.2 r.2.1 r.2.2.2)
    (fun _ _ _ => rfl) (fun _ _ _ => rfl) kf.stateSize (kf.zrows Z U) (kf.zrows Z U) 0 _ _ _ _ _ _ rfl h1.symm
  rw [Nat.zero_add] at l5
  exact .inr ⟨steps, calls, l, by rw [← ExtendedKalmanFilter.zrows_length]; exact l1, l2,
    l3.mono (ExtMethods.call_predict kf Z U) (ExtMethods.call_update kf Z U), l4,
    l5.mono (ExtMethods.call_predict kf Z U) (ExtMethods.call_update kf Z U)⟩

/-! ## `smooth` -/

/-- What `smooth` does once `filter` has returned. -/
theorem Methods.smooth_unfold (M : Methods σ F) (Z : NDArray F) (U : Option (NDArray F)) (s : Instance σ (KalmanFilter F)) :
    (∃ e s1, (M.filter Z U).run s = (.error e, s1) ∧ (M.smooth Z U).run s = (.error e, s1)) ∨
    ∃ fx fP s1, (M.filter Z U).run s = (.ok (fx, fP), s1) ∧
      ((∃ e, (M.smooth Z U).run s = (.error e, s1)) ∨
        ∃ xs Ps, (M.smooth Z U).run s =
          (M.smoothLoop s1.base.stateSize s1.base.A s1.base.Q s1.base.B (checkNoneAndBroadcast U Z) fx fP
            (List.range (Z.rows.length - 1)).reverse xs Ps).run s1) := by
  simp only [Methods.smooth, Py.run_bind (M.filter Z U)]
  rcases hf : (M.filter Z U).run s with ⟨e | ⟨fx, fP⟩, s1⟩
  · exact Or.inl ⟨e, s1, rfl, rfl⟩
  refine Or.inr ⟨fx, fP, s1, rfl, ?_⟩
  simp only [Py.run_bind, Instance.attrs, Py.run_lift]
  rcases hl : Z.len with e | len
  · exact Or.inl ⟨e, rfl⟩
  have hlen : len = Z.rows.length := by
    cases Z with
    | d0 => simp [NDArray.len] at hl
    | stack z => simp only [NDArray.len, Except.ok.injEq] at hl; exact hl.symm
  dsimp only
  rcases Stateful.lastRow len fx with e | xl <;> dsimp only
  · exact Or.inl ⟨e, rfl⟩
  rcases Stateful.lastRow len fP with e | Pl <;> dsimp only
  · exact Or.inl ⟨e, rfl⟩
  rcases xl.assignVec s1.base.stateSize with e | xr <;> dsimp only
  · exact Or.inl ⟨e, rfl⟩
  rcases Pl.assignMat s1.base.stateSize with e | Pr <;> dsimp only
  · exact Or.inl ⟨e, rfl⟩
  exact Or.inr ⟨_, _, by rw [hlen]⟩

/-- What `smooth` does once `filter` has returned. -/
theorem ExtMethods.smooth_unfold (M : ExtMethods σ F) (Z : NDArray F) (U : Option (NDArray F)) (s : Instance σ (ExtendedKalmanFilter F)) :
    (∃ e s1, (M.filter Z U).run s = (.error e, s1) ∧ (M.smooth Z U).run s = (.error e, s1)) ∨
    ∃ fx fP s1, (M.filter Z U).run s = (.ok (fx, fP), s1) ∧
      ((∃ e, (M.smooth Z U).run s = (.error e, s1)) ∨
        ∃ xs Ps, (M.smooth Z U).run s =
          (M.smoothLoop s1.base.stateSize s1.base.Q (checkNoneAndBroadcast U Z) fx fP
            (List.range (Z.rows.length - 1)).reverse xs Ps).run s1) := by
  simp only [ExtMethods.smooth, Py.run_bind (M.filter Z U)]
  rcases hf : (M.filter Z U).run s with ⟨e | ⟨fx, fP⟩, s1⟩
  · exact Or.inl ⟨e, s1, rfl, rfl⟩
  refine Or.inr ⟨fx, fP, s1, rfl, ?_⟩
  simp only [Py.run_bind, Instance.attrs, Py.run_lift]
  rcases hl : Z.len with e | len
  · exact Or.inl ⟨e, rfl⟩
  have hlen : len = Z.rows.length := by
    cases Z with
    | d0 => simp [NDArray.len] at hl
    | stack z => simp only [NDArray.len, Except.ok.injEq] at hl; exact hl.symm
  dsimp only
  rcases Stateful.lastRow len fx with e | xl <;> dsimp only
  · exact Or.inl ⟨e, rfl⟩
  rcases Stateful.lastRow len fP with e | Pl <;> dsimp only
  · exact Or.inl ⟨e, rfl⟩
  rcases xl.assignVec s1.base.stateSize with e | xr <;> dsimp only
  · exact Or.inl ⟨e, rfl⟩
  rcases Pl.assignMat s1.base.stateSize with e | Pr <;> dsimp only
  · exact Or.inl ⟨e, rfl⟩
  exact Or.inr ⟨_, _, by rw [hlen]⟩

theorem reverse_range {n i j : ℕ} (h : (List.range (n - 1)).reverse[i]? = some j) : i < n - 1 ∧ j = n - 2 - i := by
  have hi : i < n - 1 := by simpa using (List.getElem?_eq_some_iff.1 h).1
  rw [List.getElem?_reverse (by simpa using hi), List.getElem?_range (by simp; omega)] at h
  simp only [List.length_range, Option.some.injEq] at h
  omega

theorem forall₂_take_at {α β : Type} {p : α → β → Prop} {l : List α} {m : List β} (h : List.Forall₂ p (l.take m.length) m) {i : ℕ} {b : β}
    (hb : m[i]? = some b) : ∃ a, l[i]? = some a ∧ p a b := by
  obtain ⟨hi, hb⟩ := List.getElem?_eq_some_iff.1 hb
  have hl := h.length_eq
  obtain ⟨-, hg⟩ := List.forall₂_iff_get.1 h
  have hil : i < (l.take m.length).length := by omega
  have := hg i hil hi
  simp only [List.get_eq_getElem] at this
  rw [List.getElem_take] at this
  rw [List.length_take] at hil
  exact ⟨l[i]'(by omega), List.getElem?_eq_getElem _, by rw [← hb]; exact this⟩

theorem back_predict {kf : KalmanFilter F} {Z : NDArray F} {U : Option (NDArray F)} {fx fP xs Ps : List (Arr F)} {k : ℕ}
    {i : (Arr F × Arr F × Arr F × Arr F) × Arr F × Arr F × Arr F × Arr F}
    (h : Methods.backItems kf.A kf.Q kf.B (checkNoneAndBroadcast U Z) fx fP xs Ps k = .ok i) (out : Except PyErr (Arr F × Arr F)) :
    ∃ x P, fx[k]? = some x ∧ fP[k]? = some P ∧
      kf.PredictCall Z U (k + 1) (x, P) out (.predict i.1.1 i.2.2.1 (some i.1.2.2.1) (some i.1.2.2.2) i.2.1 i.1.2.1 out) := by
  simp only [Methods.backItems] at h
  rcases h1 : kf.A.item (k + 1) with e | Ak <;> rw [h1] at h
  · simp at h
  rcases h2 : kf.Q.item (k + 1) with e | Qk <;> rw [h2] at h
  · simp at h
  rcases h3 : kf.B.item (k + 1) with e | Bk <;> rw [h3] at h
  · simp at h
  rcases h4 : (checkNoneAndBroadcast U Z).item (k + 1) with e | uk <;> rw [h4] at h
  · simp at h
  rcases h5 : getRow fP k with e | Pk <;> rw [h5] at h
  · simp at h
  rcases h6 : getRow fx k with e | xk <;> rw [h6] at h
  · simp at h
  rcases h7 : getRow xs (k + 1) with e | xn <;> rw [h7] at h
  · simp at h
  rcases h8 : getRow Ps (k + 1) with e | Pn <;> rw [h8] at h
  · simp at h
  simp only [Except.bind_ok', Except.ok.injEq] at h
  subst h
  have hrow : ∀ {l : List (Arr F)} {a : Arr F}, getRow l k = .ok a → l[k]? = some a := by
    intro l a ha
    simp only [getRow] at ha
    split at ha <;> simp_all
  exact ⟨xk, Pk, hrow h6, hrow h5, Ak, Bk, uk, Qk, item_rows_of h1, item_rows_of h3, item_rows_of h4, item_rows_of h2, rfl⟩

theorem ext_back_predict {kf : ExtendedKalmanFilter F} {Z : NDArray F} {U : Option (NDArray F)} {fx fP xs Ps : List (Arr F)} {k : ℕ}
    {i : Arr F × Arr F × Arr F × Arr F × Arr F × Arr F}
    (h : Stateful.backItems kf.Q (checkNoneAndBroadcast U Z) fx fP xs Ps k = .ok i) (out : Except PyErr (Arr F × Arr F)) :
    ∃ x P, fx[k]? = some x ∧ fP[k]? = some P ∧
      kf.PredictCall Z U (k + 1) (x, P) out (.predict i.2.2.2.1 (some i.2.1) i.2.2.1 i.1 out) := by
  simp only [Stateful.backItems] at h
  rcases h2 : kf.Q.item (k + 1) with e | Qk <;> rw [h2] at h
  · simp at h
  rcases h4 : (checkNoneAndBroadcast U Z).item (k + 1) with e | uk <;> rw [h4] at h
  · simp at h
  rcases h5 : getRow fP k with e | Pk <;> rw [h5] at h
  · simp at h
  rcases h6 : getRow fx k with e | xk <;> rw [h6] at h
  · simp at h
  rcases h7 : getRow xs (k + 1) with e | xn <;> rw [h7] at h
  · simp at h
  rcases h8 : getRow Ps (k + 1) with e | Pn <;> rw [h8] at h
  · simp at h
  simp only [Except.bind_ok', Except.ok.injEq] at h
  subst h
  have hrow : ∀ {l : List (Arr F)} {a : Arr F}, getRow l k = .ok a → l[k]? = some a := by
    intro l a ha
    simp only [getRow] at ha
    split at ha <;> simp_all
  exact ⟨xk, Pk, hrow h6, hrow h5, uk, Qk, item_rows_of h4, item_rows_of h2, rfl⟩

/-- C152 (`smooth` returns): after the calls of `filter` there is, for `k = n - 2, …, 0`, one call of `predict` with row `k + 1` of `A`, `B`, `U`,
`Q`, as the object has them when `filter` has returned, and row `k` of what `filter` returned; and no call of `update`. -/
theorem C152_smooth_calls (M : Methods σ F) (kf : KalmanFilter F) (log : List (MethodCall F)) (o : σ) (Z : NDArray F) (U : Option (NDArray F))
    (r : List (Arr F) × List (Arr F)) (s' : Instance (List (MethodCall F) × σ) (KalmanFilter F))
    (h : (M.logged.smooth Z U).run ⟨kf, (log, o)⟩ = (.ok r, s')) :
    ∃ fx fP s1, (M.logged.filter Z U).run ⟨kf, (log, o)⟩ = (.ok (fx, fP), s1) ∧
      ∃ calls : List (MethodCall F), calls.length = Z.rows.length - 1 ∧ s'.own.1 = s1.own.1 ++ calls ∧
        ∀ i c, calls[i]? = some c → ∃ x P ahead, fx[Z.rows.length - 2 - i]? = some x ∧ fP[Z.rows.length - 2 - i]? = some P ∧
          s1.base.PredictCall Z U (Z.rows.length - 2 - i + 1) (x, P) (.ok ahead) c := by
  rcases M.logged.smooth_unfold Z U ⟨kf, (log, o)⟩ with ⟨e, s1, -, h2⟩ | ⟨fx, fP, s1, h1, ⟨e, h2⟩ | ⟨xs, Ps, h2⟩⟩
  · rw [h] at h2; simp at h2
  · rw [h] at h2; simp at h2
  rw [h, Methods.smoothLoop_gen] at h2
  obtain ⟨calls, c1, c2⟩ := methodBack_ok (cb := fun i => MethodCall.predict i.1.1 i.2.2.1 (some i.1.2.2.1) (some i.1.2.2.2) i.2.1 i.1.2.1)
    (fun _ _ => rfl) _ _ _ _ _ _ _ h2.symm
  have hlen : calls.length = Z.rows.length - 1 := by rw [← c2.length_eq]; simp
  refine ⟨fx, fP, s1, h1, calls, hlen, c1, fun i c hc => ?_⟩
  obtain ⟨k, hk, t, ahead, xs, Ps, ht, rfl⟩ := forall₂_take_at (l := (List.range (Z.rows.length - 1)).reverse)
    ((List.take_of_length_le (i := calls.length) (l := (List.range (Z.rows.length - 1)).reverse) (by simp [hlen])).symm ▸ c2) hc
  obtain ⟨-, rfl⟩ := reverse_range hk
  obtain ⟨x, P, q1, q2, q3⟩ := back_predict ht (.ok ahead)
  exact ⟨x, P, ahead, q1, q2, q3⟩

/-- C152 (`smooth` raises `e`): `filter` did; or after it returned, some calls of `predict` as above, possibly followed by one that raised `e`. -/
theorem C152_smooth_calls_until (M : Methods σ F) (kf : KalmanFilter F) (log : List (MethodCall F)) (o : σ) (Z : NDArray F) (U : Option (NDArray F))
    (e : PyErr) (s' : Instance (List (MethodCall F) × σ) (KalmanFilter F)) (h : (M.logged.smooth Z U).run ⟨kf, (log, o)⟩ = (.error e, s')) :
    (M.logged.filter Z U).run ⟨kf, (log, o)⟩ = (.error e, s') ∨
    ∃ fx fP s1, (M.logged.filter Z U).run ⟨kf, (log, o)⟩ = (.ok (fx, fP), s1) ∧
      ∃ calls l : List (MethodCall F), calls.length ≤ Z.rows.length - 1 ∧ s'.own.1 = s1.own.1 ++ calls ++ l ∧
        (∀ i c, calls[i]? = some c → ∃ x P ahead, fx[Z.rows.length - 2 - i]? = some x ∧ fP[Z.rows.length - 2 - i]? = some P ∧
          s1.base.PredictCall Z U (Z.rows.length - 2 - i + 1) (x, P) (.ok ahead) c) ∧
        (l = [] ∨ ∃ x P c, l = [c] ∧ calls.length < Z.rows.length - 1 ∧ fx[Z.rows.length - 2 - calls.length]? = some x ∧
          fP[Z.rows.length - 2 - calls.length]? = some P ∧
          s1.base.PredictCall Z U (Z.rows.length - 2 - calls.length + 1) (x, P) (.error e) c) := by
  rcases M.logged.smooth_unfold Z U ⟨kf, (log, o)⟩ with ⟨e', s1, h1, h2⟩ | ⟨fx, fP, s1, h1, ⟨e', h2⟩ | ⟨xs, Ps, h2⟩⟩
  · rw [h] at h2
    exact .inl (by rw [h1, h2])
  · rw [h] at h2
    simp only [Prod.mk.injEq] at h2
    exact .inr ⟨fx, fP, s1, h1, [], [], by simp, by rw [h2.2]; simp, by simp, .inl rfl⟩
  right
  rw [h, Methods.smoothLoop_gen] at h2
  obtain ⟨calls, l, c1, c0, c2, c3⟩ := methodBack_error
    (cb := fun i => MethodCall.predict i.1.1 i.2.2.1 (some i.1.2.2.1) (some i.1.2.2.2) i.2.1 i.1.2.1)
    (fun _ _ => rfl) _ _ _ _ _ _ _ h2.symm
  refine ⟨fx, fP, s1, h1, calls, l, by simpa using c0, c1, fun i c hc => ?_, ?_⟩
  · obtain ⟨k, hk, t, ahead, xs, Ps, ht, rfl⟩ := forall₂_take_at c2 hc
    obtain ⟨-, rfl⟩ := reverse_range hk
    obtain ⟨x, P, q1, q2, q3⟩ := back_predict ht (.ok ahead)
    exact ⟨x, P, ahead, q1, q2, q3⟩
  · rcases c3 with rfl | ⟨k, t, xs, Ps, hk, ht, rfl⟩
    · exact .inl rfl
    · obtain ⟨hlt, rfl⟩ := reverse_range hk
      obtain ⟨x, P, q1, q2, q3⟩ := back_predict ht (.error e)
      exact .inr ⟨x, P, _, rfl, hlt, q1, q2, q3⟩

/-- C152, extended class (`smooth` returns). -/
theorem C152_ext_smooth_calls (M : ExtMethods σ F) (kf : ExtendedKalmanFilter F) (log : List (ExtMethodCall F)) (o : σ) (Z : NDArray F)
    (U : Option (NDArray F)) (r : List (Arr F) × List (Arr F)) (s' : Instance (List (ExtMethodCall F) × σ) (ExtendedKalmanFilter F))
    (h : (M.logged.smooth Z U).run ⟨kf, (log, o)⟩ = (.ok r, s')) :
    ∃ fx fP s1, (M.logged.filter Z U).run ⟨kf, (log, o)⟩ = (.ok (fx, fP), s1) ∧
      ∃ calls : List (ExtMethodCall F), calls.length = Z.rows.length - 1 ∧ s'.own.1 = s1.own.1 ++ calls ∧
        ∀ i c, calls[i]? = some c → ∃ x P ahead, fx[Z.rows.length - 2 - i]? = some x ∧ fP[Z.rows.length - 2 - i]? = some P ∧
          s1.base.PredictCall Z U (Z.rows.length - 2 - i + 1) (x, P) (.ok ahead) c := by
  rcases M.logged.smooth_unfold Z U ⟨kf, (log, o)⟩ with ⟨e, s1, -, h2⟩ | ⟨fx, fP, s1, h1, ⟨e, h2⟩ | ⟨xs, Ps, h2⟩⟩
  · rw [h] at h2; simp at h2
  · rw [h] at h2; simp at h2
  rw [h, ExtMethods.smoothLoop_gen] at h2
  obtain ⟨calls, c1, c2⟩ := methodBack_ok (cb := fun i => ExtMethodCall.predict i.2.2.2.1 (some i.2.1) i.2.2.1 i.1)
    (fun _ _ => rfl) _ _ _ _ _ _ _ h2.symm
  have hlen : calls.length = Z.rows.length - 1 := by rw [← c2.length_eq]; simp
  refine ⟨fx, fP, s1, h1, calls, hlen, c1, fun i c hc => ?_⟩
  obtain ⟨k, hk, t, ahead, xs, Ps, ht, rfl⟩ := forall₂_take_at (l := (List.range (Z.rows.length - 1)).reverse)
    ((List.take_of_length_le (i := calls.length) (l := (List.range (Z.rows.length - 1)).reverse) (by simp [hlen])).symm ▸ c2) hc
  obtain ⟨-, rfl⟩ := reverse_range hk
  obtain ⟨x, P, q1, q2, q3⟩ := ext_back_predict ht (.ok ahead)
  exact ⟨x, P, ahead, q1, q2, q3⟩

/-- C152, extended class (`smooth` raises `e`). -/
theorem C152_ext_smooth_calls_until (M : ExtMethods σ F) (kf : ExtendedKalmanFilter F) (log : List (ExtMethodCall F)) (o : σ) (Z : NDArray F)
    (U : Option (NDArray F)) (e : PyErr) (s' : Instance (List (ExtMethodCall F) × σ) (ExtendedKalmanFilter F))
    (h : (M.logged.smooth Z U).run ⟨kf, (log, o)⟩ = (.error e, s')) :
    (M.logged.filter Z U).run ⟨kf, (log, o)⟩ = (.error e, s') ∨
    ∃ fx fP s1, (M.logged.filter Z U).run ⟨kf, (log, o)⟩ = (.ok (fx, fP), s1) ∧
      ∃ calls l : List (ExtMethodCall F), calls.length ≤ Z.rows.length - 1 ∧ s'.own.1 = s1.own.1 ++ calls ++ l ∧
        (∀ i c, calls[i]? = some c → ∃ x P ahead, fx[Z.rows.length - 2 - i]? = some x ∧ fP[Z.rows.length - 2 - i]? = some P ∧
          s1.base.PredictCall Z U (Z.rows.length - 2 - i + 1) (x, P) (.ok ahead) c) ∧
        (l = [] ∨ ∃ x P c, l = [c] ∧ calls.length < Z.rows.length - 1 ∧ fx[Z.rows.length - 2 - calls.length]? = some x ∧
          fP[Z.rows.length - 2 - calls.length]? = some P ∧
          s1.base.PredictCall Z U (Z.rows.length - 2 - calls.length + 1) (x, P) (.error e) c) := by
  rcases M.logged.smooth_unfold Z U ⟨kf, (log, o)⟩ with ⟨e', s1, h1, h2⟩ | ⟨fx, fP, s1, h1, ⟨e', h2⟩ | ⟨xs, Ps, h2⟩⟩
  · rw [h] at h2
    exact .inl (by rw [h1, h2])
  · rw [h] at h2
    simp only [Prod.mk.injEq] at h2
    exact .inr ⟨fx, fP, s1, h1, [], [], by simp, by rw [h2.2]; simp, by simp, .inl rfl⟩
  right
  rw [h, ExtMethods.smoothLoop_gen] at h2
  obtain ⟨calls, l, c1, c0, c2, c3⟩ := methodBack_error
    (cb := fun i => ExtMethodCall.predict i.2.2.2.1 (some i.2.1) i.2.2.1 i.1)
    (fun _ _ => rfl) _ _ _ _ _ _ _ h2.symm
  refine ⟨fx, fP, s1, h1, calls, l, by simpa using c0, c1, fun i c hc => ?_, ?_⟩
  · obtain ⟨k, hk, t, ahead, xs, Ps, ht, rfl⟩ := forall₂_take_at c2 hc
    obtain ⟨-, rfl⟩ := reverse_range hk
    obtain ⟨x, P, q1, q2, q3⟩ := ext_back_predict ht (.ok ahead)
    exact ⟨x, P, ahead, q1, q2, q3⟩
  · rcases c3 with rfl | ⟨k, t, xs, Ps, hk, ht, rfl⟩
    · exact .inl rfl
    · obtain ⟨hlt, rfl⟩ := reverse_range hk
      obtain ⟨x, P, q1, q2, q3⟩ := ext_back_predict ht (.error e)
      exact .inr ⟨x, P, _, rfl, hlt, q1, q2, q3⟩

/-! ## Concrete cases -/

namespace Ex

/-- A subclass whose `update` inflates the measurement noise given to the inherited method, and counts. -/
def inflating : Methods ℕ QN where
  predict := Methods.plain.predict
  update Hk xk Pk zk Rk := do
    let R' ← Py.lift (Rk.add Rk)
    let r ← Methods.plain.update Hk xk Pk zk R'
    (⟨fun s => (.ok r, { s with own := s.own + 1 })⟩ : Py (Instance ℕ (KalmanFilter QN)) (Arr QN × Arr QN))

/-- A subclass whose `update` raises in the third call. -/
def failing : Methods ℕ QN where
  predict := Methods.plain.predict
  update Hk xk Pk zk Rk := do
    (⟨fun s => (if s.own = 2 then .error .valueError else .ok (), { s with own := s.own + 1 })⟩ : Py (Instance ℕ (KalmanFilter QN)) Unit)
    Methods.plain.update Hk xk Pk zk Rk

end Ex

-- C152: a subclass that does something else than the base class; `smooth`, hence `filter`, return; five calls of `predict`, three of `update`.
example : ∃ r s', (Ex.inflating.logged.smooth Ex.zs (some Ex.us)).run ⟨Ex.cv 3, ([], 0)⟩ = (.ok r, s') :=
  (Ex.returned_iff _).1 (by decide +kernel)

example : let s' := ((Ex.inflating.logged.smooth Ex.zs (some Ex.us)).run ⟨Ex.cv 3, ([], 0)⟩).2
    s'.own.1.length = 8 ∧ s'.own.2 = 3 := by decide +kernel

-- C152: a subclass that raises in the third step.
example : let t := (Ex.failing.logged.filter Ex.zs (some Ex.us)).run ⟨Ex.cv 3, ([], 0)⟩
    (∃ s', t = (.error .valueError, s')) ∧ t.2.own.1.length = 6 := ⟨(Ex.raised_iff _ _).1 (by decide +kernel), by decide +kernel⟩

-- C152, extended class.
example : ∃ r s', ((ExtMethods.plain : ExtMethods Unit Ex.QN).logged.smooth Ex.zs (some Ex.us)).run ⟨Ex.ecv 3, ([], ())⟩ = (.ok r, s') :=
  (Ex.returned_iff _).1 (by decide +kernel)

end KK
