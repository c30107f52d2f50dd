import Verif.Proofs.Stateful

/-! # Proofs: the calls of the callbacks -/

set_option linter.unusedSectionVars false
set_option linter.unusedSimpArgs false

namespace KK

namespace Stateful

variable {σ F : Type} [Backend F] (cb : Callbacks σ F)

/-- The list of calls in a world. -/
abbrev logOf (w : World (List (CallbackCall F) × σ) F) : List (CallbackCall F) := w.user.1

theorem logCall_run (call : Except PyErr (Arr F) → CallbackCall F) (p : Py (World σ F) (Arr F)) (w : World (List (CallbackCall F) × σ) F) :
    logOf ((logCall call p).run w).2 = logOf w ++ [call ((logCall call p).run w).1] := rfl

theorem predict_log (x : Arr F) (u : Option (Arr F)) (P Q : Arr F) (w : World (List (CallbackCall F) × σ) F) :
    (∀ v, ((predict cb.logged x u P Q).run w).1 = .ok v → ∃ A,
        logOf ((predict cb.logged x u P Q).run w).2 = logOf w ++ [.jacobianA x u (.ok A), .f x u (.ok v.1)]) ∧
    (∀ e, ((predict cb.logged x u P Q).run w).1 = .error e → ∃ l, PartialPredict x u e l ∧
        logOf ((predict cb.logged x u P Q).run w).2 = logOf w ++ l) := by
  simp only [predict, Py.run_bind, Callbacks.logged]
  have h1 := logCall_run (CallbackCall.jacobianA x u) (cb.jacobianA x u) w
  rcases hA : (logCall (CallbackCall.jacobianA x u) (cb.jacobianA x u)).run w with ⟨e | A, w1⟩ <;> rw [hA] at h1 <;> dsimp only
  · refine ⟨by simp, fun e' he => ?_⟩
    cases he
    exact ⟨_, .jacobianA, h1⟩
  have h2 := logCall_run (CallbackCall.f x u) (cb.f x u) w1
  rcases hf : (logCall (CallbackCall.f x u) (cb.f x u)).run w1 with ⟨e | p, w2⟩ <;> rw [hf] at h2 <;> dsimp only
  · refine ⟨by simp, fun e' he => ?_⟩
    cases he
    exact ⟨_, .f A, by simp only at h1 h2; rw [h2, h1]; simp⟩
  simp only at h1 h2
  rw [Py.run_lift]
  rcases priorCovariance A P Q with e | v <;> dsimp only
  · refine ⟨by simp, fun e' he => ?_⟩
    cases he
    exact ⟨_, .after A p, by rw [h2, h1]; simp⟩
  · refine ⟨fun v' hv => ⟨A, ?_⟩, fun e' he => by simp [Py.run_pure'] at he⟩
    simp only [Py.run_pure', Except.ok.injEq] at hv
    subst hv
    simp only [Py.run_pure']
    rw [h2, h1]; simp

theorem update_log (x P z R : Arr F) (w : World (List (CallbackCall F) × σ) F) :
    (∀ v, ((update cb.logged x P z R).run w).1 = .ok v → ∃ H hx,
        logOf ((update cb.logged x P z R).run w).2 = logOf w ++ [.jacobianH x (.ok H), .h x (.ok hx)]) ∧
    (∀ e, ((update cb.logged x P z R).run w).1 = .error e → ∃ l, PartialUpdate x e l ∧
        logOf ((update cb.logged x P z R).run w).2 = logOf w ++ l) := by
  simp only [update, Py.run_bind, Callbacks.logged]
  have h1 := logCall_run (CallbackCall.jacobianH x) (cb.jacobianH x) w
  rcases hA : (logCall (CallbackCall.jacobianH x) (cb.jacobianH x)).run w with ⟨e | H, w1⟩ <;> rw [hA] at h1 <;> dsimp only
  · refine ⟨by simp, fun e' he => ?_⟩
    cases he
    exact ⟨_, .jacobianH, h1⟩
  rw [Py.run_lift]
  simp only at h1
  rcases ExtendedKalmanFilter.gain H P R with e | K <;> dsimp only
  · refine ⟨by simp, fun e' he => ?_⟩
    cases he
    exact ⟨_, .gain H, h1⟩
  simp only [record]
  generalize hw' : ({ w1 with self := { w1.self with kalmanGains := w1.self.kalmanGains ++ [K] } } : World (List (CallbackCall F) × σ) F) = w1'
  have e1 : logOf w1' = logOf w1 := by rw [← hw']
  have h2 := logCall_run (CallbackCall.h x) (cb.h x) w1'
  rcases hf : (logCall (CallbackCall.h x) (cb.h x)).run w1' with ⟨e | p, w2⟩ <;> rw [hf] at h2 <;> dsimp only
  · refine ⟨by simp, fun e' he => ?_⟩
    cases he
    exact ⟨_, .h H, by simp only at h2; rw [h2, e1, h1]; simp⟩
  simp only at h2
  rw [Py.run_lift]
  rcases newMean K x z p with e | v <;> dsimp only
  · refine ⟨by simp, fun e' he => ?_⟩
    cases he
    exact ⟨_, .after H p, by rw [h2, e1, h1]; simp⟩
  simp only [attrs, Py.run_lift]
  rcases newCovariance w2.self.I K H P with e | v' <;> dsimp only
  · refine ⟨by simp, fun e' he => ?_⟩
    cases he
    exact ⟨_, .after H p, by rw [h2, e1, h1]; simp⟩
  · refine ⟨fun v' hv => ⟨H, p, ?_⟩, fun e' he => by simp [Py.run_pure'] at he⟩
    simp only [Py.run_pure']
    rw [h2, e1, h1]; simp

theorem filterLoop_keeps {τ : Type} (cb : Callbacks τ F) (n : ℕ) : ∀ (rows : List (ExtendedKalmanFilter.Row F)) (k : ℕ) (x P : Arr F) (states errors : List (Arr F))
    (w : World τ F) (r : List (Arr F) × List (Arr F)),
    ((filterLoop cb n k rows x P states errors).run w).1 = .ok r →
    r.1.length = states.length ∧ r.2.length = errors.length ∧ ∀ j < k, r.1[j]? = states[j]?
  | [], k, x, P, states, errors, w, r, h => by
    simp only [filterLoop, Py.run_pure', Except.ok.injEq] at h
    subst h
    exact ⟨rfl, rfl, fun _ _ => rfl⟩
  | (u, z, Q, R) :: rows, k, x, P, states, errors, w, r, h => by
    simp only [filterLoop, Py.run_bind, Py.run_lift] at h
    rcases h1 : (predict cb x (some u) P Q).run w with ⟨e | prior, w1⟩ <;> rw [h1] at h <;> dsimp only at h
    · cases h
    rcases h2 : (update cb prior.1 prior.2 z R).run w1 with ⟨e | post, w2⟩ <;> rw [h2] at h <;> dsimp only at h
    · cases h
    rcases h3 : post.1.assignVec n with e | srow <;> rw [h3] at h <;> dsimp only at h
    · cases h
    rcases h4 : post.2.assignMat n with e | erow <;> rw [h4] at h <;> dsimp only at h
    · cases h
    obtain ⟨i1, i2, i3⟩ := filterLoop_keeps cb n rows (k + 1) _ _ _ _ w2 r h
    refine ⟨by rw [i1, List.length_set], by rw [i2, List.length_set], fun j hj => ?_⟩
    rw [i3 j (by omega), List.getElem?_set_ne (by omega)]

/-- The calls of a loop that returns. -/
theorem filterLoop_log_ok (n : ℕ) : ∀ (rows : List (ExtendedKalmanFilter.Row F)) (k : ℕ) (x P : Arr F) (states errors : List (Arr F))
    (w : World (List (CallbackCall F) × σ) F) (r : List (Arr F) × List (Arr F)), k + rows.length ≤ states.length →
    ((filterLoop cb.logged n k rows x P states errors).run w).1 = .ok r →
    ∃ cs : List (StepCalls F), cs.length = rows.length ∧
      logOf ((filterLoop cb.logged n k rows x P states errors).run w).2 = logOf w ++ cs.flatMap StepCalls.calls ∧
      ∀ i c, cs[i]? = some c → rows[i]?.map (·.1) = some c.u ∧ (i = 0 → c.x = x) ∧
        ∀ j, i = j + 1 → ∃ row, r.1[k + j]? = some row ∧ c.x.assignVec n = .ok row
  | [], k, x, P, states, errors, w, r, hl, h => ⟨[], rfl, by simp [filterLoop, Py.run_pure'], by simp⟩
  | (u, z, Q, R) :: rows, k, x, P, states, errors, w, r, hl, h => by
    simp only [filterLoop, Py.run_bind, Py.run_lift] at h ⊢
    obtain ⟨p1, -⟩ := predict_log cb x (some u) P Q w
    rcases h1 : (predict cb.logged x (some u) P Q).run w with ⟨e | prior, w1⟩ <;> rw [h1] at h p1 <;> dsimp only at h p1 ⊢
    · cases h
    obtain ⟨A, p1⟩ := p1 _ rfl
    obtain ⟨p2, -⟩ := update_log cb prior.1 prior.2 z R w1
    rcases h2 : (update cb.logged prior.1 prior.2 z R).run w1 with ⟨e | post, w2⟩ <;> rw [h2] at h p2 <;> dsimp only at h p2 ⊢
    · cases h
    obtain ⟨H, hx, p2⟩ := p2 _ rfl
    rcases h3 : post.1.assignVec n with e | srow <;> rw [h3] at h <;> dsimp only at h ⊢
    · cases h
    rcases h4 : post.2.assignMat n with e | erow <;> rw [h4] at h <;> dsimp only at h ⊢
    · cases h
    obtain ⟨cs, c1, c2, c3⟩ := filterLoop_log_ok n rows (k + 1) _ _ _ _ w2 r (by simp only [List.length_set, List.length_cons] at hl ⊢; omega) h
    obtain ⟨-, -, k3⟩ := filterLoop_keeps cb.logged n rows (k + 1) _ _ _ _ w2 r h
    refine ⟨⟨x, u, A, prior.1, H, hx⟩ :: cs, by simp [c1], ?_, ?_⟩
    · rw [c2, p2, p1]; simp [StepCalls.calls]
    · rintro (_ | i) c hc
      · simp only [List.getElem?_cons_zero, Option.some.injEq] at hc
        subst hc
        exact ⟨rfl, fun _ => rfl, fun j hj => by omega⟩
      · simp only [List.getElem?_cons_succ] at hc ⊢
        obtain ⟨q1, q2, q3⟩ := c3 i c hc
        refine ⟨q1, by omega, fun j hj => ?_⟩
        obtain rfl : j = i := by omega
        cases j with
        | zero =>
          refine ⟨srow, ?_, by rw [q2 rfl]; exact h3⟩
          rw [Nat.add_zero, k3 k (by omega), List.getElem?_set_self (by simp only [List.length_cons] at hl; omega)]
        | succ j =>
          obtain ⟨row, t1, t2⟩ := q3 j rfl
          exact ⟨row, by rw [← t1]; congr 1; omega, t2⟩

/-- The calls of a loop that raises. -/
theorem filterLoop_log_error (n : ℕ) : ∀ (rows : List (ExtendedKalmanFilter.Row F)) (k : ℕ) (x P : Arr F) (states errors : List (Arr F))
    (w : World (List (CallbackCall F) × σ) F) (e : PyErr),
    ((filterLoop cb.logged n k rows x P states errors).run w).1 = .error e →
    ∃ (cs : List (StepCalls F)) (x' u' : Arr F) (l : List (CallbackCall F)), PartialStep x' u' e l ∧
      logOf ((filterLoop cb.logged n k rows x P states errors).run w).2 = logOf w ++ cs.flatMap StepCalls.calls ++ l ∧
      rows[cs.length]?.map (·.1) = some u' ∧ (cs = [] → x' = x) ∧
      ∀ i c, cs[i]? = some c → rows[i]?.map (·.1) = some c.u ∧ (i = 0 → c.x = x)
  | [], k, x, P, states, errors, w, e, h => by simp [filterLoop, Py.run_pure'] at h
  | (u, z, Q, R) :: rows, k, x, P, states, errors, w, e, h => by
    simp only [filterLoop, Py.run_bind, Py.run_lift] at h ⊢
    obtain ⟨p1, p1'⟩ := predict_log cb x (some u) P Q w
    rcases h1 : (predict cb.logged x (some u) P Q).run w with ⟨e | prior, w1⟩ <;> rw [h1] at h p1 p1' <;> dsimp only at h p1 p1' ⊢
    · cases h
      obtain ⟨l, l1, l2⟩ := p1' _ rfl
      exact ⟨[], x, u, l, .predict l1, by simpa using l2, rfl, fun _ => rfl, by simp⟩
    obtain ⟨A, p1⟩ := p1 _ rfl
    obtain ⟨p2, p2'⟩ := update_log cb prior.1 prior.2 z R w1
    rcases h2 : (update cb.logged prior.1 prior.2 z R).run w1 with ⟨e | post, w2⟩ <;> rw [h2] at h p2 p2' <;> dsimp only at h p2 p2' ⊢
    · cases h
      obtain ⟨l, l1, l2⟩ := p2' _ rfl
      exact ⟨[], x, u, _, .update A prior.1 l1, by rw [l2, p1]; simp, rfl, fun _ => rfl, by simp⟩
    obtain ⟨H, hx, p2⟩ := p2 _ rfl
    rcases h3 : post.1.assignVec n with e | srow <;> rw [h3] at h <;> dsimp only at h ⊢
    · cases h
      exact ⟨[], x, u, _, .update A prior.1 (.after H hx), by rw [p2, p1]; simp, rfl, fun _ => rfl, by simp⟩
    rcases h4 : post.2.assignMat n with e | erow <;> rw [h4] at h <;> dsimp only at h ⊢
    · cases h
      exact ⟨[], x, u, _, .update A prior.1 (.after H hx), by rw [p2, p1]; simp, rfl, fun _ => rfl, by simp⟩
    obtain ⟨cs, x', u', l, l1, l2, l3, l4, l5⟩ := filterLoop_log_error n rows (k + 1) _ _ _ _ w2 e h
    refine ⟨⟨x, u, A, prior.1, H, hx⟩ :: cs, x', u', l, l1, ?_, by simpa using l3, by simp, ?_⟩
    · rw [l2, p2, p1]; simp [StepCalls.calls]
    · rintro (_ | i) c hc
      · simp only [List.getElem?_cons_zero, Option.some.injEq] at hc
        subst hc
        exact ⟨rfl, fun _ => rfl⟩
      · simp only [List.getElem?_cons_succ] at hc ⊢
        exact ⟨(l5 i c hc).1, by omega⟩

/-! ## The backward pass -/

theorem backItems_ok {Q U : NDArray F} {xEst PEst xs Ps : List (Arr F)} {k : ℕ} {Qk uk Pk xk xNext PNext : Arr F}
    (h0 : backItems Q U xEst PEst xs Ps k = .ok (Qk, uk, Pk, xk, xNext, PNext)) :
    xEst[k]? = some xk ∧ U.item (k + 1) = .ok uk := by
    simp only [backItems] at h0
    rcases hq : Q.item (k + 1) with e | Q' <;> rw [hq] at h0
    · cases h0
    rcases hu : U.item (k + 1) with e | u' <;> rw [hu] at h0
    · cases h0
    rcases hp : getRow PEst k with e | P' <;> rw [hp] at h0
    · cases h0
    rcases hx : getRow xEst k with e | x' <;> rw [hx] at h0
    · cases h0
    rcases hn : getRow xs (k + 1) with e | n' <;> rw [hn] at h0
    · cases h0
    rcases hm : getRow Ps (k + 1) with e | m' <;> rw [hm] at h0
    · cases h0
    simp only [Except.bind_ok', Except.ok.injEq, Prod.mk.injEq] at h0
    obtain ⟨-, rfl, -, rfl, -⟩ := h0
    refine ⟨?_, rfl⟩
    simp only [getRow] at hx
    split at hx <;> simp_all

theorem smoothLoop_log_ok (n : ℕ) (Q U : NDArray F) (xEst PEst : List (Arr F)) : ∀ (ks : List ℕ) (xs Ps : List (Arr F))
    (w : World (List (CallbackCall F) × σ) F) (r : List (Arr F) × List (Arr F)),
    ((smoothLoop cb.logged n Q U xEst PEst ks xs Ps).run w).1 = .ok r →
    ∃ bs : List (BackCalls F),
      List.Forall₂ (fun k b => xEst[k]? = some b.x ∧ U.item (k + 1) = .ok b.u) ks bs ∧
      logOf ((smoothLoop cb.logged n Q U xEst PEst ks xs Ps).run w).2 = logOf w ++ bs.flatMap BackCalls.calls
  | [], xs, Ps, w, r, h => ⟨[], .nil, by simp [smoothLoop, Py.run_pure']⟩
  | k :: ks, xs, Ps, w, r, h => by
    simp only [smoothLoop, Py.run_bind, Py.run_lift] at h ⊢
    rcases h0 : backItems Q U xEst PEst xs Ps k with e | ⟨Qk, uk, Pk, xk, xNext, PNext⟩ <;> rw [h0] at h <;> dsimp only at h ⊢
    · cases h
    have hit := backItems_ok h0
    obtain ⟨p1, -⟩ := predict_log cb xk (some uk) Pk Qk w
    rcases h1 : (predict cb.logged xk (some uk) Pk Qk).run w with ⟨e | ahead, w1⟩ <;> rw [h1] at h p1 <;> simp only [Py.run_bind] at h p1 ⊢
    · cases h
    obtain ⟨A, p1⟩ := p1 _ rfl
    have h2 := logCall_run (CallbackCall.jacobianA xk (some uk)) (cb.jacobianA xk (some uk)) w1
    simp only [show cb.logged.jacobianA xk (some uk) = logCall (CallbackCall.jacobianA xk (some uk)) (cb.jacobianA xk (some uk)) from rfl]
      at h ⊢
    rcases hA : (logCall (CallbackCall.jacobianA xk (some uk)) (cb.jacobianA xk (some uk))).run w1 with ⟨e | A', w2⟩ <;>
      rw [hA] at h h2 <;> dsimp only at h h2 ⊢
    · cases h
    rcases h3 : smoothed A' xk Pk ahead.1 ahead.2 xNext PNext with e | s <;> rw [h3] at h <;> simp only [Py.run_bind, Py.run_lift] at h ⊢
    · cases h
    rcases h4 : s.1.assignVec n with e | xrow <;> rw [h4] at h <;> simp only [Py.run_bind, Py.run_lift] at h ⊢
    · cases h
    rcases h5 : s.2.assignMat n with e | Prow <;> rw [h5] at h <;> dsimp only at h ⊢
    · cases h
    obtain ⟨bs, b1, b2⟩ := smoothLoop_log_ok n Q U xEst PEst ks _ _ w2 r h
    refine ⟨⟨xk, uk, A, ahead.1, A'⟩ :: bs, .cons hit b1, ?_⟩
    rw [b2, h2, p1]; simp [BackCalls.calls]

theorem smoothLoop_log_error (n : ℕ) (Q U : NDArray F) (xEst PEst : List (Arr F)) : ∀ (ks : List ℕ) (xs Ps : List (Arr F))
    (w : World (List (CallbackCall F) × σ) F) (e : PyErr),
    ((smoothLoop cb.logged n Q U xEst PEst ks xs Ps).run w).1 = .error e →
    ∃ (bs : List (BackCalls F)) (l : List (CallbackCall F)) (k : ℕ),
      List.Forall₂ (fun k b => xEst[k]? = some b.x ∧ U.item (k + 1) = .ok b.u) (ks.take bs.length) bs ∧
      ks[bs.length]? = some k ∧ (l = [] ∨ ∃ x u, xEst[k]? = some x ∧ U.item (k + 1) = .ok u ∧ PartialBack x u e l) ∧
      logOf ((smoothLoop cb.logged n Q U xEst PEst ks xs Ps).run w).2 = logOf w ++ bs.flatMap BackCalls.calls ++ l
  | [], xs, Ps, w, e, h => by simp [smoothLoop, Py.run_pure'] at h
  | k :: ks, xs, Ps, w, e, h => by
    simp only [smoothLoop, Py.run_bind, Py.run_lift] at h ⊢
    rcases h0 : backItems Q U xEst PEst xs Ps k with e | ⟨Qk, uk, Pk, xk, xNext, PNext⟩ <;> rw [h0] at h <;> dsimp only at h ⊢
    · exact ⟨[], [], k, .nil, rfl, Or.inl rfl, by simp⟩
    obtain ⟨hx, hu⟩ := backItems_ok h0
    obtain ⟨p1, p1'⟩ := predict_log cb xk (some uk) Pk Qk w
    rcases h1 : (predict cb.logged xk (some uk) Pk Qk).run w with ⟨e | ahead, w1⟩ <;> rw [h1] at h p1 p1' <;>
      simp only [Py.run_bind] at h p1 p1' ⊢
    · cases h
      obtain ⟨l, l1, l2⟩ := p1' _ rfl
      exact ⟨[], l, k, .nil, rfl, Or.inr ⟨xk, uk, hx, hu, .predict l1⟩, by simpa using l2⟩
    obtain ⟨A, p1⟩ := p1 _ rfl
    have h2 := logCall_run (CallbackCall.jacobianA xk (some uk)) (cb.jacobianA xk (some uk)) w1
    simp only [show cb.logged.jacobianA xk (some uk) = logCall (CallbackCall.jacobianA xk (some uk)) (cb.jacobianA xk (some uk)) from rfl]
      at h ⊢
    rcases hA : (logCall (CallbackCall.jacobianA xk (some uk)) (cb.jacobianA xk (some uk))).run w1 with ⟨e | A', w2⟩ <;>
      rw [hA] at h h2 <;> dsimp only at h h2 ⊢
    · cases h
      exact ⟨[], _, k, .nil, rfl, Or.inr ⟨xk, uk, hx, hu, .jacobianA A ahead.1⟩, by rw [h2, p1]; simp⟩
    have fin : PartialBack xk uk e [.jacobianA xk (some uk) (.ok A), .f xk (some uk) (.ok ahead.1), .jacobianA xk (some uk) (.ok A')] :=
      .after A ahead.1 A'
    rcases h3 : smoothed A' xk Pk ahead.1 ahead.2 xNext PNext with e | s <;> rw [h3] at h <;> simp only [Py.run_bind, Py.run_lift] at h ⊢
    · cases h
      exact ⟨[], _, k, .nil, rfl, Or.inr ⟨xk, uk, hx, hu, fin⟩, by rw [h2, p1]; simp⟩
    rcases h4 : s.1.assignVec n with e | xrow <;> rw [h4] at h <;> simp only [Py.run_bind, Py.run_lift] at h ⊢
    · cases h
      exact ⟨[], _, k, .nil, rfl, Or.inr ⟨xk, uk, hx, hu, fin⟩, by rw [h2, p1]; simp⟩
    rcases h5 : s.2.assignMat n with e | Prow <;> rw [h5] at h <;> dsimp only at h ⊢
    · cases h
      exact ⟨[], _, k, .nil, rfl, Or.inr ⟨xk, uk, hx, hu, fin⟩, by rw [h2, p1]; simp⟩
    obtain ⟨bs, l, j, b1, b2, b3, b4⟩ := smoothLoop_log_error n Q U xEst PEst ks _ _ w2 e h
    refine ⟨⟨xk, uk, A, ahead.1, A'⟩ :: bs, l, j, ?_, by simpa using b2, b3, ?_⟩
    · simp only [List.length_cons, List.take_succ_cons]; exact .cons ⟨hx, hu⟩ b1
    · rw [b4, h2, p1]; simp [BackCalls.calls]

end Stateful

end KK
