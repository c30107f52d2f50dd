import Verif.Props.Calls

/-!
# Callbacks that count their calls: models that change with time (C144)
-/

set_option linter.unusedSectionVars false
set_option linter.unusedVariables false
set_option linter.unusedSimpArgs false

namespace KK

open Stateful Matrix

section

variable {F : Type} [Backend F] {step : ℕ → ExtendedKalmanFilter F}

theorem predict_counting {i ch cH : ℕ} {a : EkfAttrs F} {x P Q : Arr F} {u : Option (Arr F)} {v : Arr F × Arr F}
    (h : (step i).predict x u P Q = .ok v) :
    (predict (counting step) x u P Q).run ⟨⟨i, ch, i, cH⟩, a⟩ = (.ok v, ⟨⟨i + 1, ch, i + 1, cH⟩, a⟩) := by
  simp only [ExtendedKalmanFilter.predict] at h
  simp only [predict, counting, Py.run_bind, Py.run_lift, priorCovariance]
  rcases h1 : (step i).jacobianA x u with e | A <;> rw [h1] at h
  · cases h
  rcases h2 : (step i).f x u with e | xp <;> rw [h2] at h
  · cases h
  simp only [Except.bind_ok'] at h ⊢
  rcases h3 : P.matmul A.T with e | pat <;> rw [h3] at h
  · cases h
  simp only [Except.bind_ok'] at h ⊢
  rcases h4 : A.matmul pat with e | apat <;> rw [h4] at h
  · cases h
  simp only [Except.bind_ok'] at h ⊢
  rcases h5 : apat.add Q with e | r <;> rw [h5] at h
  · cases h
  simp only [Except.bind_ok', Except.ok.injEq] at h
  subst h
  simp only [h2]
  rfl

theorem update_counting {i cf cA : ℕ} {a : EkfAttrs F} {x P z R H K : Arr F} {v : Arr F × Arr F}
    (hH : (step i).jacobianH x = .ok H) (hK : ExtendedKalmanFilter.gain H P R = .ok K)
    (h : ({ step i with I := a.I } : ExtendedKalmanFilter F).correct K H x P z = .ok v) :
    (update (counting step) x P z R).run ⟨⟨cf, i, cA, i⟩, a⟩ =
      (.ok v, ⟨⟨cf, i + 1, cA, i + 1⟩, { a with kalmanGains := a.kalmanGains ++ [K] }⟩) := by
  simp only [ExtendedKalmanFilter.correct] at h
  simp only [update, counting, Py.run_bind, Py.run_lift, hH, hK, record, attrs, newMean, newCovariance]
  rcases h1 : (step i).h x with e | hx <;> rw [h1] at h
  · cases h
  simp only [Except.bind_ok'] at h ⊢
  rcases h2 : z.sub hx with e | res <;> rw [h2] at h
  · cases h
  simp only [Except.bind_ok'] at h ⊢
  rcases h3 : K.matmul res.atleast1d with e | corr <;> rw [h3] at h
  · cases h
  simp only [Except.bind_ok'] at h ⊢
  rcases h4 : x.add corr with e | xp <;> rw [h4] at h
  · cases h
  simp only [Except.bind_ok'] at h ⊢
  rcases h5 : K.matmul H with e | kh <;> rw [h5] at h
  · cases h
  simp only [Except.bind_ok'] at h ⊢
  rcases h6 : a.I.sub kh with e | ikh <;> rw [h6] at h
  · cases h
  simp only [Except.bind_ok'] at h ⊢
  rcases h7 : ikh.matmul P with e | Pp <;> rw [h7] at h
  · cases h
  simp only [Except.bind_ok', Except.ok.injEq] at h
  subst h
  rfl

theorem update_counting_singular {i cf cA : ℕ} {a : EkfAttrs F} {x P z R H : Arr F} {e : PyErr}
    (hH : (step i).jacobianH x = .ok H) (hK : ExtendedKalmanFilter.gain H P R = .error e) :
    (update (counting step) x P z R).run ⟨⟨cf, i, cA, i⟩, a⟩ = (.error e, ⟨⟨cf, i, cA, i + 1⟩, a⟩) := by
  simp only [update, counting, Py.run_bind, Py.run_lift, hH, hK]

end

section

variable [Platform] {n m : ℕ} {step : ℕ → ExtendedKalmanFilter Fl}

/-- The rows of the remaining steps hold the models of the remaining steps. -/
def RowsAre (step : ℕ → ExtendedKalmanFilter Fl) : ℕ → List (ExtStep n m) → List (ExtendedKalmanFilter.Row Fl) → Prop
  | _, [], [] => True
  | i, s :: ss, r :: rs => ExtRowIs (step i) s r ∧ RowsAre step (i + 1) ss rs
  | _, _, _ => False

theorem rowsAre_of_get : ∀ (i : ℕ) (ss : List (ExtStep n m)) (rs : List (ExtendedKalmanFilter.Row Fl)), ss.length = rs.length →
    (∀ k s r, ss[k]? = some s → rs[k]? = some r → ExtRowIs (step (i + k)) s r) → RowsAre step i ss rs
  | i, [], [], _, _ => trivial
  | i, s :: ss, r :: rs, hl, h => ⟨by simpa using h 0 s r rfl rfl, rowsAre_of_get (i + 1) ss rs (by simpa using hl) fun k s' r' h1 h2 => by
      have := h (k + 1) s' r' (by simpa using h1) (by simpa using h2)
      rwa [show i + 1 + k = i + (k + 1) by omega]⟩
  | i, [], _ :: _, hl, _ => by simp at hl
  | i, _ :: _, [], hl, _ => by simp at hl

theorem one_counting {i : ℕ} {a : EkfAttrs Fl} {s : ExtStep n m} {uk zk Qk Rk : Arr Fl} {b : Belief n} {x P : Arr Fl}
    (h : ExtRowIs (step i) s (uk, zk, Qk, Rk)) (hI : a.I = Arr.identity n) (hx : VecIs b.x x) (hP : MatIs b.P P) :
    ∃ prior, (predict (counting step) x (some uk) P Qk).run ⟨⟨i, i, i, i⟩, a⟩ = (.ok prior, ⟨⟨i + 1, i, i + 1, i⟩, a⟩) ∧
      ((s.innov (s.predict b)).det = 0 → (update (counting step) prior.1 prior.2 zk Rk).run ⟨⟨i + 1, i, i + 1, i⟩, a⟩ =
        (.error .linAlgError, ⟨⟨i + 1, i, i + 1, i + 1⟩, a⟩)) ∧
      ((s.innov (s.predict b)).det ≠ 0 → (update (counting step) prior.1 prior.2 zk Rk).run ⟨⟨i + 1, i, i + 1, i⟩, a⟩ =
        (.ok (stateRow (s.next b), covRow (s.next b)),
          ⟨⟨i + 1, i + 1, i + 1, i + 1⟩, { a with kalmanGains := a.kalmanGains ++ [gainRow (s.gain (s.predict b))] }⟩)) := by
  simp only [ExtRowIs] at h
  obtain ⟨d, e, hp⟩ := extPredict_exact h hx hP
  obtain ⟨J, hJ, dJ, rfl⟩ := h.jH (s.predict b).x (.vec d (finV (s.predict b).x)) ⟨_, rfl⟩
  refine ⟨_, predict_counting hp, fun h0 => ?_, fun h0 => ?_⟩
  · exact update_counting_singular hJ (by rw [extGain_exact h, if_pos h0])
  · have h' : ExtStepIs { step i with I := a.I } s uk zk Qk Rk := ⟨h.f, h.jA, h.h, h.jH, h.z, h.Q, h.R⟩
    exact update_counting hJ (by rw [extGain_exact h, if_neg h0]; rfl) (extCorrect_exact h' hI)

theorem loop_counting : ∀ (ss : List (ExtStep n m)) (rs : List (ExtendedKalmanFilter.Row Fl)) (i k : ℕ) (a : EkfAttrs Fl) (b : Belief n)
    (x P : Arr Fl) (states errors : List (Arr Fl)), RowsAre step i ss rs → a.I = Arr.identity n → VecIs b.x x → MatIs b.P P →
    (ExtSolvable b ss → (filterLoop (counting step) n k rs x P states errors).run ⟨⟨i, i, i, i⟩, a⟩ =
      (.ok (overwrite k ((extFiltered b ss).map stateRow) states, overwrite k ((extFiltered b ss).map covRow) errors),
        ⟨⟨i + ss.length, i + ss.length, i + ss.length, i + ss.length⟩,
          { a with kalmanGains := a.kalmanGains ++ (extGainsOf b ss).map gainRow }⟩)) ∧
    (∀ t, ExtSolvable b (ss.take t) → ¬ ExtSolvable b (ss.take (t + 1)) →
      (filterLoop (counting step) n k rs x P states errors).run ⟨⟨i, i, i, i⟩, a⟩ =
      (.error .linAlgError, ⟨⟨i + t + 1, i + t, i + t + 1, i + t + 1⟩,
          { a with kalmanGains := a.kalmanGains ++ (extGainsOf b (ss.take t)).map gainRow }⟩))
  | [], [], i, k, a, b, x, P, states, errors, hr, hI, hx, hP => by
    simp [filterLoop, extFiltered, extGainsOf, overwrite, ExtSolvable]
  | s :: ss, (uk, zk, Qk, Rk) :: rs, i, k, a, b, x, P, states, errors, hr, hI, hx, hP => by
    obtain ⟨prior, h1, h2, h3⟩ := one_counting hr.1 hI hx hP
    simp only [filterLoop, Py.run_bind, Py.run_lift, h1]
    by_cases h0 : (s.innov (s.predict b)).det = 0
    · refine ⟨fun hh => absurd h0 hh.1, ?_⟩
      rintro (_ | t) ht ht'
      · simp [h2 h0, extGainsOf]
      · exact absurd h0 ht.1
    · rw [h3 h0]
      simp only [stateRow, covRow, Arr.assignVec_vec, Arr.assignMat_mat]
      obtain ⟨ih1, ih2⟩ := loop_counting ss rs (i + 1) (k + 1)
        { a with kalmanGains := a.kalmanGains ++ [gainRow (s.gain (s.predict b))] } (s.next b) (stateRow (s.next b)) (covRow (s.next b))
        (states.set k (stateRow (s.next b))) (errors.set k (covRow (s.next b))) hr.2 hI ⟨_, rfl⟩ ⟨_, rfl⟩
      simp only [stateRow, covRow] at ih1 ih2
      refine ⟨fun hh => ?_, ?_⟩
      · rw [ih1 hh.2]
        simp only [extFiltered, extGainsOf, List.map_cons, overwrite, List.length_cons, List.append_assoc, List.singleton_append,
          stateRow, covRow, show i + 1 + ss.length = i + (ss.length + 1) by omega]
      · rintro (_ | t) ht ht'
        · exact absurd ⟨h0, trivial⟩ ht'
        · rw [ih2 t ht.2 (fun hh => ht' ⟨h0, hh⟩)]
          simp only [extGainsOf, List.take_succ_cons, List.map_cons, List.append_assoc, List.singleton_append,
            show i + 1 + t = i + (t + 1) by omega]
  | [], _ :: _, i, k, a, b, x, P, states, errors, hr, hI, hx, hP => by simp [RowsAre] at hr
  | _ :: _, [], i, k, a, b, x, P, states, errors, hr, hI, hx, hP => by simp [RowsAre] at hr

theorem CountingRepresents.loop {j : ℕ} {a : EkfAttrs Fl} {Z : NDArray Fl} {U : Option (NDArray Fl)} {b : Belief n} {ss : List (ExtStep n m)}
    (h : CountingRepresents step j a Z U b ss) (c : Counts) :
    ∃ rs, RowsAre step j ss rs ∧ (Stateful.filter (counting step) Z U).run ⟨c, a⟩ =
      (filterLoop (counting step) n 0 rs a.xk a.Pk (List.replicate Z.rows.length (Arr.zerosVec n))
        (List.replicate Z.rows.length (Arr.zerosMat n))).run ⟨c, a⟩ := by
  obtain ⟨u, hu⟩ := h.iterU.exists
  obtain ⟨z, hz⟩ := h.iterZ.exists
  obtain ⟨q, hq⟩ := h.iterQ.exists
  obtain ⟨r, hr⟩ := h.iterR.exists
  have e0 : (effU U Z).rows = u := by rw [hu]; rfl
  have e1 : Z.rows = z := by rw [hz]; rfl
  have e2 : a.Q.rows = q := by rw [hq]; rfl
  have e3 : a.R.rows = r := by rw [hr]; rfl
  refine ⟨u.zip (z.zip (q.zip r)), rowsAre_of_get _ _ _ ?_ ?_, ?_⟩
  · rw [h.len, EkfAttrs.steps, e0, e1, e2, e3]; simp
  · rintro k s ⟨uk, zk, Qk, Rk⟩ hs hrow
    simp only [List.getElem?_zip_eq_some] at hrow
    obtain ⟨h4, h5, h6, h7⟩ := hrow
    exact h.rows k s uk zk Qk Rk hs (by rw [e0]; exact h4) (by rw [e1]; exact h5) (by rw [e2]; exact h6) (by rw [e3]; exact h7)
  · have hzip : ExtendedKalmanFilter.zipRows (checkNoneAndBroadcast U Z) Z a.Q a.R = .ok (u.zip (z.zip (q.zip r))) := by
      rw [show checkNoneAndBroadcast U Z = effU U Z from rfl, hu, hz, hq, hr]; rfl
    have hlen : Z.len = .ok Z.rows.length := by rw [hz]; rfl
    simp only [Stateful.filter, Py.run_bind, attrs, Py.run_lift, hlen, hzip, h.size]

variable {j : ℕ} {a : EkfAttrs Fl} {Z : NDArray Fl} {U : Option (NDArray Fl)} {b : Belief n} {ss : List (ExtStep n m)}

/-- C144 (filter): callbacks that count their calls and compute the functions of step `k` at their `k`-th call: if all counters stand at `j`,
`filter` returns exactly the filtered means and covariances of the textbook extended filter with the models of steps `j`, `j + 1`, …, and all counters stand
at `j + L` after `L` steps, so that the next call of `filter` goes on with the models from there. -/
theorem C144_filter_time_varying (h : CountingRepresents step j a Z U b ss) (hs : ExtSolvable b ss) :
    (Stateful.filter (counting step) Z U).run ⟨⟨j, j, j, j⟩, a⟩ =
      (.ok ((extFiltered b ss).map stateRow ++ List.replicate (Z.rows.length - ss.length) (Arr.zerosVec n),
            (extFiltered b ss).map covRow ++ List.replicate (Z.rows.length - ss.length) (Arr.zerosMat n)),
       ⟨⟨j + ss.length, j + ss.length, j + ss.length, j + ss.length⟩,
         { a with kalmanGains := a.kalmanGains ++ (extGainsOf b ss).map gainRow }⟩) := by
  obtain ⟨rs, h1, h2⟩ := h.loop ⟨j, j, j, j⟩
  have hle : ss.length ≤ Z.rows.length := by rw [h.len, EkfAttrs.steps]; omega
  rw [h2, (loop_counting ss rs j 0 a b a.xk a.Pk _ _ h1 h.ident h.x h.P).1 hs,
    overwrite_zero_replicate _ _ _ (by rw [List.length_map, extFiltered_length]; exact hle),
    overwrite_zero_replicate _ _ _ (by rw [List.length_map, extFiltered_length]; exact hle)]
  simp only [List.length_map, extFiltered_length]

/-- C144 (after an error the counters disagree): if the innovation covariance of step `t` is the first singular one, `filter` raises
LinAlgError, and leaves the counter of `h` one behind the others. -/
theorem C144_counters_after_error (h : CountingRepresents step j a Z U b ss) (t : ℕ) (ht : ExtSolvable b (ss.take t))
    (ht' : ¬ ExtSolvable b (ss.take (t + 1))) :
    (Stateful.filter (counting step) Z U).run ⟨⟨j, j, j, j⟩, a⟩ =
      (.error .linAlgError, ⟨{ f := j + t + 1, h := j + t, jacobianA := j + t + 1, jacobianH := j + t + 1 },
        { a with kalmanGains := a.kalmanGains ++ (extGainsOf b (ss.take t)).map gainRow }⟩) := by
  obtain ⟨rs, h1, h2⟩ := h.loop ⟨j, j, j, j⟩
  rw [h2, (loop_counting ss rs j 0 a b a.xk a.Pk _ _ h1 h.ident h.x h.P).2 t ht ht']

end

/-! ## Smoothing -/

section

variable {F : Type} [Backend F] {step : ℕ → ExtendedKalmanFilter F}

theorem predict_counts {x P Q : Arr F} {u : Option (Arr F)} {w : World Counts F} (v : Arr F × Arr F)
    (h : ((predict (counting step) x u P Q).run w).1 = .ok v) :
    ((predict (counting step) x u P Q).run w).2.user = { w.user with f := w.user.f + 1, jacobianA := w.user.jacobianA + 1 } := by
  simp only [predict, counting, Py.run_bind, Py.run_lift] at h ⊢
  rcases h1 : (step w.user.jacobianA).jacobianA x u with e | A <;> rw [h1] at h <;> dsimp only at h ⊢
  · cases h
  rcases h2 : (step w.user.f).f x u with e | y <;> rewrite [h2] at h <;> dsimp only at h
  · cases h
  rcases h3 : priorCovariance A P Q with e | y' <;> rewrite [h3] at h <;> dsimp only at h
  · cases h
  rfl

theorem update_counts {x P z R : Arr F} {w : World Counts F} (v : Arr F × Arr F)
    (h : ((update (counting step) x P z R).run w).1 = .ok v) :
    ((update (counting step) x P z R).run w).2.user = { w.user with h := w.user.h + 1, jacobianH := w.user.jacobianH + 1 } := by
  simp only [update, counting, Py.run_bind, Py.run_lift, record, attrs] at h ⊢
  rcases h1 : (step w.user.jacobianH).jacobianH x with e | A <;> rw [h1] at h <;> dsimp only at h ⊢
  · cases h
  rcases h2 : ExtendedKalmanFilter.gain A P R with e | K <;> rw [h2] at h <;> dsimp only at h ⊢
  · cases h
  rcases h3 : (step w.user.h).h x with e | y <;> rewrite [h3] at h <;> dsimp only at h
  · cases h
  rcases h4 : newMean K x z y with e | y' <;> rewrite [h4] at h <;> dsimp only at h
  · cases h
  rcases h5 : newCovariance w.self.I K A P with e | y'' <;> rewrite [h5] at h <;> dsimp only at h
  · cases h
  simp only [h4, h5]
  rfl

theorem loop_counts (n : ℕ) : ∀ (rows : List (ExtendedKalmanFilter.Row F)) (k : ℕ) (x P : Arr F) (states errors : List (Arr F))
    (w : World Counts F) (r : List (Arr F) × List (Arr F)),
    ((filterLoop (counting step) n k rows x P states errors).run w).1 = .ok r →
    ((filterLoop (counting step) n k rows x P states errors).run w).2.user =
      { f := w.user.f + rows.length, h := w.user.h + rows.length, jacobianA := w.user.jacobianA + rows.length,
        jacobianH := w.user.jacobianH + rows.length }
  | [], k, x, P, states, errors, w, r, h => by simp [filterLoop, Py.run_pure']
  | (u, z, Q, R) :: rows, k, x, P, states, errors, w, r, h => by
    simp only [filterLoop, Py.run_bind, Py.run_lift] at h ⊢
    have p1 := predict_counts (step := step) (x := x) (P := P) (Q := Q) (u := some u) (w := w)
    rcases h1 : (predict (counting step) x (some u) P Q).run w with ⟨e | prior, w1⟩ <;> rw [h1] at h p1 <;> dsimp only at h p1 ⊢
    · cases h
    have p1 := p1 _ rfl
    have p2 := update_counts (step := step) (x := prior.1) (P := prior.2) (z := z) (R := R) (w := w1)
    rcases h2 : (update (counting step) prior.1 prior.2 z R).run w1 with ⟨e | post, w2⟩ <;> rw [h2] at h p2 <;> dsimp only at h p2 ⊢
    · cases h
    have p2 := p2 _ rfl
    rcases h3 : post.1.assignVec n with e | srow <;> rw [h3] at h <;> dsimp only at h ⊢
    · cases h
    rcases h4 : post.2.assignMat n with e | erow <;> rw [h4] at h <;> dsimp only at h ⊢
    · cases h
    rw [loop_counts n rows (k + 1) _ _ _ _ w2 r h, p2, p1]
    simp only [List.length_cons, Counts.mk.injEq]
    omega

theorem back_counts (n : ℕ) (Q U : NDArray F) (xEst PEst : List (Arr F)) : ∀ (ks : List ℕ) (xs Ps : List (Arr F))
    (w : World Counts F) (r : List (Arr F) × List (Arr F)),
    ((smoothLoop (counting step) n Q U xEst PEst ks xs Ps).run w).1 = .ok r →
    ((smoothLoop (counting step) n Q U xEst PEst ks xs Ps).run w).2.user =
      { w.user with f := w.user.f + ks.length, jacobianA := w.user.jacobianA + 2 * ks.length }
  | [], xs, Ps, w, r, h => by simp [smoothLoop, Py.run_pure']
  | k :: ks, xs, Ps, w, r, h => by
    simp only [smoothLoop, Py.run_bind, Py.run_lift] at h ⊢
    rcases h0 : backItems Q U xEst PEst xs Ps k with e | ⟨Qk, uk, Pk, xk, xNext, PNext⟩ <;> rw [h0] at h <;> dsimp only at h ⊢
    · cases h
    have p1 := predict_counts (step := step) (x := xk) (P := Pk) (Q := Qk) (u := some uk) (w := w)
    rcases h1 : (predict (counting step) xk (some uk) Pk Qk).run w with ⟨e | ahead, w1⟩ <;> rw [h1] at h p1 <;> simp only [Py.run_bind] at h p1 ⊢
    · cases h
    have p1 := p1 _ rfl
    rcases hA : (counting step).jacobianA xk (some uk) |>.run w1 with ⟨e | A', w2⟩ <;> rw [hA] at h <;> dsimp only at h ⊢
    · cases h
    have p2 : w2.user = { w1.user with jacobianA := w1.user.jacobianA + 1 } := by
      simp only [counting, Prod.mk.injEq] at hA
      rw [← hA.2]
    rcases h3 : Stateful.smoothed A' xk Pk ahead.1 ahead.2 xNext PNext with e | s <;> rw [h3] at h <;> simp only [Py.run_bind, Py.run_lift] at h ⊢
    · cases h
    rcases h4 : s.1.assignVec n with e | xrow <;> rw [h4] at h <;> simp only [Py.run_bind, Py.run_lift] at h ⊢
    · cases h
    rcases h5 : s.2.assignMat n with e | Prow <;> rw [h5] at h <;> dsimp only at h ⊢
    · cases h
    rw [back_counts n Q U xEst PEst ks _ _ w2 r h, p2, p1]
    simp only [List.length_cons, Counts.mk.injEq, true_and, and_true]
    omega

/-- C144 (smooth, counters): when `smooth` returns on `n` observations with `L` steps, `h` and `jacobian_H` have been called `L` times,
but `f` another `n - 1` times and `jacobian_A` another `2 (n - 1)` times: with two observations or more the counters no longer agree. -/
theorem C144_counters_after_smooth (a : EkfAttrs F) (Z : NDArray F) (U : Option (NDArray F)) (j : ℕ) (r : List (Arr F) × List (Arr F))
    (w' : World Counts F) (h : (Stateful.smooth (counting step) Z U).run ⟨⟨j, j, j, j⟩, a⟩ = (.ok r, w')) :
    w'.user = { f := j + a.steps Z U + (Z.rows.length - 1), h := j + a.steps Z U,
                jacobianA := j + a.steps Z U + 2 * (Z.rows.length - 1), jacobianH := j + a.steps Z U } := by
  rcases smooth_unfold (counting step) Z U ⟨⟨j, j, j, j⟩, a⟩ with ⟨e, w1, -, h2⟩ | ⟨fx, fP, w1, h1, ⟨e, h2⟩ | ⟨xs, Ps, h2⟩⟩
  · rw [h] at h2; simp at h2
  · rw [h] at h2; simp at h2
  rw [h] at h2
  have hb := back_counts (step := step) w1.self.stateSize w1.self.Q (checkNoneAndBroadcast U Z) fx fP _ xs Ps w1 r (by rw [← h2])
  rw [← h2] at hb
  rcases filter_unfold (counting step) Z U ⟨⟨j, j, j, j⟩, a⟩ with ⟨e, he⟩ | ⟨len, rows, g1, g2, g3⟩
  · rw [h1] at he; simp at he
  have hl := loop_counts (step := step) a.stateSize rows 0 a.xk a.Pk (List.replicate len (Arr.zerosVec a.stateSize))
    (List.replicate len (Arr.zerosMat a.stateSize)) ⟨⟨j, j, j, j⟩, a⟩ (fx, fP) (by rw [← g3, h1])
  rw [← g3, h1] at hl
  simp only at hl hb
  rw [hb, hl, (rows_of_zip (a := a) g2).1]
  simp

end

section

variable [Platform] {n m : ℕ} {step : ℕ → ExtendedKalmanFilter Fl} {j : ℕ} {a : EkfAttrs Fl} {Z : NDArray Fl} {U : Option (NDArray Fl)}
  {b : Belief n} {ss : List (ExtStep n m)}

/-- C144 (smooth runs past the models): in the situation of `C144_filter_time_varying`, with `L ≥ 2` observations and a `jacobian_A` that raises `e`
at call `j + L` (there is no model for a step that does not exist), `filter` returns but `smooth` raises `e`: the backward pass does not go back
to the models of the steps. -/
theorem C144_smooth_runs_out (h : CountingRepresents step j a Z U b ss) (hs : ExtSolvable b ss) (hfull : ss.length = Z.rows.length)
    (h2 : 2 ≤ ss.length) (e : PyErr) (he : ∀ x u, (step (j + ss.length)).jacobianA x u = .error e) :
    ∃ w', (Stateful.smooth (counting step) Z U).run ⟨⟨j, j, j, j⟩, a⟩ = (.error e, w') := by
  have hf := C144_filter_time_varying h hs
  rw [hfull, Nat.sub_self, List.replicate_zero, List.append_nil, List.replicate_zero, List.append_nil] at hf
  obtain ⟨z, hz⟩ := h.iterZ.exists
  obtain ⟨u, hu⟩ := h.iterU.exists
  obtain ⟨q, hq⟩ := h.iterQ.exists
  have hlen : Z.len = .ok Z.rows.length := by rw [hz]; rfl
  have hl := extFiltered_length b ss
  obtain ⟨last, hlast⟩ : ∃ last, (extFiltered b ss)[Z.rows.length - 1]? = some last :=
    ⟨_, List.getElem?_eq_getElem (by rw [hl]; omega)⟩
  have hx : lastRow Z.rows.length ((extFiltered b ss).map stateRow) = .ok (stateRow last) := by
    rw [lastRow, if_neg (by omega), getRow]
    simp only [List.getElem?_map, hlast, Option.map_some]
  have hP : lastRow Z.rows.length ((extFiltered b ss).map covRow) = .ok (covRow last) := by
    rw [lastRow, if_neg (by omega), getRow]
    simp only [List.getElem?_map, hlast, Option.map_some]
  have hst := h.len
  have hul : (effU U Z).rows.length = u.length := by rw [hu]; rfl
  have hql : a.Q.rows.length = q.length := by rw [hq]; rfl
  rw [EkfAttrs.steps, hul, hql] at hst
  obtain ⟨K, hK⟩ : ∃ K, Z.rows.length = K + 2 := ⟨Z.rows.length - 2, by omega⟩
  have hr : (List.range (Z.rows.length - 1)).reverse = K :: (List.range K).reverse := by
    rw [hK, show K + 2 - 1 = K + 1 by omega, List.range_succ, List.reverse_append]; rfl
  simp only [Stateful.smooth, Py.run_bind, hf, attrs, Py.run_lift, hlen, hx, hP, h.size, hr]
  simp only [stateRow, covRow, Arr.assignVec_vec, Arr.assignMat_mat, Stateful.smoothLoop, Py.run_bind, Py.run_lift]
  have hq1 : ∃ Qk, a.Q.item (K + 1) = .ok Qk := by
    refine ⟨q[K + 1]'(by omega), ?_⟩
    rw [hq]; simp only [NDArray.item]; rw [List.getElem?_eq_getElem (by omega)]
  have hu1 : ∃ uk, (checkNoneAndBroadcast U Z).item (K + 1) = .ok uk := by
    refine ⟨u[K + 1]'(by omega), ?_⟩
    rw [show checkNoneAndBroadcast U Z = effU U Z from rfl, hu]
    simp only [NDArray.item]; rw [List.getElem?_eq_getElem (by omega)]
  obtain ⟨Qk, hq1⟩ := hq1
  obtain ⟨uk, hu1⟩ := hu1
  have hgx : ∃ xk, getRow ((extFiltered b ss).map stateRow) K = .ok xk := by
    refine ⟨_, by rw [getRow, List.getElem?_eq_getElem (by rw [List.length_map, hl]; omega)]⟩
  have hgP : ∃ Pk, getRow ((extFiltered b ss).map covRow) K = .ok Pk := by
    refine ⟨_, by rw [getRow, List.getElem?_eq_getElem (by rw [List.length_map, hl]; omega)]⟩
  obtain ⟨xk, hgx⟩ := hgx
  obtain ⟨Pk, hgP⟩ := hgP
  have hnx : ∀ (l : List (Arr Fl)) (r : Arr Fl), l.length = Z.rows.length → ∃ v, getRow (l.set (Z.rows.length - 1) r) (K + 1) = .ok v :=
    fun l r hl => ⟨_, by rw [getRow, List.getElem?_eq_getElem (by rw [List.length_set, hl]; omega)]⟩
  obtain ⟨xn, hxn⟩ := hnx (List.replicate Z.rows.length (Arr.zerosVec n)) (.vec DType.float64 (finV last.x)) (by simp)
  obtain ⟨Pn, hPn⟩ := hnx (List.replicate Z.rows.length (Arr.zerosMat n)) (.mat DType.float64 (finM last.P)) (by simp)
  simp only [backItems, hq1, hu1, hgx, hgP, hxn, hPn, Except.bind_ok']
  have hp : ∀ (w : World Counts Fl), w.user.jacobianA = j + ss.length →
      ((Stateful.predict (counting step) xk (some uk) Pk Qk).run w).1 = .error e := by
    intro w hw
    simp only [Stateful.predict, Py.run_bind, counting, hw, he]
  have hq : ∀ (w : World Counts Fl), w.user.jacobianA = j + ss.length →
      (Stateful.predict (counting step) xk (some uk) Pk Qk).run w =
        (.error e, ((Stateful.predict (counting step) xk (some uk) Pk Qk).run w).2) := by
    intro w hw
    rw [← hp w hw]
  rw [hq _ (by rw [hfull])]
  exact ⟨_, rfl⟩

end

/-! ## Cases that meet the hypotheses -/

section

variable [Platform] {n m : ℕ}

/-- The user keeps a list of models and looks up `models[count]`: IndexError when there is none. -/
noncomputable def Ex.modelsOf (b : Belief n) (ss : List (ExtStep n m)) (k : ℕ) : ExtendedKalmanFilter Fl :=
  match ss[k]? with
  | some s => Ex.extEncode s.f s.jA s.h s.jH b ss
  | none => { Ex.extEncode (m := m) (fun v => v) (fun _ => 0) (fun _ => 0) (fun _ => 0) b ss with
      f := fun _ _ => .error .indexError, jacobianA := fun _ _ => .error .indexError, h := fun _ => .error .indexError,
      jacobianH := fun _ => .error .indexError }

theorem Ex.modelsOf_represents (b : Belief n) (ss : List (ExtStep n m)) :
    CountingRepresents (Ex.modelsOf b ss) 0 (Ex.modelsOf b ss 0).attrs (Ex.extEncZ ss) (some (Ex.extEncZ ss)) b ss := by
  have hQ : (Ex.modelsOf b ss 0).Q = .stack (ss.map fun s => .mat .float64 (finM s.Q)) := by unfold Ex.modelsOf; split <;> rfl
  have hR : (Ex.modelsOf b ss 0).R = .stack (ss.map fun s => .mat .float64 (finM s.R)) := by unfold Ex.modelsOf; split <;> rfl
  refine ⟨trivial, trivial, by simp only [ExtendedKalmanFilter.attrs, hQ]; trivial, by simp only [ExtendedKalmanFilter.attrs, hR]; trivial,
    ?_, ?_, ?_, ?_, ?_, ?_⟩
  · simp [EkfAttrs.steps, ExtendedKalmanFilter.attrs, hQ, hR, Ex.extEncZ, effU, checkNoneAndBroadcast, NDArray.rows]
  · simp only [ExtendedKalmanFilter.attrs, Ex.modelsOf]; split <;> rfl
  · simp only [ExtendedKalmanFilter.attrs, Ex.modelsOf]; split <;> rfl
  · simp only [ExtendedKalmanFilter.attrs, Ex.modelsOf]; split <;> exact ⟨_, rfl⟩
  · simp only [ExtendedKalmanFilter.attrs, Ex.modelsOf]; split <;> exact ⟨_, rfl⟩
  · intro k s uk zk Qk Rk hs hu hz hq hr
    simp only [ExtendedKalmanFilter.attrs, hQ, hR] at hq hr
    simp only [Ex.extEncZ, effU, checkNoneAndBroadcast, NDArray.rows, List.getElem?_map, hs, Option.map_some, Option.some.injEq] at hu hz hq hr
    subst hu hz hq hr
    simp only [Nat.zero_add, Ex.modelsOf, hs]
    exact ⟨fun v x hv => Ex.callV_is s.f v x hv, fun v x hv => Ex.callM_is s.jA v x hv,
      fun v x hv => by obtain ⟨y, h1, h2⟩ := Ex.callV_is s.h v x hv; exact ⟨y, h1, .inl h2⟩,
      fun v x hv => Ex.callM_is s.jH v x hv, .inl ⟨_, rfl⟩, .inl ⟨_, rfl⟩, .inl ⟨_, rfl⟩⟩

/-- C144: any list of two or more models, each step with its own functions, noise and data: `filter` returns the textbook values, and
`smooth` raises IndexError. -/
example (b : Belief n) (ss : List (ExtStep n m)) (h2 : 2 ≤ ss.length) (hP : b.P.PosSemidef) (hQ : ∀ s ∈ ss, s.Q.PosSemidef)
    (hR : ∀ s ∈ ss, s.R.PosDef) :
    ((Stateful.filter (counting (Ex.modelsOf b ss)) (Ex.extEncZ ss) (some (Ex.extEncZ ss))).run
      ⟨⟨0, 0, 0, 0⟩, (Ex.modelsOf b ss 0).attrs⟩).1 = .ok ((extFiltered b ss).map stateRow, (extFiltered b ss).map covRow) ∧
    ∃ w', (Stateful.smooth (counting (Ex.modelsOf b ss)) (Ex.extEncZ ss) (some (Ex.extEncZ ss))).run
      ⟨⟨0, 0, 0, 0⟩, (Ex.modelsOf b ss 0).attrs⟩ = (.error .indexError, w') := by
  have hs := extSolvable_psd hP hQ hR
  have hr := Ex.modelsOf_represents b ss
  constructor
  · rw [C144_filter_time_varying hr hs, Ex.extEncZ_length]
    simp
  · exact C144_smooth_runs_out hr hs (Ex.extEncZ_length ss).symm h2 _ fun x u => by
      simp [Ex.modelsOf]

/-- C144: a singular first step. -/
example : ∃ (b : Belief 1) (ss : List (ExtStep 1 1)), ExtSolvable b (ss.take 0) ∧ ¬ ExtSolvable b (ss.take (0 + 1)) := by
  refine ⟨⟨0, 0⟩, [⟨fun v => v, fun _ => 0, fun v => v, fun _ => 0, 0, 0, 0⟩], trivial, fun h => h.1 ?_⟩
  simp [ExtStep.innov, innovCov]

/-- C144: counting callbacks of the same model at each step: `smooth` returns, with the counters apart. -/
example (zs : List ℝ) (hne : zs ≠ []) : let ss := zs.map Ex.curved
    let b : Belief 2 := ⟨![1, 2], 1⟩
    let kf := Ex.extEncode (Ex.curved 0).f (Ex.curved 0).jA (Ex.curved 0).h (Ex.curved 0).jH b ss
    ∃ r w', (Stateful.smooth (counting fun _ => kf) (Ex.extEncZ ss) (some (Ex.extEncZ ss))).run ⟨⟨0, 0, 0, 0⟩, kf.attrs⟩ = (.ok r, w') := by
  intro ss b kf
  obtain ⟨h1, h2, h3, -, -, -, h4, h5⟩ := Ex.curved_meets zs hne
  have hc : (counting fun _ => kf).Compute kf (fun _ => True) (· = ·) :=
    ⟨fun _ _ _ _ => ⟨rfl, trivial, rfl⟩, fun _ _ _ => ⟨rfl, trivial, rfl⟩, fun _ _ _ _ => ⟨rfl, trivial, rfl⟩,
      fun _ _ _ => ⟨rfl, trivial, rfl⟩⟩
  obtain ⟨s', -, h⟩ := C142_smooth hc ⟨0, 0, 0, 0⟩ trivial (Ex.extEncZ ss) (some (Ex.extEncZ ss))
  rw [(C51_smooth_textbook kf _ _ b ss h1 h2 h3).1 h4 h5] at h
  exact ⟨_, _, h⟩

end

end KK
