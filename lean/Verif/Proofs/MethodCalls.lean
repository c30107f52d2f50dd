import Verif.Spec.MethodCalls
import Verif.Spec.Subclass
import Verif.Proofs.Subclass
import Verif.Proofs.Runs

/-! # Proofs: the calls of `predict` and `update` -/

set_option linter.unusedSectionVars false
set_option linter.unusedSimpArgs false

namespace KK

variable {σ F : Type} [Backend F]

section Gen

variable {ρ C O : Type}

/-- The feedback loops of both classes. -/
def methodLoop (pr up : ρ → Arr F × Arr F → Py (Instance (List C × σ) O) (Arr F × Arr F)) (n : ℕ) :
    ℕ → List ρ → Arr F × Arr F → List (Arr F) → List (Arr F) → Py (Instance (List C × σ) O) (List (Arr F) × List (Arr F))
  | _, [], _, states, errors => Py.pure (states, errors)
  | k, row :: rest, est, states, errors => do
    let prior ← pr row est
    let post ← up row prior
    let srow ← Py.lift (post.1.assignVec n)
    let erow ← Py.lift (post.2.assignMat n)
    methodLoop pr up n (k + 1) rest post (states.set k srow) (errors.set k erow)

/-- The method writes down its calls. -/
def WritesDown (p : ρ → Arr F × Arr F → Py (Instance (List C × σ) O) (Arr F × Arr F)) (call : ρ → Arr F × Arr F → Except PyErr (Arr F × Arr F) → C) : Prop :=
  ∀ row est s, ((p row est).run s).2.own.1 = s.own.1 ++ [call row est ((p row est).run s).1]

/-- The call with row `k` of `rows`. -/
def CallAt (rows : List ρ) (call : ρ → Arr F × Arr F → Except PyErr (Arr F × Arr F) → C) (k : ℕ) (est : Arr F × Arr F)
    (out : Except PyErr (Arr F × Arr F)) (c : C) : Prop := ∃ row, rows[k]? = some row ∧ c = call row est out

theorem StepCallsFrom.mono {p p' u u' : ℕ → Arr F × Arr F → Except PyErr (Arr F × Arr F) → C → Prop} (hp : ∀ k est o c, p k est o c → p' k est o c)
    (hu : ∀ k est o c, u k est o c → u' k est o c) {k : ℕ} {ss : List (MethodStep F)} {log : List C} (h : StepCallsFrom p u k ss log) :
    StepCallsFrom p' u' k ss log := by
  induction h with
  | nil k => exact .nil k
  | cons k s ss c d log hc hd _ ih => exact .cons k s ss c d log (hp _ _ _ _ hc) (hu _ _ _ _ hd) ih

theorem BrokenStep.mono {p p' u u' : ℕ → Arr F × Arr F → Except PyErr (Arr F × Arr F) → C → Prop} (hp : ∀ k est o c, p k est o c → p' k est o c)
    (hu : ∀ k est o c, u k est o c → u' k est o c) {n k : ℕ} {est : Arr F × Arr F} {e : PyErr} {l : List C} (h : BrokenStep p u n k est e l) :
    BrokenStep p' u' n k est e l := by
  cases h with
  | predict c hc => exact .predict c (hp _ _ _ _ hc)
  | update prior c d hc hd => exact .update prior c d (hp _ _ _ _ hc) (hu _ _ _ _ hd)
  | store prior post c d hc hd hr => exact .store prior post c d (hp _ _ _ _ hc) (hu _ _ _ _ hd) hr

theorem set_split {α : Type} (l : List α) (k m : ℕ) (a : α) (h : k < l.length) :
    (l.set k a).take (k + 1) = l.take k ++ [a] ∧ (l.set k a).drop (k + 1 + m) = l.drop (k + (m + 1)) := by
  constructor
  · rw [List.take_set, List.set_eq_take_append_cons_drop]
    simp [h, List.take_take]
  · rw [List.drop_set_of_lt (by omega)]
    congr 1
    omega

variable {pr up : ρ → Arr F × Arr F → Py (Instance (List C × σ) O) (Arr F × Arr F)} {cp cu : ρ → Arr F × Arr F → Except PyErr (Arr F × Arr F) → C}

theorem methodLoop_ok (hp : WritesDown pr cp) (hu : WritesDown up cu) (n : ℕ) (all : List ρ) : ∀ (rows : List ρ) (k : ℕ) (est : Arr F × Arr F)
    (states errors : List (Arr F)) (s s' : Instance (List C × σ) O) (r : List (Arr F) × List (Arr F)), all.drop k = rows →
    k + rows.length ≤ states.length → k + rows.length ≤ errors.length →
    (methodLoop pr up n k rows est states errors).run s = (.ok r, s') →
    ∃ (steps : List (MethodStep F)) (log : List C) (rws : List (Arr F × Arr F)), steps.length = rows.length ∧ s'.own.1 = s.own.1 ++ log ∧
      StepCallsFrom (CallAt all cp) (CallAt all cu) k steps log ∧ Chained est steps ∧
      List.Forall₂ (fun o row => o.1.assignVec n = .ok row.1 ∧ o.2.assignMat n = .ok row.2) (steps.map MethodStep.post) rws ∧
      r = (states.take k ++ rws.map Prod.fst ++ states.drop (k + rws.length), errors.take k ++ rws.map Prod.snd ++ errors.drop (k + rws.length)) := by
  intro rows
  induction rows with
  | nil =>
    intro k est states errors s s' r hall _ _ h
    simp only [methodLoop, Py.run_pure', Prod.mk.injEq, Except.ok.injEq] at h
    obtain ⟨rfl, rfl⟩ := h
    exact ⟨[], [], [], rfl, by simp, .nil k, trivial, .nil, by simp⟩
  | cons row rows ih =>
    intro k est states errors s s' r hall hl hl' h
    have hrow : all[k]? = some row := by
      have := congrArg (·[0]?) hall
      simpa using this
    have hall' : all.drop (k + 1) = rows := by rw [← List.drop_drop, hall]; rfl
    simp only [methodLoop, Py.run_bind, Py.run_lift] at h
    have w1 := hp row est s
    rcases h1 : (pr row est).run s with ⟨e | prior, s1⟩ <;> rw [h1] at h w1 <;> dsimp only at h w1
    · simp at h
    have w2 := hu row prior s1
    rcases h2 : (up row prior).run s1 with ⟨e | post, s2⟩ <;> rw [h2] at h w2 <;> dsimp only at h w2
    · simp at h
    rcases h3 : post.1.assignVec n with e | srow <;> rw [h3] at h <;> dsimp only at h
    · simp at h
    rcases h4 : post.2.assignMat n with e | erow <;> rw [h4] at h <;> dsimp only at h
    · simp at h
    simp only [List.length_cons] at hl hl'
    obtain ⟨steps, log, rws, l1, l2, l3, l4, l5, l6⟩ := ih (k + 1) post _ _ s2 s' r hall' (by rw [List.length_set]; omega) (by rw [List.length_set]; omega) h
    refine ⟨⟨est, prior, post⟩ :: steps, cp row est (.ok prior) :: cu row prior (.ok post) :: log, (srow, erow) :: rws, by simp [l1], ?_,
      .cons k _ steps _ _ log ⟨row, hrow, rfl⟩ ⟨row, hrow, rfl⟩ l3, ⟨rfl, l4⟩, .cons ⟨h3, h4⟩ l5, ?_⟩
    · rw [l2, w2, w1]; simp
    · obtain ⟨a1, a2⟩ := set_split states k rws.length srow (by omega)
      obtain ⟨b1, b2⟩ := set_split errors k rws.length erow (by omega)
      rw [l6, a1, a2, b1, b2]
      simp

theorem lastPost_cons (est : Arr F × Arr F) (s : MethodStep F) (ss : List (MethodStep F)) : lastPost est (s :: ss) = lastPost s.post ss := by
  cases ss with
  | nil => rfl
  | cons t ts =>
    simp only [lastPost, List.getLast?_cons_cons]
    rw [List.getLast?_eq_getLast_of_ne_nil (by simp)]

theorem methodLoop_error (hp : WritesDown pr cp) (hu : WritesDown up cu) (n : ℕ) (all : List ρ) : ∀ (rows : List ρ) (k : ℕ) (est : Arr F × Arr F)
    (states errors : List (Arr F)) (s s' : Instance (List C × σ) O) (e : PyErr), all.drop k = rows →
    (methodLoop pr up n k rows est states errors).run s = (.error e, s') →
    ∃ (steps : List (MethodStep F)) (log l : List C), steps.length < rows.length ∧ s'.own.1 = s.own.1 ++ log ++ l ∧
      StepCallsFrom (CallAt all cp) (CallAt all cu) k steps log ∧ Chained est steps ∧
      BrokenStep (CallAt all cp) (CallAt all cu) n (k + steps.length) (lastPost est steps) e l := by
  intro rows
  induction rows with
  | nil =>
    intro k est states errors s s' e hall h
    simp [methodLoop, Py.run_pure'] at h
  | cons row rows ih =>
    intro k est states errors s s' e hall h
    have hrow : all[k]? = some row := by
      have := congrArg (·[0]?) hall
      simpa using this
    have hall' : all.drop (k + 1) = rows := by rw [← List.drop_drop, hall]; rfl
    simp only [methodLoop, Py.run_bind, Py.run_lift] at h
    have w1 := hp row est s
    rcases h1 : (pr row est).run s with ⟨e | prior, s1⟩ <;> rw [h1] at h w1 <;> dsimp only at h w1
    · simp only [Prod.mk.injEq, Except.error.injEq] at h
      obtain ⟨rfl, rfl⟩ := h
      exact ⟨[], [], [_], by simp, by rw [w1]; simp; rfl, .nil k, trivial, .predict _ ⟨row, hrow, rfl⟩⟩
    have w2 := hu row prior s1
    rcases h2 : (up row prior).run s1 with ⟨e | post, s2⟩ <;> rw [h2] at h w2 <;> dsimp only at h w2
    · simp only [Prod.mk.injEq, Except.error.injEq] at h
      obtain ⟨rfl, rfl⟩ := h
      exact ⟨[], [], [_, _], by simp, by rw [w2, w1]; simp; rfl, .nil k, trivial, .update prior _ _ ⟨row, hrow, rfl⟩ ⟨row, hrow, rfl⟩⟩
    rcases h3 : post.1.assignVec n with e | srow <;> rw [h3] at h <;> dsimp only at h
    · simp only [Prod.mk.injEq, Except.error.injEq] at h
      obtain ⟨rfl, rfl⟩ := h
      exact ⟨[], [], [_, _], by simp, by rw [w2, w1]; simp; rfl, .nil k, trivial,
        .store prior post _ _ ⟨row, hrow, rfl⟩ ⟨row, hrow, rfl⟩ (.inl h3)⟩
    rcases h4 : post.2.assignMat n with e | erow <;> rw [h4] at h <;> dsimp only at h
    · simp only [Prod.mk.injEq, Except.error.injEq] at h
      obtain ⟨rfl, rfl⟩ := h
      exact ⟨[], [], [_, _], by simp, by rw [w2, w1]; simp; rfl, .nil k, trivial,
        .store prior post _ _ ⟨row, hrow, rfl⟩ ⟨row, hrow, rfl⟩ (.inr h4)⟩
    obtain ⟨steps, log, l, l1, l2, l3, l4, l5⟩ := ih (k + 1) post _ _ s2 s' e hall' h
    refine ⟨⟨est, prior, post⟩ :: steps, cp row est (.ok prior) :: cu row prior (.ok post) :: log, l, by simpa using l1, ?_,
      .cons k _ steps _ _ log ⟨row, hrow, rfl⟩ ⟨row, hrow, rfl⟩ l3, ⟨rfl, l4⟩, ?_⟩
    · rw [l2, w2, w1]; simp
    · rw [lastPost_cons, List.length_cons, show k + (steps.length + 1) = k + 1 + steps.length by omega]
      exact l5

/-- The backward loops of both classes. -/
def methodBack {ι : Type} (items : ℕ → List (Arr F) → List (Arr F) → Except PyErr ι) (pr : ι → Py (Instance (List C × σ) O) (Arr F × Arr F))
    (fin : ι → Arr F × Arr F → Instance (List C × σ) O → Except PyErr (Arr F × Arr F)) (n : ℕ) :
    List ℕ → List (Arr F) → List (Arr F) → Py (Instance (List C × σ) O) (List (Arr F) × List (Arr F))
  | [], xs, Ps => Py.pure (xs, Ps)
  | k :: ks, xs, Ps => do
    let i ← Py.lift (items k xs Ps)
    let ahead ← pr i
    let r ← (⟨fun s => (fin i ahead s, s)⟩ : Py (Instance (List C × σ) O) (Arr F × Arr F))
    let xrow ← Py.lift (r.1.assignVec n)
    let Prow ← Py.lift (r.2.assignMat n)
    methodBack items pr fin n ks (xs.set k xrow) (Ps.set k Prow)

variable {ι : Type} {items : ℕ → List (Arr F) → List (Arr F) → Except PyErr ι} {pb : ι → Py (Instance (List C × σ) O) (Arr F × Arr F)}
  {cb : ι → Except PyErr (Arr F × Arr F) → C} {fin : ι → Arr F × Arr F → Instance (List C × σ) O → Except PyErr (Arr F × Arr F)}

theorem methodBack_ok (hp : ∀ i s, ((pb i).run s).2.own.1 = s.own.1 ++ [cb i ((pb i).run s).1]) (n : ℕ) : ∀ (ks : List ℕ) (xs Ps : List (Arr F))
    (s s' : Instance (List C × σ) O) (r : List (Arr F) × List (Arr F)), (methodBack items pb fin n ks xs Ps).run s = (.ok r, s') →
    ∃ log : List C, s'.own.1 = s.own.1 ++ log ∧ List.Forall₂ (fun k c => ∃ i ahead xs Ps, items k xs Ps = .ok i ∧ c = cb i (.ok ahead)) ks log := by
  intro ks
  induction ks with
  | nil =>
    intro xs Ps s s' r h
    simp only [methodBack, Py.run_pure', Prod.mk.injEq, Except.ok.injEq] at h
    obtain ⟨rfl, rfl⟩ := h
    exact ⟨[], by simp, .nil⟩
  | cons k ks ih =>
    intro xs Ps s s' r h
    simp only [methodBack, Py.run_bind, Py.run_lift] at h
    rcases h0 : items k xs Ps with e | i <;> rw [h0] at h <;> dsimp only at h
    · simp at h
    have w1 := hp i s
    rcases h1 : (pb i).run s with ⟨e | ahead, s1⟩ <;> rw [h1] at h w1 <;> dsimp only at h w1
    · simp at h
    rcases h2 : fin i ahead s1 with e | v <;> rw [h2] at h <;> dsimp only at h
    · simp at h
    rcases h3 : v.1.assignVec n with e | xr <;> rw [h3] at h <;> dsimp only at h
    · simp at h
    rcases h4 : v.2.assignMat n with e | Pr <;> rw [h4] at h <;> dsimp only at h
    · simp at h
    obtain ⟨log, l1, l2⟩ := ih _ _ s1 s' r h
    exact ⟨_ :: log, by rw [l1, w1]; simp, .cons ⟨i, ahead, xs, Ps, h0, rfl⟩ l2⟩

theorem methodBack_error (hp : ∀ i s, ((pb i).run s).2.own.1 = s.own.1 ++ [cb i ((pb i).run s).1]) (n : ℕ) : ∀ (ks : List ℕ) (xs Ps : List (Arr F))
    (s s' : Instance (List C × σ) O) (e : PyErr), (methodBack items pb fin n ks xs Ps).run s = (.error e, s') →
    ∃ log l : List C, s'.own.1 = s.own.1 ++ log ++ l ∧ log.length ≤ ks.length ∧
      List.Forall₂ (fun k c => ∃ i ahead xs Ps, items k xs Ps = .ok i ∧ c = cb i (.ok ahead)) (ks.take log.length) log ∧
      (l = [] ∨ ∃ k i xs Ps, ks[log.length]? = some k ∧ items k xs Ps = .ok i ∧ l = [cb i (.error e)]) := by
  intro ks
  induction ks with
  | nil =>
    intro xs Ps s s' e h
    simp [methodBack, Py.run_pure'] at h
  | cons k ks ih =>
    intro xs Ps s s' e h
    simp only [methodBack, Py.run_bind, Py.run_lift] at h
    rcases h0 : items k xs Ps with e | i <;> rw [h0] at h <;> dsimp only at h
    · simp only [Prod.mk.injEq, Except.error.injEq] at h
      obtain ⟨rfl, rfl⟩ := h
      exact ⟨[], [], by simp, by simp, .nil, .inl rfl⟩
    have w1 := hp i s
    rcases h1 : (pb i).run s with ⟨e | ahead, s1⟩ <;> rw [h1] at h w1 <;> dsimp only at h w1
    · simp only [Prod.mk.injEq, Except.error.injEq] at h
      obtain ⟨rfl, rfl⟩ := h
      exact ⟨[], [_], by rw [w1]; simp, by simp, .nil, .inr ⟨k, i, xs, Ps, rfl, h0, rfl⟩⟩
    have one : List.Forall₂ (fun k c => ∃ i ahead xs Ps, items k xs Ps = .ok i ∧ c = cb i (.ok ahead)) ((k :: ks).take 1) [cb i (.ok ahead)] :=
      .cons ⟨i, ahead, xs, Ps, h0, rfl⟩ (by simp)
    rcases h2 : fin i ahead s1 with e | v <;> rw [h2] at h <;> dsimp only at h
    · simp only [Prod.mk.injEq, Except.error.injEq] at h
      obtain ⟨rfl, rfl⟩ := h
      exact ⟨[_], [], by rw [w1]; simp, by simp, one, .inl rfl⟩
    rcases h3 : v.1.assignVec n with e | xr <;> rw [h3] at h <;> dsimp only at h
    · simp only [Prod.mk.injEq, Except.error.injEq] at h
      obtain ⟨rfl, rfl⟩ := h
      exact ⟨[_], [], by rw [w1]; simp, by simp, one, .inl rfl⟩
    rcases h4 : v.2.assignMat n with e | Pr <;> rw [h4] at h <;> dsimp only at h
    · simp only [Prod.mk.injEq, Except.error.injEq] at h
      obtain ⟨rfl, rfl⟩ := h
      exact ⟨[_], [], by rw [w1]; simp, by simp, one, .inl rfl⟩
    obtain ⟨log, l, l1, l0, l2, l3⟩ := ih _ _ s1 s' e h
    refine ⟨_ :: log, l, by rw [l1, w1]; simp, by simpa using l0, .cons ⟨i, ahead, xs, Ps, h0, rfl⟩ l2, ?_⟩
    simpa using l3

end Gen

/-! ## The loops of the two classes -/

namespace Methods

theorem filterLoop_gen (M : Methods σ F) (n : ℕ) : ∀ (rows : List (KalmanFilter.Row F)) (k : ℕ) (x P : Arr F) (states errors : List (Arr F)),
    M.logged.filterLoop n k rows x P states errors =
      methodLoop (fun r est => M.logged.predict r.1 est.1 (some r.2.2.1) (some r.2.2.2.1) est.2 r.2.2.2.2.2.1)
        (fun r est => M.logged.update r.2.1 est.1 est.2 r.2.2.2.2.1 r.2.2.2.2.2.2) n k rows (x, P) states errors := by
  intro rows
  induction rows with
  | nil => intros; rfl
  | cons r rows ih =>
    intro k x P states errors
    obtain ⟨A, H, B, u, z, Q, R⟩ := r
    simp only [filterLoop, methodLoop, ih]

theorem smoothLoop_gen (M : Methods σ F) (n : ℕ) (A Q B U : NDArray F) (xEst PEst : List (Arr F)) : ∀ (ks : List ℕ) (xs Ps : List (Arr F)),
    M.logged.smoothLoop n A Q B U xEst PEst ks xs Ps =
      methodBack (fun k xs Ps => backItems A Q B U xEst PEst xs Ps k)
        (fun i => M.logged.predict i.1.1 i.2.2.1 (some i.1.2.2.1) (some i.1.2.2.2) i.2.1 i.1.2.1)
        (fun i ahead _ => Stateful.smoothed i.1.1 i.2.2.1 i.2.1 ahead.1 ahead.2 i.2.2.2.1 i.2.2.2.2) n ks xs Ps := by
  intro ks
  induction ks with
  | nil => intros; rfl
  | cons k ks ih =>
    intro xs Ps
    simp only [smoothLoop, methodBack, ih]
    rfl

end Methods

namespace ExtMethods

theorem filterLoop_gen (M : ExtMethods σ F) (n : ℕ) : ∀ (rows : List (ExtendedKalmanFilter.Row F)) (k : ℕ) (x P : Arr F) (states errors : List (Arr F)),
    M.logged.filterLoop n k rows x P states errors =
      methodLoop (fun r est => M.logged.predict est.1 (some r.1) est.2 r.2.2.1)
        (fun r est => M.logged.update est.1 est.2 r.2.1 r.2.2.2) n k rows (x, P) states errors := by
  intro rows
  induction rows with
  | nil => intros; rfl
  | cons r rows ih =>
    intro k x P states errors
    obtain ⟨u, z, Q, R⟩ := r
    simp only [filterLoop, methodLoop, ih]

theorem smoothLoop_gen (M : ExtMethods σ F) (n : ℕ) (Q U : NDArray F) (xEst PEst : List (Arr F)) : ∀ (ks : List ℕ) (xs Ps : List (Arr F)) s,
    (M.logged.smoothLoop n Q U xEst PEst ks xs Ps).run s =
      (methodBack (fun k xs Ps => Stateful.backItems Q U xEst PEst xs Ps k)
        (fun i => M.logged.predict i.2.2.2.1 (some i.2.1) i.2.2.1 i.1)
        (fun i ahead s => do
          let Ak ← s.base.jacobianA i.2.2.2.1 (some i.2.1)
          Stateful.smoothed Ak i.2.2.2.1 i.2.2.1 ahead.1 ahead.2 i.2.2.2.2.1 i.2.2.2.2.2) n ks xs Ps).run s := by
  intro ks
  induction ks with
  | nil => intros; rfl
  | cons k ks ih =>
    intro xs Ps s
    simp only [smoothLoop, methodBack, Py.run_bind, Py.run_lift, ih, Instance.attrs]
    rcases Stateful.backItems Q U xEst PEst xs Ps k with e | i
    · rfl
    dsimp only
    rcases (M.logged.predict i.2.2.2.1 (some i.2.1) i.2.2.1 i.1).run s with ⟨e | a, s1⟩
    · rfl
    simp only [Py.run_bind, Py.run_lift]
    rcases s1.base.jacobianA i.2.2.2.1 (some i.2.1) with e | A
    · rfl
    dsimp only [Except.bind_ok']

end ExtMethods

end KK
