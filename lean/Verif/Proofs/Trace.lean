import Verif.Model.Standard
import Verif.Model.Extended

/-!
# Proof device: the feedback loop as a pure trace

`trace step rows x P` runs a step function over the rows and records what was written, which gains were
appended and whether (and how) the loop raised.  Both `filterLoop`s are shown equal to it.
Nothing in this file appears in property statements.
-/

set_option linter.unusedSectionVars false
set_option linter.unusedSimpArgs false

namespace KK

variable {F : Type}

namespace Py
variable {σ α β : Type}

@[simp] theorem run_pure (a : α) (s : σ) : (Pure.pure a : Py σ α).run s = (.ok a, s) := rfl
@[simp] theorem run_pure' (a : α) (s : σ) : (Py.pure a : Py σ α).run s = (.ok a, s) := rfl
theorem run_bind (x : Py σ α) (f : α → Py σ β) (s : σ) :
    (x >>= f).run s = match x.run s with
      | (.ok a, s') => (f a).run s'
      | (.error e, s') => (.error e, s') := rfl
@[simp] theorem run_lift (x : Except PyErr α) (s : σ) : (Py.lift x : Py σ α).run s = (x, s) := rfl
@[simp] theorem run_self (s : σ) : (Py.self : Py σ σ).run s = (.ok s, s) := rfl
@[simp] theorem run_mutate (f : σ → σ) (s : σ) : (Py.mutate f).run s = (.ok (), f s) := rfl
end Py

@[simp] theorem Except.bind_ok' {α β : Type} (a : α) (f : α → Except PyErr β) :
    (Except.ok a >>= f) = f a := rfl
@[simp] theorem Except.bind_error' {α β : Type} (e : PyErr) (f : α → Except PyErr β) :
    ((Except.error e : Except PyErr α) >>= f) = Except.error e := rfl

/-- Outcome of one step: the recorded gain (if the solve succeeded) and the new state together with the
rows written, or the exception. -/
abbrev StepOut (F : Type) := Option (Arr F) × Except PyErr ((Arr F × Arr F) × (Arr F × Arr F))

structure Trace (F : Type) where
  outs : List (Arr F × Arr F)
  gains : List (Arr F)
  err : Option PyErr
  last : Arr F × Arr F

def trace {ρ : Type} (step : ρ → Arr F → Arr F → StepOut F) :
    List ρ → Arr F → Arr F → Trace F
  | [], x, P => ⟨[], [], none, (x, P)⟩
  | r :: rs, x, P =>
    match step r x P with
    | (g, .error e) => ⟨[], g.toList, some e, (x, P)⟩
    | (g, .ok (xP, out)) =>
      let t := trace step rs xP.1 xP.2
      ⟨out :: t.outs, g.toList ++ t.gains, t.err, t.last⟩

/-- Overwrite `l` from position `k` on with `outs`. -/
def overwrite {α : Type} : ℕ → List α → List α → List α
  | _, [], l => l
  | k, o :: os, l => overwrite (k + 1) os (l.set k o)

/-- Result of a loop that starts writing at row `k`. -/
def Trace.result (t : Trace F) (k : ℕ) (states errors : List (Arr F)) :
    Except PyErr (List (Arr F) × List (Arr F)) :=
  match t.err with
  | some e => .error e
  | none => .ok (overwrite k (t.outs.map Prod.fst) states, overwrite k (t.outs.map Prod.snd) errors)

section lemmas
variable {ρ : Type} (step : ρ → Arr F → Arr F → StepOut F)

theorem overwrite_length {α : Type} (k : ℕ) (os l : List α) : (overwrite k os l).length = l.length := by
  induction os generalizing k l with
  | nil => rfl
  | cons o os ih => simp [overwrite, ih]

theorem overwrite_getElem? {α : Type} (k : ℕ) (os l : List α) (i : ℕ) (h : k + os.length ≤ l.length) :
    (overwrite k os l)[i]? = if k ≤ i ∧ i < k + os.length then os[i - k]? else l[i]? := by
  induction os generalizing k l with
  | nil => simp [overwrite]
  | cons o os ih =>
    simp only [overwrite, List.length_cons] at *
    rw [ih (k + 1) (l.set k o) (by simp; omega)]
    by_cases h1 : k + 1 ≤ i ∧ i < k + 1 + os.length
    · rw [if_pos h1, if_pos (by omega)]
      obtain ⟨j, rfl⟩ : ∃ j, i = k + 1 + j := ⟨i - (k + 1), by omega⟩
      rw [show k + 1 + j - (k + 1) = j by omega, show k + 1 + j - k = j + 1 by omega]
      simp
    · rw [if_neg h1, List.getElem?_set]
      by_cases h2 : k = i
      · subst h2
        rw [if_pos rfl, if_pos (by omega), if_pos (by omega)]; simp
      · rw [if_neg h2, if_neg (by omega)]

theorem overwrite_zero {α : Type} (os l : List α) (h : os.length ≤ l.length) :
    overwrite 0 os l = os ++ l.drop os.length := by
  apply List.ext_getElem?
  intro i
  rw [overwrite_getElem? 0 os l i (by omega), List.getElem?_append]
  by_cases hi : i < os.length
  · rw [if_pos (by omega), if_pos hi]; rfl
  · rw [if_neg (by omega), if_neg hi, List.getElem?_drop]
    congr 1; omega

theorem overwrite_zero_replicate {α : Type} (os : List α) (n : ℕ) (a : α) (h : os.length ≤ n) :
    overwrite 0 os (List.replicate n a) = os ++ List.replicate (n - os.length) a := by
  rw [overwrite_zero _ _ (by simpa using h)]; simp

theorem trace_append (rs rs' : List ρ) (x P : Arr F) :
    (trace step (rs ++ rs') x P) =
      let t := trace step rs x P
      match t.err with
      | some _ => t
      | none =>
        let t' := trace step rs' t.last.1 t.last.2
        ⟨t.outs ++ t'.outs, t.gains ++ t'.gains, t'.err, t'.last⟩ := by
  induction rs generalizing x P with
  | nil => simp [trace]
  | cons r rs ih =>
    simp only [List.cons_append, trace]
    rcases step r x P with ⟨g, _ | ⟨xP, out⟩⟩
    · rfl
    · simp only [ih]
      cases h : (trace step rs xP.1 xP.2).err <;> simp [h]

theorem trace_length (rs : List ρ) (x P : Arr F) (h : (trace step rs x P).err = none) :
    (trace step rs x P).outs.length = rs.length := by
  induction rs generalizing x P with
  | nil => rfl
  | cons r rs ih =>
    simp only [trace] at h ⊢
    rcases hs : step r x P with ⟨g, _ | ⟨xP, out⟩⟩
    · simp [hs] at h
    · simp only [hs] at h ⊢
      simp [ih _ _ h]

theorem trace_length_le (rs : List ρ) (x P : Arr F) :
    (trace step rs x P).outs.length ≤ rs.length := by
  induction rs generalizing x P with
  | nil => simp [trace]
  | cons r rs ih =>
    simp only [trace]
    rcases step r x P with ⟨g, _ | ⟨xP, out⟩⟩
    · simp
    · simpa using ih _ _

/-- Every step that succeeds records exactly one gain. -/
def StepGain : Prop := ∀ r x P g o, step r x P = (g, .ok o) → ∃ K, g = some K

theorem trace_gains_length (hg : StepGain step) (rs : List ρ) (x P : Arr F)
    (h : (trace step rs x P).err = none) :
    (trace step rs x P).gains.length = rs.length := by
  induction rs generalizing x P with
  | nil => rfl
  | cons r rs ih =>
    simp only [trace] at h ⊢
    rcases hs : step r x P with ⟨g, _ | ⟨xP, out⟩⟩
    · simp [hs] at h
    · obtain ⟨K, rfl⟩ := hg _ _ _ _ _ hs
      simp only [hs] at h ⊢
      simp [ih _ _ h]

/-- If the trace of a list does not raise, neither does the trace of a prefix, and it is a prefix. -/
theorem trace_take (j : ℕ) (rs : List ρ) (x P : Arr F) (h : (trace step rs x P).err = none) :
    (trace step (rs.take j) x P).err = none ∧
    (trace step (rs.take j) x P).outs = (trace step rs x P).outs.take j ∧
    (∃ g, (trace step rs x P).gains = (trace step (rs.take j) x P).gains ++ g) := by
  induction rs generalizing x P j with
  | nil => simp [trace]
  | cons r rs ih =>
    cases j with
    | zero => simp [trace]
    | succ j =>
      simp only [List.take_succ_cons, trace] at h ⊢
      rcases hs : step r x P with ⟨g, _ | ⟨xP, out⟩⟩
      · simp [hs] at h
      · simp only [hs] at h ⊢
        obtain ⟨h1, h2, g', h3⟩ := ih j _ _ h
        exact ⟨h1, by simp [h2], g', by simp [h3]⟩

/-- All written rows have a property that every successful step guarantees. -/
theorem trace_outs_forall (p : Arr F × Arr F → Prop)
    (hp : ∀ r x P g xP o, step r x P = (g, .ok (xP, o)) → p o)
    (rs : List ρ) (x P : Arr F) : ∀ o ∈ (trace step rs x P).outs, p o := by
  induction rs generalizing x P with
  | nil => simp [trace]
  | cons r rs ih =>
    simp only [trace]
    rcases hs : step r x P with ⟨g, _ | ⟨xP, out⟩⟩
    · simp
    · simp only [List.mem_cons]
      rintro o (rfl | ho)
      · exact hp _ _ _ _ _ _ hs
      · exact ih _ _ o ho

end lemmas

variable [Backend F]

namespace KalmanFilter

/-- One iteration of the loop body of `filter` as a pure step. -/
def step (s : ℕ) (I : Arr F) : Row F → Arr F → Arr F → StepOut F
  | (Ak, Hk, Bk, uk, zk, Qk, Rk), xk, Pk =>
    match predict Ak xk (some Bk) (some uk) Pk Qk with
    | .error e => (none, .error e)
    | .ok (xp, Pp) =>
      match gain Hk Pp Rk with
      | .error e => (none, .error e)
      | .ok K =>
        (some K, do
          let xP ← correct I K Hk xp Pp zk
          let srow ← xP.1.assignVec s
          let erow ← xP.2.assignMat s
          .ok (xP, (srow, erow)))

def addGains (kf : KalmanFilter F) (g : List (Arr F)) : KalmanFilter F :=
  { kf with kalmanGains := kf.kalmanGains ++ g }

@[simp] theorem addGains_nil (kf : KalmanFilter F) : kf.addGains [] = kf := by simp [addGains]
theorem addGains_addGains (kf : KalmanFilter F) (g g' : List (Arr F)) :
    (kf.addGains g).addGains g' = kf.addGains (g ++ g') := by simp [addGains]
@[simp] theorem addGains_stateSize (kf : KalmanFilter F) (g) : (kf.addGains g).stateSize = kf.stateSize := rfl
@[simp] theorem addGains_I (kf : KalmanFilter F) (g) : (kf.addGains g).I = kf.I := rfl

theorem stepGain (s : ℕ) (I : Arr F) : StepGain (step s I) := by
  rintro ⟨Ak, Hk, Bk, uk, zk, Qk, Rk⟩ x P g o h
  simp only [step] at h
  split at h
  · simp at h
  · split at h
    · simp at h
    · simp only [Prod.mk.injEq] at h
      exact ⟨_, h.1.symm⟩

theorem filterLoop_eq (k : ℕ) (rows : List (Row F)) (x P : Arr F) (states errors : List (Arr F))
    (kf : KalmanFilter F) :
    (filterLoop k rows x P states errors).run kf =
      ((trace (step kf.stateSize kf.I) rows x P).result k states errors,
        kf.addGains (trace (step kf.stateSize kf.I) rows x P).gains) := by
  induction rows generalizing k x P states errors kf with
  | nil => simp [filterLoop, trace, Trace.result, overwrite]
  | cons r rows ih =>
    obtain ⟨Ak, Hk, Bk, uk, zk, Qk, Rk⟩ := r
    simp only [filterLoop, trace, step, Py.run_bind, Py.run_lift]
    rcases h1 : predict Ak x (some Bk) (some uk) P Qk with e | ⟨xp, Pp⟩
    · simp [Trace.result]
    · simp only [update, Py.run_bind, Py.run_lift]
      rcases h2 : gain Hk Pp Rk with e | K
      · simp [Trace.result]
      · simp only [Py.run_mutate, Py.run_self, Py.run_lift]
        rcases h3 : correct kf.I K Hk xp Pp zk with e | ⟨x', P'⟩
        · simp [Trace.result, addGains]
        · simp only [Except.bind_ok']
          rcases h4 : Arr.assignVec kf.stateSize x' with e | srow
          · simp [Trace.result, addGains]
          · simp only [Except.bind_ok']
            rcases h5 : Arr.assignMat kf.stateSize P' with e | erow
            · simp [Trace.result, addGains]
            · simp only [Except.bind_ok']
              rw [ih]
              simp only [Trace.result, addGains, Option.toList]
              cases (trace (step kf.stateSize kf.I) rows x' P').err <;> simp [overwrite]

/-- `filter` as a trace. -/
theorem filter_eq (Z : NDArray F) (U : Option (NDArray F)) (kf : KalmanFilter F) :
    (filter Z U).run kf =
      match Z.len with
      | .error e => (.error e, kf)
      | .ok n =>
        match zipRows kf.A kf.H kf.B (checkNoneAndBroadcast U Z) Z kf.Q kf.R with
        | .error e => (.error e, kf)
        | .ok rows =>
          ((trace (step kf.stateSize kf.I) rows kf.xk kf.Pk).result 0
              (List.replicate n (Arr.zerosVec kf.stateSize))
              (List.replicate n (Arr.zerosMat kf.stateSize)),
            kf.addGains (trace (step kf.stateSize kf.I) rows kf.xk kf.Pk).gains) := by
  simp only [filter, Py.run_bind, Py.run_self, Py.run_lift]
  rcases Z.len with e | n
  · rfl
  · simp only
    rcases zipRows kf.A kf.H kf.B (checkNoneAndBroadcast U Z) Z kf.Q kf.R with e | rows
    · rfl
    · simp only [filterLoop_eq]

end KalmanFilter

namespace ExtendedKalmanFilter

/-- One iteration of the loop body of `filter` as a pure step. -/
def step (kf : ExtendedKalmanFilter F) : Row F → Arr F → Arr F → StepOut F
  | (uk, zk, Qk, Rk), xk, Pk =>
    match predict kf xk (some uk) Pk Qk with
    | .error e => (none, .error e)
    | .ok (xp, Pp) =>
      match kf.jacobianH xp with
      | .error e => (none, .error e)
      | .ok Hk =>
        match gain Hk Pp Rk with
        | .error e => (none, .error e)
        | .ok K =>
          (some K, do
            let xP ← correct kf K Hk xp Pp zk
            let srow ← xP.1.assignVec kf.stateSize
            let erow ← xP.2.assignMat kf.stateSize
            .ok (xP, (srow, erow)))

def addGains (kf : ExtendedKalmanFilter F) (g : List (Arr F)) : ExtendedKalmanFilter F :=
  { kf with kalmanGains := kf.kalmanGains ++ g }

@[simp] theorem addGains_nil (kf : ExtendedKalmanFilter F) : kf.addGains [] = kf := by simp [addGains]
theorem addGains_addGains (kf : ExtendedKalmanFilter F) (g g' : List (Arr F)) :
    (kf.addGains g).addGains g' = kf.addGains (g ++ g') := by simp [addGains]
@[simp] theorem predict_addGains (kf : ExtendedKalmanFilter F) (g) :
    predict (kf.addGains g) = predict kf := rfl
@[simp] theorem correct_addGains (kf : ExtendedKalmanFilter F) (g) :
    correct (kf.addGains g) = correct kf := rfl
@[simp] theorem step_addGains (kf : ExtendedKalmanFilter F) (g) :
    step (kf.addGains g) = step kf := rfl
@[simp] theorem addGains_stateSize (kf : ExtendedKalmanFilter F) (g) :
    (kf.addGains g).stateSize = kf.stateSize := rfl

theorem stepGain (kf : ExtendedKalmanFilter F) : StepGain (step kf) := by
  rintro ⟨uk, zk, Qk, Rk⟩ x P g o h
  simp only [step] at h
  split at h
  · simp at h
  · split at h
    · simp at h
    · split at h
      · simp at h
      · simp only [Prod.mk.injEq] at h
        exact ⟨_, h.1.symm⟩

theorem filterLoop_eq (k : ℕ) (rows : List (Row F)) (x P : Arr F) (states errors : List (Arr F))
    (kf : ExtendedKalmanFilter F) :
    (filterLoop k rows x P states errors).run kf =
      ((trace (step kf) rows x P).result k states errors,
        kf.addGains (trace (step kf) rows x P).gains) := by
  induction rows generalizing k x P states errors kf with
  | nil => simp [filterLoop, trace, Trace.result, overwrite]
  | cons r rows ih =>
    obtain ⟨uk, zk, Qk, Rk⟩ := r
    simp only [filterLoop, trace, step, Py.run_bind, Py.run_lift, Py.run_self]
    rcases h1 : predict kf x (some uk) P Qk with e | ⟨xp, Pp⟩
    · simp [Trace.result]
    · simp only [update, Py.run_bind, Py.run_lift, Py.run_self]
      rcases h0 : kf.jacobianH xp with e | Hk
      · simp [Trace.result]
      dsimp only
      rcases h2 : gain Hk Pp Rk with e | K
      · simp [Trace.result]
      · simp only [Py.run_mutate, Py.run_lift]
        rcases h3 : correct kf K Hk xp Pp zk with e | ⟨x', P'⟩
        · simp [Trace.result, addGains]
        · simp only [Except.bind_ok']
          rcases h4 : Arr.assignVec kf.stateSize x' with e | srow
          · simp [Trace.result, addGains]
          · simp only [Except.bind_ok']
            rcases h5 : Arr.assignMat kf.stateSize P' with e | erow
            · simp [Trace.result, addGains]
            · simp only [Except.bind_ok']
              rw [ih]
              have hs : step { kf with kalmanGains := kf.kalmanGains ++ [K] } = step kf := rfl
              simp only [hs]
              simp only [Trace.result, addGains, Option.toList]
              cases (trace (step kf) rows x' P').err <;> simp [overwrite]

/-- `filter` as a trace. -/
theorem filter_eq (Z : NDArray F) (U : Option (NDArray F)) (kf : ExtendedKalmanFilter F) :
    (filter Z U).run kf =
      match Z.len with
      | .error e => (.error e, kf)
      | .ok n =>
        match zipRows (checkNoneAndBroadcast U Z) Z kf.Q kf.R with
        | .error e => (.error e, kf)
        | .ok rows =>
          ((trace (step kf) rows kf.xk kf.Pk).result 0
              (List.replicate n (Arr.zerosVec kf.stateSize))
              (List.replicate n (Arr.zerosMat kf.stateSize)),
            kf.addGains (trace (step kf) rows kf.xk kf.Pk).gains) := by
  simp only [filter, Py.run_bind, Py.run_self, Py.run_lift]
  rcases Z.len with e | n
  · rfl
  · simp only
    rcases zipRows (checkNoneAndBroadcast U Z) Z kf.Q kf.R with e | rows
    · rfl
    · simp only [filterLoop_eq]

end ExtendedKalmanFilter

end KK
