import Verif.Proofs.Shapes

/-! # Proof device: the backward loop of `smooth` as a pure recursion -/

set_option linter.unusedSectionVars false
set_option linter.unusedSimpArgs false

namespace KK

variable {F : Type}

/-- Rows `0..m` of the backward pass, given row `m`. -/
def back (body : ℕ → Arr F → Arr F → Except PyErr (Arr F × Arr F)) :
    ℕ → Arr F × Arr F → Except PyErr (List (Arr F × Arr F))
  | 0, last => .ok [last]
  | m + 1, last => do
    let r ← body m last.1 last.2
    let rest ← back body m r
    .ok (rest ++ [last])

theorem back_length {body : ℕ → Arr F → Arr F → Except PyErr (Arr F × Arr F)} {m : ℕ}
    {last : Arr F × Arr F} {l : List (Arr F × Arr F)} (h : back body m last = .ok l) :
    l.length = m + 1 := by
  induction m generalizing last l with
  | zero => simp [back] at h; subst h; rfl
  | succ m ih =>
    simp only [back] at h
    rcases h1 : body m last.1 last.2 with e | r
    · simp [h1] at h
    · simp only [h1, Except.bind_ok'] at h
      rcases h2 : back body m r with e | rest
      · simp [h2] at h
      · simp [h2] at h; subst h; simp [ih h2]

theorem back_forall {body : ℕ → Arr F → Arr F → Except PyErr (Arr F × Arr F)} {m : ℕ}
    {last : Arr F × Arr F} {l : List (Arr F × Arr F)} (p : Arr F × Arr F → Prop)
    (hp : ∀ k x P r, p (x, P) → body k x P = .ok r → p r) (hl : p last)
    (h : back body m last = .ok l) : ∀ o ∈ l, p o := by
  induction m generalizing last l with
  | zero => simp [back] at h; subst h; simpa using hl
  | succ m ih =>
    simp only [back] at h
    rcases h1 : body m last.1 last.2 with e | r
    · simp [h1] at h
    · simp only [h1, Except.bind_ok'] at h
      rcases h2 : back body m r with e | rest
      · simp [h2] at h
      · simp [h2] at h; subst h
        intro o ho
        rw [List.mem_append, List.mem_singleton] at ho
        rcases ho with ho | rfl
        · exact ih (hp _ _ _ _ hl h1) h2 o ho
        · exact hl

/-- As `back_forall`, with the index bound. -/
theorem back_forall_lt {body : ℕ → Arr F → Arr F → Except PyErr (Arr F × Arr F)} {m : ℕ}
    {last : Arr F × Arr F} {l : List (Arr F × Arr F)} (p : Arr F × Arr F → Prop)
    (hp : ∀ k x P r, k < m → p (x, P) → body k x P = .ok r → p r) (hl : p last)
    (h : back body m last = .ok l) : ∀ o ∈ l, p o := by
  induction m generalizing last l with
  | zero => simp [back] at h; subst h; simpa using hl
  | succ m ih =>
    simp only [back] at h
    rcases h1 : body m last.1 last.2 with e | r
    · simp [h1] at h
    · simp only [h1, Except.bind_ok'] at h
      rcases h2 : back body m r with e | rest
      · simp [h2] at h
      · simp [h2] at h; subst h
        intro o ho
        rw [List.mem_append, List.mem_singleton] at ho
        rcases ho with ho | rfl
        · exact ih (fun k x P r hk => hp k x P r (by omega)) (hp _ _ _ _ (by omega) hl h1) h2 o ho
        · exact hl

theorem back_last {body : ℕ → Arr F → Arr F → Except PyErr (Arr F × Arr F)} {m : ℕ}
    {last : Arr F × Arr F} {l : List (Arr F × Arr F)} (h : back body m last = .ok l) :
    l[m]? = some last := by
  cases m with
  | zero => simp [back] at h; subst h; rfl
  | succ m =>
    simp only [back] at h
    rcases h1 : body m last.1 last.2 with e | r
    · simp [h1] at h
    · simp only [h1, Except.bind_ok'] at h
      rcases h2 : back body m r with e | rest
      · simp [h2] at h
      · simp [h2] at h; subst h
        rw [List.getElem?_append_right (by rw [back_length h2])]
        simp [back_length h2]

/-- Consecutive rows are related by the body. -/
theorem back_step {body : ℕ → Arr F → Arr F → Except PyErr (Arr F × Arr F)} {m : ℕ}
    {last : Arr F × Arr F} {l : List (Arr F × Arr F)} (h : back body m last = .ok l)
    (k : ℕ) (hk : k < m) : ∃ a b, l[k]? = some a ∧ l[k+1]? = some b ∧ body k b.1 b.2 = .ok a := by
  induction m generalizing last l with
  | zero => omega
  | succ m ih =>
    simp only [back] at h
    rcases h1 : body m last.1 last.2 with e | r
    · simp [h1] at h
    · simp only [h1, Except.bind_ok'] at h
      rcases h2 : back body m r with e | rest
      · simp [h2] at h
      · simp [h2] at h; subst h
        have hlen := back_length h2
        by_cases hkm : k = m
        · subst hkm
          refine ⟨r, last, ?_, ?_, h1⟩
          · rw [List.getElem?_append_left (by omega)]; exact back_last h2
          · rw [List.getElem?_append_right (by omega)]; simp [hlen]
        · obtain ⟨a, b, ha, hb, hab⟩ := ih h2 (by omega)
          refine ⟨a, b, ?_, ?_, hab⟩
          · rw [List.getElem?_append_left (by omega)]; exact ha
          · rw [List.getElem?_append_left (by omega)]; exact hb

theorem back_congr {b1 b2 : ℕ → Arr F → Arr F → Except PyErr (Arr F × Arr F)} {m : ℕ}
    (p : Arr F × Arr F → Prop) (hp : ∀ k x P r, k < m → p (x, P) → b1 k x P = .ok r → p r)
    (hb : ∀ k x P, k < m → p (x, P) → b1 k x P = b2 k x P) {last : Arr F × Arr F} (hl : p last) :
    back b1 m last = back b2 m last := by
  induction m generalizing last with
  | zero => rfl
  | succ m ih =>
    simp only [back, ← hb m last.1 last.2 (by omega) hl]
    rcases h1 : b1 m last.1 last.2 with e | r
    · rfl
    · simp only [Except.bind_ok']
      rw [ih (fun k x P r hk => hp k x P r (by omega)) (fun k x P hk => hb k x P (by omega))
        (hp m _ _ r (by omega) hl h1)]

/-- Generic shape of the two `smoothLoop`s. -/
def genLoop (body : ℕ → Arr F → Arr F → Except PyErr (Arr F × Arr F)) :
    List ℕ → List (Arr F) → List (Arr F) → Except PyErr (List (Arr F) × List (Arr F))
  | [], xs, Ps => .ok (xs, Ps)
  | k :: ks, xs, Ps => do
    let x ← getRow xs (k + 1)
    let P ← getRow Ps (k + 1)
    let r ← body k x P
    genLoop body ks (xs.set k r.1) (Ps.set k r.2)

theorem getRow_some {l : List (Arr F)} {k : ℕ} {a : Arr F} (h : l[k]? = some a) :
    getRow l k = .ok a := by simp [getRow, h]

theorem genLoop_eq (body : ℕ → Arr F → Arr F → Except PyErr (Arr F × Arr F)) (m : ℕ)
    (xs Ps : List (Arr F)) (last : Arr F × Arr F)
    (hx : xs[m]? = some last.1) (hP : Ps[m]? = some last.2) :
    genLoop body (List.range m).reverse xs Ps =
      (back body m last).map fun l =>
        (l.map Prod.fst ++ xs.drop (m + 1), l.map Prod.snd ++ Ps.drop (m + 1)) := by
  induction m generalizing xs Ps last with
  | zero =>
    obtain ⟨x, xs', rfl⟩ : ∃ x xs', xs = x :: xs' := by cases xs <;> simp_all
    obtain ⟨P, Ps', rfl⟩ : ∃ x xs', Ps = x :: xs' := by cases Ps <;> simp_all
    simp at hx hP
    simp [genLoop, back, hx, hP, Except.map]
  | succ m ih =>
    have hxl : m + 1 < xs.length := by
      by_contra hc
      rw [List.getElem?_eq_none (by omega)] at hx
      simp at hx
    have hPl : m + 1 < Ps.length := by
      by_contra hc
      rw [List.getElem?_eq_none (by omega)] at hP
      simp at hP
    rw [List.range_succ, List.reverse_append]
    simp only [List.reverse_singleton, List.singleton_append, genLoop, getRow_some hx, getRow_some hP,
      Except.bind_ok', back]
    rcases body m last.1 last.2 with e | r
    · rfl
    · simp only [Except.bind_ok']
      rw [ih (xs.set m r.1) (Ps.set m r.2) r (List.getElem?_set_self (by omega)) (List.getElem?_set_self (by omega))]
      rcases back body m r with e | l
      · rfl
      · simp only [Except.bind_ok', Except.map, List.map_append, List.map_cons, List.map_nil,
          List.append_assoc]
        congr 3
        · rw [List.drop_set_of_lt (by omega), List.drop_eq_getElem_cons hxl]
          rw [List.getElem?_eq_getElem hxl] at hx
          simp at hx
          simp [hx]
        · rw [List.drop_set_of_lt (by omega), List.drop_eq_getElem_cons hPl]
          rw [List.getElem?_eq_getElem hPl] at hP
          simp at hP
          simp [hP]

variable [Backend F]

namespace KalmanFilter

/-- The rows assigned by iteration `k` of the backward loop. -/
def body (A Q B U : NDArray F) (s : ℕ) (xEst PEst : List (Arr F)) (k : ℕ) (xNext PNext : Arr F) :
    Except PyErr (Arr F × Arr F) := do
  let Ak ← A.item (k + 1)
  let Qk ← Q.item (k + 1)
  let Bk ← B.item (k + 1)
  let uk ← U.item (k + 1)
  let Pk ← getRow PEst k
  let xk ← getRow xEst k
  let (x, P) ← smoothStep xk Pk Ak Qk Bk uk xNext PNext
  let xrow ← x.assignVec s
  let Prow ← P.assignMat s
  .ok (xrow, Prow)

theorem smoothLoop_eq_genLoop (A Q B U : NDArray F) (s : ℕ) (xEst PEst : List (Arr F)) (ks : List ℕ)
    (xs Ps : List (Arr F)) (hx : ∀ k ∈ ks, k + 1 < xs.length) (hP : ∀ k ∈ ks, k + 1 < Ps.length) :
    smoothLoop A Q B U s xEst PEst ks xs Ps = genLoop (body A Q B U s xEst PEst) ks xs Ps := by
  induction ks generalizing xs Ps with
  | nil => rfl
  | cons k ks ih =>
    obtain ⟨xn, h1⟩ : ∃ a, getRow xs (k + 1) = .ok a :=
      ⟨_, getRow_some (List.getElem?_eq_getElem (hx k (by simp)))⟩
    obtain ⟨Pn, h2⟩ : ∃ a, getRow Ps (k + 1) = .ok a :=
      ⟨_, getRow_some (List.getElem?_eq_getElem (hP k (by simp)))⟩
    simp only [smoothLoop, genLoop, body, h1, h2, Except.bind_ok']
    rcases A.item (k + 1) with e | Ak; · rfl
    simp only [Except.bind_ok']
    rcases Q.item (k + 1) with e | Qk; · rfl
    simp only [Except.bind_ok']
    rcases B.item (k + 1) with e | Bk; · rfl
    simp only [Except.bind_ok']
    rcases U.item (k + 1) with e | uk; · rfl
    simp only [Except.bind_ok']
    rcases getRow PEst k with e | Pk; · rfl
    simp only [Except.bind_ok']
    rcases getRow xEst k with e | xk; · rfl
    simp only [Except.bind_ok']
    rcases smoothStep xk Pk Ak Qk Bk uk xn Pn with e | ⟨x, P⟩; · rfl
    simp only [Except.bind_ok']
    rcases x.assignVec s with e | xr; · rfl
    simp only [Except.bind_ok']
    rcases P.assignMat s with e | Pr; · rfl
    simp only [Except.bind_ok']
    exact ih _ _ (fun j hj => by simpa using hx j (by simp [hj]))
      (fun j hj => by simpa using hP j (by simp [hj]))

theorem filter_ok {Z : NDArray F} {U : Option (NDArray F)} {kf kf' : KalmanFilter F}
    {xs Ps : List (Arr F)} (h : (filter Z U).run kf = (.ok (xs, Ps), kf')) :
    ∃ n rows, Z.len = .ok n ∧
      zipRows kf.A kf.H kf.B (checkNoneAndBroadcast U Z) Z kf.Q kf.R = .ok rows ∧
      (trace (step kf.stateSize kf.I) rows kf.xk kf.Pk).err = none ∧
      rows.length ≤ n ∧
      xs = (trace (step kf.stateSize kf.I) rows kf.xk kf.Pk).outs.map Prod.fst ++
        List.replicate (n - rows.length) (Arr.zerosVec kf.stateSize) ∧
      Ps = (trace (step kf.stateSize kf.I) rows kf.xk kf.Pk).outs.map Prod.snd ++
        List.replicate (n - rows.length) (Arr.zerosMat kf.stateSize) ∧
      kf' = kf.addGains (trace (step kf.stateSize kf.I) rows kf.xk kf.Pk).gains := by
  rw [filter_eq] at h
  rcases hn : Z.len with e | n
  · simp [hn] at h
  simp only [hn] at h
  rcases hr : zipRows kf.A kf.H kf.B (checkNoneAndBroadcast U Z) Z kf.Q kf.R with e | rows
  · simp [hr] at h
  simp only [hr, Prod.mk.injEq] at h
  obtain ⟨h1, h2⟩ := h
  have hle : rows.length ≤ n := by
    obtain ⟨hA, hH, hB, hU, hZ, hQ, hR⟩ := zipRows_ok hr
    obtain ⟨a, ha⟩ := hA.exists
    obtain ⟨hh, hhh⟩ := hH.exists
    obtain ⟨b, hb⟩ := hB.exists
    obtain ⟨u, hu⟩ := hU.exists
    obtain ⟨z, hz⟩ := hZ.exists
    obtain ⟨q, hq⟩ := hQ.exists
    obtain ⟨r, hr'⟩ := hR.exists
    rw [ha, hhh, hb, hu, hz, hq, hr', zipRows_stack] at hr
    simp only [Except.ok.injEq] at hr
    rw [← hr, zip_length]
    rw [hz] at hn
    simp at hn
    omega
  rcases he : (trace (step kf.stateSize kf.I) rows kf.xk kf.Pk).err with _ | e
  · have hl := trace_length _ _ _ _ he
    simp only [Trace.result, he, Except.ok.injEq, Prod.mk.injEq] at h1
    obtain ⟨hx, hP⟩ := h1
    rw [overwrite_zero_replicate _ _ _ (by simpa [hl] using hle)] at hx hP
    refine ⟨n, rows, rfl, rfl, he, hle, ?_, ?_, h2.symm⟩
    · rw [← hx]; simp [hl]
    · rw [← hP]; simp [hl]
  · simp [Trace.result, he] at h1

theorem filter_rowsOk {Z : NDArray F} {U : Option (NDArray F)} {kf kf' : KalmanFilter F}
    {xs Ps : List (Arr F)} (h : (filter Z U).run kf = (.ok (xs, Ps), kf')) :
    ∃ n, Z.len = .ok n ∧ xs.length = n ∧ Ps.length = n ∧
      (∀ x ∈ xs, x.shape = [kf.stateSize] ∧ x.dtype = .float64) ∧
      (∀ P ∈ Ps, P.shape = [kf.stateSize, kf.stateSize] ∧ P.dtype = .float64) := by
  obtain ⟨n, rows, hn, -, he, hle, rfl, rfl, -⟩ := filter_ok h
  have hl := trace_length _ _ _ _ he
  have hall := trace_outs_forall (step kf.stateSize kf.I) (RowsOk kf.stateSize)
    (fun r x P g xP o => step_rowsOk _ _ r x P g xP o) rows kf.xk kf.Pk
  refine ⟨n, hn, by simp [hl]; omega, by simp [hl]; omega, ?_, ?_⟩
  · intro x hx
    rw [List.mem_append] at hx
    rcases hx with hx | hx
    · obtain ⟨o, ho, rfl⟩ := List.mem_map.1 hx
      exact (hall o ho).1
    · rw [List.eq_of_mem_replicate hx]; exact ⟨rfl, rfl⟩
  · intro x hx
    rw [List.mem_append] at hx
    rcases hx with hx | hx
    · obtain ⟨o, ho, rfl⟩ := List.mem_map.1 hx
      exact (hall o ho).2
    · rw [List.eq_of_mem_replicate hx]; exact ⟨rfl, rfl⟩

/-- Only the gains of the object change during `filter`. -/
theorem filter_state (Z : NDArray F) (U : Option (NDArray F)) (kf : KalmanFilter F) :
    ∃ g, ((filter Z U).run kf).2 = kf.addGains g := by
  rw [filter_eq]
  rcases Z.len with e | n
  · exact ⟨[], by simp⟩
  dsimp only
  rcases zipRows kf.A kf.H kf.B (checkNoneAndBroadcast U Z) Z kf.Q kf.R with e | rows
  · exact ⟨[], by simp⟩
  · exact ⟨_, rfl⟩

/-- `smooth` as the backward recursion on top of `filter`. -/
theorem smooth_eq (Z : NDArray F) (U : Option (NDArray F)) (kf : KalmanFilter F) :
    (smooth Z U).run kf =
      match (filter Z U).run kf with
      | (.error e, kf') => (.error e, kf')
      | (.ok (xe, Pe), kf') =>
        (match xe[xe.length - 1]?, Pe[xe.length - 1]? with
          | some x, some P =>
            (back (body kf.A kf.Q kf.B (checkNoneAndBroadcast U Z) kf.stateSize xe Pe)
              (xe.length - 1) (x, P)).map fun l => (l.map Prod.fst, l.map Prod.snd)
          | _, _ => .error .indexError, kf') := by
  obtain ⟨g, hg⟩ := filter_state Z U kf
  simp only [smooth, Py.run_bind]
  rcases hf : (filter Z U).run kf with ⟨e | ⟨xe, Pe⟩, kf'⟩
  · rfl
  obtain ⟨n, hn, hx, hP, hxs, hPs⟩ := filter_rowsOk hf
  rw [hf] at hg
  simp only at hg
  subst hg
  simp only [Py.run_self, Py.run_lift, hn]
  by_cases h0 : n = 0
  · subst h0
    simp only [List.length_eq_zero_iff] at hx hP
    subst hx hP
    simp
  · have hlx : n - 1 < xe.length := by omega
    have hlP : n - 1 < Pe.length := by omega
    simp only [h0, if_false, hx, getRow_some (List.getElem?_eq_getElem hlx),
      getRow_some (List.getElem?_eq_getElem hlP), List.getElem?_eq_getElem hlx,
      List.getElem?_eq_getElem hlP, addGains_stateSize]
    have e1 := hxs _ (List.getElem_mem hlx)
    have e2 := hPs _ (List.getElem_mem hlP)
    rw [assignVec_self e1.1 e1.2, assignMat_self e2.1 e2.2]
    simp only
    rw [smoothLoop_eq_genLoop _ _ _ _ _ _ _ _ _ _ (by simp; omega) (by simp; omega),
      genLoop_eq _ (n - 1) _ _ (xe[n-1], Pe[n-1])
        (List.getElem?_set_self (by simp; omega)) (List.getElem?_set_self (by simp; omega))]
    have : n - 1 + 1 = n := by omega
    simp only [this, addGains]
    have d1 : (List.drop n ((List.replicate n (Arr.zerosVec kf.stateSize : Arr F)).set (n - 1) xe[n - 1])) = [] := by
      simp
    have d2 : (List.drop n ((List.replicate n (Arr.zerosMat kf.stateSize : Arr F)).set (n - 1) Pe[n - 1])) = [] := by
      simp
    simp only [d1, d2, List.append_nil]

end KalmanFilter

namespace ExtendedKalmanFilter

/-- The rows assigned by iteration `k` of the backward loop. -/
def body (kf : ExtendedKalmanFilter F) (Q U : NDArray F) (xEst PEst : List (Arr F)) (k : ℕ)
    (xNext PNext : Arr F) : Except PyErr (Arr F × Arr F) := do
  let Qk ← Q.item (k + 1)
  let uk ← U.item (k + 1)
  let Pk ← getRow PEst k
  let xk ← getRow xEst k
  let (x, P) ← smoothStep kf xk Pk Qk uk xNext PNext
  let xrow ← x.assignVec kf.stateSize
  let Prow ← P.assignMat kf.stateSize
  .ok (xrow, Prow)

theorem smoothLoop_eq_genLoop (kf : ExtendedKalmanFilter F) (Q U : NDArray F)
    (xEst PEst : List (Arr F)) (ks : List ℕ)
    (xs Ps : List (Arr F)) (hx : ∀ k ∈ ks, k + 1 < xs.length) (hP : ∀ k ∈ ks, k + 1 < Ps.length) :
    smoothLoop kf Q U xEst PEst ks xs Ps = genLoop (body kf Q U xEst PEst) ks xs Ps := by
  induction ks generalizing xs Ps with
  | nil => rfl
  | cons k ks ih =>
    obtain ⟨xn, h1⟩ : ∃ a, getRow xs (k + 1) = .ok a :=
      ⟨_, getRow_some (List.getElem?_eq_getElem (hx k (by simp)))⟩
    obtain ⟨Pn, h2⟩ : ∃ a, getRow Ps (k + 1) = .ok a :=
      ⟨_, getRow_some (List.getElem?_eq_getElem (hP k (by simp)))⟩
    simp only [smoothLoop, genLoop, body, h1, h2, Except.bind_ok']
    rcases Q.item (k + 1) with e | Qk; · rfl
    simp only [Except.bind_ok']
    rcases U.item (k + 1) with e | uk; · rfl
    simp only [Except.bind_ok']
    rcases getRow PEst k with e | Pk; · rfl
    simp only [Except.bind_ok']
    rcases getRow xEst k with e | xk; · rfl
    simp only [Except.bind_ok']
    rcases smoothStep kf xk Pk Qk uk xn Pn with e | ⟨x, P⟩; · rfl
    simp only [Except.bind_ok']
    rcases x.assignVec kf.stateSize with e | xr; · rfl
    simp only [Except.bind_ok']
    rcases P.assignMat kf.stateSize with e | Pr; · rfl
    simp only [Except.bind_ok']
    exact ih _ _ (fun j hj => by simpa using hx j (by simp [hj]))
      (fun j hj => by simpa using hP j (by simp [hj]))

theorem filter_ok {Z : NDArray F} {U : Option (NDArray F)} {kf kf' : ExtendedKalmanFilter F}
    {xs Ps : List (Arr F)} (h : (filter Z U).run kf = (.ok (xs, Ps), kf')) :
    ∃ n rows, Z.len = .ok n ∧
      zipRows (checkNoneAndBroadcast U Z) Z kf.Q kf.R = .ok rows ∧
      (trace (step kf) rows kf.xk kf.Pk).err = none ∧
      rows.length ≤ n ∧
      xs = (trace (step kf) rows kf.xk kf.Pk).outs.map Prod.fst ++
        List.replicate (n - rows.length) (Arr.zerosVec kf.stateSize) ∧
      Ps = (trace (step kf) rows kf.xk kf.Pk).outs.map Prod.snd ++
        List.replicate (n - rows.length) (Arr.zerosMat kf.stateSize) ∧
      kf' = kf.addGains (trace (step kf) rows kf.xk kf.Pk).gains := by
  rw [filter_eq] at h
  rcases hn : Z.len with e | n
  · simp [hn] at h
  simp only [hn] at h
  rcases hr : zipRows (checkNoneAndBroadcast U Z) Z kf.Q kf.R with e | rows
  · simp [hr] at h
  simp only [hr, Prod.mk.injEq] at h
  obtain ⟨h1, h2⟩ := h
  have hle : rows.length ≤ n := by
    obtain ⟨hU, hZ, hQ, hR⟩ := zipRows_ok hr
    obtain ⟨u, hu⟩ := hU.exists
    obtain ⟨z, hz⟩ := hZ.exists
    obtain ⟨q, hq⟩ := hQ.exists
    obtain ⟨r, hr'⟩ := hR.exists
    rw [hu, hz, hq, hr', zipRows_stack] at hr
    simp only [Except.ok.injEq] at hr
    rw [← hr, zip_length]
    rw [hz] at hn
    simp at hn
    omega
  rcases he : (trace (step kf) rows kf.xk kf.Pk).err with _ | e
  · have hl := trace_length _ _ _ _ he
    simp only [Trace.result, he, Except.ok.injEq, Prod.mk.injEq] at h1
    obtain ⟨hx, hP⟩ := h1
    rw [overwrite_zero_replicate _ _ _ (by simpa [hl] using hle)] at hx hP
    refine ⟨n, rows, rfl, rfl, he, hle, ?_, ?_, h2.symm⟩
    · rw [← hx]; simp [hl]
    · rw [← hP]; simp [hl]
  · simp [Trace.result, he] at h1

theorem filter_rowsOk {Z : NDArray F} {U : Option (NDArray F)} {kf kf' : ExtendedKalmanFilter F}
    {xs Ps : List (Arr F)} (h : (filter Z U).run kf = (.ok (xs, Ps), kf')) :
    ∃ n, Z.len = .ok n ∧ xs.length = n ∧ Ps.length = n ∧
      (∀ x ∈ xs, x.shape = [kf.stateSize] ∧ x.dtype = .float64) ∧
      (∀ P ∈ Ps, P.shape = [kf.stateSize, kf.stateSize] ∧ P.dtype = .float64) := by
  obtain ⟨n, rows, hn, -, he, hle, rfl, rfl, -⟩ := filter_ok h
  have hl := trace_length _ _ _ _ he
  have hall := trace_outs_forall (step kf) (RowsOk kf.stateSize)
    (fun r x P g xP o => step_rowsOk _ r x P g xP o) rows kf.xk kf.Pk
  refine ⟨n, hn, by simp [hl]; omega, by simp [hl]; omega, ?_, ?_⟩
  · intro x hx
    rw [List.mem_append] at hx
    rcases hx with hx | hx
    · obtain ⟨o, ho, rfl⟩ := List.mem_map.1 hx
      exact (hall o ho).1
    · rw [List.eq_of_mem_replicate hx]; exact ⟨rfl, rfl⟩
  · intro x hx
    rw [List.mem_append] at hx
    rcases hx with hx | hx
    · obtain ⟨o, ho, rfl⟩ := List.mem_map.1 hx
      exact (hall o ho).2
    · rw [List.eq_of_mem_replicate hx]; exact ⟨rfl, rfl⟩

/-- Only the gains of the object change during `filter`. -/
theorem filter_state (Z : NDArray F) (U : Option (NDArray F)) (kf : ExtendedKalmanFilter F) :
    ∃ g, ((filter Z U).run kf).2 = kf.addGains g := by
  rw [filter_eq]
  rcases Z.len with e | n
  · exact ⟨[], by simp⟩
  dsimp only
  rcases zipRows (checkNoneAndBroadcast U Z) Z kf.Q kf.R with e | rows
  · exact ⟨[], by simp⟩
  · exact ⟨_, rfl⟩

/-- `smooth` as the backward recursion on top of `filter`. -/
theorem smooth_eq (Z : NDArray F) (U : Option (NDArray F)) (kf : ExtendedKalmanFilter F) :
    (smooth Z U).run kf =
      match (filter Z U).run kf with
      | (.error e, kf') => (.error e, kf')
      | (.ok (xe, Pe), kf') =>
        (match xe[xe.length - 1]?, Pe[xe.length - 1]? with
          | some x, some P =>
            (back (body kf kf.Q (checkNoneAndBroadcast U Z) xe Pe)
              (xe.length - 1) (x, P)).map fun l => (l.map Prod.fst, l.map Prod.snd)
          | _, _ => .error .indexError, kf') := by
  obtain ⟨g, hg⟩ := filter_state Z U kf
  simp only [smooth, Py.run_bind]
  rcases hf : (filter Z U).run kf with ⟨e | ⟨xe, Pe⟩, kf'⟩
  · rfl
  obtain ⟨n, hn, hx, hP, hxs, hPs⟩ := filter_rowsOk hf
  rw [hf] at hg
  simp only at hg
  subst hg
  simp only [Py.run_self, Py.run_lift, hn]
  by_cases h0 : n = 0
  · subst h0
    simp only [List.length_eq_zero_iff] at hx hP
    subst hx hP
    simp
  · have hlx : n - 1 < xe.length := by omega
    have hlP : n - 1 < Pe.length := by omega
    simp only [h0, if_false, hx, getRow_some (List.getElem?_eq_getElem hlx),
      getRow_some (List.getElem?_eq_getElem hlP), List.getElem?_eq_getElem hlx,
      List.getElem?_eq_getElem hlP, addGains_stateSize]
    have e1 := hxs _ (List.getElem_mem hlx)
    have e2 := hPs _ (List.getElem_mem hlP)
    rw [assignVec_self e1.1 e1.2, assignMat_self e2.1 e2.2]
    simp only
    have hb : ∀ g, body (kf.addGains g) = body kf := fun _ => rfl
    rw [smoothLoop_eq_genLoop _ _ _ _ _ _ _ _ (by simp; omega) (by simp; omega),
      genLoop_eq _ (n - 1) _ _ (xe[n-1], Pe[n-1])
        (List.getElem?_set_self (by simp; omega)) (List.getElem?_set_self (by simp; omega))]
    have : n - 1 + 1 = n := by omega
    rw [hb]
    simp only [this]
    simp only [addGains]
    have d1 : (List.drop n ((List.replicate n (Arr.zerosVec kf.stateSize : Arr F)).set (n - 1) xe[n - 1])) = [] := by
      simp
    have d2 : (List.drop n ((List.replicate n (Arr.zerosMat kf.stateSize : Arr F)).set (n - 1) Pe[n - 1])) = [] := by
      simp
    simp only [d1, d2, List.append_nil]

end ExtendedKalmanFilter

end KK
