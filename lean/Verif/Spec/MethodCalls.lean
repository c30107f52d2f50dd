import Verif.Model.Subclass
import Verif.Spec.Basic

/-!
# Which methods `filter` and `smooth` call (C152)

The calls of `predict` and `update` that the inherited `filter` and `smooth` make on an instance of a subclass, written down by wrapping the
overriding methods.
-/

namespace KK

variable {σ F : Type}

/-- A call of `predict` or `update` of a subclass of `KalmanFilter`, with its arguments and its outcome. -/
inductive MethodCall (F : Type) where
  | predict (Ak xk : Arr F) (Bk uk : Option (Arr F)) (Pk Qk : Arr F) (out : Except PyErr (Arr F × Arr F))
  | update (Hk xk Pk zk Rk : Arr F) (out : Except PyErr (Arr F × Arr F))

/-- The same for a subclass of `ExtendedKalmanFilter`. -/
inductive ExtMethodCall (F : Type) where
  | predict (xk : Arr F) (uk : Option (Arr F)) (Pk Qk : Arr F) (out : Except PyErr (Arr F × Arr F))
  | update (xk Pk zk Rk : Arr F) (out : Except PyErr (Arr F × Arr F))

/-- Run a method and write the call down. -/
def Instance.logged {O C α : Type} (call : Except PyErr α → C) (p : Py (Instance σ O) α) : Py (Instance (List C × σ) O) α :=
  ⟨fun s =>
    let r := p.run ⟨s.base, s.own.2⟩
    (r.1, ⟨r.2.base, (s.own.1 ++ [call r.1], r.2.own)⟩)⟩

/-- The same methods, with a list in which every call is written down. -/
def Methods.logged (M : Methods σ F) : Methods (List (MethodCall F) × σ) F where
  predict Ak xk Bk uk Pk Qk := Instance.logged (.predict Ak xk Bk uk Pk Qk) (M.predict Ak xk Bk uk Pk Qk)
  update Hk xk Pk zk Rk := Instance.logged (.update Hk xk Pk zk Rk) (M.update Hk xk Pk zk Rk)

/-- The same methods, with a list in which every call is written down. -/
def ExtMethods.logged (M : ExtMethods σ F) : ExtMethods (List (ExtMethodCall F) × σ) F where
  predict xk uk Pk Qk := Instance.logged (.predict xk uk Pk Qk) (M.predict xk uk Pk Qk)
  update xk Pk zk Rk := Instance.logged (.update xk Pk zk Rk) (M.update xk Pk zk Rk)

/-- A step of `filter`: the estimate it starts from, what `predict` returned and what `update` returned. -/
structure MethodStep (F : Type) where
  before : Arr F × Arr F
  prior : Arr F × Arr F
  post : Arr F × Arr F

/-- `call` is a call of `predict` with row `k` of `A`, `B`, `U`, `Q` and the estimate `est` (state and covariance), which ends as `out` says;
`kf` are the attributes of the object, `effU U Z` is `U` or the marker for a missing `U`. -/
def KalmanFilter.PredictCall [Backend F] (kf : KalmanFilter F) (Z : NDArray F) (U : Option (NDArray F)) (k : ℕ) (est : Arr F × Arr F)
    (out : Except PyErr (Arr F × Arr F)) (call : MethodCall F) : Prop :=
  ∃ A B u Q, kf.A.rows[k]? = some A ∧ kf.B.rows[k]? = some B ∧ (effU U Z).rows[k]? = some u ∧ kf.Q.rows[k]? = some Q ∧
    call = .predict A est.1 (some B) (some u) est.2 Q out

/-- The same for `update`, with row `k` of `H`, `Z`, `R`. -/
def KalmanFilter.UpdateCall (kf : KalmanFilter F) (Z : NDArray F) (k : ℕ) (est : Arr F × Arr F)
    (out : Except PyErr (Arr F × Arr F)) (call : MethodCall F) : Prop :=
  ∃ H z R, kf.H.rows[k]? = some H ∧ Z.rows[k]? = some z ∧ kf.R.rows[k]? = some R ∧ call = .update H est.1 est.2 z R out

/-- The extended class: row `k` of `U`, `Q`. -/
def ExtendedKalmanFilter.PredictCall [Backend F] (kf : ExtendedKalmanFilter F) (Z : NDArray F) (U : Option (NDArray F)) (k : ℕ) (est : Arr F × Arr F)
    (out : Except PyErr (Arr F × Arr F)) (call : ExtMethodCall F) : Prop :=
  ∃ u Q, (effU U Z).rows[k]? = some u ∧ kf.Q.rows[k]? = some Q ∧ call = .predict est.1 (some u) est.2 Q out

/-- The extended class: row `k` of `Z`, `R`. -/
def ExtendedKalmanFilter.UpdateCall (kf : ExtendedKalmanFilter F) (Z : NDArray F) (k : ℕ) (est : Arr F × Arr F)
    (out : Except PyErr (Arr F × Arr F)) (call : ExtMethodCall F) : Prop :=
  ∃ z R, Z.rows[k]? = some z ∧ kf.R.rows[k]? = some R ∧ call = .update est.1 est.2 z R out

/-- `log` are the calls of complete steps `steps`, the first being step `k`: each calls `predict` and then, with what it returned,
`update`, which ends the step. -/
inductive StepCallsFrom {C : Type} (isPredict isUpdate : ℕ → Arr F × Arr F → Except PyErr (Arr F × Arr F) → C → Prop) :
    ℕ → List (MethodStep F) → List C → Prop
  | nil (k : ℕ) : StepCallsFrom isPredict isUpdate k [] []
  | cons (k : ℕ) (s : MethodStep F) (ss : List (MethodStep F)) (c d : C) (log : List C) (hc : isPredict k s.before (.ok s.prior) c)
      (hd : isUpdate k s.prior (.ok s.post) d) (h : StepCallsFrom isPredict isUpdate (k + 1) ss log) :
      StepCallsFrom isPredict isUpdate k (s :: ss) (c :: d :: log)

/-- Every step starts from what the step before returned, the first one from `est`. -/
def Chained : Arr F × Arr F → List (MethodStep F) → Prop
  | _, [] => True
  | est, s :: ss => s.before = est ∧ Chained s.post ss

/-- What the last of these steps returned (`est` if there is none). -/
def lastPost (est : Arr F × Arr F) (ss : List (MethodStep F)) : Arr F × Arr F :=
  match ss.getLast? with
  | some s => s.post
  | none => est

/-- The calls of a step `k`, starting from `est`, in which `e` is raised: by `predict`, by `update`, or by storing what `update` returned in
a row of the results. -/
inductive BrokenStep {C : Type} [Backend F] (isPredict isUpdate : ℕ → Arr F × Arr F → Except PyErr (Arr F × Arr F) → C → Prop) (n k : ℕ)
    (est : Arr F × Arr F) (e : PyErr) : List C → Prop
  | predict (c : C) (hc : isPredict k est (.error e) c) : BrokenStep isPredict isUpdate n k est e [c]
  | update (prior : Arr F × Arr F) (c d : C) (hc : isPredict k est (.ok prior) c) (hd : isUpdate k prior (.error e) d) :
      BrokenStep isPredict isUpdate n k est e [c, d]
  | store (prior post : Arr F × Arr F) (c d : C) (hc : isPredict k est (.ok prior) c) (hd : isUpdate k prior (.ok post) d)
      (hr : post.1.assignVec n = .error e ∨ post.2.assignMat n = .error e) : BrokenStep isPredict isUpdate n k est e [c, d]

end KK
