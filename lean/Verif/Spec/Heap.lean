import Verif.Model.Heap

/-! # What the memory holds, and what a user may do between calls -/

namespace KK

variable {F : Type}

/-- The attributes of the object (other than the recorded gains) refer to arrays that hold the values of `kf`. -/
structure ObjIs (h : Heap F) (o : HFilter) (kf : KalmanFilter F) : Prop where
  A : h.seqAt o.A = some kf.A
  B : h.seqAt o.B = some kf.B
  H : h.seqAt o.H = some kf.H
  Q : h.seqAt o.Q = some kf.Q
  R : h.seqAt o.R = some kf.R
  xk : h.deref o.xk = some kf.xk
  Pk : h.deref o.Pk = some kf.Pk
  I : h.deref o.I = some kf.I
  size : o.stateSize = kf.stateSize

/-- An optional sequence argument: `None`, or a reference to a sequence that holds the given value. -/
def SeqArg (h : Heap F) : Option ℕ → Option (NDArray F) → Prop
  | none, none => True
  | some r, some a => h.seqAt r = some a
  | _, _ => False

/-- Two outcomes are alike: both return, with related results, or both raise the same exception. -/
def Alike {α β : Type} (P : α → β → Prop) : Except PyErr α → Except PyErr β → Prop
  | .ok a, .ok b => P a b
  | .error e, .error e' => e = e'
  | _, _ => False

/-- What a user can do with an object: call its methods, allocate arrays, write into arrays. -/
inductive UserAct (F : Type) where
  | filter (Z : ℕ) (U : Option ℕ)
  | smooth (Z : ℕ) (U : Option ℕ)
  | predict (Ak xk Bk uk Pk Qk : View)
  | update (Hk xk Pk zk Rk : View)
  | alloc (c : Cell F)
  | write (r : ℕ) (c : Cell F)

/-- The memory and the object afterwards (the outcome is dropped: a call may also raise). -/
def UserAct.run [Backend F] : UserAct F → HState F → HState F
  | .filter Z U, st => ((HFilter.filter Z U).run st).2
  | .smooth Z U, st => ((HFilter.smooth Z U).run st).2
  | .predict Ak xk Bk uk Pk Qk, st => ((HFilter.predict Ak xk Bk uk Pk Qk).run st).2
  | .update Hk xk Pk zk Rk, st => ((HFilter.update Hk xk Pk zk Rk).run st).2
  | .alloc c, st => { st with heap := st.heap ++ [c] }
  | .write r c, st => { st with heap := st.heap.set r c }

/-- Only arrays numbered `n` or later are written. -/
def UserAct.Above (n : ℕ) : UserAct F → Prop
  | .write r _ => n ≤ r
  | _ => True

/-- A sequence of actions. -/
def UserAct.runAll [Backend F] (acts : List (UserAct F)) (st : HState F) : HState F :=
  acts.foldl (fun st a => a.run st) st

/-- Same dtype and same shape: what writing into an array cannot change. -/
def Arr.SameForm (a b : Arr F) : Prop := a.dtype = b.dtype ∧ a.shape = b.shape

/-- Same dtype and same shape, for sequences. -/
def NDArray.SameForm : NDArray F → NDArray F → Prop
  | .d0 d _, .d0 d' _ => d = d'
  | .stack l, .stack l' => List.Forall₂ Arr.SameForm l l'
  | _, _ => False

end KK
