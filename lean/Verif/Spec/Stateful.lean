import Verif.Model.Stateful
import Verif.Spec.ExtTextbook

/-!
# Callbacks that keep state: what may be asked of them, and what they are asked
-/

namespace KK

variable {σ F : Type}

/-- The attributes of the object of `Model/Extended.lean`, without the callbacks. -/
def ExtendedKalmanFilter.attrs (kf : ExtendedKalmanFilter F) : EkfAttrs F :=
  ⟨kf.xk, kf.Pk, kf.Q, kf.R, kf.stateSize, kf.I, kf.kalmanGains⟩

/-- Whenever the program starts in a state with `Inv` it raises or returns what `value` says, and stops in a state with
`Inv`, having treated the object as `Keeps` says. -/
def Py.Gives (Inv : σ → Prop) (Keeps : EkfAttrs F → EkfAttrs F → Prop) (p : Py (World σ F) (Arr F))
    (value : Except PyErr (Arr F)) : Prop :=
  ∀ w : World σ F, Inv w.user → (p.run w).1 = value ∧ Inv (p.run w).2.user ∧ Keeps w.self (p.run w).2.self

/-- The callbacks compute the functions that `kf` has, whatever they keep in their state, as long as `Inv`. -/
structure Callbacks.Compute (cb : Callbacks σ F) (kf : ExtendedKalmanFilter F) (Inv : σ → Prop)
    (Keeps : EkfAttrs F → EkfAttrs F → Prop) : Prop where
  f : ∀ x u, (cb.f x u).Gives Inv Keeps (kf.f x u)
  h : ∀ x, (cb.h x).Gives Inv Keeps (kf.h x)
  jacobianA : ∀ x u, (cb.jacobianA x u).Gives Inv Keeps (kf.jacobianA x u)
  jacobianH : ∀ x, (cb.jacobianH x).Gives Inv Keeps (kf.jacobianH x)

/-- Nothing was assigned to but `kalman_gains`, and that was only appended to. -/
def OnlyAppends (a b : EkfAttrs F) : Prop := ∃ g, b = { a with kalmanGains := a.kalmanGains ++ g }

/-! ## The calls made -/

/-- The number of steps of `filter`: the shortest of `U`, `Z`, `Q` and `R` decides. -/
def EkfAttrs.steps (a : EkfAttrs F) [Backend F] (Z : NDArray F) (U : Option (NDArray F)) : ℕ :=
  min (effU U Z).rows.length (min Z.rows.length (min a.Q.rows.length a.R.rows.length))

/-- A call of a callback, with its arguments and its outcome. -/
inductive CallbackCall (F : Type) where
  | f (x : Arr F) (u : Option (Arr F)) (out : Except PyErr (Arr F))
  | h (x : Arr F) (out : Except PyErr (Arr F))
  | jacobianA (x : Arr F) (u : Option (Arr F)) (out : Except PyErr (Arr F))
  | jacobianH (x : Arr F) (out : Except PyErr (Arr F))

/-- The outcome of the call. -/
def CallbackCall.out : CallbackCall F → Except PyErr (Arr F)
  | f _ _ o => o
  | h _ o => o
  | jacobianA _ _ o => o
  | jacobianH _ o => o

/-- Run a callback and write the call down. -/
def logCall (call : Except PyErr (Arr F) → CallbackCall F) (p : Py (World σ F) (Arr F)) :
    Py (World (List (CallbackCall F) × σ) F) (Arr F) :=
  ⟨fun w =>
    let r := p.run ⟨w.user.2, w.self⟩
    (r.1, ⟨(w.user.1 ++ [call r.1], r.2.user), r.2.self⟩)⟩

/-- The same callbacks, with a list in which every call is written down. -/
def Callbacks.logged (cb : Callbacks σ F) : Callbacks (List (CallbackCall F) × σ) F where
  f x u := logCall (.f x u) (cb.f x u)
  h x := logCall (.h x) (cb.h x)
  jacobianA x u := logCall (.jacobianA x u) (cb.jacobianA x u)
  jacobianH x := logCall (.jacobianH x) (cb.jacobianH x)

/-- What the callbacks were asked, and what they answered, in one step of `filter`. -/
structure StepCalls (F : Type) where
  x : Arr F
  u : Arr F
  A : Arr F
  prior : Arr F
  H : Arr F
  hx : Arr F

/-- The calls of one step: `jacobian_A` and `f` at the last estimate, then `jacobian_H` and `h` at what `f` returned. -/
def StepCalls.calls (c : StepCalls F) : List (CallbackCall F) :=
  [.jacobianA c.x (some c.u) (.ok c.A), .f c.x (some c.u) (.ok c.prior), .jacobianH c.prior (.ok c.H), .h c.prior (.ok c.hx)]

/-- What the callbacks were asked, and what they answered, in one step of the backward pass of `smooth`. -/
structure BackCalls (F : Type) where
  x : Arr F
  u : Arr F
  A : Arr F
  ahead : Arr F
  A' : Arr F

/-- The calls of one step of the backward pass: `jacobian_A`, `f`, and `jacobian_A` again, at the filtered estimate. -/
def BackCalls.calls (c : BackCalls F) : List (CallbackCall F) :=
  [.jacobianA c.x (some c.u) (.ok c.A), .f c.x (some c.u) (.ok c.ahead), .jacobianA c.x (some c.u) (.ok c.A')]

/-- The calls of a `predict` that raises `e`: if a callback raises, it is the last one called and `e` is what it
raised; otherwise both were called. -/
inductive PartialPredict (x : Arr F) (u : Option (Arr F)) (e : PyErr) : List (CallbackCall F) → Prop
  | jacobianA : PartialPredict x u e [.jacobianA x u (.error e)]
  | f (A : Arr F) : PartialPredict x u e [.jacobianA x u (.ok A), .f x u (.error e)]
  | after (A prior : Arr F) : PartialPredict x u e [.jacobianA x u (.ok A), .f x u (.ok prior)]

/-- The calls of an `update` that raises `e`, or is followed by an assignment that raises `e`; `h` is not called if the gain
cannot be computed. -/
inductive PartialUpdate (x : Arr F) (e : PyErr) : List (CallbackCall F) → Prop
  | jacobianH : PartialUpdate x e [.jacobianH x (.error e)]
  | gain (H : Arr F) : PartialUpdate x e [.jacobianH x (.ok H)]
  | h (H : Arr F) : PartialUpdate x e [.jacobianH x (.ok H), .h x (.error e)]
  | after (H hx : Arr F) : PartialUpdate x e [.jacobianH x (.ok H), .h x (.ok hx)]

/-- The calls of a step of `filter` in which `e` is raised. -/
inductive PartialStep (x u : Arr F) (e : PyErr) : List (CallbackCall F) → Prop
  | predict {l : List (CallbackCall F)} (h : PartialPredict x (some u) e l) : PartialStep x u e l
  | update (A prior : Arr F) {l : List (CallbackCall F)} (h : PartialUpdate prior e l) :
      PartialStep x u e ([.jacobianA x (some u) (.ok A), .f x (some u) (.ok prior)] ++ l)

/-- The calls of a step of the backward pass of `smooth` in which `e` is raised. -/
inductive PartialBack (x u : Arr F) (e : PyErr) : List (CallbackCall F) → Prop
  | predict {l : List (CallbackCall F)} (h : PartialPredict x (some u) e l) : PartialBack x u e l
  | jacobianA (A ahead : Arr F) :
      PartialBack x u e [.jacobianA x (some u) (.ok A), .f x (some u) (.ok ahead), .jacobianA x (some u) (.error e)]
  | after (A ahead A' : Arr F) :
      PartialBack x u e [.jacobianA x (some u) (.ok A), .f x (some u) (.ok ahead), .jacobianA x (some u) (.ok A')]

/-! ## Callbacks that count -/

/-- How often each callback has been called. -/
structure Counts where
  f : ℕ
  h : ℕ
  jacobianA : ℕ
  jacobianH : ℕ

/-- The callbacks of a user with a model that changes from step to step: each counts its calls, and at its `k`-th call
computes the function of step `k`. -/
def counting (step : ℕ → ExtendedKalmanFilter F) : Callbacks Counts F where
  f x u := ⟨fun w => ((step w.user.f).f x u, { w with user := { w.user with f := w.user.f + 1 } })⟩
  h x := ⟨fun w => ((step w.user.h).h x, { w with user := { w.user with h := w.user.h + 1 } })⟩
  jacobianA x u := ⟨fun w =>
    ((step w.user.jacobianA).jacobianA x u, { w with user := { w.user with jacobianA := w.user.jacobianA + 1 } })⟩
  jacobianH x := ⟨fun w =>
    ((step w.user.jacobianH).jacobianH x, { w with user := { w.user with jacobianH := w.user.jacobianH + 1 } })⟩

/-- The calls `filter(Z, U)` and `smooth(Z, U)` on an object with attributes `a`, and callbacks that count and have each been called
`j` times, are about the initial belief `b` and the models and data `ss`: the functions of step `j + k` are those of the
`k`-th model. -/
structure CountingRepresents {n m : ℕ} [Platform] (step : ℕ → ExtendedKalmanFilter Fl) (j : ℕ) (a : EkfAttrs Fl) (Z : NDArray Fl)
    (U : Option (NDArray Fl)) (b : Belief n) (ss : List (ExtStep n m)) : Prop where
  iterU : (effU U Z).Iterable
  iterZ : Z.Iterable
  iterQ : a.Q.Iterable
  iterR : a.R.Iterable
  len : ss.length = a.steps Z U
  size : a.stateSize = n
  ident : a.I = Arr.identity n
  x : VecIs b.x a.xk
  P : MatIs b.P a.Pk
  rows : ∀ (k : ℕ) (s : ExtStep n m) (uk zk Qk Rk : Arr Fl), ss[k]? = some s →
    (effU U Z).rows[k]? = some uk → Z.rows[k]? = some zk → a.Q.rows[k]? = some Qk →
    a.R.rows[k]? = some Rk → ExtStepIs (step (j + k)) s uk zk Qk Rk

end KK
