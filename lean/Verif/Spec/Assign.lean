import Verif.Spec.Basic

/-!
# Specification: assigning to the attributes of a filter between calls (C151)

All parameters are public attributes (standard.py 116-130, extended.py 130-142): users assign new values to them between
calls, to reuse an object for other data.
-/

namespace KK

section
variable {F : Type} [Backend F]

/-- An assignment `kf.name = value`.  `kf.B = None` is possible too. -/
inductive KalmanFilter.Assign (F : Type) where
  | A (v : NDArray F)
  | xk (v : Arr F)
  | B (v : Option (NDArray F))
  | Pk (v : Arr F)
  | H (v : NDArray F)
  | Q (v : NDArray F)
  | R (v : NDArray F)
  | stateSize (n : ℕ)
  | kalmanGains (v : List (Arr F))

/-- The object after the assignment.  `None` can neither be iterated nor indexed: Python raises TypeError for both, as it does for a
0-d array, which stands for it here. -/
def KalmanFilter.assign (kf : KalmanFilter F) : KalmanFilter.Assign F → KalmanFilter F
  | .A v => { kf with A := v }
  | .xk v => { kf with xk := v }
  | .B (some v) => { kf with B := v }
  | .B none => { kf with B := .d0 .float64 Backend.nan }
  | .Pk v => { kf with Pk := v }
  | .H v => { kf with H := v }
  | .Q v => { kf with Q := v }
  | .R v => { kf with R := v }
  | .stateSize n => { kf with stateSize := n }
  | .kalmanGains v => { kf with kalmanGains := v }

/-- What a user does to an object: method calls and assignments. -/
inductive KalmanFilter.Event (F : Type) where
  | call (c : KalmanFilter.Call F)
  | assign (a : KalmanFilter.Assign F)

/-- The object after these events; calls may return or raise. -/
def KalmanFilter.afterEvents (kf : KalmanFilter F) (evs : List (KalmanFilter.Event F)) : KalmanFilter F :=
  evs.foldl (fun o e => match e with
    | .call c => (o.exec c).2
    | .assign a => o.assign a) kf

/-- The assignments among the events. -/
def KalmanFilter.assignments (evs : List (KalmanFilter.Event F)) : List (KalmanFilter.Event F) :=
  evs.filter fun e => match e with
    | .call _ => false
    | .assign _ => true

/-- `state_size` is not assigned to. -/
def KalmanFilter.KeepsSize (evs : List (KalmanFilter.Event F)) : Prop := ∀ n, KalmanFilter.Event.assign (.stateSize n) ∉ evs

/-- `B` is not assigned to. -/
def KalmanFilter.KeepsB (evs : List (KalmanFilter.Event F)) : Prop := ∀ v, KalmanFilter.Event.assign (.B v) ∉ evs

/-- An assignment to an attribute of an `ExtendedKalmanFilter`. -/
inductive ExtendedKalmanFilter.Assign (F : Type) where
  | f (v : Arr F → Option (Arr F) → Except PyErr (Arr F))
  | jacobianA (v : Arr F → Option (Arr F) → Except PyErr (Arr F))
  | xk (v : Arr F)
  | Pk (v : Arr F)
  | h (v : Arr F → Except PyErr (Arr F))
  | jacobianH (v : Arr F → Except PyErr (Arr F))
  | Q (v : NDArray F)
  | R (v : NDArray F)
  | stateSize (n : ℕ)
  | kalmanGains (v : List (Arr F))

/-- The object after the assignment. -/
def ExtendedKalmanFilter.assign (kf : ExtendedKalmanFilter F) : ExtendedKalmanFilter.Assign F → ExtendedKalmanFilter F
  | .f v => { kf with f := v }
  | .jacobianA v => { kf with jacobianA := v }
  | .xk v => { kf with xk := v }
  | .Pk v => { kf with Pk := v }
  | .h v => { kf with h := v }
  | .jacobianH v => { kf with jacobianH := v }
  | .Q v => { kf with Q := v }
  | .R v => { kf with R := v }
  | .stateSize n => { kf with stateSize := n }
  | .kalmanGains v => { kf with kalmanGains := v }

/-- What a user does to an object: method calls and assignments. -/
inductive ExtendedKalmanFilter.Event (F : Type) where
  | call (c : ExtendedKalmanFilter.Call F)
  | assign (a : ExtendedKalmanFilter.Assign F)

/-- The object after these events. -/
def ExtendedKalmanFilter.afterEvents (kf : ExtendedKalmanFilter F) (evs : List (ExtendedKalmanFilter.Event F)) : ExtendedKalmanFilter F :=
  evs.foldl (fun o e => match e with
    | .call c => (o.exec c).2
    | .assign a => o.assign a) kf

/-- The assignments among the events. -/
def ExtendedKalmanFilter.assignments (evs : List (ExtendedKalmanFilter.Event F)) : List (ExtendedKalmanFilter.Event F) :=
  evs.filter fun e => match e with
    | .call _ => false
    | .assign _ => true

/-- `state_size` is not assigned to. -/
def ExtendedKalmanFilter.KeepsSize (evs : List (ExtendedKalmanFilter.Event F)) : Prop :=
  ∀ n, ExtendedKalmanFilter.Event.assign (.stateSize n) ∉ evs

/-- The all-ones matrix. -/
def Arr.ones (n : ℕ) : Arr F := .mat .float64 fun _ _ : Fin n => Backend.one

end

end KK
