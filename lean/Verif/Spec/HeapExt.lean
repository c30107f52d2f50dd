import Verif.Model.HeapExt
import Verif.Spec.Heap

/-!
# What is asked of the callbacks of an extended filter, and what a user may do between calls

The user's functions may be written in any style that keeps its hands off the arrays of others: they may return a new array,
an argument, or a constant array they captured, and each may keep scratch arrays of its own that it overwrites on every
call.  `n` numbers the arrays that existed when the user fixed the callbacks, `h0` is the memory of that moment. -/

namespace KK

variable {F : Type}

/-- `h'` comes from `h` by allocating and by writing only arrays in `W`. -/
structure WritesOnly (W : Set ℕ) (h h' : Heap F) : Prop where
  grows : h.length ≤ h'.length
  same : ∀ r < h.length, r ∉ W → h'[r]? = h[r]?

/-- The callbacks write only arrays in `W`. -/
structure Quiet (W : Set ℕ) (o : HEkf F) : Prop where
  f : ∀ v u h, WritesOnly W h ((o.f v u).run h).2
  jacobianA : ∀ v u h, WritesOnly W h ((o.jacobianA v u).run h).2
  h : ∀ v h, WritesOnly W h ((o.h v).run h).2
  jacobianH : ∀ v h, WritesOnly W h ((o.jacobianH v).run h).2

/-- The scratch arrays of the four callbacks. -/
structure Scratch where
  f : Set ℕ
  jacobianA : Set ℕ
  h : Set ℕ
  jacobianH : Set ℕ

/-- All scratch arrays. -/
def Scratch.all (W : Scratch) : Set ℕ := W.f ∪ W.jacobianA ∪ W.h ∪ W.jacobianH

/-- No scratch array is shared between callbacks; all exist from the start. -/
structure Scratch.Private (W : Scratch) (n : ℕ) : Prop where
  old : ∀ r ∈ W.all, r < n
  fA : Disjoint W.f W.jacobianA
  fh : Disjoint W.f W.h
  fH : Disjoint W.f W.jacobianH
  Ah : Disjoint W.jacobianA W.h
  AH : Disjoint W.jacobianA W.jacobianH
  hH : Disjoint W.h W.jacobianH

/-- An optional array argument: `None`, or a reference to an array that holds the given value. -/
def ViewArg (h : Heap F) : Option View → Option (Arr F) → Prop
  | none, none => True
  | some v, some a => h.deref v = some a
  | _, _ => False

/-- Among the first `n` arrays, those outside `W` are as they were in `h0`. -/
def Agrees (n : ℕ) (W : Set ℕ) (h0 h : Heap F) : Prop := n ≤ h.length ∧ ∀ r < n, r ∉ W → h[r]? = h0[r]?

/-- A callback of one argument.  It writes only its own scratch arrays `w`; called on an array that is not in `w`, it
returns or raises what the function `g` on values does; the array it returns may be a scratch array of its own, its
argument, or any array that is no scratch array. -/
structure Computes1 (n : ℕ) (w all : Set ℕ) (h0 : Heap F) (c : View → HeapM F View)
    (g : Arr F → Except PyErr (Arr F)) : Prop where
  writes : ∀ v h, WritesOnly w h ((c v).run h).2
  value : ∀ v h a, Agrees n all h0 h → h.deref v = some a → v.cell ∉ w →
    Alike (fun r b => ((c v).run h).2.deref r = some b ∧ (r.cell ∈ all → r.cell ∈ w ∨ r.cell = v.cell))
      ((c v).run h).1 (g a)

/-- A callback of two arguments, the second of which may be `None`. -/
structure Computes2 (n : ℕ) (w all : Set ℕ) (h0 : Heap F) (c : View → Option View → HeapM F View)
    (g : Arr F → Option (Arr F) → Except PyErr (Arr F)) : Prop where
  writes : ∀ v u h, WritesOnly w h ((c v u).run h).2
  value : ∀ v u h a b, Agrees n all h0 h → h.deref v = some a → v.cell ∉ w → ViewArg h u b → (∀ y, u = some y → y.cell ∉ w) →
    Alike (fun r b => ((c v u).run h).2.deref r = some b ∧
        (r.cell ∈ all → r.cell ∈ w ∨ r.cell = v.cell ∨ ∃ y, u = some y ∧ r.cell = y.cell))
      ((c v u).run h).1 (g a b)

/-- The callbacks of the object `o` are functions on memory that do what the callbacks of `kf` do on values. -/
structure CallbacksAre (n : ℕ) (W : Scratch) (h0 : Heap F) (o : HEkf F) (kf : ExtendedKalmanFilter F) : Prop where
  f : Computes2 n W.f W.all h0 o.f kf.f
  jacobianA : Computes2 n W.jacobianA W.all h0 o.jacobianA kf.jacobianA
  h : Computes1 n W.h W.all h0 o.h kf.h
  jacobianH : Computes1 n W.jacobianH W.all h0 o.jacobianH kf.jacobianH

/-- The attributes of the object (other than callbacks and recorded gains) refer to arrays, none of them a scratch array, that hold
the values of `kf`. -/
structure EObjIs (W : Set ℕ) (h : Heap F) (o : HEkf F) (kf : ExtendedKalmanFilter F) : Prop where
  Q : h.seqAt o.Q = some kf.Q
  R : h.seqAt o.R = some kf.R
  xk : h.deref o.xk = some kf.xk
  Pk : h.deref o.Pk = some kf.Pk
  I : h.deref o.I = some kf.I
  size : o.stateSize = kf.stateSize
  Q' : o.Q ∉ W
  R' : o.R ∉ W
  xk' : o.xk.cell ∉ W
  Pk' : o.Pk.cell ∉ W
  I' : o.I.cell ∉ W

/-- What a user can do with an object: call its methods, allocate arrays, write into arrays. -/
inductive EUserAct (F : Type) where
  | filter (Z : ℕ) (U : Option ℕ)
  | smooth (Z : ℕ) (U : Option ℕ)
  | predict (xk : View) (uk : Option View) (Pk Qk : View)
  | update (xk Pk zk Rk : View)
  | alloc (c : Cell F)
  | write (r : ℕ) (c : Cell F)

/-- The memory and the object afterwards (the outcome is dropped: a call may also raise). -/
def EUserAct.run [Backend F] : EUserAct F → EState F → EState F
  | .filter Z U, st => ((HEkf.filter Z U).run st).2
  | .smooth Z U, st => ((HEkf.smooth Z U).run st).2
  | .predict xk uk Pk Qk, st => ((EM.onHeap (HEkf.predict st.self xk uk Pk Qk)).run st).2
  | .update xk Pk zk Rk, st => ((HEkf.update xk Pk zk Rk).run st).2
  | .alloc c, st => { st with heap := st.heap ++ [c] }
  | .write r c, st => { st with heap := st.heap.set r c }

/-- Only scratch arrays and arrays numbered `n` or later are written. -/
def EUserAct.Above (n : ℕ) (W : Set ℕ) : EUserAct F → Prop
  | .write r _ => n ≤ r ∨ r ∈ W
  | _ => True

/-- A sequence of actions. -/
def EUserAct.runAll [Backend F] (acts : List (EUserAct F)) (st : EState F) : EState F :=
  acts.foldl (fun st a => a.run st) st

end KK
