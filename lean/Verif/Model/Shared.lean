import Verif.Spec.Basic

/-!
# Several filter objects and the list objects their `kalman_gains` refer to

`kalman_gains` is a list object (created in standard.py 130, extended.py 142) to which `update` appends in place (standard.py 242,
extended.py 238).  `copy.copy(kf)` copies the reference, `copy.deepcopy(kf)` and pickling copy the list; a user can keep a
reference to the list, change it, or bind the attribute of any object to any list.  The other attributes are never changed in
place nor assigned to by the methods, so they are values here (sharing of arrays is the subject of Model/Heap.lean).

Simplification: calls do not overlap in time (Model/Threads.lean has calls that do), and callbacks of the extended class do not
touch the lists.
-/

namespace KK

/-- The two filter classes. -/
inductive FilterKind where
  | standard
  | extended

variable {F : Type} [Backend F]

namespace FilterKind

/-- Objects of the class, with the contents of the list `kalman_gains`. -/
abbrev Obj (F : Type) : FilterKind → Type
  | standard => KalmanFilter F
  | extended => ExtendedKalmanFilter F

/-- Calls of its public methods. -/
abbrev Calls (F : Type) : FilterKind → Type
  | standard => KalmanFilter.Call F
  | extended => ExtendedKalmanFilter.Call F

/-- Outcome of a call, and the object afterwards. -/
def exec : (k : FilterKind) → k.Obj F → k.Calls F → Outcome F × k.Obj F
  | standard, o, c => KalmanFilter.exec o c
  | extended, o, c => ExtendedKalmanFilter.exec o c

/-- The contents of its list. -/
def gains : (k : FilterKind) → k.Obj F → List (Arr F)
  | standard, o => o.kalmanGains
  | extended, o => o.kalmanGains

/-- The same attributes with a list of other contents. -/
def withList : (k : FilterKind) → k.Obj F → List (Arr F) → k.Obj F
  | standard, o, g => { o with kalmanGains := g }
  | extended, o, g => { o with kalmanGains := g }

end FilterKind

/-- Objects with the number of the list that `kalman_gains` refers to, and the contents of the lists. -/
structure Shared (F : Type) (k : FilterKind) where
  objs : List (k.Obj F × ℕ)
  lists : List (List (Arr F))

namespace Shared

variable {k : FilterKind}

/-- `kf_i.kalman_gains`, as a list of arrays. -/
def gainsOf (w : Shared F k) (i : ℕ) : Option (List (Arr F)) := (w.objs[i]?).bind fun o => w.lists[o.2]?

/-- Call a method of object `i` (standard.py 132-385, extended.py 144-379): it sees the list as it is, and appends to it. -/
def call (w : Shared F k) (i : ℕ) (c : k.Calls F) : Option (Outcome F) × Shared F k :=
  match w.objs[i]? with
  | none => (none, w)
  | some (o, r) =>
    let res := k.exec (k.withList o ((w.lists[r]?).getD [])) c
    (some res.1, ⟨w.objs.set i (k.withList res.2 [], r), w.lists.set r (k.gains res.2)⟩)

/-- What a user can do. -/
inductive Act (F : Type) (k : FilterKind) where
  | call (i : ℕ) (c : k.Calls F)
  /-- `copy.copy(kf_i)` -/
  | copy (i : ℕ)
  /-- `copy.deepcopy(kf_i)` or `pickle.loads(pickle.dumps(kf_i))` -/
  | deepcopy (i : ℕ)
  /-- construct an object (standard.py 105-130, extended.py 118-142): its list is new and empty -/
  | new (o : k.Obj F)
  /-- make a list -/
  | list (l : List (Arr F))
  /-- `kf_i.kalman_gains = l` for list number `r` -/
  | rebind (i r : ℕ)
  /-- any change of list number `r` by the user: `l.clear()`, `l.pop()`, `l.append(…)` -/
  | change (r : ℕ) (l : List (Arr F))

/-- The objects and lists afterwards. -/
def act (w : Shared F k) : Act F k → Shared F k
  | .call i c => (w.call i c).2
  | .copy i => match w.objs[i]? with
    | none => w
    | some o => { w with objs := w.objs ++ [o] }
  | .deepcopy i => match w.objs[i]? with
    | none => w
    | some (o, r) => ⟨w.objs ++ [(o, w.lists.length)], w.lists ++ [(w.lists[r]?).getD []]⟩
  | .new o => ⟨w.objs ++ [(k.withList o [], w.lists.length)], w.lists ++ [[]]⟩
  | .list l => { w with lists := w.lists ++ [l] }
  | .rebind i r => match w.objs[i]? with
    | none => w
    | some (o, _) => if r < w.lists.length then { w with objs := w.objs.set i (o, r) } else w
  | .change r l => { w with lists := w.lists.set r l }

/-- A sequence of actions. -/
def after (w : Shared F k) (acts : List (Act F k)) : Shared F k := acts.foldl act w

/-- A sequence of calls, each on some object. -/
def calls (w : Shared F k) (cs : List (ℕ × k.Calls F)) : Shared F k := cs.foldl (fun w p => (w.call p.1 p.2).2) w

/-- Every `kalman_gains` refers to an existing list, and contents are kept in the lists only. -/
def Wf (w : Shared F k) : Prop := ∀ (i : ℕ) (o : k.Obj F) (r : ℕ), w.objs[i]? = some (o, r) → r < w.lists.length ∧ k.gains o = []

end Shared

end KK
