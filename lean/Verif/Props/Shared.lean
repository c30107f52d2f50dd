import Verif.Model.Shared
import Verif.Props.Assign

/-!
# C154: copies of filter objects, and references to their list of gains
-/

namespace KK

variable {F : Type} [Backend F] {k : FilterKind}

/-- What the call records on an object with an empty list. -/
def FilterKind.recorded (k : FilterKind) (o : k.Obj F) (c : k.Calls F) : List (Arr F) := k.gains (k.exec (k.withList o []) c).2

namespace FilterKind

theorem exec_withList (o : k.Obj F) (c : k.Calls F) (g : List (Arr F)) :
    k.exec (k.withList o g) c = ((k.exec o c).1, k.withList o (g ++ k.recorded o c)) := by
  cases k with
  | standard => exact KalmanFilter.exec_eq o c g
  | extended => exact ExtendedKalmanFilter.exec_eq o c g

theorem gains_withList (o : k.Obj F) (g : List (Arr F)) : k.gains (k.withList o g) = g := by cases k <;> rfl

theorem withList_withList (o : k.Obj F) (g g' : List (Arr F)) : k.withList (k.withList o g) g' = k.withList o g' := by
  cases k <;> rfl

theorem withList_self {o : k.Obj F} (h : k.gains o = []) : k.withList o [] = o := by
  cases k <;> (cases o; cases h; rfl)

end FilterKind

namespace Shared

theorem Wf.call_eq {w : Shared F k} (hw : w.Wf) {i r : ℕ} {o : k.Obj F} (hi : w.objs[i]? = some (o, r)) (c : k.Calls F) :
    ∃ g, w.lists[r]? = some g ∧ w.gainsOf i = some g ∧
      w.call i c = (some (k.exec o c).1, { w with lists := w.lists.set r (g ++ k.recorded o c) }) := by
  obtain ⟨hr, ho⟩ := hw i o r hi
  refine ⟨w.lists[r], List.getElem?_eq_getElem hr, by rw [gainsOf, hi]; exact List.getElem?_eq_getElem hr, ?_⟩
  have e1 : (w.lists[r]?).getD [] = w.lists[r] := by rw [List.getElem?_eq_getElem hr]; rfl
  rw [call, hi]
  simp only [e1, FilterKind.exec_withList, FilterKind.gains_withList, FilterKind.withList_withList, FilterKind.withList_self ho]
  rw [show w.objs.set i (o, r) = w.objs from List.ext_getElem? fun j => by
    rw [List.getElem?_set]
    split
    · rename_i h; subst h
      rw [if_pos (List.getElem?_eq_some_iff.1 hi).1, hi]
    · rfl]

theorem call_none {w : Shared F k} {i : ℕ} (hi : w.objs[i]? = none) (c : k.Calls F) : w.call i c = (none, w) := by
  rw [call, hi]

theorem Wf.call {w : Shared F k} (hw : w.Wf) (i : ℕ) (c : k.Calls F) :
    (w.call i c).2.Wf ∧ (w.call i c).2.objs = w.objs ∧ (w.call i c).2.lists.length = w.lists.length := by
  rcases hi : w.objs[i]? with _ | ⟨o, r⟩
  · rw [call_none hi]; exact ⟨hw, rfl, rfl⟩
  · obtain ⟨g, -, -, e⟩ := hw.call_eq hi c
    rw [e]
    refine ⟨fun j o' r' h => ?_, rfl, List.length_set⟩
    simp only [List.length_set]
    exact hw j o' r' h

theorem calls_cons (w : Shared F k) (p : ℕ × k.Calls F) (cs : List (ℕ × k.Calls F)) :
    w.calls (p :: cs) = ((w.call p.1 p.2).2).calls cs := rfl

theorem Wf.calls {w : Shared F k} (hw : w.Wf) (cs : List (ℕ × k.Calls F)) :
    (w.calls cs).Wf ∧ (w.calls cs).objs = w.objs ∧ (w.calls cs).lists.length = w.lists.length := by
  induction cs generalizing w with
  | nil => exact ⟨hw, rfl, rfl⟩
  | cons p cs ih =>
    obtain ⟨h1, h2, h3⟩ := hw.call p.1 p.2
    obtain ⟨h4, h5, h6⟩ := ih h1
    rw [calls_cons]
    exact ⟨h4, h5.trans h2, h6.trans h3⟩

/-- What the call `p` contributes to list number `r`. -/
def contribution (w : Shared F k) (r : ℕ) (p : ℕ × k.Calls F) : List (Arr F) :=
  match w.objs[p.1]? with
  | some (o, r') => if r' = r then k.recorded o p.2 else []
  | none => []

theorem Wf.lists_calls {w : Shared F k} (hw : w.Wf) (cs : List (ℕ × k.Calls F)) (r : ℕ) (g : List (Arr F))
    (hr : w.lists[r]? = some g) : (w.calls cs).lists[r]? = some (g ++ cs.flatMap (w.contribution r)) := by
  induction cs generalizing w g with
  | nil => rw [List.flatMap_nil, List.append_nil]; exact hr
  | cons p cs ih =>
    obtain ⟨h1, h2, h3⟩ := hw.call p.1 p.2
    have hc : ((w.call p.1 p.2).2).contribution r = w.contribution r := by
      funext q; rw [contribution, contribution, h2]
    rw [calls_cons]
    suffices hl : (w.call p.1 p.2).2.lists[r]? = some (g ++ w.contribution r p) by
      rw [ih h1 _ hl, hc, List.flatMap_cons, List.append_assoc]
    rcases hi : w.objs[p.1]? with _ | ⟨o, r'⟩
    · rw [call_none hi, contribution, hi, hr]; simp
    · obtain ⟨g', hg', -, e⟩ := hw.call_eq hi p.2
      rw [e, contribution, hi]
      simp only
      rw [List.getElem?_set]
      split
      · rename_i h; subst h
        rw [hr] at hg'; cases hg'
        rw [if_pos (List.getElem?_eq_some_iff.1 hr).1]
      · rename_i h
        rw [hr, List.append_nil]

theorem Wf.act {w : Shared F k} (hw : w.Wf) (a : Act F k) : (w.act a).Wf := by
  cases a with
  | call i c => exact (hw.call i c).1
  | copy i =>
    rw [Shared.act]
    rcases hi : w.objs[i]? with _ | o
    · exact hw
    · intro j o' r' h
      simp only at h ⊢
      rw [List.getElem?_append] at h
      split at h
      · exact hw j o' r' h
      · rw [List.getElem?_singleton] at h
        split at h
        · cases h; exact hw i o' r' hi
        · cases h
  | deepcopy i =>
    rw [Shared.act]
    rcases hi : w.objs[i]? with _ | ⟨o, r⟩
    · exact hw
    · intro j o' r' h
      simp only at h ⊢
      rw [List.length_append]
      rw [List.getElem?_append] at h
      split at h
      · exact ⟨(hw j o' r' h).1.trans (Nat.lt_add_of_pos_right (by simp)), (hw j o' r' h).2⟩
      · rw [List.getElem?_singleton] at h
        split at h
        · cases h; exact ⟨by simp, (hw i _ _ hi).2⟩
        · cases h
  | new o =>
    intro j o' r' h
    simp only [Shared.act] at h ⊢
    rw [List.length_append]
    rw [List.getElem?_append] at h
    split at h
    · exact ⟨(hw j o' r' h).1.trans (Nat.lt_add_of_pos_right (by simp)), (hw j o' r' h).2⟩
    · rw [List.getElem?_singleton] at h
      split at h
      · cases h; exact ⟨by simp, FilterKind.gains_withList _ _⟩
      · cases h
  | list l =>
    intro j o' r' h
    simp only [Shared.act, List.length_append] at h ⊢
    exact ⟨(hw j o' r' h).1.trans (Nat.lt_add_of_pos_right (by simp)), (hw j o' r' h).2⟩
  | rebind i r =>
    rw [Shared.act]
    rcases hi : w.objs[i]? with _ | ⟨o, r₀⟩
    · exact hw
    · dsimp only
      split
      · rename_i hr
        intro j o' r' h
        simp only at h ⊢
        rw [List.getElem?_set] at h
        split at h
        · split at h
          · cases h; exact ⟨hr, (hw i _ _ hi).2⟩
          · cases h
        · exact hw j o' r' h
      · exact hw
  | change r l =>
    intro j o' r' h
    simp only [Shared.act, List.length_set] at h ⊢
    exact hw j o' r' h

theorem Wf.after {w : Shared F k} (hw : w.Wf) (acts : List (Act F k)) : (w.after acts).Wf := by
  induction acts generalizing w with
  | nil => exact hw
  | cons a acts ih => exact ih (hw.act a)

/-- One new object. -/
def start (o : k.Obj F) : Shared F k := ⟨[(k.withList o [], 0)], [[]]⟩

theorem start_wf (o : k.Obj F) : (start o).Wf := by
  intro j o' r' h
  rcases j with _ | j
  · simp only [start, List.getElem?_cons_zero, Option.some.injEq, Prod.mk.injEq] at h
    obtain ⟨rfl, rfl⟩ := h
    exact ⟨by simp [start], FilterKind.gains_withList _ _⟩
  · simp [start] at h

/-- No other object is constructed. -/
def OnlyCopies (acts : List (Act F k)) : Prop := ∀ o, Act.new o ∉ acts

theorem attrs_act {w : Shared F k} (hw : w.Wf) (a : Act F k) (ha : ∀ o, a ≠ .new o) (i : ℕ) (o : k.Obj F) (r : ℕ)
    (h : (w.act a).objs[i]? = some (o, r)) : ∃ (j r' : ℕ), w.objs[j]? = some (o, r') := by
  cases a with
  | call j c => rw [Shared.act, (hw.call j c).2.1] at h; exact ⟨_, _, h⟩
  | copy j =>
    rw [Shared.act] at h
    rcases hj : w.objs[j]? with _ | o'
    · rw [hj] at h; exact ⟨_, _, h⟩
    · rw [hj] at h
      simp only at h
      rw [List.getElem?_append] at h
      split at h
      · exact ⟨_, _, h⟩
      · rw [List.getElem?_singleton] at h
        split at h
        · cases h; exact ⟨_, _, hj⟩
        · cases h
  | deepcopy j =>
    rw [Shared.act] at h
    rcases hj : w.objs[j]? with _ | ⟨o', r'⟩
    · rw [hj] at h; exact ⟨_, _, h⟩
    · rw [hj] at h
      simp only at h
      rw [List.getElem?_append] at h
      split at h
      · exact ⟨_, _, h⟩
      · rw [List.getElem?_singleton] at h
        split at h
        · cases h; exact ⟨_, _, hj⟩
        · cases h
  | new o' => exact absurd rfl (ha o')
  | list l => exact ⟨_, _, h⟩
  | rebind j r' =>
    rw [Shared.act] at h
    rcases hj : w.objs[j]? with _ | ⟨o', r₀⟩
    · rw [hj] at h; exact ⟨_, _, h⟩
    · rw [hj] at h
      dsimp only at h
      split at h
      · simp only at h
        rw [List.getElem?_set] at h
        split at h
        · split at h
          · cases h; exact ⟨_, _, hj⟩
          · cases h
        · exact ⟨_, _, h⟩
      · exact ⟨_, _, h⟩
  | change r' l => exact ⟨_, _, h⟩

theorem attrs_after {w : Shared F k} (hw : w.Wf) (acts : List (Act F k)) (ha : OnlyCopies acts) (i : ℕ) (o : k.Obj F) (r : ℕ)
    (h : (w.after acts).objs[i]? = some (o, r)) : ∃ (j r' : ℕ), w.objs[j]? = some (o, r') := by
  induction acts generalizing w with
  | nil => exact ⟨_, _, h⟩
  | cons a acts ih =>
    obtain ⟨j, r', h1⟩ := ih (hw.act a) (fun o ho => ha o (List.mem_cons_of_mem _ ho)) h
    exact attrs_act hw a (fun o e => ha o (e ▸ List.mem_cons_self ..)) j o r' h1

end Shared

open Shared

/-- C154: whatever is done with an object and its copies (calls that return or raise, shallow and deep copies, copies of
copies, changing lists of gains, binding `kalman_gains` to other lists), every call on every one of these objects has the
outcome that it has on the original, new object: sharing never affects results. -/
theorem C154_results (o : k.Obj F) (acts : List (Act F k)) (ha : OnlyCopies acts) (i : ℕ) (c : k.Calls F)
    (hi : i < ((start o).after acts).objs.length) :
    (((start o).after acts).call i c).1 = some (k.exec o c).1 := by
  obtain ⟨⟨o', r⟩, ho⟩ : ∃ p, ((start o).after acts).objs[i]? = some p := ⟨_, List.getElem?_eq_getElem hi⟩
  obtain ⟨g, -, -, e⟩ := ((start_wf o).after acts).call_eq ho c
  obtain ⟨j, r', hj⟩ := attrs_after (start_wf o) acts ha i o' r ho
  rw [e]
  rcases j with _ | j
  · simp only [start, List.getElem?_cons_zero, Option.some.injEq, Prod.mk.injEq] at hj
    obtain ⟨rfl, -⟩ := hj
    simp only [FilterKind.exec_withList]
  · simp [start] at hj

/-- C154 (several objects): whatever happens to an object and to others (also newly constructed ones), calls on it have the outcome that they
would have at once. -/
theorem C154_undisturbed (w : Shared F k) (hw : w.Wf) (acts : List (Act F k)) (i r : ℕ) (o : k.Obj F) (c : k.Calls F)
    (hi : w.objs[i]? = some (o, r)) :
    ((w.after acts).call i c).1 = (w.call i c).1 ∧ (w.call i c).1 = some (k.exec o c).1 := by
  have key : ∀ (acts : List (Act F k)) (w : Shared F k), w.Wf → (∃ r, w.objs[i]? = some (o, r)) → ∃ r, (w.after acts).objs[i]? = some (o, r) := by
    intro acts
    induction acts with
    | nil => exact fun w _ h => h
    | cons a acts ih =>
      intro w hw ⟨r, h⟩
      refine ih (w.act a) (hw.act a) ?_
      have hlt := (List.getElem?_eq_some_iff.1 h).1
      cases a with
      | call j c => exact ⟨r, by rw [Shared.act, (hw.call j c).2.1, h]⟩
      | copy j =>
        rw [Shared.act]
        rcases hj : w.objs[j]? with _ | o'
        · exact ⟨r, h⟩
        · exact ⟨r, by simp only; rw [List.getElem?_append_left hlt, h]⟩
      | deepcopy j =>
        rw [Shared.act]
        rcases hj : w.objs[j]? with _ | ⟨o', r'⟩
        · exact ⟨r, h⟩
        · exact ⟨r, by simp only; rw [List.getElem?_append_left hlt, h]⟩
      | new o' => exact ⟨r, by simp only [Shared.act]; rw [List.getElem?_append_left hlt, h]⟩
      | list l => exact ⟨r, h⟩
      | rebind j r' =>
        rw [Shared.act]
        rcases hj : w.objs[j]? with _ | ⟨o', r₀⟩
        · exact ⟨r, h⟩
        · dsimp only
          split
          · simp only
            by_cases e : j = i
            · subst e
              rw [hj] at h; cases h
              exact ⟨r', by rw [List.getElem?_set_self hlt]⟩
            · exact ⟨r, by rw [List.getElem?_set_ne e, h]⟩
          · exact ⟨r, h⟩
      | change r' l => exact ⟨r, h⟩
  obtain ⟨r', h'⟩ := key acts w hw ⟨r, hi⟩
  obtain ⟨g, -, -, e⟩ := hw.call_eq hi c
  obtain ⟨g', -, -, e'⟩ := (hw.after acts).call_eq h' c
  rw [e, e']
  exact ⟨rfl, rfl⟩

/-- C154: calls on objects change lists only by appending what they record, in the order of the calls, to the list that
`kalman_gains` of the object refers to; everybody who refers to that list sees it. -/
theorem C154_ledgers (w : Shared F k) (hw : w.Wf) (cs : List (ℕ × k.Calls F)) (i r : ℕ) (o : k.Obj F) (g : List (Arr F))
    (hi : w.objs[i]? = some (o, r)) (hg : w.gainsOf i = some g) :
    (w.calls cs).gainsOf i = some (g ++ cs.flatMap fun p => match w.objs[p.1]? with
      | some (o', r') => if r' = r then k.recorded o' p.2 else []
      | none => []) := by
  have hr : w.lists[r]? = some g := by rw [Shared.gainsOf, hi] at hg; exact hg
  rw [Shared.gainsOf, (hw.calls cs).2.1, hi]
  exact hw.lists_calls cs r g hr

/-- C154 (shallow copies): after `kf_j = copy.copy(kf_i)` the two objects always have the same recorded gains: those present,
followed by those of all later calls on either of them (and on other objects that share the list). -/
theorem C154_shallow_copy (w : Shared F k) (hw : w.Wf) (cs : List (ℕ × k.Calls F)) (i r : ℕ) (o : k.Obj F) (g : List (Arr F))
    (hi : w.objs[i]? = some (o, r)) (hg : w.gainsOf i = some g) (hal : ∀ j < w.objs.length, j ≠ i → (w.objs[j]?).map Prod.snd ≠ some r) :
    ((w.act (.copy i)).calls cs).gainsOf i = ((w.act (.copy i)).calls cs).gainsOf w.objs.length ∧
    ((w.act (.copy i)).calls cs).gainsOf i =
      some (g ++ cs.flatMap fun p => if p.1 = i ∨ p.1 = w.objs.length then k.recorded o p.2 else []) := by
  have hlt := (List.getElem?_eq_some_iff.1 hi).1
  have hobj : (w.act (.copy i)).objs = w.objs ++ [(o, r)] := by rw [Shared.act, hi]
  have hli : (w.act (.copy i)).lists = w.lists := by rw [Shared.act, hi]
  have h1 : (w.act (.copy i)).objs[i]? = some (o, r) := by rw [hobj, List.getElem?_append_left hlt, hi]
  have h2 : (w.act (.copy i)).objs[w.objs.length]? = some (o, r) := by rw [hobj]; simp
  have hr : w.lists[r]? = some g := by rw [Shared.gainsOf, hi] at hg; exact hg
  have h3 : (w.act (.copy i)).gainsOf i = some g := by rw [Shared.gainsOf, h1, hli]; exact hr
  have h4 : (w.act (.copy i)).gainsOf w.objs.length = some g := by rw [Shared.gainsOf, h2, hli]; exact hr
  have e1 := C154_ledgers _ (hw.act (.copy i)) cs i r o g h1 h3
  have e2 := C154_ledgers _ (hw.act (.copy i)) cs w.objs.length r o g h2 h4
  refine ⟨e1.trans e2.symm, e1.trans ?_⟩
  congr 3
  funext p
  rw [hobj]
  by_cases hp : p.1 = i
  · rw [hp, if_pos (.inl rfl), List.getElem?_append_left hlt, hi]; simp
  by_cases hp' : p.1 = w.objs.length
  · rw [hp', if_pos (.inr rfl)]; simp
  rw [if_neg (by tauto)]
  rcases hq : (w.objs ++ [(o, r)])[p.1]? with _ | ⟨o', r'⟩
  · rfl
  · rw [List.getElem?_append] at hq
    split at hq
    · rename_i hlt'
      have := hal p.1 hlt' hp
      rw [hq] at this
      simp only [Option.map_some, ne_eq, Option.some.injEq] at this
      simp only [if_neg this]
    · rw [List.getElem?_singleton] at hq
      split at hq
      · omega
      · cases hq

/-- An object with a list of its own is added. -/
theorem Shared.private_list (w w₁ : Shared F k) (hw : w.Wf) (hw₁ : w₁.Wf) (cs : List (ℕ × k.Calls F)) (o : k.Obj F) (g : List (Arr F))
    (hobj : w₁.objs = w.objs ++ [(o, w.lists.length)]) (hli : w₁.lists = w.lists ++ [g]) :
    (w₁.calls cs).gainsOf w.objs.length =
      some (g ++ cs.flatMap fun p => if p.1 = w.objs.length then k.recorded o p.2 else []) ∧
    ∀ j < w.objs.length, (w₁.calls cs).gainsOf j =
      (w.calls (cs.filter fun p => p.1 ≠ w.objs.length)).gainsOf j := by
  have h2 : w₁.objs[w.objs.length]? = some (o, w.lists.length) := by rw [hobj]; simp
  have h4 : w₁.gainsOf w.objs.length = some g := by
    rw [Shared.gainsOf, h2, hli]; simp
  constructor
  · rw [C154_ledgers _ hw₁ cs w.objs.length _ o g h2 h4]
    congr 3
    funext p
    rw [hobj]
    by_cases hp : p.1 = w.objs.length
    · rw [hp]; simp
    rw [if_neg hp]
    rcases hq : (w.objs ++ [(o, w.lists.length)])[p.1]? with _ | ⟨o', r'⟩
    · rfl
    · rw [List.getElem?_append] at hq
      split at hq
      · have := (hw _ _ _ hq).1
        simp only [if_neg this.ne]
      · rw [List.getElem?_singleton] at hq
        split at hq
        · omega
        · cases hq
  · intro j hj
    obtain ⟨⟨o', r'⟩, ho⟩ : ∃ p, w.objs[j]? = some p := ⟨_, List.getElem?_eq_getElem hj⟩
    have hr' := (hw j o' r' ho).1
    have h1 : w₁.objs[j]? = some (o', r') := by rw [hobj, List.getElem?_append_left hj, ho]
    have h3 : w.gainsOf j = some w.lists[r'] := by rw [Shared.gainsOf, ho]; exact List.getElem?_eq_getElem hr'
    have h5 : w₁.gainsOf j = some w.lists[r'] := by
      rw [Shared.gainsOf, h1, hli]
      simp [List.getElem?_append_left hr', List.getElem?_eq_getElem hr']
    rw [C154_ledgers _ hw₁ cs j r' o' _ h1 h5, C154_ledgers w hw _ j r' o' _ ho h3]
    congr 2
    rw [hobj]
    clear h1 h3 h5 h2 h4
    induction cs with
    | nil => rfl
    | cons p cs ih =>
      rw [List.flatMap_cons, ih]
      by_cases hp : p.1 = w.objs.length
      · rw [List.filter_cons_of_neg (by simp [hp]), hp]
        simp only [List.getElem?_concat_length]
        rw [if_neg hr'.ne', List.nil_append]
      · rw [List.filter_cons_of_pos (by simp [hp]), List.flatMap_cons]
        congr 1
        by_cases hp' : p.1 < w.objs.length
        · rw [List.getElem?_append_left hp']
        · rw [List.getElem?_eq_none (by simp; omega), List.getElem?_eq_none (by omega)]

/-- C154 (deep copies, pickling): after `kf_j = copy.deepcopy(kf_i)` the copy starts with the gains present and gets those of
calls on it only; calls on it add nothing to the gains of any other object, and calls on others nothing to its own. -/
theorem C154_deep_copy (w : Shared F k) (hw : w.Wf) (cs : List (ℕ × k.Calls F)) (i r : ℕ) (o : k.Obj F) (g : List (Arr F))
    (hi : w.objs[i]? = some (o, r)) (hg : w.gainsOf i = some g) :
    ((w.act (.deepcopy i)).calls cs).gainsOf w.objs.length =
      some (g ++ cs.flatMap fun p => if p.1 = w.objs.length then k.recorded o p.2 else []) ∧
    ∀ j < w.objs.length, ((w.act (.deepcopy i)).calls cs).gainsOf j =
      (w.calls (cs.filter fun p => p.1 ≠ w.objs.length)).gainsOf j := by
  have hr : w.lists[r]? = some g := by rw [Shared.gainsOf, hi] at hg; exact hg
  exact Shared.private_list w _ hw (hw.act (.deepcopy i)) cs o g (by rw [Shared.act, hi]) (by rw [Shared.act, hi]; simp [hr])

/-- C154 (new objects): a newly constructed object starts with no gains and gets those of calls on it only; calls on it add nothing to
the gains of any other object. -/
theorem C154_new (w : Shared F k) (hw : w.Wf) (cs : List (ℕ × k.Calls F)) (o : k.Obj F) :
    ((w.act (.new o)).calls cs).gainsOf w.objs.length =
      some (cs.flatMap fun p => if p.1 = w.objs.length then k.recorded o p.2 else []) ∧
    ∀ j < w.objs.length, ((w.act (.new o)).calls cs).gainsOf j =
      (w.calls (cs.filter fun p => p.1 ≠ w.objs.length)).gainsOf j := by
  obtain ⟨h1, h2⟩ := Shared.private_list w _ hw (hw.act (.new o)) cs (k.withList o []) [] rfl rfl
  refine ⟨h1.trans ?_, h2⟩
  simp only [List.nil_append, FilterKind.recorded, FilterKind.withList_withList]

/-- C154 (saved references): after the user changed the list that `kf_i.kalman_gains` refers to, through whatever reference
(for instance `gains = kf.kalman_gains; gains.clear()`), the recorded gains are the new contents followed by those of later calls. -/
theorem C154_changed (w : Shared F k) (hw : w.Wf) (cs : List (ℕ × k.Calls F)) (i r : ℕ) (o : k.Obj F) (l : List (Arr F))
    (hi : w.objs[i]? = some (o, r)) :
    ((w.act (.change r l)).calls cs).gainsOf i = some (l ++ cs.flatMap fun p => match w.objs[p.1]? with
      | some (o', r') => if r' = r then k.recorded o' p.2 else []
      | none => []) := by
  have hr := (hw i o r hi).1
  exact C154_ledgers _ (hw.act (.change r l)) cs i r o l hi (by
    rw [Shared.gainsOf]
    simp only [Shared.act, hi, Option.bind_some]
    rw [List.getElem?_set_self hr])

/-- C154 (rebinding): after `kf_i.kalman_gains = []` the object records into the new list; a reference kept to the old list
sees nothing of later calls on this object. -/
theorem C154_rebound (w : Shared F k) (hw : w.Wf) (cs : List (ℕ × k.Calls F)) (i r : ℕ) (o : k.Obj F) (g : List (Arr F))
    (hi : w.objs[i]? = some (o, r)) (hg : w.lists[r]? = some g) :
    let w' := w.after [.list [], .rebind i w.lists.length]
    (w'.calls cs).gainsOf i = some (cs.flatMap fun p => if p.1 = i then k.recorded o p.2 else []) ∧
    ((∀ p ∈ cs, p.1 = i) → (w'.calls cs).lists[r]? = some g) := by
  intro w'
  have hlt := (List.getElem?_eq_some_iff.1 hi).1
  have hw' : w'.Wf := hw.after _
  have hobj : w'.objs = w.objs.set i (o, w.lists.length) := by
    simp only [w', Shared.after, List.foldl_cons, List.foldl_nil, Shared.act, hi, List.length_append]
    simp
  have hli : w'.lists = w.lists ++ [[]] := by
    simp only [w', Shared.after, List.foldl_cons, List.foldl_nil, Shared.act, hi, List.length_append]
    simp
  have hi' : w'.objs[i]? = some (o, w.lists.length) := by rw [hobj, List.getElem?_set_self hlt]
  have hrlt := (List.getElem?_eq_some_iff.1 hg).1
  constructor
  · rw [C154_ledgers w' hw' cs i _ o [] hi' (by rw [Shared.gainsOf, hi', hli]; simp), List.nil_append]
    congr 2
    funext p
    by_cases hp : p.1 = i
    · rw [hp, hi', if_pos rfl]; simp
    · rw [if_neg hp, hobj, List.getElem?_set_ne (Ne.symm hp)]
      rcases hq : w.objs[p.1]? with _ | ⟨o', r'⟩
      · rfl
      · simp only [if_neg (hw _ _ _ hq).1.ne]
  · intro hall
    rw [hw'.lists_calls cs r g (by rw [hli, List.getElem?_append_left hrlt, hg])]
    rw [show cs.flatMap (w'.contribution r) = [] from List.flatMap_eq_nil_iff.2 fun p hp => by
      rw [contribution, hall p hp, hi']
      simp only [if_neg hrlt.ne'], List.append_nil]

/-! ## The hypotheses are met -/

/-- A constant-velocity filter, one call, a shallow copy, a deep copy. -/
def Ex.family : List (Shared.Act Ex.QN .standard) :=
  [.call 0 (.filter Ex.zs (some Ex.us)), .copy 0, .deepcopy 0]

/-- The numbers of gains recorded on the first `n` objects. -/
def Ex.counts (w : Shared Ex.QN k) (n : ℕ) : List (Option ℕ) := (List.range n).map fun i => (w.gainsOf i).map List.length

-- C154_results: three objects, all reachable, on which `smooth` returns.
example : OnlyCopies Ex.family ∧ ((start (k := .standard) (Ex.cv 3)).after Ex.family).objs.length = 3 ∧
    Ex.counts ((start (k := .standard) (Ex.cv 3)).after Ex.family) 3 = [some 3, some 3, some 3] ∧
    ∃ r, (FilterKind.exec .standard (Ex.cv 3) (.smooth Ex.zs (some Ex.us))).1 = .rows (.ok r) := by
  refine ⟨by intro o h; simp [Ex.family] at h, by decide +kernel, by decide +kernel, ?_⟩
  obtain ⟨r, o', h⟩ := (Ex.returned_iff ((KalmanFilter.smooth Ex.zs (some Ex.us)).run (Ex.cv 3))).1 (by decide +kernel)
  exact ⟨r, by show Outcome.rows ((KalmanFilter.smooth Ex.zs (some Ex.us)).run (Ex.cv 3)).1 = _; rw [h]⟩

-- C154_ledgers, C154_shallow_copy, C154_changed: calls on the original, on the shallow copy and on the deep copy.
example : ((start (k := .standard) (Ex.cv 3)).after Ex.family).Wf ∧
    Ex.counts ((((start (k := .standard) (Ex.cv 3)).after Ex.family)).calls
      [(1, .filter Ex.zs (some Ex.us)), (2, .smooth Ex.zs (some Ex.us)), (2, .filter Ex.zs none), (0, .smooth Ex.zs (some Ex.us))]) 3
      = [some 9, some 9, some 9] ∧
    Ex.counts ((((start (k := .standard) (Ex.cv 3)).after Ex.family)).calls [(1, .filter Ex.zs (some Ex.us))]) 3
      = [some 6, some 6, some 3] ∧
    Ex.counts ((((start (k := .standard) (Ex.cv 3)).after Ex.family)).calls [(2, .filter Ex.zs (some Ex.us))]) 3
      = [some 3, some 3, some 6] :=
  ⟨(start_wf _).after _, by decide +kernel, by decide +kernel, by decide +kernel⟩

-- C154_shallow_copy, C154_deep_copy: the object copied does not share its list yet.
example : let w := (start (k := .standard) (Ex.cv 3)).after [.call 0 (.filter Ex.zs (some Ex.us))]
    w.Wf ∧ w.objs[0]? = some (FilterKind.withList .standard (Ex.cv 3) [], 0) ∧
    (∃ g, w.gainsOf 0 = some g ∧ g.length = 3) ∧ ∀ j < w.objs.length, j ≠ 0 → (w.objs[j]?).map Prod.snd ≠ some 0 := by
  intro w
  have hw : w.Wf := (start_wf _).after _
  have h0 : w.objs[0]? = some (FilterKind.withList .standard (Ex.cv 3) [], 0) := by
    show ((start (k := .standard) (Ex.cv 3)).call 0 (.filter Ex.zs (some Ex.us))).2.objs[0]? = _
    rw [((start_wf (k := .standard) (Ex.cv 3)).call 0 (.filter Ex.zs (some Ex.us))).2.1]; rfl
  have hl : (w.gainsOf 0).map List.length = some 3 := by decide +kernel
  refine ⟨hw, h0, ?_, fun j hj h => ?_⟩
  · rcases h : w.gainsOf 0 with _ | g
    · simp [h] at hl
    · exact ⟨g, rfl, by simpa [h] using hl⟩
  · have : w.objs.length = 1 := by decide +kernel
    omega

-- C154, extended class: a saved reference is cleared, then the attribute is bound to a new list.
example : Ex.counts ((start (k := .extended) (Ex.ecv 3)).after [.call 0 (.filter Ex.zs (some Ex.us)), .copy 0, .change 0 [],
      .call 1 (.smooth Ex.zs (some Ex.us)), .list [], .rebind 1 1, .call 1 (.filter Ex.zs (some Ex.us)), .call 1 (.filter Ex.zs (some Ex.us))]) 2
      = [some 3, some 6] := by decide +kernel

end KK
