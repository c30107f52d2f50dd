import Verif.Spec.Iterators
import Verif.Proofs.Trace
import Verif.Proofs.Structural

/-! # Proofs about parameters given as iterators -/

set_option linter.unusedSectionVars false
set_option linter.unusedSimpArgs false

namespace KK

variable {F : Type}

/-! ## Reading lists until something ends -/

/-- `f k, f (k + 1), ...` up to the first `none`, at most `c` items. -/
def unf {α : Type} (f : ℕ → Option α) : ℕ → ℕ → List α
  | 0, _ => []
  | c + 1, k =>
    match f k with
    | none => []
    | some x => x :: unf f c (k + 1)

/-- Both or none. -/
def both {α β : Type} (f : ℕ → Option α) (g : ℕ → Option β) (k : ℕ) : Option (α × β) :=
  match f k, g k with
  | some a, some b => some (a, b)
  | _, _ => none

theorem zip_unf {α β : Type} (f : ℕ → Option α) (g : ℕ → Option β) (c d k : ℕ) :
    (unf f c k).zip (unf g d k) = unf (both f g) (min c d) k := by
  induction c generalizing d k with
  | zero => simp [unf]
  | succ c ih =>
    rcases d with _ | d
    · simp [unf]
    · rw [Nat.succ_min_succ]
      simp only [unf, both]
      rcases f k with _ | a
      · simp
      · rcases g k with _ | b
        · simp
        · simp only [List.zip_cons_cons]
          exact congrArg _ (ih d (k + 1))

theorem unf_list {α : Type} (l : List α) (c k : ℕ) (h : l.length ≤ k + c) : unf (fun j => l[j]?) c k = l.drop k := by
  induction c generalizing k with
  | zero => simp only [unf]; rw [List.drop_eq_nil_of_le (by omega)]
  | succ c ih =>
    simp only [unf]
    by_cases hk : k < l.length
    · rw [List.getElem?_eq_getElem hk]
      simp only
      rw [ih (k + 1) (by omega), List.drop_eq_getElem_cons hk]
    · rw [List.getElem?_eq_none (by omega), List.drop_eq_nil_of_le (by omega)]

theorem unf_stop {α : Type} (f : ℕ → Option α) (c k : ℕ) (h : f (k + c) = none) (d : ℕ) :
    unf f (c + d) k = unf f c k := by
  induction c generalizing k with
  | zero =>
    rcases d with _ | d
    · rfl
    · simp only [Nat.zero_add, unf, Nat.add_zero] at h ⊢
      rw [h]
  | succ c ih =>
    rw [show c + 1 + d = (c + d) + 1 by omega]
    simp only [unf]
    rcases f k with _ | x
    · rfl
    · simp only
      rw [ih (k + 1) (by rw [show k + 1 + c = k + (c + 1) by omega]; exact h)]

theorem unf_length_le {α : Type} (f : ℕ → Option α) (c k : ℕ) : (unf f c k).length ≤ c := by
  induction c generalizing k with
  | zero => simp [unf]
  | succ c ih =>
    simp only [unf]
    rcases f k with _ | x
    · simp
    · simpa using ih (k + 1)

theorem unf_getElem? {α : Type} (f : ℕ → Option α) (c k j : ℕ) (h : j < (unf f c k).length) :
    (unf f c k)[j]? = f (k + j) := by
  induction c generalizing k j with
  | zero => simp [unf] at h
  | succ c ih =>
    simp only [unf] at h ⊢
    rcases hf : f k with _ | x
    · simp [hf] at h
    · simp only [hf, List.length_cons] at h ⊢
      rcases j with _ | j
      · simp [hf]
      · simp only [List.getElem?_cons_succ]
        rw [ih (k + 1) j (by omega), show k + 1 + j = k + (j + 1) by omega]

theorem unf_end {α : Type} (f : ℕ → Option α) (c k : ℕ) (h : (unf f c k).length < c) :
    f (k + (unf f c k).length) = none := by
  induction c generalizing k with
  | zero => simp at h
  | succ c ih =>
    simp only [unf] at h ⊢
    rcases hf : f k with _ | x
    · simpa using hf
    · simp only [hf, List.length_cons] at h ⊢
      rw [show k + ((unf f c (k + 1)).length + 1) = k + 1 + (unf f c (k + 1)).length by omega]
      exact ih (k + 1) (by omega)

/-! ## `next(zip(...))` -/

namespace Param

theorem upcoming_eq (items : Items F) (i p n k : ℕ) :
    upcoming items i (p + k) n = unf (fun j => items i (p + j)) n k := by
  induction n generalizing k with
  | zero => rfl
  | succ n ih =>
    simp only [upcoming, unf]
    rcases items i (p + k) with _ | x
    · rfl
    · simp only
      rw [← ih (k + 1), Nat.add_assoc]

theorem idsOf_cons (p : Param F) (ps : List (Param F)) : idsOf (p :: ps) = p.ids ++ idsOf ps := by
  simp [idsOf]

theorem pull_eq (items : Items F) (pos0 : ℕ → ℕ) (k : ℕ) (ps : List (Param F)) (pos : ℕ → ℕ) (hs : Separate ps)
    (h : ∀ i ∈ idsOf ps, pos i = pos0 i + k) :
    pull items ps k pos = (ps.mapM (nth items pos0 k),
      fun i => pos i + if i ∈ idsOf (ps.takeWhile fun p => (nth items pos0 k p).isSome) then 1 else 0) := by
  induction ps generalizing pos with
  | nil => simp [pull, idsOf]
  | cons p ps ih =>
    rw [Separate, idsOf_cons] at hs
    have hps : Separate ps := (List.nodup_append.1 hs).2.1
    rw [idsOf_cons] at h
    have h' : ∀ i ∈ idsOf ps, pos i = pos0 i + k := fun i hi => h i (List.mem_append_right _ hi)
    rw [List.mapM_cons, List.takeWhile_cons]
    rcases p with (⟨d, x⟩ | rows) | i
    · simp [pull, nth, NDArray.rows, idsOf]
    · have hn : nth items pos0 k (.array (.stack rows)) = rows[k]? := rfl
      rw [hn]
      simp only [pull]
      cases hx : rows[k]? with
      | none => simp [idsOf]
      | some x =>
        simp only [ih pos hps h', Option.isSome_some, if_true, idsOf_cons, ids, List.nil_append]
        rcases List.mapM (nth items pos0 k) ps with _ | xs <;> rfl
    · have hi : pos i = pos0 i + k := h i (by simp [ids])
      have hnot : i ∉ idsOf ps := fun hm => (List.nodup_append.1 hs).2.2 i (by simp [ids]) i hm rfl
      have hn : nth items pos0 k (.iterator i) = items i (pos0 i + k) := rfl
      rw [hn]
      simp only [pull, hi]
      cases hx : items i (pos0 i + k) with
      | none => simp [idsOf]
      | some x =>
        simp only [Option.isSome_some, if_true, idsOf_cons, ids]
        rw [ih (Function.update pos i (pos0 i + k + 1)) hps (fun j hj => by
          have hne : j ≠ i := fun e => hnot (e ▸ hj)
          rw [Function.update_of_ne hne]; exact h' j hj)]
        have hpos : (fun j => Function.update pos i (pos0 i + k + 1) j +
              if j ∈ idsOf (ps.takeWhile fun p => (nth items pos0 k p).isSome) then 1 else 0) =
            fun j => pos j + if j ∈ [i] ++ idsOf (ps.takeWhile fun p => (nth items pos0 k p).isSome) then 1 else 0 := by
          funext j
          have hsub : ∀ j, j ∈ idsOf (ps.takeWhile fun p => (nth items pos0 k p).isSome) → j ∈ idsOf ps := by
            intro j hj
            simp only [idsOf, List.mem_flatMap] at hj ⊢
            obtain ⟨p, hp, hj⟩ := hj
            exact ⟨p, (List.takeWhile_sublist _).subset hp, hj⟩
          by_cases hj : j = i
          · subst hj
            rw [Function.update_self, if_neg (fun hm => hnot (hsub _ hm)), if_pos (by simp), hi]
          · rw [Function.update_of_ne hj]
            simp [hj]
        rw [hpos]
        rcases List.mapM (nth items pos0 k) ps with _ | xs <;> rfl

theorem checkAll_cons (p : Param F) (ps : List (Param F)) :
    checkAll (p :: ps) = match p.checkIter with | .ok _ => checkAll ps | .error e => .error e := by
  simp only [checkAll]
  rcases p.checkIter with e | _ <;> rfl

/-- Where the iterators stand after `t` complete rows and, if `stopped`, one more question that got no answer. -/
def posAfter (items : Items F) (pos0 : ℕ → ℕ) (ps : List (Param F)) (t : ℕ) (stopped : Bool) (i : ℕ) : ℕ :=
  pos0 i + (if i ∈ idsOf ps then t else 0) +
    if stopped = true ∧ i ∈ idsOf (ps.takeWhile fun p => (nth items pos0 t p).isSome) then 1 else 0

theorem takeWhile_all {α : Type} (q : α → Bool) (l : List α) (h : ∀ a ∈ l, q a = true) : l.takeWhile q = l := by
  induction l with
  | nil => rfl
  | cons a l ih => rw [List.takeWhile_cons, h a (by simp), if_pos rfl, ih fun b hb => h b (by simp [hb])]

theorem mapM_some_all {f : Param F → Option (Arr F)} {ps : List (Param F)} {xs : List (Arr F)} (h : ps.mapM f = some xs) :
    ∀ p ∈ ps, (f p).isSome = true := by
  induction ps generalizing xs with
  | nil => simp
  | cons p ps ih =>
    rw [List.mapM_cons] at h
    rcases hp : f p with _ | x
    · rw [hp] at h; exact absurd h (by simp)
    · rw [hp] at h
      rcases hps : ps.mapM f with _ | ys
      · rw [hps] at h; exact absurd h (by simp)
      · intro q hq
        rcases List.mem_cons.1 hq with rfl | hq
        · simp [hp]
        · exact ih hps q hq

/-- A row was obtained: every iterator is one further. -/
theorem pull_row (items : Items F) (pos0 : ℕ → ℕ) (k : ℕ) (ps : List (Param F)) (pos : ℕ → ℕ) (hs : Separate ps)
    (h : pos = posAfter items pos0 ps k false) {xs : List (Arr F)} (hx : ps.mapM (nth items pos0 k) = some xs) :
    pull items ps k pos = (some xs, posAfter items pos0 ps (k + 1) false) := by
  rw [pull_eq items pos0 k ps pos hs (fun i hi => by rw [h]; simp [posAfter, hi]), hx,
    takeWhile_all _ _ (mapM_some_all hx), h]
  congr 1
  funext i
  simp only [posAfter, Bool.false_eq_true, false_and, if_false, Nat.add_zero]
  split <;> omega

/-- No row was obtained. -/
theorem pull_stop (items : Items F) (pos0 : ℕ → ℕ) (k : ℕ) (ps : List (Param F)) (pos : ℕ → ℕ) (hs : Separate ps)
    (h : pos = posAfter items pos0 ps k false) (hx : ps.mapM (nth items pos0 k) = none) :
    pull items ps k pos = (none, posAfter items pos0 ps k true) := by
  rw [pull_eq items pos0 k ps pos hs (fun i hi => by rw [h]; simp [posAfter, hi]), hx, h]
  congr 1
  funext i
  simp only [posAfter, Bool.false_eq_true, false_and, if_false, Nat.add_zero, true_and]

end Param

namespace Param

/-- The rows a call with `n` observations can get from a parameter, as a reading of `nth`. -/
theorem iter_asArray (items : Items F) (pos : ℕ → ℕ) (n : ℕ) (p : Param F) :
    (∃ e, p.checkIter = .error e ∧ (p.asArray items pos n).iter = .error e ∧ e = .typeError) ∨
    ∃ N, n ≤ N ∧ p.checkIter = .ok () ∧ (p.asArray items pos n).iter = .ok (unf (nth items pos · p) N 0) := by
  rcases p with (⟨d, x⟩ | rows) | i
  · exact .inl ⟨_, rfl, rfl, rfl⟩
  · refine .inr ⟨max rows.length n, le_max_right _ _, rfl, ?_⟩
    show Except.ok rows = _
    exact congrArg _ (unf_list rows (max rows.length n) 0 (by omega)).symm
  · refine .inr ⟨n, le_rfl, rfl, ?_⟩
    show Except.ok (upcoming items i (pos i) n) = _
    exact congrArg _ (upcoming_eq items i (pos i) n 0)

end Param

/-! ## The standard filter -/

namespace IterFilter

open Param
variable [Backend F]

/-- Row `k` of `zip`, if there is one. -/
def rowAt (items : Items F) (pos : ℕ → ℕ) (A H B U Z Q R : Param F) : ℕ → Option (KalmanFilter.Row F) :=
  both (nth items pos · A) (both (nth items pos · H) (both (nth items pos · B) (both (nth items pos · U)
    (both (nth items pos · Z) (both (nth items pos · Q) (nth items pos · R))))))

theorem mapM_row (items : Items F) (pos : ℕ → ℕ) (A H B U Z Q R : Param F) (k : ℕ) :
    [A, H, B, U, Z, Q, R].mapM (nth items pos k) =
      (rowAt items pos A H B U Z Q R k).map fun r =>
        [r.1, r.2.1, r.2.2.1, r.2.2.2.1, r.2.2.2.2.1, r.2.2.2.2.2.1, r.2.2.2.2.2.2] := by
  simp only [List.mapM_cons, List.mapM_nil, rowAt, both]
  rcases nth items pos k A with _ | a
  · rfl
  rcases nth items pos k H with _ | h
  · rfl
  rcases nth items pos k B with _ | b
  · rfl
  rcases nth items pos k U with _ | u
  · rfl
  rcases nth items pos k Z with _ | z
  · rfl
  rcases nth items pos k Q with _ | q
  · rfl
  rcases nth items pos k R with _ | r
  · rfl
  rfl

def addGains (o : IterFilter F) (g : List (Arr F)) : IterFilter F := { o with kalmanGains := o.kalmanGains ++ g }

theorem filterLoop_eq (items : Items F) (pos0 : ℕ → ℕ) (A H B U Z Q R : Param F) (hs : Separate [A, H, B, U, Z, Q, R])
    (c k : ℕ) (x P : Arr F) (states errors : List (Arr F)) (w : Reading (IterFilter F))
    (hpos : w.pos = posAfter items pos0 [A, H, B, U, Z, Q, R] k false)
    (hc : (unf (rowAt items pos0 A H B U Z Q R) c k).length < c) :
    (filterLoop items [A, H, B, U, Z, Q, R] c k x P states errors).run w =
      let t := trace (KalmanFilter.step w.obj.stateSize w.obj.I) (unf (rowAt items pos0 A H B U Z Q R) c k) x P
      (t.result k states errors,
        { obj := w.obj.addGains t.gains,
          pos := match t.err with
            | none => posAfter items pos0 [A, H, B, U, Z, Q, R] (k + (unf (rowAt items pos0 A H B U Z Q R) c k).length) true
            | some _ => posAfter items pos0 [A, H, B, U, Z, Q, R] (k + t.outs.length + 1) false }) := by
  induction c generalizing k x P states errors w with
  | zero => simp at hc
  | succ c ih =>
    have hm := mapM_row items pos0 A H B U Z Q R k
    simp only [unf] at hc ⊢
    simp only [filterLoop, Py.run_bind, Param.next]
    rcases hr : rowAt items pos0 A H B U Z Q R k with _ | ⟨Ak, Hk, Bk, uk, zk, Qk, Rk⟩
    · rw [hr] at hm
      rw [pull_stop items pos0 k _ w.pos hs hpos hm]
      simp [trace, Trace.result, overwrite, addGains]
    · rw [hr] at hm
      rw [pull_row items pos0 k _ w.pos hs hpos hm]
      simp only [hr, List.length_cons] at hc ⊢
      simp only [Py.run_bind, Py.run_lift, trace, KalmanFilter.step]
      rcases h1 : KalmanFilter.predict Ak x (some Bk) (some uk) P Qk with e | ⟨xp, Pp⟩
      · simp [Trace.result, addGains]
      · simp only [update, Py.run_bind, Py.run_lift]
        rcases h2 : KalmanFilter.gain Hk Pp Rk with e | K
        · simp [Trace.result, addGains]
        · simp only [Py.run_mutate, Py.run_self, Py.run_lift]
          rcases h3 : KalmanFilter.correct w.obj.I K Hk xp Pp zk with e | ⟨x', P'⟩
          · simp [Trace.result, addGains]
          · simp only [Except.bind_ok']
            rcases h4 : Arr.assignVec w.obj.stateSize x' with e | srow
            · simp [Trace.result, addGains]
            · simp only [Except.bind_ok']
              rcases h5 : Arr.assignMat w.obj.stateSize P' with e | erow
              · simp [Trace.result, addGains]
              · simp only [Except.bind_ok']
                rw [ih (k + 1) x' P' _ _ _ rfl (by omega)]
                simp only [Trace.result, addGains, Option.toList]
                rcases (trace (KalmanFilter.step w.obj.stateSize w.obj.I) (unf (rowAt items pos0 A H B U Z Q R) c (k + 1)) x' P').err with _ | e
                · simp [overwrite, Nat.add_assoc, Nat.add_comm 1]
                · simp [Nat.add_assoc, Nat.add_comm 1]

theorem rowAt_stop (items : Items F) (pos : ℕ → ℕ) (A H B U : Param F) (z : List (Arr F)) (Q R : Param F) :
    rowAt items pos A H B U (.array (.stack z)) Q R z.length = none := by
  have hz : nth items pos z.length (.array (.stack z)) = none := by simp [nth, NDArray.rows]
  simp only [rowAt, both, hz]
  rcases nth items pos z.length A <;> rcases nth items pos z.length H <;> rcases nth items pos z.length B <;>
    rcases nth items pos z.length U <;> rfl

theorem zipRows_asArray (items : Items F) (pos : ℕ → ℕ) (A H B U : Param F) (z : List (Arr F)) (Q R : Param F) :
    KalmanFilter.zipRows (A.asArray items pos z.length) (H.asArray items pos z.length) (B.asArray items pos z.length)
        (U.asArray items pos z.length) (.stack z) (Q.asArray items pos z.length) (R.asArray items pos z.length) =
      match checkAll [A, H, B, U, .array (.stack z), Q, R] with
      | .error e => .error e
      | .ok _ => .ok (unf (rowAt items pos A H B U (.array (.stack z)) Q R) z.length 0) := by
  have hz : (NDArray.stack z : NDArray F).iter = .ok (unf (nth items pos · (.array (.stack z))) z.length 0) :=
    congrArg _ (unf_list z z.length 0 (by omega)).symm
  simp only [KalmanFilter.zipRows, checkAll_cons, checkAll, hz]
  rcases iter_asArray items pos z.length A with ⟨e, h1, h2, -⟩ | ⟨a, ha, h1, h2⟩ <;> rw [h1, h2]
  · rfl
  rcases iter_asArray items pos z.length H with ⟨e, h1, h2, -⟩ | ⟨h, hh, h1, h2⟩ <;> rw [h1, h2]
  · rfl
  rcases iter_asArray items pos z.length B with ⟨e, h1, h2, -⟩ | ⟨b, hb, h1, h2⟩ <;> rw [h1, h2]
  · rfl
  rcases iter_asArray items pos z.length U with ⟨e, h1, h2, -⟩ | ⟨u, hu, h1, h2⟩ <;> rw [h1, h2]
  · rfl
  rcases iter_asArray items pos z.length Q with ⟨e, h1, h2, -⟩ | ⟨q, hq, h1, h2⟩ <;> rw [h1, h2]
  · rfl
  rcases iter_asArray items pos z.length R with ⟨e, h1, h2, -⟩ | ⟨r, hr, h1, h2⟩ <;> rw [h1, h2]
  · rfl
  simp only [checkIter, Except.bind_ok', zip_unf]
  rw [show min a (min h (min b (min u (min z.length (min q r))))) = z.length by omega]
  rfl

/-- `filter` on iterators: what it does, and where the iterators stand afterwards. -/
theorem filter_eq (items : Items F) (z : List (Arr F)) (U : Option (Param F)) (w : Reading (IterFilter F))
    (hs : Separate (w.obj.zipped (.stack z) U)) :
    (filter items (.array (.stack z)) U).run w =
      match checkAll (w.obj.zipped (.stack z) U) with
      | .error e => (.error e, w)
      | .ok _ =>
        let V := U.getD (.array (NDArray.stack z).fullLikeNan)
        let rows := unf (rowAt items w.pos w.obj.A w.obj.H w.obj.B V (.array (.stack z)) w.obj.Q w.obj.R) z.length 0
        let t := trace (KalmanFilter.step w.obj.stateSize w.obj.I) rows w.obj.xk w.obj.Pk
        (t.result 0 (List.replicate z.length (Arr.zerosVec w.obj.stateSize))
            (List.replicate z.length (Arr.zerosMat w.obj.stateSize)),
          { obj := w.obj.addGains t.gains,
            pos := match t.err with
              | none => posAfter items w.pos (w.obj.zipped (.stack z) U) rows.length true
              | some _ => posAfter items w.pos (w.obj.zipped (.stack z) U) (t.outs.length + 1) false }) := by
  have hV : Param.orNan U (.array (.stack z)) = U.getD (.array (NDArray.stack z).fullLikeNan) := by cases U <;> rfl
  simp only [filter, Py.run_bind, Py.run_self, Py.run_lift, hV]
  rw [show ((Param.array (.stack z) : Param F).len) = .ok z.length from rfl]
  simp only [zipped] at hs ⊢
  rcases hc : checkAll [w.obj.A, w.obj.H, w.obj.B, U.getD (.array (NDArray.stack z).fullLikeNan), .array (.stack z), w.obj.Q, w.obj.R] with e | ⟨⟩
  · rfl
  simp only
  have hu : unf (rowAt items w.pos w.obj.A w.obj.H w.obj.B (U.getD (.array (NDArray.stack z).fullLikeNan)) (.array (.stack z)) w.obj.Q w.obj.R)
      (z.length + 1) 0 = unf (rowAt items w.pos w.obj.A w.obj.H w.obj.B (U.getD (.array (NDArray.stack z).fullLikeNan)) (.array (.stack z)) w.obj.Q w.obj.R)
      z.length 0 := unf_stop _ z.length 0 (by rw [Nat.zero_add]; exact rowAt_stop ..) 1
  rw [filterLoop_eq items w.pos _ _ _ _ _ _ _ hs (z.length + 1) 0 _ _ _ _ w (by funext i; simp [posAfter])
    (by rw [hu]; exact Nat.lt_succ_of_le (unf_length_le _ _ _)), hu]
  simp only [Nat.zero_add]

/-- The call as a call on arrays. -/
theorem filter_is (items : Items F) (Z : NDArray F) (U : Option (Param F)) (w : Reading (IterFilter F))
    (hs : Separate (w.obj.zipped Z U)) :
    ((filter items (.array Z) U).run w).1 = ((KalmanFilter.filter Z (U.map (asArray items w.pos Z.rows.length))).run
        (w.obj.asArrays items w.pos Z.rows.length)).1 ∧
      ((filter items (.array Z) U).run w).2.obj = { w.obj with
        kalmanGains := ((KalmanFilter.filter Z (U.map (asArray items w.pos Z.rows.length))).run
          (w.obj.asArrays items w.pos Z.rows.length)).2.kalmanGains } := by
  rcases Z with ⟨d, x⟩ | z
  · refine ⟨rfl, rfl⟩
  · have hU : checkNoneAndBroadcast (U.map (asArray items w.pos z.length)) (.stack z) =
        (U.getD (.array (NDArray.stack z).fullLikeNan)).asArray items w.pos z.length := by cases U <;> rfl
    rw [filter_eq items z U w hs, KalmanFilter.filter_eq]
    simp only [NDArray.rows_stack, NDArray.len_stack, hU]
    simp only [asArrays]
    rw [zipRows_asArray]
    simp only [zipped]
    rcases checkAll [w.obj.A, w.obj.H, w.obj.B, U.getD (.array (NDArray.stack z).fullLikeNan), .array (.stack z), w.obj.Q, w.obj.R] with e | ⟨⟩
    · exact ⟨rfl, rfl⟩
    · exact ⟨rfl, rfl⟩

theorem rowAt_none (items : Items F) (pos : ℕ → ℕ) (A H B U Z Q R : Param F) (k : ℕ) (h : rowAt items pos A H B U Z Q R k = none) :
    ∃ p ∈ [A, H, B, U, Z, Q, R], nth items pos k p = none := by
  have hm := mapM_row items pos A H B U Z Q R k
  rw [h] at hm
  by_contra hc
  push Not at hc
  have : ∀ ps : List (Param F), (∀ p ∈ ps, nth items pos k p ≠ none) → ps.mapM (nth items pos k) ≠ none := by
    intro ps
    induction ps with
    | nil => simp
    | cons p ps ih =>
      intro hp
      rw [List.mapM_cons]
      rcases hx : nth items pos k p with _ | x
      · exact absurd hx (hp p (by simp))
      · rcases hy : ps.mapM (nth items pos k) with _ | ys
        · exact absurd hy (ih fun q hq => hp q (by simp [hq]))
        · simp
  exact this _ hc hm

end IterFilter

namespace Param

/-- Position in `takeWhile`. -/
theorem mem_takeWhile_ids (items : Items F) (pos : ℕ → ℕ) (t : ℕ) (ps : List (Param F)) (hs : Separate ps) (j i : ℕ)
    (hj : ps[j]? = some (.iterator i)) :
    i ∈ idsOf (ps.takeWhile fun p => (nth items pos t p).isSome) ↔ ∀ p ∈ ps.take (j + 1), (nth items pos t p).isSome = true := by
  induction ps generalizing j with
  | nil => simp at hj
  | cons p ps ih =>
    rw [Separate, idsOf_cons] at hs
    have hps : Separate ps := (List.nodup_append.1 hs).2.1
    rw [List.takeWhile_cons]
    have hsub : ∀ j, j ∈ idsOf (ps.takeWhile fun p => (nth items pos t p).isSome) → j ∈ idsOf ps := by
      intro j hj
      simp only [idsOf, List.mem_flatMap] at hj ⊢
      obtain ⟨p, hp, hj⟩ := hj
      exact ⟨p, (List.takeWhile_sublist _).subset hp, hj⟩
    rcases j with _ | j
    · simp only [List.getElem?_cons_zero, Option.some.injEq] at hj
      subst hj
      have hnot : i ∉ idsOf ps := fun hm => (List.nodup_append.1 hs).2.2 i (by simp [ids]) i hm rfl
      rcases hx : (nth items pos t (.iterator i)).isSome with _ | _
      · simp [idsOf, hx]
      · simp [idsOf_cons, ids, hx]
    · simp only [List.getElem?_cons_succ] at hj
      have hmem : i ∈ idsOf ps := by
        simp only [idsOf, List.mem_flatMap]
        exact ⟨_, List.mem_of_getElem? hj, by simp [ids]⟩
      have hni : i ∉ p.ids := fun hm => (List.nodup_append.1 hs).2.2 i hm i hmem rfl
      rcases hx : (nth items pos t p).isSome with _ | _
      · simp [idsOf, hx]
      · simp only [if_true, idsOf_cons, List.mem_append, hni, false_or, List.take_succ_cons, List.mem_cons, forall_eq_or_imp, hx, true_and]
        exact ih hps j hj

theorem mem_idsOf {ps : List (Param F)} {j i : ℕ} (hj : ps[j]? = some (.iterator i)) : i ∈ idsOf ps := by
  simp only [idsOf, List.mem_flatMap]
  exact ⟨_, List.mem_of_getElem? hj, by simp [ids]⟩

theorem posAfter_stop (items : Items F) (pos : ℕ → ℕ) (t : ℕ) (ps : List (Param F)) (hs : Separate ps) (j i : ℕ)
    (hj : ps[j]? = some (.iterator i)) :
    posAfter items pos ps t true i = pos i + t + if (ps.take (j + 1)).all (fun p => (nth items pos t p).isSome) then 1 else 0 := by
  have := mem_takeWhile_ids items pos t ps hs j i hj
  rw [← List.all_eq_true] at this
  simp only [posAfter, mem_idsOf hj, if_true, true_and]
  congr 1
  exact if_congr this rfl rfl

theorem posAfter_other (items : Items F) (pos : ℕ → ℕ) (t : ℕ) (b : Bool) (ps : List (Param F)) (i : ℕ) (hi : i ∉ idsOf ps) :
    posAfter items pos ps t b i = pos i := by
  have hsub : i ∉ idsOf (ps.takeWhile fun p => (nth items pos t p).isSome) := by
    intro hj
    apply hi
    simp only [idsOf, List.mem_flatMap] at hj ⊢
    obtain ⟨p, hp, hj⟩ := hj
    exact ⟨p, (List.takeWhile_sublist _).subset hp, hj⟩
  simp [posAfter, hi, hsub]

end Param
end KK
