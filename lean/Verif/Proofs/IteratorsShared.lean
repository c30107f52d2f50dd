import Verif.Proofs.IteratorsExt

/-! # Proofs about iterators used for several parameters -/

set_option linter.unusedSectionVars false
set_option linter.unusedSimpArgs false

namespace KK

variable {F : Type}

theorem unf_full {α : Type} (f : ℕ → Option α) (c k j : ℕ) (h : j < (unf f c k).length) : (f (k + j)).isSome := by
  rw [← unf_getElem? f c k j h, List.getElem?_eq_getElem h]; rfl


namespace Param

/-- The parameter with its own number in place of the number of the iterator. -/
def label (j : ℕ) : Param F → Param F
  | .array a => .array a
  | .iterator _ => .iterator j

theorem nth_label (items : Items F) (pos : ℕ → ℕ) (ps : List (Param F)) (j k : ℕ) (p : Param F) (h : ps[j]? = some p) :
    nth (dealt items pos ps) (fun _ => 0) k (label j p) = dealt items pos ps j k := by
  rcases p with a | i
  · simp [nth, label, dealt, h]
  · simp [nth, label]

theorem asArray_label (items : Items F) (pos : ℕ → ℕ) (ps : List (Param F)) (n j : ℕ) (p : Param F) (h : ps[j]? = some p) :
    asArray (dealt items pos ps) (fun _ => 0) n (label j p) = dealtArray items pos ps n j := by
  rcases p with a | i
  · simp [asArray, label, dealtArray, h]
  · simp [asArray, label, dealtArray, h]

theorem checkIter_label (j : ℕ) (p : Param F) : (label j p).checkIter = p.checkIter := by
  rcases p with (_ | _) | _ <;> rfl

theorem idsOf_append (ps qs : List (Param F)) : idsOf (ps ++ qs) = idsOf ps ++ idsOf qs := by simp [idsOf]

theorem pull_dealt (items : Items F) (pos0 : ℕ → ℕ) (k : ℕ) (ps : List (Param F)) (suf pre : List (Param F)) (hps : ps = pre ++ suf)
    (pos : ℕ → ℕ) (hpos : ∀ i, pos i = pos0 i + k * (idsOf ps).count i + (idsOf pre).count i) :
    (pull items suf k pos).1 = (List.range' pre.length suf.length).mapM (fun j => dealt items pos0 ps j k) ∧
    ((pull items suf k pos).1.isSome → ∀ i, (pull items suf k pos).2 i = pos0 i + (k + 1) * (idsOf ps).count i) ∧
    ((pull items suf k pos).1 = none → ∃ j, pre.length ≤ j ∧ j < ps.length ∧ dealt items pos0 ps j k = none ∧
      (∀ j', pre.length ≤ j' → j' < j → (dealt items pos0 ps j' k).isSome) ∧
      ∀ i, (pull items suf k pos).2 i = pos0 i + k * (idsOf ps).count i + (idsOf (ps.take j)).count i) := by
  induction suf generalizing pre pos with
  | nil =>
    refine ⟨rfl, ?_, by simp [pull]⟩
    intro _ i
    rw [List.append_nil] at hps
    subst hps
    simp only [pull, hpos]
    ring
  | cons p suf ih =>
    have hj : ps[pre.length]? = some p := by rw [hps]; simp
    have htake : ps.take pre.length = pre := by rw [hps]; simp
    have hlt : pre.length < ps.length := by rw [hps]; simp
    have hps' : ps = (pre ++ [p]) ++ suf := by rw [hps]; simp
    rw [List.length_cons, List.range'_succ, List.mapM_cons]
    have stop : dealt items pos0 ps pre.length k = none → pull items (p :: suf) k pos = (none, pos) →
      (pull items (p :: suf) k pos).1 = (do
        let x ← dealt items pos0 ps pre.length k
        let xs ← (List.range' (pre.length + 1) suf.length).mapM (fun j => dealt items pos0 ps j k)
        pure (x :: xs)) ∧
      ((pull items (p :: suf) k pos).1.isSome → ∀ i, (pull items (p :: suf) k pos).2 i = pos0 i + (k + 1) * (idsOf ps).count i) ∧
      ((pull items (p :: suf) k pos).1 = none → ∃ j, pre.length ≤ j ∧ j < ps.length ∧ dealt items pos0 ps j k = none ∧
        (∀ j', pre.length ≤ j' → j' < j → (dealt items pos0 ps j' k).isSome) ∧
        ∀ i, (pull items (p :: suf) k pos).2 i = pos0 i + k * (idsOf ps).count i + (idsOf (ps.take j)).count i) := by
      intro hd hp
      rw [hp, hd]
      refine ⟨rfl, by simp, fun _ => ⟨pre.length, le_refl _, hlt, hd, fun j' h1 h2 => absurd h2 (by omega), ?_⟩⟩
      rw [htake]
      exact hpos
    have go : ∀ (x : Arr F) (pos1 : ℕ → ℕ), dealt items pos0 ps pre.length k = some x →
      pull items (p :: suf) k pos = (match pull items suf k pos1 with
        | (none, pos') => (none, pos')
        | (some xs, pos') => (some (x :: xs), pos')) →
      (∀ i, pos1 i = pos0 i + k * (idsOf ps).count i + (idsOf (pre ++ [p])).count i) →
      (pull items (p :: suf) k pos).1 = (do
        let x ← dealt items pos0 ps pre.length k
        let xs ← (List.range' (pre.length + 1) suf.length).mapM (fun j => dealt items pos0 ps j k)
        pure (x :: xs)) ∧
      ((pull items (p :: suf) k pos).1.isSome → ∀ i, (pull items (p :: suf) k pos).2 i = pos0 i + (k + 1) * (idsOf ps).count i) ∧
      ((pull items (p :: suf) k pos).1 = none → ∃ j, pre.length ≤ j ∧ j < ps.length ∧ dealt items pos0 ps j k = none ∧
        (∀ j', pre.length ≤ j' → j' < j → (dealt items pos0 ps j' k).isSome) ∧
        ∀ i, (pull items (p :: suf) k pos).2 i = pos0 i + k * (idsOf ps).count i + (idsOf (ps.take j)).count i) := by
      intro x pos1 hd hp hpos1
      obtain ⟨h1, h2, h3⟩ := ih (pre ++ [p]) hps' pos1 hpos1
      rw [List.length_append, List.length_singleton] at h1 h3
      rw [hp, hd]
      rcases hq : pull items suf k pos1 with ⟨_ | xs, pos'⟩
      · rw [hq] at h1 h2 h3
        refine ⟨?_, by simp, fun _ => ?_⟩
        · simp only at h1
          rw [← h1]; rfl
        · obtain ⟨j, a1, a2, a3, a4, a5⟩ := h3 rfl
          refine ⟨j, by omega, a2, a3, ?_, a5⟩
          intro j' b1 b2
          rcases Nat.eq_or_lt_of_le b1 with e | e
          · rw [← e, hd]; rfl
          · exact a4 j' e b2
      · rw [hq] at h1 h2 h3
        refine ⟨?_, fun _ => h2 rfl, by simp⟩
        simp only at h1
        rw [← h1]; rfl
    rcases p with (⟨d, x⟩ | rows) | i
    · exact stop (by simp [dealt, hj, NDArray.rows]) rfl
    · have hd : dealt items pos0 ps pre.length k = rows[k]? := by simp [dealt, hj, NDArray.rows]
      rcases hx : rows[k]? with _ | x
      · exact stop (hd.trans hx) (by simp [pull, hx])
      · exact go x pos (hd.trans hx) (by simp only [pull, hx]; rfl) (fun i => by simp [hpos, idsOf_append, idsOf, ids])
    · have hd : dealt items pos0 ps pre.length k = items i (pos i) := by simp only [dealt, hj, htake, hpos]
      rcases hx : items i (pos i) with _ | x
      · exact stop (hd.trans hx) (by simp [pull, hx])
      · refine go x (Function.update pos i (pos i + 1)) (hd.trans hx) (by simp only [pull, hx]; rfl) (fun l => ?_)
        rw [idsOf_append, List.count_append]
        by_cases hl : l = i
        · subst hl
          simp [Function.update_self, hpos, idsOf, ids, Nat.add_assoc]
        · rw [Function.update_of_ne hl, hpos]
          simp [idsOf, ids, Ne.symm hl]

theorem mapM_isSome {α β : Type} {f : α → Option β} {l : List α} {r : List β} (h : l.mapM f = some r) : ∀ a ∈ l, (f a).isSome := by
  induction l generalizing r with
  | nil => simp
  | cons a l ih =>
    rw [List.mapM_cons] at h
    rcases hp : f a with _ | x
    · rw [hp] at h; exact absurd h (by simp)
    · rw [hp] at h
      rcases hps : l.mapM f with _ | ys
      · rw [hps] at h; exact absurd h (by simp)
      · intro q hq
        rcases List.mem_cons.1 hq with rfl | hq
        · simp [hp]
        · exact ih hps q hq

/-- The state of the iterators after `k` complete rounds. -/
def Dealt (pos0 : ℕ → ℕ) (ps : List (Param F)) (k : ℕ) (pos : ℕ → ℕ) : Prop :=
  ∀ i, pos i = pos0 i + k * (idsOf ps).count i

theorem pull_round (items : Items F) (pos0 : ℕ → ℕ) (k : ℕ) (ps : List (Param F)) (pos : ℕ → ℕ) (h : Dealt pos0 ps k pos) :
    (pull items ps k pos).1 = (List.range' 0 ps.length).mapM (fun j => dealt items pos0 ps j k) ∧
    ((pull items ps k pos).1.isSome → Dealt pos0 ps (k + 1) (pull items ps k pos).2) ∧
    ((pull items ps k pos).1 = none → ∃ j < ps.length, dealt items pos0 ps j k = none ∧ (∀ j' < j, (dealt items pos0 ps j' k).isSome) ∧
      ∀ i, (pull items ps k pos).2 i = pos0 i + k * (idsOf ps).count i + (idsOf (ps.take j)).count i) := by
  obtain ⟨h1, h2, h3⟩ := pull_dealt items pos0 k ps ps [] rfl pos (fun i => by simp [h i, idsOf])
  refine ⟨h1, h2, fun hn => ?_⟩
  obtain ⟨j, -, a2, a3, a4, a5⟩ := h3 hn
  exact ⟨j, a2, a3, fun j' => a4 j' (Nat.zero_le _), a5⟩

end Param

namespace IterFilter

open Param
variable [Backend F]

/-- The loop, for positions kept by an invariant. -/
theorem filterLoop_inv (items : Items F) (ps : List (Param F)) (row : ℕ → Option (KalmanFilter.Row F)) (Inv : ℕ → (ℕ → ℕ) → Prop)
    (hrow : ∀ k pos, Inv k pos → (pull items ps k pos).1 = (row k).map fun r =>
        [r.1, r.2.1, r.2.2.1, r.2.2.2.1, r.2.2.2.2.1, r.2.2.2.2.2.1, r.2.2.2.2.2.2])
    (hnext : ∀ k pos, Inv k pos → (row k).isSome → Inv (k + 1) (pull items ps k pos).2)
    (c k : ℕ) (x P : Arr F) (states errors : List (Arr F)) (w : Reading (IterFilter F)) (hpos : Inv k w.pos)
    (hc : (unf row c k).length < c) :
    let t := trace (KalmanFilter.step w.obj.stateSize w.obj.I) (unf row c k) x P
    ∃ pos', (filterLoop items ps c k x P states errors).run w = (t.result k states errors, { obj := w.obj.addGains t.gains, pos := pos' }) ∧
      (t.err = none → ∃ pos1, Inv (k + (unf row c k).length) pos1 ∧ pos' = (pull items ps (k + (unf row c k).length) pos1).2) ∧
      (∀ e, t.err = some e → Inv (k + t.outs.length + 1) pos') := by
  induction c generalizing k x P states errors w with
  | zero => simp at hc
  | succ c ih =>
    have hm := hrow k w.pos hpos
    have hn := hnext k w.pos hpos
    intro t
    simp only [unf] at hc
    simp only [filterLoop, Py.run_bind, Param.next]
    rcases hr : row k with _ | ⟨Ak, Hk, Bk, uk, zk, Qk, Rk⟩
    · have ht : t = trace (KalmanFilter.step w.obj.stateSize w.obj.I) [] x P := by simp only [t, unf, hr]
      rw [hr] at hm
      refine ⟨(pull items ps k w.pos).2, ?_, ?_, ?_⟩
      · rw [hm, ht]
        simp [trace, Trace.result, overwrite, addGains]
      · intro _
        refine ⟨w.pos, ?_, ?_⟩ <;> simp only [unf, hr, List.length_nil, Nat.add_zero]
        exact hpos
      · intro e he
        rw [ht] at he
        simp [trace] at he
    · have ht : t = trace (KalmanFilter.step w.obj.stateSize w.obj.I) ((Ak, Hk, Bk, uk, zk, Qk, Rk) :: unf row c (k + 1)) x P := by simp only [t, unf, hr]
      have hl : (unf row (c + 1) k).length = (unf row c (k + 1)).length + 1 := by simp only [unf, hr, List.length_cons]
      rw [hr] at hm hn
      have hn := hn rfl
      rw [hm]
      generalize (pull items ps k w.pos).2 = pos1 at hn ⊢
      simp only [hr, List.length_cons] at hc
      rw [hl, ht]
      clear_value t
      simp only [Option.map_some, Py.run_bind, Py.run_lift, trace, KalmanFilter.step]
      rcases h1 : KalmanFilter.predict Ak x (some Bk) (some uk) P Qk with e | ⟨xp, Pp⟩
      · exact ⟨pos1, by simp [Trace.result, addGains], by simp, by simpa using hn⟩
      · simp only [update, Py.run_bind, Py.run_lift]
        rcases h2 : KalmanFilter.gain Hk Pp Rk with e | K
        · exact ⟨pos1, by simp [Trace.result, addGains], by simp, by simpa using hn⟩
        · simp only [Py.run_mutate, Py.run_self, Py.run_lift]
          rcases h3 : KalmanFilter.correct w.obj.I K Hk xp Pp zk with e | ⟨x', P'⟩
          · exact ⟨pos1, by simp [Trace.result, addGains], by simp, by simpa using hn⟩
          · simp only [Except.bind_ok']
            rcases h4 : Arr.assignVec w.obj.stateSize x' with e | srow
            · exact ⟨pos1, by simp [Trace.result, addGains], by simp, by simpa using hn⟩
            · simp only [Except.bind_ok']
              rcases h5 : Arr.assignMat w.obj.stateSize P' with e | erow
              · exact ⟨pos1, by simp [Trace.result, addGains], by simp, by simpa using hn⟩
              · simp only [Except.bind_ok']
                obtain ⟨pos', g1, g2, g3⟩ := ih (k + 1) x' P' (states.set k srow) (errors.set k erow)
                  ⟨{ w.obj with kalmanGains := w.obj.kalmanGains ++ [K] }, pos1⟩ hn (by omega)
                refine ⟨pos', ?_, ?_, ?_⟩
                · rw [g1]
                  simp only [Trace.result, addGains, Option.toList]
                  rcases (trace (KalmanFilter.step w.obj.stateSize w.obj.I) (unf row c (k + 1)) x' P').err with _ | e
                  · simp [overwrite, Nat.add_assoc, Nat.add_comm 1]
                  · simp [Nat.add_assoc, Nat.add_comm 1]
                · intro he
                  have := g2 he
                  rwa [show k + 1 + (unf row c (k + 1)).length = k + ((unf row c (k + 1)).length + 1) by omega] at this
                · intro e he
                  have := g3 e he
                  simp only [List.length_cons]
                  rwa [show ∀ a, k + 1 + a + 1 = k + (a + 1) + 1 by intro a; omega] at this

/-- The rows of `zip`, as dealt. -/
def dealtRow (items : Items F) (pos : ℕ → ℕ) (A H B U Z Q R : Param F) : ℕ → Option (KalmanFilter.Row F) :=
  rowAt (dealt items pos [A, H, B, U, Z, Q, R]) (fun _ => 0) (label 0 A) (label 1 H) (label 2 B) (label 3 U) (label 4 Z) (label 5 Q) (label 6 R)

theorem mapM_dealt (items : Items F) (pos : ℕ → ℕ) (A H B U Z Q R : Param F) (k : ℕ) :
    (List.range' 0 [A, H, B, U, Z, Q, R].length).mapM (fun j => dealt items pos [A, H, B, U, Z, Q, R] j k) =
      (dealtRow items pos A H B U Z Q R k).map fun r =>
        [r.1, r.2.1, r.2.2.1, r.2.2.2.1, r.2.2.2.2.1, r.2.2.2.2.2.1, r.2.2.2.2.2.2] := by
  rw [dealtRow, ← mapM_row]
  rw [show List.range' 0 [A, H, B, U, Z, Q, R].length = [0, 1, 2, 3, 4, 5, 6] from rfl]
  simp only [List.mapM_cons, List.mapM_nil]
  rw [nth_label items pos _ 0 k A rfl, nth_label items pos _ 1 k H rfl, nth_label items pos _ 2 k B rfl, nth_label items pos _ 3 k U rfl,
    nth_label items pos _ 4 k Z rfl, nth_label items pos _ 5 k Q rfl, nth_label items pos _ 6 k R rfl]

theorem filter_dealt (items : Items F) (z : List (Arr F)) (U : Option (Param F)) (w : Reading (IterFilter F)) :
    match checkAll (w.obj.zipped (.stack z) U) with
    | .error e => (filter items (.array (.stack z)) U).run w = (.error e, w)
    | .ok _ =>
      let V := U.getD (.array (NDArray.stack z).fullLikeNan)
      let rows := unf (dealtRow items w.pos w.obj.A w.obj.H w.obj.B V (.array (.stack z)) w.obj.Q w.obj.R) z.length 0
      let t := trace (KalmanFilter.step w.obj.stateSize w.obj.I) rows w.obj.xk w.obj.Pk
      ∃ pos', (filter items (.array (.stack z)) U).run w =
          (t.result 0 (List.replicate z.length (Arr.zerosVec w.obj.stateSize))
            (List.replicate z.length (Arr.zerosMat w.obj.stateSize)), { obj := w.obj.addGains t.gains, pos := pos' }) ∧
        (t.err = none → DealtBy items (w.obj.zipped (.stack z) U) w.pos pos' rows.length) ∧
        (∀ e, t.err = some e → Dealt w.pos (w.obj.zipped (.stack z) U) (t.outs.length + 1) pos') := by
  have hV : Param.orNan U (.array (.stack z)) = U.getD (.array (NDArray.stack z).fullLikeNan) := by cases U <;> rfl
  simp only [filter, Py.run_bind, Py.run_self, Py.run_lift, hV]
  rw [show ((Param.array (.stack z) : Param F).len) = .ok z.length from rfl]
  simp only [zipped]
  rcases hc : checkAll [w.obj.A, w.obj.H, w.obj.B, U.getD (.array (NDArray.stack z).fullLikeNan), .array (.stack z), w.obj.Q, w.obj.R] with e | ⟨⟩
  · rfl
  simp only
  generalize U.getD (.array (NDArray.stack z).fullLikeNan) = V
  have hstop : dealtRow items w.pos w.obj.A w.obj.H w.obj.B V (.array (.stack z)) w.obj.Q w.obj.R z.length = none := rowAt_stop ..
  have hu : unf (dealtRow items w.pos w.obj.A w.obj.H w.obj.B V (.array (.stack z)) w.obj.Q w.obj.R) (z.length + 1) 0 =
      unf (dealtRow items w.pos w.obj.A w.obj.H w.obj.B V (.array (.stack z)) w.obj.Q w.obj.R) z.length 0 :=
    unf_stop _ z.length 0 (by rw [Nat.zero_add]; exact hstop) 1
  have hrow : ∀ k, (dealtRow items w.pos w.obj.A w.obj.H w.obj.B V (.array (.stack z)) w.obj.Q w.obj.R k).isSome →
      ∀ j < 7, (dealt items w.pos [w.obj.A, w.obj.H, w.obj.B, V, .array (.stack z), w.obj.Q, w.obj.R] j k).isSome := by
    intro k hk j hj
    have hm := mapM_dealt items w.pos w.obj.A w.obj.H w.obj.B V (.array (.stack z)) w.obj.Q w.obj.R k
    obtain ⟨r, hr⟩ := Option.isSome_iff_exists.1 hk
    rw [hr] at hm
    rw [show List.range' 0 [w.obj.A, w.obj.H, w.obj.B, V, .array (.stack z), w.obj.Q, w.obj.R].length = [0, 1, 2, 3, 4, 5, 6] from rfl] at hm
    exact mapM_isSome hm j (by simp only [List.mem_cons, List.not_mem_nil, or_false]; omega)
  obtain ⟨pos', g1, g2, g3⟩ := filterLoop_inv items [w.obj.A, w.obj.H, w.obj.B, V, .array (.stack z), w.obj.Q, w.obj.R]
    (dealtRow items w.pos w.obj.A w.obj.H w.obj.B V (.array (.stack z)) w.obj.Q w.obj.R)
    (Dealt w.pos [w.obj.A, w.obj.H, w.obj.B, V, .array (.stack z), w.obj.Q, w.obj.R])
    (fun k pos h => (pull_round items w.pos k _ pos h).1.trans (mapM_dealt ..))
    (fun k pos h hk => (pull_round items w.pos k _ pos h).2.1 (by
      rw [(pull_round items w.pos k _ pos h).1.trans (mapM_dealt ..), Option.isSome_map]; exact hk))
    (z.length + 1) 0 w.obj.xk w.obj.Pk (List.replicate z.length (Arr.zerosVec w.obj.stateSize))
    (List.replicate z.length (Arr.zerosMat w.obj.stateSize)) w (fun i => by simp)
    (by rw [hu]; exact Nat.lt_succ_of_le (unf_length_le _ _ _))
  rw [hu] at g1 g2 g3
  simp only [Nat.zero_add] at g1 g2 g3
  refine ⟨pos', g1, fun he => ?_, g3⟩
  obtain ⟨pos1, hd, rfl⟩ := g2 he
  refine ⟨fun k hk => hrow k (by have := unf_full _ _ 0 k hk; rwa [Nat.zero_add] at this), ?_⟩
  have hnone : dealtRow items w.pos w.obj.A w.obj.H w.obj.B V (.array (.stack z)) w.obj.Q w.obj.R
      (unf (dealtRow items w.pos w.obj.A w.obj.H w.obj.B V (.array (.stack z)) w.obj.Q w.obj.R) z.length 0).length = none := by
    rcases Nat.lt_or_ge (unf (dealtRow items w.pos w.obj.A w.obj.H w.obj.B V (.array (.stack z)) w.obj.Q w.obj.R) z.length 0).length z.length with h | h
    · have := unf_end _ _ 0 h; rwa [Nat.zero_add] at this
    · rw [le_antisymm (unf_length_le _ _ _) h]; exact hstop
  exact (pull_round items w.pos _ _ pos1 hd).2.2 (by rw [(pull_round items w.pos _ _ pos1 hd).1.trans (mapM_dealt ..), hnone]; rfl)

/-- The call as a call on arrays. -/
theorem filter_is_dealt (items : Items F) (Z : NDArray F) (U : Option (Param F)) (w : Reading (IterFilter F)) :
    ((filter items (.array Z) U).run w).1 = ((KalmanFilter.filter Z (U.map fun _ => dealtArray items w.pos (w.obj.zipped Z U) Z.rows.length 3)).run
        (w.obj.dealtArrays items w.pos Z U)).1 ∧
      ((filter items (.array Z) U).run w).2.obj = { w.obj with
        kalmanGains := ((KalmanFilter.filter Z (U.map fun _ => dealtArray items w.pos (w.obj.zipped Z U) Z.rows.length 3)).run
          (w.obj.dealtArrays items w.pos Z U)).2.kalmanGains } := by
  rcases Z with ⟨d, x⟩ | z
  · refine ⟨rfl, rfl⟩
  · have hU : checkNoneAndBroadcast (U.map fun _ => dealtArray items w.pos (w.obj.zipped (.stack z) U) z.length 3) (.stack z) =
        asArray (dealt items w.pos (w.obj.zipped (.stack z) U)) (fun _ => 0) z.length (label 3 (U.getD (.array (NDArray.stack z).fullLikeNan))) := by
      rw [asArray_label items w.pos (w.obj.zipped (.stack z) U) z.length 3 _ rfl]
      cases U <;> rfl
    have hf := filter_dealt items z U w
    rw [KalmanFilter.filter_eq]
    simp only [NDArray.rows_stack, NDArray.len_stack, hU]
    simp only [dealtArrays, NDArray.rows_stack]
    rw [← asArray_label items w.pos (w.obj.zipped (.stack z) U) z.length 0 w.obj.A rfl,
      ← asArray_label items w.pos (w.obj.zipped (.stack z) U) z.length 1 w.obj.H rfl,
      ← asArray_label items w.pos (w.obj.zipped (.stack z) U) z.length 2 w.obj.B rfl,
      ← asArray_label items w.pos (w.obj.zipped (.stack z) U) z.length 5 w.obj.Q rfl,
      ← asArray_label items w.pos (w.obj.zipped (.stack z) U) z.length 6 w.obj.R rfl]
    rw [zipRows_asArray]
    have hc : checkAll [label 0 w.obj.A, label 1 w.obj.H, label 2 w.obj.B, label 3 (U.getD (.array (NDArray.stack z).fullLikeNan)),
        .array (.stack z), label 5 w.obj.Q, label 6 w.obj.R] = checkAll (w.obj.zipped (.stack z) U) := by
      simp only [zipped, checkAll_cons, checkIter_label]
    rw [hc]
    rcases hk : checkAll (w.obj.zipped (.stack z) U) with e | ⟨⟩
    · rw [hk] at hf
      simp only at hf
      rw [hf]
      exact ⟨rfl, rfl⟩
    · rw [hk] at hf
      obtain ⟨pos', hf, -⟩ := hf
      rw [hf]
      exact ⟨rfl, rfl⟩

end IterFilter

namespace IterEkf

open Param
variable [Backend F]

theorem filterLoop_inv (items : Items F) (ps : List (Param F)) (row : ℕ → Option (ExtendedKalmanFilter.Row F)) (Inv : ℕ → (ℕ → ℕ) → Prop)
    (hrow : ∀ k pos, Inv k pos → (pull items ps k pos).1 = (row k).map fun r => [r.1, r.2.1, r.2.2.1, r.2.2.2])
    (hnext : ∀ k pos, Inv k pos → (row k).isSome → Inv (k + 1) (pull items ps k pos).2)
    (c k : ℕ) (x P : Arr F) (states errors : List (Arr F)) (w : Reading (IterEkf F)) (hpos : Inv k w.pos)
    (hc : (unf row c k).length < c) :
    let t := trace (ExtendedKalmanFilter.step w.obj.plain) (unf row c k) x P
    ∃ pos', (filterLoop items ps c k x P states errors).run w = (t.result k states errors, { obj := w.obj.addGains t.gains, pos := pos' }) ∧
      (t.err = none → ∃ pos1, Inv (k + (unf row c k).length) pos1 ∧ pos' = (pull items ps (k + (unf row c k).length) pos1).2) ∧
      (∀ e, t.err = some e → Inv (k + t.outs.length + 1) pos') := by
  induction c generalizing k x P states errors w with
  | zero => simp at hc
  | succ c ih =>
    have hm := hrow k w.pos hpos
    have hn := hnext k w.pos hpos
    intro t
    simp only [unf] at hc
    simp only [filterLoop, Py.run_bind, Param.next]
    rcases hr : row k with _ | ⟨uk, zk, Qk, Rk⟩
    · have ht : t = trace (ExtendedKalmanFilter.step w.obj.plain) [] x P := by simp only [t, unf, hr]
      rw [hr] at hm
      refine ⟨(pull items ps k w.pos).2, ?_, ?_, ?_⟩
      · rw [hm, ht]
        simp [trace, Trace.result, overwrite, addGains]
      · intro _
        refine ⟨w.pos, ?_, ?_⟩ <;> simp only [unf, hr, List.length_nil, Nat.add_zero]
        exact hpos
      · intro e he
        rw [ht] at he
        simp [trace] at he
    · have ht : t = trace (ExtendedKalmanFilter.step w.obj.plain) ((uk, zk, Qk, Rk) :: unf row c (k + 1)) x P := by simp only [t, unf, hr]
      have hl : (unf row (c + 1) k).length = (unf row c (k + 1)).length + 1 := by simp only [unf, hr, List.length_cons]
      rw [hr] at hm hn
      have hn := hn rfl
      rw [hm]
      generalize (pull items ps k w.pos).2 = pos1 at hn ⊢
      simp only [hr, List.length_cons] at hc
      rw [hl, ht]
      clear_value t
      simp only [Option.map_some, Py.run_bind, Py.run_lift, Py.run_self, trace, ExtendedKalmanFilter.step]
      rcases h1 : ExtendedKalmanFilter.predict w.obj.plain x (some uk) P Qk with e | ⟨xp, Pp⟩
      · exact ⟨pos1, by simp [Trace.result, addGains], by simp, by simpa using hn⟩
      · simp only [update, Py.run_bind, Py.run_lift, Py.run_self]
        have hJ : w.obj.plain.jacobianH xp = w.obj.jacobianH xp := rfl
        rw [hJ]
        rcases h0 : w.obj.jacobianH xp with e | Hk
        · exact ⟨pos1, by simp [Trace.result, addGains], by simp, by simpa using hn⟩
        dsimp only
        rcases h2 : ExtendedKalmanFilter.gain Hk Pp Rk with e | K
        · exact ⟨pos1, by simp [Trace.result, addGains], by simp, by simpa using hn⟩
        · simp only [Py.run_mutate, Py.run_lift]
          rcases h3 : ExtendedKalmanFilter.correct w.obj.plain K Hk xp Pp zk with e | ⟨x', P'⟩
          · exact ⟨pos1, by simp [Trace.result, addGains], by simp, by simpa using hn⟩
          · simp only [Except.bind_ok']
            have hS : w.obj.plain.stateSize = w.obj.stateSize := rfl
            rw [hS]
            rcases h4 : Arr.assignVec w.obj.stateSize x' with e | srow
            · exact ⟨pos1, by simp [Trace.result, addGains], by simp, by simpa using hn⟩
            · simp only [Except.bind_ok']
              rcases h5 : Arr.assignMat w.obj.stateSize P' with e | erow
              · exact ⟨pos1, by simp [Trace.result, addGains], by simp, by simpa using hn⟩
              · simp only [Except.bind_ok']
                obtain ⟨pos', g1, g2, g3⟩ := ih (k + 1) x' P' (states.set k srow) (errors.set k erow)
                  ⟨{ w.obj with kalmanGains := w.obj.kalmanGains ++ [K] }, pos1⟩ hn (by omega)
                have hst : ExtendedKalmanFilter.step (IterEkf.plain { w.obj with kalmanGains := w.obj.kalmanGains ++ [K] }) =
                  ExtendedKalmanFilter.step w.obj.plain := rfl
                simp only [hst] at g1 g2 g3
                refine ⟨pos', ?_, ?_, ?_⟩
                · rw [g1]
                  simp only [Trace.result, addGains, Option.toList]
                  rcases (trace (ExtendedKalmanFilter.step w.obj.plain) (unf row c (k + 1)) x' P').err with _ | e
                  · simp [overwrite, Nat.add_assoc, Nat.add_comm 1]
                  · simp [Nat.add_assoc, Nat.add_comm 1]
                · intro he
                  have := g2 he
                  rwa [show k + 1 + (unf row c (k + 1)).length = k + ((unf row c (k + 1)).length + 1) by omega] at this
                · intro e he
                  have := g3 e he
                  simp only [List.length_cons]
                  rwa [show ∀ a, k + 1 + a + 1 = k + (a + 1) + 1 by intro a; omega] at this

/-- The rows of `zip`, as dealt. -/
def dealtRow (items : Items F) (pos : ℕ → ℕ) (U Z Q R : Param F) : ℕ → Option (ExtendedKalmanFilter.Row F) :=
  rowAt (dealt items pos [U, Z, Q, R]) (fun _ => 0) (label 0 U) (label 1 Z) (label 2 Q) (label 3 R)

theorem mapM_dealt (items : Items F) (pos : ℕ → ℕ) (U Z Q R : Param F) (k : ℕ) :
    (List.range' 0 [U, Z, Q, R].length).mapM (fun j => dealt items pos [U, Z, Q, R] j k) =
      (dealtRow items pos U Z Q R k).map fun r =>
        [r.1, r.2.1, r.2.2.1, r.2.2.2] := by
  rw [dealtRow, ← mapM_row]
  rw [show List.range' 0 [U, Z, Q, R].length = [0, 1, 2, 3] from rfl]
  simp only [List.mapM_cons, List.mapM_nil]
  rw [nth_label items pos _ 0 k U rfl, nth_label items pos _ 1 k Z rfl, nth_label items pos _ 2 k Q rfl, nth_label items pos _ 3 k R rfl]

theorem filter_dealt (items : Items F) (z : List (Arr F)) (U : Option (Param F)) (w : Reading (IterEkf F)) :
    match checkAll (w.obj.zipped (.stack z) U) with
    | .error e => (filter items (.array (.stack z)) U).run w = (.error e, w)
    | .ok _ =>
      let V := U.getD (.array (NDArray.stack z).fullLikeNan)
      let rows := unf (dealtRow items w.pos V (.array (.stack z)) w.obj.Q w.obj.R) z.length 0
      let t := trace (ExtendedKalmanFilter.step w.obj.plain) rows w.obj.xk w.obj.Pk
      ∃ pos', (filter items (.array (.stack z)) U).run w =
          (t.result 0 (List.replicate z.length (Arr.zerosVec w.obj.stateSize))
            (List.replicate z.length (Arr.zerosMat w.obj.stateSize)), { obj := w.obj.addGains t.gains, pos := pos' }) ∧
        (t.err = none → DealtBy items (w.obj.zipped (.stack z) U) w.pos pos' rows.length) ∧
        (∀ e, t.err = some e → Dealt w.pos (w.obj.zipped (.stack z) U) (t.outs.length + 1) pos') := by
  have hV : Param.orNan U (.array (.stack z)) = U.getD (.array (NDArray.stack z).fullLikeNan) := by cases U <;> rfl
  simp only [filter, Py.run_bind, Py.run_self, Py.run_lift, hV]
  rw [show ((Param.array (.stack z) : Param F).len) = .ok z.length from rfl]
  simp only [zipped]
  rcases hc : checkAll [U.getD (.array (NDArray.stack z).fullLikeNan), .array (.stack z), w.obj.Q, w.obj.R] with e | ⟨⟩
  · rfl
  simp only
  generalize U.getD (.array (NDArray.stack z).fullLikeNan) = V
  have hstop : dealtRow items w.pos V (.array (.stack z)) w.obj.Q w.obj.R z.length = none := rowAt_stop ..
  have hu : unf (dealtRow items w.pos V (.array (.stack z)) w.obj.Q w.obj.R) (z.length + 1) 0 =
      unf (dealtRow items w.pos V (.array (.stack z)) w.obj.Q w.obj.R) z.length 0 :=
    unf_stop _ z.length 0 (by rw [Nat.zero_add]; exact hstop) 1
  have hrow : ∀ k, (dealtRow items w.pos V (.array (.stack z)) w.obj.Q w.obj.R k).isSome →
      ∀ j < 4, (dealt items w.pos [V, .array (.stack z), w.obj.Q, w.obj.R] j k).isSome := by
    intro k hk j hj
    have hm := mapM_dealt items w.pos V (.array (.stack z)) w.obj.Q w.obj.R k
    obtain ⟨r, hr⟩ := Option.isSome_iff_exists.1 hk
    rw [hr] at hm
    rw [show List.range' 0 [V, .array (.stack z), w.obj.Q, w.obj.R].length = [0, 1, 2, 3] from rfl] at hm
    exact mapM_isSome hm j (by simp only [List.mem_cons, List.not_mem_nil, or_false]; omega)
  obtain ⟨pos', g1, g2, g3⟩ := filterLoop_inv items [V, .array (.stack z), w.obj.Q, w.obj.R]
    (dealtRow items w.pos V (.array (.stack z)) w.obj.Q w.obj.R)
    (Dealt w.pos [V, .array (.stack z), w.obj.Q, w.obj.R])
    (fun k pos h => (pull_round items w.pos k _ pos h).1.trans (mapM_dealt ..))
    (fun k pos h hk => (pull_round items w.pos k _ pos h).2.1 (by
      rw [(pull_round items w.pos k _ pos h).1.trans (mapM_dealt ..), Option.isSome_map]; exact hk))
    (z.length + 1) 0 w.obj.xk w.obj.Pk (List.replicate z.length (Arr.zerosVec w.obj.stateSize))
    (List.replicate z.length (Arr.zerosMat w.obj.stateSize)) w (fun i => by simp)
    (by rw [hu]; exact Nat.lt_succ_of_le (unf_length_le _ _ _))
  rw [hu] at g1 g2 g3
  simp only [Nat.zero_add] at g1 g2 g3
  refine ⟨pos', g1, fun he => ?_, g3⟩
  obtain ⟨pos1, hd, rfl⟩ := g2 he
  refine ⟨fun k hk => hrow k (by have := unf_full _ _ 0 k hk; rwa [Nat.zero_add] at this), ?_⟩
  have hnone : dealtRow items w.pos V (.array (.stack z)) w.obj.Q w.obj.R
      (unf (dealtRow items w.pos V (.array (.stack z)) w.obj.Q w.obj.R) z.length 0).length = none := by
    rcases Nat.lt_or_ge (unf (dealtRow items w.pos V (.array (.stack z)) w.obj.Q w.obj.R) z.length 0).length z.length with h | h
    · have := unf_end _ _ 0 h; rwa [Nat.zero_add] at this
    · rw [le_antisymm (unf_length_le _ _ _) h]; exact hstop
  exact (pull_round items w.pos _ _ pos1 hd).2.2 (by rw [(pull_round items w.pos _ _ pos1 hd).1.trans (mapM_dealt ..), hnone]; rfl)

/-- The call as a call on arrays. -/
theorem filter_is_dealt (items : Items F) (Z : NDArray F) (U : Option (Param F)) (w : Reading (IterEkf F)) :
    ((filter items (.array Z) U).run w).1 = ((ExtendedKalmanFilter.filter Z (U.map fun _ => dealtArray items w.pos (w.obj.zipped Z U) Z.rows.length 0)).run
        (w.obj.dealtArrays items w.pos Z U)).1 ∧
      ((filter items (.array Z) U).run w).2.obj = { w.obj with
        kalmanGains := ((ExtendedKalmanFilter.filter Z (U.map fun _ => dealtArray items w.pos (w.obj.zipped Z U) Z.rows.length 0)).run
          (w.obj.dealtArrays items w.pos Z U)).2.kalmanGains } := by
  rcases Z with ⟨d, x⟩ | z
  · refine ⟨rfl, rfl⟩
  · have hU : checkNoneAndBroadcast (U.map fun _ => dealtArray items w.pos (w.obj.zipped (.stack z) U) z.length 0) (.stack z) =
        asArray (dealt items w.pos (w.obj.zipped (.stack z) U)) (fun _ => 0) z.length (label 0 (U.getD (.array (NDArray.stack z).fullLikeNan))) := by
      rw [asArray_label items w.pos (w.obj.zipped (.stack z) U) z.length 0 _ rfl]
      cases U <;> rfl
    have hf := filter_dealt items z U w
    rw [ExtendedKalmanFilter.filter_eq]
    simp only [NDArray.rows_stack, NDArray.len_stack, hU]
    simp only [dealtArrays, NDArray.rows_stack]
    rw [← asArray_label items w.pos (w.obj.zipped (.stack z) U) z.length 2 w.obj.Q rfl,
      ← asArray_label items w.pos (w.obj.zipped (.stack z) U) z.length 3 w.obj.R rfl]
    rw [zipRows_asArray]
    have hc : checkAll [label 0 (U.getD (.array (NDArray.stack z).fullLikeNan)), .array (.stack z), label 2 w.obj.Q, label 3 w.obj.R] = checkAll (w.obj.zipped (.stack z) U) := by
      simp only [zipped, checkAll_cons, checkIter_label]
    rw [hc]
    rcases hk : checkAll (w.obj.zipped (.stack z) U) with e | ⟨⟩
    · rw [hk] at hf
      simp only at hf
      rw [hf]
      exact ⟨rfl, rfl⟩
    · rw [hk] at hf
      obtain ⟨pos', hf, -⟩ := hf
      rw [hf]
      exact ⟨rfl, rfl⟩

end IterEkf

end KK
