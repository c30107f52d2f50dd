import Verif.Proofs.IteratorsShared
import Verif.Test.Pushed

/-!
# Parameters given as one-shot iterators (C146, C147, C157)

`w : Reading (IterFilter F)` is a filter object whose sequences are arrays or iterators, together with the number
`w.pos i` of items that have been read from iterator `i`.  All statements are about any `w`, so also about the state
after any earlier calls.
-/

set_option linter.unusedSectionVars false
set_option linter.unusedSimpArgs false

namespace KK

variable {F : Type} [Backend F]

open Param

/-! ## C146: `filter` -/

/-- C146: with iterators for `A`, `H`, `B`, `Q`, `R` or the controls, `filter` on `n` observations does what it does with
the arrays of the next `n` items: same result or exception, same gains; nothing else on the object changes. -/
theorem C146_filter (items : Items F) (Z : NDArray F) (U : Option (Param F)) (w : Reading (IterFilter F))
    (hs : Separate (w.obj.zipped Z U)) :
    ((IterFilter.filter items (.array Z) U).run w).1 =
        ((KalmanFilter.filter Z (U.map (asArray items w.pos Z.rows.length))).run (w.obj.asArrays items w.pos Z.rows.length)).1 ∧
      ((IterFilter.filter items (.array Z) U).run w).2.obj = { w.obj with
        kalmanGains := ((KalmanFilter.filter Z (U.map (asArray items w.pos Z.rows.length))).run
          (w.obj.asArrays items w.pos Z.rows.length)).2.kalmanGains } :=
  IterFilter.filter_is items Z U w hs

theorem C146_ext_filter (items : Items F) (Z : NDArray F) (U : Option (Param F)) (w : Reading (IterEkf F))
    (hs : Separate (w.obj.zipped Z U)) :
    ((IterEkf.filter items (.array Z) U).run w).1 =
        ((ExtendedKalmanFilter.filter Z (U.map (asArray items w.pos Z.rows.length))).run (w.obj.asArrays items w.pos Z.rows.length)).1 ∧
      ((IterEkf.filter items (.array Z) U).run w).2.obj = { w.obj with
        kalmanGains := ((ExtendedKalmanFilter.filter Z (U.map (asArray items w.pos Z.rows.length))).run
          (w.obj.asArrays items w.pos Z.rows.length)).2.kalmanGains } :=
  IterEkf.filter_is items Z U w hs

/-- What a reading of the arguments of `zip` has left behind: `T` complete rows were read, no further one was there,
and of every iterator `T` items were read, or `T + 1` if it and all arguments before it still had an item. -/
structure ReadBy (items : Items F) (ps : List (Param F)) (pos pos' : ℕ → ℕ) (T : ℕ) : Prop where
  rows : ∀ k < T, ∀ p ∈ ps, (p.nth items pos k).isSome
  stop : ∃ p ∈ ps, p.nth items pos T = none
  read : ∀ j i, ps[j]? = some (.iterator i) →
    pos' i = pos i + T + if (ps.take (j + 1)).all (fun p => (p.nth items pos T).isSome) then 1 else 0
  others : ∀ i, i ∉ idsOf ps → pos' i = pos i

theorem readBy_of_rows (items : Items F) (pos : ℕ → ℕ) (ps : List (Param F)) (hs : Separate ps) {ρ : Type} (row : ℕ → Option ρ)
    (some_row : ∀ k, (row k).isSome → ∀ p ∈ ps, (p.nth items pos k).isSome)
    (no_row : ∀ k, row k = none → ∃ p ∈ ps, p.nth items pos k = none) (n : ℕ) (hstop : row n = none) :
    ReadBy items ps pos (posAfter items pos ps (unf row n 0).length true) (unf row n 0).length where
  rows := fun k hk => some_row k (by have := unf_full row n 0 k hk; rwa [Nat.zero_add] at this)
  stop := by
    apply no_row
    rcases Nat.lt_or_ge (unf row n 0).length n with h | h
    · have := unf_end row n 0 h; rwa [Nat.zero_add] at this
    · rw [le_antisymm (unf_length_le row n 0) h]; exact hstop
  read := fun j i hj => posAfter_stop items pos _ ps hs j i hj
  others := fun i hi => posAfter_other items pos _ _ ps i hi

theorem both_some {α β : Type} {f : ℕ → Option α} {g : ℕ → Option β} {k : ℕ} (h : (both f g k).isSome) : (f k).isSome ∧ (g k).isSome := by
  unfold both at h
  rcases hf : f k with _ | a
  · simp [hf] at h
  · rcases hg : g k with _ | b
    · simp [hf, hg] at h
    · exact ⟨rfl, rfl⟩

theorem both_none {α β : Type} {f : ℕ → Option α} {g : ℕ → Option β} {k : ℕ} (h : both f g k = none) : f k = none ∨ g k = none := by
  unfold both at h
  rcases hf : f k with _ | a
  · exact .inl rfl
  · rcases hg : g k with _ | b
    · exact .inr rfl
    · simp [hf, hg] at h

/-- C146, how far the iterators were read, if the call returned: `T` is the number of gains recorded.  `A`, `H`, `B` and the
controls are asked before the observations, `Q` and `R` after them: if there is nothing left but observations to stop the
loop, one more item than there are observations is taken from the former and lost. -/
theorem C146_read (items : Items F) (Z : NDArray F) (U : Option (Param F)) (w : Reading (IterFilter F))
    (hs : Separate (w.obj.zipped Z U)) (o : List (Arr F) × List (Arr F)) (w' : Reading (IterFilter F))
    (h : (IterFilter.filter items (.array Z) U).run w = (.ok o, w')) :
    ∃ T, w'.obj.kalmanGains.length = w.obj.kalmanGains.length + T ∧ ReadBy items (w.obj.zipped Z U) w.pos w'.pos T := by
  rcases Z with ⟨d, x⟩ | z
  · exact absurd (congrArg Prod.fst h) (by simp [IterFilter.filter, Py.run_bind, Param.len, NDArray.len])
  rw [IterFilter.filter_eq items z U w hs] at h
  rcases hc : checkAll (w.obj.zipped (.stack z) U) with e | ⟨⟩
  · rw [hc] at h; exact absurd (congrArg Prod.fst h) (by simp)
  rw [hc] at h
  simp only [Prod.mk.injEq] at h
  obtain ⟨h1, rfl⟩ := h
  generalize hr : unf (IterFilter.rowAt items w.pos w.obj.A w.obj.H w.obj.B (U.getD (.array (NDArray.stack z).fullLikeNan))
    (.array (.stack z)) w.obj.Q w.obj.R) z.length 0 = rows at h1 ⊢
  rcases he : (trace (KalmanFilter.step w.obj.stateSize w.obj.I) rows w.obj.xk w.obj.Pk).err with _ | e
  swap
  · simp [Trace.result, he] at h1
  refine ⟨rows.length, ?_, ?_⟩
  · simp only [IterFilter.addGains, List.length_append]
    rw [trace_gains_length _ (KalmanFilter.stepGain _ _) _ _ _ he]
  · simp only [he]
    rw [← hr]
    refine readBy_of_rows items w.pos _ hs _ ?_ ?_ z.length (IterFilter.rowAt_stop ..)
    · intro k hk p hp
      obtain ⟨a1, hk⟩ := both_some hk
      obtain ⟨a2, hk⟩ := both_some hk
      obtain ⟨a3, hk⟩ := both_some hk
      obtain ⟨a4, hk⟩ := both_some hk
      obtain ⟨a5, hk⟩ := both_some hk
      obtain ⟨a6, a7⟩ := both_some hk
      simp only [IterFilter.zipped, List.mem_cons, List.not_mem_nil, or_false] at hp
      rcases hp with rfl | rfl | rfl | rfl | rfl | rfl | rfl <;> assumption
    · exact fun k hk => IterFilter.rowAt_none items w.pos _ _ _ _ _ _ _ k hk

theorem C146_ext_read (items : Items F) (Z : NDArray F) (U : Option (Param F)) (w : Reading (IterEkf F))
    (hs : Separate (w.obj.zipped Z U)) (o : List (Arr F) × List (Arr F)) (w' : Reading (IterEkf F))
    (h : (IterEkf.filter items (.array Z) U).run w = (.ok o, w')) :
    ∃ T, w'.obj.kalmanGains.length = w.obj.kalmanGains.length + T ∧ ReadBy items (w.obj.zipped Z U) w.pos w'.pos T := by
  rcases Z with ⟨d, x⟩ | z
  · exact absurd (congrArg Prod.fst h) (by simp [IterEkf.filter, Py.run_bind, Param.len, NDArray.len])
  rw [IterEkf.filter_eq items z U w hs] at h
  rcases hc : checkAll (w.obj.zipped (.stack z) U) with e | ⟨⟩
  · rw [hc] at h; exact absurd (congrArg Prod.fst h) (by simp)
  rw [hc] at h
  simp only [Prod.mk.injEq] at h
  obtain ⟨h1, rfl⟩ := h
  generalize hr : unf (IterEkf.rowAt items w.pos (U.getD (.array (NDArray.stack z).fullLikeNan))
    (.array (.stack z)) w.obj.Q w.obj.R) z.length 0 = rows at h1 ⊢
  rcases he : (trace (ExtendedKalmanFilter.step w.obj.plain) rows w.obj.xk w.obj.Pk).err with _ | e
  swap
  · simp [Trace.result, he] at h1
  refine ⟨rows.length, ?_, ?_⟩
  · simp only [IterEkf.addGains, List.length_append]
    rw [trace_gains_length _ (ExtendedKalmanFilter.stepGain _) _ _ _ he]
  · simp only [he]
    rw [← hr]
    refine readBy_of_rows items w.pos _ hs _ ?_ ?_ z.length (IterEkf.rowAt_stop ..)
    · intro k hk p hp
      obtain ⟨a1, hk⟩ := both_some hk
      obtain ⟨a2, hk⟩ := both_some hk
      obtain ⟨a3, a4⟩ := both_some hk
      simp only [IterEkf.zipped, List.mem_cons, List.not_mem_nil, or_false] at hp
      rcases hp with rfl | rfl | rfl | rfl <;> assumption
    · intro k hk
      simp only [IterEkf.zipped, List.mem_cons, List.not_mem_nil, or_false]
      rcases both_none hk with h | hk
      · exact ⟨_, .inl rfl, h⟩
      rcases both_none hk with h | hk
      · exact ⟨_, .inr (.inl rfl), h⟩
      rcases both_none hk with h | h
      · exact ⟨_, .inr (.inr (.inl rfl)), h⟩
      · exact ⟨_, .inr (.inr (.inr rfl)), h⟩

/-- Gains and rows of a loop that raised. -/
theorem trace_raised_gains {ρ : Type} (step : ρ → Arr F → Arr F → StepOut F) (hg : StepGain step) (rs : List ρ) (x P : Arr F) (e : PyErr)
    (h : (trace step rs x P).err = some e) :
    (trace step rs x P).gains.length = (trace step rs x P).outs.length ∨ (trace step rs x P).gains.length = (trace step rs x P).outs.length + 1 := by
  induction rs generalizing x P with
  | nil => simp [trace] at h
  | cons r rs ih =>
    simp only [trace] at h ⊢
    rcases hr : step r x P with ⟨g, e' | ⟨xP, out⟩⟩
    · rcases g with _ | K <;> simp
    · obtain ⟨K, rfl⟩ := hg _ _ _ _ _ hr
      rw [hr] at h
      simp only at h
      have := ih _ _ h
      simp only [Option.toList, List.length_append, List.length_cons, List.length_nil]
      omega

/-- C146, if the call raised: either before anything was read, or in the middle of row `k`, and then exactly `k + 1` items
have been read from every iterator, and `k` or `k + 1` gains recorded. -/
theorem C146_raised (items : Items F) (Z : NDArray F) (U : Option (Param F)) (w : Reading (IterFilter F))
    (hs : Separate (w.obj.zipped Z U)) (e : PyErr) (w' : Reading (IterFilter F))
    (h : (IterFilter.filter items (.array Z) U).run w = (.error e, w')) :
    (e = .typeError ∧ w' = w) ∨
    ∃ k, (∀ i ∈ idsOf (w.obj.zipped Z U), w'.pos i = w.pos i + (k + 1)) ∧ (∀ i ∉ idsOf (w.obj.zipped Z U), w'.pos i = w.pos i) ∧
      (w'.obj.kalmanGains.length = w.obj.kalmanGains.length + k ∨ w'.obj.kalmanGains.length = w.obj.kalmanGains.length + (k + 1)) := by
  rcases Z with ⟨d, x⟩ | z
  · left
    simp only [IterFilter.filter, Py.run_bind, Param.len, NDArray.len, Py.run_self, Py.run_lift, Prod.mk.injEq, Except.error.injEq] at h
    exact ⟨h.1.symm, h.2.symm⟩
  rw [IterFilter.filter_eq items z U w hs] at h
  rcases hc : checkAll (w.obj.zipped (.stack z) U) with e' | ⟨⟩
  · rw [hc] at h
    simp only [Prod.mk.injEq, Except.error.injEq] at h
    refine .inl ⟨?_, h.2.symm⟩
    rw [← h.1]
    have check : ∀ ps : List (Param F), ∀ e, checkAll ps = .error e → e = .typeError := by
      intro ps
      induction ps with
      | nil => intro e he; cases he
      | cons p ps ih =>
        intro e he
        rw [checkAll_cons] at he
        rcases p with (⟨d, x⟩ | rows) | i
        · exact (Except.error.inj he).symm
        · exact ih e he
        · exact ih e he
    exact check _ _ hc
  rw [hc] at h
  simp only [Prod.mk.injEq] at h
  obtain ⟨h1, rfl⟩ := h
  right
  generalize unf (IterFilter.rowAt items w.pos w.obj.A w.obj.H w.obj.B (U.getD (.array (NDArray.stack z).fullLikeNan))
    (.array (.stack z)) w.obj.Q w.obj.R) z.length 0 = rows at h1 ⊢
  rcases he : (trace (KalmanFilter.step w.obj.stateSize w.obj.I) rows w.obj.xk w.obj.Pk).err with _ | e'
  · simp [Trace.result, he] at h1
  refine ⟨(trace (KalmanFilter.step w.obj.stateSize w.obj.I) rows w.obj.xk w.obj.Pk).outs.length, ?_, ?_, ?_⟩
  · intro i hi
    simp only [he]
    simp [posAfter, hi]
  · intro i hi
    simp only [he]
    exact posAfter_other items w.pos _ _ _ i hi
  · simp only [IterFilter.addGains, List.length_append]
    have := trace_raised_gains _ (KalmanFilter.stepGain w.obj.stateSize w.obj.I) rows w.obj.xk w.obj.Pk e' he
    omega

theorem C146_ext_raised (items : Items F) (Z : NDArray F) (U : Option (Param F)) (w : Reading (IterEkf F))
    (hs : Separate (w.obj.zipped Z U)) (e : PyErr) (w' : Reading (IterEkf F))
    (h : (IterEkf.filter items (.array Z) U).run w = (.error e, w')) :
    (e = .typeError ∧ w' = w) ∨
    ∃ k, (∀ i ∈ idsOf (w.obj.zipped Z U), w'.pos i = w.pos i + (k + 1)) ∧ (∀ i ∉ idsOf (w.obj.zipped Z U), w'.pos i = w.pos i) ∧
      (w'.obj.kalmanGains.length = w.obj.kalmanGains.length + k ∨ w'.obj.kalmanGains.length = w.obj.kalmanGains.length + (k + 1)) := by
  rcases Z with ⟨d, x⟩ | z
  · left
    simp only [IterEkf.filter, Py.run_bind, Param.len, NDArray.len, Py.run_self, Py.run_lift, Prod.mk.injEq, Except.error.injEq] at h
    exact ⟨h.1.symm, h.2.symm⟩
  rw [IterEkf.filter_eq items z U w hs] at h
  rcases hc : checkAll (w.obj.zipped (.stack z) U) with e' | ⟨⟩
  · rw [hc] at h
    simp only [Prod.mk.injEq, Except.error.injEq] at h
    refine .inl ⟨?_, h.2.symm⟩
    rw [← h.1]
    have check : ∀ ps : List (Param F), ∀ e, checkAll ps = .error e → e = .typeError := by
      intro ps
      induction ps with
      | nil => intro e he; cases he
      | cons p ps ih =>
        intro e he
        rw [checkAll_cons] at he
        rcases p with (⟨d, x⟩ | rows) | i
        · exact (Except.error.inj he).symm
        · exact ih e he
        · exact ih e he
    exact check _ _ hc
  rw [hc] at h
  simp only [Prod.mk.injEq] at h
  obtain ⟨h1, rfl⟩ := h
  right
  generalize unf (IterEkf.rowAt items w.pos (U.getD (.array (NDArray.stack z).fullLikeNan))
    (.array (.stack z)) w.obj.Q w.obj.R) z.length 0 = rows at h1 ⊢
  rcases he : (trace (ExtendedKalmanFilter.step w.obj.plain) rows w.obj.xk w.obj.Pk).err with _ | e'
  · simp [Trace.result, he] at h1
  refine ⟨(trace (ExtendedKalmanFilter.step w.obj.plain) rows w.obj.xk w.obj.Pk).outs.length, ?_, ?_, ?_⟩
  · intro i hi
    simp only [he]
    simp [posAfter, hi]
  · intro i hi
    simp only [he]
    exact posAfter_other items w.pos _ _ _ i hi
  · simp only [IterEkf.addGains, List.length_append]
    have := trace_raised_gains _ (ExtendedKalmanFilter.stepGain w.obj.plain) rows w.obj.xk w.obj.Pk e' he
    omega

theorem checkAll_typeError {ps : List (Param F)} {e : PyErr} (h : checkAll ps = .error e) : e = .typeError := by
  induction ps with
  | nil => cases h
  | cons p ps ih =>
    rw [checkAll_cons] at h
    rcases p with (⟨d, x⟩ | rows) | i
    · exact (Except.error.inj h).symm
    · exact ih h
    · exact ih h

theorem upcoming_repeat (items : Items F) (a : Arr F) (i : ℕ) (h : ∀ k, items i k = some a) (p n : ℕ) :
    upcoming items i p n = List.replicate n a := by
  induction n generalizing p with
  | zero => rfl
  | succ n ih => simp only [upcoming, h, ih, List.replicate_succ]

theorem Repeats.asArray {items : Items F} {a : Arr F} {p : Param F} (h : p.Repeats items a) (pos : ℕ → ℕ) (n : ℕ) :
    p.asArray items pos n = .stack (List.replicate n a) := by
  rcases p with b | i
  · exact h.elim
  · exact congrArg _ (upcoming_repeat items a i h _ _)

theorem Repeats.dealtArray {items : Items F} {a : Arr F} {p : Param F} (h : p.Repeats items a) (pos : ℕ → ℕ) (ps : List (Param F)) (n j : ℕ)
    (hj : ps[j]? = some p) : Param.dealtArray items pos ps n j = .stack (List.replicate n a) := by
  rcases p with b | i
  · exact h.elim
  · have : ∀ k, dealt items pos ps j k = some a := by
      intro k
      simp only [dealt, hj]
      exact h _
    simp only [Param.dealtArray, hj, upcoming_repeat (dealt items pos ps) a j this]

/-- C146: with `itertools.repeat` for all parameters - one object for several of them or not -, every call - after whatever calls
before - is that of the constant model, with as many copies of the matrices as there are observations. -/
theorem C146_repeat (items : Items F) (Z : NDArray F) (w : Reading (IterFilter F)) (a h b q r : Arr F)
    (hA : w.obj.A.Repeats items a) (hH : w.obj.H.Repeats items h) (hB : w.obj.B.Repeats items b)
    (hQ : w.obj.Q.Repeats items q) (hR : w.obj.R.Repeats items r) :
    ((IterFilter.filter items (.array Z) none).run w).1 = ((KalmanFilter.filter Z none).run
      { A := .stack (List.replicate Z.rows.length a), xk := w.obj.xk, B := .stack (List.replicate Z.rows.length b), Pk := w.obj.Pk,
        H := .stack (List.replicate Z.rows.length h), Q := .stack (List.replicate Z.rows.length q),
        R := .stack (List.replicate Z.rows.length r), stateSize := w.obj.stateSize, I := w.obj.I,
        kalmanGains := w.obj.kalmanGains }).1 := by
  rw [(IterFilter.filter_is_dealt items Z none w).1]
  simp only [IterFilter.dealtArrays, Repeats.dealtArray hA w.pos (w.obj.zipped Z none) Z.rows.length 0 rfl,
    Repeats.dealtArray hH w.pos (w.obj.zipped Z none) Z.rows.length 1 rfl, Repeats.dealtArray hB w.pos (w.obj.zipped Z none) Z.rows.length 2 rfl,
    Repeats.dealtArray hQ w.pos (w.obj.zipped Z none) Z.rows.length 5 rfl, Repeats.dealtArray hR w.pos (w.obj.zipped Z none) Z.rows.length 6 rfl,
    Option.map_none]

theorem C146_ext_repeat (items : Items F) (Z : NDArray F) (w : Reading (IterEkf F)) (q r : Arr F)
    (hQ : w.obj.Q.Repeats items q) (hR : w.obj.R.Repeats items r) :
    ((IterEkf.filter items (.array Z) none).run w).1 = ((ExtendedKalmanFilter.filter Z none).run
      { f := w.obj.f, jacobianA := w.obj.jacobianA, xk := w.obj.xk, Pk := w.obj.Pk, h := w.obj.h, jacobianH := w.obj.jacobianH,
        Q := .stack (List.replicate Z.rows.length q), R := .stack (List.replicate Z.rows.length r), stateSize := w.obj.stateSize,
        I := w.obj.I, kalmanGains := w.obj.kalmanGains }).1 := by
  rw [(IterEkf.filter_is_dealt items Z none w).1]
  simp only [IterEkf.dealtArrays, Repeats.dealtArray hQ w.pos (w.obj.zipped Z none) Z.rows.length 2 rfl,
    Repeats.dealtArray hR w.pos (w.obj.zipped Z none) Z.rows.length 3 rfl, Option.map_none]

/-- C146, two calls in a row with iterators that go on and on: the second call finds `Q` and `R` where the first one stopped, but
`A`, `H` and `B` one further: one item of each was lost, and the rows of the model no longer belong together. -/
theorem C146_second (items : Items F) (Z Z' : NDArray F) (w w' : Reading (IterFilter F)) (iA iH iB iQ iR : ℕ)
    (hA : w.obj.A = .iterator iA) (hH : w.obj.H = .iterator iH) (hB : w.obj.B = .iterator iB) (hQ : w.obj.Q = .iterator iQ)
    (hR : w.obj.R = .iterator iR) (hd : [iA, iH, iB, iQ, iR].Nodup)
    (hinf : ∀ i ∈ [iA, iH, iB, iQ, iR], ∀ k, (items i k).isSome)
    (o : List (Arr F) × List (Arr F)) (h : (IterFilter.filter items (.array Z) none).run w = (.ok o, w')) :
    ((IterFilter.filter items (.array Z') none).run w').1 = ((KalmanFilter.filter Z' none).run
      { A := .stack (upcoming items iA (w.pos iA + Z.rows.length + 1) Z'.rows.length), xk := w.obj.xk,
        B := .stack (upcoming items iB (w.pos iB + Z.rows.length + 1) Z'.rows.length), Pk := w.obj.Pk,
        H := .stack (upcoming items iH (w.pos iH + Z.rows.length + 1) Z'.rows.length),
        Q := .stack (upcoming items iQ (w.pos iQ + Z.rows.length) Z'.rows.length),
        R := .stack (upcoming items iR (w.pos iR + Z.rows.length) Z'.rows.length),
        stateSize := w.obj.stateSize, I := w.obj.I, kalmanGains := w'.obj.kalmanGains }).1 := by
  have hZ : Z.fullLikeNan.rows.length = Z.rows.length := by
    rcases Z with ⟨d, x⟩ | z
    · rfl
    · simp [NDArray.fullLikeNan]
  have hsep : ∀ Y : NDArray F, Separate (w.obj.zipped Y none) := by
    intro Y
    simpa [Separate, idsOf, IterFilter.zipped, hA, hH, hB, hQ, hR, ids] using hd
  obtain ⟨T, -, hr⟩ := C146_read items Z none w (hsep Z) o w' h
  have some_nth : ∀ i ∈ [iA, iH, iB, iQ, iR], ∀ k, ((Param.iterator i : Param F).nth items w.pos k).isSome := fun i hi k => hinf i hi _
  have hnext : ∀ k, (∀ p ∈ w.obj.zipped Z none, (p.nth items w.pos k).isSome) ↔ k < Z.rows.length := by
    intro k
    simp only [IterFilter.zipped, hA, hH, hB, hQ, hR, List.mem_cons, List.not_mem_nil, or_false, forall_eq_or_imp, forall_eq, Option.getD_none]
    simp only [show ((Param.iterator iA : Param F).nth items w.pos k).isSome = true from some_nth iA (by simp) k,
      show ((Param.iterator iH : Param F).nth items w.pos k).isSome = true from some_nth iH (by simp) k,
      show ((Param.iterator iB : Param F).nth items w.pos k).isSome = true from some_nth iB (by simp) k,
      show ((Param.iterator iQ : Param F).nth items w.pos k).isSome = true from some_nth iQ (by simp) k,
      show ((Param.iterator iR : Param F).nth items w.pos k).isSome = true from some_nth iR (by simp) k]
    simp [nth, hZ]
  have hT : T = Z.rows.length := by
    apply le_antisymm
    · by_contra hc
      have := (hnext Z.rows.length).1 (hr.rows _ (by omega))
      omega
    · by_contra hc
      obtain ⟨p, hp, hn⟩ := hr.stop
      have := (hnext T).2 (by omega) p hp
      rw [hn] at this
      cases this
  subst hT
  have h0 : ∀ p : Param F, p = .array Z ∨ p = .array Z.fullLikeNan → (p.nth items w.pos Z.rows.length).isSome = false := by
    rintro p (rfl | rfl) <;> simp [nth, hZ]
  have pA : w'.pos iA = w.pos iA + Z.rows.length + 1 := by
    rw [hr.read 0 iA (by simp [IterFilter.zipped, hA])]
    simp [IterFilter.zipped, hA, some_nth]
  have pH : w'.pos iH = w.pos iH + Z.rows.length + 1 := by
    rw [hr.read 1 iH (by simp [IterFilter.zipped, hH])]
    simp [IterFilter.zipped, hA, hH, some_nth]
  have pB : w'.pos iB = w.pos iB + Z.rows.length + 1 := by
    rw [hr.read 2 iB (by simp [IterFilter.zipped, hB])]
    simp [IterFilter.zipped, hA, hH, hB, some_nth]
  have pQ : w'.pos iQ = w.pos iQ + Z.rows.length := by
    rw [hr.read 5 iQ (by simp [IterFilter.zipped, hQ])]
    simp [IterFilter.zipped, h0]
  have pR : w'.pos iR = w.pos iR + Z.rows.length := by
    rw [hr.read 6 iR (by simp [IterFilter.zipped, hR])]
    simp [IterFilter.zipped, h0]
  have hobj : w'.obj = { w.obj with kalmanGains := w'.obj.kalmanGains } := by
    have := (C146_filter items Z none w (hsep Z)).2
    rw [h] at this
    simp only at this
    rw [this]
  have hsep' : Separate (w'.obj.zipped Z' none) := by rw [hobj]; exact hsep Z'
  rw [(C146_filter items Z' none w' hsep').1]
  rw [hobj]
  simp only [IterFilter.asArrays, hA, hH, hB, hQ, hR, asArray, pA, pH, pB, pQ, pR, Option.map_none]

/-- C146: observations must have a length; nothing is read. -/
theorem C146_observations (items : Items F) (i : ℕ) (U : Option (Param F)) (w : Reading (IterFilter F)) (v : Reading (IterEkf F)) :
    (IterFilter.filter items (.iterator i) U).run w = (.error .typeError, w) ∧
    (IterFilter.smooth items (.iterator i) U).run w = (.error .typeError, w) ∧
    (IterEkf.filter items (.iterator i) U).run v = (.error .typeError, v) ∧
    (IterEkf.smooth items (.iterator i) U).run v = (.error .typeError, v) :=
  ⟨rfl, rfl, rfl, rfl⟩

/-- C146: `B=None` together with an iterator for `A` is accepted by the constructor, but every call of `filter` and `smooth`
raises TypeError before anything is read. -/
theorem C146_no_control (items : Items F) (i : ℕ) (xk Pk : Arr F) (H Q R : Param F) (n : Option ℤ) (o : IterFilter F)
    (h : IterFilter.new (.iterator i) xk none Pk H Q R n = .ok o) (Z : Param F) (U : Option (Param F)) (pos : ℕ → ℕ) :
    (IterFilter.filter items Z U).run ⟨o, pos⟩ = (.error .typeError, ⟨o, pos⟩) ∧
    (IterFilter.smooth items Z U).run ⟨o, pos⟩ = (.error .typeError, ⟨o, pos⟩) := by
  have hb : o.B = .array (.d0 .float64 Backend.nan) := by
    simp only [IterFilter.new] at h
    rcases n with _ | (_ | s) | s
    · rcases hx : xk.shape with _ | ⟨m, t⟩ <;> rw [hx] at h <;> cases h; rfl
    · rcases hx : xk.shape with _ | ⟨m, t⟩ <;> simp only [hx] at h <;> cases h; rfl
    · cases h; rfl
    · cases h
  have hA : o.A = .iterator i := by
    simp only [IterFilter.new] at h
    rcases n with _ | (_ | s) | s
    · rcases hx : xk.shape with _ | ⟨m, t⟩ <;> rw [hx] at h <;> cases h; rfl
    · rcases hx : xk.shape with _ | ⟨m, t⟩ <;> simp only [hx] at h <;> cases h; rfl
    · cases h; rfl
    · cases h
  have hf : (IterFilter.filter items Z U).run ⟨o, pos⟩ = (.error .typeError, ⟨o, pos⟩) := by
    simp only [IterFilter.filter, Py.run_bind, Py.run_self, Py.run_lift]
    rcases Z with (⟨d, x⟩ | z) | j
    · rfl
    · simp only [Param.len, NDArray.len, hb, hA, checkAll_cons]
      rcases H : o.H with (⟨d, x⟩ | z) | j <;> rfl
    · rfl
  refine ⟨hf, ?_⟩
  rw [IterFilter.smooth_run, hf]

/-! ## C147: `smooth` -/

theorem isArray_asArray {p : Param F} (h : p.IsArray) {items : Items F} {pos : ℕ → ℕ} {n : ℕ} : p = .array (p.asArray items pos n) := by
  cases p with
  | array a => rfl
  | iterator i => exact h.elim

theorem isArray_dealtArray {p : Param F} (h : p.IsArray) {items : Items F} {pos : ℕ → ℕ} {n j : ℕ} {ps : List (Param F)} (hj : ps[j]? = some p) :
    p = .array (dealtArray items pos ps n j) := by
  cases p with
  | array a => simp [dealtArray, hj]
  | iterator i => exact h.elim

/-- C147: `H` and `R` may be iterators for `smooth`, if `A`, `B`, `Q` and the controls are arrays. -/
theorem C147_smooth (items : Items F) (Z : NDArray F) (U : Option (NDArray F)) (w : Reading (IterFilter F))
    (hs : Separate (w.obj.zipped Z (U.map .array))) (hA : w.obj.A.IsArray) (hQ : w.obj.Q.IsArray) (hB : w.obj.B.IsArray) :
    ((IterFilter.smooth items (.array Z) (U.map .array)).run w).1 =
        ((KalmanFilter.smooth Z U).run (w.obj.asArrays items w.pos Z.rows.length)).1 ∧
      ((IterFilter.smooth items (.array Z) (U.map .array)).run w).2 = ((IterFilter.filter items (.array Z) (U.map .array)).run w).2 := by
  have hU : (U.map Param.array).map (asArray items w.pos Z.rows.length) = U := by cases U <;> rfl
  have h := C146_filter items Z (U.map .array) w hs
  rw [hU] at h
  exact IterFilter.smooth_is items Z U w (w.obj.asArrays items w.pos Z.rows.length) rfl (isArray_asArray hA) (isArray_asArray hQ)
    (isArray_asArray hB) h.1 _ h.2

/-- C147: with an iterator for `A`, `Q`, `B` or the controls `smooth` never returns on two or more observations, although the work
of `filter` has been done, the iterators have been read and the gains recorded: it raises what `filter` raises, or TypeError, or
IndexError if one of the others is an array shorter than `Z`. -/
theorem C147_raises (items : Items F) (Z : NDArray F) (U : Option (Param F)) (w : Reading (IterFilter F)) (hn : 2 ≤ Z.rows.length)
    (h : ¬ w.obj.A.IsArray ∨ ¬ w.obj.Q.IsArray ∨ ¬ w.obj.B.IsArray ∨ ∃ V, U = some V ∧ ¬ V.IsArray) :
    ((IterFilter.smooth items (.array Z) U).run w).2 = ((IterFilter.filter items (.array Z) U).run w).2 ∧
    ∃ e, ((IterFilter.smooth items (.array Z) U).run w).1 = .error e ∧
      (((IterFilter.filter items (.array Z) U).run w).1 = .error e ∨
        (∃ o, ((IterFilter.filter items (.array Z) U).run w).1 = .ok o) ∧
          (e = .typeError ∨ e = .indexError ∧ ∃ a : NDArray F, (w.obj.A = .array a ∨ w.obj.Q = .array a ∨ w.obj.B = .array a) ∧
            a.rows.length < Z.rows.length)) :=
  IterFilter.smooth_iterator items Z U w (w.obj.dealtArrays items w.pos Z U) _ rfl (IterFilter.filter_is_dealt items Z U w).1 _
    (IterFilter.filter_is_dealt items Z U w).2 hn h

theorem C147_ext_smooth (items : Items F) (Z : NDArray F) (U : Option (NDArray F)) (w : Reading (IterEkf F))
    (hs : Separate (w.obj.zipped Z (U.map .array))) (hQ : w.obj.Q.IsArray) :
    ((IterEkf.smooth items (.array Z) (U.map .array)).run w).1 =
        ((ExtendedKalmanFilter.smooth Z U).run (w.obj.asArrays items w.pos Z.rows.length)).1 ∧
      ((IterEkf.smooth items (.array Z) (U.map .array)).run w).2 = ((IterEkf.filter items (.array Z) (U.map .array)).run w).2 := by
  have hU : (U.map Param.array).map (asArray items w.pos Z.rows.length) = U := by cases U <;> rfl
  have h := C146_ext_filter items Z (U.map .array) w hs
  rw [hU] at h
  exact IterEkf.smooth_is items Z U w (w.obj.asArrays items w.pos Z.rows.length) rfl (isArray_asArray hQ) h.1 _ h.2

theorem C147_ext_raises (items : Items F) (Z : NDArray F) (U : Option (Param F)) (w : Reading (IterEkf F)) (hn : 2 ≤ Z.rows.length) (h : ¬ w.obj.Q.IsArray ∨ ∃ V, U = some V ∧ ¬ V.IsArray) :
    ((IterEkf.smooth items (.array Z) U).run w).2 = ((IterEkf.filter items (.array Z) U).run w).2 ∧
    ∃ e, ((IterEkf.smooth items (.array Z) U).run w).1 = .error e ∧
      (((IterEkf.filter items (.array Z) U).run w).1 = .error e ∨
        (∃ o, ((IterEkf.filter items (.array Z) U).run w).1 = .ok o) ∧
          (e = .typeError ∨ e = .indexError ∧ ∃ a : NDArray F, w.obj.Q = .array a ∧ a.rows.length < Z.rows.length)) :=
  IterEkf.smooth_iterator items Z U w (w.obj.dealtArrays items w.pos Z U) _ rfl (IterEkf.filter_is_dealt items Z U w).1 _
    (IterEkf.filter_is_dealt items Z U w).2 hn h

/-! ## C157: one iterator object for several parameters -/

/-- C157: where one iterator may be used for several parameters, `filter` does what it does with the arrays of the items dealt
to them round by round (`dealt`). -/
theorem C157_filter (items : Items F) (Z : NDArray F) (U : Option (Param F)) (w : Reading (IterFilter F)) :
    ((IterFilter.filter items (.array Z) U).run w).1 =
        ((KalmanFilter.filter Z (U.map fun _ => dealtArray items w.pos (w.obj.zipped Z U) Z.rows.length 3)).run (w.obj.dealtArrays items w.pos Z U)).1 ∧
      ((IterFilter.filter items (.array Z) U).run w).2.obj = { w.obj with
        kalmanGains := ((KalmanFilter.filter Z (U.map fun _ => dealtArray items w.pos (w.obj.zipped Z U) Z.rows.length 3)).run
          (w.obj.dealtArrays items w.pos Z U)).2.kalmanGains } :=
  IterFilter.filter_is_dealt items Z U w

theorem C157_ext_filter (items : Items F) (Z : NDArray F) (U : Option (Param F)) (w : Reading (IterEkf F)) :
    ((IterEkf.filter items (.array Z) U).run w).1 =
        ((ExtendedKalmanFilter.filter Z (U.map fun _ => dealtArray items w.pos (w.obj.zipped Z U) Z.rows.length 0)).run (w.obj.dealtArrays items w.pos Z U)).1 ∧
      ((IterEkf.filter items (.array Z) U).run w).2.obj = { w.obj with
        kalmanGains := ((ExtendedKalmanFilter.filter Z (U.map fun _ => dealtArray items w.pos (w.obj.zipped Z U) Z.rows.length 0)).run
          (w.obj.dealtArrays items w.pos Z U)).2.kalmanGains } :=
  IterEkf.filter_is_dealt items Z U w

/-- C157, how far the iterators were read, if the call returned: `T` is the number of gains recorded. -/
theorem C157_read (items : Items F) (Z : NDArray F) (U : Option (Param F)) (w : Reading (IterFilter F))
    (o : List (Arr F) × List (Arr F)) (w' : Reading (IterFilter F)) (h : (IterFilter.filter items (.array Z) U).run w = (.ok o, w')) :
    ∃ T, w'.obj.kalmanGains.length = w.obj.kalmanGains.length + T ∧ DealtBy items (w.obj.zipped Z U) w.pos w'.pos T := by
  rcases Z with ⟨d, x⟩ | z
  · exact absurd (congrArg Prod.fst h) (by simp [IterFilter.filter, Py.run_bind, Param.len, NDArray.len])
  have hd := IterFilter.filter_dealt items z U w
  rcases hc : checkAll (w.obj.zipped (.stack z) U) with e | ⟨⟩
  · rw [hc] at hd; simp only at hd; rw [hd] at h; exact absurd (congrArg Prod.fst h) (by simp)
  rw [hc] at hd
  obtain ⟨pos', h1, h2, -⟩ := hd
  rw [h1] at h
  simp only [Prod.mk.injEq] at h
  obtain ⟨h3, rfl⟩ := h
  rcases he : (trace (KalmanFilter.step w.obj.stateSize w.obj.I) (unf (IterFilter.dealtRow items w.pos w.obj.A w.obj.H w.obj.B
      (U.getD (.array (NDArray.stack z).fullLikeNan)) (.array (.stack z)) w.obj.Q w.obj.R) z.length 0) w.obj.xk w.obj.Pk).err with _ | e
  swap
  · simp [Trace.result, he] at h3
  refine ⟨_, ?_, h2 he⟩
  simp only [IterFilter.addGains, List.length_append]
  rw [trace_gains_length _ (KalmanFilter.stepGain _ _) _ _ _ he]

theorem C157_ext_read (items : Items F) (Z : NDArray F) (U : Option (Param F)) (w : Reading (IterEkf F))
    (o : List (Arr F) × List (Arr F)) (w' : Reading (IterEkf F)) (h : (IterEkf.filter items (.array Z) U).run w = (.ok o, w')) :
    ∃ T, w'.obj.kalmanGains.length = w.obj.kalmanGains.length + T ∧ DealtBy items (w.obj.zipped Z U) w.pos w'.pos T := by
  rcases Z with ⟨d, x⟩ | z
  · exact absurd (congrArg Prod.fst h) (by simp [IterEkf.filter, Py.run_bind, Param.len, NDArray.len])
  have hd := IterEkf.filter_dealt items z U w
  rcases hc : checkAll (w.obj.zipped (.stack z) U) with e | ⟨⟩
  · rw [hc] at hd; simp only at hd; rw [hd] at h; exact absurd (congrArg Prod.fst h) (by simp)
  rw [hc] at hd
  obtain ⟨pos', h1, h2, -⟩ := hd
  rw [h1] at h
  simp only [Prod.mk.injEq] at h
  obtain ⟨h3, rfl⟩ := h
  rcases he : (trace (ExtendedKalmanFilter.step w.obj.plain) (unf (IterEkf.dealtRow items w.pos
      (U.getD (.array (NDArray.stack z).fullLikeNan)) (.array (.stack z)) w.obj.Q w.obj.R) z.length 0) w.obj.xk w.obj.Pk).err with _ | e
  swap
  · simp [Trace.result, he] at h3
  refine ⟨_, ?_, h2 he⟩
  simp only [IterEkf.addGains, List.length_append]
  rw [trace_gains_length _ (ExtendedKalmanFilter.stepGain _) _ _ _ he]

/-- C157, how far the iterators were read, if the call raised in row `k`: `k + 1` items for each use. -/
theorem C157_raised (items : Items F) (Z : NDArray F) (U : Option (Param F)) (w : Reading (IterFilter F)) (e : PyErr) (w' : Reading (IterFilter F))
    (h : (IterFilter.filter items (.array Z) U).run w = (.error e, w')) :
    (e = .typeError ∧ w' = w) ∨
    ∃ k, (∀ i, w'.pos i = w.pos i + (k + 1) * (idsOf (w.obj.zipped Z U)).count i) ∧
      (w'.obj.kalmanGains.length = w.obj.kalmanGains.length + k ∨ w'.obj.kalmanGains.length = w.obj.kalmanGains.length + (k + 1)) := by
  rcases Z with ⟨d, x⟩ | z
  · left
    simp only [IterFilter.filter, Py.run_bind, Param.len, NDArray.len, Py.run_self, Py.run_lift, Prod.mk.injEq, Except.error.injEq] at h
    exact ⟨h.1.symm, h.2.symm⟩
  have hd := IterFilter.filter_dealt items z U w
  rcases hc : checkAll (w.obj.zipped (.stack z) U) with e' | ⟨⟩
  · rw [hc] at hd; simp only at hd; rw [hd] at h
    simp only [Prod.mk.injEq, Except.error.injEq] at h
    exact .inl ⟨h.1 ▸ checkAll_typeError hc, h.2.symm⟩
  rw [hc] at hd
  obtain ⟨pos', h1, -, h2⟩ := hd
  rw [h1] at h
  simp only [Prod.mk.injEq] at h
  obtain ⟨h3, rfl⟩ := h
  rcases he : (trace (KalmanFilter.step w.obj.stateSize w.obj.I) (unf (IterFilter.dealtRow items w.pos w.obj.A w.obj.H w.obj.B
      (U.getD (.array (NDArray.stack z).fullLikeNan)) (.array (.stack z)) w.obj.Q w.obj.R) z.length 0) w.obj.xk w.obj.Pk).err with _ | e'
  · simp [Trace.result, he] at h3
  refine .inr ⟨_, h2 e' he, ?_⟩
  simp only [IterFilter.addGains, List.length_append]
  have := trace_raised_gains _ (KalmanFilter.stepGain w.obj.stateSize w.obj.I) _ w.obj.xk w.obj.Pk e' he
  omega

theorem C157_ext_raised (items : Items F) (Z : NDArray F) (U : Option (Param F)) (w : Reading (IterEkf F)) (e : PyErr) (w' : Reading (IterEkf F))
    (h : (IterEkf.filter items (.array Z) U).run w = (.error e, w')) :
    (e = .typeError ∧ w' = w) ∨
    ∃ k, (∀ i, w'.pos i = w.pos i + (k + 1) * (idsOf (w.obj.zipped Z U)).count i) ∧
      (w'.obj.kalmanGains.length = w.obj.kalmanGains.length + k ∨ w'.obj.kalmanGains.length = w.obj.kalmanGains.length + (k + 1)) := by
  rcases Z with ⟨d, x⟩ | z
  · left
    simp only [IterEkf.filter, Py.run_bind, Param.len, NDArray.len, Py.run_self, Py.run_lift, Prod.mk.injEq, Except.error.injEq] at h
    exact ⟨h.1.symm, h.2.symm⟩
  have hd := IterEkf.filter_dealt items z U w
  rcases hc : checkAll (w.obj.zipped (.stack z) U) with e' | ⟨⟩
  · rw [hc] at hd; simp only at hd; rw [hd] at h
    simp only [Prod.mk.injEq, Except.error.injEq] at h
    exact .inl ⟨h.1 ▸ checkAll_typeError hc, h.2.symm⟩
  rw [hc] at hd
  obtain ⟨pos', h1, -, h2⟩ := hd
  rw [h1] at h
  simp only [Prod.mk.injEq] at h
  obtain ⟨h3, rfl⟩ := h
  rcases he : (trace (ExtendedKalmanFilter.step w.obj.plain) (unf (IterEkf.dealtRow items w.pos
      (U.getD (.array (NDArray.stack z).fullLikeNan)) (.array (.stack z)) w.obj.Q w.obj.R) z.length 0) w.obj.xk w.obj.Pk).err with _ | e'
  · simp [Trace.result, he] at h3
  refine .inr ⟨_, h2 e' he, ?_⟩
  simp only [IterEkf.addGains, List.length_append]
  have := trace_raised_gains _ (ExtendedKalmanFilter.stepGain w.obj.plain) _ w.obj.xk w.obj.Pk e' he
  omega

/-- C157: `smooth`, with one iterator for `H` and `R`. -/
theorem C157_smooth (items : Items F) (Z : NDArray F) (U : Option (NDArray F)) (w : Reading (IterFilter F))
    (hA : w.obj.A.IsArray) (hQ : w.obj.Q.IsArray) (hB : w.obj.B.IsArray) :
    ((IterFilter.smooth items (.array Z) (U.map .array)).run w).1 =
        ((KalmanFilter.smooth Z U).run (w.obj.dealtArrays items w.pos Z (U.map .array))).1 ∧
      ((IterFilter.smooth items (.array Z) (U.map .array)).run w).2 = ((IterFilter.filter items (.array Z) (U.map .array)).run w).2 := by
  have hU : ((U.map Param.array).map fun _ => dealtArray items w.pos (w.obj.zipped Z (U.map .array)) Z.rows.length 3) = U := by cases U <;> rfl
  have h := C157_filter items Z (U.map .array) w
  rw [hU] at h
  exact IterFilter.smooth_is items Z U w (w.obj.dealtArrays items w.pos Z (U.map .array)) rfl (isArray_dealtArray hA rfl)
    (isArray_dealtArray hQ rfl) (isArray_dealtArray hB rfl) h.1 _ h.2

/-- C157: one generator for `Q` and `R` of an otherwise ordinary filter: `Q` gets its first, third, fifth, ... item, `R` the
second, fourth, .... -/
theorem C157_noise (items : Items F) (i : ℕ) (it : ℕ → Arr F) (hit : ∀ k, items i k = some (it k)) (Z : NDArray F) (U : Option (NDArray F))
    (A B H : NDArray F) (xk Pk I : Arr F) (s : ℕ) (g : List (Arr F)) (pos : ℕ → ℕ) :
    let o : IterFilter F := { A := .array A, xk := xk, B := .array B, Pk := Pk, H := .array H, Q := .iterator i, R := .iterator i,
                              stateSize := s, I := I, kalmanGains := g }
    let w : Reading (IterFilter F) := ⟨o, pos⟩
    ((IterFilter.filter items (.array Z) (U.map .array)).run w).1 = ((KalmanFilter.filter Z U).run
      { A := A, xk := xk, B := B, Pk := Pk, H := H,
        Q := .stack ((List.range Z.rows.length).map fun k => it (pos i + 2 * k)),
        R := .stack ((List.range Z.rows.length).map fun k => it (pos i + 2 * k + 1)), stateSize := s, I := I, kalmanGains := g }).1 := by
  intro o w
  have hU : ((U.map Param.array).map fun _ => dealtArray items w.pos (w.obj.zipped Z (U.map .array)) Z.rows.length 3) = U := by cases U <;> rfl
  have h := (C157_filter items Z (U.map .array) w).1
  rw [hU] at h
  rw [h]
  have hV : ∀ (V : Option (NDArray F)), idsOf [(V.map Param.array).getD (.array Z.fullLikeNan)] = [] := by intro V; cases V <;> rfl
  have hids : idsOf (w.obj.zipped Z (U.map .array)) = [i, i] := by cases U <;> rfl
  have h5 : idsOf ((w.obj.zipped Z (U.map .array)).take 5) = [] := by cases U <;> rfl
  have h6 : idsOf ((w.obj.zipped Z (U.map .array)).take 6) = [i] := by cases U <;> rfl
  have up : ∀ (items' : Items F) (j : ℕ) (f : ℕ → Arr F) (p n : ℕ), (∀ k, items' j (p + k) = some (f k)) →
      upcoming items' j p n = (List.range n).map f := by
    intro items' j f p n
    induction n generalizing p f with
    | zero => intro _; rfl
    | succ n ih =>
      intro hf
      have h0 := hf 0
      rw [Nat.add_zero] at h0
      simp only [upcoming, h0]
      rw [ih (fun k => f (k + 1)) (p + 1) (fun k => by rw [Nat.add_assoc, Nat.add_comm 1]; exact hf (k + 1)), List.range_succ_eq_map]
      simp
  have hq : dealtArray items w.pos (w.obj.zipped Z (U.map .array)) Z.rows.length 5 =
      .stack ((List.range Z.rows.length).map fun k => it (pos i + 2 * k)) := by
    refine congrArg NDArray.stack (up _ 5 _ 0 _ fun k => ?_)
    have : (w.obj.zipped Z (U.map .array))[5]? = some (.iterator i) := rfl
    simp only [dealt, this, hids, h5, hit, Nat.zero_add]
    simp [w, Nat.mul_comm]
  have hr : dealtArray items w.pos (w.obj.zipped Z (U.map .array)) Z.rows.length 6 =
      .stack ((List.range Z.rows.length).map fun k => it (pos i + 2 * k + 1)) := by
    refine congrArg NDArray.stack (up _ 6 _ 0 _ fun k => ?_)
    have : (w.obj.zipped Z (U.map .array))[6]? = some (.iterator i) := rfl
    simp only [dealt, this, hids, h6, hit, Nat.zero_add]
    simp [w, Nat.mul_comm]
  simp only [IterFilter.dealtArrays, hq, hr]
  rfl

/-! ## Examples -/

namespace Ex

/-- Five generators: a transition factor and a process noise that grow with the step, and constants. -/
def generators : Items QN
  | 0, k => some (mat1 (some (k + 1)))
  | 3, k => some (mat1 (some (k + 1)))
  | _, _ => some (mat1 (some 1))

/-- A scalar filter that takes all its parameters from these generators; some items have been read before. -/
def generated : Reading (IterFilter QN) where
  obj := { A := .iterator 0, xk := vec1 (some 0), B := .iterator 2, Pk := mat1 (some 1), H := .iterator 1, Q := .iterator 3, R := .iterator 4,
           stateSize := 1, I := Arr.identity 1, kalmanGains := [] }
  pos := fun i => 2 * i

/-- C146: the hypotheses of `C146_filter`, `C146_read` and `C146_second` are met; the iterators stand where the theorems say. -/
example : Separate (generated.obj.zipped zs none) ∧ (∀ i ∈ [0, 1, 2, 3, 4], ∀ k, (generators i k).isSome) ∧
    (∃ o w', (IterFilter.filter generators (.array zs) none).run generated = (.ok o, w')) ∧
    (let w' := ((IterFilter.filter generators (.array zs) none).run generated).2
     (w'.pos 0, w'.pos 1, w'.pos 2, w'.pos 3, w'.pos 4) = (0 + 4, 2 + 4, 4 + 4, 6 + 3, 8 + 3)) := by
  refine ⟨by simp [Separate, idsOf, IterFilter.zipped, generated, ids], ?_, (returned_iff _).1 (by decide +kernel), by decide +kernel⟩
  intro i _ k
  unfold generators
  split <;> rfl

/-- C146: a generator of `Q` that ends after two items: two rows are processed; of `A` and `H` one item too many was read, of `R` not. -/
example : let w : Reading (IterFilter QN) := { generated with pos := fun _ => 0 }
    let items : Items QN := fun i k => if i = 3 ∧ 2 ≤ k then none else generators i k
    (∃ o w', (IterFilter.filter items (.array zs) none).run w = (.ok o, w')) ∧
    (let w' := ((IterFilter.filter items (.array zs) none).run w).2
     (w'.pos 0, w'.pos 1, w'.pos 2, w'.pos 3, w'.pos 4) = (3, 3, 3, 2, 2)) :=
  ⟨(returned_iff _).1 (by decide +kernel), by decide +kernel⟩

/-- C146: singular in the first row: one item of each was read, no gain recorded. -/
example : let items : Items QN := fun i _ => if i = 1 ∨ i = 4 then some (mat1 (some 0)) else some (mat1 (some 1))
    (∃ w', (IterFilter.filter items (.array zs) none).run generated = (.error .linAlgError, w')) ∧
    ((IterFilter.filter items (.array zs) none).run generated).2.pos 3 = 6 + 1 :=
  ⟨(raised_iff _ _).1 (by decide +kernel), by decide +kernel⟩

/-- C146: `itertools.repeat`. -/
example : let items : Items QN := fun i _ => some (mat1 (some (i + 1)))
    generated.obj.A.Repeats items (mat1 (some 1)) ∧ generated.obj.H.Repeats items (mat1 (some 2)) ∧
    generated.obj.B.Repeats items (mat1 (some 3)) ∧ generated.obj.Q.Repeats items (mat1 (some 4)) ∧
    generated.obj.R.Repeats items (mat1 (some 5)) := by
  refine ⟨?_, ?_, ?_, ?_, ?_⟩ <;> intro k <;> norm_num

/-- C157: one generator for `Q` and `R`: six items are read for three observations; one that ends after five stops the filter
after two rows, with the fifth item lost. -/
example : let w : Reading (IterFilter QN) := ⟨{ generated.obj with Q := .iterator 3, R := .iterator 3 }, fun _ => 0⟩
    let items : Items QN := fun i k => if i = 3 ∧ 5 ≤ k then none else generators i k
    (∃ o w', (IterFilter.filter generators (.array zs) none).run w = (.ok o, w')) ∧
    ((IterFilter.filter generators (.array zs) none).run w).2.pos 3 = 6 ∧
    (∃ o w', (IterFilter.filter items (.array zs) none).run w = (.ok o, w')) ∧
    (let w' := ((IterFilter.filter items (.array zs) none).run w).2
     (w'.pos 3, w'.pos 0, w'.obj.kalmanGains.length) = (5, 3, 2)) :=
  ⟨(returned_iff _).1 (by decide +kernel), by decide +kernel, (returned_iff _).1 (by decide +kernel), by decide +kernel⟩

/-- C157: one generator for `H` and `R`, arrays for the rest: `smooth` returns.  One for everything, and a singular step: in the
first row five items are read. -/
example : let w : Reading (IterFilter QN) := ⟨{ generated.obj with
      A := .array (.stack (List.replicate 3 (mat1 (some 1)))), B := .array (.stack (List.replicate 3 (mat1 (some 1)))),
      Q := .array (.stack (List.replicate 3 (mat1 (some 1)))), H := .iterator 3, R := .iterator 3 }, fun _ => 0⟩
    let v : Reading (IterFilter QN) := ⟨{ generated.obj with A := .iterator 9, H := .iterator 9, B := .iterator 9, Q := .iterator 9, R := .iterator 9 }, fun _ => 0⟩
    let items : Items QN := fun _ _ => some (mat1 (some 0))
    w.obj.A.IsArray ∧ w.obj.Q.IsArray ∧ w.obj.B.IsArray ∧
    (∃ o w', (IterFilter.smooth generators (.array zs) none).run w = (.ok o, w')) ∧
    (∃ w', (IterFilter.filter items (.array zs) none).run v = (.error .linAlgError, w')) ∧
    ((IterFilter.filter items (.array zs) none).run v).2.pos 9 = 5 :=
  ⟨trivial, trivial, trivial, (returned_iff _).1 (by decide +kernel), (raised_iff _ _).1 (by decide +kernel), by decide +kernel⟩

/-- C146: a generator for `A` and no control. -/
example : ∃ o, IterFilter.new (.iterator 0) (vec1 (some 0)) none (mat1 (some 1)) (.iterator 1) (.iterator 3) (.iterator 4) none = .ok o :=
  ⟨_, rfl⟩

/-- C147: generators for `H` and `R` only: `smooth` returns.  With one for `A`: TypeError, while `filter` returns. -/
example : let w : Reading (IterFilter QN) := { generated with
      obj := { generated.obj with A := .array (.stack (List.replicate 3 (mat1 (some 1)))), B := .array (.stack (List.replicate 3 (mat1 (some 1)))),
                                  Q := .array (.stack (List.replicate 3 (mat1 (some 1)))) } }
    Separate (w.obj.zipped zs none) ∧ w.obj.A.IsArray ∧ w.obj.Q.IsArray ∧ w.obj.B.IsArray ∧
    (∃ o w', (IterFilter.smooth generators (.array zs) none).run w = (.ok o, w')) ∧
    2 ≤ zs.rows.length ∧ ¬ generated.obj.A.IsArray ∧
    (∃ w', (IterFilter.smooth generators (.array zs) none).run generated = (.error .typeError, w')) := by
  intro w
  exact ⟨by simp [w, Separate, idsOf, IterFilter.zipped, generated, ids], trivial, trivial, trivial, (returned_iff _).1 (by decide +kernel), by decide,
    id, (raised_iff _ _).1 (by decide +kernel)⟩

/-- The extended filter of `Ex.ecv` with generators for `Q` and `R`. -/
def generatedExt (Q : Param QN) : Reading (IterEkf QN) where
  obj := { f := (ecv 3).f, jacobianA := (ecv 3).jacobianA, xk := (ecv 3).xk, Pk := (ecv 3).Pk, h := (ecv 3).h, jacobianH := (ecv 3).jacobianH,
           Q := Q, R := .iterator 4, stateSize := 2, I := Arr.identity 2, kalmanGains := [] }
  pos := fun i => 2 * i

/-- C146 and C147 for the extended class: controls and noise from generators in `filter`, `R` from a generator in `smooth`. -/
example : let items : Items QN := fun i _ => if i = 3 then some (mat2 (some 1) (some 0) (some 0) (some 1)) else some (vec1 (some 1))
    Separate ((generatedExt (.iterator 3)).obj.zipped zs (some (.iterator 5))) ∧
    (∃ o w', (IterEkf.filter items (.array zs) (some (.iterator 5))).run (generatedExt (.iterator 3)) = (.ok o, w')) ∧
    (let w' := ((IterEkf.filter items (.array zs) (some (.iterator 5))).run (generatedExt (.iterator 3))).2
     (w'.pos 5, w'.pos 3, w'.pos 4) = (10 + 4, 6 + 3, 8 + 3)) ∧
    (∃ w', (IterEkf.smooth items (.array zs) (some (.array us))).run (generatedExt (.iterator 3)) = (.error .typeError, w')) ∧
    (∃ o w', (IterEkf.smooth items (.array zs) (some (.array us))).run (generatedExt (.array (ecv 3).Q)) = (.ok o, w')) :=
  ⟨by simp [Separate, idsOf, IterEkf.zipped, generatedExt, ids], (returned_iff _).1 (by decide +kernel), by decide +kernel,
    (raised_iff _ _).1 (by decide +kernel), (returned_iff _).1 (by decide +kernel)⟩

end Ex

end KK
