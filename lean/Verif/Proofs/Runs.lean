import Verif.Proofs.Back

/-! # Lemmas about whole runs -/

set_option linter.unusedSectionVars false
set_option linter.unusedSimpArgs false

namespace KK

variable {F : Type}

section tr
variable {ρ : Type} (step : ρ → Arr F → Arr F → StepOut F)

/-- Where and how a failing trace fails. -/
theorem trace_fail (rs : List ρ) (x P : Arr F) {e : PyErr} (h : (trace step rs x P).err = some e) :
    ∃ (k : ℕ) (r : ρ) (g : Option (Arr F)), k < rs.length ∧ rs[k]? = some r ∧
      (trace step (rs.take k) x P).err = none ∧
      (trace step (rs.take (k + 1)) x P).err = some e ∧
      (trace step (rs.take (k + 1)) x P).gains = (trace step rs x P).gains ∧
      step r (trace step (rs.take k) x P).last.1 (trace step (rs.take k) x P).last.2 = (g, .error e) ∧
      (trace step rs x P).gains = (trace step (rs.take k) x P).gains ++ g.toList := by
  induction rs generalizing x P with
  | nil => simp [trace] at h
  | cons r rs ih =>
    simp only [trace] at h
    rcases hs : step r x P with ⟨g, e' | ⟨xP, out⟩⟩
    · simp only [hs, Option.some.injEq] at h
      subst h
      refine ⟨0, r, g, by simp, by simp, by simp [trace], ?_, ?_, ?_, ?_⟩ <;> simp [trace, hs]
    · simp only [hs] at h
      obtain ⟨k, r', g', hk, hr, h1, h2, h3, h4, h5⟩ := ih _ _ h
      refine ⟨k + 1, r', g', by simpa using hk, by simpa using hr, ?_, ?_, ?_, ?_, ?_⟩
      · simp [trace, hs, h1]
      · simp [trace, hs, h2]
      · simp [trace, hs, h3]
      · simpa [trace, hs] using h4
      · simp [trace, hs, h5]

theorem trace_gains_take (hg : StepGain step) (j : ℕ) (rs : List ρ) (x P : Arr F)
    (h : (trace step rs x P).err = none) :
    (trace step (rs.take j) x P).gains = (trace step rs x P).gains.take j := by
  obtain ⟨h1, -, g, h3⟩ := trace_take step j rs x P h
  have hl := trace_gains_length step hg _ _ _ h1
  have hl' := trace_gains_length step hg _ _ _ h
  rw [List.length_take] at hl
  by_cases hj : j ≤ rs.length
  · rw [h3, List.take_append_of_le_length (by omega)]
    exact (List.take_of_length_le (by omega)).symm
  · rw [List.take_of_length_le (by omega), List.take_of_length_le (by omega)]

/-- If steps keep an invariant under which the written rows are the new state, the last written rows are
the final state. -/
theorem trace_last (inv : Arr F → Arr F → Prop) (rs : List ρ)
    (hs : ∀ r ∈ rs, ∀ x P g xP o, inv x P → step r x P = (g, .ok (xP, o)) → o = xP ∧ inv xP.1 xP.2)
    (x P : Arr F) (hi : inv x P) (h : (trace step rs x P).err = none) :
    inv (trace step rs x P).last.1 (trace step rs x P).last.2 ∧
    (rs ≠ [] → (trace step rs x P).outs.getLast? = some (trace step rs x P).last) := by
  induction rs generalizing x P with
  | nil => simp [trace, hi]
  | cons r rs ih =>
    simp only [trace] at h ⊢
    rcases hr : step r x P with ⟨g, e | ⟨xP, out⟩⟩
    · simp [hr] at h
    · simp only [hr] at h ⊢
      obtain ⟨rfl, hi'⟩ := hs r (by simp) x P g xP out hi hr
      have := ih (fun r' hr' => hs r' (by simp [hr'])) _ _ hi' h
      refine ⟨this.1, fun _ => ?_⟩
      by_cases hrs : rs = []
      · subst hrs; simp [trace]
      · have h2 := this.2 hrs
        rw [List.getLast?_cons, h2]; rfl

/-- Two runs over different rows/initial means whose covariance parts coincide. -/
theorem trace_cov {ρ' : Type} (step' : ρ' → Arr F → Arr F → StepOut F) (rel : ρ → ρ' → Prop)
    (hs : ∀ r r' x x' P g g' xP xP' o o', rel r r' → step r x P = (g, .ok (xP, o)) →
      step' r' x' P = (g', .ok (xP', o')) → g = g' ∧ xP.2 = xP'.2 ∧ o.2 = o'.2)
    (rs : List ρ) (rs' : List ρ') (hrel : List.Forall₂ rel rs rs') (x x' P : Arr F)
    (h : (trace step rs x P).err = none) (h' : (trace step' rs' x' P).err = none) :
    (trace step rs x P).gains = (trace step' rs' x' P).gains ∧
    (trace step rs x P).outs.map Prod.snd = (trace step' rs' x' P).outs.map Prod.snd := by
  induction hrel generalizing x x' P with
  | nil => simp [trace]
  | @cons r r' rs rs' hr hrs ih =>
    simp only [trace] at h h' ⊢
    rcases h1 : step r x P with ⟨g, e | ⟨⟨x1, P1⟩, out⟩⟩
    · simp [h1] at h
    rcases h2 : step' r' x' P with ⟨g', e | ⟨⟨x2, P2⟩, out'⟩⟩
    · simp [h2] at h'
    simp only [h1] at h ⊢
    simp only [h2] at h' ⊢
    obtain ⟨rfl, rfl, ho⟩ := hs _ _ _ _ _ _ _ _ _ _ _ hr h1 h2
    obtain ⟨i1, i2⟩ := ih x1 x2 _ h h'
    exact ⟨by rw [i1], by simp [ho, i2]⟩

end tr

variable [Backend F]

theorem effU_take (U : Option (NDArray F)) (Z : NDArray F) (j : ℕ) (hU : (effU U Z).Iterable) :
    (effU U (Z.take j)).Iterable := by
  cases U with
  | none => cases Z <;> simp_all [checkNoneAndBroadcast, NDArray.take, NDArray.fullLikeNan, NDArray.Iterable]
  | some u => exact hU

namespace KalmanFilter

/-- The zipped rows of a run. -/
def zrows (kf : KalmanFilter F) (Z : NDArray F) (U : Option (NDArray F)) : List (Row F) :=
  kf.A.rows.zip (kf.H.rows.zip (kf.B.rows.zip ((effU U Z).rows.zip (Z.rows.zip
    (kf.Q.rows.zip kf.R.rows)))))

theorem zrows_length (kf : KalmanFilter F) (Z : NDArray F) (U : Option (NDArray F)) :
    (kf.zrows Z U).length = kf.steps Z U := by
  simp [zrows, steps, List.length_zip]

theorem steps_le (kf : KalmanFilter F) (Z : NDArray F) (U : Option (NDArray F)) :
    kf.steps Z U ≤ Z.rows.length := by
  simp only [steps]; omega

theorem zipRows_iter {kf : KalmanFilter F} {Z : NDArray F} {U : Option (NDArray F)}
    (h : kf.AllIterable Z U) :
    zipRows kf.A kf.H kf.B (checkNoneAndBroadcast U Z) Z kf.Q kf.R = .ok (kf.zrows Z U) := by
  obtain ⟨a, ha⟩ := h.A.exists
  obtain ⟨b, hb⟩ := h.B.exists
  obtain ⟨hh, hhh⟩ := h.H.exists
  obtain ⟨u, hu⟩ := h.U.exists
  obtain ⟨z, hz⟩ := h.Z.exists
  obtain ⟨q, hq⟩ := h.Q.exists
  obtain ⟨r, hr⟩ := h.R.exists
  simp only [effU] at hu
  simp only [zrows, effU, ha, hb, hhh, hu, hz, hq, hr]
  subst hz
  simp only [hu]
  rfl

theorem allIterable_of_ok {kf : KalmanFilter F} {Z : NDArray F} {U : Option (NDArray F)} {rows}
    (h : zipRows kf.A kf.H kf.B (checkNoneAndBroadcast U Z) Z kf.Q kf.R = .ok rows) :
    kf.AllIterable Z U := by
  obtain ⟨h1, h2, h3, h4, h5, h6, h7⟩ := zipRows_ok h
  exact ⟨h1, h2, h3, h4, h5, h6, h7⟩

/-- The trace of a run. -/
abbrev tr (kf : KalmanFilter F) (Z : NDArray F) (U : Option (NDArray F)) : Trace F :=
  trace (step kf.stateSize kf.I) (kf.zrows Z U) kf.xk kf.Pk

/-- `filter` on iterable sequences. -/
theorem filter_iter {kf : KalmanFilter F} {Z : NDArray F} {U : Option (NDArray F)}
    (h : kf.AllIterable Z U) :
    (filter Z U).run kf =
      ((match (kf.tr Z U).err with
        | some e => .error e
        | none => .ok
          ((kf.tr Z U).outs.map Prod.fst ++
              List.replicate (Z.rows.length - kf.steps Z U) (Arr.zerosVec kf.stateSize),
            (kf.tr Z U).outs.map Prod.snd ++
              List.replicate (Z.rows.length - kf.steps Z U) (Arr.zerosMat kf.stateSize))),
        kf.addGains (kf.tr Z U).gains) := by
  obtain ⟨z, hz⟩ := h.Z.exists
  rw [filter_eq, zipRows_iter h]
  have hn : Z.len = .ok Z.rows.length := by rw [hz]; rfl
  simp only [hn, Trace.result]
  rcases he : (kf.tr Z U).err with _ | e
  · have hl := trace_length _ _ _ _ he
    rw [zrows_length] at hl
    have := kf.steps_le Z U
    simp only [he]
    rw [overwrite_zero_replicate _ _ _ (by simp [hl, this]),
      overwrite_zero_replicate _ _ _ (by simp [hl, this])]
    simp [hl]
  · simp only [he]

theorem ok_iter {kf kf' : KalmanFilter F} {Z : NDArray F} {U : Option (NDArray F)} {r}
    (h : (filter Z U).run kf = (.ok r, kf')) : kf.AllIterable Z U := by
  obtain ⟨xs, Ps⟩ := r
  obtain ⟨n, rows, hn, hz, -⟩ := filter_ok h
  exact allIterable_of_ok hz

theorem ok_err {kf kf' : KalmanFilter F} {Z : NDArray F} {U : Option (NDArray F)} {r}
    (h : (filter Z U).run kf = (.ok r, kf')) : (kf.tr Z U).err = none := by
  have hi := ok_iter h
  rw [filter_iter hi] at h
  rcases he : (kf.tr Z U).err with _ | e
  · rfl
  · simp [he] at h

theorem AllIterable.takeZ {kf : KalmanFilter F} {Z : NDArray F} {U : Option (NDArray F)}
    (h : kf.AllIterable Z U) (j : ℕ) : kf.AllIterable (Z.take j) U := by
  obtain ⟨h1, h2, h3, h4, h5, h6, h7⟩ := h
  refine ⟨h1, h2, h3, effU_take U Z j h4, ?_, h6, h7⟩
  cases Z <;> simp_all [NDArray.take, NDArray.Iterable]

@[simp] theorem take_rows (a : NDArray F) (j : ℕ) : (a.take j).rows = a.rows.take j := by
  cases a <;> simp [NDArray.take, NDArray.rows]
@[simp] theorem drop_rows (a : NDArray F) (j : ℕ) : (a.drop j).rows = a.rows.drop j := by
  cases a <;> simp [NDArray.drop, NDArray.rows]

theorem effU_rows_none (Z : NDArray F) : (effU none Z).rows = Z.rows.map Arr.fullLikeNan := by
  cases Z <;> simp [checkNoneAndBroadcast, NDArray.fullLikeNan, NDArray.rows]

/-- Cutting `Z` cuts the zipped rows. -/
theorem zrows_takeZ (kf : KalmanFilter F) (Z : NDArray F) (U : Option (NDArray F)) (j : ℕ) :
    kf.zrows (Z.take j) U = (kf.zrows Z U).take j := by
  have key : (effU U (Z.take j)).rows.zip ((Z.rows.take j).zip (kf.Q.rows.zip kf.R.rows)) =
      ((effU U Z).rows.zip (Z.rows.zip (kf.Q.rows.zip kf.R.rows))).take j := by
    cases U with
    | none =>
      simp only [effU_rows_none, take_rows, List.map_take, zip_take_left, zip_take_right, List.take_take, min_self]
    | some u =>
      simp only [effU_some, zip_take_left, zip_take_right]
  simp only [zrows, take_rows, key, zip_take_right]

end KalmanFilter

namespace ExtendedKalmanFilter
open KalmanFilter (take_rows drop_rows effU_rows_none)

/-- The zipped rows of a run. -/
def zrows (kf : ExtendedKalmanFilter F) (Z : NDArray F) (U : Option (NDArray F)) : List (Row F) :=
  (effU U Z).rows.zip (Z.rows.zip (kf.Q.rows.zip kf.R.rows))

theorem zrows_length (kf : ExtendedKalmanFilter F) (Z : NDArray F) (U : Option (NDArray F)) :
    (kf.zrows Z U).length = kf.steps Z U := by
  simp [zrows, steps, List.length_zip]

theorem steps_le (kf : ExtendedKalmanFilter F) (Z : NDArray F) (U : Option (NDArray F)) :
    kf.steps Z U ≤ Z.rows.length := by
  simp only [steps]; omega

theorem zipRows_iter {kf : ExtendedKalmanFilter F} {Z : NDArray F} {U : Option (NDArray F)}
    (h : kf.AllIterable Z U) :
    zipRows (checkNoneAndBroadcast U Z) Z kf.Q kf.R = .ok (kf.zrows Z U) := by
  obtain ⟨u, hu⟩ := h.U.exists
  obtain ⟨z, hz⟩ := h.Z.exists
  obtain ⟨q, hq⟩ := h.Q.exists
  obtain ⟨r, hr⟩ := h.R.exists
  simp only [effU] at hu
  simp only [zrows, effU, hu, hz, hq, hr]
  subst hz
  simp only [hu]
  rfl

theorem allIterable_of_ok {kf : ExtendedKalmanFilter F} {Z : NDArray F} {U : Option (NDArray F)} {rows}
    (h : zipRows (checkNoneAndBroadcast U Z) Z kf.Q kf.R = .ok rows) :
    kf.AllIterable Z U := by
  obtain ⟨h4, h5, h6, h7⟩ := zipRows_ok h
  exact ⟨h4, h5, h6, h7⟩

/-- The trace of a run. -/
abbrev tr (kf : ExtendedKalmanFilter F) (Z : NDArray F) (U : Option (NDArray F)) : Trace F :=
  trace (step kf) (kf.zrows Z U) kf.xk kf.Pk

/-- `filter` on iterable sequences. -/
theorem filter_iter {kf : ExtendedKalmanFilter F} {Z : NDArray F} {U : Option (NDArray F)}
    (h : kf.AllIterable Z U) :
    (filter Z U).run kf =
      ((match (kf.tr Z U).err with
        | some e => .error e
        | none => .ok
          ((kf.tr Z U).outs.map Prod.fst ++
              List.replicate (Z.rows.length - kf.steps Z U) (Arr.zerosVec kf.stateSize),
            (kf.tr Z U).outs.map Prod.snd ++
              List.replicate (Z.rows.length - kf.steps Z U) (Arr.zerosMat kf.stateSize))),
        kf.addGains (kf.tr Z U).gains) := by
  obtain ⟨z, hz⟩ := h.Z.exists
  rw [filter_eq, zipRows_iter h]
  have hn : Z.len = .ok Z.rows.length := by rw [hz]; rfl
  simp only [hn, Trace.result]
  rcases he : (kf.tr Z U).err with _ | e
  · have hl := trace_length _ _ _ _ he
    rw [zrows_length] at hl
    have := kf.steps_le Z U
    simp only [he]
    rw [overwrite_zero_replicate _ _ _ (by simp [hl, this]),
      overwrite_zero_replicate _ _ _ (by simp [hl, this])]
    simp [hl]
  · simp only [he]

theorem ok_iter {kf kf' : ExtendedKalmanFilter F} {Z : NDArray F} {U : Option (NDArray F)} {r}
    (h : (filter Z U).run kf = (.ok r, kf')) : kf.AllIterable Z U := by
  obtain ⟨xs, Ps⟩ := r
  obtain ⟨n, rows, hn, hz, -⟩ := filter_ok h
  exact allIterable_of_ok hz

theorem ok_err {kf kf' : ExtendedKalmanFilter F} {Z : NDArray F} {U : Option (NDArray F)} {r}
    (h : (filter Z U).run kf = (.ok r, kf')) : (kf.tr Z U).err = none := by
  have hi := ok_iter h
  rw [filter_iter hi] at h
  rcases he : (kf.tr Z U).err with _ | e
  · rfl
  · simp [he] at h

theorem AllIterable.takeZ {kf : ExtendedKalmanFilter F} {Z : NDArray F} {U : Option (NDArray F)}
    (h : kf.AllIterable Z U) (j : ℕ) : kf.AllIterable (Z.take j) U := by
  obtain ⟨h4, h5, h6, h7⟩ := h
  refine ⟨effU_take U Z j h4, ?_, h6, h7⟩
  cases Z <;> simp_all [NDArray.take, NDArray.Iterable]

theorem zrows_takeZ (kf : ExtendedKalmanFilter F) (Z : NDArray F) (U : Option (NDArray F)) (j : ℕ) :
    kf.zrows (Z.take j) U = (kf.zrows Z U).take j := by
  cases U with
  | none =>
    simp only [zrows, effU_rows_none, take_rows, List.map_take, zip_take_left, zip_take_right, List.take_take, min_self]
  | some u =>
    simp only [zrows, effU_some, take_rows, zip_take_left, zip_take_right]

end ExtendedKalmanFilter

end KK
