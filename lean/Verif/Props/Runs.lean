import Verif.Proofs.Layout
import Verif.Props.Interface
import Verif.Test.Pushed

/-!
# Run properties that hold whatever the arithmetic is (C02-C08)
-/

set_option linter.unusedSectionVars false
set_option linter.unusedSimpArgs false

namespace KK

variable {F : Type} [Backend F]

/-! ## Lemmas -/

theorem effU_rows_take (U : Option (NDArray F)) (Z : NDArray F) (j : ℕ) :
    (effU (U.map (NDArray.take j)) (Z.take j)).rows = (effU U Z).rows.take j := by
  cases U with
  | none => simp only [Option.map_none, KalmanFilter.effU_rows_none, KalmanFilter.take_rows,
      List.map_take]
  | some u => simp

theorem effU_rows_drop (U : Option (NDArray F)) (Z : NDArray F) (j : ℕ) :
    (effU (U.map (NDArray.drop j)) (Z.drop j)).rows = (effU U Z).rows.drop j := by
  cases U with
  | none => simp only [Option.map_none, KalmanFilter.effU_rows_none, KalmanFilter.drop_rows,
      List.map_drop]
  | some u => simp

theorem iterable_take {a : NDArray F} (j : ℕ) (h : a.Iterable) : (a.take j).Iterable := by
  cases a <;> simp_all [NDArray.take, NDArray.Iterable]

theorem iterable_drop {a : NDArray F} (j : ℕ) (h : a.Iterable) : (a.drop j).Iterable := by
  cases a <;> simp_all [NDArray.drop, NDArray.Iterable]

theorem effU_iterable_take {U : Option (NDArray F)} {Z : NDArray F} (j : ℕ) (h : (effU U Z).Iterable) :
    (effU (U.map (NDArray.take j)) (Z.take j)).Iterable := by
  cases U with
  | none => exact effU_take none Z j h
  | some u => exact iterable_take j h

theorem effU_iterable_drop {U : Option (NDArray F)} {Z : NDArray F} (j : ℕ) (h : (effU U Z).Iterable) :
    (effU (U.map (NDArray.drop j)) (Z.drop j)).Iterable := by
  cases U with
  | none => cases Z <;> simp_all [checkNoneAndBroadcast, NDArray.drop, NDArray.fullLikeNan, NDArray.Iterable]
  | some u => exact iterable_drop j h

theorem zip_drop {α β : Type} (j : ℕ) (a : List α) (b : List β) :
    (a.zip b).drop j = (a.drop j).zip (b.drop j) := by
  simp [List.zip, List.drop_zipWith]

theorem KalmanFilter.zrows_takeAll (kf : KalmanFilter F) (Z : NDArray F) (U : Option (NDArray F))
    (j : ℕ) : (kf.takeParams j).zrows (Z.take j) (U.map (NDArray.take j)) = (kf.zrows Z U).take j := by
  simp only [zrows, takeParams, take_rows, effU_rows_take, zip_take]

theorem KalmanFilter.zrows_dropAll (kf : KalmanFilter F) (Z : NDArray F) (U : Option (NDArray F))
    (j : ℕ) : (kf.dropParams j).zrows (Z.drop j) (U.map (NDArray.drop j)) = (kf.zrows Z U).drop j := by
  simp only [zrows, dropParams, drop_rows, effU_rows_drop, zip_drop]

theorem ExtendedKalmanFilter.zrows_takeAll (kf : ExtendedKalmanFilter F) (Z : NDArray F)
    (U : Option (NDArray F)) (j : ℕ) :
    (kf.takeParams j).zrows (Z.take j) (U.map (NDArray.take j)) = (kf.zrows Z U).take j := by
  simp only [zrows, takeParams, KalmanFilter.take_rows, effU_rows_take, zip_take]

theorem ExtendedKalmanFilter.zrows_dropAll (kf : ExtendedKalmanFilter F) (Z : NDArray F)
    (U : Option (NDArray F)) (j : ℕ) :
    (kf.dropParams j).zrows (Z.drop j) (U.map (NDArray.drop j)) = (kf.zrows Z U).drop j := by
  simp only [zrows, dropParams, KalmanFilter.drop_rows, effU_rows_drop, zip_drop]

theorem KalmanFilter.AllIterable.takeAll {kf : KalmanFilter F} {Z : NDArray F} {U : Option (NDArray F)}
    (h : kf.AllIterable Z U) (j : ℕ) :
    (kf.takeParams j).AllIterable (Z.take j) (U.map (NDArray.take j)) :=
  ⟨iterable_take j h.A, iterable_take j h.H, iterable_take j h.B, effU_iterable_take j h.U,
    iterable_take j h.Z, iterable_take j h.Q, iterable_take j h.R⟩

theorem KalmanFilter.AllIterable.dropAll {kf : KalmanFilter F} {Z : NDArray F} {U : Option (NDArray F)}
    (h : kf.AllIterable Z U) (j : ℕ) :
    (kf.dropParams j).AllIterable (Z.drop j) (U.map (NDArray.drop j)) :=
  ⟨iterable_drop j h.A, iterable_drop j h.H, iterable_drop j h.B, effU_iterable_drop j h.U,
    iterable_drop j h.Z, iterable_drop j h.Q, iterable_drop j h.R⟩

theorem ExtendedKalmanFilter.AllIterable.takeAll {kf : ExtendedKalmanFilter F} {Z : NDArray F}
    {U : Option (NDArray F)} (h : kf.AllIterable Z U) (j : ℕ) :
    (kf.takeParams j).AllIterable (Z.take j) (U.map (NDArray.take j)) :=
  ⟨effU_iterable_take j h.U, iterable_take j h.Z, iterable_take j h.Q, iterable_take j h.R⟩

theorem ExtendedKalmanFilter.AllIterable.dropAll {kf : ExtendedKalmanFilter F} {Z : NDArray F}
    {U : Option (NDArray F)} (h : kf.AllIterable Z U) (j : ℕ) :
    (kf.dropParams j).AllIterable (Z.drop j) (U.map (NDArray.drop j)) :=
  ⟨effU_iterable_drop j h.U, iterable_drop j h.Z, iterable_drop j h.Q, iterable_drop j h.R⟩

theorem take_pad {α : Type} (l : List α) (a : α) (n s j : ℕ) (hl : l.length = s) (hs : s ≤ n) :
    (l ++ List.replicate (n - s) a).take j = l.take j ++ List.replicate (min j n - min j s) a := by
  rw [List.take_append, List.take_replicate]
  congr 2
  omega

/-! ## C02 -/

/-- C02: for sequences of any lengths, the run behaves exactly like the run in which every sequence is
cut to the common length `T` (same exception, if any, and same gains); when it returns, the rows are those
of the cut run followed by zero rows, and exactly `T` gains were added. -/
theorem C02_truncation (kf : KalmanFilter F) (Z : NDArray F) (U : Option (NDArray F))
    (h : kf.AllIterable Z U) :
    match (KalmanFilter.filter Z U).run kf,
      (KalmanFilter.filter (Z.take (kf.steps Z U)) (U.map (NDArray.take (kf.steps Z U)))).run
        (kf.takeParams (kf.steps Z U)) with
    | (.error e, k1), (.error e', k2) => e = e' ∧ k1.kalmanGains = k2.kalmanGains
    | (.ok (xs, Ps), k1), (.ok (xs', Ps'), k2) =>
        xs = xs' ++ List.replicate (Z.rows.length - kf.steps Z U)
          (.vec .float64 fun _ : Fin kf.stateSize => Backend.zero) ∧
        Ps = Ps' ++ List.replicate (Z.rows.length - kf.steps Z U)
          (.mat .float64 fun _ _ : Fin kf.stateSize => Backend.zero) ∧
        xs'.length = kf.steps Z U ∧ Ps'.length = kf.steps Z U ∧
        k1.kalmanGains = k2.kalmanGains ∧
        k1.kalmanGains.length = kf.kalmanGains.length + kf.steps Z U
    | _, _ => False := by
  generalize hT : kf.steps Z U = T
  have hl := kf.zrows_length Z U
  have hz : (kf.takeParams T).zrows (Z.take T) (U.map (NDArray.take T)) = kf.zrows Z U := by
    rw [KalmanFilter.zrows_takeAll, ← hT, ← hl, List.take_length]
  have hst : (kf.takeParams T).steps (Z.take T) (U.map (NDArray.take T)) = T := by
    rw [← KalmanFilter.zrows_length, hz, hl, hT]
  have htr : (kf.takeParams T).tr (Z.take T) (U.map (NDArray.take T)) = kf.tr Z U := by
    simp only [KalmanFilter.tr, hz]; rfl
  have hle := kf.steps_le Z U
  rw [KalmanFilter.filter_iter h, KalmanFilter.filter_iter (h.takeAll T), htr, hst, hT]
  have hlen : (Z.take T).rows.length - T = 0 := by simp
  rcases he : (kf.tr Z U).err with _ | e
  · have h1 := trace_length _ _ _ _ he
    have h2 := trace_gains_length _ (KalmanFilter.stepGain _ _) _ _ _ he
    rw [hl] at h1 h2
    simp only [hlen, List.replicate_zero, List.append_nil]
    refine ⟨rfl, rfl, by simp [h1, hT], by simp [h1, hT], rfl, ?_⟩
    simp [KalmanFilter.addGains, h2, hT]
  · exact ⟨rfl, rfl⟩

/-- C02 for the extended filter. -/
theorem C02_ekf_truncation (kf : ExtendedKalmanFilter F) (Z : NDArray F) (U : Option (NDArray F))
    (h : kf.AllIterable Z U) :
    match (ExtendedKalmanFilter.filter Z U).run kf,
      (ExtendedKalmanFilter.filter (Z.take (kf.steps Z U)) (U.map (NDArray.take (kf.steps Z U)))).run
        (kf.takeParams (kf.steps Z U)) with
    | (.error e, k1), (.error e', k2) => e = e' ∧ k1.kalmanGains = k2.kalmanGains
    | (.ok (xs, Ps), k1), (.ok (xs', Ps'), k2) =>
        xs = xs' ++ List.replicate (Z.rows.length - kf.steps Z U)
          (.vec .float64 fun _ : Fin kf.stateSize => Backend.zero) ∧
        Ps = Ps' ++ List.replicate (Z.rows.length - kf.steps Z U)
          (.mat .float64 fun _ _ : Fin kf.stateSize => Backend.zero) ∧
        xs'.length = kf.steps Z U ∧ Ps'.length = kf.steps Z U ∧
        k1.kalmanGains = k2.kalmanGains ∧
        k1.kalmanGains.length = kf.kalmanGains.length + kf.steps Z U
    | _, _ => False := by
  generalize hT : kf.steps Z U = T
  have hl := kf.zrows_length Z U
  have hz : (kf.takeParams T).zrows (Z.take T) (U.map (NDArray.take T)) = kf.zrows Z U := by
    rw [ExtendedKalmanFilter.zrows_takeAll, ← hT, ← hl, List.take_length]
  have hst : (kf.takeParams T).steps (Z.take T) (U.map (NDArray.take T)) = T := by
    rw [← ExtendedKalmanFilter.zrows_length, hz, hl, hT]
  have htr : (kf.takeParams T).tr (Z.take T) (U.map (NDArray.take T)) = kf.tr Z U := by
    simp only [ExtendedKalmanFilter.tr, hz]; rfl
  have hle := kf.steps_le Z U
  rw [ExtendedKalmanFilter.filter_iter h, ExtendedKalmanFilter.filter_iter (h.takeAll T), htr, hst, hT]
  have hlen : (Z.take T).rows.length - T = 0 := by simp
  rcases he : (kf.tr Z U).err with _ | e
  · have h1 := trace_length _ _ _ _ he
    have h2 := trace_gains_length _ (ExtendedKalmanFilter.stepGain _) _ _ _ he
    rw [hl] at h1 h2
    simp only [hlen, List.replicate_zero, List.append_nil]
    refine ⟨rfl, rfl, by simp [h1, hT], by simp [h1, hT], rfl, ?_⟩
    simp [ExtendedKalmanFilter.addGains, h2, hT]
  · exact ⟨rfl, rfl⟩

/-- Two steps of parameters, three observations: only two rows are computed. -/
example : (Ex.cv 2).AllIterable Ex.zs (some Ex.us) ∧ (Ex.cv 2).steps Ex.zs (some Ex.us) = 2 ∧
    Ex.zs.rows.length = 3 ∧
    ∃ r kf', (KalmanFilter.filter Ex.zs (some Ex.us)).run (Ex.cv 2) = (.ok r, kf') :=
  ⟨⟨trivial, trivial, trivial, trivial, trivial, trivial, trivial⟩, rfl, rfl,
    (Ex.returned_iff _).1 (by decide +kernel)⟩

/-! ## C03 -/

/-- C03: filtering the first `j` observations returns the first `j` rows of the full run. -/
theorem C03_prefix (kf kf1 : KalmanFilter F) (Z : NDArray F) (U : Option (NDArray F)) (j : ℕ)
    (xs Ps : List (Arr F)) (h : (KalmanFilter.filter Z U).run kf = (.ok (xs, Ps), kf1)) :
    ∃ kf2, (KalmanFilter.filter (Z.take j) U).run kf = (.ok (xs.take j, Ps.take j), kf2) ∧
      kf2.kalmanGains <+: kf1.kalmanGains := by
  have hi := KalmanFilter.ok_iter h
  have he := KalmanFilter.ok_err h
  have hi' := hi.takeZ j
  rw [KalmanFilter.filter_iter hi] at h
  rw [KalmanFilter.filter_iter hi']
  simp only [KalmanFilter.tr, he, Prod.mk.injEq, Except.ok.injEq] at h
  obtain ⟨⟨rfl, rfl⟩, rfl⟩ := h
  obtain ⟨h1, h2, g, h3⟩ := trace_take _ j _ _ _ he
  have hl := trace_length _ _ _ _ he
  have hz := kf.zrows_takeZ Z U j
  have hst : kf.steps (Z.take j) U = min j (kf.steps Z U) := by
    rw [← KalmanFilter.zrows_length, hz, List.length_take, KalmanFilter.zrows_length]
  rw [KalmanFilter.zrows_length] at hl
  simp only [KalmanFilter.tr, hz, h1, hst]
  have hle := kf.steps_le Z U
  refine ⟨kf.addGains _, Prod.ext ?_ rfl, ?_⟩
  · dsimp only
    rw [take_pad _ _ _ _ _ (by simpa using hl) hle, take_pad _ _ _ _ _ (by simpa using hl) hle, h2,
      KalmanFilter.take_rows, List.length_take, List.map_take, List.map_take]
  · rw [h3]; simp [KalmanFilter.addGains]

/-- C03 for the extended filter. -/
theorem C03_ekf_prefix (kf kf1 : ExtendedKalmanFilter F) (Z : NDArray F) (U : Option (NDArray F)) (j : ℕ)
    (xs Ps : List (Arr F)) (h : (ExtendedKalmanFilter.filter Z U).run kf = (.ok (xs, Ps), kf1)) :
    ∃ kf2, (ExtendedKalmanFilter.filter (Z.take j) U).run kf = (.ok (xs.take j, Ps.take j), kf2) ∧
      kf2.kalmanGains <+: kf1.kalmanGains := by
  have hi := ExtendedKalmanFilter.ok_iter h
  have he := ExtendedKalmanFilter.ok_err h
  have hi' := hi.takeZ j
  rw [ExtendedKalmanFilter.filter_iter hi] at h
  rw [ExtendedKalmanFilter.filter_iter hi']
  simp only [ExtendedKalmanFilter.tr, he, Prod.mk.injEq, Except.ok.injEq] at h
  obtain ⟨⟨rfl, rfl⟩, rfl⟩ := h
  obtain ⟨h1, h2, g, h3⟩ := trace_take _ j _ _ _ he
  have hl := trace_length _ _ _ _ he
  have hz := kf.zrows_takeZ Z U j
  have hst : kf.steps (Z.take j) U = min j (kf.steps Z U) := by
    rw [← ExtendedKalmanFilter.zrows_length, hz, List.length_take, ExtendedKalmanFilter.zrows_length]
  rw [ExtendedKalmanFilter.zrows_length] at hl
  simp only [ExtendedKalmanFilter.tr, hz, h1, hst]
  have hle := kf.steps_le Z U
  refine ⟨kf.addGains _, Prod.ext ?_ rfl, ?_⟩
  · dsimp only
    rw [take_pad _ _ _ _ _ (by simpa using hl) hle, take_pad _ _ _ _ _ (by simpa using hl) hle, h2,
      KalmanFilter.take_rows, List.length_take, List.map_take, List.map_take]
  · rw [h3]; simp [ExtendedKalmanFilter.addGains]

/-- C03: two filters with the same initial state, whose parameters and data agree on the first `j` rows
(and may differ arbitrarily afterwards), return the same first `j` rows and record the same first gains. -/
theorem C03_causal (kf kf' kf1 kf1' : KalmanFilter F) (Z Z' : NDArray F) (U U' : Option (NDArray F))
    (j : ℕ) (xs Ps xs' Ps' : List (Arr F))
    (hx : kf.xk = kf'.xk) (hP : kf.Pk = kf'.Pk) (hs : kf.stateSize = kf'.stateSize) (hI : kf.I = kf'.I)
    (hA : kf.A.AgreeTo j kf'.A) (hB : kf.B.AgreeTo j kf'.B) (hH : kf.H.AgreeTo j kf'.H)
    (hQ : kf.Q.AgreeTo j kf'.Q) (hR : kf.R.AgreeTo j kf'.R) (hZ : Z.AgreeTo j Z')
    (hU : AgreeToOpt j U U')
    (h : (KalmanFilter.filter Z U).run kf = (.ok (xs, Ps), kf1))
    (h' : (KalmanFilter.filter Z' U').run kf' = (.ok (xs', Ps'), kf1')) :
    xs.take j = xs'.take j ∧ Ps.take j = Ps'.take j ∧
    (kf1.kalmanGains.drop kf.kalmanGains.length).take j =
      (kf1'.kalmanGains.drop kf'.kalmanGains.length).take j := by
  have hz : (kf.zrows Z U).take j = (kf'.zrows Z' U').take j := by
    have hU' : (effU U Z).rows.take j = (effU U' Z').rows.take j := by
      cases U <;> cases U' <;>
        simp_all [AgreeToOpt, NDArray.AgreeTo, KalmanFilter.effU_rows_none, ← List.map_take]
    simp only [NDArray.AgreeTo] at *
    simp only [KalmanFilter.zrows, zip_take, hA, hB, hH, hQ, hR, hZ, hU']
  have he := KalmanFilter.ok_err h
  have he' := KalmanFilter.ok_err h'
  rw [KalmanFilter.filter_iter (KalmanFilter.ok_iter h)] at h
  rw [KalmanFilter.filter_iter (KalmanFilter.ok_iter h')] at h'
  simp only [KalmanFilter.tr, he, Prod.mk.injEq, Except.ok.injEq] at h
  simp only [KalmanFilter.tr, he', Prod.mk.injEq, Except.ok.injEq] at h'
  obtain ⟨⟨rfl, rfl⟩, rfl⟩ := h
  obtain ⟨⟨rfl, rfl⟩, rfl⟩ := h'
  have h2 := (trace_take _ j _ _ _ he).2.1
  have h2' := (trace_take _ j _ _ _ he').2.1
  have hl := trace_length _ _ _ _ he
  have hl' := trace_length _ _ _ _ he'
  have hout : (kf.tr Z U).outs.take j = (kf'.tr Z' U').outs.take j := by
    simp only [KalmanFilter.tr]
    rw [← h2, ← h2', hz, hx, hP, hs, hI]
  have hn : min j Z.rows.length = min j Z'.rows.length := by
    have := congrArg List.length hZ
    simpa using this
  have hm : min j (kf.steps Z U) = min j (kf'.steps Z' U') := by
    have := congrArg List.length hz
    simpa [KalmanFilter.zrows_length] using this
  rw [KalmanFilter.zrows_length] at hl hl'
  simp only [KalmanFilter.tr] at hout
  refine ⟨?_, ?_, ?_⟩
  · rw [take_pad _ _ _ _ _ (by simpa using hl) (kf.steps_le Z U),
      take_pad _ _ _ _ _ (by simpa using hl') (kf'.steps_le Z' U'), ← List.map_take, ← List.map_take,
      hout, hn, hm, hs]
  · rw [take_pad _ _ _ _ _ (by simpa using hl) (kf.steps_le Z U),
      take_pad _ _ _ _ _ (by simpa using hl') (kf'.steps_le Z' U'), ← List.map_take, ← List.map_take,
      hout, hn, hm, hs]
  · have g1 := trace_gains_take _ (KalmanFilter.stepGain _ _) j _ _ _ he
    have g2 := trace_gains_take _ (KalmanFilter.stepGain _ _) j _ _ _ he'
    simp only [KalmanFilter.addGains, List.drop_left]
    rw [← g1, ← g2, hz, hx, hP, hs, hI]

/-- C03: two filters with the same initial state, whose parameters and data agree on the first `j` rows
(and may differ arbitrarily afterwards), return the same first `j` rows and record the same first gains. -/
theorem C03_ekf_causal (kf kf' kf1 kf1' : ExtendedKalmanFilter F) (Z Z' : NDArray F) (U U' : Option (NDArray F))
    (j : ℕ) (xs Ps xs' Ps' : List (Arr F))
    (hx : kf.xk = kf'.xk) (hP : kf.Pk = kf'.Pk) (hs : kf.stateSize = kf'.stateSize) (hI : kf.I = kf'.I)
    (hf : kf.f = kf'.f) (hjA : kf.jacobianA = kf'.jacobianA) (hh : kf.h = kf'.h)
    (hjH : kf.jacobianH = kf'.jacobianH)
    (hQ : kf.Q.AgreeTo j kf'.Q) (hR : kf.R.AgreeTo j kf'.R) (hZ : Z.AgreeTo j Z')
    (hU : AgreeToOpt j U U')
    (h : (ExtendedKalmanFilter.filter Z U).run kf = (.ok (xs, Ps), kf1))
    (h' : (ExtendedKalmanFilter.filter Z' U').run kf' = (.ok (xs', Ps'), kf1')) :
    xs.take j = xs'.take j ∧ Ps.take j = Ps'.take j ∧
    (kf1.kalmanGains.drop kf.kalmanGains.length).take j =
      (kf1'.kalmanGains.drop kf'.kalmanGains.length).take j := by
  have hz : (kf.zrows Z U).take j = (kf'.zrows Z' U').take j := by
    have hU' : (effU U Z).rows.take j = (effU U' Z').rows.take j := by
      cases U <;> cases U' <;>
        simp_all [AgreeToOpt, NDArray.AgreeTo, KalmanFilter.effU_rows_none, ← List.map_take]
    simp only [NDArray.AgreeTo] at *
    simp only [ExtendedKalmanFilter.zrows, zip_take, hQ, hR, hZ, hU']
  have hstep : kf.step = kf'.step := by
    funext r x P
    simp only [ExtendedKalmanFilter.step, ExtendedKalmanFilter.predict, ExtendedKalmanFilter.correct,
      hf, hjA, hh, hjH, hs, hI]
  have he := ExtendedKalmanFilter.ok_err h
  have he' := ExtendedKalmanFilter.ok_err h'
  rw [ExtendedKalmanFilter.filter_iter (ExtendedKalmanFilter.ok_iter h)] at h
  rw [ExtendedKalmanFilter.filter_iter (ExtendedKalmanFilter.ok_iter h')] at h'
  simp only [ExtendedKalmanFilter.tr, he, Prod.mk.injEq, Except.ok.injEq] at h
  simp only [ExtendedKalmanFilter.tr, he', Prod.mk.injEq, Except.ok.injEq] at h'
  obtain ⟨⟨rfl, rfl⟩, rfl⟩ := h
  obtain ⟨⟨rfl, rfl⟩, rfl⟩ := h'
  have h2 := (trace_take _ j _ _ _ he).2.1
  have h2' := (trace_take _ j _ _ _ he').2.1
  have hl := trace_length _ _ _ _ he
  have hl' := trace_length _ _ _ _ he'
  have hout : (kf.tr Z U).outs.take j = (kf'.tr Z' U').outs.take j := by
    simp only [ExtendedKalmanFilter.tr]
    rw [← h2, ← h2', hz, hx, hP, hstep]
  have hn : min j Z.rows.length = min j Z'.rows.length := by
    have := congrArg List.length hZ
    simpa using this
  have hm : min j (kf.steps Z U) = min j (kf'.steps Z' U') := by
    have := congrArg List.length hz
    simpa [ExtendedKalmanFilter.zrows_length] using this
  rw [ExtendedKalmanFilter.zrows_length] at hl hl'
  simp only [ExtendedKalmanFilter.tr] at hout
  refine ⟨?_, ?_, ?_⟩
  · rw [take_pad _ _ _ _ _ (by simpa using hl) (kf.steps_le Z U),
      take_pad _ _ _ _ _ (by simpa using hl') (kf'.steps_le Z' U'), ← List.map_take, ← List.map_take,
      hout, hn, hm, hs]
  · rw [take_pad _ _ _ _ _ (by simpa using hl) (kf.steps_le Z U),
      take_pad _ _ _ _ _ (by simpa using hl') (kf'.steps_le Z' U'), ← List.map_take, ← List.map_take,
      hout, hn, hm, hs]
  · have g1 := trace_gains_take _ (ExtendedKalmanFilter.stepGain _) j _ _ _ he
    have g2 := trace_gains_take _ (ExtendedKalmanFilter.stepGain _) j _ _ _ he'
    simp only [ExtendedKalmanFilter.addGains, List.drop_left]
    rw [← g1, ← g2, hz, hx, hP, hstep]

/-! ## C04 -/

/-- C04: one run over `Z` equals a run over `Z[:j]` continued by a second filter that starts from the last
posterior of the first and uses the remaining parameters and data: same rows, same gains, same exception. -/
theorem C04_restart (n m j : ℕ) (kf kf1 : KalmanFilter F) (Z : NDArray F) (U : Option (NDArray F))
    (hlay : Layout n m kf Z U) (hiter : kf.AllIterable Z U) (hj0 : 0 < j) (hj : j ≤ kf.steps Z U)
    (xs1 Ps1 : List (Arr F))
    (h1 : (KalmanFilter.filter (Z.take j) (U.map (NDArray.take j))).run kf = (.ok (xs1, Ps1), kf1)) :
    ∃ x P, xs1.getLast? = some x ∧ Ps1.getLast? = some P ∧
      match (KalmanFilter.filter (Z.drop j) (U.map (NDArray.drop j))).run
          { kf.dropParams j with xk := x, Pk := P, kalmanGains := [] },
        (KalmanFilter.filter Z U).run kf with
      | (.error e, k2), (.error e', k) => e = e' ∧ k.kalmanGains = kf1.kalmanGains ++ k2.kalmanGains
      | (.ok (xs2, Ps2), k2), (.ok (xs, Ps), k) =>
          xs = xs1 ++ xs2 ∧ Ps = Ps1 ++ Ps2 ∧ k.kalmanGains = kf1.kalmanGains ++ k2.kalmanGains
      | _, _ => False := by
  have hl := kf.zrows_length Z U
  have hz1 : kf.zrows (Z.take j) (U.map (NDArray.take j)) = (kf.zrows Z U).take j := by
    have : (effU (U.map (NDArray.take j)) (Z.take j)).rows = (effU U Z).rows.take j :=
      effU_rows_take U Z j
    simp only [KalmanFilter.zrows, this, KalmanFilter.take_rows, zip_take_right, zip_take_left,
      List.take_take, min_self]
  have hle := kf.steps_le Z U
  have hst1 : kf.steps (Z.take j) (U.map (NDArray.take j)) = j := by
    rw [← KalmanFilter.zrows_length, hz1, List.length_take, hl]; omega
  have he1 := KalmanFilter.ok_err h1
  rw [KalmanFilter.filter_iter (KalmanFilter.ok_iter h1)] at h1
  simp only [KalmanFilter.tr, hz1] at he1
  simp only [KalmanFilter.tr, hz1, he1, hst1, Prod.mk.injEq, Except.ok.injEq] at h1
  obtain ⟨⟨rfl, rfl⟩, rfl⟩ := h1
  have hpad : (Z.take j).rows.length - j = 0 := by simp
  simp only [hpad, List.replicate_zero, List.append_nil]
  set t1 := trace (KalmanFilter.step kf.stateSize kf.I) ((kf.zrows Z U).take j) kf.xk kf.Pk with ht1
  have hne : (kf.zrows Z U).take j ≠ [] := by
    rw [← List.length_pos_iff, List.length_take, hl]; omega
  have hlast := trace_last (KalmanFilter.step kf.stateSize kf.I) (KalmanFilter.Shaped n)
    ((kf.zrows Z U).take j) (fun r hr x P g xP o hi hs => by
      rw [hlay.size, hlay.ident] at hs
      exact KalmanFilter.step_keeps (KalmanFilter.mem_zrows hlay r (List.mem_of_mem_take hr)) g xP o hi hs)
    kf.xk kf.Pk ⟨hlay.x, hlay.P⟩ he1
  have hlo := hlast.2 hne
  refine ⟨t1.last.1, t1.last.2, by rw [List.getLast?_map, hlo]; rfl,
    by rw [List.getLast?_map, hlo]; rfl, ?_⟩
  set kf2 : KalmanFilter F :=
    { kf.dropParams j with xk := t1.last.1, Pk := t1.last.2, kalmanGains := [] } with hkf2
  have hz2 : kf2.zrows (Z.drop j) (U.map (NDArray.drop j)) = (kf.zrows Z U).drop j :=
    kf.zrows_dropAll Z U j
  have hi2 : kf2.AllIterable (Z.drop j) (U.map (NDArray.drop j)) := by
    obtain ⟨a, b, c, d, e, f, g⟩ := hiter.dropAll j
    exact ⟨a, b, c, d, e, f, g⟩
  have hst2 : kf2.steps (Z.drop j) (U.map (NDArray.drop j)) = kf.steps Z U - j := by
    rw [← KalmanFilter.zrows_length, hz2, List.length_drop, hl]
  have htr : kf.tr Z U = ⟨t1.outs ++ (kf2.tr (Z.drop j) (U.map (NDArray.drop j))).outs,
      t1.gains ++ (kf2.tr (Z.drop j) (U.map (NDArray.drop j))).gains,
      (kf2.tr (Z.drop j) (U.map (NDArray.drop j))).err,
      (kf2.tr (Z.drop j) (U.map (NDArray.drop j))).last⟩ := by
    simp only [KalmanFilter.tr, hz2]
    conv_lhs => rw [← List.take_append_drop j (kf.zrows Z U), trace_append]
    simp only [← ht1, he1]
    rfl
  rw [KalmanFilter.filter_iter hi2, KalmanFilter.filter_iter hiter, htr, hst2]
  rcases he2 : (kf2.tr (Z.drop j) (U.map (NDArray.drop j))).err with _ | e
  · have hpad2 : (Z.drop j).rows.length - (kf.steps Z U - j) = Z.rows.length - kf.steps Z U := by
      simp; omega
    simp only [hpad2]
    refine ⟨?_, ?_, ?_⟩
    · simp [hkf2, KalmanFilter.dropParams]
    · simp [hkf2, KalmanFilter.dropParams]
    · simp [KalmanFilter.addGains, hkf2]
  · exact ⟨rfl, by simp [KalmanFilter.addGains, hkf2]⟩

/-- C04: one run over `Z` equals a run over `Z[:j]` continued by a second filter that starts from the last
posterior of the first and uses the remaining parameters and data: same rows, same gains, same exception. -/
theorem C04_ekf_restart (n m j : ℕ) (kf kf1 : ExtendedKalmanFilter F) (Z : NDArray F) (U : Option (NDArray F))
    (hlay : ExtLayout n m kf Z U) (hiter : kf.AllIterable Z U) (hj0 : 0 < j) (hj : j ≤ kf.steps Z U)
    (xs1 Ps1 : List (Arr F))
    (h1 : (ExtendedKalmanFilter.filter (Z.take j) (U.map (NDArray.take j))).run kf = (.ok (xs1, Ps1), kf1)) :
    ∃ x P, xs1.getLast? = some x ∧ Ps1.getLast? = some P ∧
      match (ExtendedKalmanFilter.filter (Z.drop j) (U.map (NDArray.drop j))).run
          { kf.dropParams j with xk := x, Pk := P, kalmanGains := [] },
        (ExtendedKalmanFilter.filter Z U).run kf with
      | (.error e, k2), (.error e', k) => e = e' ∧ k.kalmanGains = kf1.kalmanGains ++ k2.kalmanGains
      | (.ok (xs2, Ps2), k2), (.ok (xs, Ps), k) =>
          xs = xs1 ++ xs2 ∧ Ps = Ps1 ++ Ps2 ∧ k.kalmanGains = kf1.kalmanGains ++ k2.kalmanGains
      | _, _ => False := by
  have hl := kf.zrows_length Z U
  have hz1 : kf.zrows (Z.take j) (U.map (NDArray.take j)) = (kf.zrows Z U).take j := by
    have : (effU (U.map (NDArray.take j)) (Z.take j)).rows = (effU U Z).rows.take j :=
      effU_rows_take U Z j
    simp only [ExtendedKalmanFilter.zrows, this, KalmanFilter.take_rows, zip_take_right, zip_take_left,
      List.take_take, min_self]
  have hle := kf.steps_le Z U
  have hst1 : kf.steps (Z.take j) (U.map (NDArray.take j)) = j := by
    rw [← ExtendedKalmanFilter.zrows_length, hz1, List.length_take, hl]; omega
  have he1 := ExtendedKalmanFilter.ok_err h1
  rw [ExtendedKalmanFilter.filter_iter (ExtendedKalmanFilter.ok_iter h1)] at h1
  simp only [ExtendedKalmanFilter.tr, hz1] at he1
  simp only [ExtendedKalmanFilter.tr, hz1, he1, hst1, Prod.mk.injEq, Except.ok.injEq] at h1
  obtain ⟨⟨rfl, rfl⟩, rfl⟩ := h1
  have hpad : (Z.take j).rows.length - j = 0 := by simp
  simp only [hpad, List.replicate_zero, List.append_nil]
  set t1 := trace (ExtendedKalmanFilter.step kf) ((kf.zrows Z U).take j) kf.xk kf.Pk with ht1
  have hne : (kf.zrows Z U).take j ≠ [] := by
    rw [← List.length_pos_iff, List.length_take, hl]; omega
  have hlast := trace_last (ExtendedKalmanFilter.step kf) (KalmanFilter.Shaped n)
    ((kf.zrows Z U).take j) (fun r hr x P g xP o hi hs => by
      obtain ⟨q1, q2, q3⟩ := ExtendedKalmanFilter.mem_zrows hlay r (List.mem_of_mem_take hr)
      exact ExtendedKalmanFilter.step_keeps hlay q1 q2 q3 g xP o hi hs)
    kf.xk kf.Pk ⟨hlay.x, hlay.P⟩ he1
  have hlo := hlast.2 hne
  refine ⟨t1.last.1, t1.last.2, by rw [List.getLast?_map, hlo]; rfl,
    by rw [List.getLast?_map, hlo]; rfl, ?_⟩
  set kf2 : ExtendedKalmanFilter F :=
    { kf.dropParams j with xk := t1.last.1, Pk := t1.last.2, kalmanGains := [] } with hkf2
  have hz2 : kf2.zrows (Z.drop j) (U.map (NDArray.drop j)) = (kf.zrows Z U).drop j :=
    kf.zrows_dropAll Z U j
  have hi2 : kf2.AllIterable (Z.drop j) (U.map (NDArray.drop j)) := by
    obtain ⟨a, b, c, d⟩ := hiter.dropAll j
    exact ⟨a, b, c, d⟩
  have hst2 : kf2.steps (Z.drop j) (U.map (NDArray.drop j)) = kf.steps Z U - j := by
    rw [← ExtendedKalmanFilter.zrows_length, hz2, List.length_drop, hl]
  have htr : kf.tr Z U = ⟨t1.outs ++ (kf2.tr (Z.drop j) (U.map (NDArray.drop j))).outs,
      t1.gains ++ (kf2.tr (Z.drop j) (U.map (NDArray.drop j))).gains,
      (kf2.tr (Z.drop j) (U.map (NDArray.drop j))).err,
      (kf2.tr (Z.drop j) (U.map (NDArray.drop j))).last⟩ := by
    simp only [ExtendedKalmanFilter.tr, hz2]
    conv_lhs => rw [← List.take_append_drop j (kf.zrows Z U), trace_append]
    simp only [← ht1, he1]
    rfl
  rw [ExtendedKalmanFilter.filter_iter hi2, ExtendedKalmanFilter.filter_iter hiter, htr, hst2]
  rcases he2 : (kf2.tr (Z.drop j) (U.map (NDArray.drop j))).err with _ | e
  · have hpad2 : (Z.drop j).rows.length - (kf.steps Z U - j) = Z.rows.length - kf.steps Z U := by
      simp; omega
    simp only [hpad2]
    refine ⟨?_, ?_, ?_⟩
    · simp [hkf2, ExtendedKalmanFilter.dropParams]
    · simp [hkf2, ExtendedKalmanFilter.dropParams]
    · simp [ExtendedKalmanFilter.addGains, hkf2]
  · exact ⟨rfl, by simp [ExtendedKalmanFilter.addGains, hkf2]⟩

/-! ### Hypotheses are met -/

-- C03: the runs differ in the last observation and in the number of parameters; both return
example : Ex.zs.AgreeTo 2 (.stack ([some 1, some 3, some 5].map Ex.vec1)) ∧ (Ex.cv 3).A.AgreeTo 2 (Ex.cv 4).A ∧
    AgreeToOpt 2 (some Ex.us) (some Ex.us) ∧
    (∃ r k, (KalmanFilter.filter Ex.zs (some Ex.us)).run (Ex.cv 3) = (.ok r, k)) ∧
    (∃ r k, (KalmanFilter.filter (.stack ([some 1, some 3, some 5].map Ex.vec1)) (some Ex.us)).run (Ex.cv 4) = (.ok r, k)) ∧
    (∃ r k, (ExtendedKalmanFilter.filter Ex.zs (some Ex.us)).run (Ex.ecv 3) = (.ok r, k)) ∧
    (∃ r k, (ExtendedKalmanFilter.filter (.stack ([some 1, some 3, some 5].map Ex.vec1)) (some Ex.us)).run (Ex.ecv 3) =
      (.ok r, k)) :=
  ⟨rfl, rfl, rfl, (Ex.returned_iff _).1 (by decide +kernel), (Ex.returned_iff _).1 (by decide +kernel),
    (Ex.returned_iff _).1 (by decide +kernel), (Ex.returned_iff _).1 (by decide +kernel)⟩

-- C04: three steps, cut after the first or the second
example (j : ℕ) (h0 : 0 < j) (h3 : j < 3) : Layout 2 1 (Ex.cv 3) Ex.zs (some Ex.us) ∧ (Ex.cv 3).AllIterable Ex.zs (some Ex.us) ∧
    j ≤ (Ex.cv 3).steps Ex.zs (some Ex.us) ∧
    (∃ r k, (KalmanFilter.filter (Ex.zs.take j) ((some Ex.us).map (NDArray.take j))).run (Ex.cv 3) = (.ok r, k)) ∧
    ExtLayout 2 1 (Ex.pushed Ex.q2 Ex.r1 3) Ex.zs (some Ex.us) ∧ (Ex.pushed Ex.q2 Ex.r1 3).AllIterable Ex.zs (some Ex.us) ∧
    j ≤ (Ex.pushed Ex.q2 Ex.r1 3).steps Ex.zs (some Ex.us) ∧
    (∃ r k, (ExtendedKalmanFilter.filter (Ex.zs.take j) ((some Ex.us).map (NDArray.take j))).run (Ex.pushed Ex.q2 Ex.r1 3) =
      (.ok r, k)) := by
  refine ⟨Ex.cv_layout 3 [some 1, some 3, some 2] [some 1, some 0, some (-1)],
    ⟨trivial, trivial, trivial, trivial, trivial, trivial, trivial⟩, h3.le, ?_,
    Ex.pushed_layout _ _ 3 [some 1, some 3, some 2] _ (.inl rfl) (.inl rfl), ⟨trivial, trivial, trivial, trivial⟩, h3.le, ?_⟩
  · obtain rfl | rfl : j = 1 ∨ j = 2 := by omega
    · exact (Ex.returned_iff _).1 (by decide +kernel)
    · exact (Ex.returned_iff _).1 (by decide +kernel)
  · obtain rfl | rfl : j = 1 ∨ j = 2 := by omega
    · exact (Ex.returned_iff _).1 (by decide +kernel)
    · exact (Ex.returned_iff _).1 (by decide +kernel)

end KK
