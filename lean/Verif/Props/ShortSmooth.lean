import Verif.Props.Smoother

/-!
# C88: `smooth` when a parameter sequence is shorter than the data
-/

set_option linter.unusedSectionVars false

namespace KK

open Matrix

section generic

variable {F : Type} [Backend F]

theorem item_short {a : NDArray F} {k : ℕ} (h : a.rows.length ≤ k) : a.item k = .error .indexError := by
  cases a with
  | d0 => rfl
  | stack l =>
    simp only [NDArray.rows] at h
    simp [NDArray.item, List.getElem?_eq_none h]

theorem item_cases (a : NDArray F) (k : ℕ) : (∃ x, a.item k = .ok x) ∨ a.item k = .error .indexError := by
  cases a with
  | d0 => exact .inr rfl
  | stack l =>
    rcases h : l[k]? with _ | x
    · exact .inr (by simp [NDArray.item, h])
    · exact .inl ⟨x, by simp [NDArray.item, h]⟩

/-- C88: if one of `A`, `B`, `Q` or the controls has fewer rows than there are observations (at least two), `smooth` never
returns: it raises what `filter` raises, and IndexError if `filter` returns.  The gains of the forward pass stay recorded. -/
theorem C88_short_sequence (kf : KalmanFilter F) (Z : NDArray F) (U : Option (NDArray F)) (h : kf.AllIterable Z U)
    (h2 : 2 ≤ Z.rows.length)
    (hs : kf.A.rows.length < Z.rows.length ∨ kf.B.rows.length < Z.rows.length ∨ kf.Q.rows.length < Z.rows.length ∨
      (effU U Z).rows.length < Z.rows.length) :
    (KalmanFilter.smooth Z U).run kf = match (KalmanFilter.filter Z U).run kf with
      | (.error e, kf') => (.error e, kf')
      | (.ok _, kf') => (.error .indexError, kf') := by
  rw [KalmanFilter.smooth_eq]
  rcases hf : (KalmanFilter.filter Z U).run kf with ⟨e | ⟨xe, Pe⟩, kf'⟩
  · rfl
  obtain ⟨n, hn, hx, hP, -, -⟩ := KalmanFilter.filter_rowsOk hf
  have hN : n = Z.rows.length := by
    obtain ⟨l, hl⟩ := h.Z.exists
    subst hl
    simp only [NDArray.len, Except.ok.injEq] at hn
    simp [NDArray.rows, ← hn]
  obtain ⟨k, hk⟩ : ∃ k, xe.length - 1 = k + 1 := ⟨xe.length - 2, by omega⟩
  have hk' : Z.rows.length = k + 2 := by omega
  dsimp only
  obtain ⟨xl, hxl⟩ : ∃ a, xe[k + 1]? = some a := ⟨_, List.getElem?_eq_getElem (by omega)⟩
  obtain ⟨Pl, hPl⟩ : ∃ a, Pe[k + 1]? = some a := ⟨_, List.getElem?_eq_getElem (by omega)⟩
  rw [hk, hxl, hPl]
  dsimp only
  rw [back]
  have key : ∀ x P, KalmanFilter.body kf.A kf.Q kf.B (checkNoneAndBroadcast U Z) kf.stateSize xe Pe k x P =
      .error .indexError := by
    intro x P
    unfold KalmanFilter.body
    rcases item_cases kf.A (k + 1) with ⟨a, ha⟩ | ha <;> rw [ha] <;> simp only [Except.bind_ok', Except.bind_error']
    rcases item_cases kf.Q (k + 1) with ⟨q, hq⟩ | hq <;> rw [hq] <;> simp only [Except.bind_ok', Except.bind_error']
    rcases item_cases kf.B (k + 1) with ⟨b, hb⟩ | hb <;> rw [hb] <;> simp only [Except.bind_ok', Except.bind_error']
    rcases item_cases (effU U Z) (k + 1) with ⟨u, hu⟩ | hu
    on_goal 2 => rw [hu]; rfl
    exfalso
    rcases hs with hs | hs | hs | hs
    · rw [item_short (by omega)] at ha; simp at ha
    · rw [item_short (by omega)] at hb; simp at hb
    · rw [item_short (by omega)] at hq; simp at hq
    · rw [item_short (by omega)] at hu; simp at hu
  rw [key]
  rfl

/-- C88 for the extended filter, whose only sequences besides the data are `Q`, `R` and the controls. -/
theorem C88_ekf_short_sequence (kf : ExtendedKalmanFilter F) (Z : NDArray F) (U : Option (NDArray F))
    (h : kf.AllIterable Z U) (h2 : 2 ≤ Z.rows.length)
    (hs : kf.Q.rows.length < Z.rows.length ∨ (effU U Z).rows.length < Z.rows.length) :
    (ExtendedKalmanFilter.smooth Z U).run kf = match (ExtendedKalmanFilter.filter Z U).run kf with
      | (.error e, kf') => (.error e, kf')
      | (.ok _, kf') => (.error .indexError, kf') := by
  rw [ExtendedKalmanFilter.smooth_eq]
  rcases hf : (ExtendedKalmanFilter.filter Z U).run kf with ⟨e | ⟨xe, Pe⟩, kf'⟩
  · rfl
  obtain ⟨n, hn, hx, hP, -, -⟩ := ExtendedKalmanFilter.filter_rowsOk hf
  have hN : n = Z.rows.length := by
    obtain ⟨l, hl⟩ := h.Z.exists
    subst hl
    simp only [NDArray.len, Except.ok.injEq] at hn
    simp [NDArray.rows, ← hn]
  obtain ⟨k, hk⟩ : ∃ k, xe.length - 1 = k + 1 := ⟨xe.length - 2, by omega⟩
  have hk' : Z.rows.length = k + 2 := by omega
  dsimp only
  obtain ⟨xl, hxl⟩ : ∃ a, xe[k + 1]? = some a := ⟨_, List.getElem?_eq_getElem (by omega)⟩
  obtain ⟨Pl, hPl⟩ : ∃ a, Pe[k + 1]? = some a := ⟨_, List.getElem?_eq_getElem (by omega)⟩
  rw [hk, hxl, hPl]
  dsimp only
  rw [back]
  have key : ∀ x P, ExtendedKalmanFilter.body kf kf.Q (checkNoneAndBroadcast U Z) xe Pe k x P = .error .indexError := by
    intro x P
    unfold ExtendedKalmanFilter.body
    rcases item_cases kf.Q (k + 1) with ⟨q, hq⟩ | hq <;> rw [hq] <;> simp only [Except.bind_ok', Except.bind_error']
    rcases item_cases (effU U Z) (k + 1) with ⟨u, hu⟩ | hu
    on_goal 2 => rw [hu]; rfl
    exfalso
    rcases hs with hs | hs
    · rw [item_short (by omega)] at hq; simp at hq
    · rw [item_short (by omega)] at hu; simp at hu
  rw [key]
  rfl

end generic

/-! ## Short `H` or `R`, exactly -/

variable {n m : ℕ}

theorem backR_length (g : ℕ → Belief n → Belief n) (k : ℕ) (q : Belief n) : (backR g k q).length = k + 1 := by
  induction k generalizing q with
  | zero => rfl
  | succ k ih => simp [backR, ih]

theorem backR_last (g : ℕ → Belief n → Belief n) (k : ℕ) (q : Belief n) : (backR g k q)[k]? = some q := by
  cases k with
  | zero => rfl
  | succ k =>
    rw [backR, List.getElem?_append_right (by rw [backR_length]), backR_length]
    simp

theorem backR_step (g : ℕ → Belief n → Belief n) (k : ℕ) (q : Belief n) (j : ℕ) (hj : j < k) :
    ∃ a, (backR g k q)[j + 1]? = some a ∧ (backR g k q)[j]? = some (g j a) := by
  induction k generalizing q with
  | zero => omega
  | succ k ih =>
    rw [backR]
    by_cases hk : j = k
    · subst hk
      refine ⟨q, ?_, ?_⟩
      · rw [List.getElem?_append_right (by rw [backR_length]), backR_length]; simp
      · rw [List.getElem?_append_left (by rw [backR_length]; omega), backR_last]
    · obtain ⟨a, h1, h2⟩ := ih (g k q) (by omega)
      refine ⟨a, ?_, ?_⟩
      · rw [List.getElem?_append_left (by rw [backR_length]; omega), h1]
      · rw [List.getElem?_append_left (by rw [backR_length]; omega), h2]

/-- The belief "the state is exactly zero". -/
def zeroBelief : Belief n := ⟨0, 0⟩

theorem rtsStep_zero (s : LinStep n m) (q : Belief n) : rtsStep zeroBelief s q = zeroBelief := by
  simp [rtsStep, zeroBelief]

variable [Platform]

/-- The arrays of a step that exist although its measurement does not: `A`, `B u`, `Q`. -/
structure DynamicsIs (s : LinStep n m) (Ak Bk uk Qk : Arr Fl) : Prop where
  A : MatIs s.A Ak
  ctrl : CtrlIs s.c Bk uk
  Q : NoiseIs s.Q Qk

/-- C88: if only `H` or `R` is too short - measurements end after the steps `ss`, but `A`, `B`, `Q`, `U` and `Z` go on with
steps `t :: ts` - then `smooth` returns, without an error, the wrong estimates: the mean of every later row is zero with
covariance zero, and the earlier rows are smoothed *from* that, as if the state after the last measurement had been observed to
be exactly zero. -/
theorem C88_short_measurements (kf : KalmanFilter Fl) (Z : NDArray Fl) (U : Option (NDArray Fl)) (b : Belief n)
    (s : LinStep n m) (ss : List (LinStep n m)) (t : LinStep n m) (ts : List (LinStep n m))
    (h : Represents kf Z U b (s :: ss)) (hfull : Z.rows.length = (s :: ss).length + (t :: ts).length)
    (htail : ∀ k r, (t :: ts)[k]? = some r → ∃ Ak Bk uk Qk, kf.A.rows[(s :: ss).length + k]? = some Ak ∧
      kf.B.rows[(s :: ss).length + k]? = some Bk ∧ (effU U Z).rows[(s :: ss).length + k]? = some uk ∧
      kf.Q.rows[(s :: ss).length + k]? = some Qk ∧ DynamicsIs r Ak Bk uk Qk)
    (hP : b.P.PosSemidef) (hQ : ∀ r ∈ s :: ss ++ t :: ts, r.Q.PosDef) (hR : ∀ r ∈ s :: ss, r.R.PosDef) :
    ∃ qs : List (Belief n),
      (KalmanFilter.smooth Z U).run kf =
        (.ok (qs.map stateRow ++ List.replicate (t :: ts).length (Arr.zerosVec n),
              qs.map covRow ++ List.replicate (t :: ts).length (Arr.zerosMat n)),
         { kf with kalmanGains := kf.kalmanGains ++ (gainsOf b (s :: ss)).map gainRow }) ∧
      qs.length = (s :: ss).length ∧
      (∃ f, (filtered b (s :: ss))[ss.length]? = some f ∧ qs[ss.length]? = some (rtsStep f t zeroBelief)) ∧
      ∀ k < ss.length, ∃ f r q, (filtered b (s :: ss))[k]? = some f ∧ (s :: ss)[k + 1]? = some r ∧
        qs[k + 1]? = some q ∧ qs[k]? = some (rtsStep f r q) := by
  have hQs : ∀ r ∈ s :: ss, r.Q.PosSemidef := fun r hr => (hQ r (List.mem_append_left _ hr)).posSemidef
  have hs := solvable_psd (b := b) hP hQs hR
  have hf := C24_filter_textbook kf Z U b _ h hs
  set all := s :: ss ++ t :: ts with hall
  set fs : List (Belief n) := filtered b (s :: ss) ++ List.replicate (t :: ts).length zeroBelief with hfs
  have hlen : Z.rows.length - (s :: ss).length = (t :: ts).length := by omega
  have hx : (filtered b (s :: ss)).map stateRow ++ List.replicate (t :: ts).length (Arr.zerosVec n) = fs.map stateRow := by
    rw [hfs, List.map_append, List.map_replicate]; rfl
  have hPr : (filtered b (s :: ss)).map covRow ++ List.replicate (t :: ts).length (Arr.zerosMat n) = fs.map covRow := by
    rw [hfs, List.map_append, List.map_replicate]; rfl
  rw [hlen, hx, hPr] at hf
  have hfl : fs.length = all.length := by rw [hfs, hall, List.length_append, List.length_append, filtered_length, List.length_replicate]
  have hal : all.length = ss.length + ts.length + 2 := by rw [hall, List.length_append, List.length_cons, List.length_cons]; omega
  have hlast : fs[fs.length - 1]? = some zeroBelief := by
    rw [hfl, hal, hfs, List.getElem?_append_right (by rw [filtered_length, List.length_cons]; omega), filtered_length,
      List.getElem?_replicate, if_pos (by simp only [List.length_cons]; omega)]
  -- positive semidefiniteness of all filtered rows
  have hpsd : ∀ f ∈ fs, f.P.PosSemidef := by
    intro f hf'
    rcases List.mem_append.1 hf' with hf' | hf'
    · exact filtered_forall (fun b => b.P.PosSemidef) b _ hP (fun r hr b hb => (psd_next hb (hQs r hr) (hR r hr)).1) f hf'
    · rw [List.eq_of_mem_replicate hf']
      exact Matrix.PosSemidef.zero
  have hdyn : ∀ k r, all[k + 1]? = some r → ∃ Ak Bk uk Qk, kf.A.rows[k + 1]? = some Ak ∧
      kf.B.rows[k + 1]? = some Bk ∧ (effU U Z).rows[k + 1]? = some uk ∧ kf.Q.rows[k + 1]? = some Qk ∧
      DynamicsIs r Ak Bk uk Qk := by
    intro k r hr
    by_cases hk : k + 1 < (s :: ss).length
    · rw [hall, List.getElem?_append_left hk] at hr
      obtain ⟨Ak, Hk, Bk, uk, zk, Qk, Rk, hA, -, hB, hu, -, hQ', -, hst⟩ := h.row hr
      exact ⟨Ak, Bk, uk, Qk, hA, hB, hu, hQ', hst.A, hst.ctrl, hst.Q⟩
    · rw [hall, List.getElem?_append_right (by omega)] at hr
      have := htail _ r hr
      rwa [Nat.add_sub_cancel' (by omega)] at this
  have hbody : ∀ j < all.length - 1, ∀ q,
      (¬ False →
        KalmanFilter.body kf.A kf.Q kf.B (checkNoneAndBroadcast U Z) kf.stateSize
          (fs.map stateRow) (fs.map covRow) j (stateRow q) (covRow q) =
        .ok (beliefRows (rtsG fs all.tail j q))) ∧
      (False →
        KalmanFilter.body kf.A kf.Q kf.B (checkNoneAndBroadcast U Z) kf.stateSize
          (fs.map stateRow) (fs.map covRow) j (stateRow q) (covRow q) =
        .error .linAlgError) := by
    intro j hj q
    refine ⟨fun _ => ?_, False.elim⟩
    have hjs : all[j + 1]? = some all[j + 1] := List.getElem?_eq_getElem (by omega)
    have hjf' : fs[j]? = some fs[j] := List.getElem?_eq_getElem (by omega)
    have hmf : fs[j] ∈ fs := List.getElem_mem _
    have hms : all[j + 1] ∈ all := List.getElem_mem _
    generalize fs[j] = f at hjf' hmf
    generalize all[j + 1] = r at hjs hms
    obtain ⟨Ak, Bk, uk, Qk, hA, hB, hu, hQ', hst⟩ := hdyn j r hjs
    have hx1 : getRow (fs.map stateRow) j = .ok (stateRow f) := getRow_some (by rw [List.getElem?_map, hjf']; rfl)
    have hx2 : getRow (fs.map covRow) j = .ok (covRow f) := getRow_some (by rw [List.getElem?_map, hjf']; rfl)
    have hst' : StepIs r Ak (.mat .float64 (finM r.H)) Bk uk (.vec .float64 (finV r.z)) Qk (.mat .float64 (finM r.R)) :=
      ⟨hst.A, ⟨_, rfl⟩, hst.ctrl, .inl ⟨_, rfl⟩, hst.Q, .inl ⟨_, rfl⟩⟩
    have hdet : (r.predict f).P.det ≠ 0 := by
      refine posDef_det_ne ?_
      show (r.A * f.P * r.Aᵀ + r.Q).PosDef
      rw [add_comm]
      exact (hQ r hms).add_posSemidef (posSemidef_conj (hpsd f hmf) _)
    have hjt : all.tail[j]? = some r := by rw [List.getElem?_tail]; exact hjs
    simp only [KalmanFilter.body, item_of_rows hA, item_of_rows hB, item_of_rows hQ', item_of_rows hu, hx1, hx2,
      Except.bind_ok', rtsG, hjf', hjt]
    rw [(smoothStep_exact (f := f) (q := q) hst').1 hdet]
    simp only [beliefRows, Except.bind_ok', h.size]
    simp only [stateRow, covRow, Arr.assignVec_vec, Arr.assignMat_mat, Except.bind_ok']
  have hg := (back_exact _ _ _ (all.length - 1) hbody zeroBelief).1 fun _ _ h => h
  have hrun : (KalmanFilter.smooth Z U).run kf =
      (.ok ((backR (rtsG fs all.tail) (all.length - 1) zeroBelief).map stateRow,
            (backR (rtsG fs all.tail) (all.length - 1) zeroBelief).map covRow),
         { kf with kalmanGains := kf.kalmanGains ++ (gainsOf b (s :: ss)).map gainRow }) := by
    rw [KalmanFilter.smooth_eq, hf]
    simp only [List.length_map, List.getElem?_map, hlast, Option.map_some]
    rw [hfl]
    simp only [beliefRows] at hg
    rw [hg]
    simp only [Except.map, List.map_map]
    rfl
  generalize hL : backR (rtsG fs all.tail) (all.length - 1) zeroBelief = L at hrun
  have hLl : L.length = all.length := by rw [← hL, backR_length]; omega
  have hstep : ∀ j < all.length - 1, ∃ a, L[j + 1]? = some a ∧ L[j]? = some (rtsG fs all.tail j a) := by
    intro j hj; rw [← hL]; exact backR_step _ _ _ j hj
  have hend : L[all.length - 1]? = some zeroBelief := by rw [← hL]; exact backR_last _ _ _
  have hzero : ∀ j, (s :: ss).length ≤ j → j < all.length → L[j]? = some zeroBelief := by
    intro j h1 h2
    by_cases h3 : j = all.length - 1
    · rw [h3]; exact hend
    · obtain ⟨a, -, h4⟩ := hstep j (by omega)
      have h5 : fs[j]? = some zeroBelief := by
        rw [hfs, List.getElem?_append_right (by rw [filtered_length]; exact h1), filtered_length,
          List.getElem?_replicate, if_pos (by simp only [hall, List.length_append] at h2; omega)]
      rw [h4, rtsG, h5, List.getElem?_tail, List.getElem?_eq_getElem (by omega)]
      simp only [rtsStep_zero]
  have hsplit : L = L.take (s :: ss).length ++ List.replicate (t :: ts).length zeroBelief := by
    conv_lhs => rw [← List.take_append_drop (s :: ss).length L]
    congr 1
    rw [List.eq_replicate_iff]
    refine ⟨by rw [List.length_drop, hLl, hall, List.length_append]; omega, fun q hq => ?_⟩
    obtain ⟨i, hi, rfl⟩ := List.getElem_of_mem hq
    rw [List.length_drop] at hi
    have := hzero ((s :: ss).length + i) (by omega) (by omega)
    rw [List.getElem?_eq_getElem (by omega)] at this
    rw [List.getElem_drop]
    exact Option.some.inj this
  have htake : ∀ j < (s :: ss).length, (L.take (s :: ss).length)[j]? = L[j]? := fun j hj => by
    rw [List.getElem?_take, if_pos hj]
  have hfa : ∀ j < (s :: ss).length, fs[j]? = (filtered b (s :: ss))[j]? := fun j hj => by
    rw [hfs, List.getElem?_append_left (by rw [filtered_length]; exact hj)]
  refine ⟨L.take (s :: ss).length, ?_, ?_, ?_, ?_⟩
  · rw [hrun]
    conv_lhs => rw [hsplit]
    rw [List.map_append, List.map_append, List.map_replicate, List.map_replicate]
    rfl
  · rw [List.length_take, hLl, hall, List.length_append]; omega
  · obtain ⟨a, h1, h2⟩ := hstep ss.length (by omega)
    rw [hzero _ (by simp) (by omega)] at h1
    obtain rfl := Option.some.inj h1
    have hk : ss.length < (filtered b (s :: ss)).length := by rw [filtered_length]; simp
    refine ⟨_, List.getElem?_eq_getElem hk, ?_⟩
    rw [htake _ (by simp), h2, rtsG, hfa _ (by simp), List.getElem?_eq_getElem hk, List.getElem?_tail]
    simp [hall]
  · intro k hk
    obtain ⟨a, h1, h2⟩ := hstep k (by omega)
    have hk' : k < (filtered b (s :: ss)).length := by rw [filtered_length]; simp; omega
    have hk1 : k + 1 < (s :: ss).length := by simp; omega
    refine ⟨_, _, a, List.getElem?_eq_getElem hk', List.getElem?_eq_getElem hk1, ?_, ?_⟩
    · rw [htake _ hk1, h1]
    · rw [htake _ (by omega), h2, rtsG, hfa _ (by omega), List.getElem?_eq_getElem hk', List.getElem?_tail, hall,
        List.getElem?_append_left hk1, List.getElem?_eq_getElem hk1]

/-! ### Hypotheses are met -/

/-- The constant-velocity filter whose measurement matrices stop after the data `uz`, while everything else goes on. -/
noncomputable def Ex.shortH (uz more : List (ℝ × ℝ)) : KalmanFilter Fl :=
  { Ex.encode Ex.cvBelief (Ex.cvSteps (uz ++ more)) with
    H := .stack ((Ex.cvSteps uz).map fun s => .mat .float64 (finM s.H)) }

-- C88_short_measurements: any data, any number (at least one) of observations in excess.
example (p : ℝ × ℝ) (uz : List (ℝ × ℝ)) (q : ℝ × ℝ) (more : List (ℝ × ℝ)) :
    let kf := Ex.shortH (p :: uz) (q :: more)
    let Z := Ex.encZ (Ex.cvSteps (p :: uz ++ q :: more))
    let U := some (Ex.encU (Ex.cvSteps (p :: uz ++ q :: more)))
    let ss := Ex.cvSteps (p :: uz)
    let ts := Ex.cvSteps (q :: more)
    Represents kf Z U Ex.cvBelief ss ∧ Z.rows.length = ss.length + ts.length ∧
    (∀ k r, ts[k]? = some r → ∃ Ak Bk uk Qk, kf.A.rows[ss.length + k]? = some Ak ∧
      kf.B.rows[ss.length + k]? = some Bk ∧ (effU U Z).rows[ss.length + k]? = some uk ∧
      kf.Q.rows[ss.length + k]? = some Qk ∧ DynamicsIs r Ak Bk uk Qk) ∧
    Ex.cvBelief.P.PosSemidef ∧ (∀ r ∈ ss ++ ts, r.Q.PosDef) ∧ ∀ r ∈ ss, r.R.PosDef := by
  intro kf Z U ss ts
  have hall : Ex.cvSteps (p :: uz ++ q :: more) = ss ++ ts := by simp [Ex.cvSteps, ss, ts]
  have hQ : ∀ r ∈ ss ++ ts, r.Q.PosDef := by
    intro r hr
    rw [← hall] at hr
    simp only [Ex.cvSteps, List.mem_map] at hr
    obtain ⟨a, -, rfl⟩ := hr
    exact Ex.cvStep_Q _ _
  have hr := Ex.encode_represents Ex.cvBelief (ss ++ ts)
  refine ⟨⟨⟨trivial, trivial, trivial, trivial, trivial, trivial, trivial⟩, ?_, rfl, rfl, hr.x, hr.P, ?_, .inl ⟨_, rfl⟩⟩, ?_,
    ?_, Ex.cv_posDef.posSemidef, hQ, fun r hr' => (Ex.cv_pdStep (p :: uz) r hr').2.1⟩
  · simp only [KalmanFilter.steps, kf, Z, U, Ex.shortH, Ex.encode, Ex.encZ, Ex.encU, checkNoneAndBroadcast, NDArray.rows,
      List.length_map, ss, Ex.cvSteps]
    simp
  · intro k s Ak Hk Bk uk zk Qk Rk hs hA hH hB hu hz hQ' hR
    have hs' : (ss ++ ts)[k]? = some s := by
      rw [List.getElem?_append_left (List.getElem?_eq_some_iff.1 hs).1]; exact hs
    have hH' : (Ex.encode Ex.cvBelief (ss ++ ts)).H.rows[k]? = some Hk := by
      simp only [kf, Ex.shortH, NDArray.rows, List.getElem?_map] at hH
      change (Option.map _ ss[k]?) = _ at hH
      simp only [Ex.encode, NDArray.rows, List.getElem?_map, hs', Option.map_some]
      rw [hs] at hH
      exact hH
    simp only [kf, Ex.shortH, Z, U, hall] at hA hB hu hz hQ' hR
    exact hr.rows k s Ak Hk Bk uk zk Qk Rk hs' hA hH' hB hu hz hQ' hR
  · simp only [Z, Ex.encZ_length, hall, List.length_append]
  · intro k r hk
    have hk' : (ss ++ ts)[ss.length + k]? = some r := by
      rw [List.getElem?_append_right (by omega), Nat.add_sub_cancel_left]; exact hk
    obtain ⟨Ak, Hk, Bk, uk, zk, Qk, Rk, hA, -, hB, hu, -, hQ', -, hst⟩ := hr.row hk'
    simp only [kf, Ex.shortH, Z, U, hall]
    exact ⟨Ak, Bk, uk, Qk, hA, hB, hu, hQ', hst.A, hst.ctrl, hst.Q⟩

-- C88_short_sequence: one process noise covariance for three observations; `filter` returns (C02), `smooth` raises.
example : let kf := { Ex.encode Ex.cvBelief (Ex.cvSteps [(0, 1), (0, 2), (1, 3)]) with
      Q := .stack [.mat .float64 (finM (Ex.cvStep 0 1).Q)] }
    let Z := Ex.encZ (Ex.cvSteps [(0, 1), (0, 2), (1, 3)])
    kf.AllIterable Z none ∧ 2 ≤ Z.rows.length ∧ kf.Q.rows.length < Z.rows.length :=
  ⟨⟨trivial, trivial, trivial, trivial, trivial, trivial, trivial⟩, by simp [Ex.encZ, NDArray.rows, Ex.cvSteps],
    by simp [Ex.encZ, NDArray.rows, Ex.cvSteps]⟩

-- C88_ekf_short_sequence: one process noise covariance for two observations of a scalar system.
example : let kf : ExtendedKalmanFilter Fl := ⟨fun x _ => .ok x, fun _ _ => .ok (Arr.identity 1),
      .vec .float64 fun _ : Fin 1 => .fin 0, Arr.identity 1, fun x => .ok x, fun _ => .ok (Arr.identity 1),
      .stack [Arr.identity 1], .stack [Arr.identity 1, Arr.identity 1], 1, Arr.identity 1, []⟩
    let Z : NDArray Fl := .stack [.scalar .float64 (.fin 1), .scalar .float64 (.fin 2)]
    kf.AllIterable Z none ∧ 2 ≤ Z.rows.length ∧ kf.Q.rows.length < Z.rows.length :=
  ⟨⟨trivial, trivial, trivial, trivial⟩, by simp [NDArray.rows], by simp [NDArray.rows]⟩

end KK
