import Verif.Spec.Assign
import Verif.Props.History
import Verif.Props.Control
import Verif.Props.Rejected
import Verif.Props.ShortSmooth
import Verif.Props.Broadcast
import Verif.Test.Conformance

/-!
# C151: assigning to attributes between calls
-/

set_option linter.unusedSectionVars false
set_option linter.unusedSimpArgs false

namespace KK

variable {F : Type} [Backend F]

/-! ## What events do -/

namespace KalmanFilter

theorem afterEvents_cons (kf : KalmanFilter F) (e : Event F) (evs : List (Event F)) :
    kf.afterEvents (e :: evs) = (match e with | .call c => (kf.exec c).2 | .assign a => kf.assign a).afterEvents evs := rfl

theorem exec_state (kf : KalmanFilter F) (c : Call F) : ∃ g, (kf.exec c).2 = kf.withGains g := by
  have := kf.exec_eq c kf.kalmanGains
  rw [show kf.withGains kf.kalmanGains = kf from rfl] at this
  exact ⟨_, by rw [this]⟩

theorem afterEvents_I (evs : List (Event F)) : ∀ kf : KalmanFilter F, (kf.afterEvents evs).I = kf.I := by
  induction evs with
  | nil => intro _; rfl
  | cons e evs ih =>
    intro kf
    rw [afterEvents_cons, ih]
    rcases e with c | a
    · obtain ⟨g, hg⟩ := kf.exec_state c
      show (kf.exec c).2.I = _
      rw [hg]; rfl
    · cases a with
      | B v => cases v <;> rfl
      | _ => rfl

theorem afterEvents_size (evs : List (Event F)) (h : KeepsSize evs) : ∀ kf : KalmanFilter F, (kf.afterEvents evs).stateSize = kf.stateSize := by
  induction evs with
  | nil => intro _; rfl
  | cons e evs ih =>
    intro kf
    rw [afterEvents_cons, ih (fun n hn => h n (List.mem_cons_of_mem _ hn))]
    rcases e with c | a
    · obtain ⟨g, hg⟩ := kf.exec_state c
      show (kf.exec c).2.stateSize = _
      rw [hg]; rfl
    · cases a with
      | stateSize n => exact absurd (List.mem_cons_self ..) (h n)
      | B v => cases v <;> rfl
      | _ => rfl

theorem afterEvents_B (evs : List (Event F)) (h : KeepsB evs) : ∀ kf : KalmanFilter F, (kf.afterEvents evs).B = kf.B := by
  induction evs with
  | nil => intro _; rfl
  | cons e evs ih =>
    intro kf
    rw [afterEvents_cons, ih (fun n hn => h n (List.mem_cons_of_mem _ hn))]
    rcases e with c | a
    · obtain ⟨g, hg⟩ := kf.exec_state c
      show (kf.exec c).2.B = _
      rw [hg]; rfl
    · cases a with
      | B v => exact absurd (List.mem_cons_self ..) (h v)
      | _ => rfl

theorem assign_withGains (kf : KalmanFilter F) (g : List (Arr F)) (a : Assign F) :
    ∃ g', (kf.withGains g).assign a = (kf.assign a).withGains g' := by
  cases a with
  | B v => cases v <;> exact ⟨g, rfl⟩
  | kalmanGains v => exact ⟨v, rfl⟩
  | _ => exact ⟨g, rfl⟩

theorem new_fields {A : NDArray F} {x : Arr F} {B : Option (NDArray F)} {P : Arr F} {H Q R : NDArray F} {s : Option ℤ} {kf : KalmanFilter F}
    (h : KalmanFilter.new A x B P H Q R s = .ok kf) :
    kf = { A := A, xk := x, B := checkNoneAndBroadcast B A, Pk := P, H := H, Q := Q, R := R, stateSize := kf.stateSize,
           I := Arr.identity kf.stateSize, kalmanGains := [] } := by
  simp only [KalmanFilter.new] at h
  split at h
  · simp at h; rw [← h]
  · simp at h
  · split at h
    · simp at h
    · simp at h; rw [← h]

end KalmanFilter

/-- C151 (only assignments count): the object after any calls and assignments is, but for the recorded gains, the object after
the assignments alone. -/
theorem C151_calls_in_between (kf : KalmanFilter F) (evs : List (KalmanFilter.Event F)) :
    ∃ g, kf.afterEvents evs = { kf.afterEvents (KalmanFilter.assignments evs) with kalmanGains := g } := by
  suffices h : ∀ (evs : List (KalmanFilter.Event F)) (g : List (Arr F)) (kf : KalmanFilter F),
      ∃ g', (kf.withGains g).afterEvents evs = (kf.afterEvents (KalmanFilter.assignments evs)).withGains g' from h evs kf.kalmanGains kf
  intro evs
  induction evs with
  | nil => intro g kf; exact ⟨g, rfl⟩
  | cons e evs ih =>
    intro g kf
    rcases e with c | a
    · obtain ⟨g1, h1⟩ := (kf.withGains g).exec_state c
      rw [KalmanFilter.afterEvents_cons]
      show ∃ g', ((kf.withGains g).exec c).2.afterEvents evs = _
      rw [h1]
      exact ih g1 kf
    · obtain ⟨g1, h1⟩ := kf.assign_withGains g a
      rw [KalmanFilter.afterEvents_cons]
      show ∃ g', ((kf.withGains g).assign a).afterEvents evs = _
      rw [h1]
      exact ih g1 (kf.assign a)

/-- C151 (assigned parameters work like constructor arguments): after any calls and assignments, except to `state_size`, every call does
what it does on a new object built from the values the attributes have now, with `B` given, as long as the new object has the same
`state_size`; the gains it records are added to those the object has. -/
theorem C151_assigned (A : NDArray F) (x : Arr F) (B : Option (NDArray F)) (P : Arr F) (H Q R : NDArray F) (s s' : Option ℤ)
    (kf fresh : KalmanFilter F) (hnew : KalmanFilter.new A x B P H Q R s = .ok kf) (evs : List (KalmanFilter.Event F))
    (hev : KalmanFilter.KeepsSize evs) (o : KalmanFilter F) (ho : o = kf.afterEvents evs)
    (hfresh : KalmanFilter.new o.A o.xk (some o.B) o.Pk o.H o.Q o.R s' = .ok fresh) (hsize : fresh.stateSize = kf.stateSize)
    (c : KalmanFilter.Call F) :
    (o.exec c).1 = (fresh.exec c).1 ∧
    (o.exec c).2 = { o with kalmanGains := o.kalmanGains ++ (fresh.exec c).2.kalmanGains } := by
  have h1 := KalmanFilter.new_fields hfresh
  have hI : o.I = Arr.identity kf.stateSize := by
    rw [ho, KalmanFilter.afterEvents_I, KalmanFilter.new_fields hnew]
  have hs : o.stateSize = kf.stateSize := by rw [ho, KalmanFilter.afterEvents_size _ hev]
  have e : o = fresh.withGains o.kalmanGains := by
    rw [h1, hsize]
    simp only [KalmanFilter.withGains]
    show o = { o with B := o.B, stateSize := kf.stateSize, I := Arr.identity kf.stateSize }
    rw [← hI, ← hs]
  have h2 := fresh.exec_eq c o.kalmanGains
  rw [← e] at h2
  have h3 := fresh.exec_eq c []
  have e3 : fresh.withGains [] = fresh := by rw [h1]; rfl
  rw [e3] at h3
  rw [h2]
  refine ⟨rfl, ?_⟩
  rw [h3]
  exact (congrArg (fun k : KalmanFilter F => k.withGains (o.kalmanGains ++ fresh.gainsOf c)) e).symm

/-- C151 (assigning None to `B`): this does not mean "no control": every call of `filter` and `smooth` raises TypeError and leaves the object as
it is. -/
theorem C151_B_none (kf : KalmanFilter F) (Z : NDArray F) (U : Option (NDArray F)) :
    let o := kf.assign (.B none)
    (KalmanFilter.filter Z U).run o = (.error .typeError, o) ∧ (KalmanFilter.smooth Z U).run o = (.error .typeError, o) := by
  intro o
  exact C19_scalar_parameter o Z U (.inr (.inr (.inl fun h => h)))

/-! ## `B=None` at construction -/

theorem unused_rows {o fresh : KalmanFilter F} {Z : NDArray F} {U : Option (NDArray F)} (hA : o.A = fresh.A) (hH : o.H = fresh.H)
    (hQ : o.Q = fresh.Q) (hR : o.R = fresh.R) (h : NoControl o Z U) (h' : NoControl fresh Z U)
    (hlen : o.steps Z U ≤ fresh.steps Z U) :
    List.Forall₂ (fun r r' : KalmanFilter.Row F => r.1 = r'.1 ∧ r.2.1 = r'.2.1 ∧
        r.2.2.2.2 = r'.2.2.2.2 ∧ (r.2.2.1.isnanAll || r.2.2.2.1.isnanAll) = true ∧
        (r'.2.2.1.isnanAll || r'.2.2.2.1.isnanAll) = true)
      (o.zrows Z U) ((fresh.zrows Z U).take (o.steps Z U)) := by
  refine forall₂_of_getElem? _ _ _ (by
    rw [List.length_take, KalmanFilter.zrows_length, KalmanFilter.zrows_length]; omega) ?_
  rintro k ⟨A1, H1, B1, u1, z1, Q1, R1⟩ ⟨A2, H2, B2, u2, z2, Q2, R2⟩ h1 h2
  rw [List.getElem?_take] at h2
  split at h2
  · simp only [KalmanFilter.zrows, List.getElem?_zip_eq_some] at h1 h2
    obtain ⟨a1, a2, a3, a4, a5, a6, a7⟩ := h1
    obtain ⟨b1, b2, b3, b4, b5, b6, b7⟩ := h2
    rw [hA] at a1
    rw [hH] at a2
    rw [hQ] at a6
    rw [hR] at a7
    simp only [a1, a2, a5, a6, a7, Option.some.injEq] at b1 b2 b5 b6 b7
    subst b1 b2 b5 b6 b7
    have e1 := h k B1 u1 a3 a4
    have e2 := h' k B2 u2 b3 b4
    simp only [← Arr.isnanAll_iff_blank] at e1 e2
    exact ⟨rfl, rfl, rfl, by simpa using e1, by simpa using e2⟩
  · simp at h2

theorem rows_fullLikeNan (A : NDArray F) : A.fullLikeNan.rows.length = A.rows.length := by
  have : A.fullLikeNan.rows = A.rows.map Arr.fullLikeNan := KalmanFilter.effU_rows_none A
  rw [this, List.length_map]

theorem pad_take {α : Type} (l : List α) (c : α) (L T N : ℕ) (hl : l.length = T) (hN : T ≤ N) :
    l.take (min L T) ++ List.replicate (N - min L T) c =
      (l ++ List.replicate (N - T) c).take L ++ List.replicate (N - L) c := by
  rw [List.take_append, List.take_replicate, List.append_assoc, List.replicate_append_replicate]
  by_cases h : L ≤ T
  · rw [show min L T = L by omega, show min (L - l.length) (N - T) + (N - L) = N - L by omega]
  · rw [show min L T = T by omega, List.take_of_length_le (l := l) (by omega), List.take_of_length_le (l := l) (by omega),
      show min (L - l.length) (N - T) + (N - L) = N - T by omega]

theorem gains_take {α : Type} {G G1 g : List α} {L T : ℕ} (h : G = G1 ++ g) (h1 : G1.length = min L T) (h2 : G.length = T) : G1 = G.take L := by
  subst h
  rw [List.length_append] at h2
  rw [List.take_append, List.take_of_length_le (l := G1) (by omega)]
  by_cases hLT : L ≤ T
  · rw [show L - G1.length = 0 by omega]; simp
  · have : g = [] := List.length_eq_zero_iff.1 (by omega)
    rw [this]; simp

/-- C151 (`B=None` at construction, longer data later): the marker that replaced `B` keeps the number of rows the first `A` had.  If
`A` and the rest are assigned to for more data, `filter` processes only that many rows, without an error: the rows of a new
object with `B=None` up to there and zeros after it, and `smooth` raises IndexError.  -/
theorem C151_stale_length (hnan : Backend.isnan (Backend.nan : F) = true) (A : NDArray F) (x P : Arr F) (H Q R : NDArray F)
    (s s' : Option ℤ) (kf fresh : KalmanFilter F) (hA : ∀ a ∈ A.rows, a.dtype = .float64) (iA : A.Iterable)
    (hnew : KalmanFilter.new A x none P H Q R s = .ok kf) (evs : List (KalmanFilter.Event F))
    (hev : KalmanFilter.KeepsSize evs) (hevB : KalmanFilter.KeepsB evs) (o : KalmanFilter F) (ho : o = kf.afterEvents evs)
    (hA' : ∀ a ∈ o.A.rows, a.dtype = .float64)
    (hfresh : KalmanFilter.new o.A o.xk none o.Pk o.H o.Q o.R s' = .ok fresh) (hsize : fresh.stateSize = kf.stateSize)
    (Z : NDArray F) (U : Option (NDArray F)) (xs Ps : List (Arr F)) (fresh' : KalmanFilter F)
    (hf : (KalmanFilter.filter Z U).run fresh = (.ok (xs, Ps), fresh')) :
    let o' : KalmanFilter F := { o with kalmanGains := o.kalmanGains ++ fresh'.kalmanGains.take A.rows.length }
    (KalmanFilter.filter Z U).run o =
      (.ok (xs.take A.rows.length ++ List.replicate (Z.rows.length - A.rows.length) (Arr.zerosVec kf.stateSize),
            Ps.take A.rows.length ++ List.replicate (Z.rows.length - A.rows.length) (Arr.zerosMat kf.stateSize)), o') ∧
    (2 ≤ Z.rows.length → A.rows.length < Z.rows.length → (KalmanFilter.smooth Z U).run o = (.error .indexError, o')) := by
  intro o'
  have h1 := KalmanFilter.new_fields hfresh
  have h0 := KalmanFilter.new_fields hnew
  have hI : o.I = Arr.identity kf.stateSize := by
    rw [ho, KalmanFilter.afterEvents_I, h0]
  have hs : o.stateSize = kf.stateSize := by rw [ho, KalmanFilter.afterEvents_size _ hev]
  have hB : o.B = A.fullLikeNan := by rw [ho, KalmanFilter.afterEvents_B _ hevB, h0]; rfl
  have eA : fresh.A = o.A := by rw [h1]
  have eH : fresh.H = o.H := by rw [h1]
  have eQ : fresh.Q = o.Q := by rw [h1]
  have eR : fresh.R = o.R := by rw [h1]
  have ex : fresh.xk = o.xk := by rw [h1]
  have eP : fresh.Pk = o.Pk := by rw [h1]
  have eI : fresh.I = o.I := by rw [hI, ← hsize, h1]
  have eB : fresh.B = o.A.fullLikeNan := by rw [h1]; rfl
  have eg : fresh.kalmanGains = [] := by rw [h1]
  have es : fresh.stateSize = o.stateSize := by rw [hs, hsize]
  have nc : NoControl fresh Z U := C09_none_B hnan o.A o.xk o.Pk o.H o.Q o.R s' fresh Z U hA' hfresh
  have nc' : NoControl o Z U := by
    have := C09_none_B hnan A x P H Q R s kf Z U hA hnew
    intro k b u hb hu
    rw [hB] at hb
    refine this k b u ?_ hu
    rw [h0]; exact hb
  have iB : o.B.Iterable := by
    rw [hB]
    obtain ⟨l, rfl⟩ := iA.exists
    trivial
  have hst : o.steps Z U = min A.rows.length (fresh.steps Z U) := by
    simp only [KalmanFilter.steps, eA, eH, eQ, eR, eB, hB, rows_fullLikeNan]; omega
  have hrows := unused_rows (fresh := fresh) eA.symm eH.symm eQ.symm eR.symm nc' nc (by omega)
  have hi := KalmanFilter.ok_iter hf
  have hi' : o.AllIterable Z U := ⟨eA ▸ hi.A, eH ▸ hi.H, iB, hi.U, hi.Z, eQ ▸ hi.Q, eR ▸ hi.R⟩
  have herr := KalmanFilter.ok_err hf
  have htr : o.tr Z U = trace (KalmanFilter.step fresh.stateSize fresh.I) ((fresh.zrows Z U).take (o.steps Z U)) fresh.xk fresh.Pk := by
    simp only [KalmanFilter.tr, ex, eP]
    refine trace_rel _ _ _ ?_ _ _ hrows o.xk o.Pk
    rintro ⟨A1, H1, B1, u1, z1, Q1, R1⟩ ⟨A2, H2, B2, u2, z2, Q2, R2⟩ ⟨h1, h2, h3, h4, h5⟩ x P
    simp only [Prod.mk.injEq] at h1 h2 h3 h4 h5
    obtain ⟨h3, h6, h7⟩ := h3
    subst h1 h2 h3 h6 h7
    simp only [KalmanFilter.step, KalmanFilter.predict_skip h4, KalmanFilter.predict_skip h5, es, eI]
  obtain ⟨t1, t2, g, t3⟩ := trace_take (KalmanFilter.step fresh.stateSize fresh.I) (o.steps Z U) _ _ _ herr
  have hl := trace_length _ _ _ _ herr
  rw [KalmanFilter.zrows_length] at hl
  have hgl := trace_gains_length _ (KalmanFilter.stepGain _ _) _ _ _ herr
  have hgl' := trace_gains_length _ (KalmanFilter.stepGain _ _) _ _ _ t1
  rw [List.length_take, KalmanFilter.zrows_length] at hgl'
  rw [KalmanFilter.zrows_length] at hgl
  have hTZ : fresh.steps Z U ≤ Z.rows.length := by simp only [KalmanFilter.steps]; omega
  have hf' := hf
  rw [KalmanFilter.filter_iter hi] at hf'
  have herr' : (fresh.tr Z U).err = none := herr
  simp only [herr', Prod.mk.injEq, Except.ok.injEq] at hf'
  obtain ⟨⟨rfl, rfl⟩, rfl⟩ := hf'
  have key : (KalmanFilter.filter Z U).run o =
      (.ok (((fresh.tr Z U).outs.map Prod.fst ++ List.replicate (Z.rows.length - fresh.steps Z U) (Arr.zerosVec fresh.stateSize)).take A.rows.length
              ++ List.replicate (Z.rows.length - A.rows.length) (Arr.zerosVec kf.stateSize),
            ((fresh.tr Z U).outs.map Prod.snd ++ List.replicate (Z.rows.length - fresh.steps Z U) (Arr.zerosMat fresh.stateSize)).take A.rows.length
              ++ List.replicate (Z.rows.length - A.rows.length) (Arr.zerosMat kf.stateSize)), o') := by
    rw [KalmanFilter.filter_iter hi', htr, t1, t2, hst, hs, ← hsize, List.map_take, List.map_take]
    have hl' : ((fresh.tr Z U).outs).length = fresh.steps Z U := hl
    simp only [Prod.mk.injEq, Except.ok.injEq]
    refine ⟨⟨?_, ?_⟩, ?_⟩
    · refine pad_take _ _ A.rows.length (fresh.steps Z U) Z.rows.length ?_ hTZ
      rw [List.length_map]; exact hl'
    · refine pad_take _ _ A.rows.length (fresh.steps Z U) Z.rows.length ?_ hTZ
      rw [List.length_map]; exact hl'
    · show o.addGains _ = o'
      simp only [o', KalmanFilter.addGains, eg, List.nil_append]
      rw [← hst]
      have : (trace (KalmanFilter.step fresh.stateSize fresh.I) ((fresh.zrows Z U).take (o.steps Z U)) fresh.xk fresh.Pk).gains =
          (fresh.tr Z U).gains.take A.rows.length := by
        exact gains_take t3 (by rw [hgl']; omega) hgl
      rw [this]
  refine ⟨key, fun h2 h3 => ?_⟩
  rw [C88_short_sequence o Z U hi' h2 (.inr (.inl (by rw [hB, rows_fullLikeNan]; exact h3))), key]

/-- C151 (`B=None` at construction, at most as many observations as the first `A` had rows): `filter` and `smooth` do what they do on
a new object with `B=None`. -/
theorem C151_without_control (hnan : Backend.isnan (Backend.nan : F) = true) (A : NDArray F) (x P : Arr F) (H Q R : NDArray F)
    (s s' : Option ℤ) (kf fresh : KalmanFilter F) (hA : ∀ a ∈ A.rows, a.dtype = .float64) (iA : A.Iterable)
    (hnew : KalmanFilter.new A x none P H Q R s = .ok kf) (evs : List (KalmanFilter.Event F))
    (hev : KalmanFilter.KeepsSize evs) (hevB : KalmanFilter.KeepsB evs) (o : KalmanFilter F) (ho : o = kf.afterEvents evs)
    (hA' : ∀ a ∈ o.A.rows, a.dtype = .float64) (iA' : o.A.Iterable)
    (hfresh : KalmanFilter.new o.A o.xk none o.Pk o.H o.Q o.R s' = .ok fresh) (hsize : fresh.stateSize = kf.stateSize)
    (Z : NDArray F) (U : Option (NDArray F)) (iU : (effU U Z).Iterable)
    (hZ : Z.rows.length ≤ A.rows.length) (hZ' : Z.rows.length ≤ o.A.rows.length) (hU : Z.rows.length ≤ (effU U Z).rows.length) :
    ((KalmanFilter.filter Z U).run o).1 = ((KalmanFilter.filter Z U).run fresh).1 ∧
    ((KalmanFilter.filter Z U).run o).2.kalmanGains = o.kalmanGains ++ ((KalmanFilter.filter Z U).run fresh).2.kalmanGains ∧
    ((KalmanFilter.smooth Z U).run o).1 = ((KalmanFilter.smooth Z U).run fresh).1 := by
  have h1 := KalmanFilter.new_fields hfresh
  have h0 := KalmanFilter.new_fields hnew
  have hI : o.I = Arr.identity kf.stateSize := by
    rw [ho, KalmanFilter.afterEvents_I, h0]
  have hs : o.stateSize = kf.stateSize := by rw [ho, KalmanFilter.afterEvents_size _ hev]
  have hB : o.B = A.fullLikeNan := by rw [ho, KalmanFilter.afterEvents_B _ hevB, h0]; rfl
  have e : { o with B := fresh.B } = fresh.withGains o.kalmanGains := by
    rw [h1, hsize]
    simp only [KalmanFilter.withGains]
    rw [← hI, ← hs]
  have nc : NoControl fresh Z U := C09_none_B hnan o.A o.xk o.Pk o.H o.Q o.R s' fresh Z U hA' hfresh
  have nc' : NoControl o Z U := by
    have := C09_none_B hnan A x P H Q R s kf Z U hA hnew
    intro k b u hb hu
    rw [hB] at hb
    refine this k b u ?_ hu
    rw [h0]; exact hb
  have iB : ∀ A : NDArray F, A.Iterable → A.fullLikeNan.Iterable := by
    intro A iA
    obtain ⟨l, rfl⟩ := iA.exists
    trivial
  have eB : fresh.B = o.A.fullLikeNan := by rw [h1]; rfl
  obtain ⟨⟨c1, c2⟩, c3⟩ := C09_control_irrelevant o fresh.B Z U U nc' nc (hB ▸ iB A iA) (eB ▸ iB o.A iA') iU iU
    (by rw [hB, rows_fullLikeNan]; exact hZ) (by rw [eB, rows_fullLikeNan]; exact hZ') hU hU
  rw [e] at c1 c2 c3
  have e3 : fresh.withGains [] = fresh := by rw [h1]; rfl
  have f1 := fresh.exec_eq (.filter Z U) o.kalmanGains
  have f2 := fresh.exec_eq (.filter Z U) []
  rw [e3] at f2
  have f3 := fresh.exec_eq (.smooth Z U) o.kalmanGains
  simp only [KalmanFilter.exec, Prod.mk.injEq, Outcome.rows.injEq] at f1 f2 f3
  refine ⟨by rw [c1, f1.1], ?_, by rw [c3, f3.1]⟩
  rw [c2, f1.2, f2.2]
  rfl

/-! ## Another number of states -/

/-- C151 (a model with another number of states, `state_size` not assigned to): `filter` and `smooth` raise ValueError or LinAlgError on
nonempty data. -/
theorem C151_other_size (A : NDArray F) (x : Arr F) (B : Option (NDArray F)) (P : Arr F) (H Q R : NDArray F) (s : Option ℤ)
    (kf : KalmanFilter F) (hnew : KalmanFilter.new A x B P H Q R s = .ok kf) (evs : List (KalmanFilter.Event F))
    (hev : KalmanFilter.KeepsSize evs) (o : KalmanFilter F) (ho : o = kf.afterEvents evs) (n m : ℕ) (Z : NDArray F) (U : Option (NDArray F))
    (hl : Layout n m { o with stateSize := n, I := Arr.identity n } Z U) (hn : n ≠ kf.stateSize)
    (hi : o.AllIterable Z U) (hst : 0 < o.steps Z U) :
    ∃ e o', (e = .valueError ∨ e = .linAlgError) ∧ (KalmanFilter.filter Z U).run o = (.error e, o') ∧
      (KalmanFilter.smooth Z U).run o = (.error e, o') := by
  have hI : o.I = Arr.identity kf.stateSize := by
    rw [ho, KalmanFilter.afterEvents_I, KalmanFilter.new_fields hnew]
  have hs : o.stateSize = kf.stateSize := by rw [ho, KalmanFilter.afterEvents_size _ hev]
  refine KalmanFilter.first_step_raises hi hst _ ?_
  intro r hr
  rw [hI, hs]
  exact KalmanFilter.step_wrong_size (KalmanFilter.mem_zrows hl r hr) hl.x hl.P hn.symm

/-- A step with an identity matrix of another size. -/
theorem KalmanFilter.step_stale {n m s : ℕ} {r : KalmanFilter.Row F} {x P : Arr F}
    (h : RowLayout n m r.1 r.2.1 r.2.2.1 r.2.2.2.1 r.2.2.2.2.1 r.2.2.2.2.2.1 r.2.2.2.2.2.2)
    (hx : x.shape = [n]) (hP : P.shape = [n, n]) (hs : s ≠ n) (hs2 : 2 ≤ s) (t : ℕ) :
    ∃ g e, KalmanFilter.step t (Arr.identity s) r x P = (g, .error e) ∧
      (e = .valueError ∨ e = .linAlgError) := by
  obtain ⟨Ak, Hk, Bk, uk, zk, Qk, Rk⟩ := r
  simp only at h
  obtain ⟨d, xp, e, Pp, hp⟩ := KalmanFilter.predict_layout h hx hP
  simp only [KalmanFilter.step, hp]
  rcases gain_layout (P := .mat e Pp) h.H rfl h.R with hg | ⟨K, hg⟩
  · exact ⟨none, _, by simp only [hg], .inr rfl⟩
  · simp only [hg]
    refine ⟨_, .valueError, Prod.ext rfl ?_, .inl rfl⟩
    obtain ⟨dH, H, hH⟩ := Arr.eq_mat h.H
    subst hH
    simp only [KalmanFilter.correct, Arr.matmul_mv, Except.bind_ok']
    obtain ⟨d', v, hv⟩ := residual_layout (y := .vec (dH.promote d) fun i =>
      Backend.gemm (n := 1) H (fun i _ => xp i) i 0) h.z rfl
    rw [hv]
    simp only [Except.bind_ok', Arr.atleast1d_vec, Arr.matmul_mv, Arr.add_vv, Arr.matmul_mm,
      identity_eq]
    simp only [Arr.sub, Arr.zipWith_mat_left]
    rcases Arr.zipWith2_rows Backend.sub (Arr.mat .float64 (idM s : Matrix _ _ F))
      (.mat (DType.promote .float64 dH) (Backend.gemm K H)) with h0 | ⟨r, c, d2, M, h1, h2, h3⟩
    · simp only [h0, Except.bind_error']
    · simp only [Arr.dims2] at h1 h2
      rw [h1] at h2
      simp only [Except.ok.injEq] at h2
      subst h2
      simp only [h3, Except.bind_ok', Arr.matmul]
      obtain ⟨h4, h5⟩ := Arr.bdim_eq h1
      by_cases hr : r = n
      · omega
      · simp only [hr, dite_false, Except.bind_error']

/-- C151 (a model with another number of states, `state_size` assigned to as well, object built for two or more states): the object keeps an
identity matrix of the old size, and `filter` and `smooth` raise ValueError or LinAlgError on nonempty data. -/
theorem C151_size_assigned (A : NDArray F) (x : Arr F) (B : Option (NDArray F)) (P : Arr F) (H Q R : NDArray F) (s : Option ℤ)
    (kf : KalmanFilter F) (hnew : KalmanFilter.new A x B P H Q R s = .ok kf) (evs : List (KalmanFilter.Event F))
    (o : KalmanFilter F) (ho : o = kf.afterEvents evs) (n m : ℕ) (Z : NDArray F) (U : Option (NDArray F))
    (hl : Layout n m { o with I := Arr.identity n } Z U) (hn : n ≠ kf.stateSize) (h2 : 2 ≤ kf.stateSize)
    (hi : o.AllIterable Z U) (hst : 0 < o.steps Z U) :
    ∃ e o', (e = .valueError ∨ e = .linAlgError) ∧ (KalmanFilter.filter Z U).run o = (.error e, o') ∧
      (KalmanFilter.smooth Z U).run o = (.error e, o') := by
  have hI : o.I = Arr.identity kf.stateSize := by
    rw [ho, KalmanFilter.afterEvents_I, KalmanFilter.new_fields hnew]
  refine KalmanFilter.first_step_raises hi hst _ ?_
  intro r hr
  rw [hI]
  exact KalmanFilter.step_stale (KalmanFilter.mem_zrows hl r hr) hl.x hl.P hn.symm h2 _

theorem Arr.stretch_single {α : Type} (d : ℕ) (v : Fin 1 → α) : Arr.stretch d v = .ok fun _ => v 0 := by
  unfold Arr.stretch
  split
  · next h =>
    subst h
    congr 1
    funext i
    congr 1
    exact Subsingleton.elim _ _
  · simp

/-- The all-ones matrix, as a matrix. -/
def onesM (n : ℕ) : Matrix (Fin n) (Fin n) F := fun _ _ => Backend.one

theorem Arr.toMat_one (n : ℕ) : (Arr.mat .float64 (idM 1) : Arr F).toMat n n = .ok (onesM n) := by
  simp only [Arr.toMat, Arr.stretch_single, Except.bind_ok']
  rw [show Arr.stretch n (idM 1 : Matrix (Fin 1) (Fin 1) F) = .ok fun _ => (idM 1 : Matrix (Fin 1) (Fin 1) F) 0 from
    Arr.stretch_single n (fun i => (idM 1 : Matrix (Fin 1) (Fin 1) F) i)]
  rfl

theorem Arr.sub_single {n : ℕ} (e : DType) (N : Matrix (Fin n) (Fin n) F) :
    (Arr.identity 1 : Arr F).sub (.mat e N) = (Arr.mat .float64 (onesM n)).sub (.mat e N) := by
  rw [identity_eq]
  simp only [Arr.sub, Arr.zipWith_mat_left, Arr.zipWith2, Arr.dims2, Arr.dtype, Arr.bdim_one_left, Except.bind_ok', toMat_self, Arr.toMat_one]
  by_cases h : n = 1
  · subst h
    simp [Arr.toMat_one, Arr.bdim]
  · simp [Arr.toMat_one, Arr.bdim]

theorem KalmanFilter.correct_one {n m : ℕ} {Hk zk x P : Arr F} (hH : Hk.shape = [m, n]) (hx : x.shape = [n])
    (hP : P.shape = [n, n]) (hz : zk.shape = [m] ∨ zk.shape = []) (K : Matrix (Fin n) (Fin m) F) :
    ∃ (x' : Fin n → F) (P' : Matrix (Fin n) (Fin n) F),
      KalmanFilter.correct (Arr.ones n) (.mat .float64 K) Hk x P zk = .ok (.vec .float64 x', .mat .float64 P') ∧
      KalmanFilter.correct (Arr.identity 1) (.mat .float64 K) Hk x P zk = .ok (.vec .float64 x', .mat .float64 P') := by
  obtain ⟨dH, H, rfl⟩ := Arr.eq_mat hH
  obtain ⟨dx, x, rfl⟩ := Arr.eq_vec hx
  obtain ⟨dP, P, rfl⟩ := Arr.eq_mat hP
  have e1 : (Arr.ones n : Arr F) = .mat .float64 (onesM n) := rfl
  simp only [KalmanFilter.correct, Arr.matmul_mv, Except.bind_ok']
  obtain ⟨d, v, hv⟩ := residual_layout (y := .vec (dH.promote dx) fun i =>
    Backend.gemm (n := 1) H (fun i _ => x i) i 0) hz rfl
  rw [hv]
  simp only [Except.bind_ok', Arr.atleast1d_vec, Arr.matmul_mv, Arr.add_vv, Arr.matmul_mm, Arr.sub_single, e1, Arr.sub_mm,
    Arr.promote_float_left, Arr.promote_float_right]
  exact ⟨_, _, rfl, rfl⟩

/-- C151 (as before, object built for one state): nothing is raised for it; instead every covariance update uses the all-ones matrix in
place of the identity. -/
theorem C151_size_assigned_from_one (A : NDArray F) (x : Arr F) (B : Option (NDArray F)) (P : Arr F) (H Q R : NDArray F) (s : Option ℤ)
    (kf : KalmanFilter F) (hnew : KalmanFilter.new A x B P H Q R s = .ok kf) (evs : List (KalmanFilter.Event F))
    (o : KalmanFilter F) (ho : o = kf.afterEvents evs) (n m : ℕ) (Z : NDArray F) (U : Option (NDArray F))
    (hl : Layout n m { o with I := Arr.identity n } Z U) (h1 : kf.stateSize = 1) (hi : o.AllIterable Z U) :
    let ones : KalmanFilter F := { o with I := Arr.ones n }
    ((KalmanFilter.filter Z U).run o).1 = ((KalmanFilter.filter Z U).run ones).1 ∧
    ((KalmanFilter.filter Z U).run o).2.kalmanGains = ((KalmanFilter.filter Z U).run ones).2.kalmanGains ∧
    ((KalmanFilter.smooth Z U).run o).1 = ((KalmanFilter.smooth Z U).run ones).1 ∧
    (∀ e, ((KalmanFilter.filter Z U).run o).1 = .error e → e = .linAlgError) := by
  intro ones
  have hI : o.I = Arr.identity 1 := by
    rw [ho, KalmanFilter.afterEvents_I, KalmanFilter.new_fields hnew, h1]
  have hsz : o.stateSize = n := hl.size
  have hst : ∀ r ∈ o.zrows Z U, ∀ x P, KalmanFilter.Shaped n x P →
      (KalmanFilter.step n (Arr.identity 1) r x P = (none, .error .linAlgError) ∧
        KalmanFilter.step n (Arr.ones n) r x P = (none, .error .linAlgError)) ∨
      ∃ (g : Option (Arr F)) (x' : Fin n → F) (P' : Matrix (Fin n) (Fin n) F),
        KalmanFilter.step n (Arr.identity 1) r x P = (g, .ok ((.vec .float64 x', .mat .float64 P'), (.vec .float64 x', .mat .float64 P'))) ∧
        KalmanFilter.step n (Arr.ones n) r x P = (g, .ok ((.vec .float64 x', .mat .float64 P'), (.vec .float64 x', .mat .float64 P'))) := by
    intro r hr x P hsh
    have h := KalmanFilter.mem_zrows hl r hr
    obtain ⟨Ak, Hk, Bk, uk, zk, Qk, Rk⟩ := r
    simp only at h
    obtain ⟨d, xp, e, Pp, hp⟩ := KalmanFilter.predict_layout h hsh.1 hsh.2
    simp only [KalmanFilter.step, hp]
    rcases gain_layout (P := .mat e Pp) h.H rfl h.R with hg | ⟨K, hg⟩
    · left; simp only [hg]; trivial
    · right
      simp only [hg]
      obtain ⟨x', P', hc, hc'⟩ := KalmanFilter.correct_one (x := .vec d xp) (P := .mat e Pp) h.H rfl rfl h.z K
      rw [hc, hc']
      simp only [Except.bind_ok', Arr.assignVec_vec, Arr.assignMat_mat]
      exact ⟨_, _, _, rfl, rfl⟩
  have htr : o.tr Z U = ones.tr Z U := by
    simp only [KalmanFilter.tr]
    refine trace_rel_inv _ _ (fun r r' => r = r' ∧ r ∈ o.zrows Z U) (KalmanFilter.Shaped n) ?_ ?_ _ _
      (List.forall₂_same.2 fun r hr => ⟨rfl, hr⟩) o.xk o.Pk ⟨hl.x, hl.P⟩
    · rintro r _ ⟨rfl, hr⟩ x P hsh
      show KalmanFilter.step o.stateSize o.I r x P = KalmanFilter.step o.stateSize (Arr.ones n) r x P
      rw [hsz, hI]
      rcases hst r hr x P hsh with ⟨a, b⟩ | ⟨g, x', P', a, b⟩ <;> rw [a, b]
    · rintro r _ ⟨rfl, hr⟩ x P g xP out hsh
      show KalmanFilter.step o.stateSize (Arr.ones n) r x P = _ → _
      rw [hsz]
      rcases hst r hr x P hsh with ⟨a, b⟩ | ⟨g, x', P', a, b⟩
      · rw [b]; simp
      · rw [b]
        intro h
        simp only [Prod.mk.injEq, Except.ok.injEq] at h
        rw [← h.2.1]
        exact ⟨rfl, rfl⟩
  have hi' : ones.AllIterable Z U := ⟨hi.A, hi.H, hi.B, hi.U, hi.Z, hi.Q, hi.R⟩
  have hf : (KalmanFilter.filter Z U).run ones = (((KalmanFilter.filter Z U).run o).1,
      { ((KalmanFilter.filter Z U).run o).2 with I := Arr.ones n }) := by
    rw [KalmanFilter.filter_iter hi, KalmanFilter.filter_iter hi', ← htr]
    rfl
  refine ⟨by rw [hf], by rw [hf], ?_, ?_⟩
  · rw [KalmanFilter.smooth_eq, KalmanFilter.smooth_eq, hf]
    rcases hx : (KalmanFilter.filter Z U).run o with ⟨e | ⟨xe, Pe⟩, o'⟩ <;> rfl
  · have gen : ∀ (rs : List (KalmanFilter.Row F)) (x P : Arr F), (∀ r ∈ rs, r ∈ o.zrows Z U) → KalmanFilter.Shaped n x P →
        ∀ e, (trace (KalmanFilter.step n (Arr.identity 1)) rs x P).err = some e → e = .linAlgError := by
      intro rs
      induction rs with
      | nil => intro x P _ _ e h; simp [trace] at h
      | cons r rs ih =>
        intro x P hrs hsh e h
        rcases hst r (hrs r (List.mem_cons_self ..)) x P hsh with ⟨a, b⟩ | ⟨g, x', P', a, b⟩
        · simp [trace, a] at h; exact h.symm
        · simp only [trace, a] at h
          exact ih _ _ (fun r hr => hrs r (List.mem_cons_of_mem _ hr)) ⟨rfl, rfl⟩ e h
    intro e he
    rw [KalmanFilter.filter_iter hi] at he
    rcases ht : (o.tr Z U).err with _ | e'
    · simp [ht] at he
    · simp only [ht, Except.error.injEq] at he
      subst he
      refine gen (o.zrows Z U) o.xk o.Pk (fun _ h => h) ⟨hl.x, hl.P⟩ _ ?_
      rw [← hI, ← hsz]
      exact ht

/-! ## The extended filter -/

namespace ExtendedKalmanFilter

theorem afterEvents_cons (kf : ExtendedKalmanFilter F) (e : Event F) (evs : List (Event F)) :
    kf.afterEvents (e :: evs) = (match e with | .call c => (kf.exec c).2 | .assign a => kf.assign a).afterEvents evs := rfl

theorem exec_state (kf : ExtendedKalmanFilter F) (c : Call F) : ∃ g, (kf.exec c).2 = kf.withGains g := by
  obtain ⟨g, hg⟩ := kf.exec_withGains c []
  have := hg kf.kalmanGains
  rw [show kf.withGains kf.kalmanGains = kf from rfl] at this
  exact ⟨_, by rw [this]⟩

theorem afterEvents_I (evs : List (Event F)) : ∀ kf : ExtendedKalmanFilter F, (kf.afterEvents evs).I = kf.I := by
  induction evs with
  | nil => intro _; rfl
  | cons e evs ih =>
    intro kf
    rw [afterEvents_cons, ih]
    rcases e with c | a
    · obtain ⟨g, hg⟩ := kf.exec_state c
      show (kf.exec c).2.I = _
      rw [hg]; rfl
    · cases a <;> rfl

theorem afterEvents_size (evs : List (Event F)) (h : KeepsSize evs) :
    ∀ kf : ExtendedKalmanFilter F, (kf.afterEvents evs).stateSize = kf.stateSize := by
  induction evs with
  | nil => intro _; rfl
  | cons e evs ih =>
    intro kf
    rw [afterEvents_cons, ih (fun n hn => h n (List.mem_cons_of_mem _ hn))]
    rcases e with c | a
    · obtain ⟨g, hg⟩ := kf.exec_state c
      show (kf.exec c).2.stateSize = _
      rw [hg]; rfl
    · cases a with
      | stateSize n => exact absurd (List.mem_cons_self ..) (h n)
      | _ => rfl

theorem assign_withGains (kf : ExtendedKalmanFilter F) (g : List (Arr F)) (a : Assign F) :
    ∃ g', (kf.withGains g).assign a = (kf.assign a).withGains g' := by
  cases a with
  | kalmanGains v => exact ⟨v, rfl⟩
  | _ => exact ⟨g, rfl⟩

theorem new_fields {x P : Arr F} {Q R : NDArray F} {f : Arr F → Option (Arr F) → Except PyErr (Arr F)} {h : Arr F → Except PyErr (Arr F)}
    {jA : Arr F → Option (Arr F) → Except PyErr (Arr F)} {jH : Arr F → Except PyErr (Arr F)} {kf : ExtendedKalmanFilter F}
    (hnew : ExtendedKalmanFilter.new x P Q R f h jA jH = .ok kf) :
    kf = { f := f, jacobianA := jA, xk := x, Pk := P, h := h, jacobianH := jH, Q := Q, R := R, stateSize := kf.stateSize,
           I := Arr.identity kf.stateSize, kalmanGains := [] } := by
  simp only [ExtendedKalmanFilter.new] at hnew
  rcases hs : x.shape with _ | ⟨n, l⟩
  · simp [hs] at hnew
  · simp [hs] at hnew; rw [← hnew]

end ExtendedKalmanFilter

/-- C151, extended filter (only assignments count). -/
theorem C151_ext_calls_in_between (kf : ExtendedKalmanFilter F) (evs : List (ExtendedKalmanFilter.Event F)) :
    ∃ g, kf.afterEvents evs = { kf.afterEvents (ExtendedKalmanFilter.assignments evs) with kalmanGains := g } := by
  suffices h : ∀ (evs : List (ExtendedKalmanFilter.Event F)) (g : List (Arr F)) (kf : ExtendedKalmanFilter F),
      ∃ g', (kf.withGains g).afterEvents evs = (kf.afterEvents (ExtendedKalmanFilter.assignments evs)).withGains g' from
    h evs kf.kalmanGains kf
  intro evs
  induction evs with
  | nil => intro g kf; exact ⟨g, rfl⟩
  | cons e evs ih =>
    intro g kf
    rcases e with c | a
    · obtain ⟨g1, h1⟩ := (kf.withGains g).exec_state c
      rw [ExtendedKalmanFilter.afterEvents_cons]
      show ∃ g', ((kf.withGains g).exec c).2.afterEvents evs = _
      rw [h1]
      exact ih g1 kf
    · obtain ⟨g1, h1⟩ := kf.assign_withGains g a
      rw [ExtendedKalmanFilter.afterEvents_cons]
      show ∃ g', ((kf.withGains g).assign a).afterEvents evs = _
      rw [h1]
      exact ih g1 (kf.assign a)

/-- C151, extended filter (assigned parameters and functions work like constructor arguments). -/
theorem C151_ext_assigned (x P : Arr F) (Q R : NDArray F) (f : Arr F → Option (Arr F) → Except PyErr (Arr F)) (h : Arr F → Except PyErr (Arr F))
    (jA : Arr F → Option (Arr F) → Except PyErr (Arr F)) (jH : Arr F → Except PyErr (Arr F)) (kf fresh : ExtendedKalmanFilter F)
    (hnew : ExtendedKalmanFilter.new x P Q R f h jA jH = .ok kf) (evs : List (ExtendedKalmanFilter.Event F))
    (hev : ExtendedKalmanFilter.KeepsSize evs) (o : ExtendedKalmanFilter F) (ho : o = kf.afterEvents evs)
    (hfresh : ExtendedKalmanFilter.new o.xk o.Pk o.Q o.R o.f o.h o.jacobianA o.jacobianH = .ok fresh) (hsize : fresh.stateSize = kf.stateSize)
    (c : ExtendedKalmanFilter.Call F) :
    (o.exec c).1 = (fresh.exec c).1 ∧
    (o.exec c).2 = { o with kalmanGains := o.kalmanGains ++ (fresh.exec c).2.kalmanGains } := by
  have h1 := ExtendedKalmanFilter.new_fields hfresh
  have hI : o.I = Arr.identity kf.stateSize := by
    rw [ho, ExtendedKalmanFilter.afterEvents_I, ExtendedKalmanFilter.new_fields hnew]
  have hs : o.stateSize = kf.stateSize := by rw [ho, ExtendedKalmanFilter.afterEvents_size _ hev]
  have e : o = fresh.withGains o.kalmanGains := by
    rw [h1, hsize]
    simp only [ExtendedKalmanFilter.withGains]
    show o = { o with stateSize := kf.stateSize, I := Arr.identity kf.stateSize }
    rw [← hI, ← hs]
  obtain ⟨g, hg⟩ := fresh.exec_withGains c []
  have h2 := hg o.kalmanGains
  rw [← e] at h2
  have h3 := hg []
  have e3 : fresh.withGains [] = fresh := by rw [h1]; rfl
  rw [e3] at h3 h2
  rw [h2]
  refine ⟨rfl, ?_⟩
  rw [h3]
  exact (congrArg (fun k : ExtendedKalmanFilter F => k.withGains (o.kalmanGains ++ g)) e).symm

/-! ## Concrete cases -/

namespace Ex

/-- The events that put the constant-velocity model into an object, with a call before them. -/
def toCv (t : ℕ) : List (KalmanFilter.Event QN) :=
  [.call (.filter zs none), .assign (.A (cv t).A), .assign (.xk (cv t).xk), .assign (.B (some (cv t).B)), .assign (.Pk (cv t).Pk),
    .assign (.H (cv t).H), .assign (.Q (cv t).Q), .assign (.R (cv t).R)]

/-- A model with one state. -/
def walkOne : KalmanFilter QN where
  A := .stack [mat1 (some 1)]
  xk := vec1 (some 0)
  B := .stack [mat1 (some 0)]
  Pk := mat1 (some 1)
  H := .stack [mat1 (some 1)]
  Q := .stack [mat1 (some 1)]
  R := .stack [mat1 (some 1)]
  stateSize := 1
  I := Arr.identity 1
  kalmanGains := []

/-- A model with three states. -/
def zero3 : KalmanFilter QN where
  A := .stack [.identity 3]
  xk := .zerosVec 3
  B := .stack [.zerosMat 3]
  Pk := .identity 3
  H := .stack [.identity 3]
  Q := .stack [.identity 3]
  R := .stack [.identity 3]
  stateSize := 3
  I := Arr.identity 3
  kalmanGains := []

/-- The diagonal of the first covariance. -/
def firstDiag (r : Except PyErr (List (Arr QN) × List (Arr QN))) : List QN :=
  match r with
  | .ok (_, .mat (m := 2) (n := 2) _ M :: _) => [M 0 0, M 1 1]
  | _ => []

end Ex

-- C151: an object built for other measurements, filtered once, then given the constant-velocity model of three times.
example : ∃ kf fresh : KalmanFilter Ex.QN,
    let o := kf.afterEvents (Ex.toCv 3)
    KalmanFilter.new (Ex.cv 1).A (Ex.vec2 (some 5) (some 5)) (some (Ex.cv 1).B) (Ex.cv 1).Pk (Ex.cv 1).H (Ex.cv 1).Q (Ex.cv 1).R none = .ok kf ∧
    KalmanFilter.KeepsSize (Ex.toCv 3) ∧ KalmanFilter.new o.A o.xk (some o.B) o.Pk o.H o.Q o.R none = .ok fresh ∧
    fresh.stateSize = kf.stateSize ∧ ∃ r o', (KalmanFilter.smooth Ex.zs (some Ex.us)).run o = (.ok r, o') :=
  ⟨_, _, rfl, by intro n h; simp [Ex.toCv] at h, rfl, rfl, (Ex.returned_iff _).1 (by decide +kernel)⟩

-- C151: without control; built for two times, then given three times.
example : ∃ kf fresh : KalmanFilter Ex.QN,
    let evs : List (KalmanFilter.Event Ex.QN) := [.assign (.A (Ex.cv 3).A), .assign (.H (Ex.cv 3).H), .assign (.Q (Ex.cv 3).Q), .assign (.R (Ex.cv 3).R)]
    let o := kf.afterEvents evs
    (∀ a ∈ (Ex.cv 2).A.rows, a.dtype = .float64) ∧ (Ex.cv 2).A.Iterable ∧
    KalmanFilter.new (Ex.cv 2).A (Ex.cv 2).xk none (Ex.cv 2).Pk (Ex.cv 2).H (Ex.cv 2).Q (Ex.cv 2).R none = .ok kf ∧
    KalmanFilter.KeepsSize evs ∧ KalmanFilter.KeepsB evs ∧ (∀ a ∈ o.A.rows, a.dtype = .float64) ∧
    KalmanFilter.new o.A o.xk none o.Pk o.H o.Q o.R none = .ok fresh ∧ fresh.stateSize = kf.stateSize ∧
    (∃ r fresh', (KalmanFilter.filter Ex.zs none).run fresh = (.ok r, fresh')) ∧
    2 ≤ Ex.zs.rows.length ∧ (Ex.cv 2).A.rows.length < Ex.zs.rows.length := by
  refine ⟨_, _, ?_, trivial, rfl, ?_, ?_, ?_, rfl, rfl, (Ex.returned_iff _).1 (by decide +kernel), by decide, by decide⟩
  · intro a ha
    rw [List.eq_of_mem_replicate ha]; rfl
  · intro n h; simp at h
  · intro n h; simp at h
  · intro a ha
    rw [List.eq_of_mem_replicate (n := 3) ha]; rfl

-- C151: without control; built for three times, then given new observations of two times.
example : ∃ kf fresh : KalmanFilter Ex.QN,
    let evs : List (KalmanFilter.Event Ex.QN) := [.call (.filter Ex.zs none), .assign (.A (Ex.cv 3).A), .assign (.xk (Ex.vec2 (some 3) (some 1)))]
    let o := kf.afterEvents evs
    let Z : NDArray Ex.QN := .stack [Ex.vec1 (some 4), Ex.vec1 (some 5)]
    (∀ a ∈ (Ex.cv 3).A.rows, a.dtype = .float64) ∧ (Ex.cv 3).A.Iterable ∧
    KalmanFilter.new (Ex.cv 3).A (Ex.cv 3).xk none (Ex.cv 3).Pk (Ex.cv 3).H (Ex.cv 3).Q (Ex.cv 3).R none = .ok kf ∧
    KalmanFilter.KeepsSize evs ∧ KalmanFilter.KeepsB evs ∧ (∀ a ∈ o.A.rows, a.dtype = .float64) ∧ o.A.Iterable ∧
    KalmanFilter.new o.A o.xk none o.Pk o.H o.Q o.R none = .ok fresh ∧ fresh.stateSize = kf.stateSize ∧
    (effU none Z).Iterable ∧ Z.rows.length ≤ (Ex.cv 3).A.rows.length ∧ Z.rows.length ≤ o.A.rows.length ∧
    Z.rows.length ≤ (effU none Z).rows.length := by
  refine ⟨_, _, ?_, trivial, rfl, ?_, ?_, ?_, trivial, rfl, rfl, trivial, by decide, by decide, by decide⟩
  · intro a ha
    rw [List.eq_of_mem_replicate ha]; rfl
  · intro n h; simp at h
  · intro n h; simp at h
  · intro a ha
    rw [List.eq_of_mem_replicate (n := 3) ha]; rfl

-- C151: the constant-velocity model given to an object built for three states, without and with `state_size`.
example : ∃ kf : KalmanFilter Ex.QN, KalmanFilter.new Ex.zero3.A Ex.zero3.xk (some Ex.zero3.B) Ex.zero3.Pk Ex.zero3.H Ex.zero3.Q Ex.zero3.R none = .ok kf ∧
    KalmanFilter.KeepsSize (Ex.toCv 3) ∧
    (let o := kf.afterEvents (Ex.toCv 3)
    let Z : NDArray Ex.QN := .stack ([some 1, some 2].map Ex.vec1)
    Layout 2 1 { o with stateSize := 2, I := Arr.identity 2 } Z (some Z) ∧ 2 ≠ kf.stateSize ∧ 2 ≤ kf.stateSize ∧
    o.AllIterable Z (some Z) ∧ 0 < o.steps Z (some Z)) ∧
    (let o := kf.afterEvents (Ex.toCv 3 ++ [.assign (.stateSize 2)])
    let Z : NDArray Ex.QN := .stack ([some 1, some 2].map Ex.vec1)
    Layout 2 1 { o with I := Arr.identity 2 } Z (some Z) ∧ o.AllIterable Z (some Z) ∧ 0 < o.steps Z (some Z)) := by
  refine ⟨_, rfl, by intro n h; simp [Ex.toCv] at h, ⟨?_, by decide, by decide, ⟨trivial, trivial, trivial, trivial, trivial, trivial, trivial⟩, by decide⟩,
    ?_, ⟨trivial, trivial, trivial, trivial, trivial, trivial, trivial⟩, by decide⟩
  · have := Ex.cv_layout 3 [some 1, some 2] [some 1, some 2]
    exact ⟨this.x, this.P, this.size, this.ident, this.rows⟩
  · have := Ex.cv_layout 3 [some 1, some 2] [some 1, some 2]
    exact ⟨this.x, this.P, this.size, this.ident, this.rows⟩

-- C151: the constant-velocity model given to an object built for one state: the covariances differ from those of a new object.
example : ∃ kf : KalmanFilter Ex.QN, KalmanFilter.new Ex.walkOne.A Ex.walkOne.xk (some Ex.walkOne.B) Ex.walkOne.Pk Ex.walkOne.H Ex.walkOne.Q Ex.walkOne.R none = .ok kf ∧
    let o := kf.afterEvents (Ex.toCv 3 ++ [.assign (.stateSize 2)])
    let Z : NDArray Ex.QN := .stack ([some 1, some 2].map Ex.vec1)
    Layout 2 1 { o with I := Arr.identity 2 } Z (some Z) ∧ kf.stateSize = 1 ∧ o.AllIterable Z (some Z) ∧
    Ex.firstDiag ((KalmanFilter.filter Z (some Z)).run (Ex.cv 3)).1 = [some (13/17), some (69/68)] ∧
    Ex.firstDiag ((KalmanFilter.filter Z (some Z)).run o).1 = [some (30/17), some (137/68)] := by
  refine ⟨_, rfl, ?_, rfl, ⟨trivial, trivial, trivial, trivial, trivial, trivial, trivial⟩, by decide +kernel, by decide +kernel⟩
  have := Ex.cv_layout 3 [some 1, some 2] [some 1, some 2]
  exact ⟨this.x, this.P, this.size, this.ident, this.rows⟩

-- C151, extended filter: filtered once, then given another start and other noise.
example : ∃ kf fresh : ExtendedKalmanFilter Ex.QN,
    let evs : List (ExtendedKalmanFilter.Event Ex.QN) := [.call (.filter Ex.zs (some Ex.us)), .assign (.xk (Ex.vec2 (some 3) (some 1))),
      .assign (.R (.stack (List.replicate 4 (Ex.mat1 (some 2)))))]
    let o := kf.afterEvents evs
    ExtendedKalmanFilter.new (Ex.ecv 3).xk (Ex.ecv 3).Pk (Ex.ecv 3).Q (Ex.ecv 3).R (Ex.ecv 3).f (Ex.ecv 3).h (Ex.ecv 3).jacobianA (Ex.ecv 3).jacobianH = .ok kf ∧
    ExtendedKalmanFilter.KeepsSize evs ∧
    ExtendedKalmanFilter.new o.xk o.Pk o.Q o.R o.f o.h o.jacobianA o.jacobianH = .ok fresh ∧
    fresh.stateSize = kf.stateSize ∧ ∃ r o', (ExtendedKalmanFilter.smooth Ex.zs (some Ex.us)).run o = (.ok r, o') :=
  ⟨_, _, rfl, by intro n h; simp at h, rfl, rfl, (Ex.returned_iff _).1 (by decide +kernel)⟩

end KK
