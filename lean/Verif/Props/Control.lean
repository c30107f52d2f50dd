import Verif.Props.Nan
import Verif.Props.Linear

/-!
# `None` controls (C09, C10, C52)
-/

set_option linter.unusedSectionVars false

namespace KK

variable {F : Type} [Backend F]

/-- Runs over rows that the step function cannot tell apart are equal. -/
theorem trace_rel {ρ ρ' : Type} (s : ρ → Arr F → Arr F → StepOut F) (s' : ρ' → Arr F → Arr F → StepOut F)
    (rel : ρ → ρ' → Prop) (h : ∀ r r', rel r r' → ∀ x P, s r x P = s' r' x P)
    (rs : List ρ) (rs' : List ρ') (hr : List.Forall₂ rel rs rs') (x P : Arr F) :
    trace s rs x P = trace s' rs' x P := by
  induction hr generalizing x P with
  | nil => rfl
  | @cons r r' rs rs' hr hrs ih =>
    simp only [trace, h r r' hr x P]
    rcases s' r' x P with ⟨g, e | ⟨xP, o⟩⟩
    · rfl
    · simp only [ih]

theorem forall₂_of_getElem? {α β : Type} (rel : α → β → Prop) (l : List α) (l' : List β)
    (hlen : l.length = l'.length)
    (h : ∀ (k : ℕ) (a : α) (b : β), l[k]? = some a → l'[k]? = some b → rel a b) : List.Forall₂ rel l l' := by
  rw [List.forall₂_iff_get]
  refine ⟨hlen, fun i h1 h2 => h i _ _ ?_ ?_⟩
  · simp [List.getElem?_eq_getElem h1]
  · simp [List.getElem?_eq_getElem h2]

/-! ## C09 -/

/-- At every time step the control matrix or the control vector is entirely NaN. -/
def NoControl (kf : KalmanFilter F) (Z : NDArray F) (U : Option (NDArray F)) : Prop :=
  ∀ (k : ℕ) (b u : Arr F), kf.B.rows[k]? = some b → (effU U Z).rows[k]? = some u →
    b.Blank ∨ u.Blank

theorem fullLikeNan_blank (hnan : Backend.isnan (Backend.nan : F) = true) {a : Arr F}
    (h : a.dtype = .float64) : a.fullLikeNan.Blank := by
  cases a <;> simp_all [Arr.fullLikeNan, Arr.Blank, Arr.nanFill, Arr.dtype]

/-- C09: `U=None` with float observations switches the control off whatever `B` is. -/
theorem C09_none_U (hnan : Backend.isnan (Backend.nan : F) = true) (kf : KalmanFilter F) (Z : NDArray F)
    (hZ : ∀ z ∈ Z.rows, z.dtype = .float64) : NoControl kf Z none := by
  intro k b u hb hu
  right
  rw [KalmanFilter.effU_rows_none, List.getElem?_map, Option.map_eq_some_iff] at hu
  obtain ⟨z, hz, rfl⟩ := hu
  exact fullLikeNan_blank hnan (hZ z (List.mem_of_getElem? hz))

/-- C09: a filter constructed with `B=None` and float `A` has its control switched off whatever `U` is. -/
theorem C09_none_B (hnan : Backend.isnan (Backend.nan : F) = true) (A : NDArray F) (xk Pk : Arr F)
    (H Q R : NDArray F) (s : Option ℤ) (kf : KalmanFilter F) (Z : NDArray F) (U : Option (NDArray F))
    (hA : ∀ a ∈ A.rows, a.dtype = .float64)
    (hnew : KalmanFilter.new A xk none Pk H Q R s = .ok kf) : NoControl kf Z U := by
  have hB : kf.B = A.fullLikeNan := by
    simp only [KalmanFilter.new] at hnew
    split at hnew
    · simp at hnew; rw [← hnew]; rfl
    · simp at hnew
    · split at hnew
      · simp at hnew
      · simp at hnew; rw [← hnew]; rfl
  intro k b u hb hu
  left
  have : A.fullLikeNan.rows = A.rows.map Arr.fullLikeNan := KalmanFilter.effU_rows_none A
  rw [hB, this, List.getElem?_map, Option.map_eq_some_iff] at hb
  obtain ⟨a, ha, rfl⟩ := hb
  exact fullLikeNan_blank hnan (hA a (List.mem_of_getElem? ha))

/-- C09: with the control switched off, `predict` computes `A x` and `A (P A') + Q` and nothing else. -/
theorem C09_predict (Ak xk Bk uk Pk Qk : Arr F)
    (h : Bk.Blank ∨ uk.Blank) :
    KalmanFilter.predict Ak xk (some Bk) (some uk) Pk Qk = (do
      let x ← Ak.matmul xk
      let pat ← Pk.matmul Ak.T
      let apat ← Ak.matmul pat
      let P ← apat.add Qk
      .ok (x, P)) := by
  apply KalmanFilter.predict_skip
  simpa [Arr.isnanAll_iff_blank] using h

theorem noControl_zrows {kf : KalmanFilter F} {B' : NDArray F} {Z : NDArray F} {U U' : Option (NDArray F)}
    (h : NoControl kf Z U) (h' : NoControl { kf with B := B' } Z U')
    (hB : Z.rows.length ≤ kf.B.rows.length) (hB' : Z.rows.length ≤ B'.rows.length)
    (hU : Z.rows.length ≤ (effU U Z).rows.length) (hU' : Z.rows.length ≤ (effU U' Z).rows.length) :
    kf.steps Z U = ({ kf with B := B' } : KalmanFilter F).steps Z U' ∧
    List.Forall₂ (fun r r' : KalmanFilter.Row F => r.1 = r'.1 ∧ r.2.1 = r'.2.1 ∧
        r.2.2.2.2 = r'.2.2.2.2 ∧ (r.2.2.1.isnanAll || r.2.2.2.1.isnanAll) = true ∧
        (r'.2.2.1.isnanAll || r'.2.2.2.1.isnanAll) = true)
      (kf.zrows Z U) (({ kf with B := B' } : KalmanFilter F).zrows Z U') := by
  have hs : kf.steps Z U = ({ kf with B := B' } : KalmanFilter F).steps Z U' := by
    simp only [KalmanFilter.steps]; omega
  refine ⟨hs, forall₂_of_getElem? _ _ _ (by rw [KalmanFilter.zrows_length, KalmanFilter.zrows_length, hs]) ?_⟩
  rintro k ⟨A1, H1, B1, u1, z1, Q1, R1⟩ ⟨A2, H2, B2, u2, z2, Q2, R2⟩ h1 h2
  simp only [KalmanFilter.zrows, List.getElem?_zip_eq_some] at h1 h2
  obtain ⟨a1, a2, a3, a4, a5, a6, a7⟩ := h1
  obtain ⟨b1, b2, b3, b4, b5, b6, b7⟩ := h2
  simp only [a1, a2, a5, a6, a7, Option.some.injEq] at b1 b2 b5 b6 b7
  subst b1 b2 b5 b6 b7
  have e1 := h k B1 u1 a3 a4
  have e2 := h' k B2 u2 b3 b4
  simp only [← Arr.isnanAll_iff_blank] at e1 e2
  exact ⟨rfl, rfl, rfl, by simpa using e1, by simpa using e2⟩

/-- C09: runs with the control switched off do not depend on `B` and `U` at all (values, exceptions, gains;
`filter` and `smooth`). -/
theorem C09_control_irrelevant (kf : KalmanFilter F) (B' Z : NDArray F) (U U' : Option (NDArray F))
    (h : NoControl kf Z U) (h' : NoControl { kf with B := B' } Z U')
    (iB : kf.B.Iterable) (iB' : B'.Iterable) (iU : (effU U Z).Iterable) (iU' : (effU U' Z).Iterable)
    (hB : Z.rows.length ≤ kf.B.rows.length) (hB' : Z.rows.length ≤ B'.rows.length)
    (hU : Z.rows.length ≤ (effU U Z).rows.length) (hU' : Z.rows.length ≤ (effU U' Z).rows.length) :
    (((KalmanFilter.filter Z U).run kf).1 = ((KalmanFilter.filter Z U').run { kf with B := B' }).1 ∧
      ((KalmanFilter.filter Z U).run kf).2.kalmanGains =
        ((KalmanFilter.filter Z U').run { kf with B := B' }).2.kalmanGains) ∧
    ((KalmanFilter.smooth Z U).run kf).1 = ((KalmanFilter.smooth Z U').run { kf with B := B' }).1 := by
  have hf : (((KalmanFilter.filter Z U).run kf).1 =
        ((KalmanFilter.filter Z U').run { kf with B := B' }).1 ∧
      ((KalmanFilter.filter Z U).run kf).2.kalmanGains =
        ((KalmanFilter.filter Z U').run { kf with B := B' }).2.kalmanGains) := by
    by_cases hi : kf.AllIterable Z U
    · have hi' : ({ kf with B := B' } : KalmanFilter F).AllIterable Z U' :=
        ⟨hi.A, hi.H, iB', iU', hi.Z, hi.Q, hi.R⟩
      obtain ⟨hs, hz⟩ := noControl_zrows h h' hB hB' hU hU'
      have ht : kf.tr Z U = ({ kf with B := B' } : KalmanFilter F).tr Z U' := by
        refine trace_rel _ _ _ ?_ _ _ hz kf.xk kf.Pk
        rintro ⟨A1, H1, B1, u1, z1, Q1, R1⟩ ⟨A2, H2, B2, u2, z2, Q2, R2⟩ ⟨h1, h2, h3, h4, h5⟩ x P
        simp only [Prod.mk.injEq] at h1 h2 h3 h4 h5
        obtain ⟨h3, h6, h7⟩ := h3
        subst h1 h2 h3 h6 h7
        simp only [KalmanFilter.step, KalmanFilter.predict_skip h4, KalmanFilter.predict_skip h5]
      rw [KalmanFilter.filter_iter hi, KalmanFilter.filter_iter hi', ht, hs]
      exact ⟨rfl, rfl⟩
    · have hno : ∀ (kf2 : KalmanFilter F) (V : Option (NDArray F)), kf2.A = kf.A → kf2.H = kf.H →
          kf2.Q = kf.Q → kf2.R = kf.R → kf2.B.Iterable → (effU V Z).Iterable →
          (KalmanFilter.filter Z V).run kf2 = (.error .typeError, kf2) := by
        intro kf2 V e1 e2 e3 e4 iB2 iV
        refine (C19_scalar_parameter kf2 Z V ?_).1
        by_contra hc
        simp only [not_or, not_not] at hc
        obtain ⟨c1, c2, c3, c4, c5, c6, c7⟩ := hc
        exact hi ⟨e1 ▸ c1, e2 ▸ c2, iB, iU, c6, e3 ▸ c4, e4 ▸ c5⟩
      rw [hno kf U rfl rfl rfl rfl iB iU, hno { kf with B := B' } U' rfl rfl rfl rfl iB' iU']
      exact ⟨rfl, rfl⟩
  refine ⟨hf, ?_⟩
  rw [KalmanFilter.smooth_eq, KalmanFilter.smooth_eq]
  obtain ⟨h1, h2⟩ := hf
  rcases he : (KalmanFilter.filter Z U).run kf with ⟨re, e'⟩
  rcases hk : (KalmanFilter.filter Z U').run { kf with B := B' } with ⟨rk, k'⟩
  rw [he, hk] at h1
  simp only at h1
  subst h1
  rcases re with e | ⟨xe, Pe⟩
  · rfl
  obtain ⟨n, hn, hx, hP, -⟩ := KalmanFilter.filter_rowsOk he
  obtain ⟨z, rfl, hz⟩ := NDArray.len_ok hn
  simp only
  have hc : ∀ last, back (KalmanFilter.body kf.A kf.Q kf.B (checkNoneAndBroadcast U (.stack z)) kf.stateSize xe Pe)
      (xe.length - 1) last =
      back (KalmanFilter.body kf.A kf.Q B' (checkNoneAndBroadcast U' (.stack z)) kf.stateSize xe Pe)
        (xe.length - 1) last := by
    intro last
    refine back_congr (fun _ => True) (fun _ _ _ _ _ _ _ => trivial) (fun k x P hk _ => ?_) trivial
    simp only [NDArray.rows_stack] at hB hB' hU hU'
    have get : ∀ (a : NDArray F), a.Iterable → z.length ≤ a.rows.length →
        ∃ r, a.item (k + 1) = .ok r ∧ a.rows[k + 1]? = some r := by
      intro a ia ha
      obtain ⟨l, rfl⟩ := ia.exists
      simp only [NDArray.rows_stack] at ha
      have : k + 1 < l.length := by omega
      exact ⟨l[k + 1], by simp [NDArray.item, this], by simp [this]⟩
    obtain ⟨b, hb1, hb2⟩ := get _ iB hB
    obtain ⟨b', hb1', hb2'⟩ := get _ iB' hB'
    obtain ⟨u, hu1, hu2⟩ := get _ iU hU
    obtain ⟨u', hu1', hu2'⟩ := get _ iU' hU'
    have s1 := h _ _ _ hb2 hu2
    have s2 := h' _ _ _ hb2' hu2'
    simp only [← Arr.isnanAll_iff_blank] at s1 s2
    simp only [effU] at hu1 hu1'
    simp only [KalmanFilter.body, hb1, hb1', hu1, hu1', Except.bind_ok', KalmanFilter.smoothStep,
      KalmanFilter.predict_skip (show (b.isnanAll || u.isnanAll) = true by simpa using s1),
      KalmanFilter.predict_skip (show (b'.isnanAll || u'.isnanAll) = true by simpa using s2)]
  simp only [hc]

/-- Float data, `U=None` versus `B=None`: hypotheses are met by the constant-velocity model. -/
example : NoControl (Ex.cv 3) Ex.zs none ∧
    NoControl { Ex.cv 3 with B := (Ex.cv 3).A.fullLikeNan } Ex.zs (some Ex.us) ∧
    (∀ z ∈ Ex.zs.rows, z.dtype = .float64) ∧
    ∃ r k, (KalmanFilter.smooth Ex.zs none).run (Ex.cv 3) = (.ok r, k) := by
  have hz : ∀ z ∈ Ex.zs.rows, z.dtype = .float64 := by
    intro z hz
    simp only [Ex.zs, NDArray.rows_stack, List.mem_cons, List.not_mem_nil, or_false] at hz
    rcases hz with rfl | rfl | rfl <;> rfl
  refine ⟨C09_none_U rfl _ _ hz, ?_, hz, (Ex.returned_iff _).1 (by decide +kernel)⟩
  intro k b u hb hu
  left
  have : (Ex.cv 3).A.fullLikeNan.rows = (Ex.cv 3).A.rows.map Arr.fullLikeNan :=
    KalmanFilter.effU_rows_none (Ex.cv 3).A
  simp only at hb
  rw [this, List.getElem?_map, Option.map_eq_some_iff] at hb
  obtain ⟨a, ha, rfl⟩ := hb
  refine fullLikeNan_blank rfl ?_
  have := List.mem_of_getElem? ha
  simp only [Ex.cv, NDArray.rows_stack, List.mem_replicate] at this
  rw [this.2]; rfl

/-! ## C10 -/

/-- C10, the sentinel: made from a non-empty integer array it is not NaN, and `predict` then adds
`B @ sentinel`. -/
theorem C10_int_sentinel (Ak xk Bk zk Pk Qk : Arr F) (hz : zk.dtype = .int64) (hs : zk.size ≠ 0)
    (hB : ¬ Bk.Blank) :
    ¬ zk.fullLikeNan.Blank ∧
    (∀ x, zk.fullLikeNan.Entry x → x = Backend.nanInt) ∧
    KalmanFilter.predict Ak xk (some Bk) (some zk.fullLikeNan) Pk Qk = (do
      let ax ← Ak.matmul xk
      let bu ← Bk.matmul zk.fullLikeNan
      let x ← ax.add bu
      let pat ← Pk.matmul Ak.T
      let apat ← Ak.matmul pat
      let P ← apat.add Qk
      .ok (x, P)) := by
  have h1 : isNanAll (some zk.fullLikeNan) = .ok false := by
    have hd : zk.fullLikeNan.dtype = .int64 := by cases zk <;> exact hz
    have hsz : zk.fullLikeNan.size = zk.size := by cases zk <;> rfl
    obtain ⟨⟨b, hb⟩, -, h3, -⟩ := C21_is_nan_all zk.fullLikeNan
    cases b with
    | false => exact hb
    | true => exact absurd ((h3 hd).1 hb) (by rw [hsz]; exact hs)
  have h1 : zk.fullLikeNan.isnanAll = false := by simpa [isNanAll] using h1
  refine ⟨(Arr.isnanAll_false_iff _).1 h1, ?_, ?_⟩
  · intro x hx
    cases zk with
    | scalar d y => simp only [Arr.dtype] at hz; subst hz; exact hx
    | vec d v => simp only [Arr.dtype] at hz; subst hz; obtain ⟨i, hx⟩ := hx; exact hx
    | mat d M => simp only [Arr.dtype] at hz; subst hz; obtain ⟨i, j, hx⟩ := hx; exact hx
  · apply KalmanFilter.predict_ctrl
    simp [h1, (Arr.isnanAll_false_iff _).2 hB]

/-- C10, positive part: the control is switched off exactly when, at each step, one of the two sentinels
was made from a float (or empty) array or the other array is all-NaN anyway. -/
theorem C10_none_none (hnan : Backend.isnan (Backend.nan : F) = true) (Ak zk : Arr F)
    (hA : Ak.size ≠ 0) (hz : zk.size ≠ 0) :
    (Ak.fullLikeNan.Blank ∨ zk.fullLikeNan.Blank) ↔
      (Ak.dtype = .float64 ∨ zk.dtype = .float64) := by
  have key : ∀ a : Arr F, a.size ≠ 0 → (a.fullLikeNan.Blank ↔ a.dtype = .float64) := by
    intro a ha
    constructor
    · intro h
      by_contra hc
      have hd : a.dtype = .int64 := by cases hd : a.dtype <;> simp_all
      have hd' : a.fullLikeNan.dtype = .int64 := by cases a <;> exact hd
      have hsz : a.fullLikeNan.size = a.size := by cases a <;> rfl
      obtain ⟨-, -, h3, -⟩ := C21_is_nan_all a.fullLikeNan
      exact ha (hsz ▸ (h3 hd').1 (by rw [isNanAll, (Arr.isnanAll_iff_blank _).2 h]))
    · exact fullLikeNan_blank hnan
  rw [key Ak hA, key zk hz]

/-- A one-dimensional random walk with `B = [[1]]`; the observation `0` is given as float or as int. -/
def Ex.walk : KalmanFilter Ex.QN where
  A := .stack [Ex.mat1 (some 1)]
  xk := Ex.vec1 (some 0)
  B := .stack [Ex.mat1 (some 1)]
  Pk := Ex.mat1 (some 1)
  H := .stack [Ex.mat1 (some 1)]
  Q := .stack [Ex.mat1 (some 0)]
  R := .stack [Ex.mat1 (some 1)]
  stateSize := 1
  I := Arr.identity 1
  kalmanGains := []

/-- First component of the first returned state. -/
def Ex.first (r : Except PyErr (List (Arr Ex.QN) × List (Arr Ex.QN)) × KalmanFilter Ex.QN) : Ex.QN :=
  match r.1 with
  | .ok (.vec (n := 1) _ v :: _, _) => v 0
  | _ => none

/-- C10, the defect: "`U=None` means no control" is false. The same filter on the same number, once as
float64 and once as int64: without control the state stays 0, with the integer sentinel it is the cast NaN
value times 1/2. -/
theorem C10_none_is_not_no_control :
    ∃ (kf : KalmanFilter Ex.QN) (zf zi : Arr Ex.QN), zf.dtype = .float64 ∧ zi.dtype = .int64 ∧
      zf.shape = zi.shape ∧ (∀ x, zf.Entry x ↔ zi.Entry x) ∧
      Ex.first ((KalmanFilter.filter (.stack [zf]) none).run kf) = some 0 ∧
      Ex.first ((KalmanFilter.filter (.stack [zi]) none).run kf) = some (-9223372036854775808 / 2) := by
  refine ⟨Ex.walk, Ex.vec1 (some 0), .vec .int64 (fun _ => some 0 : Fin 1 → Ex.QN), rfl, rfl, rfl,
    fun x => Iff.rfl, ?_, ?_⟩
  · decide +kernel
  · decide +kernel

/-! ## C52 -/

/-- C52: `U=None` is the same as passing a control array of NaN rows shaped like the observations. -/
theorem C52_none_is_nan (hnan : Backend.isnan (Backend.nan : F) = true) (kf : ExtendedKalmanFilter F)
    (Z : NDArray F) (hZ : ∀ z ∈ Z.rows, z.dtype = .float64) :
    ∃ V : NDArray F, V.len = Z.len ∧
      (∀ (k : ℕ) (z : Arr F), Z.rows[k]? = some z → ∃ v : Arr F, V.rows[k]? = some v ∧
        v.shape = z.shape ∧ v.AllNan) ∧
      (ExtendedKalmanFilter.filter Z none).run kf = (ExtendedKalmanFilter.filter Z (some V)).run kf ∧
      (ExtendedKalmanFilter.smooth Z none).run kf = (ExtendedKalmanFilter.smooth Z (some V)).run kf := by
  refine ⟨Z.fullLikeNan, ?_, ?_, ?_, ?_⟩
  · cases Z <;> simp [NDArray.fullLikeNan, NDArray.len]
  · intro k z hz
    have : Z.fullLikeNan.rows = Z.rows.map Arr.fullLikeNan := KalmanFilter.effU_rows_none Z
    refine ⟨z.fullLikeNan, by rw [this, List.getElem?_map, hz]; rfl, by cases z <;> rfl, ?_⟩
    have hd := hZ z (List.mem_of_getElem? hz)
    cases z <;> simp_all [Arr.AllNan, Arr.fullLikeNan, Arr.nanFill, Arr.dtype]
  · rw [ExtendedKalmanFilter.filter_eq, ExtendedKalmanFilter.filter_eq]; rfl
  · rw [ExtendedKalmanFilter.smooth_eq, ExtendedKalmanFilter.smooth_eq,
      ExtendedKalmanFilter.filter_eq, ExtendedKalmanFilter.filter_eq]; rfl

/-- C52: callbacks that ignore `u` give the same filter and smoother results for every control sequence
that is long enough (including `None`). -/
theorem C52_ignores_control (kf : ExtendedKalmanFilter F) (Z : NDArray F) (U U' : Option (NDArray F))
    (hf : ∀ x u u', kf.f x u = kf.f x u') (hj : ∀ x u u', kf.jacobianA x u = kf.jacobianA x u')
    (iU : (effU U Z).Iterable) (iU' : (effU U' Z).Iterable)
    (hU : Z.rows.length ≤ (effU U Z).rows.length) (hU' : Z.rows.length ≤ (effU U' Z).rows.length) :
    (ExtendedKalmanFilter.filter Z U).run kf = (ExtendedKalmanFilter.filter Z U').run kf ∧
    (ExtendedKalmanFilter.smooth Z U).run kf = (ExtendedKalmanFilter.smooth Z U').run kf := by
  have hp : ∀ x u u' P Q, kf.predict x (some u) P Q = kf.predict x (some u') P Q := by
    intro x u u' P Q
    simp only [ExtendedKalmanFilter.predict, hf x (some u) (some u'), hj x (some u) (some u')]
  have hfil : (ExtendedKalmanFilter.filter Z U).run kf = (ExtendedKalmanFilter.filter Z U').run kf := by
    by_cases hi : kf.AllIterable Z U
    · have hi' : kf.AllIterable Z U' := ⟨iU', hi.Z, hi.Q, hi.R⟩
      have hs : kf.steps Z U = kf.steps Z U' := by
        simp only [ExtendedKalmanFilter.steps]; omega
      have ht : kf.tr Z U = kf.tr Z U' := by
        refine trace_rel _ _ (fun r r' : ExtendedKalmanFilter.Row F => r.2 = r'.2) ?_ _ _
          (forall₂_of_getElem? _ _ _ (by
            rw [ExtendedKalmanFilter.zrows_length, ExtendedKalmanFilter.zrows_length, hs]) ?_) kf.xk kf.Pk
        · rintro ⟨u, z, Q, R⟩ ⟨u', z', Q', R'⟩ h x P
          simp only [Prod.mk.injEq] at h
          obtain ⟨rfl, rfl, rfl⟩ := h
          simp only [ExtendedKalmanFilter.step, hp x u u']
        · rintro k ⟨u, z, Q, R⟩ ⟨u', z', Q', R'⟩ h1 h2
          simp only [ExtendedKalmanFilter.zrows, List.getElem?_zip_eq_some] at h1 h2
          obtain ⟨a4, a5, a6, a7⟩ := h1
          obtain ⟨b4, b5, b6, b7⟩ := h2
          simp only [a5, a6, a7, Option.some.injEq] at b5 b6 b7
          simp [b5, b6, b7]
      rw [ExtendedKalmanFilter.filter_iter hi, ExtendedKalmanFilter.filter_iter hi', ht, hs]
    · have hno : ∀ V : Option (NDArray F), (effU V Z).Iterable →
          (ExtendedKalmanFilter.filter Z V).run kf = (.error .typeError, kf) := by
        intro V iV
        refine (C19_ekf_scalar_parameter kf Z V ?_).1
        by_contra hc
        simp only [not_or, not_not] at hc
        exact hi ⟨iU, hc.2.2.1, hc.1, hc.2.1⟩
      rw [hno U iU, hno U' iU']
  refine ⟨hfil, ?_⟩
  rw [ExtendedKalmanFilter.smooth_eq, ExtendedKalmanFilter.smooth_eq, ← hfil]
  rcases he : (ExtendedKalmanFilter.filter Z U).run kf with ⟨e | ⟨xe, Pe⟩, kf'⟩
  · rfl
  obtain ⟨n, hn, hx, hP, -⟩ := ExtendedKalmanFilter.filter_rowsOk he
  obtain ⟨z, rfl, hz⟩ := NDArray.len_ok hn
  simp only
  have hc : ∀ last, back (kf.body kf.Q (checkNoneAndBroadcast U (.stack z)) xe Pe)
      (xe.length - 1) last =
      back (kf.body kf.Q (checkNoneAndBroadcast U' (.stack z)) xe Pe) (xe.length - 1) last := by
    intro last
    refine back_congr (fun _ => True) (fun _ _ _ _ _ _ _ => trivial) (fun k x P hk _ => ?_) trivial
    simp only [NDArray.rows_stack] at hU hU'
    have get : ∀ (a : NDArray F), a.Iterable → z.length ≤ a.rows.length →
        ∃ r, a.item (k + 1) = .ok r := by
      intro a ia ha
      obtain ⟨l, rfl⟩ := ia.exists
      simp only [NDArray.rows_stack] at ha
      have : k + 1 < l.length := by omega
      exact ⟨l[k + 1], by simp [NDArray.item, this]⟩
    obtain ⟨u, hu1⟩ := get _ iU hU
    obtain ⟨u', hu1'⟩ := get _ iU' hU'
    simp only [effU] at hu1 hu1'
    simp only [ExtendedKalmanFilter.body, hu1, hu1', Except.bind_ok', ExtendedKalmanFilter.smoothStep]
    simp only [hp _ u u', hj _ (some u) (some u')]
  simp only [hc]

section
variable [NanLaws F]

/-- C52: if `f` turns an all-NaN control into an all-NaN prediction (as `A x + B u` does), then with
`U=None` and float observations every state returned for a processed step is NaN, although the standard
filter ignores the control in that situation. -/
theorem C52_control_dependent (n m : ℕ) (kf kf' : ExtendedKalmanFilter F) (Z : NDArray F)
    (xs Ps : List (Arr F)) (hl : ExtLayout n m kf Z none) (hZ : ∀ z ∈ Z.rows, z.dtype = .float64)
    (hf : ∀ x u y, x.shape = [n] → u.AllNan → kf.f x (some u) = .ok y → y.AllNan)
    (h : (ExtendedKalmanFilter.filter Z none).run kf = (.ok (xs, Ps), kf')) :
    ∀ j, j < kf.steps Z none → ∃ x, xs[j]? = some x ∧ x.AllNan := by
  intro j hj
  have he := ExtendedKalmanFilter.ok_err h
  rw [ExtendedKalmanFilter.filter_iter (ExtendedKalmanFilter.ok_iter h)] at h
  simp only [he, Prod.mk.injEq, Except.ok.injEq] at h
  obtain ⟨⟨rfl, -⟩, -⟩ := h
  have hlen := trace_length _ _ _ _ he
  rw [ExtendedKalmanFilter.zrows_length] at hlen
  have hlt : j < (kf.tr Z none).outs.length := by rw [hlen]; exact hj
  refine ⟨((kf.tr Z none).outs[j]).1, ?_, ?_⟩
  · rw [List.getElem?_append_left (by simpa using hlt), List.getElem?_map,
      List.getElem?_eq_getElem hlt]; rfl
  have hrows := ExtendedKalmanFilter.mem_zrows hl
  have hctrl : ∀ r ∈ kf.zrows Z none, r.1.AllNan := by
    intro r hr
    obtain ⟨k, hk⟩ := List.mem_iff_getElem?.1 hr
    obtain ⟨u, z, Q, R⟩ := r
    simp only [ExtendedKalmanFilter.zrows, List.getElem?_zip_eq_some] at hk
    obtain ⟨h4, -⟩ := hk
    rw [KalmanFilter.effU_rows_none, List.getElem?_map, Option.map_eq_some_iff] at h4
    obtain ⟨z', hz', rfl⟩ := h4
    have hd := hZ z' (List.mem_of_getElem? hz')
    have := NanLaws.isnan_nan (F := F)
    cases z' <;> simp_all [Arr.AllNan, Arr.fullLikeNan, Arr.nanFill, Arr.dtype]
  -- invariant: shapes; each written mean is NaN
  have key : ∀ (rs : List (ExtendedKalmanFilter.Row F)), (∀ r ∈ rs, r ∈ kf.zrows Z none) → ∀ x P,
      KalmanFilter.Shaped n x P → ∀ o ∈ (trace kf.step rs x P).outs, o.1.AllNan := by
    intro rs
    induction rs with
    | nil => intro _ x P _ o ho; simp [trace] at ho
    | cons r rs ih =>
      intro hmem x P hs o ho
      simp only [trace] at ho
      rcases hr : kf.step r x P with ⟨g, e | ⟨xP, out⟩⟩
      · simp [hr] at ho
      simp only [hr, List.mem_cons] at ho
      obtain ⟨c1, c2, c3⟩ := hrows r (hmem r (by simp))
      obtain ⟨rfl, hs'⟩ := ExtendedKalmanFilter.step_keeps hl c1 c2 c3 g xP out hs hr
      rcases ho with rfl | ho
      · obtain ⟨uk, zk, Qk, Rk⟩ := r
        obtain ⟨hx, hP⟩ := hs
        simp only at c1 c2 c3
        simp only [ExtendedKalmanFilter.step, ExtendedKalmanFilter.predict] at hr
        rcases hA : kf.jacobianA x (some uk) with e | Ak; · simp [hA] at hr
        simp only [hA, Except.bind_ok'] at hr
        rcases hfx : kf.f x (some uk) with e | xp; · simp [hfx] at hr
        have hxp := hl.f _ _ _ hx hfx
        have hxn : xp.AllNan := hf x uk xp hx (hctrl (uk, zk, Qk, Rk) (hmem _ (by simp))) hfx
        simp only [hfx, Except.bind_ok'] at hr
        rcases h1 : P.matmul Ak.T with e | pat; · simp [h1] at hr
        rcases h2 : Ak.matmul pat with e | apat; · simp [h1, h2] at hr
        rcases h3 : apat.add Qk with e | Pp; · simp [h1, h2, h3] at hr
        simp only [h1, h2, h3, Except.bind_ok'] at hr
        rcases hH : kf.jacobianH xp with e' | Hk; · simp [hH] at hr
        have hHs := hl.jH _ _ hxp hH
        simp only [hH, ext_gain_eq] at hr
        have hPp : Pp.shape = [n, n] := by
          obtain ⟨dA, A, rfl⟩ := Arr.eq_mat (hl.jA _ _ _ hx hA)
          obtain ⟨dP, Pm, rfl⟩ := Arr.eq_mat hP
          rw [Arr.T_mat, Arr.matmul_mm] at h1
          simp only [Except.ok.injEq] at h1
          subst h1
          rw [Arr.matmul_mm] at h2
          simp only [Except.ok.injEq] at h2
          subst h2
          obtain ⟨e, N, hN⟩ := add_noise (dA.promote (dP.promote dA))
            (Backend.gemm A (Backend.gemm Pm A.transpose)) c2
          rw [hN] at h3
          simp only [Except.ok.injEq] at h3
          subst h3; rfl
        rcases gain_layout hHs hPp c3 with hg | ⟨K, hg⟩
        · simp [hg] at hr
        simp only [hg, ExtendedKalmanFilter.correct, Prod.mk.injEq] at hr
        obtain ⟨-, hr⟩ := hr
        rcases hh : kf.h xp with e' | y; · simp [hh] at hr
        obtain ⟨res, d, v, hv, hv'⟩ := residual_ext c1 (hl.h _ _ hxp hh)
        simp only [hh, Except.bind_ok', hv, hv', Arr.matmul_mv] at hr
        obtain ⟨y', hy', hys, hyn⟩ := add_nan (w := .vec (DType.promote .float64 d) fun i =>
          Backend.gemm (n := 1) K (fun i _ => v i) i 0) hxp rfl (.inl hxn)
        simp only [hy', Except.bind_ok'] at hr
        rcases h5 : (Arr.mat .float64 K).matmul Hk with e | kh
        · simp only [h5, Except.bind_error', reduceCtorEq] at hr
        simp only [h5, Except.bind_ok'] at hr
        rcases h6 : kf.I.sub kh with e | ikh
        · simp only [h6, Except.bind_error', reduceCtorEq] at hr
        simp only [h6, Except.bind_ok'] at hr
        rcases h7 : ikh.matmul Pp with e | Pq
        · simp only [h7, Except.bind_error', reduceCtorEq] at hr
        simp only [h7, Except.bind_ok'] at hr
        rcases h8 : y'.assignVec kf.stateSize with e | srow
        · simp only [h8, Except.bind_error', reduceCtorEq] at hr
        simp only [h8, Except.bind_ok'] at hr
        rcases h9 : Pq.assignMat kf.stateSize with e | erow
        · simp only [h9, Except.bind_error', reduceCtorEq] at hr
        simp only [h9, Except.bind_ok', Except.ok.injEq, Prod.mk.injEq] at hr
        rw [← hr.1]
        exact hyn
      · exact ih (fun r' hr' => hmem r' (by simp [hr'])) _ _ hs' o ho
  exact key _ (fun _ h => h) _ _ ⟨hl.x, hl.P⟩ _ (List.getElem_mem hlt)

end

/-! ### Hypotheses are met -/

/-- C10: an integer observation, a control matrix that is not NaN. -/
example : let zk : Arr Ex.QN := .vec .int64 (fun _ => some 3 : Fin 1 → Ex.QN)
    zk.dtype = .int64 ∧ zk.size ≠ 0 ∧ ¬ (Ex.mat1 (some 1)).Blank ∧ (Ex.mat1 (some 1)).size ≠ 0 ∧
    Backend.isnan (Backend.nan : Ex.QN) = true := by
  refine ⟨rfl, by decide, fun h => ?_, by decide, rfl⟩
  have := (h 0 0).2
  simp [Backend.isnan] at this

/-- C52: a controlled system; `filter` without controls returns. -/
example : ExtLayout 2 1 (Ex.pushed Ex.q2 Ex.r1 3) Ex.zs none ∧ (∀ z ∈ Ex.zs.rows, z.dtype = .float64) ∧
    (∀ x u y, x.shape = [2] → u.AllNan → (Ex.pushed Ex.q2 Ex.r1 3).f x (some u) = .ok y → y.AllNan) ∧
    (∃ r k, (ExtendedKalmanFilter.filter Ex.zs none).run (Ex.pushed Ex.q2 Ex.r1 3) = (.ok r, k)) ∧
    0 < (Ex.pushed Ex.q2 Ex.r1 3).steps Ex.zs none := by
  refine ⟨Ex.pushed_layout _ _ 3 [some 1, some 3, some 2] _ (.inl rfl) (.inl rfl), ?_, ?_,
    (Ex.returned_iff _).1 (by decide +kernel), by decide⟩
  · intro z hz
    simp only [Ex.zs, NDArray.rows_stack, List.mem_cons, List.not_mem_nil, or_false] at hz
    rcases hz with rfl | rfl | rfl <;> rfl
  · intro x u y hx hu h
    match u, hu, h with
    | @Arr.vec _ d' 1 u, hu, h =>
      obtain ⟨d, v, hv⟩ := Ex.mv_shape (a := Ex.mat2 (some 1) (some 1) (some 0) (some 1)) (m := 2) rfl hx
      obtain ⟨bu, hbu, hs, hnan⟩ := matmul_nan (M := Ex.col2 (some (1/2)) (some 1)) (w := .vec d' u) (m := 2) rfl rfl
        (AllNan.some (by decide) rfl hu)
      obtain ⟨e, w, rfl⟩ := Arr.eq_vec hs
      simp only [Ex.pushed, Ex.pushF, hv, hbu, Except.bind_ok', Arr.add_vv, Except.ok.injEq] at h
      subst h
      intro i
      exact NanLaws.add_right _ _ (hnan i)

/-- C52: a system that ignores its control. -/
example : let kf : ExtendedKalmanFilter Ex.QN := { Ex.pushed Ex.q2 Ex.r1 3 with f := fun x _ => .ok x }
    (∀ x u u', kf.f x u = kf.f x u') ∧ (∀ x u u', kf.jacobianA x u = kf.jacobianA x u') ∧
    (effU none Ex.zs).Iterable ∧ (effU (some Ex.us) Ex.zs).Iterable ∧
    Ex.zs.rows.length ≤ (effU none Ex.zs).rows.length ∧ Ex.zs.rows.length ≤ (effU (some Ex.us) Ex.zs).rows.length ∧
    (∃ r k, (ExtendedKalmanFilter.smooth Ex.zs none).run kf = (.ok r, k)) :=
  ⟨fun _ _ _ => rfl, fun _ _ _ => rfl, trivial, trivial, by decide, by decide,
    (Ex.returned_iff _).1 (by decide +kernel)⟩

end KK
