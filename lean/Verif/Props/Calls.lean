import Verif.Proofs.Calls
import Verif.Proofs.Back
import Verif.Props.Stateful

/-!
# Which callbacks are called, when and with what (C143)
-/

set_option linter.unusedSectionVars false
set_option linter.unusedVariables false

namespace KK

open Stateful

variable {σ F : Type} [Backend F] (cb : Callbacks σ F)

theorem sim_logged : Sim cb.logged cb (fun w w' => w.user.2 = w'.user ∧ w.self = w'.self) := by
  have key : ∀ (call : Except PyErr (Arr F) → CallbackCall F) (p : Py (World σ F) (Arr F)),
      Matched (fun (w : World (List (CallbackCall F) × σ) F) (w' : World σ F) => w.user.2 = w'.user ∧ w.self = w'.self)
        (logCall call p) p := by
    rintro call p ⟨⟨l, s⟩, a⟩ ⟨s', a'⟩ ⟨h1, h2⟩
    simp only at h1 h2
    subst h1 h2
    exact ⟨rfl, rfl, rfl⟩
  exact ⟨fun _ _ => key _ _, fun _ => key _ _, fun _ _ => key _ _, fun _ => key _ _,
    fun K w w' h => ⟨rfl, h.1, by simp only [record]; rw [h.2]⟩, fun w w' h => by rw [h.2]⟩

/-- C143 (writing the calls down changes nothing): with the calls written down, `filter` and `smooth` return or raise the same,
and leave the user's state and the object the same. -/
theorem C143_logging_is_invisible (log : List (CallbackCall F)) (s : σ) (a : EkfAttrs F) (Z : NDArray F) (U : Option (NDArray F)) :
    (∃ log', (Stateful.filter cb.logged Z U).run ⟨(log, s), a⟩ =
      (((Stateful.filter cb Z U).run ⟨s, a⟩).1,
        ⟨(log', ((Stateful.filter cb Z U).run ⟨s, a⟩).2.user), ((Stateful.filter cb Z U).run ⟨s, a⟩).2.self⟩)) ∧
    (∃ log', (Stateful.smooth cb.logged Z U).run ⟨(log, s), a⟩ =
      (((Stateful.smooth cb Z U).run ⟨s, a⟩).1,
        ⟨(log', ((Stateful.smooth cb Z U).run ⟨s, a⟩).2.user), ((Stateful.smooth cb Z U).run ⟨s, a⟩).2.self⟩)) := by
  constructor
  · obtain ⟨h1, h2, h3⟩ := (sim_logged cb).filter Z U (w := ⟨(log, s), a⟩) (w' := ⟨s, a⟩) ⟨rfl, rfl⟩ ⟨rfl, rfl, rfl, rfl, rfl⟩
    exact ⟨((Stateful.filter cb.logged Z U).run ⟨(log, s), a⟩).2.user.1, by rw [← h1, ← h2, ← h3]⟩
  · obtain ⟨h1, h2, h3⟩ := (sim_logged cb).smooth (fun w w' h => by rw [h.2]; exact ⟨rfl, rfl⟩) Z U (w := ⟨(log, s), a⟩) (w' := ⟨s, a⟩)
      ⟨rfl, rfl⟩ ⟨rfl, rfl, rfl, rfl, rfl⟩
    exact ⟨((Stateful.smooth cb.logged Z U).run ⟨(log, s), a⟩).2.user.1, by rw [← h1, ← h2, ← h3]⟩

theorem filter_unfold {τ : Type} (cb : Callbacks τ F) (Z : NDArray F) (U : Option (NDArray F)) (w : World τ F) :
    (∃ e, (Stateful.filter cb Z U).run w = (.error e, w)) ∨
    ∃ (len : ℕ) (rows : List (ExtendedKalmanFilter.Row F)), Z.len = .ok len ∧
      ExtendedKalmanFilter.zipRows (checkNoneAndBroadcast U Z) Z w.self.Q w.self.R = .ok rows ∧
      (Stateful.filter cb Z U).run w = (Stateful.filterLoop cb w.self.stateSize 0 rows w.self.xk w.self.Pk
        (List.replicate len (Arr.zerosVec w.self.stateSize)) (List.replicate len (Arr.zerosMat w.self.stateSize))).run w := by
  simp only [Stateful.filter, Py.run_bind, attrs, Py.run_lift]
  rcases h1 : Z.len with e | len
  · exact Or.inl ⟨e, rfl⟩
  rcases h2 : ExtendedKalmanFilter.zipRows (checkNoneAndBroadcast U Z) Z w.self.Q w.self.R with e | rows
  · exact Or.inl ⟨e, by simp only [h2]⟩
  · exact Or.inr ⟨len, rows, rfl, rfl, by simp only [h2]⟩

theorem rows_of_zip {a : EkfAttrs F} {Z : NDArray F} {U : Option (NDArray F)} {rows : List (ExtendedKalmanFilter.Row F)}
    (h : ExtendedKalmanFilter.zipRows (checkNoneAndBroadcast U Z) Z a.Q a.R = .ok rows) :
    rows.length = a.steps Z U ∧ ∀ (k : ℕ) (u : Arr F), rows[k]?.map (fun r => r.1) = some u → (effU U Z).rows[k]? = some u := by
  obtain ⟨hU, hZ, hQ, hR⟩ := ExtendedKalmanFilter.zipRows_ok h
  obtain ⟨u, hu⟩ := hU.exists
  obtain ⟨z, hz⟩ := hZ.exists
  obtain ⟨q, hq⟩ := hQ.exists
  obtain ⟨r, hr'⟩ := hR.exists
  rw [hu, hz, hq, hr', ExtendedKalmanFilter.zipRows_stack] at h
  simp only [Except.ok.injEq] at h
  have hu' : (effU U Z).rows = u := by
    have : effU U Z = checkNoneAndBroadcast U Z := rfl
    rw [this, hu]; rfl
  constructor
  · rw [← h]
    have e1 : Z.rows.length = z.length := by rw [hz]; rfl
    have e2 : a.Q.rows.length = q.length := by rw [hq]; rfl
    have e3 : a.R.rows.length = r.length := by rw [hr']; rfl
    simp only [List.length_zip, EkfAttrs.steps]
    rw [hu', e1, e2, e3]
  · intro k v hv
    rw [hu']
    rw [← h] at hv
    simp only [Option.map_eq_some_iff] at hv
    obtain ⟨t, ht, rfl⟩ := hv
    exact (List.getElem?_zip_eq_some.1 ht).1

/-- C143 (filter returns): the callbacks are called four times in each of the steps and in no other place, in the order `jacobian_A`, `f`,
`jacobian_H`, `h`; step `k` asks `jacobian_A` and `f` at row `k` of the controls and at the initial mean (`k = 0`) or at the
value stored in row `k - 1` of the result, and `jacobian_H` and `h` at what `f` returned. -/
theorem C143_filter_calls (log : List (CallbackCall F)) (s : σ) (a : EkfAttrs F) (Z : NDArray F) (U : Option (NDArray F))
    (xs Ps : List (Arr F)) (w' : World (List (CallbackCall F) × σ) F)
    (h : (Stateful.filter cb.logged Z U).run ⟨(log, s), a⟩ = (.ok (xs, Ps), w')) :
    ∃ cs : List (StepCalls F), cs.length = a.steps Z U ∧ w'.user.1 = log ++ cs.flatMap StepCalls.calls ∧
      ∀ k c, cs[k]? = some c → (effU U Z).rows[k]? = some c.u ∧ (k = 0 → c.x = a.xk) ∧
        ∀ j, k = j + 1 → ∃ row, xs[j]? = some row ∧ c.x.assignVec a.stateSize = .ok row := by
  rcases filter_unfold cb.logged Z U ⟨(log, s), a⟩ with ⟨e, he⟩ | ⟨len, rows, h1, h2, h3⟩
  · rw [h] at he; simp at he
  obtain ⟨r1, r2⟩ := rows_of_zip (a := a) h2
  have hlen : len = Z.rows.length := by
    cases Z with
    | d0 => simp [NDArray.len] at h1
    | stack z => simp only [NDArray.len, Except.ok.injEq] at h1; exact h1.symm
  rw [h3] at h
  obtain ⟨cs, c1, c2, c3⟩ := filterLoop_log_ok cb a.stateSize rows 0 a.xk a.Pk
    (List.replicate len (Arr.zerosVec a.stateSize)) (List.replicate len (Arr.zerosMat a.stateSize)) ⟨(log, s), a⟩ (xs, Ps)
    (by rw [List.length_replicate, r1, EkfAttrs.steps, hlen]; omega) (by rw [h])
  refine ⟨cs, by rw [c1, r1], by rw [h] at c2; exact c2, fun k c hc => ?_⟩
  obtain ⟨q1, q2, q3⟩ := c3 k c hc
  refine ⟨r2 k _ q1, q2, fun j hj => ?_⟩
  obtain ⟨row, t1, t2⟩ := q3 j hj
  exact ⟨row, by rw [← t1]; simp, t2⟩

/-- C143 (filter raises `e`): either before any callback is called, or after some complete steps and a last one that stops: a callback
that raises is the last one called, and `e` is what it raised. -/
theorem C143_filter_calls_until (log : List (CallbackCall F)) (s : σ) (a : EkfAttrs F) (Z : NDArray F) (U : Option (NDArray F)) (e : PyErr)
    (w' : World (List (CallbackCall F) × σ) F) (h : (Stateful.filter cb.logged Z U).run ⟨(log, s), a⟩ = (.error e, w')) :
    w'.user.1 = log ∨
    ∃ (cs : List (StepCalls F)) (x u : Arr F) (l : List (CallbackCall F)), cs.length < a.steps Z U ∧ PartialStep x u e l ∧
      w'.user.1 = log ++ cs.flatMap StepCalls.calls ++ l ∧ (effU U Z).rows[cs.length]? = some u ∧ (cs = [] → x = a.xk) ∧
      ∀ k c, cs[k]? = some c → (effU U Z).rows[k]? = some c.u ∧ (k = 0 → c.x = a.xk) := by
  rcases filter_unfold cb.logged Z U ⟨(log, s), a⟩ with ⟨e, he⟩ | ⟨len, rows, h1, h2, h3⟩
  · rw [h] at he
    simp only [Prod.mk.injEq] at he
    exact Or.inl (by rw [he.2])
  right
  obtain ⟨r1, r2⟩ := rows_of_zip (a := a) h2
  rw [h3] at h
  obtain ⟨cs, x, u, l, l1, l2, l3, l4, l5⟩ := filterLoop_log_error cb a.stateSize rows 0 a.xk a.Pk _ _ ⟨(log, s), a⟩ e (by rw [h])
  refine ⟨cs, x, u, l, ?_, l1, by rw [h] at l2; exact l2, r2 _ _ l3, l4, fun k c hc => ⟨r2 _ _ (l5 k c hc).1, (l5 k c hc).2⟩⟩
  rw [← r1]
  by_contra hge
  rw [List.getElem?_eq_none (by omega)] at l3
  simp at l3

/-- What `smooth` does once `filter` has returned. -/
theorem smooth_unfold {τ : Type} (cb : Callbacks τ F) (Z : NDArray F) (U : Option (NDArray F)) (w : World τ F) :
    (∃ e w1, (Stateful.filter cb Z U).run w = (.error e, w1) ∧ (Stateful.smooth cb Z U).run w = (.error e, w1)) ∨
    ∃ fx fP w1, (Stateful.filter cb Z U).run w = (.ok (fx, fP), w1) ∧
      ((∃ e, (Stateful.smooth cb Z U).run w = (.error e, w1)) ∨
        ∃ xs Ps, (Stateful.smooth cb Z U).run w =
          (Stateful.smoothLoop cb w1.self.stateSize w1.self.Q (checkNoneAndBroadcast U Z) fx fP
            (List.range (Z.rows.length - 1)).reverse xs Ps).run w1) := by
  simp only [Stateful.smooth, Py.run_bind, attrs, Py.run_lift]
  rcases hf : (Stateful.filter cb Z U).run w with ⟨e | ⟨fx, fP⟩, w1⟩
  · exact Or.inl ⟨e, w1, rfl, rfl⟩
  refine Or.inr ⟨fx, fP, w1, rfl, ?_⟩
  rcases hl : Z.len with e | len
  · exact Or.inl ⟨e, rfl⟩
  have hlen : len = Z.rows.length := by
    cases Z with
    | d0 => simp [NDArray.len] at hl
    | stack z => simp only [NDArray.len, Except.ok.injEq] at hl; exact hl.symm
  dsimp only
  rcases lastRow len fx with e | xl <;> dsimp only
  · exact Or.inl ⟨e, rfl⟩
  rcases lastRow len fP with e | Pl <;> dsimp only
  · exact Or.inl ⟨e, rfl⟩
  rcases xl.assignVec w1.self.stateSize with e | xr <;> dsimp only
  · exact Or.inl ⟨e, rfl⟩
  rcases Pl.assignMat w1.self.stateSize with e | Pr <;> dsimp only
  · exact Or.inl ⟨e, rfl⟩
  exact Or.inr ⟨_, _, by rw [hlen]⟩

theorem item_rows_of {U : NDArray F} {k : ℕ} {u : Arr F} (h : U.item k = .ok u) : U.rows[k]? = some u := by
  cases U with
  | d0 => simp [NDArray.item] at h
  | stack r =>
    simp only [NDArray.item] at h
    show r[k]? = some u
    split at h <;> simp_all

/-- C143 (smooth returns): the calls of `filter`, and then, for `k = n - 2, …, 0`, the calls `jacobian_A`, `f`, `jacobian_A` at row `k` of
what `filter` returned and row `k + 1` of the controls. -/
theorem C143_smooth_calls (log : List (CallbackCall F)) (s : σ) (a : EkfAttrs F) (Z : NDArray F) (U : Option (NDArray F))
    (r : List (Arr F) × List (Arr F)) (w' : World (List (CallbackCall F) × σ) F)
    (h : (Stateful.smooth cb.logged Z U).run ⟨(log, s), a⟩ = (.ok r, w')) :
    ∃ fx fP w1, (Stateful.filter cb.logged Z U).run ⟨(log, s), a⟩ = (.ok (fx, fP), w1) ∧
      ∃ bs : List (BackCalls F), bs.length = Z.rows.length - 1 ∧ w'.user.1 = w1.user.1 ++ bs.flatMap BackCalls.calls ∧
        ∀ i b, bs[i]? = some b → fx[Z.rows.length - 2 - i]? = some b.x ∧ (effU U Z).rows[Z.rows.length - 2 - i + 1]? = some b.u := by
  rcases smooth_unfold cb.logged Z U ⟨(log, s), a⟩ with ⟨e, w1, -, h2⟩ | ⟨fx, fP, w1, h1, ⟨e, h2⟩ | ⟨xs, Ps, h2⟩⟩
  · rw [h] at h2; simp at h2
  · rw [h] at h2; simp at h2
  rw [h] at h2
  obtain ⟨bs, b1, b2⟩ := smoothLoop_log_ok cb w1.self.stateSize w1.self.Q (checkNoneAndBroadcast U Z) fx fP _ xs Ps w1 r (by rw [← h2])
  rw [← h2] at b2
  refine ⟨fx, fP, w1, h1, bs, by rw [← b1.length_eq]; simp, b2, fun i b hb => ?_⟩
  have hi : i < Z.rows.length - 1 := by
    have := (List.getElem?_eq_some_iff.1 hb).1
    rw [← b1.length_eq] at this
    simpa using this
  have hk : (List.range (Z.rows.length - 1)).reverse[i]? = some (Z.rows.length - 2 - i) := by
    rw [List.getElem?_reverse (by simpa using hi), List.getElem?_range (by simp; omega)]
    simp only [List.length_range, Option.some.injEq]
    omega
  obtain ⟨q1, q2⟩ := (List.forall₂_iff_get.1 b1).2 i (by simpa using hi) (List.getElem?_eq_some_iff.1 hb).1
  simp only [List.get_eq_getElem] at q1 q2
  rw [List.getElem?_eq_some_iff] at hk hb
  obtain ⟨_, hk⟩ := hk
  obtain ⟨_, hb⟩ := hb
  rw [hk, hb] at q1 q2
  exact ⟨q1, item_rows_of q2⟩

/-- C143 (smooth raises `e`): `filter` did, or nothing is called after `filter`, or some complete steps of the backward pass are followed
by one that stops. -/
theorem C143_smooth_calls_until (log : List (CallbackCall F)) (s : σ) (a : EkfAttrs F) (Z : NDArray F) (U : Option (NDArray F)) (e : PyErr)
    (w' : World (List (CallbackCall F) × σ) F) (h : (Stateful.smooth cb.logged Z U).run ⟨(log, s), a⟩ = (.error e, w')) :
    (Stateful.filter cb.logged Z U).run ⟨(log, s), a⟩ = (.error e, w') ∨
    ∃ fx fP w1, (Stateful.filter cb.logged Z U).run ⟨(log, s), a⟩ = (.ok (fx, fP), w1) ∧
      ∃ (bs : List (BackCalls F)) (l : List (CallbackCall F)), w'.user.1 = w1.user.1 ++ bs.flatMap BackCalls.calls ++ l ∧
        bs.length ≤ Z.rows.length - 1 ∧
        (∀ i b, bs[i]? = some b → fx[Z.rows.length - 2 - i]? = some b.x ∧ (effU U Z).rows[Z.rows.length - 2 - i + 1]? = some b.u) ∧
        (l = [] ∨ ∃ x u, fx[Z.rows.length - 2 - bs.length]? = some x ∧ (effU U Z).rows[Z.rows.length - 2 - bs.length + 1]? = some u ∧
          PartialBack x u e l) := by
  rcases smooth_unfold cb.logged Z U ⟨(log, s), a⟩ with ⟨e', w1, h1, h2⟩ | ⟨fx, fP, w1, h1, ⟨e', h2⟩ | ⟨xs, Ps, h2⟩⟩
  · rw [h] at h2
    exact Or.inl (by rw [h1, h2])
  · rw [h] at h2
    simp only [Prod.mk.injEq] at h2
    exact Or.inr ⟨fx, fP, w1, h1, [], [], by rw [h2.2]; simp, by simp, by simp, Or.inl rfl⟩
  right
  rw [h] at h2
  obtain ⟨bs, l, k, b1, b2, b3, b4⟩ := smoothLoop_log_error cb w1.self.stateSize w1.self.Q (checkNoneAndBroadcast U Z) fx fP _ xs Ps w1 e
    (by rw [← h2])
  rw [← h2] at b4
  have hkey : ∀ i j, (List.range (Z.rows.length - 1)).reverse[i]? = some j → i < Z.rows.length - 1 ∧ j = Z.rows.length - 2 - i := by
    intro i j hj
    have hi : i < Z.rows.length - 1 := by simpa using (List.getElem?_eq_some_iff.1 hj).1
    rw [List.getElem?_reverse (by simpa using hi), List.getElem?_range (by simp; omega)] at hj
    simp only [List.length_range, Option.some.injEq] at hj
    omega
  obtain ⟨hk1, hk2⟩ := hkey _ _ b2
  refine ⟨fx, fP, w1, h1, bs, l, b4, by omega, fun i b hb => ?_, ?_⟩
  · have hib := (List.getElem?_eq_some_iff.1 hb).1
    obtain ⟨q1, q2⟩ := (List.forall₂_iff_get.1 b1).2 i (by rw [b1.length_eq]; exact hib) hib
    simp only [List.get_eq_getElem] at q1 q2
    have hil : i < ((List.range (Z.rows.length - 1)).reverse.take bs.length).length := by rw [b1.length_eq]; exact hib
    have hk : (List.range (Z.rows.length - 1)).reverse[i]? = some (((List.range (Z.rows.length - 1)).reverse.take bs.length)[i]'hil) := by
      rw [List.getElem_take, ← List.getElem?_eq_getElem]
    obtain ⟨-, e1⟩ := hkey _ _ hk
    rw [e1] at q1 q2
    rw [List.getElem?_eq_some_iff] at hb
    obtain ⟨_, hb⟩ := hb
    rw [hb] at q1 q2
    exact ⟨q1, item_rows_of q2⟩
  · rw [← hk2]
    rcases b3 with b3 | ⟨x, u, c1, c2, c3⟩
    · exact Or.inl b3
    · exact Or.inr ⟨x, u, c1, item_rows_of c2, c3⟩

/-! ## Cases that meet the hypotheses -/

/-- C143: any observations of the nonlinear model `Ex.curved`: `smooth` (so `filter`) returns with the calls written down. -/
example [Platform] (zs : List ℝ) (hne : zs ≠ []) : let ss := zs.map Ex.curved
    let b : Belief 2 := ⟨![1, 2], 1⟩
    let kf := Ex.extEncode (Ex.curved 0).f (Ex.curved 0).jA (Ex.curved 0).h (Ex.curved 0).jH b ss
    ∃ r w', (Stateful.smooth (pureCb kf).logged (Ex.extEncZ ss) (some (Ex.extEncZ ss))).run ⟨([], ()), kf.attrs⟩ = (.ok r, w') := by
  intro ss b kf
  obtain ⟨h1, h2, h3, -, -, -, h4, h5⟩ := Ex.curved_meets zs hne
  obtain ⟨log', h⟩ := (C143_logging_is_invisible (pureCb kf) [] () kf.attrs (Ex.extEncZ ss) (some (Ex.extEncZ ss))).2
  have hp := (smooth_pure kf (Ex.extEncZ ss) (some (Ex.extEncZ ss)) []).1
  rw [show kf.addGains [] = kf by simp [ExtendedKalmanFilter.addGains]] at hp
  rw [show (⟨(), kf.attrs⟩ : World Unit Fl) = worldOf kf from rfl, hp] at h
  have ht := (C51_smooth_textbook kf _ _ b ss h1 h2 h3).1 h4 h5
  rw [ht] at h
  exact ⟨_, _, h⟩

/-- C143: a callback that raises at its first call. -/
example (x P u z Q R : Arr F) (I : Arr F) (f : Arr F → Option (Arr F) → Py (World Unit F) (Arr F)) (h jH : Arr F → Py (World Unit F) (Arr F)) :
    (Stateful.filter (Callbacks.logged ⟨f, h, fun _ _ => Py.lift (.error .valueError), jH⟩) (.stack [z, z]) (some (.stack [u, u]))).run
      ⟨([], ()), ⟨x, P, .stack [Q], .stack [R], 2, I, []⟩⟩ =
      (.error .valueError, ⟨([.jacobianA x (some u) (.error .valueError)], ()), ⟨x, P, .stack [Q], .stack [R], 2, I, []⟩⟩) := by
  rfl

end KK
