import Verif.Props.Runs

/-!
# Object state across calls (C05-C08)
-/

set_option linter.unusedSectionVars false
set_option linter.unusedSimpArgs false

namespace KK

variable {F : Type} [Backend F]

/-- The object with another gain list. -/
def KalmanFilter.withGains (kf : KalmanFilter F) (g : List (Arr F)) : KalmanFilter F :=
  { kf with kalmanGains := g }
def ExtendedKalmanFilter.withGains (kf : ExtendedKalmanFilter F) (g : List (Arr F)) :
    ExtendedKalmanFilter F :=
  { kf with kalmanGains := g }

namespace KalmanFilter

theorem filter_withGains (Z : NDArray F) (U : Option (NDArray F)) (kf : KalmanFilter F)
    (g0 : List (Arr F)) : ∃ g, ∀ base,
      (filter Z U).run (kf.withGains base) =
        (((filter Z U).run (kf.withGains g0)).1, kf.withGains (base ++ g)) := by
  simp only [filter_eq, withGains]
  rcases Z.len with e | n
  · exact ⟨[], fun base => by simp⟩
  dsimp only
  rcases zipRows kf.A kf.H kf.B (checkNoneAndBroadcast U Z) Z kf.Q kf.R with e | rows
  · exact ⟨[], fun base => by simp⟩
  · exact ⟨_, fun base => rfl⟩

theorem update_withGains (Hk xk Pk zk Rk : Arr F) (kf : KalmanFilter F)
    (g0 : List (Arr F)) : ∃ g, g.length ≤ 1 ∧
      ((∃ r, ((update Hk xk Pk zk Rk).run (kf.withGains g0)).1 = .ok r) → g.length = 1) ∧ ∀ base,
      (update Hk xk Pk zk Rk).run (kf.withGains base) =
        (((update Hk xk Pk zk Rk).run (kf.withGains g0)).1, kf.withGains (base ++ g)) := by
  simp only [update, Py.run_bind, Py.run_lift, Py.run_mutate, Py.run_self]
  rcases gain Hk Pk Rk with e | K
  · exact ⟨[], by simp, by simp, fun base => by simp⟩
  · exact ⟨[K], by simp, by simp, fun base => rfl⟩

theorem smooth_state (Z : NDArray F) (U : Option (NDArray F)) (kf : KalmanFilter F) :
    ((smooth Z U).run kf).2 = ((filter Z U).run kf).2 := by
  rw [smooth_eq]
  rcases (filter Z U).run kf with ⟨e | ⟨xe, Pe⟩, kf'⟩ <;> rfl

theorem smooth_withGains (Z : NDArray F) (U : Option (NDArray F)) (kf : KalmanFilter F)
    (g0 : List (Arr F)) : ∃ g, ∀ base,
      (smooth Z U).run (kf.withGains base) =
        (((smooth Z U).run (kf.withGains g0)).1, kf.withGains (base ++ g)) := by
  obtain ⟨g, hg⟩ := filter_withGains Z U kf g0
  refine ⟨g, fun base => ?_⟩
  rw [smooth_eq, smooth_eq, hg base]
  rcases h : (filter Z U).run (kf.withGains g0) with ⟨e | ⟨xe, Pe⟩, kf'⟩
  · rfl
  · rfl

/-- Every call appends a list of gains that depends on the call and the parameters only, and its outcome
does not depend on the gains. -/
theorem exec_withGains (kf : KalmanFilter F) (c : Call F) (g0 : List (Arr F)) : ∃ g, ∀ base,
    (kf.withGains base).exec c = (((kf.withGains g0).exec c).1, kf.withGains (base ++ g)) := by
  cases c with
  | predict Ak xk Bk uk Pk Qk => exact ⟨[], fun base => by simp [exec]⟩
  | update Hk xk Pk zk Rk =>
    obtain ⟨g, -, -, hg⟩ := update_withGains Hk xk Pk zk Rk kf g0
    exact ⟨g, fun base => by simp only [exec, hg base]⟩
  | filter Z U =>
    obtain ⟨g, hg⟩ := filter_withGains Z U kf g0
    exact ⟨g, fun base => by simp only [exec, hg base]⟩
  | smooth Z U =>
    obtain ⟨g, hg⟩ := smooth_withGains Z U kf g0
    exact ⟨g, fun base => by simp only [exec, hg base]⟩

end KalmanFilter

namespace ExtendedKalmanFilter

theorem filter_withGains (Z : NDArray F) (U : Option (NDArray F)) (kf : ExtendedKalmanFilter F)
    (g0 : List (Arr F)) : ∃ g, ∀ base,
      (filter Z U).run (kf.withGains base) =
        (((filter Z U).run (kf.withGains g0)).1, kf.withGains (base ++ g)) := by
  have hs : ∀ g, step (kf.withGains g) = step kf := fun _ => rfl
  simp only [filter_eq, hs]
  rcases Z.len with e | n
  · exact ⟨[], fun base => by simp⟩
  dsimp only [withGains]
  rcases zipRows (checkNoneAndBroadcast U Z) Z kf.Q kf.R with e | rows
  · exact ⟨[], fun base => by simp⟩
  · exact ⟨_, fun base => rfl⟩

theorem update_withGains (xk Pk zk Rk : Arr F) (kf : ExtendedKalmanFilter F)
    (g0 : List (Arr F)) : ∃ g, g.length ≤ 1 ∧
      ((∃ r, ((update xk Pk zk Rk).run (kf.withGains g0)).1 = .ok r) → g.length = 1) ∧ ∀ base,
      (update xk Pk zk Rk).run (kf.withGains base) =
        (((update xk Pk zk Rk).run (kf.withGains g0)).1, kf.withGains (base ++ g)) := by
  simp only [update, Py.run_bind, Py.run_lift, Py.run_mutate, Py.run_self]
  have h1 : ∀ g, (kf.withGains g).jacobianH = kf.jacobianH := fun _ => rfl
  simp only [h1]
  rcases kf.jacobianH xk with e | Hk
  · exact ⟨[], by simp, by simp, fun base => by simp⟩
  dsimp only
  rcases gain Hk Pk Rk with e | K
  · exact ⟨[], by simp, by simp, fun base => by simp⟩
  · exact ⟨[K], by simp, by simp, fun base => rfl⟩

theorem smooth_state (Z : NDArray F) (U : Option (NDArray F)) (kf : ExtendedKalmanFilter F) :
    ((smooth Z U).run kf).2 = ((filter Z U).run kf).2 := by
  rw [smooth_eq]
  rcases (filter Z U).run kf with ⟨e | ⟨xe, Pe⟩, kf'⟩ <;> rfl

theorem smooth_withGains (Z : NDArray F) (U : Option (NDArray F)) (kf : ExtendedKalmanFilter F)
    (g0 : List (Arr F)) : ∃ g, ∀ base,
      (smooth Z U).run (kf.withGains base) =
        (((smooth Z U).run (kf.withGains g0)).1, kf.withGains (base ++ g)) := by
  obtain ⟨g, hg⟩ := filter_withGains Z U kf g0
  refine ⟨g, fun base => ?_⟩
  rw [smooth_eq, smooth_eq, hg base]
  rcases h : (filter Z U).run (kf.withGains g0) with ⟨e | ⟨xe, Pe⟩, kf'⟩
  · rfl
  · rfl

theorem exec_withGains (kf : ExtendedKalmanFilter F) (c : Call F) (g0 : List (Arr F)) : ∃ g, ∀ base,
    (kf.withGains base).exec c = (((kf.withGains g0).exec c).1, kf.withGains (base ++ g)) := by
  cases c with
  | predict xk uk Pk Qk => exact ⟨[], fun base => by simp [exec, predict, withGains]⟩
  | update xk Pk zk Rk =>
    obtain ⟨g, -, -, hg⟩ := update_withGains xk Pk zk Rk kf g0
    exact ⟨g, fun base => by simp only [exec, hg base]⟩
  | filter Z U =>
    obtain ⟨g, hg⟩ := filter_withGains Z U kf g0
    exact ⟨g, fun base => by simp only [exec, hg base]⟩
  | smooth Z U =>
    obtain ⟨g, hg⟩ := smooth_withGains Z U kf g0
    exact ⟨g, fun base => by simp only [exec, hg base]⟩

end ExtendedKalmanFilter

/-- The gains a call would record on an object without recorded gains. -/
def KalmanFilter.gainsOf (kf : KalmanFilter F) (c : KalmanFilter.Call F) : List (Arr F) :=
  (KalmanFilter.exec { kf with kalmanGains := [] } c).2.kalmanGains
def ExtendedKalmanFilter.gainsOf (kf : ExtendedKalmanFilter F) (c : ExtendedKalmanFilter.Call F) :
    List (Arr F) :=
  (ExtendedKalmanFilter.exec { kf with kalmanGains := [] } c).2.kalmanGains

theorem KalmanFilter.exec_eq (kf : KalmanFilter F) (c : KalmanFilter.Call F) (base : List (Arr F)) :
    (kf.withGains base).exec c = ((kf.exec c).1, kf.withGains (base ++ kf.gainsOf c)) := by
  obtain ⟨g, hg⟩ := kf.exec_withGains c kf.kalmanGains
  have h1 := hg base
  have h2 := hg []
  have h3 : kf.gainsOf c = g := by
    have : kf.withGains [] = { kf with kalmanGains := [] } := rfl
    simp only [gainsOf]
    rw [← this, h2]; rfl
  rw [h1, h3]; rfl

theorem ExtendedKalmanFilter.exec_eq (kf : ExtendedKalmanFilter F) (c : ExtendedKalmanFilter.Call F)
    (base : List (Arr F)) :
    (kf.withGains base).exec c = ((kf.exec c).1, kf.withGains (base ++ kf.gainsOf c)) := by
  obtain ⟨g, hg⟩ := kf.exec_withGains c kf.kalmanGains
  have h1 := hg base
  have h2 := hg []
  have h3 : kf.gainsOf c = g := by
    have : kf.withGains [] = { kf with kalmanGains := [] } := rfl
    simp only [gainsOf]
    rw [← this, h2]; rfl
  rw [h1, h3]; rfl

theorem KalmanFilter.after_eq (kf : KalmanFilter F) (hist : List (KalmanFilter.Call F)) :
    kf.after hist = { kf with kalmanGains := kf.kalmanGains ++ hist.flatMap kf.gainsOf } := by
  have : ∀ base, (kf.withGains base).after hist = kf.withGains (base ++ hist.flatMap kf.gainsOf) := by
    induction hist with
    | nil => intro base; simp [after]
    | cons c hist ih =>
      intro base
      have := ih (base ++ kf.gainsOf c)
      simp only [after, List.foldl_cons, exec_eq, List.flatMap_cons, ← List.append_assoc] at this ⊢
      exact this
  exact this kf.kalmanGains

theorem ExtendedKalmanFilter.after_eq (kf : ExtendedKalmanFilter F)
    (hist : List (ExtendedKalmanFilter.Call F)) :
    kf.after hist = { kf with kalmanGains := kf.kalmanGains ++ hist.flatMap kf.gainsOf } := by
  have : ∀ base, (kf.withGains base).after hist = kf.withGains (base ++ hist.flatMap kf.gainsOf) := by
    induction hist with
    | nil => intro base; simp [after]
    | cons c hist ih =>
      intro base
      have := ih (base ++ kf.gainsOf c)
      simp only [after, List.foldl_cons, exec_eq, List.flatMap_cons, ← List.append_assoc] at this ⊢
      exact this
  exact this kf.kalmanGains

/-! ## C05 -/

/-- C05: whatever calls were made before (with whatever arguments, successful or raising), all attributes
except `kalman_gains` are unchanged and any further call has the same outcome as on the original object. -/
theorem C05_history_independent (kf : KalmanFilter F) (hist : List (KalmanFilter.Call F))
    (c : KalmanFilter.Call F) :
    (kf.after hist).A = kf.A ∧ (kf.after hist).xk = kf.xk ∧ (kf.after hist).B = kf.B ∧
    (kf.after hist).Pk = kf.Pk ∧ (kf.after hist).H = kf.H ∧ (kf.after hist).Q = kf.Q ∧
    (kf.after hist).R = kf.R ∧ (kf.after hist).stateSize = kf.stateSize ∧ (kf.after hist).I = kf.I ∧
    ((kf.after hist).exec c).1 = (kf.exec c).1 := by
  rw [kf.after_eq hist]
  refine ⟨rfl, rfl, rfl, rfl, rfl, rfl, rfl, rfl, rfl, ?_⟩
  have := kf.exec_eq c (kf.kalmanGains ++ hist.flatMap kf.gainsOf)
  simp only [KalmanFilter.withGains] at this
  rw [this]

/-- C05 for the extended filter. -/
theorem C05_ekf_history_independent (kf : ExtendedKalmanFilter F)
    (hist : List (ExtendedKalmanFilter.Call F)) (c : ExtendedKalmanFilter.Call F) :
    (kf.after hist).f = kf.f ∧ (kf.after hist).jacobianA = kf.jacobianA ∧ (kf.after hist).h = kf.h ∧
    (kf.after hist).jacobianH = kf.jacobianH ∧ (kf.after hist).xk = kf.xk ∧
    (kf.after hist).Pk = kf.Pk ∧ (kf.after hist).Q = kf.Q ∧ (kf.after hist).R = kf.R ∧
    (kf.after hist).stateSize = kf.stateSize ∧ (kf.after hist).I = kf.I ∧
    ((kf.after hist).exec c).1 = (kf.exec c).1 := by
  rw [kf.after_eq hist]
  refine ⟨rfl, rfl, rfl, rfl, rfl, rfl, rfl, rfl, rfl, rfl, ?_⟩
  have := kf.exec_eq c (kf.kalmanGains ++ hist.flatMap kf.gainsOf)
  simp only [ExtendedKalmanFilter.withGains] at this
  rw [this]

/-! ## C06 -/

/-- C06: `kalman_gains` is empty on a new object; after any history it is what was there before followed
by what each call records on its own, in order; `predict` records nothing, `update` at most one gain and
exactly one if it returns, `filter` exactly one per processed step if it returns, `smooth` exactly what
the `filter` call with the same arguments records. -/
theorem C06_gain_ledger (kf : KalmanFilter F) (hist : List (KalmanFilter.Call F)) :
    (kf.after hist).kalmanGains = kf.kalmanGains ++ hist.flatMap kf.gainsOf ∧
    (∀ A xk B Pk H Q R s (kf0 : KalmanFilter F), KalmanFilter.new A xk B Pk H Q R s = .ok kf0 → kf0.kalmanGains = []) ∧
    (∀ Ak xk Bk uk Pk Qk, kf.gainsOf (.predict Ak xk Bk uk Pk Qk) = []) ∧
    (∀ Hk xk Pk zk Rk, (kf.gainsOf (.update Hk xk Pk zk Rk)).length ≤ 1) ∧
    (∀ Hk xk Pk zk Rk r, (kf.exec (.update Hk xk Pk zk Rk)).1 = .pair (.ok r) →
      (kf.gainsOf (.update Hk xk Pk zk Rk)).length = 1) ∧
    (∀ Z U r, (kf.exec (.filter Z U)).1 = .rows (.ok r) →
      (kf.gainsOf (.filter Z U)).length = kf.steps Z U) ∧
    (∀ Z U, kf.gainsOf (.smooth Z U) = kf.gainsOf (.filter Z U)) := by
  refine ⟨by rw [kf.after_eq hist], ?_, fun _ _ _ _ _ _ => rfl, ?_, ?_, ?_, ?_⟩
  · intro A xk B Pk H Q R s kf0 h
    simp only [KalmanFilter.new] at h
    split at h
    · simp at h; rw [← h]
    · simp at h
    · split at h
      · simp at h
      · simp at h; rw [← h]
  · intro Hk xk Pk zk Rk
    obtain ⟨g, hl, -, hg⟩ := KalmanFilter.update_withGains Hk xk Pk zk Rk kf []
    have := hg []
    change ((KalmanFilter.update Hk xk Pk zk Rk).run (kf.withGains [])).2.kalmanGains.length ≤ 1
    rw [this]
    simpa [KalmanFilter.withGains] using hl
  · intro Hk xk Pk zk Rk r hr
    obtain ⟨g, -, hl, hg⟩ := KalmanFilter.update_withGains Hk xk Pk zk Rk kf kf.kalmanGains
    have := hg []
    change ((KalmanFilter.update Hk xk Pk zk Rk).run (kf.withGains [])).2.kalmanGains.length = 1
    rw [this]
    simp only [KalmanFilter.exec, Outcome.pair.injEq] at hr
    simpa [KalmanFilter.withGains] using hl ⟨r, hr⟩
  · intro Z U r hr
    simp only [KalmanFilter.exec, Outcome.rows.injEq] at hr
    obtain ⟨kf', hk⟩ : ∃ kf', (KalmanFilter.filter Z U).run kf = (.ok r, kf') :=
      ⟨_, Prod.ext hr rfl⟩
    have he := KalmanFilter.ok_err hk
    have hi := KalmanFilter.ok_iter hk
    have hi' : KalmanFilter.AllIterable { kf with kalmanGains := [] } Z U := by
      obtain ⟨a, b, c, d, e, f, g⟩ := hi
      exact ⟨a, b, c, d, e, f, g⟩
    have := trace_gains_length _ (KalmanFilter.stepGain _ _) _ _ _ he
    rw [KalmanFilter.zrows_length] at this
    simp only [KalmanFilter.gainsOf, KalmanFilter.exec, KalmanFilter.filter_iter hi',
      KalmanFilter.addGains, List.nil_append]
    exact this
  · intro Z U
    simp only [KalmanFilter.gainsOf, KalmanFilter.exec, KalmanFilter.smooth_state]

/-- C06 for the extended filter. -/
theorem C06_ekf_gain_ledger (kf : ExtendedKalmanFilter F) (hist : List (ExtendedKalmanFilter.Call F)) :
    (kf.after hist).kalmanGains = kf.kalmanGains ++ hist.flatMap kf.gainsOf ∧
    (∀ xk Pk Q R f h jA jH (kf0 : ExtendedKalmanFilter F), ExtendedKalmanFilter.new xk Pk Q R f h jA jH = .ok kf0 →
      kf0.kalmanGains = []) ∧
    (∀ xk uk Pk Qk, kf.gainsOf (.predict xk uk Pk Qk) = []) ∧
    (∀ xk Pk zk Rk, (kf.gainsOf (.update xk Pk zk Rk)).length ≤ 1) ∧
    (∀ xk Pk zk Rk r, (kf.exec (.update xk Pk zk Rk)).1 = .pair (.ok r) →
      (kf.gainsOf (.update xk Pk zk Rk)).length = 1) ∧
    (∀ Z U r, (kf.exec (.filter Z U)).1 = .rows (.ok r) →
      (kf.gainsOf (.filter Z U)).length = kf.steps Z U) ∧
    (∀ Z U, kf.gainsOf (.smooth Z U) = kf.gainsOf (.filter Z U)) := by
  refine ⟨by rw [kf.after_eq hist], ?_, fun _ _ _ _ => rfl, ?_, ?_, ?_, ?_⟩
  · intro xk Pk Q R f h jA jH kf0 h
    simp only [ExtendedKalmanFilter.new] at h
    split at h
    · simp at h
    · simp at h; rw [← h]
  · intro xk Pk zk Rk
    obtain ⟨g, hl, -, hg⟩ := ExtendedKalmanFilter.update_withGains xk Pk zk Rk kf []
    have := hg []
    change ((ExtendedKalmanFilter.update xk Pk zk Rk).run (kf.withGains [])).2.kalmanGains.length ≤ 1
    rw [this]
    simpa [ExtendedKalmanFilter.withGains] using hl
  · intro xk Pk zk Rk r hr
    obtain ⟨g, -, hl, hg⟩ := ExtendedKalmanFilter.update_withGains xk Pk zk Rk kf kf.kalmanGains
    have := hg []
    change ((ExtendedKalmanFilter.update xk Pk zk Rk).run (kf.withGains [])).2.kalmanGains.length = 1
    rw [this]
    simp only [ExtendedKalmanFilter.exec, Outcome.pair.injEq] at hr
    simpa [ExtendedKalmanFilter.withGains] using hl ⟨r, hr⟩
  · intro Z U r hr
    simp only [ExtendedKalmanFilter.exec, Outcome.rows.injEq] at hr
    obtain ⟨kf', hk⟩ : ∃ kf', (ExtendedKalmanFilter.filter Z U).run kf = (.ok r, kf') :=
      ⟨_, Prod.ext hr rfl⟩
    have he := ExtendedKalmanFilter.ok_err hk
    have hi := ExtendedKalmanFilter.ok_iter hk
    have hi' : ExtendedKalmanFilter.AllIterable { kf with kalmanGains := [] } Z U := by
      obtain ⟨d, e, f, g⟩ := hi
      exact ⟨d, e, f, g⟩
    have := trace_gains_length _ (ExtendedKalmanFilter.stepGain _) _ _ _ he
    rw [ExtendedKalmanFilter.zrows_length] at this
    simp only [ExtendedKalmanFilter.gainsOf, ExtendedKalmanFilter.exec,
      ExtendedKalmanFilter.filter_iter hi', ExtendedKalmanFilter.addGains, List.nil_append]
    exact this
  · intro Z U
    simp only [ExtendedKalmanFilter.gainsOf, ExtendedKalmanFilter.exec,
      ExtendedKalmanFilter.smooth_state]

/-- A history: a filter call, a failing predict, a smooth call; six gains on record. -/
example : ((Ex.cv 3).after [.filter Ex.zs (some Ex.us),
    .predict (Ex.vec1 none) (Ex.vec1 none) none none (Ex.vec1 none) (Ex.vec1 none),
    .smooth Ex.zs none]).kalmanGains.length = 6 := by decide +kernel

end KK
