import Verif.Spec.Subclass
import Verif.Proofs.Stateful

/-! # Subclasses: programs run side by side with the inherited ones -/

set_option linter.unusedSectionVars false
set_option linter.unusedSimpArgs false

namespace KK

variable {σ F : Type} [Backend F]

/-- The instance has the inherited attributes `t`, its state size is `n`, and `J` holds. -/
def TracksBase {O : Type} (size : O → ℕ) (n : ℕ) (J : Instance σ O → Prop) (s : Instance σ O) (t : O) : Prop :=
  s.base = t ∧ size t = n ∧ J s

theorem KalmanFilter.update_size (Hk xk Pk zk Rk : Arr F) (kf : KalmanFilter F) :
    ((KalmanFilter.update Hk xk Pk zk Rk).run kf).2.stateSize = kf.stateSize := by
  simp only [KalmanFilter.update, Py.run_bind, Py.run_lift]
  rcases KalmanFilter.gain Hk Pk Rk with e | K
  · rfl
  · simp only [Py.run_mutate, Py.run_self, Py.run_lift]

theorem ExtendedKalmanFilter.update_size (xk Pk zk Rk : Arr F) (kf : ExtendedKalmanFilter F) :
    ((ExtendedKalmanFilter.update xk Pk zk Rk).run kf).2.stateSize = kf.stateSize := by
  simp only [ExtendedKalmanFilter.update, Py.run_bind, Py.run_lift, Py.run_self]
  rcases kf.jacobianH xk with e | H
  · rfl
  dsimp only
  rcases ExtendedKalmanFilter.gain H Pk Rk with e | K
  · rfl
  · simp only [Py.run_mutate, Py.run_self, Py.run_lift]

namespace Methods

variable {M : Methods σ F} {J : Instance σ (KalmanFilter F) → Prop}

theorem Extends.predict_matched (h : M.Extends J) (n : ℕ) (Ak xk : Arr F) (Bk uk : Option (Arr F)) (Pk Qk : Arr F) :
    Matched (TracksBase KalmanFilter.stateSize n J) (M.predict Ak xk Bk uk Pk Qk) (Py.lift (KalmanFilter.predict Ak xk Bk uk Pk Qk)) := by
  rintro s t ⟨rfl, hn, hj⟩
  obtain ⟨h1, h2, h3⟩ := h.predict Ak xk Bk uk Pk Qk s hj
  exact ⟨h1, h2, hn, h3⟩

theorem Extends.update_matched (h : M.Extends J) (n : ℕ) (Hk xk Pk zk Rk : Arr F) :
    Matched (TracksBase KalmanFilter.stateSize n J) (M.update Hk xk Pk zk Rk) (KalmanFilter.update Hk xk Pk zk Rk) := by
  rintro s t ⟨rfl, hn, hj⟩
  obtain ⟨h1, h2, h3⟩ := h.update Hk xk Pk zk Rk s hj
  exact ⟨h1, h2, (KalmanFilter.update_size ..).trans hn, h3⟩

theorem _root_.KK.Matched.readSize {α : Type} {O : Type} {size : O → ℕ} {n : ℕ} {J : Instance σ O → Prop} {p : Py (Instance σ O) α}
    {q : O → Py O α} (h : ∀ t, size t = n → Matched (TracksBase size n J) p (q t)) : Matched (TracksBase size n J) p (Py.self >>= q) := by
  rintro s t ⟨rfl, hn, hj⟩
  rw [Py.run_bind, Py.run_self]
  exact h s.base hn s s.base ⟨rfl, hn, hj⟩

theorem Extends.filterLoop (h : M.Extends J) (n k : ℕ) (rows : List (KalmanFilter.Row F)) (x P : Arr F) (states errors : List (Arr F)) :
    Matched (TracksBase KalmanFilter.stateSize n J) (M.filterLoop n k rows x P states errors)
      (KalmanFilter.filterLoop k rows x P states errors) := by
  induction rows generalizing k x P states errors with
  | nil => exact Matched.pure _
  | cons r rows ih =>
    obtain ⟨Ak, Hk, Bk, uk, zk, Qk, Rk⟩ := r
    refine (h.predict_matched _ _ _ _ _ _ _).bind fun ⟨_, _⟩ => (h.update_matched _ _ _ _ _ _).bind fun ⟨_, _⟩ =>
      Matched.readSize fun t ht => ?_
    subst ht
    exact (Matched.lift _).bind fun _ => (Matched.lift _).bind fun _ => ih _ _ _ _ _

theorem Extends.filter (h : M.Extends J) (Z : NDArray F) (U : Option (NDArray F)) (s : Instance σ (KalmanFilter F)) (hj : J s) :
    ((M.filter Z U).run s).1 = ((KalmanFilter.filter Z U).run s.base).1 ∧
      TracksBase KalmanFilter.stateSize s.base.stateSize J ((M.filter Z U).run s).2 ((KalmanFilter.filter Z U).run s.base).2 := by
  simp only [Methods.filter, KalmanFilter.filter, Py.run_bind, Instance.attrs, Py.run_self]
  exact ((Matched.lift Z.len).bind fun _ => (Matched.lift _).bind fun _ => h.filterLoop _ _ _ _ _ _ _) s s.base ⟨rfl, rfl, hj⟩

theorem smoothStep_eq (xk Pk Ak Qk Bk uk xNext PNext : Arr F) :
    KalmanFilter.smoothStep xk Pk Ak Qk Bk uk xNext PNext =
      KalmanFilter.predict Ak xk (some Bk) (some uk) Pk Qk >>= fun a => Stateful.smoothed Ak xk Pk a.1 a.2 xNext PNext := by
  simp only [KalmanFilter.smoothStep]
  rcases KalmanFilter.predict Ak xk (some Bk) (some uk) Pk Qk with e | ⟨xa, Pa⟩ <;> rfl

theorem smoothLoop_eq (A Q B U : NDArray F) (s : ℕ) (xEst PEst : List (Arr F)) (k : ℕ) (ks : List ℕ) (xs Ps : List (Arr F)) :
    KalmanFilter.smoothLoop A Q B U s xEst PEst (k :: ks) xs Ps =
      backItems A Q B U xEst PEst xs Ps k >>= fun i =>
      KalmanFilter.predict i.1.1 i.2.2.1 (some i.1.2.2.1) (some i.1.2.2.2) i.2.1 i.1.2.1 >>= fun a =>
      Stateful.smoothed i.1.1 i.2.2.1 i.2.1 a.1 a.2 i.2.2.2.1 i.2.2.2.2 >>= fun r =>
      r.1.assignVec s >>= fun xrow => r.2.assignMat s >>= fun Prow =>
      KalmanFilter.smoothLoop A Q B U s xEst PEst ks (xs.set k xrow) (Ps.set k Prow) := by
  simp only [KalmanFilter.smoothLoop, backItems]
  rcases A.item (k + 1) with e | Ak
  · rfl
  rcases Q.item (k + 1) with e | Qk
  · rfl
  rcases B.item (k + 1) with e | Bk
  · rfl
  rcases U.item (k + 1) with e | uk
  · rfl
  rcases getRow PEst k with e | Pk
  · rfl
  rcases getRow xEst k with e | xk
  · rfl
  rcases getRow xs (k + 1) with e | xNext
  · rfl
  rcases getRow Ps (k + 1) with e | PNext
  · rfl
  simp only [Except.bind_ok', smoothStep_eq]
  rcases KalmanFilter.predict Ak xk (some Bk) (some uk) Pk Qk with e | a
  · rfl
  simp only [Except.bind_ok']

theorem _root_.KK.Matched.lift_bind {S T α β : Type} {W : S → T → Prop} {p : Py S β} {x : Except PyErr α} {f : α → Except PyErr β}
    (h : Matched W p (Py.lift x >>= fun a => Py.lift (f a))) : Matched W p (Py.lift (x >>= f)) := by
  intro s t hst
  rw [Stateful.lift_bind]
  exact h s t hst

theorem Extends.smoothLoop (h : M.Extends J) (n : ℕ) (A Q B U : NDArray F) (xEst PEst : List (Arr F)) (ks : List ℕ)
    (xs Ps : List (Arr F)) :
    Matched (TracksBase KalmanFilter.stateSize n J) (M.smoothLoop n A Q B U xEst PEst ks xs Ps)
      (Py.lift (KalmanFilter.smoothLoop A Q B U n xEst PEst ks xs Ps)) := by
  induction ks generalizing xs Ps with
  | nil => exact Matched.lift (.ok (xs, Ps))
  | cons k ks ih =>
    rw [smoothLoop_eq]
    refine Matched.lift_bind ((Matched.lift _).bind fun ⟨⟨_, _, _, _⟩, _, _, _, _⟩ => Matched.lift_bind ?_)
    refine (h.predict_matched _ _ _ _ _ _ _).bind fun _ => Matched.lift_bind ?_
    exact (Matched.lift _).bind fun _ => Matched.lift_bind ((Matched.lift _).bind fun _ =>
      Matched.lift_bind ((Matched.lift _).bind fun _ => ih _ _))

theorem Extends.smooth (h : M.Extends J) (Z : NDArray F) (U : Option (NDArray F)) (s : Instance σ (KalmanFilter F)) (hj : J s) :
    ((M.smooth Z U).run s).1 = ((KalmanFilter.smooth Z U).run s.base).1 ∧
      TracksBase KalmanFilter.stateSize s.base.stateSize J ((M.smooth Z U).run s).2 ((KalmanFilter.smooth Z U).run s.base).2 := by
  obtain ⟨h1, h2⟩ := h.filter Z U s hj
  simp only [Methods.smooth, KalmanFilter.smooth, Py.run_bind (M.filter Z U), Py.run_bind (KalmanFilter.filter Z U)]
  rcases hp : (M.filter Z U).run s with ⟨_ | a, v⟩ <;>
    rcases hq : (KalmanFilter.filter Z U).run s.base with ⟨_ | b, v'⟩ <;> rw [hp, hq] at h1 h2
  · exact ⟨by simpa using h1, h2⟩
  · simp at h1
  · simp at h1
  · simp only [Except.ok.injEq] at h1
    subst h1
    simp only at h2
    obtain ⟨e1, e2, e3⟩ := h2
    subst e1
    simp only [Py.run_bind Instance.attrs, Py.run_bind Py.self, Py.run_self]
    simp only [Instance.attrs]
    rw [← e2] 
    exact ((Matched.lift Z.len).bind fun _ => (Matched.lift _).bind fun _ => (Matched.lift _).bind fun _ =>
      (Matched.lift _).bind fun _ => (Matched.lift _).bind fun _ => h.smoothLoop _ _ _ _ _ _ _ _ _ _) v v.base ⟨rfl, rfl, e3⟩

theorem plain_extends : (plain : Methods σ F).Extends (fun _ => True) where
  predict _ _ _ _ _ _ _ _ := ⟨rfl, rfl, trivial⟩
  update _ _ _ _ _ _ _ := ⟨rfl, rfl, trivial⟩

end Methods

namespace ExtMethods

variable {M : ExtMethods σ F} {J : Instance σ (ExtendedKalmanFilter F) → Prop}

theorem Extends.update_matched (h : M.Extends J) (n : ℕ) (xk Pk zk Rk : Arr F) :
    Matched (TracksBase ExtendedKalmanFilter.stateSize n J) (M.update xk Pk zk Rk) (ExtendedKalmanFilter.update xk Pk zk Rk) := by
  rintro s t ⟨rfl, hn, hj⟩
  obtain ⟨h1, h2, h3⟩ := h.update xk Pk zk Rk s hj
  exact ⟨h1, h2, (ExtendedKalmanFilter.update_size ..).trans hn, h3⟩

/-- As `TracksBase`, with the callbacks of `kf`. -/
def TracksExt (kf : ExtendedKalmanFilter F) (J : Instance σ (ExtendedKalmanFilter F) → Prop)
    (s : Instance σ (ExtendedKalmanFilter F)) (t : ExtendedKalmanFilter F) : Prop :=
  s.base = t ∧ (∃ g, t = kf.addGains g) ∧ J s

theorem update_gains (xk Pk zk Rk : Arr F) (kf : ExtendedKalmanFilter F) :
    ∃ g, ((ExtendedKalmanFilter.update xk Pk zk Rk).run kf).2 = kf.addGains g := by
  simp only [ExtendedKalmanFilter.update, Py.run_bind, Py.run_lift, Py.run_self]
  rcases kf.jacobianH xk with e | H
  · exact ⟨[], by simp [ExtendedKalmanFilter.addGains]⟩
  dsimp only
  rcases ExtendedKalmanFilter.gain H Pk Rk with e | K
  · exact ⟨[], by simp [ExtendedKalmanFilter.addGains]⟩
  · exact ⟨[K], rfl⟩

variable {kf : ExtendedKalmanFilter F}

theorem Extends.predict' (h : M.Extends J) (xk : Arr F) (uk : Option (Arr F)) (Pk Qk : Arr F) :
    Matched (TracksExt kf J) (M.predict xk uk Pk Qk) (Py.lift (kf.predict xk uk Pk Qk)) := by
  rintro s t ⟨rfl, ⟨g, hg⟩, hj⟩
  obtain ⟨h1, h2, h3⟩ := h.predict xk uk Pk Qk s hj
  rw [show s.base.predict xk uk Pk Qk = kf.predict xk uk Pk Qk by rw [hg]; rfl] at h1
  exact ⟨h1, h2, ⟨g, hg⟩, h3⟩

theorem Extends.update' (h : M.Extends J) (xk Pk zk Rk : Arr F) :
    Matched (TracksExt kf J) (M.update xk Pk zk Rk) (ExtendedKalmanFilter.update xk Pk zk Rk) := by
  rintro s t ⟨rfl, ⟨g, hg⟩, hj⟩
  obtain ⟨h1, h2, h3⟩ := h.update xk Pk zk Rk s hj
  obtain ⟨g', hg'⟩ := update_gains xk Pk zk Rk s.base
  exact ⟨h1, h2, ⟨g ++ g', by rw [hg', hg]; simp [ExtendedKalmanFilter.addGains]⟩, h3⟩

theorem read' {α : Type} {p : Py (Instance σ (ExtendedKalmanFilter F)) α} {q : ExtendedKalmanFilter F → Py (ExtendedKalmanFilter F) α}
    (h : ∀ g, Matched (TracksExt kf J) p (q (kf.addGains g))) : Matched (TracksExt kf J) p (Py.self >>= q) := by
  rintro s t ⟨rfl, ⟨g, hg⟩, hj⟩
  rw [Py.run_bind, Py.run_self]
  have := h g s s.base ⟨rfl, ⟨g, hg⟩, hj⟩
  rw [← hg] at this
  exact this

theorem Extends.filterLoop (h : M.Extends J) (k : ℕ) (rows : List (ExtendedKalmanFilter.Row F)) (x P : Arr F)
    (states errors : List (Arr F)) :
    Matched (TracksExt kf J) (M.filterLoop kf.stateSize k rows x P states errors)
      (ExtendedKalmanFilter.filterLoop k rows x P states errors) := by
  induction rows generalizing k x P states errors with
  | nil => exact Matched.pure _
  | cons r rows ih =>
    obtain ⟨uk, zk, Qk, Rk⟩ := r
    refine read' fun g => (h.predict' _ _ _ _).bind fun ⟨_, _⟩ => (h.update' _ _ _ _).bind fun ⟨_, _⟩ => ?_
    exact (Matched.lift _).bind fun _ => (Matched.lift _).bind fun _ => ih _ _ _ _ _

theorem Extends.filter (h : M.Extends J) (Z : NDArray F) (U : Option (NDArray F)) (s : Instance σ (ExtendedKalmanFilter F)) (hj : J s) :
    ((M.filter Z U).run s).1 = ((ExtendedKalmanFilter.filter Z U).run s.base).1 ∧
      TracksExt s.base J ((M.filter Z U).run s).2 ((ExtendedKalmanFilter.filter Z U).run s.base).2 := by
  simp only [ExtMethods.filter, ExtendedKalmanFilter.filter, Py.run_bind, Instance.attrs, Py.run_self]
  exact ((Matched.lift Z.len).bind fun _ => (Matched.lift _).bind fun _ => h.filterLoop _ _ _ _ _ _) s s.base
    ⟨rfl, ⟨[], by simp [ExtendedKalmanFilter.addGains]⟩, hj⟩

theorem smoothStep_eq (xk Pk Qk uk xNext PNext : Arr F) :
    kf.smoothStep xk Pk Qk uk xNext PNext =
      kf.predict xk (some uk) Pk Qk >>= fun a => kf.jacobianA xk (some uk) >>= fun Ak =>
        Stateful.smoothed Ak xk Pk a.1 a.2 xNext PNext := by
  simp only [ExtendedKalmanFilter.smoothStep]
  rcases kf.predict xk (some uk) Pk Qk with e | ⟨xa, Pa⟩ <;> rfl

theorem smoothLoop_eq (Q U : NDArray F) (xEst PEst : List (Arr F)) (k : ℕ) (ks : List ℕ) (xs Ps : List (Arr F)) :
    kf.smoothLoop Q U xEst PEst (k :: ks) xs Ps =
      Stateful.backItems Q U xEst PEst xs Ps k >>= fun i =>
      kf.predict i.2.2.2.1 (some i.2.1) i.2.2.1 i.1 >>= fun a =>
      kf.jacobianA i.2.2.2.1 (some i.2.1) >>= fun Ak =>
      Stateful.smoothed Ak i.2.2.2.1 i.2.2.1 a.1 a.2 i.2.2.2.2.1 i.2.2.2.2.2 >>= fun r =>
      r.1.assignVec kf.stateSize >>= fun xrow => r.2.assignMat kf.stateSize >>= fun Prow =>
      kf.smoothLoop Q U xEst PEst ks (xs.set k xrow) (Ps.set k Prow) := by
  simp only [ExtendedKalmanFilter.smoothLoop, Stateful.backItems]
  rcases Q.item (k + 1) with e | Qk
  · rfl
  rcases U.item (k + 1) with e | uk
  · rfl
  rcases getRow PEst k with e | Pk
  · rfl
  rcases getRow xEst k with e | xk
  · rfl
  rcases getRow xs (k + 1) with e | xNext
  · rfl
  rcases getRow Ps (k + 1) with e | PNext
  · rfl
  simp only [Except.bind_ok', smoothStep_eq]
  rcases kf.predict xk (some uk) Pk Qk with e | a
  · rfl
  simp only [Except.bind_ok']
  rcases kf.jacobianA xk (some uk) with e | A
  · rfl
  simp only [Except.bind_ok']

theorem Extends.smoothLoop (h : M.Extends J) (Q U : NDArray F) (xEst PEst : List (Arr F)) (ks : List ℕ) (xs Ps : List (Arr F)) :
    Matched (TracksExt kf J) (M.smoothLoop kf.stateSize Q U xEst PEst ks xs Ps)
      (Py.lift (kf.smoothLoop Q U xEst PEst ks xs Ps)) := by
  induction ks generalizing xs Ps with
  | nil => exact Matched.lift (.ok (xs, Ps))
  | cons k ks ih =>
    rw [smoothLoop_eq]
    refine Matched.lift_bind ((Matched.lift _).bind fun ⟨Qk, uk, Pk, xk, _, _⟩ => Matched.lift_bind ?_)
    refine (h.predict' _ _ _ _).bind fun _ => Matched.lift_bind ?_
    have hread : ∀ {β : Type} (f : Arr F → Py (Instance σ (ExtendedKalmanFilter F)) β) (q : Py (ExtendedKalmanFilter F) β),
        Matched (TracksExt kf J) (Py.lift (kf.jacobianA xk (some uk)) >>= f) q →
        Matched (TracksExt kf J) (Instance.attrs >>= fun o => Py.lift (o.jacobianA xk (some uk)) >>= f) q := by
      rintro β f q hm s t ⟨rfl, ⟨g, hg⟩, hj⟩
      rw [Py.run_bind Instance.attrs]
      simp only [Instance.attrs]
      rw [show s.base.jacobianA = kf.jacobianA by rw [hg]; rfl]
      exact hm s s.base ⟨rfl, ⟨g, hg⟩, hj⟩
    refine hread _ _ ((Matched.lift _).bind fun _ => Matched.lift_bind ?_)
    exact (Matched.lift _).bind fun _ => Matched.lift_bind ((Matched.lift _).bind fun _ =>
      Matched.lift_bind ((Matched.lift _).bind fun _ => ih _ _))

theorem Extends.smooth (h : M.Extends J) (Z : NDArray F) (U : Option (NDArray F)) (s : Instance σ (ExtendedKalmanFilter F)) (hj : J s) :
    ((M.smooth Z U).run s).1 = ((ExtendedKalmanFilter.smooth Z U).run s.base).1 ∧
      TracksExt s.base J ((M.smooth Z U).run s).2 ((ExtendedKalmanFilter.smooth Z U).run s.base).2 := by
  obtain ⟨h1, h2⟩ := h.filter Z U s hj
  simp only [ExtMethods.smooth, ExtendedKalmanFilter.smooth, Py.run_bind (M.filter Z U), Py.run_bind (ExtendedKalmanFilter.filter Z U)]
  rcases hp : (M.filter Z U).run s with ⟨_ | a, v⟩ <;>
    rcases hq : (ExtendedKalmanFilter.filter Z U).run s.base with ⟨_ | b, v'⟩ <;> rw [hp, hq] at h1 h2
  · exact ⟨by simpa using h1, h2⟩
  · simp at h1
  · simp at h1
  · simp only [Except.ok.injEq] at h1
    subst h1
    simp only at h2
    obtain ⟨e1, ⟨g, e2⟩, e3⟩ := h2
    subst e1
    simp only [Py.run_bind Instance.attrs, Py.run_bind Py.self, Py.run_self]
    simp only [Instance.attrs]
    obtain ⟨h4, h5, ⟨g', h6⟩, h7⟩ := ((Matched.lift Z.len).bind fun n => (Matched.lift _).bind fun _ => (Matched.lift _).bind fun _ =>
      (Matched.lift _).bind fun _ => (Matched.lift _).bind fun _ => h.smoothLoop (kf := v.base) _ _ _ _ _ _ _) v v.base
        ⟨rfl, ⟨[], by simp [ExtendedKalmanFilter.addGains]⟩, e3⟩
    refine ⟨h4, h5, ⟨g ++ g', Eq.trans h6 ?_⟩, h7⟩
    rw [e2]
    simp [ExtendedKalmanFilter.addGains]

theorem plain_extends : (plain : ExtMethods σ F).Extends (fun _ => True) where
  predict _ _ _ _ _ _ := ⟨rfl, rfl, trivial⟩
  update _ _ _ _ _ _ := ⟨rfl, rfl, trivial⟩

end ExtMethods

end KK
