import Verif.Spec.Stateful
import Verif.Proofs.Trace

/-! # Proof device: two programs run side by side -/

set_option linter.unusedSectionVars false
set_option linter.unusedSimpArgs false

namespace KK

/-- Related states give the same outcome and related states. -/
def Matched {S T α : Type} (W : S → T → Prop) (p : Py S α) (q : Py T α) : Prop :=
  ∀ s t, W s t → (p.run s).1 = (q.run t).1 ∧ W (p.run s).2 (q.run t).2

namespace Matched

variable {S T α β : Type} {W : S → T → Prop}

theorem bind {p : Py S α} {q : Py T α} (h : Matched W p q) {f : α → Py S β} {g : α → Py T β}
    (hf : ∀ a, Matched W (f a) (g a)) : Matched W (p >>= f) (q >>= g) := by
  intro s t hst
  obtain ⟨h1, h2⟩ := h s t hst
  rw [Py.run_bind, Py.run_bind]
  rcases hp : p.run s with ⟨_ | a, s'⟩ <;> rcases hq : q.run t with ⟨_ | b, t'⟩ <;> rw [hp, hq] at h1 h2
  · exact ⟨by simpa using h1, h2⟩
  · simp at h1
  · simp at h1
  · simp only [Except.ok.injEq] at h1
    subst h1
    exact hf a s' t' h2

theorem lift (x : Except PyErr α) : Matched W (Py.lift x) (Py.lift x) := fun _ _ h => ⟨rfl, h⟩

theorem pure (a : α) : Matched W (Py.pure a) (Py.pure a) := fun _ _ h => ⟨rfl, h⟩

theorem trans {R : Type} {V : T → R → Prop} {p : Py S α} {q : Py T α} {r : Py R α} (h : Matched W p q) (h' : Matched V q r) :
    Matched (fun s r => ∃ t, W s t ∧ V t r) p r := by
  rintro s r ⟨t, h1, h2⟩
  obtain ⟨a, b⟩ := h s t h1
  obtain ⟨c, d⟩ := h' t r h2
  exact ⟨a.trans c, _, b, d⟩

end Matched

namespace Stateful

variable {σ τ F : Type} [Backend F] {cb : Callbacks σ F} {cb' : Callbacks τ F} {W : World σ F → World τ F → Prop}

/-- The callbacks are matched, the relation survives recording a gain and both objects have the same identity. -/
structure Sim (cb : Callbacks σ F) (cb' : Callbacks τ F) (W : World σ F → World τ F → Prop) : Prop where
  f : ∀ x u, Matched W (cb.f x u) (cb'.f x u)
  h : ∀ x, Matched W (cb.h x) (cb'.h x)
  jacobianA : ∀ x u, Matched W (cb.jacobianA x u) (cb'.jacobianA x u)
  jacobianH : ∀ x, Matched W (cb.jacobianH x) (cb'.jacobianH x)
  record : ∀ K, Matched W (record K) (record K)
  I : ∀ w w', W w w' → w.self.I = w'.self.I

namespace Sim

theorem predict (h : Sim cb cb' W) (x : Arr F) (u : Option (Arr F)) (P Q : Arr F) :
    Matched W (Stateful.predict cb x u P Q) (Stateful.predict cb' x u P Q) :=
  (h.jacobianA x u).bind fun _ => (h.f x u).bind fun _ => (Matched.lift _).bind fun _ => Matched.pure _

theorem readI (h : Sim cb cb' W) {β : Type} (g : Arr F → Py (World σ F) β) (g' : Arr F → Py (World τ F) β)
    (hg : ∀ I, Matched W (g I) (g' I)) :
    Matched W (attrs >>= fun s => g s.I) (attrs >>= fun s => g' s.I) := by
  intro w w' hw
  simp only [Py.run_bind, attrs]
  rw [h.I w w' hw]
  exact hg _ w w' hw

theorem update (h : Sim cb cb' W) (x P z R : Arr F) :
    Matched W (Stateful.update cb x P z R) (Stateful.update cb' x P z R) :=
  (h.jacobianH x).bind fun _ => (Matched.lift _).bind fun _ => (h.record _).bind fun _ => (h.h x).bind fun _ =>
    (Matched.lift _).bind fun xp => h.readI
      (fun I => Py.lift (newCovariance I _ _ P) >>= fun Pp => Py.pure (xp, Pp))
      (fun I => Py.lift (newCovariance I _ _ P) >>= fun Pp => Py.pure (xp, Pp))
      fun _ => (Matched.lift _).bind fun _ => Matched.pure _

theorem filterLoop (h : Sim cb cb' W) (n k : ℕ) (rows : List (ExtendedKalmanFilter.Row F)) (x P : Arr F)
    (states errors : List (Arr F)) :
    Matched W (Stateful.filterLoop cb n k rows x P states errors) (Stateful.filterLoop cb' n k rows x P states errors) := by
  induction rows generalizing k x P states errors with
  | nil => exact Matched.pure _
  | cons r rows ih =>
    obtain ⟨u, z, Q, R⟩ := r
    exact (h.predict _ _ _ _).bind fun _ => (h.update _ _ _ _).bind fun _ => (Matched.lift _).bind fun _ =>
      (Matched.lift _).bind fun _ => ih _ _ _ _ _

/-- The attributes that `filter` reads are equal. -/
structure SameStart (w : World σ F) (w' : World τ F) : Prop where
  xk : w.self.xk = w'.self.xk
  Pk : w.self.Pk = w'.self.Pk
  Q : w.self.Q = w'.self.Q
  R : w.self.R = w'.self.R
  size : w.self.stateSize = w'.self.stateSize

theorem filter (h : Sim cb cb' W) (Z : NDArray F) (U : Option (NDArray F)) {w : World σ F} {w' : World τ F} (hw : W w w')
    (hs : SameStart w w') :
    ((Stateful.filter cb Z U).run w).1 = ((Stateful.filter cb' Z U).run w').1 ∧
      W ((Stateful.filter cb Z U).run w).2 ((Stateful.filter cb' Z U).run w').2 := by
  simp only [Stateful.filter, Py.run_bind, attrs]
  rw [hs.size, hs.xk, hs.Pk, hs.Q, hs.R]
  exact ((Matched.lift Z.len).bind fun _ => (Matched.lift _).bind fun _ => h.filterLoop _ _ _ _ _ _ _) w w' hw

theorem smoothLoop (h : Sim cb cb' W) (n : ℕ) (Q U : NDArray F) (xEst PEst : List (Arr F)) (ks : List ℕ) (xs Ps : List (Arr F)) :
    Matched W (Stateful.smoothLoop cb n Q U xEst PEst ks xs Ps) (Stateful.smoothLoop cb' n Q U xEst PEst ks xs Ps) := by
  induction ks generalizing xs Ps with
  | nil => exact Matched.pure _
  | cons k ks ih =>
    exact (Matched.lift _).bind fun ⟨_, _, _, _, _, _⟩ => (h.predict _ _ _ _).bind fun _ => (h.jacobianA _ _).bind fun _ =>
      (Matched.lift _).bind fun _ => (Matched.lift _).bind fun _ => (Matched.lift _).bind fun _ => ih _ _

theorem smooth (h : Sim cb cb' W) (hQ : ∀ w w', W w w' → w.self.Q = w'.self.Q ∧ w.self.stateSize = w'.self.stateSize)
    (Z : NDArray F) (U : Option (NDArray F)) {w : World σ F} {w' : World τ F} (hw : W w w') (hs : SameStart w w') :
    ((Stateful.smooth cb Z U).run w).1 = ((Stateful.smooth cb' Z U).run w').1 ∧
      W ((Stateful.smooth cb Z U).run w).2 ((Stateful.smooth cb' Z U).run w').2 := by
  obtain ⟨h1, h2⟩ := h.filter Z U hw hs
  simp only [Stateful.smooth, Py.run_bind (Stateful.filter cb Z U), Py.run_bind (Stateful.filter cb' Z U)]
  rcases hp : (Stateful.filter cb Z U).run w with ⟨_ | a, v⟩ <;>
    rcases hq : (Stateful.filter cb' Z U).run w' with ⟨_ | b, v'⟩ <;> rw [hp, hq] at h1 h2
  · exact ⟨by simpa using h1, h2⟩
  · simp at h1
  · simp at h1
  · simp only [Except.ok.injEq] at h1
    subst h1
    obtain ⟨e1, e2⟩ := hQ v v' h2
    simp only [Py.run_bind attrs]
    simp only [attrs]
    rw [e1, e2]
    exact ((Matched.lift Z.len).bind fun _ => (Matched.lift _).bind fun _ => (Matched.lift _).bind fun _ =>
      (Matched.lift _).bind fun _ => (Matched.lift _).bind fun _ => h.smoothLoop _ _ _ _ _ _ _ _) v v' h2

end Sim

/-! ## Callbacks without state: the model of `Model/Extended.lean` -/

/-- The callbacks of `kf`, as programs. -/
def pureCb (kf : ExtendedKalmanFilter F) : Callbacks Unit F where
  f x u := Py.lift (kf.f x u)
  h x := Py.lift (kf.h x)
  jacobianA x u := Py.lift (kf.jacobianA x u)
  jacobianH x := Py.lift (kf.jacobianH x)

/-- The world of the object `kf`. -/
def worldOf (kf : ExtendedKalmanFilter F) : World Unit F := ⟨(), kf.attrs⟩

/-- Running with the pure callbacks of `kf` is running `Model/Extended.lean`. -/
def IsPure {α : Type} (kf : ExtendedKalmanFilter F) (p : Py (World Unit F) α) (q : Py (ExtendedKalmanFilter F) α) : Prop :=
  ∀ g, p.run (worldOf (kf.addGains g)) = ((q.run (kf.addGains g)).1, worldOf (q.run (kf.addGains g)).2) ∧
    ∃ g', (q.run (kf.addGains g)).2 = kf.addGains g'

namespace IsPure

variable {kf : ExtendedKalmanFilter F} {α β : Type}

theorem bind {p : Py (World Unit F) α} {q : Py (ExtendedKalmanFilter F) α} (h : IsPure kf p q)
    {f : α → Py (World Unit F) β} {g : α → Py (ExtendedKalmanFilter F) β} (hf : ∀ a, IsPure kf (f a) (g a)) :
    IsPure kf (p >>= f) (q >>= g) := by
  intro gs
  obtain ⟨h1, gs', h2⟩ := h gs
  rw [Py.run_bind, Py.run_bind, h1]
  rcases hq : q.run (kf.addGains gs) with ⟨_ | a, v⟩ <;> rw [hq] at h2
  · exact ⟨rfl, gs', h2⟩
  · simp only at h2 ⊢
    rw [h2]
    exact hf a gs'

theorem lift (x : Except PyErr α) : IsPure kf (Py.lift x) (Py.lift x) := fun g => ⟨rfl, g, rfl⟩

theorem pure (a : α) : IsPure kf (Py.pure a) (Py.pure a) := fun g => ⟨rfl, g, rfl⟩

theorem readSelf {p : EkfAttrs F → Py (World Unit F) α} {q : ExtendedKalmanFilter F → Py (ExtendedKalmanFilter F) α}
    (h : ∀ g, IsPure kf (p (kf.addGains g).attrs) (q (kf.addGains g))) :
    IsPure kf (attrs >>= p) (Py.self >>= q) := by
  intro g
  obtain ⟨h1, h2⟩ := h g g
  rw [Py.run_bind, Py.run_bind]
  exact ⟨h1, h2⟩

theorem readSelf' {p : Py (World Unit F) α} {q : ExtendedKalmanFilter F → Py (ExtendedKalmanFilter F) α}
    (h : ∀ g, IsPure kf p (q (kf.addGains g))) : IsPure kf p (Py.self >>= q) := by
  intro g
  obtain ⟨h1, h2⟩ := h g g
  rw [Py.run_bind]
  exact ⟨h1, h2⟩

theorem congr {p p' : Py (World Unit F) α} {q : Py (ExtendedKalmanFilter F) α} (h : IsPure kf p q) (e : ∀ w, p'.run w = p.run w) :
    IsPure kf p' q := by
  intro g; rw [e]; exact h g

end IsPure

theorem lift_bind {S α β : Type} (x : Except PyErr α) (f : α → Except PyErr β) (s : S) :
    (Py.lift (x >>= f) : Py S β).run s = (Py.lift x >>= fun a => Py.lift (f a)).run s := by
  rw [Py.run_bind]; cases x <;> rfl

variable (kf : ExtendedKalmanFilter F)

theorem predict_pure_run (x : Arr F) (u : Option (Arr F)) (P Q : Arr F) (g : List (Arr F)) (w : World Unit F) :
    (predict (pureCb kf) x u P Q).run w = (ExtendedKalmanFilter.predict (kf.addGains g) x u P Q, w) := by
  simp only [predict, pureCb, ExtendedKalmanFilter.predict, ExtendedKalmanFilter.addGains, Py.run_bind, Py.run_lift,
    priorCovariance]
  rcases kf.jacobianA x u with e | A
  · rfl
  rcases kf.f x u with e | xp
  · rfl
  simp only [Except.bind_ok', Py.run_pure']
  rcases P.matmul A.T with e | pat
  · rfl
  simp only [Except.bind_ok', Py.run_pure']
  rcases A.matmul pat with e | apat
  · rfl
  simp only [Except.bind_ok', Py.run_pure']
  rcases apat.add Q with e | r <;> rfl

theorem predict_pure (x : Arr F) (u : Option (Arr F)) (P Q : Arr F) (g : List (Arr F)) :
    IsPure kf (predict (pureCb kf) x u P Q) (Py.lift (ExtendedKalmanFilter.predict (kf.addGains g) x u P Q)) :=
  (IsPure.lift _).congr fun w => predict_pure_run kf x u P Q g w

theorem update_pure (x P z R : Arr F) : IsPure kf (update (pureCb kf) x P z R) (ExtendedKalmanFilter.update x P z R) := by
  intro g
  simp only [update, pureCb, ExtendedKalmanFilter.update, Py.run_bind, Py.run_lift, Py.run_self, Py.run_mutate, record, attrs]
  simp only [show (kf.addGains g).jacobianH = kf.jacobianH from rfl]
  rcases kf.jacobianH x with e | H
  · exact ⟨rfl, g, rfl⟩
  dsimp only
  rcases ExtendedKalmanFilter.gain H P R with e | K
  · exact ⟨rfl, g, rfl⟩
  simp only [ExtendedKalmanFilter.correct, newMean, newCovariance]
  simp only [show (kf.addGains g).h = kf.h from rfl, show (worldOf (kf.addGains g)).self.I = kf.I from rfl,
    show (kf.addGains g).I = kf.I from rfl]
  refine ⟨?_, g ++ [K], by simp [ExtendedKalmanFilter.addGains]⟩
  rcases kf.h x with e | hx
  · rfl
  simp only [Except.bind_ok']
  rcases z.sub hx with e | res
  · rfl
  simp only [Except.bind_ok']
  rcases K.matmul res.atleast1d with e | corr
  · rfl
  simp only [Except.bind_ok']
  rcases x.add corr with e | xp
  · rfl
  simp only [Except.bind_ok']
  rcases K.matmul H with e | kh
  · rfl
  simp only [Except.bind_ok']
  rcases kf.I.sub kh with e | ikh
  · rfl
  simp only [Except.bind_ok']
  rcases ikh.matmul P with e | Pp <;> rfl

theorem filterLoop_pure (k : ℕ) (rows : List (ExtendedKalmanFilter.Row F)) (x P : Arr F) (states errors : List (Arr F)) :
    IsPure kf (filterLoop (pureCb kf) kf.stateSize k rows x P states errors)
      (ExtendedKalmanFilter.filterLoop k rows x P states errors) := by
  induction rows generalizing k x P states errors with
  | nil => exact IsPure.pure _
  | cons r rows ih =>
    obtain ⟨u, z, Q, R⟩ := r
    exact IsPure.readSelf' fun g => (predict_pure kf _ _ _ _ g).bind fun ⟨_, _⟩ => (update_pure kf _ _ _ _).bind fun ⟨_, _⟩ =>
      (IsPure.lift _).bind fun _ => (IsPure.lift _).bind fun _ => ih _ _ _ _ _

theorem filter_pure (Z : NDArray F) (U : Option (NDArray F)) :
    IsPure kf (filter (pureCb kf) Z U) (ExtendedKalmanFilter.filter Z U) :=
  IsPure.readSelf fun _ => (IsPure.lift _).bind fun _ => (IsPure.lift _).bind fun _ => filterLoop_pure kf _ _ _ _ _ _

theorem smoothLoop_pure_run (Q U : NDArray F) (xEst PEst : List (Arr F)) (ks : List ℕ) (xs Ps : List (Arr F)) (g : List (Arr F))
    (w : World Unit F) :
    (smoothLoop (pureCb kf) kf.stateSize Q U xEst PEst ks xs Ps).run w =
      (ExtendedKalmanFilter.smoothLoop (kf.addGains g) Q U xEst PEst ks xs Ps, w) := by
  induction ks generalizing xs Ps with
  | nil => rfl
  | cons k ks ih =>
    simp only [smoothLoop, ExtendedKalmanFilter.smoothLoop, Py.run_bind, Py.run_lift, backItems]
    rcases Q.item (k + 1) with e | Qk
    · rfl
    rcases U.item (k + 1) with e | uk
    · rfl
    rcases getRow PEst k with e | Pk
    · rfl
    rcases getRow xEst k with e | xk
    · rfl
    rcases getRow xs (k + 1) with e | xNext
    · rfl
    rcases getRow Ps (k + 1) with e | PNext
    · rfl
    simp only [Except.bind_ok', predict_pure_run kf _ _ _ _ g, ExtendedKalmanFilter.smoothStep]
    rcases ExtendedKalmanFilter.predict (kf.addGains g) xk (some uk) Pk Qk with e | ⟨xa, Pa⟩
    · rfl
    simp only [Except.bind_ok', Py.run_bind, pureCb, Py.run_lift,
      show (kf.addGains g).jacobianA = kf.jacobianA from rfl, show (kf.addGains g).stateSize = kf.stateSize from rfl]
    rcases kf.jacobianA xk (some uk) with e | A
    · rfl
    simp only [Except.bind_ok', smoothed]
    rcases Pk.matmul A.T with e | pat
    · rfl
    simp only [Except.bind_ok']
    rcases Arr.solve Pa.T pat.T with e | X
    · rfl
    simp only [Except.bind_ok']
    rcases xNext.sub xa with e | dx
    · rfl
    simp only [Except.bind_ok']
    rcases X.T.matmul dx with e | kdx
    · rfl
    simp only [Except.bind_ok']
    rcases xk.add kdx with e | x'
    · rfl
    simp only [Except.bind_ok']
    rcases PNext.sub Pa with e | dP
    · rfl
    simp only [Except.bind_ok']
    rcases dP.matmul X.T.T with e | dPk
    · rfl
    simp only [Except.bind_ok']
    rcases X.T.matmul dPk with e | kdPk
    · rfl
    simp only [Except.bind_ok']
    rcases Pk.add kdPk with e | P'
    · rfl
    simp only [Except.bind_ok']
    rcases x'.assignVec kf.stateSize with e | xrow
    · rfl
    simp only [Except.bind_ok']
    rcases P'.assignMat kf.stateSize with e | Prow
    · rfl
    simp only [Except.bind_ok']
    exact ih _ _

theorem smooth_pure (Z : NDArray F) (U : Option (NDArray F)) :
    IsPure kf (smooth (pureCb kf) Z U) (ExtendedKalmanFilter.smooth Z U) :=
  (filter_pure kf Z U).bind fun ⟨_, _⟩ => IsPure.readSelf fun g => (IsPure.lift _).bind fun n => (IsPure.lift _).bind fun _ =>
    (IsPure.lift _).bind fun _ => (IsPure.lift _).bind fun _ => (IsPure.lift _).bind fun _ =>
    (IsPure.lift _).congr fun w => smoothLoop_pure_run kf _ _ _ _ _ _ _ g w

end Stateful

end KK
