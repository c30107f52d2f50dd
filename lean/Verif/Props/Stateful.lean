import Verif.Proofs.Stateful
import Verif.Props.ExtExact

/-!
# Callbacks that keep state (C142, C145)
-/

set_option linter.unusedSectionVars false
set_option linter.unusedVariables false

namespace KK

open Stateful

section

variable {σ F : Type} [Backend F]

/-- The object after one more gain has been recorded. -/
def EkfAttrs.withGain (a : EkfAttrs F) (K : Arr F) : EkfAttrs F := { a with kalmanGains := a.kalmanGains ++ [K] }

theorem sim_pure {cb : Callbacks σ F} {kf : ExtendedKalmanFilter F} {Inv : σ → Prop} {Keeps Rel : EkfAttrs F → EkfAttrs F → Prop}
    (hc : cb.Compute kf Inv Keeps) (hk : ∀ a b c, Keeps a b → Rel a c → Rel b c)
    (hr : ∀ a c K, Rel a c → Rel (a.withGain K) (c.withGain K)) (hI : ∀ a c, Rel a c → a.I = c.I) :
    Sim cb (pureCb kf) (fun w w' => Inv w.user ∧ Rel w.self w'.self) := by
  have key : ∀ (p : Py (World σ F) (Arr F)) (v : Except PyErr (Arr F)), p.Gives Inv Keeps v →
      Matched (fun (w : World σ F) (w' : World Unit F) => Inv w.user ∧ Rel w.self w'.self) p (Py.lift v) := by
    intro p v hp w w' hw
    obtain ⟨h1, h2, h3⟩ := hp w hw.1
    exact ⟨h1, h2, hk _ _ _ h3 hw.2⟩
  exact ⟨fun x u => key _ _ (hc.f x u), fun x => key _ _ (hc.h x), fun x u => key _ _ (hc.jacobianA x u),
    fun x => key _ _ (hc.jacobianH x), fun K w w' hw => ⟨rfl, hw.1, hr _ _ K hw.2⟩, fun w w' hw => hI _ _ hw.2⟩

/-- Same outcome, the state of the callbacks is still good, and the object is the one of the pure run. -/
theorem agrees_of {α : Type} {p : Py (World σ F) α} {q : Py (World Unit F) α} {r : Py (ExtendedKalmanFilter F) α} {kf : ExtendedKalmanFilter F}
    {Inv : σ → Prop} {w : World σ F}
    (h1 : (p.run w).1 = (q.run (worldOf kf)).1 ∧ Inv (p.run w).2.user ∧ (p.run w).2.self = (q.run (worldOf kf)).2.self)
    (h2 : IsPure kf q r) :
    ∃ s, Inv s ∧ p.run w = ((r.run kf).1, ⟨s, (r.run kf).2.attrs⟩) := by
  obtain ⟨a, b, c⟩ := h1
  have h2 := (h2 []).1
  rw [show kf.addGains [] = kf by simp [ExtendedKalmanFilter.addGains]] at h2
  rw [h2] at a c
  refine ⟨_, b, ?_⟩
  rw [← a]
  change p.run w = ((p.run w).1, ⟨(p.run w).2.user, (worldOf (r.run kf).2).self⟩)
  rw [show (worldOf (r.run kf).2).self = (p.run w).2.self from c.symm]

theorem sim_same {cb : Callbacks σ F} {kf : ExtendedKalmanFilter F} {Inv : σ → Prop} (hc : cb.Compute kf Inv (· = ·)) :
    Sim cb (pureCb kf) (fun w w' => Inv w.user ∧ w.self = w'.self) :=
  sim_pure hc (fun a b c h1 h2 => h1 ▸ h2) (fun a c K h => by rw [h]) (fun a c h => by rw [h])

variable {cb : Callbacks σ F} {kf : ExtendedKalmanFilter F} {Inv : σ → Prop} (hc : cb.Compute kf Inv (· = ·))
include hc

/-- C142 (filter): callbacks that keep caches, counters, logs or anything else, and leave the object alone: if
whatever is in their state they compute the functions of `kf`, then `filter` returns or raises what it does with these
functions, and leaves the object as with these functions. -/
theorem C142_filter (s : σ) (hs : Inv s) (Z : NDArray F) (U : Option (NDArray F)) :
    ∃ s', Inv s' ∧ (Stateful.filter cb Z U).run ⟨s, kf.attrs⟩ =
      (((ExtendedKalmanFilter.filter Z U).run kf).1, ⟨s', ((ExtendedKalmanFilter.filter Z U).run kf).2.attrs⟩) :=
  agrees_of ((sim_same hc).filter Z U (w := ⟨s, kf.attrs⟩) (w' := worldOf kf) ⟨hs, rfl⟩ ⟨rfl, rfl, rfl, rfl, rfl⟩)
    (filter_pure kf Z U)

/-- C142 (smooth). -/
theorem C142_smooth (s : σ) (hs : Inv s) (Z : NDArray F) (U : Option (NDArray F)) :
    ∃ s', Inv s' ∧ (Stateful.smooth cb Z U).run ⟨s, kf.attrs⟩ =
      (((ExtendedKalmanFilter.smooth Z U).run kf).1, ⟨s', ((ExtendedKalmanFilter.smooth Z U).run kf).2.attrs⟩) :=
  agrees_of ((sim_same hc).smooth (fun w w' h => by rw [h.2]; exact ⟨rfl, rfl⟩) Z U (w := ⟨s, kf.attrs⟩) (w' := worldOf kf)
    ⟨hs, rfl⟩ ⟨rfl, rfl, rfl, rfl, rfl⟩) (smooth_pure kf Z U)

/-- C142 (predict). -/
theorem C142_predict (s : σ) (hs : Inv s) (x : Arr F) (u : Option (Arr F)) (P Q : Arr F) :
    ∃ s', Inv s' ∧ (Stateful.predict cb x u P Q).run ⟨s, kf.attrs⟩ = (ExtendedKalmanFilter.predict kf x u P Q, ⟨s', kf.attrs⟩) := by
  have := agrees_of (r := Py.lift (ExtendedKalmanFilter.predict kf x u P Q))
    ((sim_same hc).predict x u P Q ⟨s, kf.attrs⟩ (worldOf kf) ⟨hs, rfl⟩)
    (by have := predict_pure kf x u P Q []
        rwa [show kf.addGains [] = kf by simp [ExtendedKalmanFilter.addGains]] at this)
  exact this

/-- C142 (update). -/
theorem C142_update (s : σ) (hs : Inv s) (x P z R : Arr F) :
    ∃ s', Inv s' ∧ (Stateful.update cb x P z R).run ⟨s, kf.attrs⟩ =
      (((ExtendedKalmanFilter.update x P z R).run kf).1, ⟨s', ((ExtendedKalmanFilter.update x P z R).run kf).2.attrs⟩) :=
  agrees_of ((sim_same hc).update x P z R ⟨s, kf.attrs⟩ (worldOf kf) ⟨hs, rfl⟩) (update_pure kf x P z R)

end

section

variable {σ F : Type} [Backend F] {cb : Callbacks σ F} {kf : ExtendedKalmanFilter F} {Inv : σ → Prop}

/-- C145 (filter): `filter` reads the attributes once.  Callbacks that compute the functions of `kf` may assign anything
to `xk`, `Pk`, `Q`, `R`, `state_size` and `kalman_gains` of the object during the call (all but the private identity
matrix): what `filter` returns or raises is not affected. -/
theorem C145_filter_reads_once (hc : cb.Compute kf Inv (fun a b => a.I = b.I)) (s : σ) (hs : Inv s) (Z : NDArray F)
    (U : Option (NDArray F)) :
    ((Stateful.filter cb Z U).run ⟨s, kf.attrs⟩).1 = ((ExtendedKalmanFilter.filter Z U).run kf).1 := by
  have h := ((sim_pure (Rel := fun a c => a.I = c.I) hc (fun a b c h1 h2 => h1.symm.trans h2) (fun a c K h => h) (fun a c h => h)).filter
    Z U (w := ⟨s, kf.attrs⟩) (w' := worldOf kf) ⟨hs, rfl⟩ ⟨rfl, rfl, rfl, rfl, rfl⟩).1
  have h2 := (filter_pure kf Z U []).1
  rw [show kf.addGains [] = kf by simp [ExtendedKalmanFilter.addGains]] at h2
  rw [h, h2]

/-- C145 (smooth): the same, but `Q` and `state_size` are read again after the forward pass. -/
theorem C145_smooth_reads_twice
    (hc : cb.Compute kf Inv (fun a b => a.I = b.I ∧ a.Q = b.Q ∧ a.stateSize = b.stateSize)) (s : σ) (hs : Inv s) (Z : NDArray F)
    (U : Option (NDArray F)) :
    ((Stateful.smooth cb Z U).run ⟨s, kf.attrs⟩).1 = ((ExtendedKalmanFilter.smooth Z U).run kf).1 := by
  have h := ((sim_pure (Rel := fun a c => a.I = c.I ∧ a.Q = c.Q ∧ a.stateSize = c.stateSize) hc
    (fun a b c h1 h2 => ⟨h1.1.symm.trans h2.1, h1.2.1.symm.trans h2.2.1, h1.2.2.symm.trans h2.2.2⟩) (fun a c K h => h)
    (fun a c h => h.1)).smooth (fun w w' h => h.2.2) Z U (w := ⟨s, kf.attrs⟩) (w' := worldOf kf) ⟨hs, rfl, rfl, rfl⟩
      ⟨rfl, rfl, rfl, rfl, rfl⟩).1
  have h2 := (smooth_pure kf Z U []).1
  rw [show kf.addGains [] = kf by simp [ExtendedKalmanFilter.addGains]] at h2
  rw [h, h2]

/-- Everything but the gains is equal, and both sides have the old gains followed by gains, those of `c` among those
of `a`. -/
def GainsAmong (old : List (Arr F)) (a c : EkfAttrs F) : Prop :=
  ∃ g g', g'.Sublist g ∧ c.kalmanGains = old ++ g' ∧ a = { c with kalmanGains := old ++ g }

theorem sim_appends {old : List (Arr F)} (hc : cb.Compute kf Inv OnlyAppends) :
    Sim cb (pureCb kf) (fun w w' => Inv w.user ∧ GainsAmong old w.self w'.self) := by
  refine sim_pure hc ?_ ?_ ?_
  · rintro a b c ⟨t, rfl⟩ ⟨g, g', h1, h2, rfl⟩
    exact ⟨g ++ t, g', h1.trans (List.sublist_append_left g t), h2, by simp⟩
  · rintro a c K ⟨g, g', h1, h2, rfl⟩
    exact ⟨g ++ [K], g' ++ [K], h1.append (List.Sublist.refl _), by simp [EkfAttrs.withGain, h2], by simp [EkfAttrs.withGain]⟩
  · rintro a c ⟨g, g', h1, h2, rfl⟩; rfl

/-- C145 (callbacks that call methods of the object, filter): if the callbacks compute the functions of `kf` and do
nothing to the object but append to `kalman_gains` (as calls of its own methods do, see below), then `filter` returns or raises what
it does with these functions, all other attributes are unchanged, and `kalman_gains` holds the earlier gains followed by a list that has
the gains of this call in it, in order. -/
theorem C145_filter_reentrant (hc : cb.Compute kf Inv OnlyAppends) (s : σ) (hs : Inv s) (Z : NDArray F) (U : Option (NDArray F)) :
    ((Stateful.filter cb Z U).run ⟨s, kf.attrs⟩).1 = ((ExtendedKalmanFilter.filter Z U).run kf).1 ∧
      ∃ g g', ((ExtendedKalmanFilter.filter Z U).run kf).2.kalmanGains = kf.kalmanGains ++ g' ∧ g'.Sublist g ∧
        ((Stateful.filter cb Z U).run ⟨s, kf.attrs⟩).2.self = { kf.attrs with kalmanGains := kf.kalmanGains ++ g } := by
  obtain ⟨h1, -, g, g', h3, h4, h5⟩ := (sim_appends (old := kf.kalmanGains) hc).filter Z U (w := ⟨s, kf.attrs⟩) (w' := worldOf kf)
    ⟨hs, [], [], List.Sublist.refl _, by simp [worldOf, ExtendedKalmanFilter.attrs], by simp [worldOf, ExtendedKalmanFilter.attrs]⟩
    ⟨rfl, rfl, rfl, rfl, rfl⟩
  obtain ⟨h6, g'', h7⟩ := filter_pure kf Z U []
  rw [show kf.addGains [] = kf by simp [ExtendedKalmanFilter.addGains]] at h6 h7
  rw [h6] at h1 h4 h5
  refine ⟨h1, g, g', h4, h3, ?_⟩
  rw [h5, h7]
  rfl

/-- C145 (callbacks that call methods of the object, smooth). -/
theorem C145_smooth_reentrant (hc : cb.Compute kf Inv OnlyAppends) (s : σ) (hs : Inv s) (Z : NDArray F) (U : Option (NDArray F)) :
    ((Stateful.smooth cb Z U).run ⟨s, kf.attrs⟩).1 = ((ExtendedKalmanFilter.smooth Z U).run kf).1 ∧
      ∃ g g', ((ExtendedKalmanFilter.smooth Z U).run kf).2.kalmanGains = kf.kalmanGains ++ g' ∧ g'.Sublist g ∧
        ((Stateful.smooth cb Z U).run ⟨s, kf.attrs⟩).2.self = { kf.attrs with kalmanGains := kf.kalmanGains ++ g } := by
  obtain ⟨h1, -, g, g', h3, h4, h5⟩ := (sim_appends (old := kf.kalmanGains) hc).smooth
    (fun w w' h => by obtain ⟨-, g, g', -, -, h⟩ := h; rw [h]; exact ⟨rfl, rfl⟩) Z U (w := ⟨s, kf.attrs⟩) (w' := worldOf kf)
    ⟨hs, [], [], List.Sublist.refl _, by simp [worldOf, ExtendedKalmanFilter.attrs], by simp [worldOf, ExtendedKalmanFilter.attrs]⟩
    ⟨rfl, rfl, rfl, rfl, rfl⟩
  obtain ⟨h6, g'', h7⟩ := smooth_pure kf Z U []
  rw [show kf.addGains [] = kf by simp [ExtendedKalmanFilter.addGains]] at h6 h7
  rw [h6] at h1 h4 h5
  refine ⟨h1, g, g', h4, h3, ?_⟩
  rw [h5, h7]
  rfl

end

/-! ## The methods themselves only append -/

section

variable {σ F : Type} [Backend F]

/-- Whatever happens, the program does nothing to the object but append to `kalman_gains`. -/
def Appending {α : Type} (p : Py (World σ F) α) : Prop := ∀ w, OnlyAppends w.self (p.run w).2.self

theorem OnlyAppends.refl (a : EkfAttrs F) : OnlyAppends a a := ⟨[], by simp⟩

theorem OnlyAppends.trans {a b c : EkfAttrs F} : OnlyAppends a b → OnlyAppends b c → OnlyAppends a c := by
  rintro ⟨g, rfl⟩ ⟨g', rfl⟩; exact ⟨g ++ g', by simp⟩

namespace Appending

variable {α β : Type}

theorem bind {p : Py (World σ F) α} {f : α → Py (World σ F) β} (h : Appending p) (hf : ∀ a, Appending (f a)) : Appending (p >>= f) := by
  intro w
  have h1 := h w
  rw [Py.run_bind]
  rcases hp : p.run w with ⟨_ | a, v⟩ <;> rw [hp] at h1
  · exact h1
  · exact h1.trans (hf a v)

theorem lift (x : Except PyErr α) : Appending (Py.lift x : Py (World σ F) α) := fun w => .refl _
theorem pure (a : α) : Appending (Py.pure a : Py (World σ F) α) := fun w => .refl _
theorem attrs : Appending (Stateful.attrs : Py (World σ F) _) := fun w => .refl _
theorem record (K : Arr F) : Appending (Stateful.record K : Py (World σ F) _) := fun w => ⟨[K], rfl⟩

end Appending

/-- All four callbacks only append. -/
structure Callbacks.Appending (cb : Callbacks σ F) : Prop where
  f : ∀ x u, KK.Appending (cb.f x u)
  h : ∀ x, KK.Appending (cb.h x)
  jacobianA : ∀ x u, KK.Appending (cb.jacobianA x u)
  jacobianH : ∀ x, KK.Appending (cb.jacobianH x)

variable {cb : Callbacks σ F}

theorem predict_appending (hc : cb.Appending) (x : Arr F) (u : Option (Arr F)) (P Q : Arr F) : Appending (Stateful.predict cb x u P Q) :=
  (hc.jacobianA _ _).bind fun _ => (hc.f _ _).bind fun _ => (Appending.lift _).bind fun _ => Appending.pure _

theorem update_appending (hc : cb.Appending) (x P z R : Arr F) : Appending (Stateful.update cb x P z R) :=
  (hc.jacobianH _).bind fun _ => (Appending.lift _).bind fun _ => (Appending.record _).bind fun _ => (hc.h _).bind fun _ =>
    (Appending.lift _).bind fun _ => Appending.attrs.bind fun _ => (Appending.lift _).bind fun _ => Appending.pure _

theorem filterLoop_appending (hc : cb.Appending) (n k : ℕ) (rows : List (ExtendedKalmanFilter.Row F)) (x P : Arr F)
    (states errors : List (Arr F)) : Appending (Stateful.filterLoop cb n k rows x P states errors) := by
  induction rows generalizing k x P states errors with
  | nil => exact Appending.pure _
  | cons r rows ih =>
    obtain ⟨u, z, Q, R⟩ := r
    exact (predict_appending hc _ _ _ _).bind fun _ => (update_appending hc _ _ _ _).bind fun _ => (Appending.lift _).bind fun _ =>
      (Appending.lift _).bind fun _ => ih _ _ _ _ _

theorem filter_appending (hc : cb.Appending) (Z : NDArray F) (U : Option (NDArray F)) : Appending (Stateful.filter cb Z U) :=
  Appending.attrs.bind fun _ => (Appending.lift _).bind fun _ => (Appending.lift _).bind fun _ => filterLoop_appending hc _ _ _ _ _ _ _

theorem smoothLoop_appending (hc : cb.Appending) (n : ℕ) (Q U : NDArray F) (xEst PEst : List (Arr F)) (ks : List ℕ) (xs Ps : List (Arr F)) :
    Appending (Stateful.smoothLoop cb n Q U xEst PEst ks xs Ps) := by
  induction ks generalizing xs Ps with
  | nil => exact Appending.pure _
  | cons k ks ih =>
    exact (Appending.lift _).bind fun ⟨_, _, _, _, _, _⟩ => (predict_appending hc _ _ _ _).bind fun _ => (hc.jacobianA _ _).bind fun _ =>
      (Appending.lift _).bind fun _ => (Appending.lift _).bind fun _ => (Appending.lift _).bind fun _ => ih _ _

/-- C145 (methods only append): if the callbacks do nothing to the object but append to `kalman_gains`, then this is so for
`predict`, `update`, `filter` and `smooth`, whether they return or raise: so they may be called from callbacks in
their turn. -/
theorem C145_methods_only_append (hc : cb.Appending) :
    (∀ x u P Q, Appending (Stateful.predict cb x u P Q)) ∧ (∀ x P z R, Appending (Stateful.update cb x P z R)) ∧
      (∀ Z U, Appending (Stateful.filter cb Z U)) ∧ ∀ Z U, Appending (Stateful.smooth cb Z U) :=
  ⟨predict_appending hc, update_appending hc, filter_appending hc, fun Z U =>
    (filter_appending hc Z U).bind fun _ => Appending.attrs.bind fun _ => (Appending.lift _).bind fun _ => (Appending.lift _).bind fun _ =>
      (Appending.lift _).bind fun _ => (Appending.lift _).bind fun _ => (Appending.lift _).bind fun _ => smoothLoop_appending hc _ _ _ _ _ _ _ _⟩

end

/-! ## Cases that meet the hypotheses -/

section

variable {F : Type} [Backend F]

open Classical in
/-- `jacobian_A` remembers every value it has computed, and looks there first (`functools.lru_cache`). -/
noncomputable def Ex.cached (kf : ExtendedKalmanFilter F) : Callbacks (List (Arr F × Option (Arr F) × Arr F)) F where
  f x u := Py.lift (kf.f x u)
  h x := Py.lift (kf.h x)
  jacobianA x u := ⟨fun w => match w.user.find? (fun e => e.1 = x ∧ e.2.1 = u) with
    | some e => (.ok e.2.2, w)
    | none => match kf.jacobianA x u with
      | .ok A => (.ok A, { w with user := w.user ++ [(x, u, A)] })
      | .error e => (.error e, w)⟩
  jacobianH x := Py.lift (kf.jacobianH x)

/-- Every remembered value is right. -/
def Ex.CacheRight (kf : ExtendedKalmanFilter F) (s : List (Arr F × Option (Arr F) × Arr F)) : Prop :=
  ∀ e ∈ s, kf.jacobianA e.1 e.2.1 = .ok e.2.2

theorem Ex.cached_compute (kf : ExtendedKalmanFilter F) : (Ex.cached kf).Compute kf (Ex.CacheRight kf) (· = ·) := by
  refine ⟨fun x u w hw => ⟨rfl, hw, rfl⟩, fun x w hw => ⟨rfl, hw, rfl⟩, fun x u w hw => ?_, fun x w hw => ⟨rfl, hw, rfl⟩⟩
  simp only [Ex.cached]
  split
  · rename_i e he
    have h1 := List.find?_some he
    have h2 := hw e (List.mem_of_find?_eq_some he)
    simp only [decide_eq_true_eq] at h1
    rw [h1.1, h1.2] at h2
    exact ⟨h2.symm, hw, rfl⟩
  · cases hA : kf.jacobianA x u with
    | error e => exact ⟨rfl, hw, rfl⟩
    | ok A =>
      refine ⟨rfl, ?_, rfl⟩
      intro e he
      rcases List.mem_append.1 he with h | h
      · exact hw e h
      · rw [List.mem_singleton] at h; subst h; exact hA

/-- C142 for a cache, empty at the start, any filter and any data. -/
example (kf : ExtendedKalmanFilter F) (Z : NDArray F) (U : Option (NDArray F)) :
    ∃ s', Ex.CacheRight kf s' ∧ (Stateful.smooth (Ex.cached kf) Z U).run ⟨[], kf.attrs⟩ =
      (((ExtendedKalmanFilter.smooth Z U).run kf).1, ⟨s', ((ExtendedKalmanFilter.smooth Z U).run kf).2.attrs⟩) :=
  C142_smooth (Ex.cached_compute kf) [] (by simp [Ex.CacheRight]) Z U

/-- A callback `f` that, at each call, doubles the number of `Q` rows kept in the object by assigning `self.Q`, and clears
`self.kalman_gains`. -/
def Ex.rebinding (kf : ExtendedKalmanFilter F) (newQ : NDArray F) : Callbacks Unit F where
  f x u := ⟨fun w => (kf.f x u, { w with self := { w.self with Q := newQ, kalmanGains := [], xk := x } })⟩
  h x := Py.lift (kf.h x)
  jacobianA x u := Py.lift (kf.jacobianA x u)
  jacobianH x := Py.lift (kf.jacobianH x)

theorem Ex.rebinding_compute (kf : ExtendedKalmanFilter F) (newQ : NDArray F) :
    (Ex.rebinding kf newQ).Compute kf (fun _ => True) (fun a b => a.I = b.I) :=
  ⟨fun x u w hw => ⟨rfl, hw, rfl⟩, fun x w hw => ⟨rfl, hw, rfl⟩, fun x u w hw => ⟨rfl, hw, rfl⟩, fun x w hw => ⟨rfl, hw, rfl⟩⟩

example (kf : ExtendedKalmanFilter F) (newQ Z : NDArray F) (U : Option (NDArray F)) :
    ((Stateful.filter (Ex.rebinding kf newQ) Z U).run ⟨(), kf.attrs⟩).1 = ((ExtendedKalmanFilter.filter Z U).run kf).1 :=
  C145_filter_reads_once (Ex.rebinding_compute kf newQ) () trivial Z U

/-- A callback `h` that tries out `self.update` with some observation, and ignores what it returns or raises. -/
def Ex.probing (kf : ExtendedKalmanFilter F) (P z R : Arr F) : Callbacks Unit F where
  f x u := Py.lift (kf.f x u)
  h x := ⟨fun w => (kf.h x, ((Stateful.update (pureCb kf) x P z R).run w).2)⟩
  jacobianA x u := Py.lift (kf.jacobianA x u)
  jacobianH x := Py.lift (kf.jacobianH x)

theorem pureCb_appending (kf : ExtendedKalmanFilter F) : (pureCb kf).Appending :=
  ⟨fun _ _ => Appending.lift _, fun _ => Appending.lift _, fun _ _ => Appending.lift _, fun _ => Appending.lift _⟩

theorem Ex.probing_compute (kf : ExtendedKalmanFilter F) (P z R : Arr F) :
    (Ex.probing kf P z R).Compute kf (fun _ => True) OnlyAppends :=
  ⟨fun x u w hw => ⟨rfl, hw, .refl _⟩, fun x w hw => ⟨rfl, hw, (C145_methods_only_append (pureCb_appending kf)).2.1 x P z R w⟩,
    fun x u w hw => ⟨rfl, hw, .refl _⟩, fun x w hw => ⟨rfl, hw, .refl _⟩⟩

example (kf : ExtendedKalmanFilter F) (P z R : Arr F) (Z : NDArray F) (U : Option (NDArray F)) :
    ((Stateful.filter (Ex.probing kf P z R) Z U).run ⟨(), kf.attrs⟩).1 = ((ExtendedKalmanFilter.filter Z U).run kf).1 :=
  (C145_filter_reentrant (Ex.probing_compute kf P z R) () trivial Z U).1

end

end KK
