import Verif.Spec.Threads
import Verif.Props.History

/-! # Interleavings of processes that only append to the gain list -/

set_option linter.unusedSectionVars false
set_option linter.unusedSimpArgs false

namespace KK

namespace Proc

variable {σ α β : Type}

@[simp] theorem pure_eq (a : α) : (pure a : Proc σ α) = done a := rfl
@[simp] theorem bind_eq (p : Proc σ α) (f : α → Proc σ β) : p >>= f = p.bind f := rfl

theorem alone_bind (p : Proc σ α) (f : α → Proc σ β) (s : σ) :
    (p.bind f).alone s = (f (p.alone s).1).alone (p.alone s).2 := by
  induction p generalizing s with
  | done a => rfl
  | read k ih => exact ih s s
  | write g k ih => exact ih (g s)

/-- The object consists of parameters and a list of recorded gains. -/
class Ledger (σ : Type) (γ : outParam Type) where
  gains : σ → List γ
  withGains : σ → List γ → σ
  gains_with : ∀ s g, gains (withGains s g) = g
  with_with : ∀ s g g', withGains (withGains s g) g' = withGains s g'
  with_gains : ∀ s, withGains s (gains s) = s

variable {γ : Type} [Ledger σ γ]

open Ledger

/-- A process that never looks at the recorded gains and changes the object only by recording a gain. -/
inductive Benign : Proc σ α → Prop
  | done (a : α) : Benign (done a)
  | read (k : σ → Proc σ α) (hk : ∀ s g, k (withGains s g) = k s) (h : ∀ s, Benign (k s)) : Benign (read k)
  | write (f : σ → σ) (k : Proc σ α) (K : γ) (hf : ∀ s, f s = withGains s (gains s ++ [K])) (h : Benign k) :
      Benign (write f k)

theorem Benign.bind {p : Proc σ α} {f : α → Proc σ β} (hp : p.Benign) (hf : ∀ a, (f a).Benign) : (p.bind f).Benign := by
  induction hp with
  | done a => exact hf a
  | read k hk h ih => exact .read _ (fun s g => by rw [hk]) ih
  | write g k K hg h ih => exact .write _ _ K hg ih

/-- What a benign process does does not depend on the recorded gains. -/
theorem Benign.alone {p : Proc σ α} (hp : p.Benign) (s : σ) (g : List γ) :
    p.alone (withGains s g) =
      ((p.alone (withGains s [])).1, withGains s (g ++ gains (p.alone (withGains s [])).2)) := by
  induction hp generalizing g with
  | done a => simp [Proc.alone, gains_with]
  | read k hk h ih =>
    simp only [Proc.alone, hk]
    exact ih s g
  | write f k K hf h ih =>
    simp only [Proc.alone, hf, with_with, gains_with, List.nil_append]
    rw [ih (g ++ [K]), ih [K], gains_with, List.append_assoc]

variable {ι : Type} [DecidableEq ι]

theorem step_benign {p : Proc σ α} (hp : p.Benign) (s : σ) (g : List γ) :
    ∃ e : List γ, (p.step (withGains s g)).2 = withGains s (g ++ e) ∧ (p.step (withGains s g)).1.Benign ∧
      (p.alone (withGains s [])).1 = ((p.step (withGains s g)).1.alone (withGains s [])).1 ∧
      gains (p.alone (withGains s [])).2 = e ++ gains ((p.step (withGains s g)).1.alone (withGains s [])).2 := by
  cases hp with
  | done a => exact ⟨[], by simp [Proc.step], .done a, rfl, rfl⟩
  | read k hk h =>
    refine ⟨[], by simp [Proc.step], h _, ?_, ?_⟩ <;> simp [Proc.step, Proc.alone, hk]
  | write f k K hf h =>
    refine ⟨[K], by simp [Proc.step, hf, with_with, gains_with], h, ?_, ?_⟩
    · simp only [Proc.step, Proc.alone, hf, with_with, gains_with, List.nil_append]
      rw [h.alone s [K]]
    · simp only [Proc.step, Proc.alone, hf, with_with, gains_with, List.nil_append]
      rw [h.alone s [K], gains_with]

theorem ofThread_append (i : ι) (a b : List (ι × γ)) : ofThread i (a ++ b) = ofThread i a ++ ofThread i b := by
  simp [ofThread]

theorem ofThread_map_self (i : ι) (e : List γ) : ofThread i (e.map fun x => (i, x)) = e := by
  induction e with
  | nil => rfl
  | cons a e ih => simpa [ofThread] using ih

theorem ofThread_map_ne {i j : ι} (h : j ≠ i) (e : List γ) : ofThread i (e.map fun x => (j, x)) = [] := by
  induction e with
  | nil => rfl
  | cons a e ih => simpa [ofThread, h] using ih

/-- The invariant of interleaved execution. -/
theorem runSchedule_benign (sched : List ι) (ps : ι → Proc σ α) (s : σ) (g : List γ) (hp : ∀ i, (ps i).Benign) :
    ∃ log : List (ι × γ),
      (runSchedule sched ps (withGains s g)).2 = withGains s (g ++ log.map Prod.snd) ∧
      ∀ i, ((runSchedule sched ps (withGains s g)).1 i).Benign ∧
        ((ps i).alone (withGains s [])).1 =
          (((runSchedule sched ps (withGains s g)).1 i).alone (withGains s [])).1 ∧
        gains ((ps i).alone (withGains s [])).2 = ofThread i log ++
          gains (((runSchedule sched ps (withGains s g)).1 i).alone (withGains s [])).2 := by
  induction sched generalizing ps g with
  | nil => exact ⟨[], by simp [runSchedule], fun i => ⟨hp i, rfl, by simp [runSchedule, ofThread]⟩⟩
  | cons j sched ih =>
    obtain ⟨e, h1, h2, h3, h4⟩ := step_benign (hp j) s g
    simp only [runSchedule, h1]
    have hp' : ∀ i, (Function.update ps j ((ps j).step (withGains s g)).1 i).Benign := by
      intro i
      by_cases h : i = j
      · subst h; rw [Function.update_self]; exact h2
      · rw [Function.update_of_ne h]; exact hp i
    obtain ⟨log, l1, l2⟩ := ih (Function.update ps j ((ps j).step (withGains s g)).1) (g ++ e) hp'
    refine ⟨e.map (fun x => (j, x)) ++ log, ?_, fun i => ?_⟩
    · rw [l1]; simp [Function.comp_def]
    · obtain ⟨m1, m2, m3⟩ := l2 i
      refine ⟨m1, ?_, ?_⟩
      · rw [← m2]
        by_cases h : i = j
        · subst h; rw [Function.update_self]; exact h3
        · rw [Function.update_of_ne h]
      · rw [ofThread_append, List.append_assoc, ← m3]
        by_cases h : i = j
        · subst h; rw [Function.update_self, ofThread_map_self]; exact h4
        · rw [Function.update_of_ne h, ofThread_map_ne (Ne.symm h), List.nil_append]

/-- Number of accesses a process makes. -/
def size : Proc σ α → σ → ℕ
  | done _, _ => 0
  | read k, s => (k s).size s + 1
  | write f k, s => k.size (f s) + 1

theorem Benign.size {p : Proc σ α} (hp : p.Benign) (s : σ) (g : List γ) :
    p.size (withGains s g) = p.size (withGains s []) := by
  induction hp generalizing g with
  | done a => rfl
  | read k hk h ih => simp only [Proc.size, hk]; rw [ih s g]
  | write f k K hf h ih =>
    simp only [Proc.size, hf, with_with, gains_with]
    rw [ih (g ++ [K]), ih ([] ++ [K])]

theorem step_size {p : Proc σ α} (s : σ) (h : p.size s ≠ 0) : (p.step s).1.size (p.step s).2 + 1 = p.size s := by
  cases p with
  | done a => exact absurd rfl h
  | read k => rfl
  | write f k => rfl

theorem size_zero {p : Proc σ α} (s : σ) (h : p.size s = 0) : ∃ a, p = done a := by
  cases p with
  | done a => exact ⟨a, rfl⟩
  | read k => exact absurd h (by simp [Proc.size])
  | write f k => exact absurd h (by simp [Proc.size])

theorem runSchedule_size (sched : List ι) (ps : ι → Proc σ α) (s : σ) (g : List γ) (hp : ∀ i, (ps i).Benign) (i : ι) :
    ((runSchedule sched ps (withGains s g)).1 i).size (withGains s []) =
      (ps i).size (withGains s []) - sched.count i := by
  induction sched generalizing ps g with
  | nil => simp [runSchedule]
  | cons j sched ih =>
    obtain ⟨e, h1, h2, -, -⟩ := step_benign (hp j) s g
    simp only [runSchedule, h1]
    have hp' : ∀ i, (Function.update ps j ((ps j).step (withGains s g)).1 i).Benign := by
      intro i
      by_cases h : i = j
      · subst h; rw [Function.update_self]; exact h2
      · rw [Function.update_of_ne h]; exact hp i
    rw [ih _ _ hp']
    by_cases h : i = j
    · subst h
      rw [Function.update_self, List.count_cons_self]
      by_cases hz : (ps i).size (withGains s g) = 0
      · obtain ⟨a, ha⟩ := size_zero _ hz
        rw [ha]; simp [Proc.step, Proc.size]
      · have := step_size _ hz
        rw [h1, h2.size, (hp i).size] at this
        omega
    · rw [Function.update_of_ne h, List.count_cons_of_ne (Ne.symm h)]

end Proc

open Proc

/-! ## Method bodies -/

namespace PyP

variable {σ α β γ : Type}

theorem run_bind' (x : PyP σ α) (f : α → PyP σ β) : ExceptT.run (x >>= f) =
    (ExceptT.run x).bind fun r => match r with
      | .ok a => ExceptT.run (f a)
      | .error e => Proc.done (.error e) := by
  show Proc.bind x (ExceptT.bindCont f) = _
  congr 1
  funext r
  cases r <;> rfl

theorem run_attr (f : σ → α) : ExceptT.run (attr f) = Proc.read fun s => Proc.done (.ok (f s)) := rfl
theorem run_mutate (f : σ → σ) : ExceptT.run (mutate f) = Proc.write f (Proc.done (.ok ())) := rfl
theorem run_lift (x : Except PyErr α) : ExceptT.run (lift (σ := σ) x) = Proc.done x := rfl

/-- The body runs like the one-go model. -/
def Refines (x : PyP σ α) (y : Py σ α) : Prop := ∀ s, (ExceptT.run x).alone s = y.run s

theorem refines_bind {x : PyP σ α} {y : Py σ α} {f : α → PyP σ β} {g : α → Py σ β} (h : Refines x y)
    (hf : ∀ a, Refines (f a) (g a)) : Refines (x >>= f) (y >>= g) := by
  intro s
  rw [run_bind', alone_bind, h s]
  show _ = (Py.bind y g).run s
  simp only [Py.bind]
  rcases y.run s with ⟨e | a, s'⟩
  · rfl
  · exact hf a s'

theorem refines_lift (x : Except PyErr α) : Refines (lift (σ := σ) x) (Py.lift x) := fun _ => rfl
theorem refines_mutate (f : σ → σ) : Refines (mutate f) (Py.mutate f) := fun _ => rfl

variable [Ledger σ γ]

theorem benign_bind {x : PyP σ α} {f : α → PyP σ β} (h : (ExceptT.run x).Benign) (hf : ∀ a, (ExceptT.run (f a)).Benign) :
    (ExceptT.run (x >>= f)).Benign := by
  rw [run_bind']
  refine h.bind fun r => ?_
  rcases r with e | a
  · exact .done _
  · exact hf a

theorem benign_lift (x : Except PyErr α) : (ExceptT.run (lift (σ := σ) x)).Benign := .done _

theorem benign_attr {f : σ → α} (h : ∀ s g, f (Ledger.withGains s g) = f s) : (ExceptT.run (attr f)).Benign := by
  rw [run_attr]
  exact .read _ (fun s g => by simp only [h]) fun _ => .done _

end PyP

open PyP

instance {F : Type} : Ledger (KalmanFilter F) (Arr F) where
  gains kf := kf.kalmanGains
  withGains kf g := { kf with kalmanGains := g }
  gains_with _ _ := rfl
  with_with _ _ _ := rfl
  with_gains _ := rfl

instance {F : Type} : Ledger (ExtendedKalmanFilter F) (Arr F) where
  gains kf := kf.kalmanGains
  withGains kf g := { kf with kalmanGains := g }
  gains_with _ _ := rfl
  with_with _ _ _ := rfl
  with_gains _ := rfl

namespace KalmanFilter

variable {F : Type} [Backend F]

theorem updateP_benign (Hk xk Pk zk Rk : Arr F) : (ExceptT.run (updateP Hk xk Pk zk Rk)).Benign :=
  benign_bind (benign_lift _) fun K => benign_bind (.write _ _ K (fun _ => rfl) (.done _)) fun _ =>
    benign_bind (benign_attr fun _ _ => rfl) fun _ => benign_lift _

theorem updateP_refines (Hk xk Pk zk Rk : Arr F) : Refines (updateP Hk xk Pk zk Rk) (update Hk xk Pk zk Rk) :=
  refines_bind (refines_lift _) fun _ => refines_bind (refines_mutate _) fun _ => fun _ => rfl

theorem filterLoopP_benign (s k : ℕ) (rows : List (Row F)) (x P : Arr F) (xs Ps : List (Arr F)) :
    (ExceptT.run (filterLoopP s k rows x P xs Ps)).Benign := by
  induction rows generalizing k x P xs Ps with
  | nil => exact .done _
  | cons r rest ih =>
    obtain ⟨Ak, Hk, Bk, uk, zk, Qk, Rk⟩ := r
    exact benign_bind (benign_lift _) fun p => benign_bind (updateP_benign _ _ _ _ _) fun q =>
      benign_bind (benign_lift _) fun _ => benign_bind (benign_lift _) fun _ => ih _ _ _ _ _

theorem filterLoopP_run (kf : KalmanFilter F) (k : ℕ) (rows : List (Row F)) (x P : Arr F) (xs Ps : List (Arr F)) :
    (ExceptT.run (filterLoopP kf.stateSize k rows x P xs Ps)).alone kf = (filterLoop k rows x P xs Ps).run kf := by
  induction rows generalizing k x P xs Ps kf with
  | nil => rfl
  | cons r rest ih =>
    obtain ⟨Ak, Hk, Bk, uk, zk, Qk, Rk⟩ := r
    have hu := updateP_refines (F := F)
    simp only [filterLoopP, filterLoop, run_bind', alone_bind, run_lift, Proc.alone, Py.run_bind, Py.run_lift,
      Py.run_self]
    rcases predict Ak x (some Bk) (some uk) P Qk with e | ⟨x1, P1⟩
    · rfl
    dsimp only
    rw [alone_bind, hu]
    have hs : ((update Hk x1 P1 zk Rk).run kf).2.stateSize = kf.stateSize := by
      simp only [update, Py.run_bind, Py.run_lift, Py.run_mutate, Py.run_self]
      rcases gain Hk P1 Rk with e | K <;> rfl
    rcases hr : (update Hk x1 P1 zk Rk).run kf with ⟨e | ⟨x2, P2⟩, kf'⟩
    · rfl
    rw [hr] at hs
    dsimp only at hs ⊢
    simp only [run_bind', alone_bind, run_lift, Proc.alone, ← hs]
    rcases x2.assignVec kf'.stateSize with e | sr
    · rfl
    dsimp only
    simp only [run_bind', alone_bind, run_lift, Proc.alone]
    rcases P2.assignMat kf'.stateSize with e | er
    · rfl
    · exact ih _ _ _ _ _ _

theorem filterP_benign (Z : NDArray F) (U : Option (NDArray F)) : (ExceptT.run (filterP Z U)).Benign := by
  unfold filterP
  repeat' first
    | exact filterLoopP_benign _ _ _ _ _ _ _
    | exact benign_lift _
    | exact benign_attr fun _ _ => rfl
    | refine benign_bind ?_ fun _ => ?_

theorem filterP_refines (Z : NDArray F) (U : Option (NDArray F)) : Refines (filterP Z U) (filter Z U) := by
  intro kf
  simp only [filterP, filter, run_bind', alone_bind, run_lift, run_attr, Proc.alone, Py.run_bind, Py.run_lift,
    Py.run_self]
  rcases Z.len with e | n
  · rfl
  simp only [run_bind', alone_bind, run_lift, run_attr, Proc.alone]
  rcases zipRows kf.A kf.H kf.B (checkNoneAndBroadcast U Z) Z kf.Q kf.R with e | rows
  · rfl
  · exact filterLoopP_run kf 0 rows _ _ _ _

theorem smoothP_benign (Z : NDArray F) (U : Option (NDArray F)) : (ExceptT.run (smoothP Z U)).Benign := by
  unfold smoothP
  repeat' first
    | exact filterP_benign _ _
    | exact benign_lift _
    | exact benign_attr fun _ _ => rfl
    | refine benign_bind ?_ fun _ => ?_

theorem smoothP_refines (Z : NDArray F) (U : Option (NDArray F)) : Refines (smoothP Z U) (smooth Z U) := by
  refine refines_bind (filterP_refines Z U) fun p => ?_
  intro kf
  simp only [run_bind', alone_bind, run_lift, run_attr, Proc.alone, Py.run_bind, Py.run_lift,
    Py.run_self]
  rcases Z.len with e | n
  · rfl
  simp only [run_bind', alone_bind, run_lift, run_attr, Proc.alone, Py.run_bind, Py.run_lift]
  rcases (if n = 0 then Except.error PyErr.indexError else getRow p.1 (n - 1)) with e | xl
  · rfl
  simp only [run_bind', alone_bind, run_lift, run_attr, Proc.alone, Py.run_bind, Py.run_lift]
  rcases (if n = 0 then Except.error PyErr.indexError else getRow p.2 (n - 1)) with e | Pl
  · rfl
  simp only [run_bind', alone_bind, run_lift, run_attr, Proc.alone, Py.run_bind, Py.run_lift]
  rcases xl.assignVec kf.stateSize with e | xr
  · rfl
  simp only [run_bind', alone_bind, run_lift, run_attr, Proc.alone, Py.run_bind, Py.run_lift]
  rcases Pl.assignMat kf.stateSize with e | Pr
  · rfl
  · rfl

theorem callP_benign (c : Call F) : (callP c).Benign := by
  cases c with
  | predict => exact .done _
  | update => exact (updateP_benign _ _ _ _ _).bind fun _ => .done _
  | filter => exact (filterP_benign _ _).bind fun _ => .done _
  | smooth => exact (smoothP_benign _ _).bind fun _ => .done _

theorem callP_exec (c : Call F) (kf : KalmanFilter F) : (callP c).alone kf = kf.exec c := by
  cases c with
  | predict => rfl
  | update => rw [callP, alone_bind, updateP_refines]; rfl
  | filter => rw [callP, alone_bind, filterP_refines]; rfl
  | smooth => rw [callP, alone_bind, smoothP_refines]; rfl

theorem threadP_benign (cs : List (Call F)) : (threadP callP cs).Benign := by
  induction cs with
  | nil => exact .done _
  | cons c cs ih => exact (callP_benign c).bind fun _ => ih.bind fun _ => .done _

theorem threadP_alone (cs : List (Call F)) (kf : KalmanFilter F) :
    (threadP callP cs).alone kf = (kf.outcomes cs, kf.after cs) := by
  induction cs generalizing kf with
  | nil => rfl
  | cons c cs ih =>
    simp only [threadP, alone_bind, callP_exec, ih, outcomes, after, List.foldl_cons]
    rfl

end KalmanFilter

namespace ExtendedKalmanFilter

variable {F : Type} [Backend F]

theorem predictP_benign (x : Arr F) (u : Option (Arr F)) (P Q : Arr F) : (ExceptT.run (predictP x u P Q)).Benign := by
  unfold predictP
  repeat' first
    | exact benign_lift _
    | exact benign_attr fun _ _ => rfl
    | refine benign_bind ?_ fun _ => ?_

theorem predictP_run (x : Arr F) (u : Option (Arr F)) (P Q : Arr F) (kf : ExtendedKalmanFilter F) :
    (ExceptT.run (predictP x u P Q)).alone kf = (predict kf x u P Q, kf) := by
  simp only [predictP, predict, run_bind', alone_bind, run_lift, run_attr, Proc.alone]
  rcases kf.jacobianA x u with e | Ak
  · rfl
  simp only [run_bind', alone_bind, run_lift, run_attr, Proc.alone]
  rcases kf.f x u with e | y
  · rfl
  · rfl

theorem updateP_benign (xk Pk zk Rk : Arr F) : (ExceptT.run (updateP xk Pk zk Rk)).Benign :=
  benign_bind (benign_attr fun _ _ => rfl) fun _ => benign_bind (benign_lift _) fun _ =>
  benign_bind (benign_lift _) fun K => benign_bind (.write _ _ K (fun _ => rfl) (.done _)) fun _ =>
    benign_bind (benign_attr fun _ _ => rfl) fun _ => benign_bind (benign_lift _) fun _ =>
      benign_bind (benign_attr fun _ _ => rfl) fun _ => benign_lift _

theorem updateP_refines (xk Pk zk Rk : Arr F) : Refines (updateP xk Pk zk Rk) (update xk Pk zk Rk) := by
  intro kf
  simp only [updateP, update, run_bind', alone_bind, run_lift, run_attr, Proc.alone, Py.run_bind, Py.run_lift,
    Py.run_self]
  rcases kf.jacobianH xk with e | Hk
  · rfl
  simp only [run_bind', alone_bind, run_lift, run_attr, Proc.alone]
  rcases gain Hk Pk Rk with e | K
  · rfl
  simp only [run_bind', run_mutate, alone_bind, run_lift, run_attr, Proc.alone, Py.run_mutate, correct]
  rcases kf.h xk with e | hx
  · rfl
  simp only [Bind.bind, Except.bind]
  rcases zk.sub hx with e | res
  · rfl
  dsimp only
  rcases K.matmul res.atleast1d with e | c
  · rfl
  dsimp only
  rcases xk.add c with e | xp
  · rfl
  · rfl

theorem filterLoopP_benign (s k : ℕ) (rows : List (Row F)) (x P : Arr F) (xs Ps : List (Arr F)) :
    (ExceptT.run (filterLoopP s k rows x P xs Ps)).Benign := by
  induction rows generalizing k x P xs Ps with
  | nil => exact .done _
  | cons r rest ih =>
    obtain ⟨uk, zk, Qk, Rk⟩ := r
    exact benign_bind (predictP_benign _ _ _ _) fun p => benign_bind (updateP_benign _ _ _ _) fun q =>
      benign_bind (benign_lift _) fun _ => benign_bind (benign_lift _) fun _ => ih _ _ _ _ _

theorem filterLoopP_run (kf : ExtendedKalmanFilter F) (k : ℕ) (rows : List (Row F)) (x P : Arr F)
    (xs Ps : List (Arr F)) :
    (ExceptT.run (filterLoopP kf.stateSize k rows x P xs Ps)).alone kf = (filterLoop k rows x P xs Ps).run kf := by
  induction rows generalizing k x P xs Ps kf with
  | nil => rfl
  | cons r rest ih =>
    obtain ⟨uk, zk, Qk, Rk⟩ := r
    have hu := updateP_refines (F := F)
    simp only [filterLoopP, filterLoop, run_bind', alone_bind, predictP_run, run_lift, Proc.alone, Py.run_bind,
      Py.run_lift, Py.run_self]
    rcases predict kf x (some uk) P Qk with e | ⟨x1, P1⟩
    · rfl
    dsimp only
    rw [alone_bind, hu]
    have hs : ((update x1 P1 zk Rk).run kf).2.stateSize = kf.stateSize := by
      simp only [update, Py.run_bind, Py.run_lift, Py.run_mutate, Py.run_self]
      rcases kf.jacobianH x1 with e | H
      · rfl
      dsimp only
      rcases gain H P1 Rk with e | K <;> rfl
    rcases hr : (update x1 P1 zk Rk).run kf with ⟨e | ⟨x2, P2⟩, kf'⟩
    · rfl
    rw [hr] at hs
    dsimp only at hs ⊢
    simp only [run_bind', alone_bind, run_lift, Proc.alone, ← hs]
    rcases x2.assignVec kf'.stateSize with e | sr
    · rfl
    dsimp only
    simp only [run_bind', alone_bind, run_lift, Proc.alone]
    rcases P2.assignMat kf'.stateSize with e | er
    · rfl
    · exact ih _ _ _ _ _ _

theorem filterP_benign (Z : NDArray F) (U : Option (NDArray F)) : (ExceptT.run (filterP Z U)).Benign := by
  unfold filterP
  repeat' first
    | exact filterLoopP_benign _ _ _ _ _ _ _
    | exact benign_lift _
    | exact benign_attr fun _ _ => rfl
    | refine benign_bind ?_ fun _ => ?_

theorem filterP_refines (Z : NDArray F) (U : Option (NDArray F)) : Refines (filterP Z U) (filter Z U) := by
  intro kf
  simp only [filterP, filter, run_bind', alone_bind, run_lift, run_attr, Proc.alone, Py.run_bind, Py.run_lift,
    Py.run_self]
  rcases Z.len with e | n
  · rfl
  simp only [run_bind', alone_bind, run_lift, run_attr, Proc.alone]
  rcases zipRows (checkNoneAndBroadcast U Z) Z kf.Q kf.R with e | rows
  · rfl
  · exact filterLoopP_run kf 0 rows _ _ _ _

theorem smoothStepP_benign (a b c d e f : Arr F) : (ExceptT.run (smoothStepP a b c d e f)).Benign :=
  benign_bind (predictP_benign _ _ _ _) fun _ => benign_bind (benign_attr fun _ _ => rfl) fun _ => benign_lift _

theorem smoothStepP_run (a b c d e f : Arr F) (kf : ExtendedKalmanFilter F) :
    (ExceptT.run (smoothStepP a b c d e f)).alone kf = (smoothStep kf a b c d e f, kf) := by
  simp only [smoothStepP, smoothStep, run_bind', alone_bind, predictP_run]
  rcases predict kf a (some d) b c with e | ⟨x, P⟩
  · rfl
  · rfl

theorem smoothLoopP_benign (s : ℕ) (Q U : NDArray F) (xe Pe : List (Arr F)) (ks : List ℕ) (xs Ps : List (Arr F)) :
    (ExceptT.run (smoothLoopP s Q U xe Pe ks xs Ps)).Benign := by
  induction ks generalizing xs Ps with
  | nil => exact .done _
  | cons k ks ih =>
    unfold smoothLoopP
    repeat' first
      | exact ih _ _
      | exact benign_lift _
      | exact smoothStepP_benign _ _ _ _ _ _
      | refine benign_bind ?_ fun _ => ?_

theorem smoothLoopP_run (kf : ExtendedKalmanFilter F) (Q U : NDArray F) (xe Pe : List (Arr F)) (ks : List ℕ)
    (xs Ps : List (Arr F)) : (ExceptT.run (smoothLoopP kf.stateSize Q U xe Pe ks xs Ps)).alone kf =
      (smoothLoop kf Q U xe Pe ks xs Ps, kf) := by
  induction ks generalizing xs Ps with
  | nil => rfl
  | cons k ks ih =>
    simp only [smoothLoopP, smoothLoop, run_bind', alone_bind, run_lift, Proc.alone]
    rcases Q.item (k + 1) with e | q
    · rfl
    simp only [run_bind', alone_bind, run_lift, Proc.alone, Bind.bind, Except.bind]
    rcases U.item (k + 1) with e | u
    · rfl
    simp only [run_bind', alone_bind, run_lift, Proc.alone, Bind.bind, Except.bind]
    rcases getRow Pe k with e | P
    · rfl
    simp only [run_bind', alone_bind, run_lift, Proc.alone, Bind.bind, Except.bind]
    rcases getRow xe k with e | x
    · rfl
    simp only [run_bind', alone_bind, run_lift, Proc.alone, Bind.bind, Except.bind]
    rcases getRow xs (k + 1) with e | xn
    · rfl
    simp only [run_bind', alone_bind, run_lift, Proc.alone, Bind.bind, Except.bind]
    rcases getRow Ps (k + 1) with e | Pn
    · rfl
    simp only [run_bind', alone_bind, run_lift, Proc.alone, Bind.bind, Except.bind, smoothStepP_run]
    rcases smoothStep kf x P q u xn Pn with e | ⟨x', P'⟩
    · rfl
    simp only [run_bind', alone_bind, run_lift, Proc.alone, Bind.bind, Except.bind]
    rcases x'.assignVec kf.stateSize with e | xr
    · rfl
    simp only [run_bind', alone_bind, run_lift, Proc.alone, Bind.bind, Except.bind]
    rcases P'.assignMat kf.stateSize with e | Pr
    · rfl
    · exact ih _ _

theorem smoothP_benign (Z : NDArray F) (U : Option (NDArray F)) : (ExceptT.run (smoothP Z U)).Benign := by
  unfold smoothP
  repeat' first
    | exact filterP_benign _ _
    | exact smoothLoopP_benign _ _ _ _ _ _ _ _
    | exact benign_lift _
    | exact benign_attr fun _ _ => rfl
    | refine benign_bind ?_ fun _ => ?_

theorem smoothP_refines (Z : NDArray F) (U : Option (NDArray F)) : Refines (smoothP Z U) (smooth Z U) := by
  refine refines_bind (filterP_refines Z U) fun p => ?_
  intro kf
  simp only [run_bind', alone_bind, run_lift, run_attr, Proc.alone, Py.run_bind, Py.run_lift,
    Py.run_self]
  rcases Z.len with e | n
  · rfl
  simp only [run_bind', alone_bind, run_lift, run_attr, Proc.alone, Py.run_bind, Py.run_lift]
  rcases (if n = 0 then Except.error PyErr.indexError else getRow p.1 (n - 1)) with e | xl
  · rfl
  simp only [run_bind', alone_bind, run_lift, run_attr, Proc.alone, Py.run_bind, Py.run_lift]
  rcases (if n = 0 then Except.error PyErr.indexError else getRow p.2 (n - 1)) with e | Pl
  · rfl
  simp only [run_bind', alone_bind, run_lift, run_attr, Proc.alone, Py.run_bind, Py.run_lift]
  rcases xl.assignVec kf.stateSize with e | xr
  · rfl
  simp only [run_bind', alone_bind, run_lift, run_attr, Proc.alone, Py.run_bind, Py.run_lift]
  rcases Pl.assignMat kf.stateSize with e | Pr
  · rfl
  · exact smoothLoopP_run kf _ _ _ _ _ _ _

theorem callP_benign (c : Call F) : (callP c).Benign := by
  cases c with
  | predict => exact (predictP_benign _ _ _ _).bind fun _ => .done _
  | update => exact (updateP_benign _ _ _ _).bind fun _ => .done _
  | filter => exact (filterP_benign _ _).bind fun _ => .done _
  | smooth => exact (smoothP_benign _ _).bind fun _ => .done _

theorem callP_exec (c : Call F) (kf : ExtendedKalmanFilter F) : (callP c).alone kf = kf.exec c := by
  cases c with
  | predict => rw [callP, alone_bind, predictP_run]; rfl
  | update => rw [callP, alone_bind, updateP_refines]; rfl
  | filter => rw [callP, alone_bind, filterP_refines]; rfl
  | smooth => rw [callP, alone_bind, smoothP_refines]; rfl

theorem threadP_benign (cs : List (Call F)) : (threadP callP cs).Benign := by
  induction cs with
  | nil => exact .done _
  | cons c cs ih => exact (callP_benign c).bind fun _ => ih.bind fun _ => .done _

theorem threadP_alone (cs : List (Call F)) (kf : ExtendedKalmanFilter F) :
    (threadP callP cs).alone kf = (kf.outcomes cs, kf.after cs) := by
  induction cs generalizing kf with
  | nil => rfl
  | cons c cs ih =>
    simp only [threadP, alone_bind, callP_exec, ih, outcomes, after, List.foldl_cons]
    rfl

end ExtendedKalmanFilter

end KK
