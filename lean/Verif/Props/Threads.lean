import Verif.Proofs.Threads
import Verif.Test.Encode

/-!
# Calls from several threads, and calls that are stopped half-way (C60, C61)
-/

set_option linter.unusedSectionVars false

namespace KK

variable {F : Type} [Backend F] {ι : Type} [DecidableEq ι]

open Proc

theorem threads_core {σ γ α : Type} [Ledger σ γ] (ps : ι → Proc σ α) (hp : ∀ i, (ps i).Benign) (s : σ) (sched : List ι) :
    ∃ log : List (ι × γ),
      (runSchedule sched ps s).2 = Ledger.withGains s (Ledger.gains s ++ log.map Prod.snd) ∧
      ∀ i, ∃ gs, ((ps i).alone s).2 = Ledger.withGains s (Ledger.gains s ++ gs) ∧ ofThread i log <+: gs ∧
        ∀ r, (runSchedule sched ps s).1 i = .done r → r = ((ps i).alone s).1 ∧ ofThread i log = gs := by
  obtain ⟨log, h1, h2⟩ := runSchedule_benign sched ps s (Ledger.gains s) hp
  rw [Ledger.with_gains] at h1 h2
  refine ⟨log, h1, fun i => ?_⟩
  obtain ⟨-, m2, m3⟩ := h2 i
  have ha := (hp i).alone s (Ledger.gains s)
  rw [Ledger.with_gains] at ha
  refine ⟨_, by rw [ha], ⟨_, m3.symm⟩, fun r hr => ?_⟩
  rw [hr] at m2 m3
  simp only [Proc.alone, Ledger.gains_with, List.append_nil] at m2 m3
  refine ⟨by rw [ha]; exact m2.symm, m3.symm⟩

theorem progress_core {σ γ α : Type} [Ledger σ γ] (ps : ι → Proc σ α) (hp : ∀ i, (ps i).Benign) (s : σ) :
    ∃ N : ι → ℕ, ∀ (sched : List ι) (i : ι), N i ≤ sched.count i → ∃ r, (runSchedule sched ps s).1 i = .done r := by
  refine ⟨fun i => (ps i).size (Ledger.withGains s []), fun sched i h => ?_⟩
  have := runSchedule_size sched ps s (Ledger.gains s) hp i
  rw [Ledger.with_gains] at this
  exact size_zero (Ledger.withGains s []) (by dsimp only at h; omega)

/-- C60: any number of threads, each making a sequence of calls with arbitrary arguments on one shared `KalmanFilter`,
under an arbitrary schedule.  All attributes other than `kalman_gains` are untouched.  `kalman_gains` has grown by a
list `log` in which the entries of each thread form an initial part of what the thread would have recorded alone, in
the same order.  A thread that has finished got, for each of its calls, exactly what it would have got alone, and all
its gains are there. -/
theorem C60_threads (kf : KalmanFilter F) (prog : ι → List (KalmanFilter.Call F)) (sched : List ι) :
    ∃ log : List (ι × Arr F),
      (runSchedule sched (fun i => threadP KalmanFilter.callP (prog i)) kf).2 =
        { kf with kalmanGains := kf.kalmanGains ++ log.map Prod.snd } ∧
      ∀ i, ∃ gs, (kf.after (prog i)).kalmanGains = kf.kalmanGains ++ gs ∧ ofThread i log <+: gs ∧
        ∀ rs, (runSchedule sched (fun i => threadP KalmanFilter.callP (prog i)) kf).1 i = .done rs →
          rs = kf.outcomes (prog i) ∧ ofThread i log = gs := by
  obtain ⟨log, h1, h2⟩ := threads_core (fun i => threadP KalmanFilter.callP (prog i))
    (fun i => KalmanFilter.threadP_benign (prog i)) kf sched
  refine ⟨log, h1, fun i => ?_⟩
  obtain ⟨gs, e1, e2, e3⟩ := h2 i
  rw [KalmanFilter.threadP_alone] at e1 e3
  exact ⟨gs, by dsimp only at e1; rw [e1]; rfl, e2, e3⟩

/-- C60 for `ExtendedKalmanFilter`. -/
theorem C60_threads_ext (kf : ExtendedKalmanFilter F) (prog : ι → List (ExtendedKalmanFilter.Call F)) (sched : List ι) :
    ∃ log : List (ι × Arr F),
      (runSchedule sched (fun i => threadP ExtendedKalmanFilter.callP (prog i)) kf).2 =
        { kf with kalmanGains := kf.kalmanGains ++ log.map Prod.snd } ∧
      ∀ i, ∃ gs, (kf.after (prog i)).kalmanGains = kf.kalmanGains ++ gs ∧ ofThread i log <+: gs ∧
        ∀ rs, (runSchedule sched (fun i => threadP ExtendedKalmanFilter.callP (prog i)) kf).1 i = .done rs →
          rs = kf.outcomes (prog i) ∧ ofThread i log = gs := by
  obtain ⟨log, h1, h2⟩ := threads_core (fun i => threadP ExtendedKalmanFilter.callP (prog i))
    (fun i => ExtendedKalmanFilter.threadP_benign (prog i)) kf sched
  refine ⟨log, h1, fun i => ?_⟩
  obtain ⟨gs, e1, e2, e3⟩ := h2 i
  rw [ExtendedKalmanFilter.threadP_alone] at e1 e3
  exact ⟨gs, by dsimp only at e1; rw [e1]; rfl, e2, e3⟩

/-- C60, progress: no call ever waits for another.  Each thread needs a number of accesses that does not depend on the
schedule; any schedule that gives it so many finishes it. -/
theorem C60_progress (kf : KalmanFilter F) (prog : ι → List (KalmanFilter.Call F)) : ∃ N : ι → ℕ,
    ∀ (sched : List ι) (i : ι), N i ≤ sched.count i →
      ∃ rs, (runSchedule sched (fun i => threadP KalmanFilter.callP (prog i)) kf).1 i = .done rs :=
  progress_core _ (fun i => KalmanFilter.threadP_benign (prog i)) kf

theorem C60_progress_ext (kf : ExtendedKalmanFilter F) (prog : ι → List (ExtendedKalmanFilter.Call F)) : ∃ N : ι → ℕ,
    ∀ (sched : List ι) (i : ι), N i ≤ sched.count i →
      ∃ rs, (runSchedule sched (fun i => threadP ExtendedKalmanFilter.callP (prog i)) kf).1 i = .done rs :=
  progress_core _ (fun i => ExtendedKalmanFilter.threadP_benign (prog i)) kf

/-- The object after the call `c` was stopped after `k` accesses to it (by an asynchronous exception, say). -/
def KalmanFilter.stopped (kf : KalmanFilter F) (c : KalmanFilter.Call F) (k : ℕ) : KalmanFilter F :=
  (runSchedule (List.replicate k ()) (fun _ => KalmanFilter.callP c) kf).2

/-- The object after the call `c` was stopped after `k` accesses to it. -/
def ExtendedKalmanFilter.stopped (kf : ExtendedKalmanFilter F) (c : ExtendedKalmanFilter.Call F) (k : ℕ) :
    ExtendedKalmanFilter F :=
  (runSchedule (List.replicate k ()) (fun _ => ExtendedKalmanFilter.callP c) kf).2

/-- C61: a call stopped at an arbitrary point leaves the object as it was, except that an initial part of the gains
the complete call would have recorded is in `kalman_gains`; and whatever is called afterwards returns what it would
have returned without the stopped call. -/
theorem C61_stopped (kf : KalmanFilter F) (c : KalmanFilter.Call F) (k : ℕ) :
    (∃ g gs, kf.stopped c k = { kf with kalmanGains := kf.kalmanGains ++ g } ∧
      (kf.exec c).2.kalmanGains = kf.kalmanGains ++ gs ∧ g <+: gs) ∧
    (∀ cs, (kf.stopped c k).outcomes cs = kf.outcomes cs) ∧
    ∃ K, ∀ k ≥ K, kf.stopped c k = (kf.exec c).2 := by
  have hb : ∀ i : Unit, ((fun _ => KalmanFilter.callP c) i).Benign := fun _ => KalmanFilter.callP_benign c
  obtain ⟨N, hN⟩ := progress_core _ hb kf
  have key : ∀ k, ∃ g gs, kf.stopped c k = { kf with kalmanGains := kf.kalmanGains ++ g } ∧
      (kf.exec c).2.kalmanGains = kf.kalmanGains ++ gs ∧ g <+: gs ∧
      ((∃ r, (runSchedule (List.replicate k ()) (fun _ => KalmanFilter.callP c) kf).1 () = .done r) →
        kf.stopped c k = (kf.exec c).2) := by
    intro k
    obtain ⟨log, h1, h2⟩ := threads_core _ hb kf (List.replicate k ())
    obtain ⟨gs, e1, e2, e3⟩ := h2 ()
    rw [KalmanFilter.callP_exec] at e1 e3
    have hl : log.map Prod.snd = ofThread () log := by
      clear h1 h2 e2 e3
      induction log with
      | nil => rfl
      | cons a l ih => simpa [ofThread] using ih
    rw [hl] at h1
    refine ⟨_, gs, h1, by rw [e1]; rfl, e2, fun ⟨r, hr⟩ => ?_⟩
    rw [KalmanFilter.stopped, h1, e1, (e3 r hr).2]
  refine ⟨?_, ?_, N (), fun k hk => ?_⟩
  · obtain ⟨g, gs, h1, h2, h3, -⟩ := key k
    exact ⟨g, gs, h1, h2, h3⟩
  · obtain ⟨g, gs, h1, -⟩ := key k
    intro cs
    have := (KalmanFilter.threadP_benign cs).alone kf
    have h2 := this (kf.kalmanGains ++ g)
    have h3 := this (Ledger.gains kf)
    rw [Ledger.with_gains kf] at h3
    rw [KalmanFilter.threadP_alone] at h2 h3
    rw [h1]
    exact (Prod.ext_iff.1 h2).1.trans (Prod.ext_iff.1 h3).1.symm
  · obtain ⟨g, gs, -, -, -, h⟩ := key k
    exact h (hN (List.replicate k ()) () (by rw [List.count_replicate_self]; exact hk))

/-- C61 for `ExtendedKalmanFilter`. -/
theorem C61_stopped_ext (kf : ExtendedKalmanFilter F) (c : ExtendedKalmanFilter.Call F) (k : ℕ) :
    (∃ g gs, kf.stopped c k = { kf with kalmanGains := kf.kalmanGains ++ g } ∧
      (kf.exec c).2.kalmanGains = kf.kalmanGains ++ gs ∧ g <+: gs) ∧
    (∀ cs, (kf.stopped c k).outcomes cs = kf.outcomes cs) ∧
    ∃ K, ∀ k ≥ K, kf.stopped c k = (kf.exec c).2 := by
  have hb : ∀ i : Unit, ((fun _ => ExtendedKalmanFilter.callP c) i).Benign := fun _ => ExtendedKalmanFilter.callP_benign c
  obtain ⟨N, hN⟩ := progress_core _ hb kf
  have key : ∀ k, ∃ g gs, kf.stopped c k = { kf with kalmanGains := kf.kalmanGains ++ g } ∧
      (kf.exec c).2.kalmanGains = kf.kalmanGains ++ gs ∧ g <+: gs ∧
      ((∃ r, (runSchedule (List.replicate k ()) (fun _ => ExtendedKalmanFilter.callP c) kf).1 () = .done r) →
        kf.stopped c k = (kf.exec c).2) := by
    intro k
    obtain ⟨log, h1, h2⟩ := threads_core _ hb kf (List.replicate k ())
    obtain ⟨gs, e1, e2, e3⟩ := h2 ()
    rw [ExtendedKalmanFilter.callP_exec] at e1 e3
    have hl : log.map Prod.snd = ofThread () log := by
      clear h1 h2 e2 e3
      induction log with
      | nil => rfl
      | cons a l ih => simpa [ofThread] using ih
    rw [hl] at h1
    refine ⟨_, gs, h1, by rw [e1]; rfl, e2, fun ⟨r, hr⟩ => ?_⟩
    rw [ExtendedKalmanFilter.stopped, h1, e1, (e3 r hr).2]
  refine ⟨?_, ?_, N (), fun k hk => ?_⟩
  · obtain ⟨g, gs, h1, h2, h3, -⟩ := key k
    exact ⟨g, gs, h1, h2, h3⟩
  · obtain ⟨g, gs, h1, -⟩ := key k
    intro cs
    have := (ExtendedKalmanFilter.threadP_benign cs).alone kf
    have h2 := this (kf.kalmanGains ++ g)
    have h3 := this (Ledger.gains kf)
    rw [Ledger.with_gains kf] at h3
    rw [ExtendedKalmanFilter.threadP_alone] at h2 h3
    rw [h1]
    exact (Prod.ext_iff.1 h2).1.trans (Prod.ext_iff.1 h3).1.symm
  · obtain ⟨g, gs, -, -, -, h⟩ := key k
    exact h (hN (List.replicate k ()) () (by rw [List.count_replicate_self]; exact hk))

-- C60, C61: two threads that call `update`; each schedule decides the order of the recorded gains, and a call stopped
-- after its first access has recorded its gain although it never returned.
example (kf : KalmanFilter F) (H x P z R H' x' P' z' R' K K' : Arr F) (h : KalmanFilter.gain H P R = .ok K)
    (h' : KalmanFilter.gain H' P' R' = .ok K') :
    let ps := fun b : Bool => threadP KalmanFilter.callP
      [if b then .update H x P z R else .update H' x' P' z' R']
    (runSchedule [true, false] ps kf).2.kalmanGains = kf.kalmanGains ++ [K] ++ [K'] ∧
    (runSchedule [false, true] ps kf).2.kalmanGains = kf.kalmanGains ++ [K'] ++ [K] ∧
    (kf.stopped (.update H x P z R) 1).kalmanGains = kf.kalmanGains ++ [K] := by
  have e : KalmanFilter.callP (.update H x P z R) = .write (fun kf => { kf with kalmanGains := kf.kalmanGains ++ [K] })
      (.read fun kf => .done (.pair (KalmanFilter.correct kf.I K H x P z))) := by
    simp only [KalmanFilter.callP, KalmanFilter.updateP, h, PyP.run_bind', PyP.run_lift, PyP.run_mutate, PyP.run_attr,
      Proc.bind]
  have e' : KalmanFilter.callP (.update H' x' P' z' R') =
      .write (fun kf => { kf with kalmanGains := kf.kalmanGains ++ [K'] })
      (.read fun kf => .done (.pair (KalmanFilter.correct kf.I K' H' x' P' z'))) := by
    simp only [KalmanFilter.callP, KalmanFilter.updateP, h', PyP.run_bind', PyP.run_lift, PyP.run_mutate, PyP.run_attr,
      Proc.bind]
  refine ⟨?_, ?_, ?_⟩
  · simp [runSchedule, threadP, e, e', Proc.bind, Proc.step]
  · simp [runSchedule, threadP, e, e', Proc.bind, Proc.step]
  · simp [KalmanFilter.stopped, runSchedule, e, Proc.step]

end KK
