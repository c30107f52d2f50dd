import Verif.Model.Threads
import Verif.Spec.Basic

/-!
# Threads, schedules and crash points
-/

namespace KK

/-- A public method call as a process on the shared object. -/
def KalmanFilter.callP {F : Type} [Backend F] : KalmanFilter.Call F → Proc (KalmanFilter F) (Outcome F)
  | .predict Ak xk Bk uk Pk Qk => .done (.pair (KalmanFilter.predict Ak xk Bk uk Pk Qk))
  | .update Hk xk Pk zk Rk => (KalmanFilter.updateP Hk xk Pk zk Rk).run.bind fun r => .done (.pair r)
  | .filter Z U => (KalmanFilter.filterP Z U).run.bind fun r => .done (.rows r)
  | .smooth Z U => (KalmanFilter.smoothP Z U).run.bind fun r => .done (.rows r)

/-- A public method call as a process on the shared object. -/
def ExtendedKalmanFilter.callP {F : Type} [Backend F] :
    ExtendedKalmanFilter.Call F → Proc (ExtendedKalmanFilter F) (Outcome F)
  | .predict xk uk Pk Qk => (ExtendedKalmanFilter.predictP xk uk Pk Qk).run.bind fun r => .done (.pair r)
  | .update xk Pk zk Rk => (ExtendedKalmanFilter.updateP xk Pk zk Rk).run.bind fun r => .done (.pair r)
  | .filter Z U => (ExtendedKalmanFilter.filterP Z U).run.bind fun r => .done (.rows r)
  | .smooth Z U => (ExtendedKalmanFilter.smoothP Z U).run.bind fun r => .done (.rows r)

/-- A thread that makes the calls `cs` one after the other (going on after exceptions) and keeps their outcomes. -/
def threadP {σ γ ω : Type} (call : γ → Proc σ ω) : List γ → Proc σ (List ω)
  | [] => .done []
  | c :: cs => (call c).bind fun r => (threadP call cs).bind fun rs => .done (r :: rs)

/-- The threads `ps` and the shared object after the schedule: at each point, the thread named next makes one access
(nothing happens if it is already finished).  A schedule is an arbitrary list of thread names; threads that it does not
bring to their end were stopped there. -/
def runSchedule {ι σ α : Type} [DecidableEq ι] : List ι → (ι → Proc σ α) → σ → (ι → Proc σ α) × σ
  | [], ps, s => (ps, s)
  | i :: sched, ps, s =>
    runSchedule sched (Function.update ps i ((ps i).step s).1) ((ps i).step s).2

/-- The outcomes of calls made one after the other. -/
def KalmanFilter.outcomes {F : Type} [Backend F] (kf : KalmanFilter F) : List (KalmanFilter.Call F) → List (Outcome F)
  | [] => []
  | c :: cs => (kf.exec c).1 :: (kf.exec c).2.outcomes cs

/-- The outcomes of calls made one after the other. -/
def ExtendedKalmanFilter.outcomes {F : Type} [Backend F] (kf : ExtendedKalmanFilter F) :
    List (ExtendedKalmanFilter.Call F) → List (Outcome F)
  | [] => []
  | c :: cs => (kf.exec c).1 :: (kf.exec c).2.outcomes cs

/-- The entries of `log` that belong to thread `i`, in order. -/
def ofThread {ι γ : Type} [DecidableEq ι] (i : ι) (log : List (ι × γ)) : List γ :=
  log.filterMap fun p => if p.1 = i then some p.2 else none

end KK
