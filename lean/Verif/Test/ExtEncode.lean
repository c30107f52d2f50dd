import Verif.Spec.ExtTextbook
import Verif.Test.Encode

/-!
# Every nonlinear model is represented by some call of the extended filter

`extEncode` builds constructor arguments and `Z` for an arbitrary initial belief, arbitrary callbacks and arbitrary noise
covariances and data of every step.
-/

set_option linter.unusedSectionVars false

namespace KK
namespace Ex

open Matrix

variable {n m : ℕ} [Platform]

/-- A callback that computes `F` on 1-d arrays of `n` numbers. -/
noncomputable def callV {k : ℕ} (F : (Fin n → ℝ) → Fin k → ℝ) : Arr Fl → Except PyErr (Arr Fl)
  | .vec (n := n') _ v => if h : n' = n then .ok (.vec .float64 (finV (F fun i => (v (Fin.cast h.symm i)).toReal)))
    else .error .valueError
  | _ => .error .valueError

noncomputable def callM {k l : ℕ} (F : (Fin n → ℝ) → Matrix (Fin k) (Fin l) ℝ) : Arr Fl → Except PyErr (Arr Fl)
  | .vec (n := n') _ v => if h : n' = n then .ok (.mat .float64 (finM (F fun i => (v (Fin.cast h.symm i)).toReal)))
    else .error .valueError
  | _ => .error .valueError

theorem callV_is {k : ℕ} (F : (Fin n → ℝ) → Fin k → ℝ) (v : Fin n → ℝ) (x : Arr Fl) (h : VecIs v x) :
    ∃ y, callV F x = .ok y ∧ VecIs (F v) y := by
  obtain ⟨d, rfl⟩ := h
  exact ⟨.vec .float64 (finV (F v)), by simp [callV, finV, Fl.toReal], _, rfl⟩

theorem callM_is {k l : ℕ} (F : (Fin n → ℝ) → Matrix (Fin k) (Fin l) ℝ) (v : Fin n → ℝ) (x : Arr Fl) (h : VecIs v x) :
    ∃ y, callM F x = .ok y ∧ MatIs (F v) y := by
  obtain ⟨d, rfl⟩ := h
  exact ⟨.mat .float64 (finM (F v)), by simp [callM, finV, Fl.toReal], _, rfl⟩

/-- Constructor arguments. -/
noncomputable def extEncode (f : (Fin n → ℝ) → Fin n → ℝ) (jA : (Fin n → ℝ) → Matrix (Fin n) (Fin n) ℝ)
    (h : (Fin n → ℝ) → Fin m → ℝ) (jH : (Fin n → ℝ) → Matrix (Fin m) (Fin n) ℝ) (b : Belief n)
    (ss : List (ExtStep n m)) : ExtendedKalmanFilter Fl where
  f x _ := callV f x
  jacobianA x _ := callM jA x
  h x := callV h x
  jacobianH x := callM jH x
  xk := .vec .float64 (finV b.x)
  Pk := .mat .float64 (finM b.P)
  Q := .stack (ss.map fun s => .mat .float64 (finM s.Q))
  R := .stack (ss.map fun s => .mat .float64 (finM s.R))
  stateSize := n
  I := Arr.identity n
  kalmanGains := []

/-- The observations. -/
noncomputable def extEncZ (ss : List (ExtStep n m)) : NDArray Fl :=
  .stack (ss.map fun s => .vec .float64 (finV s.z))

theorem extEncode_represents (f : (Fin n → ℝ) → Fin n → ℝ) (jA : (Fin n → ℝ) → Matrix (Fin n) (Fin n) ℝ)
    (h : (Fin n → ℝ) → Fin m → ℝ) (jH : (Fin n → ℝ) → Matrix (Fin m) (Fin n) ℝ) (b : Belief n)
    (ss : List (ExtStep n m)) (hss : ∀ s ∈ ss, s.f = f ∧ s.jA = jA ∧ s.h = h ∧ s.jH = jH) :
    ExtRepresents (extEncode f jA h jH b ss) (extEncZ ss) (some (extEncZ ss)) b ss where
  iter := ⟨trivial, trivial, trivial, trivial⟩
  len := by simp [ExtendedKalmanFilter.steps, extEncode, extEncZ, effU, checkNoneAndBroadcast, NDArray.rows]
  size := rfl
  ident := rfl
  x := ⟨_, rfl⟩
  P := ⟨_, rfl⟩
  rows := by
    intro k s uk zk Qk Rk hs hu hz hQ hR
    simp only [extEncode, extEncZ, effU, checkNoneAndBroadcast, NDArray.rows, List.getElem?_map, hs,
      Option.map_some, Option.some.injEq] at hu hz hQ hR
    subst hu hz hQ hR
    obtain ⟨rfl, rfl, rfl, rfl⟩ := hss s (List.mem_of_getElem? hs)
    exact ⟨fun v x hv => callV_is s.f v x hv, fun v x hv => callM_is s.jA v x hv,
      fun v x hv => by obtain ⟨y, h1, h2⟩ := callV_is s.h v x hv; exact ⟨y, h1, .inl h2⟩,
      fun v x hv => callM_is s.jH v x hv, .inl ⟨_, rfl⟩, .inl ⟨_, rfl⟩, .inl ⟨_, rfl⟩⟩

theorem ext_exists (s₀ : ExtStep n m) (b : Belief n) (ss : List (ExtStep n m))
    (hss : ∀ s ∈ ss, s.f = s₀.f ∧ s.jA = s₀.jA ∧ s.h = s₀.h ∧ s.jH = s₀.jH) : ∃ kf Z U, ExtRepresents kf Z U b ss :=
  ⟨_, _, _, extEncode_represents _ _ _ _ b ss hss⟩

theorem extEncZ_length (ss : List (ExtStep n m)) : (extEncZ ss).rows.length = ss.length := by
  simp [extEncZ, NDArray.rows]

end Ex
end KK
