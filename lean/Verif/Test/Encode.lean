import Verif.Proofs.Exact

/-!
# Every textbook model is represented by some call

Used beside the theorems about exact arithmetic to show that their hypotheses can be met: `encode` builds
the constructor arguments and `Z`, `U` for an arbitrary initial belief and list of steps.
-/

set_option linter.unusedSectionVars false

namespace KK
namespace Ex

open Matrix

variable {n m : ℕ}

section
variable [Platform]

/-- Constructor arguments: the control matrix is the single column `c`. -/
noncomputable def encode (b : Belief n) (ss : List (LinStep n m)) : KalmanFilter Fl where
  A := .stack (ss.map fun s => .mat .float64 (finM s.A))
  xk := .vec .float64 (finV b.x)
  B := .stack (ss.map fun s => .mat .float64 (finM (colM s.c)))
  Pk := .mat .float64 (finM b.P)
  H := .stack (ss.map fun s => .mat .float64 (finM s.H))
  Q := .stack (ss.map fun s => .mat .float64 (finM s.Q))
  R := .stack (ss.map fun s => .mat .float64 (finM s.R))
  stateSize := n
  I := Arr.identity n
  kalmanGains := []

/-- The observations. -/
noncomputable def encZ (ss : List (LinStep n m)) : NDArray Fl :=
  .stack (ss.map fun s => .vec .float64 (finV s.z))

/-- The controls: always 1. -/
noncomputable def encU (ss : List (LinStep n m)) : NDArray Fl :=
  .stack (ss.map fun _ => .vec .float64 (finV (fun _ : Fin 1 => (1 : ℝ))))

theorem encode_represents (b : Belief n) (ss : List (LinStep n m)) :
    Represents (encode b ss) (encZ ss) (some (encU ss)) b ss where
  iter := ⟨trivial, trivial, trivial, trivial, trivial, trivial, trivial⟩
  len := by simp [KalmanFilter.steps, encode, encZ, encU, checkNoneAndBroadcast, NDArray.rows]
  size := rfl
  ident := rfl
  x := .inl ⟨_, rfl⟩
  P := ⟨_, rfl⟩
  rows := by
    intro k s Ak Hk Bk uk zk Qk Rk hs hA hH hB hu hz hQ hR
    simp only [encode, encZ, encU, effU, checkNoneAndBroadcast, NDArray.rows, List.getElem?_map, hs,
      Option.map_some, Option.some.injEq] at hA hH hB hu hz hQ hR
    subst hA hH hB hu hz hQ hR
    refine ⟨⟨_, rfl⟩, ⟨_, rfl⟩, .inr ⟨1, colM s.c, fun _ => 1, ⟨_, rfl⟩, ⟨_, rfl⟩, ?_⟩, .inl ⟨_, rfl⟩,
      .inl ⟨_, rfl⟩, .inl ⟨_, rfl⟩⟩
    funext i
    simp [Matrix.mulVec, dotProduct, colM]
  col := .inl ⟨_, rfl⟩

/-- The encoded data are exactly as long as the model. -/
theorem encZ_length (ss : List (LinStep n m)) : (encZ ss).rows.length = ss.length := by
  simp [encZ, NDArray.rows]

end

/-- A constant-velocity step: position observed with variance 1, process noise 1/4, acceleration input. -/
noncomputable def cvStep (u z : ℝ) : LinStep 2 1 where
  A := !![1, 1; 0, 1]
  c := ![u / 2, u]
  H := !![1, 0]
  Q := !![1/4, 0; 0, 1/4]
  R := !![1]
  z := ![z]

/-- Initial belief. -/
noncomputable def cvBelief : Belief 2 := ⟨![0, 1], !![2, 0; 0, 1]⟩

end Ex
end KK
