import Verif.Spec.Textbook

/-!
# Fixed-gain observers, unobservable directions
-/

namespace KK

open Matrix

variable {n m r : ℕ}

/-- The estimates of the observer with the fixed gain `K`: `x⁻ = A x + B u`, `x = x⁻ + K (z - H x⁻)`.  It computes no covariances. -/
noncomputable def fixedGain (A : Matrix (Fin n) (Fin n) ℝ) (H : Matrix (Fin m) (Fin n) ℝ) (K : Matrix (Fin n) (Fin m) ℝ) :
    (Fin n → ℝ) → List (LinStep n m) → List (Fin n → ℝ)
  | _, [] => []
  | x, s :: ss =>
    let p := A *ᵥ x + s.c
    let x' := p + K *ᵥ (s.z - H *ᵥ p)
    x' :: fixedGain A H K x' ss

/-- Where the system carries the directions `W`, time by time. -/
def carried : Matrix (Fin n) (Fin r) ℝ → List (LinStep n m) → List (Matrix (Fin n) (Fin r) ℝ)
  | _, [] => []
  | W, s :: ss => s.A * W :: carried (s.A * W) ss

/-- The observations never see the directions `W`. -/
def Unseen : Matrix (Fin n) (Fin r) ℝ → List (LinStep n m) → Prop
  | _, [] => True
  | W, s :: ss => s.H * (s.A * W) = 0 ∧ Unseen (s.A * W) ss

/-- A belief with its mean displaced. -/
def Belief.offset (b : Belief n) (d : Fin n → ℝ) : Belief n := ⟨b.x + d, b.P⟩

/-- The beliefs `bs` with the means displaced by `W a`, `W` running through the given list. -/
def offsetAll (a : Fin r → ℝ) (bs : List (Belief n)) (Ws : List (Matrix (Fin n) (Fin r) ℝ)) : List (Belief n) :=
  List.zipWith (fun b W => b.offset (W *ᵥ a)) bs Ws

end KK
