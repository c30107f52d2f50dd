import Verif.Model.Standard
import Verif.Model.Extended
import Verif.Spec.Exact
import Mathlib.Analysis.SpecialFunctions.Trigonometric.Basic

/-!
# The example programs of `/repo/examples`

Modelled on exact floats (`Fl`), with the random data replaced by arbitrary data and the module constants by
parameters.  `matplotlib` calls and the random number generation are not modelled.
-/

namespace KK
namespace Examples

variable [Platform]

/-- `xk[i]` for a 1-d array (IndexError otherwise; rows of 2-d arrays are not used by the examples). -/
def item1 (a : Arr Fl) (i : ℕ) : Except PyErr Fl :=
  match a with
  | .vec (n := n) _ v => if h : i < n then .ok (v ⟨i, h⟩) else .error .indexError
  | _ => .error .indexError

/-- `np.sin` -/
noncomputable def npSin : Fl → Fl
  | .nan => .nan
  | .fin x => .fin (Real.sin x)

/-- `np.cos` -/
noncomputable def npCos : Fl → Fl
  | .nan => .nan
  | .fin x => .fin (Real.cos x)

/-! ### pendulum.py, pendulum_smoothing.py (constants `DT`, `G` are `dt`, `g`) -/

/-- pendulum.py 28-30, pendulum_smoothing.py 19-25 `f` -/
noncomputable def pendF (dt g : ℝ) (xk : Arr Fl) (_uk : Option (Arr Fl)) : Except PyErr (Arr Fl) := do
  let x0 ← item1 xk 0
  let x1 ← item1 xk 1
  .ok (.vec .float64 ![x0 + .fin dt * x1, x1 - .fin g * .fin dt * npSin x0])

/-- pendulum.py 33-38 `jacobian_A` (pendulum_smoothing.py 28-34 multiplies in the order `-G * DT * cos`). -/
noncomputable def pendJA (dt g : ℝ) (xk : Arr Fl) (_uk : Option (Arr Fl)) : Except PyErr (Arr Fl) := do
  let x0 ← item1 xk 0
  .ok (.mat .float64 !![.fin 1, .fin dt; .fin (-g) * npCos x0 * .fin dt, .fin 1])

/-- pendulum.py 41-42, pendulum_smoothing.py 37-38 `h`: a numpy scalar. -/
noncomputable def pendH (xk : Arr Fl) : Except PyErr (Arr Fl) := do
  let x0 ← item1 xk 0
  .ok (.scalar .float64 (npSin x0))

/-- pendulum.py 45-50, pendulum_smoothing.py 41-42 `jacobian_H` -/
noncomputable def pendJH (xk : Arr Fl) : Except PyErr (Arr Fl) := do
  let x0 ← item1 xk 0
  .ok (.mat .float64 !![npCos x0, .fin 0])

/-- pendulum.py 82, pendulum_smoothing.py 66-71: `qk = c * np.array([[DT**3/3, DT**2/2], [DT**2/2, DT]])`. -/
noncomputable def pendQ (c dt : ℝ) : Arr Fl :=
  .mat .float64 !![.fin (c * (dt ^ 3 / 3)), .fin (c * (dt ^ 2 / 2)); .fin (c * (dt ^ 2 / 2)), .fin (c * dt)]

/-- A 1-d data array of any dtype. -/
noncomputable def data (d : DType) (zs : List ℝ) : NDArray Fl := .stack (zs.map fun z => .scalar d (.fin z))

/-- pendulum.py 79-102 / pendulum_smoothing.py 65-86: the filter object, with `xk = np.array([a0, a1])`,
`Pk = p * np.eye(2)`, `Q = np.stack([qk] * T)`, `R = np.ones(T) * rk`. -/
noncomputable def pendulum (dt g c p rk a0 a1 : ℝ) (T : ℕ) : Except PyErr (ExtendedKalmanFilter Fl) :=
  ExtendedKalmanFilter.new (.vec .float64 ![.fin a0, .fin a1])
    (.mat .float64 !![.fin p, .fin 0; .fin 0, .fin p])
    (.stack (List.replicate T (pendQ c dt))) (.stack (List.replicate T (.scalar .float64 (.fin rk))))
    (pendF dt g) pendH (pendJA dt g) pendJH

/-! ### constant_velocity_smoothing.py -/

/-- constant_velocity_smoothing.py 20-28 `transition_covariance`. -/
noncomputable def transitionCovariance (dt std : ℝ) : Arr Fl :=
  .mat .float64 !![.fin (std ^ 2 * (dt ^ 4 / 4)), .fin (std ^ 2 * (dt ^ 3 / 2));
    .fin (std ^ 2 * (dt ^ 3 / 2)), .fin (std ^ 2 * dt ^ 2)]

/-- constant_velocity_smoothing.py 57-88: the filter object for `T + 1` observations (`DT`,
`PROCESS_ACCELERATION_STD`, `OBSERVATION_STD` are `dt`, `std`, `obs`, and `Pk = np.eye(2) * p`).  The first step
has transition `np.eye(2)` and zero process noise. -/
noncomputable def constantVelocity (dt std obs p : ℝ) (T : ℕ) : Except PyErr (KalmanFilter Fl) :=
  KalmanFilter.new
    (.stack (.mat .float64 !![.fin 1, .fin 0; .fin 0, .fin 1] ::
      List.replicate T (.mat .float64 !![.fin 1, .fin dt; .fin 0, .fin 1])))
    (.vec .float64 ![.fin 0, .fin 0]) none
    (.mat .float64 !![.fin p, .fin 0; .fin 0, .fin p])
    (.stack (List.replicate (T + 1) (.mat .float64 !![.fin 1, .fin 0])))
    (.stack (.mat .float64 !![.fin 0, .fin 0; .fin 0, .fin 0] :: List.replicate T (transitionCovariance dt std)))
    (.stack (List.replicate (T + 1) (.scalar .float64 (.fin (obs ^ 2)))))

/-! ### market_beta.py -/

/-- market_beta.py 30-46: the filter object for the prices `xs` of `stock_x` (`xk` is an *integer* array; the
constants 0.01 of `Q` and `R` are `q`, `r`). -/
noncomputable def marketBeta (q r : ℝ) (xs : List ℝ) : Except PyErr (KalmanFilter Fl) :=
  KalmanFilter.new
    (.stack (List.replicate xs.length (.mat .float64 !![.fin 1, .fin 0; .fin 0, .fin 1])))
    (.vec .int64 ![.fin 0, .fin 0]) none
    (.mat .float64 !![.fin 1, .fin 0; .fin 0, .fin 1])
    (.stack (xs.map fun x => .mat .float64 !![.fin x, .fin 1]))
    (.stack (List.replicate xs.length (.mat .float64 !![.fin q, .fin 0; .fin 0, .fin q])))
    (.stack (List.replicate xs.length (.scalar .float64 (.fin r))))

end Examples
end KK
