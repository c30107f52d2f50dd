import Verif.Spec.Returns

/-!
# The moving-average set-up of the documentation

`/repo/docs/source/quickstart.rst` 50-120 and `/repo/examples/moving_average.py` 51-72:
`A = H = np.expand_dims(np.ones((len(Z), 1)), axis=1)`, `xk = np.array([[x0]])`, `Pk = np.array([[p]])`,
`Q = np.ones(len(Z)) * q`, `R = np.ones(len(Z)) * r`, `B = None`, `U = None`, `Z` a 1-d array.
-/

namespace KK

open Matrix

variable [Platform]

/-- A 1x1 array. -/
noncomputable def one1 (d : DType) (x : ℝ) : Arr Fl := .mat d (finM (Matrix.of fun (_ _ : Fin 1) => x))

/-- `np.expand_dims(np.ones((T, 1)), axis=1)` (moving_average.py 56, 62) -/
noncomputable def onesT (T : ℕ) : NDArray Fl := .stack (List.replicate T (one1 .float64 1))

/-- `np.ones(T) * v` (moving_average.py 60, 63) -/
noncomputable def constT (T : ℕ) (v : ℝ) : NDArray Fl := .stack (List.replicate T (.scalar .float64 (.fin v)))

/-- A 1-d data array. -/
noncomputable def dataZ (d : DType) (zs : List ℝ) : NDArray Fl := .stack (zs.map fun z => .scalar d (.fin z))

/-- `KalmanFilter(A=A, xk=[[x0]], B=None, Pk=[[p]], H=A, Q=q*ones, R=r*ones)` (moving_average.py 70); the arrays
`xk` and `Pk` may be integer or float. -/
noncomputable def maFilter (dx dp : DType) (x0 p q r : ℝ) (T : ℕ) : Except PyErr (KalmanFilter Fl) :=
  KalmanFilter.new (onesT T) (one1 dx x0) none (one1 dp p) (onesT T) (constT T q) (constT T r)

/-- Row `k` of a returned `(T, 1)` array of states is the number `x`. -/
def IsNumber (a : Option (Arr Fl)) (x : ℝ) : Prop := a = some (.vec .float64 fun _ : Fin 1 => .fin x)

/-- Row `k` of a returned `(T, 1, 1)` array (or a 1x1 gain) is the number `x`. -/
def IsNumber1 (a : Option (Arr Fl)) (x : ℝ) : Prop := a = some (one1 .float64 x)

end KK
