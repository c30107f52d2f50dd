import Verif.Spec.Textbook

/-!
# What a call returned, in terms of real matrices

`FilterReturns kf Z U bs Ks` : `kf.filter(Z, U)` returned exactly the means and covariances `bs` (followed by
rows of zeros if `Z` is longer than `bs`), appended exactly the gains `Ks`, and changed nothing else.
-/

namespace KK

variable [Platform] {n m : ℕ}

/-- `kf.filter(Z, U)` returned `bs`, and appended the gains `Ks`. -/
def FilterReturns (kf : KalmanFilter Fl) (Z : NDArray Fl) (U : Option (NDArray Fl))
    (bs : List (Belief n)) (Ks : List (Matrix (Fin n) (Fin m) ℝ)) : Prop :=
  (KalmanFilter.filter Z U).run kf =
    (.ok (bs.map stateRow ++ List.replicate (Z.rows.length - bs.length) (Arr.zerosVec n),
          bs.map covRow ++ List.replicate (Z.rows.length - bs.length) (Arr.zerosMat n)),
     { kf with kalmanGains := kf.kalmanGains ++ Ks.map gainRow })

/-- `kf.smooth(Z, U)` returned `bs`, and appended the gains `Ks`. -/
def SmoothReturns (kf : KalmanFilter Fl) (Z : NDArray Fl) (U : Option (NDArray Fl))
    (bs : List (Belief n)) (Ks : List (Matrix (Fin n) (Fin m) ℝ)) : Prop :=
  (KalmanFilter.smooth Z U).run kf =
    (.ok (bs.map stateRow, bs.map covRow),
     { kf with kalmanGains := kf.kalmanGains ++ Ks.map gainRow })

/-- `kf.filter(Z, U)` raised LinAlgError. -/
def FilterSingular (kf : KalmanFilter Fl) (Z : NDArray Fl) (U : Option (NDArray Fl)) : Prop :=
  ∃ kf', (KalmanFilter.filter Z U).run kf = (.error .linAlgError, kf')

/-- `kf.smooth(Z, U)` raised LinAlgError. -/
def SmoothSingular (kf : KalmanFilter Fl) (Z : NDArray Fl) (U : Option (NDArray Fl)) : Prop :=
  ∃ kf', (KalmanFilter.smooth Z U).run kf = (.error .linAlgError, kf')

end KK
