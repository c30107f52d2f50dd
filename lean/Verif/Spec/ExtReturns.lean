import Verif.Spec.ExtTextbook

/-!
# What a call of the extended filter returned, in terms of real matrices (as Spec/Returns)
-/

namespace KK

variable [Platform] {n m : ℕ}

/-- `kf.filter(Z, U)` returned `bs` (followed by rows of zeros if `Z` is longer), and appended the gains `Ks`. -/
def ExtFilterReturns (kf : ExtendedKalmanFilter Fl) (Z : NDArray Fl) (U : Option (NDArray Fl))
    (bs : List (Belief n)) (Ks : List (Matrix (Fin n) (Fin m) ℝ)) : Prop :=
  (ExtendedKalmanFilter.filter Z U).run kf =
    (.ok (bs.map stateRow ++ List.replicate (Z.rows.length - bs.length) (Arr.zerosVec n),
          bs.map covRow ++ List.replicate (Z.rows.length - bs.length) (Arr.zerosMat n)),
     { kf with kalmanGains := kf.kalmanGains ++ Ks.map gainRow })

/-- `kf.smooth(Z, U)` returned `bs`, and appended the gains `Ks`. -/
def ExtSmoothReturns (kf : ExtendedKalmanFilter Fl) (Z : NDArray Fl) (U : Option (NDArray Fl))
    (bs : List (Belief n)) (Ks : List (Matrix (Fin n) (Fin m) ℝ)) : Prop :=
  (ExtendedKalmanFilter.smooth Z U).run kf =
    (.ok (bs.map stateRow, bs.map covRow),
     { kf with kalmanGains := kf.kalmanGains ++ Ks.map gainRow })

/-- `kf.filter(Z, U)` raised LinAlgError. -/
def ExtFilterSingular (kf : ExtendedKalmanFilter Fl) (Z : NDArray Fl) (U : Option (NDArray Fl)) : Prop :=
  ∃ kf', (ExtendedKalmanFilter.filter Z U).run kf = (.error .linAlgError, kf')

/-- `kf.smooth(Z, U)` raised LinAlgError. -/
def ExtSmoothSingular (kf : ExtendedKalmanFilter Fl) (Z : NDArray Fl) (U : Option (NDArray Fl)) : Prop :=
  ∃ kf', (ExtendedKalmanFilter.smooth Z U).run kf = (.error .linAlgError, kf')

end KK
