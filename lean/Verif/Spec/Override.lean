import Verif.Spec.Subclass
import Verif.Spec.Textbook
import Verif.Spec.ExtTextbook

/-!
# Subclasses that override `filter`
-/

namespace KK

variable {σ F : Type} [Backend F] {n m : ℕ}

/-- The Rauch-Tung-Striebel pass over any beliefs, where `ss` are the models of the steps from each of them to the next: the
last one is kept, every earlier one is corrected towards the result for the next by `rts`, which is `rtsStep` (`KalmanFilter`) or
`ExtStep.rtsStep` (`ExtendedKalmanFilter`). -/
def backwards {S : Type} (rts : Belief n → S → Belief n → Belief n) : List (Belief n) → List S → List (Belief n)
  | [], _ => []
  | [b], _ => [b]
  | b :: b' :: bs, ss =>
    match ss with
    | [] => []
    | s :: ss =>
      match backwards rts (b' :: bs) ss with
      | [] => []
      | q :: qs => rts b s q :: q :: qs

/-- The beliefs `smooth` works on if `filter` returned `fs` for `len` observations: the first ones, and the last one in the last
place. -/
def used (fs : List (Belief n)) (len : ℕ) (last : Belief n) : List (Belief n) := fs.take (len - 1) ++ [last]

/-- The instance's own `filter` is this program. -/
abbrev Filters (σ F O : Type) := NDArray F → Option (NDArray F) → Py (Instance σ O) (List (Arr F) × List (Arr F))

/-- The overriding `filter` returns, raises and does to the inherited attributes what the inherited one does, and leaves an instance
satisfying `J`. -/
def Methods.KeepsFilter (flt : Filters σ F (KalmanFilter F)) (J : Instance σ (KalmanFilter F) → Prop) : Prop :=
  ∀ Z U s, J s → ((flt Z U).run s).1 = ((KalmanFilter.filter Z U).run s.base).1 ∧
    ((flt Z U).run s).2.base = ((KalmanFilter.filter Z U).run s.base).2 ∧ J ((flt Z U).run s).2

/-- The same for a subclass of `ExtendedKalmanFilter`. -/
def ExtMethods.KeepsFilter (flt : Filters σ F (ExtendedKalmanFilter F)) (J : Instance σ (ExtendedKalmanFilter F) → Prop) : Prop :=
  ∀ Z U s, J s → ((flt Z U).run s).1 = ((ExtendedKalmanFilter.filter Z U).run s.base).1 ∧
    ((flt Z U).run s).2.base = ((ExtendedKalmanFilter.filter Z U).run s.base).2 ∧ J ((flt Z U).run s).2

end KK
