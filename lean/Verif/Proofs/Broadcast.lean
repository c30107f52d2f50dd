import Verif.Spec.Broadcast
import Verif.Proofs.Layout
import Verif.Proofs.Shapes

/-! # Broadcasting in the model is broadcasting as documented -/

set_option linter.unusedSectionVars false
set_option linter.unusedSimpArgs false

namespace KK

theorem FitsShape.nil (t : List ℕ) : FitsShape [] t := ⟨by simp, by simp⟩

theorem FitsShape.one {a b : ℕ} : FitsShape [a] [b] ↔ a = b ∨ a = 1 := by
  constructor
  · intro h; exact h.2 0 a b (by simp) (by simp)
  · intro h
    refine ⟨by simp, fun k x y hx hy => ?_⟩
    rcases k with _ | k
    · simp at hx hy; subst hx hy; exact h
    · simp at hx

theorem FitsShape.one_two {a r c : ℕ} : FitsShape [a] [r, c] ↔ a = c ∨ a = 1 := by
  constructor
  · intro h; exact h.2 0 a c (by simp) (by simp)
  · intro h
    refine ⟨by simp, fun k x y hx hy => ?_⟩
    rcases k with _ | k
    · simp at hx hy; subst hx hy; exact h
    · simp at hx

theorem FitsShape.two {a b r c : ℕ} : FitsShape [a, b] [r, c] ↔ (a = r ∨ a = 1) ∧ (b = c ∨ b = 1) := by
  constructor
  · intro h; exact ⟨h.2 1 a r (by simp) (by simp), h.2 0 b c (by simp) (by simp)⟩
  · intro h
    refine ⟨by simp, fun k x y hx hy => ?_⟩
    rcases k with _ | _ | k
    · simp at hx hy; subst hx hy; exact h.2
    · simp at hx hy; subst hx hy; exact h.1
    · simp at hx

theorem FitsShape.two_one {a b c : ℕ} : ¬ FitsShape [a, b] [c] := by
  intro h; have := h.1; simp at this

namespace Arr

variable {F : Type}

theorem stretch_fits {α : Type} {n d : ℕ} (v : Fin n → α) (h : n = d ∨ n = 1) :
    ∃ w, stretch d v = .ok w ∧ ∀ (i : ℕ) (hi : i < d) (hj : (if n = 1 then 0 else i) < n), w ⟨i, hi⟩ = v ⟨if n = 1 then 0 else i, hj⟩ := by
  by_cases hd : n = d
  · subst hd
    refine ⟨v, stretch_self v, fun i hi hj => ?_⟩
    congr 1
    ext
    by_cases h1 : n = 1
    · simp only [h1, if_true]; omega
    · simp only [h1, if_false]
  · have h1 : n = 1 := by tauto
    subst h1
    refine ⟨fun _ => v ⟨0, by omega⟩, by simp only [stretch, hd, dite_false, dite_true], fun i hi hj => ?_⟩
    rfl

theorem IsBroadcast.toMat {r c : ℕ} {a b : Arr F} (h : a.IsBroadcast [r, c] b) :
    ∃ N : Matrix (Fin r) (Fin c) F, b = .mat a.dtype N ∧ a.toMat r c = .ok N := by
  obtain ⟨e, N, rfl⟩ := eq_mat h.shape
  have hd : e = a.dtype := h.dtype
  subst hd
  refine ⟨N, rfl, ?_⟩
  have key : ∀ (i : Fin r) (j : Fin c), a.entryAt (sourceIndex a.shape [i, j]) = some (N i j) := fun i j => h.entry _ _ (by simp [entryAt])
  rcases a with ⟨d, x⟩ | ⟨d, v⟩ | ⟨d, M⟩
  · have : N = fun _ _ => x := by
      funext i j
      have := key i j
      simp [sourceIndex, Arr.shape, entryAt] at this
      exact this.symm
    rw [this]; rfl
  · rename_i n
    have hf : n = c ∨ n = 1 := FitsShape.one_two.1 h.fits
    obtain ⟨w, hw, hv⟩ := stretch_fits v hf
    simp only [Arr.toMat, hw, Except.bind_ok']
    refine congrArg Except.ok (funext fun i => funext fun j => ?_)
    have k := key i j
    have e : sourceIndex (Arr.shape (.vec d v)) [i.1, j.1] = [if n = 1 then 0 else j.1] := by
      simp [sourceIndex, Arr.shape]
    rw [e] at k
    simp only [entryAt] at k
    obtain ⟨hlt, k⟩ := Option.dite_none_right_eq_some.1 k
    rw [← Option.some.inj k]
    exact hv _ j.2 hlt
  · rename_i m n
    obtain ⟨hr, hc⟩ := FitsShape.two.1 h.fits
    obtain ⟨M', hM, hM'⟩ := stretch_fits M hr
    obtain ⟨w, hw, hv⟩ := stretch_fits (fun j i => M' i j) hc
    simp only [Arr.toMat, hM, hw, Except.bind_ok']
    refine congrArg Except.ok (funext fun i => funext fun j => ?_)
    have k := key i j
    have e : sourceIndex (Arr.shape (.mat d M)) [i.1, j.1] = [if m = 1 then 0 else i.1, if n = 1 then 0 else j.1] := by
      simp [sourceIndex, Arr.shape]
    rw [e] at k
    simp only [entryAt] at k
    obtain ⟨hlt, k⟩ := Option.dite_none_right_eq_some.1 k
    rw [← Option.some.inj k]
    have := congrFun (hv _ j.2 hlt.2) i
    rw [this]
    exact congrFun (hM' _ i.2 hlt.1) _

theorem bdim_fits {a b : ℕ} (h : a = b ∨ a = 1) : bdim b a = .ok b := by
  rcases h with rfl | rfl <;> simp

theorem IsBroadcast.dims {r c : ℕ} {a b : Arr F} (h : a.IsBroadcast [r, c] b) :
    bdim r a.dims2.1 = .ok r ∧ bdim c a.dims2.2 = .ok c := by
  have hf := h.fits
  rcases a with ⟨d, x⟩ | ⟨d, v⟩ | ⟨d, M⟩
  · simp [dims2]
  · exact ⟨by simp [dims2], bdim_fits (FitsShape.one_two.1 hf)⟩
  · obtain ⟨h1, h2⟩ := FitsShape.two.1 hf
    exact ⟨bdim_fits h1, bdim_fits h2⟩

variable [Backend F]

theorem zipWith_mat_left' (f : F → F → F) {m n : ℕ} (d : DType) (M : Matrix (Fin m) (Fin n) F) (b : Arr F) :
    zipWith f (.mat d M) b = zipWith2 f (.mat d M) b := by
  cases b <;> rfl

/-- Adding an array to a matrix is adding the broadcast array. -/
theorem IsBroadcast.add {r c : ℕ} {a b : Arr F} (h : a.IsBroadcast [r, c] b) (d : DType) (M : Matrix (Fin r) (Fin c) F) :
    (Arr.mat d M).add a = (Arr.mat d M).add b := by
  obtain ⟨N, rfl, hN⟩ := h.toMat
  obtain ⟨h1, h2⟩ := h.dims
  simp only [Arr.add, zipWith_mat_left', zipWith2, dims2] at h1 h2 ⊢
  simp only [h1, h2, bdim_self, Except.bind_ok', hN, toMat_self]
  rfl

/-- Subtracting a vector from an array is subtracting it from the broadcast array. -/
theorem IsBroadcast.sub {m : ℕ} {a b : Arr F} (h : a.IsBroadcast [m] b) (d : DType) (y : Fin m → F) :
    a.sub (.vec d y) = b.sub (.vec d y) := by
  obtain ⟨e, w, rfl⟩ := eq_vec h.shape
  have hd : e = a.dtype := h.dtype
  subst hd
  have key : ∀ (j : Fin m), a.entryAt (sourceIndex a.shape [j]) = some (w j) := fun j => h.entry _ _ (by simp [entryAt])
  rw [sub_vv]
  rcases a with ⟨d', x⟩ | ⟨d', v⟩ | ⟨d', M⟩
  · rw [sub_sv]
    congr 2
    funext j
    have := key j
    simp [sourceIndex, Arr.shape, entryAt] at this
    rw [this]
  · rename_i n
    have hf : n = m ∨ n = 1 := FitsShape.one.1 h.fits
    obtain ⟨w', hw, hv⟩ := stretch_fits v hf
    have hb : bdim n m = .ok m := by rcases hf with rfl | rfl <;> simp
    simp only [Arr.sub, zipWith, hb, hw, stretch_self, Except.bind_ok', Arr.dtype]
    congr 2
    funext j
    have k := key j
    have e : sourceIndex (Arr.shape (.vec d' v)) [j.1] = [if n = 1 then 0 else j.1] := by
      simp [sourceIndex, Arr.shape]
    rw [e] at k
    simp only [entryAt] at k
    obtain ⟨hlt, k⟩ := Option.dite_none_right_eq_some.1 k
    rw [← Option.some.inj k]
    congr 1
    exact hv _ j.2 hlt
  · exact absurd h.fits FitsShape.two_one

/-- Subtracting a scalar from an array that fits `(1,)`. -/
theorem IsBroadcast.sub_scalar {a b : Arr F} (h : a.IsBroadcast [1] b) (d : DType) (y : F) :
    (∃ r, a.sub (.scalar d y) = .ok r ∧ ∃ r', b.sub (.scalar d y) = .ok r' ∧ r.atleast1d = r'.atleast1d) := by
  obtain ⟨e, w, rfl⟩ := eq_vec h.shape
  have hd : e = a.dtype := h.dtype
  subst hd
  have key := h.entry [0] (w 0) (by simp [entryAt])
  rcases a with ⟨d', x⟩ | ⟨d', v⟩ | ⟨d', M⟩
  · simp [sourceIndex, Arr.shape, entryAt] at key
    refine ⟨_, sub_ss _ _ _ _, _, sub_vs _ _ _ _, ?_⟩
    simp only [atleast1d, Arr.dtype]
    congr 1
    funext j
    rw [key, Subsingleton.elim j 0]
  · rename_i n
    have hf : n = 1 := by have := FitsShape.one.1 h.fits; tauto
    subst hf
    refine ⟨_, sub_vs _ _ _ _, _, sub_vs _ _ _ _, ?_⟩
    simp only [atleast1d, Arr.dtype]
    congr 1
    funext j
    simp [sourceIndex, Arr.shape, entryAt] at key
    rw [Subsingleton.elim j 0, ← key]
  · exact absurd h.fits FitsShape.two_one

end Arr

end KK
