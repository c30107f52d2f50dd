import Verif.Proofs.Iterators
import Verif.Proofs.Back

/-! # Proofs about parameters given as iterators: `smooth` and the extended filter -/

set_option linter.unusedSectionVars false
set_option linter.unusedSimpArgs false

namespace KK

variable {F : Type} [Backend F]

open Param

namespace IterFilter

theorem smoothLoop_arrays (A Q B U : NDArray F) (s : ℕ) (xe Pe : List (Arr F)) (ks : List ℕ) (xs Ps : List (Arr F)) :
    smoothLoop (.array A) (.array Q) (.array B) (.array U) s xe Pe ks xs Ps = KalmanFilter.smoothLoop A Q B U s xe Pe ks xs Ps := by
  induction ks generalizing xs Ps with
  | nil => rfl
  | cons k ks ih => simp only [smoothLoop, KalmanFilter.smoothLoop, Param.item, ih]

/-- `smooth` after its call of `filter`. -/
theorem smooth_run (items : Items F) (Z : Param F) (U : Option (Param F)) (w : Reading (IterFilter F)) :
    (smooth items Z U).run w =
      match (filter items Z U).run w with
      | (.error e, w') => (.error e, w')
      | (.ok (xe, Pe), w') => ((do
          let n ← Z.len
          let xLast ← (if n = 0 then .error .indexError else getRow xe (n - 1))
          let PLast ← (if n = 0 then .error .indexError else getRow Pe (n - 1))
          let xrow ← xLast.assignVec w'.obj.stateSize
          let Prow ← PLast.assignMat w'.obj.stateSize
          smoothLoop w'.obj.A w'.obj.Q w'.obj.B (Param.orNan U Z) w'.obj.stateSize xe Pe (List.range (n - 1)).reverse
            ((List.replicate n (Arr.zerosVec w'.obj.stateSize)).set (n - 1) xrow)
            ((List.replicate n (Arr.zerosMat w'.obj.stateSize)).set (n - 1) Prow)), w') := by
  simp only [smooth, Py.run_bind]
  rcases (filter items Z U).run w with ⟨e | ⟨xe, Pe⟩, w'⟩
  · rfl
  simp only [Py.run_self, Py.run_lift]
  rcases Z.len with e | n
  · rfl
  simp only [Except.bind_ok']
  rcases (if n = 0 then Except.error PyErr.indexError else getRow xe (n - 1)) with e | a
  · rfl
  simp only [Except.bind_ok']
  rcases (if n = 0 then Except.error PyErr.indexError else getRow Pe (n - 1)) with e | b
  · rfl
  simp only [Except.bind_ok']
  rcases a.assignVec w'.obj.stateSize with e | c
  · rfl
  simp only [Except.bind_ok']
  rcases b.assignMat w'.obj.stateSize with e | d
  · rfl
  rfl

end IterFilter

/-- `KalmanFilter.smooth` after its call of `filter`. -/
theorem KalmanFilter.smooth_run (Z : NDArray F) (U : Option (NDArray F)) (kf : KalmanFilter F) :
    (KalmanFilter.smooth Z U).run kf =
      match (KalmanFilter.filter Z U).run kf with
      | (.error e, w') => (.error e, w')
      | (.ok (xe, Pe), w') => ((do
          let n ← Z.len
          let xLast ← (if n = 0 then .error .indexError else getRow xe (n - 1))
          let PLast ← (if n = 0 then .error .indexError else getRow Pe (n - 1))
          let xrow ← xLast.assignVec w'.stateSize
          let Prow ← PLast.assignMat w'.stateSize
          KalmanFilter.smoothLoop w'.A w'.Q w'.B (checkNoneAndBroadcast U Z) w'.stateSize xe Pe (List.range (n - 1)).reverse
            ((List.replicate n (Arr.zerosVec w'.stateSize)).set (n - 1) xrow)
            ((List.replicate n (Arr.zerosMat w'.stateSize)).set (n - 1) Prow)), w') := by
  simp only [KalmanFilter.smooth, Py.run_bind]
  rcases (KalmanFilter.filter Z U).run kf with ⟨e | ⟨xe, Pe⟩, w'⟩
  · rfl
  simp only [Py.run_self, Py.run_lift]
  rcases Z.len with e | n
  · rfl
  simp only [Except.bind_ok']
  rcases (if n = 0 then Except.error PyErr.indexError else getRow xe (n - 1)) with e | a
  · rfl
  simp only [Except.bind_ok']
  rcases (if n = 0 then Except.error PyErr.indexError else getRow Pe (n - 1)) with e | b
  · rfl
  simp only [Except.bind_ok']
  rcases a.assignVec w'.stateSize with e | c
  · rfl
  simp only [Except.bind_ok']
  rcases b.assignMat w'.stateSize with e | d
  · rfl
  rfl

namespace IterFilter

/-- Arrays for `A`, `Q`, `B` and the controls, anything for `H` and `R`: `smooth` as a call on arrays. -/
theorem smooth_is (items : Items F) (Z : NDArray F) (U : Option (NDArray F)) (w : Reading (IterFilter F)) (kf : KalmanFilter F)
    (hkf : kf.stateSize = w.obj.stateSize) (hA : w.obj.A = .array kf.A) (hQ : w.obj.Q = .array kf.Q) (hB : w.obj.B = .array kf.B)
    (h1 : ((filter items (.array Z) (U.map .array)).run w).1 = ((KalmanFilter.filter Z U).run kf).1) (g' : List (Arr F))
    (h2 : ((filter items (.array Z) (U.map .array)).run w).2.obj = { w.obj with kalmanGains := g' }) :
    ((smooth items (.array Z) (U.map .array)).run w).1 = ((KalmanFilter.smooth Z U).run kf).1 ∧
      ((smooth items (.array Z) (U.map .array)).run w).2 = ((filter items (.array Z) (U.map .array)).run w).2 := by
  rw [smooth_run, KalmanFilter.smooth_run]
  obtain ⟨g, hg⟩ := KalmanFilter.filter_state Z U kf
  rcases hf : (KalmanFilter.filter Z U).run kf with ⟨r, kf'⟩
  rcases hi : (filter items (.array Z) (U.map .array)).run w with ⟨r', w'⟩
  rw [hf] at h1 hg
  rw [hi] at h1 h2
  simp only at h1 h2 hg
  subst h1
  rcases r' with e | ⟨xe, Pe⟩
  · exact ⟨rfl, rfl⟩
  simp only [and_true]
  have hV : Param.orNan (U.map .array) (.array Z) = .array (checkNoneAndBroadcast U Z) := by cases U <;> rfl
  rw [hV, h2, hg]
  simp only [hA, hQ, hB, smoothLoop_arrays, KalmanFilter.addGains, hkf]
  rfl

/-- One of `A`, `Q`, `B` or the controls is an iterator and there are two or more observations: `smooth` does not return. -/
theorem smooth_iterator (items : Items F) (Z : NDArray F) (U : Option (Param F)) (w : Reading (IterFilter F))
    (kf : KalmanFilter F) (W : Option (NDArray F)) (hkf : kf.stateSize = w.obj.stateSize)
    (h1 : ((filter items (.array Z) U).run w).1 = ((KalmanFilter.filter Z W).run kf).1) (g : List (Arr F))
    (h2 : ((filter items (.array Z) U).run w).2.obj = { w.obj with kalmanGains := g }) (hn : 2 ≤ Z.rows.length)
    (h : ¬ w.obj.A.IsArray ∨ ¬ w.obj.Q.IsArray ∨ ¬ w.obj.B.IsArray ∨ ∃ V, U = some V ∧ ¬ V.IsArray) :
    ((smooth items (.array Z) U).run w).2 = ((filter items (.array Z) U).run w).2 ∧
    ∃ e, ((smooth items (.array Z) U).run w).1 = .error e ∧
      (((filter items (.array Z) U).run w).1 = .error e ∨
        (∃ o, ((filter items (.array Z) U).run w).1 = .ok o) ∧
          (e = .typeError ∨ e = .indexError ∧ ∃ a : NDArray F, (w.obj.A = .array a ∨ w.obj.Q = .array a ∨ w.obj.B = .array a) ∧
            a.rows.length < Z.rows.length)) := by
  rw [smooth_run]
  rcases hf : (KalmanFilter.filter Z W).run kf with ⟨r, kf'⟩
  rcases hi : (filter items (.array Z) U).run w with ⟨r', w'⟩
  rw [hf] at h1
  rw [hi] at h1 h2
  simp only at h1 h2
  subst h1
  rcases r' with e | ⟨xe, Pe⟩
  · exact ⟨rfl, e, rfl, .inl rfl⟩
  obtain ⟨n, hlen, hx, hP, hxs, hPs⟩ := KalmanFilter.filter_rowsOk hf
  refine ⟨rfl, ?_⟩
  have hZ : Z.rows.length = n := by
    rcases Z with ⟨d, x⟩ | z
    · cases hlen
    · exact Except.ok.inj hlen
  rw [show (Param.array Z : Param F).len = .ok n from hlen]
  obtain ⟨m, rfl⟩ : ∃ m, n = m + 2 := ⟨n - 2, by omega⟩
  have hlx : m + 2 - 1 < xe.length := by omega
  have hlP : m + 2 - 1 < Pe.length := by omega
  have e1 := hxs _ (List.getElem_mem hlx)
  have e2 := hPs _ (List.getElem_mem hlP)
  have hsz : w'.obj.stateSize = kf.stateSize := by rw [h2, hkf]
  simp only [Except.bind_ok', show m + 2 ≠ 0 by omega, if_false, getRow_some (List.getElem?_eq_getElem hlx),
    getRow_some (List.getElem?_eq_getElem hlP)]
  rw [hsz, assignVec_self e1.1 e1.2, assignMat_self e2.1 e2.2]
  simp only [Except.bind_ok']
  have hrev : (List.range (m + 2 - 1)).reverse = m :: (List.range m).reverse := by
    rw [show m + 2 - 1 = m + 1 by omega, List.range_succ, List.reverse_append]; rfl
  rw [hrev]
  simp only [smoothLoop, h2]
  have item_cases : ∀ a : NDArray F, (∃ x, a.item (m + 1) = .ok x) ∨ a.item (m + 1) = .error .indexError ∧ a.rows.length < Z.rows.length := by
    intro a
    rcases a with ⟨d, x⟩ | rows
    · exact .inr ⟨rfl, by rw [hZ]; simp [NDArray.rows]⟩
    · by_cases hr : m + 1 < rows.length
      · exact .inl ⟨rows[m + 1], by simp [NDArray.item, List.getElem?_eq_getElem hr]⟩
      · exact .inr ⟨by simp [NDArray.item, List.getElem?_eq_none (Nat.le_of_not_lt hr)], by rw [hZ]; simp only [NDArray.rows_stack]; omega⟩
  rcases hA : w.obj.A with a | i
  swap
  · exact ⟨_, rfl, .inr ⟨⟨_, rfl⟩, .inl rfl⟩⟩
  simp only [Param.item]
  rcases item_cases a with ⟨x, hx'⟩ | ⟨hx', hl⟩
  swap
  · exact ⟨_, by rw [hx']; rfl, .inr ⟨⟨_, rfl⟩, .inr ⟨rfl, a, .inl rfl, hl⟩⟩⟩
  rw [hx', Except.bind_ok']
  rcases hQ : w.obj.Q with q | i
  swap
  · exact ⟨_, rfl, .inr ⟨⟨_, rfl⟩, .inl rfl⟩⟩
  simp only [Param.item]
  rcases item_cases q with ⟨x, hx'⟩ | ⟨hx', hl⟩
  swap
  · exact ⟨_, by rw [hx']; rfl, .inr ⟨⟨_, rfl⟩, .inr ⟨rfl, q, .inr (.inl rfl), hl⟩⟩⟩
  rw [hx', Except.bind_ok']
  rcases hB : w.obj.B with b | i
  swap
  · exact ⟨_, rfl, .inr ⟨⟨_, rfl⟩, .inl rfl⟩⟩
  simp only [Param.item]
  rcases item_cases b with ⟨x, hx'⟩ | ⟨hx', hl⟩
  swap
  · exact ⟨_, by rw [hx']; rfl, .inr ⟨⟨_, rfl⟩, .inr ⟨rfl, b, .inr (.inr rfl), hl⟩⟩⟩
  rw [hx', Except.bind_ok']
  rw [hA, hQ, hB] at h
  simp only [IsArray, not_true, false_or] at h
  obtain ⟨V, rfl, hV⟩ := h
  rcases V with v | i
  · exact absurd trivial hV
  · exact ⟨_, rfl, .inr ⟨⟨_, rfl⟩, .inl rfl⟩⟩

end IterFilter
end KK
