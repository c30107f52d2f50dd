import Verif.Proofs.Subclass
import Verif.Props.ByHand

/-! # The subclass that skips missing measurements, and the loop written by hand -/

set_option linter.unusedSectionVars false
set_option linter.unusedSimpArgs false

namespace KK

open Matrix

variable {σ F : Type} [Backend F]

/-- The rows written for `out`. -/
def Rows (n : ℕ) (out rows : List (Arr F × Arr F)) : Prop :=
  List.Forall₂ (fun o row => o.1.assignVec n = .ok row.1 ∧ o.2.assignMat n = .ok row.2) out rows

/-- The outcome `p` of the loop of `filter`, from the outcome `h` of the loop written by hand. -/
def LoopIs {O : Type} (n j l : ℕ) (o : σ) (states errors : List (Arr F)) (h : Except PyErr (List (Arr F × Arr F)) × O)
    (p : Except PyErr (List (Arr F) × List (Arr F)) × Instance σ O) : Prop :=
  (∀ e, h.1 = .error e → p = (.error e, ⟨h.2, o⟩)) ∧
  ∀ out, h.1 = .ok out → ∃ rows, Rows n out rows ∧ rows.length = l ∧
    p = (.ok (overwrite j (rows.map Prod.fst) states, overwrite j (rows.map Prod.snd) errors), ⟨h.2, o⟩)

theorem LoopIs.cons {O : Type} {n j l : ℕ} {o : σ} {states errors : List (Arr F)} {hand : Py O (List (Arr F × Arr F))} {t : O}
    {p : Except PyErr (List (Arr F) × List (Arr F)) × Instance σ O} {post row : Arr F × Arr F}
    (h1 : post.1.assignVec n = .ok row.1) (h2 : post.2.assignMat n = .ok row.2)
    (hl : LoopIs n (j + 1) l o (states.set j row.1) (errors.set j row.2) (hand.run t) p) :
    LoopIs n j (l + 1) o states errors ((hand >>= fun rest => Py.pure (post :: rest)).run t) p := by
  obtain ⟨a, b⟩ := hl
  rw [Py.run_bind]
  rcases h : hand.run t with ⟨_ | out, t⟩ <;> rw [h] at a b
  · exact ⟨fun e he => a e he, fun out he => by simp at he⟩
  · refine ⟨fun e he => by simp at he, fun out' he => ?_⟩
    simp only [Py.run_pure', Except.ok.injEq] at he
    subst he
    obtain ⟨rows, h3, h4, h5⟩ := b out rfl
    exact ⟨row :: rows, .cons ⟨h1, h2⟩ h3, by simp [h4], by simpa [overwrite] using h5⟩

section
variable (missing : Arr F → Bool)

theorem Methods.skip_predict (Ak xk : Arr F) (Bk uk : Option (Arr F)) (Pk Qk : Arr F) (s : Instance σ (KalmanFilter F)) :
    ((Methods.skipping missing).predict Ak xk Bk uk Pk Qk).run s = (KalmanFilter.predict Ak xk Bk uk Pk Qk, s) := rfl

theorem Methods.skip_missing {zk : Arr F} (h : missing zk = true) (Hk xk Pk Rk : Arr F) (s : Instance σ (KalmanFilter F)) :
    ((Methods.skipping missing).update Hk xk Pk zk Rk).run s = (.ok (xk, Pk), s) := by
  simp [Methods.skipping, h]

theorem Methods.skip_seen {zk : Arr F} (h : missing zk = false) (Hk xk Pk Rk : Arr F) (s : Instance σ (KalmanFilter F)) :
    ((Methods.skipping missing).update Hk xk Pk zk Rk).run s =
      (((KalmanFilter.update Hk xk Pk zk Rk).run s.base).1, ⟨((KalmanFilter.update Hk xk Pk zk Rk).run s.base).2, s.own⟩) := by
  simp [Methods.skipping, h, Methods.plain, Instance.inherited]

theorem ExtMethods.skip_predict (xk : Arr F) (uk : Option (Arr F)) (Pk Qk : Arr F) (s : Instance σ (ExtendedKalmanFilter F)) :
    ((ExtMethods.skipping missing).predict xk uk Pk Qk).run s = (s.base.predict xk uk Pk Qk, s) := rfl

theorem ExtMethods.skip_missing {zk : Arr F} (h : missing zk = true) (xk Pk Rk : Arr F) (s : Instance σ (ExtendedKalmanFilter F)) :
    ((ExtMethods.skipping missing).update xk Pk zk Rk).run s = (.ok (xk, Pk), s) := by
  simp [ExtMethods.skipping, h]

theorem ExtMethods.skip_seen {zk : Arr F} (h : missing zk = false) (xk Pk Rk : Arr F) (s : Instance σ (ExtendedKalmanFilter F)) :
    ((ExtMethods.skipping missing).update xk Pk zk Rk).run s =
      (((ExtendedKalmanFilter.update xk Pk zk Rk).run s.base).1, ⟨((ExtendedKalmanFilter.update xk Pk zk Rk).run s.base).2, s.own⟩) := by
  simp [ExtMethods.skipping, h, ExtMethods.plain, Instance.inherited]

end

namespace KalmanFilter

theorem skip_loop {n m : ℕ} (missing : Arr F → Bool) (o : σ) (Z : NDArray F) (U : Option (NDArray F)) (l : ℕ) :
    ∀ (j : ℕ) (kf : KalmanFilter F) (x P : Arr F) (states errors : List (Arr F)), j + l = (kf.zrows Z U).length →
      Layout n m kf Z U → Shaped n x P →
      LoopIs n j l o states errors ((byHand Z (effU U Z) (seenBy missing Z) (List.range' j l) x P).run kf)
        (((Methods.skipping missing).filterLoop n j ((kf.zrows Z U).drop j) x P states errors).run ⟨kf, o⟩) := by
  induction l with
  | zero =>
    intro j kf x P states errors hj _ _
    rw [List.drop_of_length_le (by omega)]
    refine ⟨fun e he => by simp [byHand] at he, fun out he => ⟨[], ?_, rfl, rfl⟩⟩
    simp only [List.range'_zero, byHand, Py.run_pure', Except.ok.injEq] at he
    subst he
    exact .nil
  | succ l ih =>
    intro j kf x P states errors hj hl hs
    have hlt : j < (kf.zrows Z U).length := by omega
    rw [List.drop_eq_getElem_cons hlt]
    obtain ⟨r, hr⟩ : ∃ r, r = (kf.zrows Z U)[j] := ⟨_, rfl⟩
    have hmem : r ∈ kf.zrows Z U := hr ▸ List.getElem_mem hlt
    rw [← hr]
    have hk : (kf.zrows Z U)[j]? = some r := by rw [List.getElem?_eq_getElem hlt, hr]
    have hlay := mem_zrows hl r hmem
    obtain ⟨Ak, Hk, Bk, uk, zk, Qk, Rk⟩ := r
    simp only [zrows, List.getElem?_zip_eq_some] at hk
    obtain ⟨h1, h2, h3, h4, h5, h6, h7⟩ := hk
    obtain ⟨d, xp, e, Pp, hp⟩ := predict_layout hlay hs.1 hs.2
    simp only at hp
    have hseen : seenBy missing Z j = !missing zk := by simp [seenBy, h5]
    simp only [List.range'_succ, byHand, Py.run_bind, Py.run_self, Py.run_lift, item_eq h1, item_eq h2, item_eq h3,
      item_eq h4, item_eq h5, item_eq h6, item_eq h7, hseen, Methods.filterLoop, Methods.skip_predict, hp, Py.run_pure']
    rcases hm : missing zk with _ | _
    · simp only [Bool.not_false, Methods.skip_seen missing hm]
      simp only [update, Py.run_bind, Py.run_lift]
      rcases gain_layout (P := .mat e Pp) hlay.H rfl hlay.R with hg | ⟨K, hg⟩
      · simp only at hg
        simp only [hg]
        exact ⟨fun e he => by simpa using he, fun out he => by simp at he⟩
      · obtain ⟨x', P', hc⟩ := correct_layout (x := .vec d xp) (P := .mat e Pp) hlay.H rfl rfl hlay.z K
        simp only at hg hc
        rw [← hl.ident] at hc
        simp only [hg, Py.run_mutate, Py.run_self, Py.run_lift, hc, Arr.assignVec_vec, Arr.assignMat_mat]
        exact LoopIs.cons (states := states) (errors := errors) (post := (.vec .float64 x', .mat .float64 P')) (row := (.vec .float64 x', .mat .float64 P'))
          (Arr.assignVec_vec _ _) (Arr.assignMat_mat _ _)
          (ih (j + 1) { kf with kalmanGains := kf.kalmanGains ++ [.mat .float64 K] } (.vec .float64 x') (.mat .float64 P') _ _
            (by rw [show zrows { kf with kalmanGains := kf.kalmanGains ++ [.mat .float64 K] } Z U = kf.zrows Z U from rfl]; omega)
            ⟨hl.x, hl.P, hl.size, hl.ident, hl.rows⟩ ⟨rfl, rfl⟩)
    · simp only [Bool.not_true, Py.run_bind (Py.pure _), Py.run_pure', Methods.skip_missing missing hm, Arr.assignVec_vec, Arr.assignMat_mat]
      exact LoopIs.cons (states := states) (errors := errors) (post := (.vec d xp, .mat e Pp)) (row := (.vec .float64 xp, .mat .float64 Pp))
          (Arr.assignVec_vec _ _) (Arr.assignMat_mat _ _)
          (ih (j + 1) kf (.vec d xp) (.mat e Pp) _ _ (by omega) hl ⟨rfl, rfl⟩)

end KalmanFilter

namespace ExtendedKalmanFilter
open KalmanFilter (Shaped)

theorem skip_loop {n m : ℕ} (missing : Arr F → Bool) (o : σ) (Z : NDArray F) (U : Option (NDArray F)) (l : ℕ) :
    ∀ (j : ℕ) (kf : ExtendedKalmanFilter F) (x P : Arr F) (states errors : List (Arr F)), j + l = (kf.zrows Z U).length →
      ExtLayout n m kf Z U → Shaped n x P →
      LoopIs n j l o states errors ((byHand Z (effU U Z) (seenBy missing Z) (List.range' j l) x P).run kf)
        (((ExtMethods.skipping missing).filterLoop n j ((kf.zrows Z U).drop j) x P states errors).run ⟨kf, o⟩) := by
  induction l with
  | zero =>
    intro j kf x P states errors hj _ _
    rw [List.drop_of_length_le (by omega)]
    refine ⟨fun e he => by simp [byHand] at he, fun out he => ⟨[], ?_, rfl, rfl⟩⟩
    simp only [List.range'_zero, byHand, Py.run_pure', Except.ok.injEq] at he
    subst he
    exact .nil
  | succ l ih =>
    intro j kf x P states errors hj hl hs
    have hlt : j < (kf.zrows Z U).length := by omega
    rw [List.drop_eq_getElem_cons hlt]
    obtain ⟨r, hr⟩ : ∃ r, r = (kf.zrows Z U)[j] := ⟨_, rfl⟩
    have hmem : r ∈ kf.zrows Z U := hr ▸ List.getElem_mem hlt
    rw [← hr]
    have hk : (kf.zrows Z U)[j]? = some r := by rw [List.getElem?_eq_getElem hlt, hr]
    obtain ⟨hz, hQ, hR⟩ := mem_zrows hl r hmem
    obtain ⟨uk, zk, Qk, Rk⟩ := r
    simp only [zrows, List.getElem?_zip_eq_some] at hk
    obtain ⟨h4, h5, h6, h7⟩ := hk
    simp only at hz hQ hR
    have hseen : seenBy missing Z j = !missing zk := by simp [seenBy, h5]
    simp only [List.range'_succ, byHand, Py.run_bind, Py.run_self, Py.run_lift,
      item_eq h4, item_eq h5, item_eq h6, item_eq h7, hseen, ExtMethods.filterLoop, ExtMethods.skip_predict, Py.run_pure']
    rcases hp : predict kf x (some uk) P Qk with e | ⟨xp, Pp⟩
    · exact ⟨fun e he => by simpa using he, fun out he => by simp at he⟩
    obtain ⟨hxp, hPp⟩ := predict_shape hl hs hQ hp
    rcases hm : missing zk with _ | _
    · simp only [Bool.not_false, ExtMethods.skip_seen missing hm]
      simp only [update, Py.run_bind, Py.run_lift, Py.run_self]
      rcases hH : kf.jacobianH xp with e | Hk
      · exact ⟨fun e he => by simpa using he, fun out he => by simp at he⟩
      dsimp only
      rcases hg : gain Hk Pp Rk with e | K
      · exact ⟨fun e he => by simpa using he, fun out he => by simp at he⟩
      simp only [Py.run_mutate, Py.run_lift]
      rcases hc : correct kf K Hk xp Pp zk with e | ⟨x', P'⟩
      · exact ⟨fun e he => by simpa using he, fun out he => by simp at he⟩
      obtain ⟨ha, hb, hx', hP'⟩ := correct_assign hl hxp hPp hz hR hH hg hc
      simp only [ha, hb]
      exact LoopIs.cons (states := states) (errors := errors) (post := (x', P')) (row := (x', P')) ha hb
        (ih (j + 1) { kf with kalmanGains := kf.kalmanGains ++ [K] } x' P' _ _
          (by rw [show zrows { kf with kalmanGains := kf.kalmanGains ++ [K] } Z U = kf.zrows Z U from rfl]; omega)
          ⟨hl.x, hl.P, hl.size, hl.ident, hl.f, hl.jA, hl.h, hl.jH, hl.z, hl.Q, hl.R⟩ ⟨hx', hP'⟩)
    · obtain ⟨d, xp, rfl⟩ := Arr.eq_vec hxp
      obtain ⟨e, Pp, rfl⟩ := Arr.eq_mat hPp
      simp only [Bool.not_true, Py.run_bind (Py.pure _), Py.run_pure', ExtMethods.skip_missing missing hm, Arr.assignVec_vec, Arr.assignMat_mat]
      exact LoopIs.cons (states := states) (errors := errors) (post := (.vec d xp, .mat e Pp)) (row := (.vec .float64 xp, .mat .float64 Pp))
          (Arr.assignVec_vec _ _) (Arr.assignMat_mat _ _)
          (ih (j + 1) kf (.vec d xp) (.mat e Pp) _ _ (by omega) hl ⟨rfl, rfl⟩)

end ExtendedKalmanFilter

end KK
