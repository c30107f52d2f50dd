import Verif.Props.Build
import Verif.Spec.Pep440

/-! # PEP 440 versions are determined by their text -/

namespace KK.Version

variable [Unicode]

set_option linter.unusedSectionVars false

theorem fmtNat_inj {n m : ℕ} (h : fmtNat n = fmtNat m) : n = m := by
  have := congrArg toInt h
  rwa [toInt_fmtNat, toInt_fmtNat] at this

/-- Does not start with a digit. -/
def NoDigit (s : Str) : Prop := ∀ c, s.head? = some c → c.isDigit = false

theorem digits_split : ∀ {a b x y : Str}, (∀ c ∈ a, c.isDigit = true) → (∀ c ∈ b, c.isDigit = true) → NoDigit x → NoDigit y →
    a ++ x = b ++ y → a = b ∧ x = y
  | [], [], x, y, _, _, _, _, h => ⟨rfl, h⟩
  | [], d :: b, x, y, _, hb, hx, _, h => by
    simp only [List.nil_append] at h
    have := hx d (by rw [h]; rfl)
    rw [hb d (by simp)] at this
    cases this
  | c :: a, [], x, y, ha, _, _, hy, h => by
    simp only [List.nil_append] at h
    have := hy c (by rw [← h]; rfl)
    rw [ha c (by simp)] at this
    cases this
  | c :: a, d :: b, x, y, ha, hb, hx, hy, h => by
    simp only [List.cons_append, List.cons.injEq] at h
    obtain ⟨rfl, h⟩ := h
    obtain ⟨rfl, rfl⟩ := digits_split (fun c hc => ha c (by simp [hc])) (fun c hc => hb c (by simp [hc])) hx hy h
    exact ⟨rfl, rfl⟩

theorem nat_split {n m : ℕ} {x y : Str} (hx : NoDigit x) (hy : NoDigit y) (h : fmtNat n ++ x = fmtNat m ++ y) :
    n = m ∧ x = y := by
  obtain ⟨h1, h2⟩ := digits_split (fun c hc => fmtNat_digit hc) (fun c hc => fmtNat_digit hc) hx hy h
  exact ⟨fmtNat_inj h1, h2⟩

namespace Pep

/-- Text of the suffix for a developmental release. -/
def devText (p : Pep) : Str :=
  match p.dev with
  | none => []
  | some n => py! ".dev" ++ fmtNat n

/-- Text from the post-release on. -/
def postText (p : Pep) : Str :=
  (match p.post with
    | none => []
    | some n => py! ".post" ++ fmtNat n) ++ p.devText

/-- Text from the pre-release on. -/
def preText (p : Pep) : Str :=
  (match p.pre with
    | none => []
    | some (.a, n) => py! "a" ++ fmtNat n
    | some (.b, n) => py! "b" ++ fmtNat n
    | some (.rc, n) => py! "rc" ++ fmtNat n) ++ p.postText

theorem publicText_eq (p : Pep) : p.publicText = (if p.epoch = 0 then [] else fmtNat p.epoch ++ py! "!") ++
    (fmtNat p.major ++ (p.minor.flatMap (fun n => '.' :: fmtNat n) ++ p.preText)) := by
  obtain ⟨pe, pm, pl, pre, post, dev, pk⟩ := p
  rcases pre with _ | ⟨_ | _ | _, n⟩ <;> rcases post with _ | m <;> rcases dev with _ | k <;>
    simp [publicText, preText, postText, devText]

theorem noDigit_nil : NoDigit [] := by simp [NoDigit]

theorem noDigit_cons {c : Char} {s : Str} (h : c.isDigit = false) : NoDigit (c :: s) := by
  intro d hd
  simp at hd
  exact hd ▸ h

theorem devText_noDigit (p : Pep) : NoDigit p.devText := by
  unfold devText
  split
  · exact noDigit_nil
  · exact noDigit_cons (by decide)

theorem postText_noDigit (p : Pep) : NoDigit p.postText := by
  unfold postText
  split
  · exact devText_noDigit p
  · exact noDigit_cons (by decide)

theorem preText_noDigit (p : Pep) : NoDigit p.preText := by
  unfold preText
  split
  · exact postText_noDigit p
  all_goals exact noDigit_cons (by decide)

theorem devText_inj {p q : Pep} (h : p.devText = q.devText) : p.dev = q.dev := by
  rcases h1 : p.dev with _ | n <;> rcases h2 : q.dev with _ | m <;> simp [devText, h1, h2] at h
  · rfl
  · rw [fmtNat_inj h]

theorem postText_inj {p q : Pep} (h : p.postText = q.postText) : p.post = q.post ∧ p.dev = q.dev := by
  rcases h1 : p.post with _ | n <;> rcases h2 : q.post with _ | m <;>
    simp only [postText, h1, h2, List.cons_append, List.nil_append, List.cons.injEq, true_and] at h
  · exact ⟨rfl, devText_inj h⟩
  · unfold devText at h
    split at h <;> simp at h
  · rw [eq_comm] at h
    unfold devText at h
    split at h <;> simp at h
  · obtain ⟨h3, h4⟩ := nat_split (devText_noDigit p) (devText_noDigit q) h
    exact ⟨by rw [h3], devText_inj h4⟩

/-- A dot or nothing. -/
theorem postText_head (p : Pep) : p.postText = [] ∨ ∃ s, p.postText = '.' :: s ∧ NoDigit s := by
  unfold postText devText
  split
  · split
    · exact .inl rfl
    · exact .inr ⟨_, rfl, noDigit_cons (by decide)⟩
  · exact .inr ⟨_, rfl, noDigit_cons (by decide)⟩

theorem postText_ne (p : Pep) {c : Char} (h : c ≠ '.') (s : Str) : p.postText ≠ c :: s := by
  rcases postText_head p with h' | ⟨r, h', -⟩ <;> rw [h'] <;> simp [Ne.symm h]

theorem preText_inj {p q : Pep} (h : p.preText = q.preText) : p.pre = q.pre ∧ p.post = q.post ∧ p.dev = q.dev := by
  rcases h1 : p.pre with _ | ⟨_ | _ | _, n⟩ <;> rcases h2 : q.pre with _ | ⟨_ | _ | _, m⟩ <;>
    simp only [preText, h1, h2, List.cons_append, List.nil_append, List.cons.injEq, true_and] at h
  all_goals first
    | exact ⟨rfl, postText_inj h⟩
    | exact absurd h (postText_ne _ (by decide) _)
    | exact absurd h.symm (postText_ne _ (by decide) _)
    | exact absurd h.1 (by decide)
    | (obtain ⟨h3, h4⟩ := nat_split (postText_noDigit p) (postText_noDigit q) h
       exact ⟨by rw [h3], postText_inj h4⟩)

theorem preText_head (p : Pep) (n : ℕ) (s : Str) : p.preText ≠ '.' :: (fmtNat n ++ s) := by
  intro h
  unfold preText at h
  split at h
  · rw [List.nil_append] at h
    rcases postText_head p with h' | ⟨r, h', hr⟩ <;> rw [h'] at h <;> simp at h
    obtain ⟨c, t, hc⟩ := List.exists_cons_of_ne_nil (fmtNat_ne_nil n)
    have h1 := fmtNat_digit (n := n) (c := c) (by rw [hc]; simp)
    rw [h, hc] at hr
    rw [hr c rfl] at h1
    cases h1
  all_goals simp at h

theorem minor_noDigit (l : List ℕ) {s : Str} (hs : NoDigit s) : NoDigit (l.flatMap (fun n => '.' :: fmtNat n) ++ s) := by
  cases l with
  | nil => exact hs
  | cons n l => exact noDigit_cons (by decide)

theorem minor_inj {p q : Pep} : ∀ {l m : List ℕ},
    l.flatMap (fun n => '.' :: fmtNat n) ++ p.preText = m.flatMap (fun n => '.' :: fmtNat n) ++ q.preText →
    l = m ∧ p.preText = q.preText
  | [], [], h => ⟨rfl, h⟩
  | [], n :: m, h => by
    simp only [List.flatMap_nil, List.nil_append, List.flatMap_cons, List.cons_append, List.append_assoc] at h
    exact absurd h (preText_head _ _ _)
  | n :: l, [], h => by
    simp only [List.flatMap_nil, List.nil_append, List.flatMap_cons, List.cons_append, List.append_assoc] at h
    exact absurd h.symm (preText_head _ _ _)
  | n :: l, n' :: m, h => by
    simp only [List.flatMap_cons, List.cons_append, List.append_assoc, List.cons.injEq, true_and] at h
    obtain ⟨rfl, h2⟩ := nat_split (minor_noDigit _ (preText_noDigit p)) (minor_noDigit _ (preText_noDigit q)) h
    obtain ⟨rfl, h3⟩ := minor_inj h2
    exact ⟨rfl, h3⟩

/-- Everything but the epoch. -/
def restText (p : Pep) : Str := fmtNat p.major ++ (p.minor.flatMap (fun n => '.' :: fmtNat n) ++ p.preText)

theorem not_mem_preText {c : Char} (h : c.isDigit = false) (h' : c ∉ py! "abrc.postdev") (p : Pep) : c ∉ p.preText := by
  have hn := fun n => not_mem_fmtNat h n
  simp only [List.mem_cons, List.not_mem_nil, or_false, not_or] at h'
  obtain ⟨pe, pm, pl, pre, post, dev, pk⟩ := p
  rcases pre with _ | ⟨_ | _ | _, n⟩ <;> rcases post with _ | m <;> rcases dev with _ | k <;>
    simp [preText, postText, devText, hn, h']

theorem not_mem_restText {c : Char} (h : c.isDigit = false) (h' : c ∉ py! "abrc.postdev") (p : Pep) : c ∉ p.restText := by
  have hn := fun n => not_mem_fmtNat h n
  have hp := not_mem_preText h h' p
  have hd : c ≠ '.' := by rintro rfl; exact h' (by decide)
  simp only [restText, List.mem_append, List.mem_flatMap, List.mem_cons, not_or, not_exists, not_and]
  exact ⟨hn _, fun n _ => ⟨hd, hn n⟩, hp⟩

theorem restText_inj {p q : Pep} (h : p.restText = q.restText) :
    p.major = q.major ∧ p.minor = q.minor ∧ p.pre = q.pre ∧ p.post = q.post ∧ p.dev = q.dev := by
  obtain ⟨h1, h2⟩ := nat_split (minor_noDigit _ (preText_noDigit p)) (minor_noDigit _ (preText_noDigit q)) h
  obtain ⟨h3, h4⟩ := minor_inj h2
  exact ⟨h1, h3, preText_inj h4⟩

theorem publicText_inj {p q : Pep} (h : p.publicText = q.publicText) : p.epoch = q.epoch ∧ p.restText = q.restText := by
  rw [publicText_eq, publicText_eq] at h
  change _ ++ p.restText = _ ++ q.restText at h
  have hp := not_mem_restText (c := '!') (by decide) (by decide) p
  have hq := not_mem_restText (c := '!') (by decide) (by decide) q
  split_ifs at h with h1 h2 h2
  · exact ⟨by rw [h1, h2], h⟩
  · rw [List.nil_append] at h
    exact absurd (by rw [h]; simp) hp
  · rw [List.nil_append] at h
    exact absurd (by rw [← h]; simp) hq
  · simp only [List.append_assoc, List.cons_append, List.nil_append] at h
    obtain ⟨h3, h4⟩ := nat_split (noDigit_cons (by decide)) (noDigit_cons (by decide)) h
    exact ⟨h3, by simpa using h4⟩

theorem not_mem_publicText {c : Char} (h : c.isDigit = false) (h' : c ∉ py! "!abrc.postdev") (p : Pep) : c ∉ p.publicText := by
  simp only [List.mem_cons, List.not_mem_nil, or_false, not_or] at h'
  have hr := not_mem_restText h (by simp [h']) p
  rw [publicText_eq]
  change c ∉ _ ++ p.restText
  have := not_mem_fmtNat h p.epoch
  split_ifs <;> simp [hr, this, h']

theorem seg_noDot {s : Seg} (h : SegOk s) : '.' ∉ segText s := by
  cases s with
  | num n => exact not_mem_fmtNat (by decide) n
  | word w => exact fun hm => absurd (h.1 _ hm) (by decide)

theorem segText_inj {s t : Seg} (hs : SegOk s) (ht : SegOk t) (h : segText s = segText t) : s = t := by
  cases s <;> cases t <;> simp only [segText] at h
  · rw [fmtNat_inj h]
  · obtain ⟨c, hc, hl⟩ := ht.2
    rw [← h] at hc
    have := fmtNat_digit hc
    rw [isDigit_iff] at this
    simp only [Char.isLower, Bool.and_eq_true, decide_eq_true_eq, ge_iff_le, UInt32.le_iff_toNat_le] at hl
    have e : c.toNat = c.val.toNat := rfl
    have e' : 'a'.val.toNat = 97 := rfl
    omega
  · obtain ⟨c, hc, hl⟩ := hs.2
    rw [h] at hc
    have := fmtNat_digit hc
    rw [isDigit_iff] at this
    simp only [Char.isLower, Bool.and_eq_true, decide_eq_true_eq, ge_iff_le, UInt32.le_iff_toNat_le] at hl
    have e : c.toNat = c.val.toNat := rfl
    have e' : 'a'.val.toNat = 97 := rfl
    omega
  · rw [h]

theorem splitOn_dots : ∀ {segs : List Str}, segs ≠ [] → (∀ l ∈ segs, '.' ∉ l) → splitOn '.' ((py! ".").intercalate segs) = segs
  | [], h, _ => absurd rfl h
  | [l], _, h => by simpa using splitOn_none (h l (by simp))
  | l :: l' :: ls, _, h => by
    have e : (py! ".").intercalate (l :: l' :: ls) = l ++ '.' :: (py! ".").intercalate (l' :: ls) := by
      simp [List.intercalate]
    rw [e, splitOn_join, splitOn_none (h l (by simp)), splitOn_dots (by simp) fun x hx => h x (by simp [hx])]
    rfl

theorem segs_inj {l m : List Seg} (hl : ∀ s ∈ l, SegOk s) (hm : ∀ s ∈ m, SegOk s) (h : l.map segText = m.map segText) :
    l = m := by
  induction l generalizing m with
  | nil => cases m <;> simp at h ⊢
  | cons s l ih =>
    cases m with
    | nil => simp at h
    | cons t m =>
      simp only [List.map_cons, List.cons.injEq] at h
      rw [segText_inj (hl s (by simp)) (hm t (by simp)) h.1, ih (fun s hs => hl s (by simp [hs])) (fun s hs => hm s (by simp [hs])) h.2]

/-- The text of a version determines it. -/
theorem text_inj {p q : Pep} (hp : p.Ok) (hq : q.Ok) (h : p.text = q.text) : p = q := by
  have np := not_mem_publicText (c := '+') (by decide) (by decide) p
  have nq := not_mem_publicText (c := '+') (by decide) (by decide) q
  have key : p.publicText = q.publicText ∧ p.localLabel = q.localLabel := by
    unfold text at h
    split_ifs at h with h1 h2 h2
    · exact ⟨by simpa using h, by rw [h1, h2]⟩
    · rw [List.append_nil] at h
      exact absurd (by rw [h]; simp) np
    · rw [List.append_nil] at h
      exact absurd (by rw [← h]; simp) nq
    · obtain ⟨h3, h4⟩ := split_inj np nq h
      refine ⟨h3, segs_inj hp hq ?_⟩
      have h5 := congrArg (splitOn '.') h4
      rwa [splitOn_dots (by simpa using h1) (by simpa using fun s hs => seg_noDot (hp s hs)),
        splitOn_dots (by simpa using h2) (by simpa using fun s hs => seg_noDot (hq s hs))] at h5
  obtain ⟨h1, h2⟩ := publicText_inj key.1
  obtain ⟨h3, h4, h5, h6, h7⟩ := restText_inj h2
  cases p; cases q
  simp_all

end Pep

end KK.Version
