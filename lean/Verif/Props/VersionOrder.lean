import Verif.Proofs.Pep440
import Verif.Props.VersionArchive

/-!
# C105-C107: versions are ordered like the history; the other styles; the branch
-/

namespace KK.Version

variable [Unicode]

set_option linter.unusedSectionVars false

namespace Pep

/-! ### sanity of the specification -/

theorem older_irrefl (p : Pep) : ¬ p.Older p := by
  rintro (h | ⟨-, h⟩) <;> exact lt_irrefl _ h

theorem older_trans {p q r : Pep} (h : p.Older q) (h' : q.Older r) : p.Older r := by
  rcases h with h | ⟨h1, h2⟩ <;> rcases h' with h' | ⟨h3, h4⟩
  · exact .inl (h.trans h')
  · exact .inl (h3 ▸ h)
  · exact .inl (h1 ▸ h')
  · exact .inr ⟨h1.trans h3, h2.trans h4⟩

theorem release_dots (p : Str) (hp : Release p) : ∀ l : List ℕ, Release (p ++ l.flatMap fun n => '.' :: fmtNat n)
  | [] => by simpa using hp
  | n :: l => by
    have := release_dots (p ++ '.' :: fmtNat n) (.dot hp (isNum_fmtNat n)) l
    simpa using this

theorem public_ok (p : Pep) : PublicVersion p.publicText := by
  refine ⟨_, _, _, _, _, rfl, ?_, release_dots _ (.one (isNum_fmtNat _)) _, ?_, ?_, ?_⟩
  · split_ifs
    · exact .inl rfl
    · exact .inr ⟨_, isNum_fmtNat _, rfl⟩
  · obtain ⟨pe, pm, pl, pre, post, dev, pk⟩ := p
    rcases pre with _ | ⟨_ | _ | _, n⟩
    · exact .inl rfl
    · exact .inr ⟨_, isNum_fmtNat n, .inl rfl⟩
    · exact .inr ⟨_, isNum_fmtNat n, .inr (.inl rfl)⟩
    · exact .inr ⟨_, isNum_fmtNat n, .inr (.inr rfl)⟩
  · obtain ⟨pe, pm, pl, pre, post, dev, pk⟩ := p
    rcases post with _ | n
    · exact .inl rfl
    · exact .inr ⟨_, isNum_fmtNat n, rfl⟩
  · obtain ⟨pe, pm, pl, pre, post, dev, pk⟩ := p
    rcases dev with _ | n
    · exact .inl rfl
    · exact .inr ⟨_, isNum_fmtNat n, rfl⟩

theorem seg_ok {s : Seg} (h : SegOk s) : segText s ≠ [] ∧ ∀ c ∈ segText s, c.isAlphanum = true := by
  cases s with
  | num n => exact ⟨fmtNat_ne_nil n, fun c hc => digit_alphanum (fmtNat_digit hc)⟩
  | word w =>
    obtain ⟨h1, c, hc, -⟩ := h
    refine ⟨List.ne_nil_of_mem hc, fun c hc => ?_⟩
    rcases h1 c hc with h | h
    · exact digit_alphanum h
    · simp [Char.isAlphanum, Char.isAlpha, h]

theorem local_ok : ∀ {l : List Seg} {s : Str}, LocalVersion s → (∀ t ∈ l, SegOk t) →
    LocalVersion (s ++ l.flatMap fun t => '.' :: segText t)
  | [], s, hs, _ => by simpa using hs
  | t :: l, s, hs, h => by
    have ht := seg_ok (h t (by simp))
    have := local_ok (l := l) (.dot hs ht.1 ht.2) fun t ht => h t (by simp [ht])
    simpa using this

theorem intercalate_eq (t : Seg) (l : List Seg) :
    (py! ".").intercalate ((t :: l).map segText) = segText t ++ l.flatMap fun t => '.' :: segText t := by
  induction l generalizing t with
  | nil => simp
  | cons u l ih =>
    have e : (py! ".").intercalate ((t :: u :: l).map segText) = segText t ++ '.' :: (py! ".").intercalate ((u :: l).map segText) := by
      simp [List.intercalate]
    rw [e, ih]
    simp

/-- The text is a PEP 440 version. -/
theorem text_isVersion {p : Pep} (h : p.Ok) : IsVersion p.text := by
  unfold text
  rcases hl : p.localLabel with _ | ⟨t, l⟩
  · rw [if_pos rfl, List.append_nil]
    exact .inl (public_ok p)
  · rw [if_neg (by simp), intercalate_eq]
    have ht : ∀ u ∈ t :: l, SegOk u := fun u hu => h u (by rw [hl]; exact hu)
    exact .inr ⟨_, _, public_ok p, local_ok (.one (seg_ok (ht t (by simp))).1 (seg_ok (ht t (by simp))).2)
      fun u hu => ht u (by simp [hu]), rfl⟩

theorem text_plus {p : Pep} (hp : p.Ok) : '+' ∈ p.text ↔ p.localLabel ≠ [] := by
  unfold text
  have np := not_mem_publicText (c := '+') (by decide) (by decide) p
  split_ifs with h <;> simp [np, h]

/-- Append segments to the local label. -/
def label (p : Pep) (l : List Seg) : Pep := { p with localLabel := p.localLabel ++ l }

theorem label_text {p : Pep} (hp : p.Ok) (t : Seg) (l : List Seg) :
    (p.label (t :: l)).text = p.text ++ (if '+' ∈ p.text then py! "." else py! "+") ++
      (segText t ++ l.flatMap fun t => '.' :: segText t) := by
  have hk := text_plus hp
  rcases hl : p.localLabel with _ | ⟨u, m⟩
  · rw [if_neg (by rw [hk]; simp [hl])]
    have e1 : p.text = p.publicText := by simp [text, hl]
    have e2 : (p.label (t :: l)).text = p.publicText ++ '+' :: (py! ".").intercalate ((t :: l).map segText) := by
      simp [text, label, hl, publicText]
    rw [e1, e2, intercalate_eq]
    simp
  · rw [if_pos (by rw [hk]; simp [hl])]
    have e1 : p.text = p.publicText ++ '+' :: (py! ".").intercalate ((u :: m).map segText) := by simp [text, hl]
    have e2 : (p.label (t :: l)).text = p.publicText ++ '+' :: (py! ".").intercalate ((u :: (m ++ t :: l)).map segText) := by
      simp [text, label, hl, publicText]
    rw [e1, e2, intercalate_eq, intercalate_eq]
    simp

end Pep

open Pep

/-- The segments of a build. -/
def buildSegs (num : ℕ) (hash : Str) (dirty : Bool) : List Seg :=
  .num num :: .word ('g' :: hash) :: if dirty then [.word (py! "dirty")] else []

theorem hash_seg {hash : Str} (h : IsHash hash) : SegOk (.word ('g' :: hash)) := by
  refine ⟨fun c hc => ?_, 'g', by simp, by decide⟩
  rcases List.mem_cons.1 hc with rfl | hc
  · exact .inr (by decide)
  · rcases h.2 c hc with h | h
    · exact .inl ((isDigit_iff c).2 h)
    · refine .inr ?_
      simp only [Char.isLower, Bool.and_eq_true, decide_eq_true_eq, ge_iff_le, UInt32.le_iff_toNat_le]
      have e : c.toNat = c.val.toNat := rfl
      have e1 : 'a'.val.toNat = 97 := rfl
      have e2 : 'z'.val.toNat = 122 := rfl
      omega

theorem dirty_seg : SegOk (.word (py! "dirty")) := by
  simp only [SegOk]
  decide

theorem buildSegs_ok {num : ℕ} {hash : Str} {dirty : Bool} (h : IsHash hash) : ∀ s ∈ buildSegs num hash dirty, SegOk s := by
  intro s hs
  simp only [buildSegs, List.mem_cons] at hs
  rcases hs with rfl | rfl | hs
  · exact trivial
  · exact hash_seg h
  · split_ifs at hs <;> simp at hs
    exact hs ▸ dirty_seg

/-- The parts of the version of a build. -/
def buildPep (p : Pep) (num : ℕ) (hash : Str) (dirty : Bool) : Pep :=
  if num = 0 ∧ dirty = false then p else p.label (buildSegs num hash dirty)

theorem buildPep_ok {p : Pep} (hp : p.Ok) {num : ℕ} {hash : Str} {dirty : Bool} (h : IsHash hash) :
    (buildPep p num hash dirty).Ok := by
  unfold buildPep
  split_ifs
  · exact hp
  · intro s hs
    rcases List.mem_append.1 hs with hs | hs
    · exact hp s hs
    · exact buildSegs_ok h s hs

theorem buildPep_text {p : Pep} (hp : p.Ok) (num : ℕ) (hash : Str) (dirty : Bool) :
    (buildPep p num hash dirty).text = buildVersion p.text num hash dirty := by
  unfold buildPep buildVersion
  split_ifs with h1 h2 h3 h3 <;> try rfl
  all_goals
    rw [buildSegs, label_text hp]
    cases dirty <;> simp_all [segText]

theorem label_publicKey (p : Pep) (l : List Seg) : (p.label l).publicKey = p.publicKey := rfl

theorem append_lt_append {α : Type*} [LinearOrder α] (a : List α) {b c : List α} (h : b < c) : a ++ b < a ++ c := by
  induction a with
  | nil => exact h
  | cons x a ih => exact List.Lex.cons ih

theorem older_label (p : Pep) {l m : List Seg} (h : l.map segKey < m.map segKey) : (p.label l).Older (p.label m) := by
  refine .inr ⟨rfl, ?_⟩
  simp only [label, List.map_append]
  exact append_lt_append _ h

theorem label_nil (p : Pep) : p.label [] = p := by simp [label]

theorem older_self_label (p : Pep) (t : Seg) (l : List Seg) : p.Older (p.label (t :: l)) := by
  have := older_label p (l := []) (m := t :: l) (by simp)
  rwa [label_nil] at this

theorem num_lt {n m : ℕ} (h : n < m) (a b : List (WithBot ℕ ×ₗ List Char)) :
    segKey (.num n) :: a < segKey (.num m) :: b := by
  refine List.Lex.rel ?_
  refine Prod.Lex.toLex_lt_toLex.2 (.inl ?_)
  exact WithBot.coe_lt_coe.2 h

theorem buildPep_older (p : Pep) {n₁ n₂ : ℕ} {hash₁ hash₂ : Str} {d₁ d₂ : Bool}
    (h : n₁ < n₂ ∨ n₁ = n₂ ∧ hash₁ = hash₂ ∧ d₁ = false ∧ d₂ = true) :
    (buildPep p n₁ hash₁ d₁).Older (buildPep p n₂ hash₂ d₂) := by
  unfold buildPep
  rcases h with h | ⟨rfl, rfl, rfl, rfl⟩
  · rw [if_neg (c := n₂ = 0 ∧ _) (by omega)]
    split_ifs
    · exact older_self_label _ _ _
    · refine older_label p ?_
      simp only [buildSegs, List.map_cons]
      exact num_lt h _ _
  · rw [if_neg (c := n₁ = 0 ∧ true = false) (by simp)]
    split_ifs
    · exact older_self_label _ _ _
    · refine older_label p ?_
      simp only [buildSegs, List.map_cons]
      exact List.Lex.cons (List.Lex.cons (by simp))

/-! ## C105 -/

/-- What the import reports in a checkout after the release `p`. -/
theorem import_tagged {env : Env} {root full hash day time zone commits : Str} {num : ℕ} {dirty : Bool} {p : Pep} (hp : p.Ok)
    (hhash : IsHash hash) (hfull : IsHash full) (hday : IsWord day) (htime : IsWord time) (hzone : IsWord zone)
    (h : Checkout env root (describeTagged ('v' :: p.text) num hash dirty) full (gitDate day time zone) commits) :
    importVersion env env = .ok (buildPep p num hash dirty).text := by
  have hv := text_isVersion hp
  have := C70_tagged_checkout (version_ne_nil hv) (version_noNewline hv) hhash hfull hday htime hzone h
  simp only [importVersion, this]
  rw [buildPep_text hp]

/-- **C105.**  `kalmankit.__version__` grows with the history: of two checkouts after the same release tag, the one with more
commits since the tag has the newer version in the sense of PEP 440 (what `pip install --upgrade` compares), whatever the hashes
are and whether or not the trees are modified; and a modified tree is newer than the clean one at the same commit. -/
theorem C105_newer_with_history {p : Pep} (hp : p.Ok) {env₁ env₂ : Env}
    {root₁ full₁ hash₁ day₁ time₁ zone₁ commits₁ : Str} {root₂ full₂ hash₂ day₂ time₂ zone₂ commits₂ : Str}
    {num₁ num₂ : ℕ} {dirty₁ dirty₂ : Bool}
    (hhash₁ : IsHash hash₁) (hfull₁ : IsHash full₁) (hday₁ : IsWord day₁) (htime₁ : IsWord time₁) (hzone₁ : IsWord zone₁)
    (h₁ : Checkout env₁ root₁ (describeTagged ('v' :: p.text) num₁ hash₁ dirty₁) full₁ (gitDate day₁ time₁ zone₁) commits₁)
    (hhash₂ : IsHash hash₂) (hfull₂ : IsHash full₂) (hday₂ : IsWord day₂) (htime₂ : IsWord time₂) (hzone₂ : IsWord zone₂)
    (h₂ : Checkout env₂ root₂ (describeTagged ('v' :: p.text) num₂ hash₂ dirty₂) full₂ (gitDate day₂ time₂ zone₂) commits₂)
    (hlater : num₁ < num₂ ∨ num₁ = num₂ ∧ hash₁ = hash₂ ∧ dirty₁ = false ∧ dirty₂ = true) :
    ∃ q₁ q₂ : Pep, q₁.Ok ∧ q₂.Ok ∧ importVersion env₁ env₁ = .ok q₁.text ∧ importVersion env₂ env₂ = .ok q₂.text ∧
      q₁.Older q₂ :=
  ⟨_, _, buildPep_ok hp hhash₁, buildPep_ok hp hhash₂, import_tagged hp hhash₁ hfull₁ hday₁ htime₁ hzone₁ h₁,
    import_tagged hp hhash₂ hfull₂ hday₂ htime₂ hzone₂ h₂, buildPep_older p hlater⟩

/-- **C105.**  Every version between two releases: it is the release or newer than it, and older than every later release. -/
theorem C105_between_releases {p r : Pep} (hp : p.Ok) (hl : p.localLabel = []) (hr : r.localLabel = []) (hpr : p.Older r)
    {env : Env} {root full hash day time zone commits : Str} {num : ℕ} {dirty : Bool} (hhash : IsHash hash)
    (hfull : IsHash full) (hday : IsWord day) (htime : IsWord time) (hzone : IsWord zone)
    (h : Checkout env root (describeTagged ('v' :: p.text) num hash dirty) full (gitDate day time zone) commits) :
    ∃ q : Pep, q.Ok ∧ importVersion env env = .ok q.text ∧ (q = p ∨ p.Older q) ∧ q.Older r := by
  refine ⟨_, buildPep_ok hp hhash, import_tagged hp hhash hfull hday htime hzone h, ?_, ?_⟩
  · unfold buildPep
    split_ifs
    · exact .inl rfl
    · exact .inr (older_self_label _ _ _)
  · have hk : p.publicKey < r.publicKey := by
      rcases hpr with h | ⟨-, h⟩
      · exact h
      · simp [hl, hr] at h
    refine .inl ?_
    unfold buildPep
    split_ifs <;> exact hk

/-- The parts of a version are determined by its text, so that the order is one of the version strings. -/
theorem C105_text_determines {p q : Pep} (hp : p.Ok) (hq : q.Ok) (h : p.text = q.text) : p = q := text_inj hp hq h

namespace Ex

/-- `1.1.2` -/
def rel112 : Pep := ⟨0, 1, [1, 2], none, none, none, []⟩

theorem rel112_ok : rel112.Ok := by simp [Pep.Ok, rel112]

theorem rel112_text : rel112.text = py! "1.1.2" := by decide

/-- `1.2` -/
def rel12 : Pep := ⟨0, 1, [2], none, none, none, []⟩

theorem rel112_older : rel112.Older rel12 := by
  refine .inl ?_
  simp only [Pep.publicKey, Prod.Lex.toLex_lt_toLex]
  exact .inr ⟨rfl, .inl (by decide)⟩

end Ex

/-- Nine commits after `1.1.2` is older than ten commits (the text is not: `"1.1.2+9..." > "1.1.2+10..."`). -/
example : ∃ q₁ q₂ : Pep, q₁.Ok ∧ q₂.Ok ∧ q₁.text = py! "1.1.2+9.g0a1b2c3.dirty" ∧ q₂.text = py! "1.1.2+10.g0a1b2c3" ∧
    q₁.Older q₂ := by
  have h₁ := Ex.checkout (describeTagged ('v' :: Ex.rel112.text) 9 (py! "0a1b2c3") true)
  have h₂ := Ex.checkout (describeTagged ('v' :: Ex.rel112.text) 10 (py! "0a1b2c3") false)
  obtain ⟨q₁, q₂, ok₁, ok₂, v₁, v₂, h⟩ := C105_newer_with_history Ex.rel112_ok Ex.hash7 Ex.hash16 Ex.word_day Ex.word_time
    Ex.word_zone h₁ Ex.hash7 Ex.hash16 Ex.word_day Ex.word_time Ex.word_zone h₂ (.inl (by norm_num))
  refine ⟨q₁, q₂, ok₁, ok₂, ?_, ?_, h⟩
  · rw [import_tagged Ex.rel112_ok Ex.hash7 Ex.hash16 Ex.word_day Ex.word_time Ex.word_zone h₁] at v₁
    rw [← Except.ok.inj v₁]
    decide
  · rw [import_tagged Ex.rel112_ok Ex.hash7 Ex.hash16 Ex.word_day Ex.word_time Ex.word_zone h₂] at v₂
    rw [← Except.ok.inj v₂]
    decide

example : ∃ q : Pep, q.Ok ∧ (q = Ex.rel112 ∨ Ex.rel112.Older q) ∧ q.Older Ex.rel12 := by
  obtain ⟨q, h1, -, h2, h3⟩ := C105_between_releases Ex.rel112_ok rfl rfl Ex.rel112_older Ex.hash7 Ex.hash16 Ex.word_day
    Ex.word_time Ex.word_zone (Ex.checkout (describeTagged ('v' :: Ex.rel112.text) 3 (py! "0a1b2c3") true))
  exact ⟨q, h1, h2, h3⟩

/-! ## C106: the other styles -/

theorem text_nolabel {p : Pep} (h : p.localLabel = []) : p.text = p.publicText := by simp [Pep.text, h]

/-- Text up to the post-release. -/
def Pep.baseText (p : Pep) : Str := { p with post := none, dev := none }.publicText

theorem base_text {p : Pep} : p.publicText = p.baseText ++ (match p.post with
      | none => []
      | some n => py! ".post" ++ fmtNat n) ++ match p.dev with
      | none => []
      | some n => py! ".dev" ++ fmtNat n := by
  obtain ⟨pe, pm, pl, pre, post, dev, pk⟩ := p
  rcases pre with _ | ⟨_ | _ | _, n⟩ <;> rcases post with _ | m <;> rcases dev with _ | k <;>
    simp [Pep.baseText, Pep.publicText]

theorem base_noP (p : Pep) : 'p' ∉ p.baseText := by
  obtain ⟨pe, pm, pl, pre, post, dev, pk⟩ := p
  have hn := fun n => not_mem_fmtNat (c := 'p') (by decide) n
  have hm : 'p' ∉ pl.flatMap fun n => '.' :: fmtNat n := by simp [hn]
  rcases pre with _ | ⟨_ | _ | _, n⟩ <;> simp only [Pep.baseText, Pep.publicText] <;> split_ifs <;> simp [hn, hm]

theorem splitPostAux_skip : ∀ {a : Str}, 'p' ∉ a → ∀ (cur : Str) {s : Str}, s.head? ≠ some 'p' →
    splitPostAux cur (a ++ s) = splitPostAux (cur ++ a) s
  | [], _, cur, s, _ => by simp
  | c :: a, h, cur, s, hs => by
    simp only [List.mem_cons, not_or] at h
    have hne : ∀ r, a ++ s ≠ 'p' :: r := by
      intro r hr
      cases a with
      | nil => exact hs (by simpa using congrArg List.head? hr)
      | cons d a =>
        simp only [List.cons_append, List.cons.injEq] at hr
        exact h.2 (by simp [hr.1])
    have e : splitPostAux cur (c :: (a ++ s)) = splitPostAux (cur ++ [c]) (a ++ s) := by
      rw [splitPostAux]
      rintro rest rfl hr'
      exact hne _ hr'
    rw [List.cons_append, e, splitPostAux_skip h.2 _ hs]
    simp

theorem splitPost_none {p : Pep} (h1 : p.post = none) (h2 : p.dev = none) (h3 : p.localLabel = []) :
    splitPost p.text = .ok (p.text, none) := by
  have e : p.text = p.baseText := by rw [text_nolabel h3, base_text, h1, h2]; simp
  have := splitPostAux_skip (base_noP p) [] (s := []) (by simp)
  rw [List.append_nil, List.nil_append] at this
  rw [splitPost, e, this]
  rfl

theorem splitPost_some {p : Pep} {m : ℕ} (h1 : p.post = some m) (h2 : p.dev = none) (h3 : p.localLabel = []) :
    splitPost p.text = .ok (p.baseText, some m) := by
  have e : p.text = p.baseText ++ (py! ".post" ++ fmtNat m) := by rw [text_nolabel h3, base_text, h1, h2]; simp
  have h4 := splitPostAux_skip (base_noP p) [] (s := py! ".post" ++ fmtNat m) (by simp)
  have h5 : splitPostAux p.baseText (py! ".post" ++ fmtNat m) = p.baseText :: splitPostAux [] (fmtNat m) := by
    simp only [List.cons_append, List.nil_append]
    rw [splitPostAux]
  have h6 := splitPostAux_skip (not_mem_fmtNat (c := 'p') (by decide) m) [] (s := []) (by simp)
  rw [List.append_nil, List.nil_append] at h6
  rw [splitPost, e, h4, List.nil_append, h5, h6]
  simp only [splitPostAux]
  rw [if_neg (fmtNat_ne_nil m), if_pos, toInt_fmtNat]
  rw [List.all_eq_true]
  exact fun c hc => digit_isDecimal (fmtNat_digit hc)

theorem parts_text (p : Pep) (a b : Option ℕ) (l : List Seg) :
    ({ p with post := a, dev := b, localLabel := l } : Pep).text = p.baseText ++ (match a with
      | none => []
      | some n => py! ".post" ++ fmtNat n) ++ (match b with
      | none => []
      | some n => py! ".dev" ++ fmtNat n) ++
      if l = [] then [] else '+' :: (py! ".").intercalate (l.map segText) := by
  rw [Pep.text, base_text]
  rfl

theorem intercalate_segs (s t : Str) (l : List Str) :
    (py! ".").intercalate (s :: t :: l) = s ++ '.' :: (py! ".").intercalate (t :: l) := by
  simp [List.intercalate]

/-- The styles of C106. -/
def otherStyles : List Str := [py! "pep440-branch", py! "pep440-pre", py! "pep440-post", py! "pep440-post-branch", py! "pep440-old"]

theorem tagOf_text {p : Pep} (hp : p.Ok) (long short : Str) (branch date : Option Str) (num : ℕ) (dirty : Bool) :
    tagOf ⟨long, short, none, branch, dirty, some p.text, num, date⟩ = some p.text := by
  simp [tagOf, version_ne_nil (text_isVersion hp)]

theorem plusOrDot_text {p : Pep} (hp : p.Ok) (hl : p.localLabel = []) : plusOrDot p.text = py! "+" := by
  have : '+' ∉ p.text := by rw [text_plus hp]; simp [hl]
  simp [plusOrDot, this]

/-- **C106.**  The styles `pep440-branch`, `-pre`, `-post`, `-post-branch` and `-old` do what they are documented to do: after a
release without local label, post-release and developmental suffix, the version has exactly the documented parts (and hence is
valid). -/
theorem C106_styles {p : Pep} (hl : p.localLabel = []) (hpost : p.post = none) (hdev : p.dev = none) {style long hash : Str}
    (hs : style ∈ otherStyles) (hh : IsHash hash) (branch date : Option Str) (num : ℕ) (dirty : Bool) :
    ∃ q : Pep, q = stylePep style p (branch = some (py! "master")) num hash dirty ∧ q.Ok ∧
      render ⟨long, hash, none, branch, dirty, some p.text, num, date⟩ style =
        .ok ⟨q.text, some long, some dirty, none, date⟩ := by
  have hp : p.Ok := by simp [Pep.Ok, hl]
  have ht := tagOf_text hp long hash branch date num dirty
  have hplus := plusOrDot_text hp hl
  have hseg := hash_seg hh
  have hdir : ∀ t ∈ dirtySegs dirty, SegOk t := by
    intro t ht
    unfold dirtySegs at ht
    split_ifs at ht <;> simp at ht
    exact ht ▸ dirty_seg
  have hbase : p.text = p.baseText := by rw [text_nolabel hl, base_text, hpost, hdev]; simp
  have hsplit := splitPost_none hpost hdev hl
  simp only [otherStyles, List.mem_cons, List.not_mem_nil, or_false] at hs
  refine ⟨_, rfl, ?_, ?_⟩
  · have hsub : ∀ t ∈ (stylePep style p (decide (branch = some (py! "master"))) num hash dirty).localLabel,
        t ∈ Seg.num num :: hashSeg hash :: dirtySegs dirty := by
      intro t ht
      simp only [stylePep] at ht
      split_ifs at ht
      all_goals first
        | exact ht
        | exact List.mem_cons_of_mem _ ht
        | (simp only [List.mem_singleton] at ht; rw [ht]; simp)
        | (simp only [hl] at ht; exact absurd ht List.not_mem_nil)
    intro t ht
    have ht' := hsub t ht
    simp only [List.mem_cons] at ht'
    rcases ht' with rfl | rfl | ht'
    · exact trivial
    · exact hseg
    · exact hdir t ht'
  · by_cases hm : num = 0 ∧ dirty = false
    · obtain ⟨rfl, rfl⟩ := hm
      have e : stylePep style p (decide (branch = some (py! "master"))) 0 hash false = p := by simp [stylePep]
      rw [e]
      exact C77_release_in_every_style (version_ne_nil (text_isVersion hp)) (by
        rcases hs with rfl | rfl | rfl | rfl | rfl <;> simp)
    · obtain ⟨P, hP⟩ : ∃ P : Pieces, P = ⟨long, hash, none, branch, dirty, some p.text, num, date⟩ := ⟨_, rfl⟩
      have hmv : moved P = true := by
        simp only [moved, hP, Bool.or_eq_true, decide_eq_true_eq]
        rcases dirty <;> simp_all
      have hmaster : dev0Branch P = if branch = some (py! "master") then [] else py! ".dev0" := by
        simp [dev0Branch, hP]
      have hz : fmtNat 0 = ['0'] := by decide
      have h1 : P.error = none := by rw [hP]
      have h2 : P.long = long := by rw [hP]
      have h3 : P.dirty = dirty := by rw [hP]
      have h4 : P.date = date := by rw [hP]
      have h5 : P.distance = num := by rw [hP]
      have h6 : P.short = hash := by rw [hP]
      rw [← hP] at ht ⊢
      have hr : ∀ v, renderStyle P style = .ok v → render P style = .ok ⟨v, some long, some dirty, none, date⟩ := by
        intro v hv
        simp only [render, h1, hv, h2, h3, h4]
      refine hr _ ?_
      clear hr hP
      rcases hs with rfl | rfl | rfl | rfl | rfl
      · have e : renderStyle P (py! "pep440-branch") = .ok (renderPep440Branch P) := by simp [renderStyle]
        have es : stylePep (py! "pep440-branch") p (decide (branch = some (py! "master"))) num hash dirty = { p with dev := if (decide (branch = some (py! "master"))) = true then none else some 0, localLabel := .num num :: hashSeg hash :: dirtySegs dirty } := by
          simp [stylePep, hm]
        rw [e, es, parts_text]
        simp only [renderPep440Branch, ht, hmv, hmaster, hplus, ifDirty, h3, h5, h6, hpost]
        rw [hbase]
        by_cases hb : branch = some (py! "master") <;> cases dirty <;>
          simp [hb, hz, hashSeg, dirtySegs, segText]
      · have e : renderStyle P (py! "pep440-pre") = renderPep440Pre P := by simp [renderStyle]
        rw [e]
        simp only [renderPep440Pre, ht, h5, stylePep, hsplit]
        by_cases hn : num = 0
        · simp [hn]
        · have es : ({ p with post := some (p.post.elim 0 (· + 1)), dev := some num } : Pep) =
              { p with post := some 0, dev := some num } := by rw [hpost]; rfl
          rw [if_pos hn, if_pos trivial, if_neg hn, es, hbase, parts_text, hl]
          simp [hz]
      · have e : renderStyle P (py! "pep440-post") = .ok (renderPep440Post P) := by simp [renderStyle]
        have es : stylePep (py! "pep440-post") p (decide (branch = some (py! "master"))) num hash dirty = { p with post := some num, dev := if dirty then some 0 else none, localLabel := [hashSeg hash] } := by
          simp [stylePep, hm]
        rw [e, es, parts_text]
        simp only [renderPep440Post, ht, hmv, hplus, ifDirty, h3, h5, h6]
        rw [hbase]
        cases dirty <;> simp [hz, hashSeg, segText]
      · have e : renderStyle P (py! "pep440-post-branch") = .ok (renderPep440PostBranch P) := by simp [renderStyle]
        have es : stylePep (py! "pep440-post-branch") p (decide (branch = some (py! "master"))) num hash dirty = { p with post := some num, dev := if (decide (branch = some (py! "master"))) = true then none else some 0, localLabel := hashSeg hash :: dirtySegs dirty } := by
          simp [stylePep, hm]
        rw [e, es, parts_text]
        simp only [renderPep440PostBranch, ht, hmv, hmaster, hplus, ifDirty, h3, h5, h6]
        rw [hbase]
        by_cases hb : branch = some (py! "master") <;> cases dirty <;>
          simp [hb, hz, hashSeg, dirtySegs, segText]
      · have e : renderStyle P (py! "pep440-old") = .ok (renderPep440Old P) := by simp [renderStyle]
        have es : stylePep (py! "pep440-old") p (decide (branch = some (py! "master"))) num hash dirty = { p with post := some num, dev := if dirty then some 0 else none } := by
          simp [stylePep, hm]
        rw [e, es, parts_text]
        simp only [renderPep440Old, ht, hmv, ifDirty, h3, h5, hl]
        rw [hbase]
        cases dirty <;> simp [hz]

/-- **C106.**  Without a tag: the version has exactly the documented parts, in these styles and in `pep440`. -/
theorem C106_untagged {style long hash : Str} (hs : style ∈ py! "pep440" :: otherStyles) (hh : IsHash hash)
    (branch date : Option Str) (num : ℕ) (dirty : Bool) :
    ∃ q : Pep, q = untaggedPep style (branch = some (py! "master")) num hash dirty ∧ q.Ok ∧
      render ⟨long, hash, none, branch, dirty, none, num, date⟩ style =
        .ok ⟨q.text, some long, some dirty, none, date⟩ := by
  have hseg := hash_seg hh
  have hz : fmtNat 0 = ['0'] := by decide
  have hun : SegOk (.word (py! "untagged")) := by
    constructor
    · decide
    · exact ⟨'u', by simp, rfl⟩
  have hdir : ∀ t ∈ dirtySegs dirty, SegOk t := by
    intro t ht
    unfold dirtySegs at ht
    split_ifs at ht <;> simp at ht
    exact ht ▸ dirty_seg
  have hsub : ∀ t ∈ (untaggedPep style (decide (branch = some (py! "master"))) num hash dirty).localLabel,
      t ∈ Seg.word (py! "untagged") :: Seg.num num :: hashSeg hash :: dirtySegs dirty := by
    intro t ht
    simp only [untaggedPep] at ht
    split_ifs at ht
    all_goals simp only [List.mem_cons, List.not_mem_nil, or_false] at ht ⊢
    all_goals tauto
  refine ⟨_, rfl, ?_, ?_⟩
  · intro t ht
    have ht' := hsub t ht
    simp only [List.mem_cons] at ht'
    rcases ht' with rfl | rfl | rfl | ht'
    · exact hun
    · exact trivial
    · exact hseg
    · exact hdir t ht'
  · obtain ⟨P, hP⟩ : ∃ P : Pieces, P = ⟨long, hash, none, branch, dirty, none, num, date⟩ := ⟨_, rfl⟩
    have ht : tagOf P = none := by rw [hP]; rfl
    have hmaster : dev0Branch P = if branch = some (py! "master") then [] else py! ".dev0" := by
      simp [dev0Branch, hP]
    have h1 : P.error = none := by rw [hP]
    have h2 : P.long = long := by rw [hP]
    have h3 : P.dirty = dirty := by rw [hP]
    have h4 : P.date = date := by rw [hP]
    have h5 : P.distance = num := by rw [hP]
    have h6 : P.short = hash := by rw [hP]
    rw [← hP]
    have hr : ∀ v, renderStyle P style = .ok v → render P style = .ok ⟨v, some long, some dirty, none, date⟩ := by
      intro v hv
      simp only [render, h1, hv, h2, h3, h4]
    refine hr _ ?_
    clear hr hP
    simp only [otherStyles, List.mem_cons, List.not_mem_nil, or_false] at hs
    rcases hs with rfl | rfl | rfl | rfl | rfl | rfl
    · have e : renderStyle P (py! "pep440") = .ok (renderPep440 P) := by simp [renderStyle]
      have es : untaggedPep (py! "pep440") (decide (branch = some (py! "master"))) num hash dirty = ⟨0, 0, [], none, none, none, .word (py! "untagged") :: .num num :: hashSeg hash :: dirtySegs dirty⟩ := by
        simp [untaggedPep]
      rw [e, es]
      simp only [renderPep440, ht, ifDirty, h3, h5, h6]
      cases dirty <;> simp [Pep.text, Pep.publicText, hz, hashSeg, dirtySegs, segText]
    · have e : renderStyle P (py! "pep440-branch") = .ok (renderPep440Branch P) := by simp [renderStyle]
      have es : untaggedPep (py! "pep440-branch") (decide (branch = some (py! "master"))) num hash dirty = ⟨0, 0, [], none, none, if (decide (branch = some (py! "master"))) = true then none else some 0, .word (py! "untagged") :: .num num :: hashSeg hash :: dirtySegs dirty⟩ := by
        simp [untaggedPep]
      rw [e, es]
      simp only [renderPep440Branch, ht, hmaster, ifDirty, h3, h5, h6]
      by_cases hb : branch = some (py! "master") <;> cases dirty <;>
        simp [hb, Pep.text, Pep.publicText, hz, hashSeg, dirtySegs, segText]
    · have e : renderStyle P (py! "pep440-pre") = renderPep440Pre P := by simp [renderStyle]
      have es : untaggedPep (py! "pep440-pre") (decide (branch = some (py! "master"))) num hash dirty = ⟨0, 0, [], none, some 0, some num, []⟩ := by
        simp [untaggedPep]
      rw [e, es]
      simp only [renderPep440Pre, ht, h5]
      simp [Pep.text, Pep.publicText, hz]
    · have e : renderStyle P (py! "pep440-post") = .ok (renderPep440Post P) := by simp [renderStyle]
      have es : untaggedPep (py! "pep440-post") (decide (branch = some (py! "master"))) num hash dirty = ⟨0, 0, [], none, some num, if dirty then some 0 else none, [hashSeg hash]⟩ := by
        simp [untaggedPep]
      rw [e, es]
      simp only [renderPep440Post, ht, ifDirty, h3, h5, h6]
      cases dirty <;> simp [Pep.text, Pep.publicText, hz, hashSeg, segText]
    · have e : renderStyle P (py! "pep440-post-branch") = .ok (renderPep440PostBranch P) := by simp [renderStyle]
      have es : untaggedPep (py! "pep440-post-branch") (decide (branch = some (py! "master"))) num hash dirty = ⟨0, 0, [], none, some num, if (decide (branch = some (py! "master"))) = true then none else some 0, hashSeg hash :: dirtySegs dirty⟩ := by
        simp [untaggedPep]
      rw [e, es]
      simp only [renderPep440PostBranch, ht, hmaster, ifDirty, h3, h5, h6]
      by_cases hb : branch = some (py! "master") <;> cases dirty <;>
        simp [hb, Pep.text, Pep.publicText, hz, hashSeg, dirtySegs, segText]
    · have e : renderStyle P (py! "pep440-old") = .ok (renderPep440Old P) := by simp [renderStyle]
      have es : untaggedPep (py! "pep440-old") (decide (branch = some (py! "master"))) num hash dirty = ⟨0, 0, [], none, some num, if dirty then some 0 else none, []⟩ := by
        simp [untaggedPep]
      rw [e, es]
      simp only [renderPep440Old, ht, ifDirty, h3, h5]
      cases dirty <;> simp [Pep.text, Pep.publicText, hz]

/-- **C106.**  `pep440-pre` after a post-release: the next one is announced. -/
theorem C106_pre_after_post {p : Pep} {m : ℕ} (hl : p.localLabel = []) (hpost : p.post = some m) (hdev : p.dev = none)
    (long hash : Str) (branch date : Option Str) {num : ℕ} (hn : num ≠ 0) (dirty : Bool) :
    render ⟨long, hash, none, branch, dirty, some p.text, num, date⟩ (py! "pep440-pre") =
      .ok ⟨({ p with post := some (m + 1), dev := some num } : Pep).text, some long, some dirty, none, date⟩ := by
  have hp : p.Ok := by simp [Pep.Ok, hl]
  have ht := tagOf_text hp long hash branch date num dirty
  have e : renderStyle ⟨long, hash, none, branch, dirty, some p.text, num, date⟩ (py! "pep440-pre") =
      .ok ({ p with post := some (m + 1), dev := some num } : Pep).text := by
    have e : renderStyle ⟨long, hash, none, branch, dirty, some p.text, num, date⟩ (py! "pep440-pre") =
      renderPep440Pre ⟨long, hash, none, branch, dirty, some p.text, num, date⟩ := by simp [renderStyle]
    rw [e, renderPep440Pre, ht]
    simp only
    rw [if_pos hn, splitPost_some hpost hdev hl, parts_text, hl]
    simp
  simp only [render, e]

/-- **C106.**  A tag that ends in a bare `.post` counts as post-release 0 (PEP 440, implicit post-release number): with commits after
it, `pep440-pre` announces post-release 1. -/
theorem C106_pre_after_bare_post {p : Pep} (hl : p.localLabel = []) (hpost : p.post = none) (hdev : p.dev = none)
    (long hash : Str) (branch date : Option Str) {num : ℕ} (hn : num ≠ 0) (dirty : Bool) :
    render ⟨long, hash, none, branch, dirty, some (p.text ++ py! ".post"), num, date⟩ (py! "pep440-pre") =
      .ok ⟨({ p with post := some 1, dev := some num } : Pep).text, some long, some dirty, none, date⟩ := by
  have ht : tagOf ⟨long, hash, none, branch, dirty, some (p.text ++ py! ".post"), num, date⟩ = some (p.text ++ py! ".post") := by
    simp [tagOf]
  have hsp : splitPost (p.text ++ py! ".post") = .ok (p.baseText, some 0) := by
    have e : p.text = p.baseText := by rw [text_nolabel hl, base_text, hpost, hdev]; simp
    have h4 := splitPostAux_skip (base_noP p) [] (s := py! ".post") (by simp)
    rw [splitPost, e, h4, List.nil_append]
    simp [splitPostAux]
  have e : renderStyle ⟨long, hash, none, branch, dirty, some (p.text ++ py! ".post"), num, date⟩ (py! "pep440-pre") =
      .ok ({ p with post := some 1, dev := some num } : Pep).text := by
    have e : renderStyle ⟨long, hash, none, branch, dirty, some (p.text ++ py! ".post"), num, date⟩ (py! "pep440-pre") =
      renderPep440Pre ⟨long, hash, none, branch, dirty, some (p.text ++ py! ".post"), num, date⟩ := by simp [renderStyle]
    rw [e, renderPep440Pre, ht]
    simp only
    rw [if_pos hn, hsp, parts_text, hl]
    simp
  simp only [render, e]

/-- The parts before the post-release agree. -/
theorem older_post {p q : Pep} (h1 : p.epoch = q.epoch) (h2 : p.major = q.major) (h3 : p.minor = q.minor)
    (h4 : p.preKey = q.preKey) (h5 : p.postKey < q.postKey) :
    p.Older q := by
  refine .inl ?_
  simp only [publicKey, h1, h2, h3, h4, Prod.Lex.toLex_lt_toLex, lt_self_iff_false, false_or, true_and]
  exact .inl h5

/-- The parts before the developmental release agree. -/
theorem older_dev {p q : Pep} (h1 : p.epoch = q.epoch) (h2 : p.major = q.major) (h3 : p.minor = q.minor)
    (h4 : p.preKey = q.preKey) (h5 : p.post = q.post)
    (h6 : p.devKey < q.devKey) : p.Older q := by
  refine .inl ?_
  have h7 : p.postKey = q.postKey := by simp only [Pep.postKey, h5]
  simp only [publicKey, h1, h2, h3, h4, h7, Prod.Lex.toLex_lt_toLex, lt_self_iff_false, false_or, true_and]
  exact h6

theorem postKey_some {p : Pep} {n : ℕ} (h : p.post = some n) : p.postKey = WithBot.some n := by simp [Pep.postKey, h]

theorem postKey_none {p : Pep} (h : p.post = none) : p.postKey = ⊥ := by simp [Pep.postKey, h]

theorem devKey_some {p : Pep} {n : ℕ} (h : p.dev = some n) : p.devKey = WithTop.some n := by simp [Pep.devKey, h]

theorem devKey_none {p : Pep} (h : p.dev = none) : p.devKey = ⊤ := by simp [Pep.devKey, h]

theorem preKey_post {p q : Pep} (hpre : p.pre = q.pre) (hp : p.post ≠ none ∨ p.dev = none) (hq : q.post ≠ none ∨ q.dev = none) :
    p.preKey = q.preKey := by
  obtain ⟨_, _, _, pre, post, dev, _⟩ := p
  obtain ⟨_, _, _, pre', post', dev', _⟩ := q
  cases hpre
  rcases pre with _ | ⟨_, n⟩ <;> rcases post with _ | m <;> rcases dev with _ | k <;> rcases post' with _ | m' <;>
    rcases dev' with _ | k' <;> simp_all [Pep.preKey]

/-- More commits, newer version: on the documented parts. -/
theorem stylePep_newer {p : Pep} (hl : p.localLabel = []) (hpost : p.post = none) (hdev : p.dev = none)
    {style : Str} {m₁ m₂ : Bool} (hs : style ∈ otherStyles)
    (hm : style = py! "pep440-branch" → m₁ = true ∧ m₂ = true) {n₁ n₂ : ℕ} (h : n₁ < n₂) (h₁ h₂ : Str) (d₁ d₂ : Bool) :
    (stylePep style p m₁ n₁ h₁ d₁).Older (stylePep style p m₂ n₂ h₂ d₂) := by
  have hn : n₂ ≠ 0 := by omega
  simp only [otherStyles, List.mem_cons, List.not_mem_nil, or_false] at hs
  rcases hs with rfl | rfl | rfl | rfl | rfl
  · obtain ⟨rfl, rfl⟩ := hm rfl
    have e : ∀ (n : ℕ) (hash : Str) (d : Bool), stylePep (py! "pep440-branch") p true n hash d = buildPep p n hash d := by
      intro n hash d
      simp only [stylePep, buildPep, Pep.label, hl, buildSegs, hashSeg, dirtySegs, List.nil_append]
      split_ifs <;> simp_all
    rw [e, e]
    exact buildPep_older p (.inl h)
  · by_cases h0 : n₁ = 0
    · have e : stylePep (py! "pep440-pre") p m₁ n₁ h₁ d₁ = p := by simp [stylePep, h0]
      rw [e]
      refine older_post ?_ ?_ ?_ (preKey_post ?_ (.inr hdev) ?_) ?_ <;> try simp [stylePep, hn]
      rw [postKey_none hpost, postKey_some (n := 0) (by simp [stylePep, hn, hpost])]
      exact WithBot.bot_lt_coe _
    · refine older_dev ?_ ?_ ?_ (preKey_post ?_ ?_ ?_) ?_ ?_ <;> try simp [stylePep, h0, hn]
      rw [devKey_some (n := n₁) (by simp [stylePep, h0]), devKey_some (n := n₂) (by simp [stylePep, hn])]
      exact WithTop.coe_lt_coe.2 h
  all_goals
    by_cases h0 : n₁ = 0 ∧ d₁ = false
    · refine older_post ?_ ?_ ?_ (preKey_post ?_ ?_ ?_) ?_ <;> try simp [stylePep, h0, hn, hdev]
      rw [postKey_none (by simp [stylePep, h0, hpost]), postKey_some (n := n₂) (by simp [stylePep, hn])]
      exact WithBot.bot_lt_coe _
    · refine older_post ?_ ?_ ?_ (preKey_post ?_ ?_ ?_) ?_ <;> try simp [stylePep, h0, hn]
      rw [postKey_some (n := n₁) (by simp [stylePep, h0]), postKey_some (n := n₂) (by simp [stylePep, hn])]
      exact WithBot.coe_lt_coe.2 h

/-- Branches: on the documented parts. -/
theorem stylePep_branch {p : Pep} (hdev : p.dev = none) {n : ℕ} (hn : n ≠ 0) (hash : Str) (d : Bool) :
    (∀ style ∈ [py! "pep440-branch", py! "pep440-post-branch"],
      (stylePep style p false n hash d).Older (stylePep style p true n hash d)) ∧
    (stylePep (py! "pep440-branch") p false n hash d).Older p := by
  have key : ∀ {q r : Pep}, q.epoch = r.epoch → q.major = r.major → q.minor = r.minor → q.pre = r.pre → q.post = r.post →
      q.dev = some 0 → r.dev = none → q.Older r := by
    intro q r h1 h2 h3 h4 h5 h6 h7
    by_cases hk : q.preKey = r.preKey
    · refine older_dev h1 h2 h3 hk h5 ?_
      rw [devKey_some h6, devKey_none h7]
      exact WithTop.coe_lt_top 0
    · have hlt : q.preKey < r.preKey := by
        obtain ⟨_, _, _, pre, post, dev, _⟩ := q
        obtain ⟨_, _, _, pre', post', dev', _⟩ := r
        simp only at h1 h2 h3 h4 h5 h6 h7
        subst h4 h5 h6 h7
        rcases pre with _ | ⟨_, n⟩ <;> rcases post with _ | m <;> simp_all [Pep.preKey]
      refine .inl ?_
      simp only [publicKey, h1, h2, h3, Prod.Lex.toLex_lt_toLex, lt_self_iff_false, false_or, true_and]
      exact .inl hlt
  refine ⟨fun style hs => ?_, ?_⟩
  · simp only [List.mem_cons, List.not_mem_nil, or_false] at hs
    rcases hs with rfl | rfl <;> refine key ?_ ?_ ?_ ?_ ?_ ?_ ?_ <;> simp [stylePep, hn]
  · refine key ?_ ?_ ?_ ?_ ?_ ?_ ?_ <;> simp [stylePep, hn, hdev]

/-- Modified trees: on the documented parts. -/
theorem stylePep_dirty (p : Pep) {n : ℕ} (hn : n ≠ 0) (hash : Str) (m : Bool) :
    ∀ style ∈ [py! "pep440-post", py! "pep440-old"],
      (stylePep style p m n hash true).Older (stylePep style p m n hash false) := by
  intro style hs
  simp only [List.mem_cons, List.not_mem_nil, or_false] at hs
  rcases hs with rfl | rfl
  all_goals
    refine older_dev ?_ ?_ ?_ (preKey_post ?_ ?_ ?_) ?_ ?_ <;> try simp [stylePep, hn]
    rw [devKey_some (n := 0) (by simp [stylePep]), devKey_none (by simp [stylePep, hn])]
    exact WithTop.coe_lt_top 0

/-- The version rendered for some pieces has the parts `q`. -/
def Renders (p : Pieces) (style : Str) (q : Pep) : Prop :=
  q.Ok ∧ ∃ v, render p style = .ok v ∧ v.version = q.text

theorem C106_styles.renders {p : Pep} (hl : p.localLabel = []) (hpost : p.post = none) (hdev : p.dev = none)
    {style hash : Str} (hs : style ∈ otherStyles) (hh : IsHash hash) (long : Str) (branch date : Option Str) (num : ℕ) (dirty : Bool) :
    Renders ⟨long, hash, none, branch, dirty, some p.text, num, date⟩ style
      (stylePep style p (branch = some (py! "master")) num hash dirty) := by
  obtain ⟨q, rfl, h1, h2⟩ := C106_styles hl hpost hdev hs hh (long := long) branch date num dirty
  exact ⟨h1, _, h2, rfl⟩

/-- **C106.**  In the styles `pep440-pre`, `-post`, `-post-branch` and `-old`, more commits since the release mean a newer version,
whatever the commits and branches and whether or not the trees are modified; in the style `pep440-branch` this holds on the branch
`master`. -/
theorem C106_newer_with_history {p : Pep} (hl : p.localLabel = []) (hpost : p.post = none) (hdev : p.dev = none)
    {style : Str} (hs : style ∈ otherStyles) {branch₁ branch₂ : Option Str}
    (hm : style = py! "pep440-branch" → branch₁ = some (py! "master") ∧ branch₂ = some (py! "master"))
    {n₁ n₂ : ℕ} (h : n₁ < n₂) {hash₁ hash₂ : Str} (hh₁ : IsHash hash₁) (hh₂ : IsHash hash₂) (long₁ long₂ : Str)
    (date₁ date₂ : Option Str) (d₁ d₂ : Bool) :
    ∃ q₁ q₂ : Pep, Renders ⟨long₁, hash₁, none, branch₁, d₁, some p.text, n₁, date₁⟩ style q₁ ∧
      Renders ⟨long₂, hash₂, none, branch₂, d₂, some p.text, n₂, date₂⟩ style q₂ ∧ q₁.Older q₂ :=
  ⟨_, _, C106_styles.renders hl hpost hdev hs hh₁ _ _ _ _ _, C106_styles.renders hl hpost hdev hs hh₂ _ _ _ _ _,
    stylePep_newer hl hpost hdev hs (fun e => by simp [hm e]) h _ _ _ _⟩

/-- **C106.**  In the styles `pep440-branch` and `-post-branch` work on another branch appears older than the same work on `master`;
in the style `pep440-branch` even older than the release it is based on. -/
theorem C106_branch_sorts_backwards {p : Pep} (hl : p.localLabel = []) (hpost : p.post = none) (hdev : p.dev = none) {n : ℕ}
    (hn : n ≠ 0) {hash : Str} (hh : IsHash hash) {branch : Option Str} (hb : branch ≠ some (py! "master")) (long : Str)
    (date : Option Str) (d : Bool) :
    (∀ style ∈ [py! "pep440-branch", py! "pep440-post-branch"],
      ∃ q₁ q₂ : Pep, Renders ⟨long, hash, none, branch, d, some p.text, n, date⟩ style q₁ ∧
        Renders ⟨long, hash, none, some (py! "master"), d, some p.text, n, date⟩ style q₂ ∧ q₁.Older q₂) ∧
    ∃ q : Pep, Renders ⟨long, hash, none, branch, d, some p.text, n, date⟩ (py! "pep440-branch") q ∧ q.Older p := by
  have key := stylePep_branch hdev hn hash d
  refine ⟨fun style hs => ?_, ?_⟩
  · have hs' : style ∈ otherStyles := by
      simp only [List.mem_cons, List.not_mem_nil, or_false] at hs
      rcases hs with rfl | rfl <;> simp [otherStyles]
    refine ⟨_, _, C106_styles.renders hl hpost hdev hs' hh _ _ _ _ _, C106_styles.renders hl hpost hdev hs' hh _ _ _ _ _, ?_⟩
    simpa [hb] using key.1 style hs
  · refine ⟨_, C106_styles.renders hl hpost hdev (by simp [otherStyles]) hh _ _ _ _ _, ?_⟩
    simpa [hb] using key.2

/-- **C106.**  In the styles `pep440-post` and `-old` a modified tree appears older than the clean one at the same commit. -/
theorem C106_dirty_sorts_backwards {p : Pep} (hl : p.localLabel = []) (hpost : p.post = none) (hdev : p.dev = none) {n : ℕ}
    (hn : n ≠ 0) {hash : Str} (hh : IsHash hash) (long : Str) (branch date : Option Str) :
    ∀ style ∈ [py! "pep440-post", py! "pep440-old"],
      ∃ q₁ q₂ : Pep, Renders ⟨long, hash, none, branch, true, some p.text, n, date⟩ style q₁ ∧
        Renders ⟨long, hash, none, branch, false, some p.text, n, date⟩ style q₂ ∧ q₁.Older q₂ := by
  intro style hs
  have hs' : style ∈ otherStyles := by
    simp only [List.mem_cons, List.not_mem_nil, or_false] at hs
    rcases hs with rfl | rfl <;> simp [otherStyles]
  exact ⟨_, _, C106_styles.renders hl hpost hdev hs' hh _ _ _ _ _, C106_styles.renders hl hpost hdev hs' hh _ _ _ _ _,
    stylePep_dirty p hn hash _ style hs⟩

example : render ⟨py! "0a1b2c3d", py! "0a1b2c3", none, some (py! "feature"), true, some (py! "1.1.2"), 3, none⟩
    (py! "pep440-post-branch") = .ok ⟨py! "1.1.2.post3.dev0+g0a1b2c3.dirty", some (py! "0a1b2c3d"), some true, none, none⟩ := by
  obtain ⟨q, rfl, -, h⟩ := C106_styles (p := Ex.rel112) (style := py! "pep440-post-branch") rfl rfl rfl (by simp [otherStyles])
    Ex.hash7 (long := py! "0a1b2c3d") (some (py! "feature")) none 3 true
  rw [Ex.rel112_text] at h
  rw [h]
  decide

example : render ⟨py! "0a1b2c3d", py! "0a1b2c3", none, none, true, some (py! "1.1.2.post4"), 3, none⟩ (py! "pep440-pre") =
    .ok ⟨py! "1.1.2.post5.dev3", some (py! "0a1b2c3d"), some true, none, none⟩ :=
  C106_pre_after_post (p := ⟨0, 1, [1, 2], none, some 4, none, []⟩) rfl rfl rfl _ _ none none (by norm_num) true

-- Two commits after the tag `v1.2.post`.
example : render ⟨py! "0a1b2c3d", py! "0a1b2c3", none, none, false, some (py! "1.2.post"), 2, none⟩ (py! "pep440-pre") =
    .ok ⟨py! "1.2.post1.dev2", some (py! "0a1b2c3d"), some false, none, none⟩ :=
  C106_pre_after_bare_post (p := ⟨0, 1, [2], none, none, none, []⟩) rfl rfl rfl _ _ none none (by norm_num) false

-- Nine and ten commits after 1.1.2, in the style `pep440-post`.
example : ∃ q₁ q₂ : Pep,
    Renders ⟨py! "0a1b2c3d", py! "0a1b2c3", none, none, true, some Ex.rel112.text, 9, none⟩ (py! "pep440-post") q₁ ∧
    Renders ⟨py! "0a1b2c3e", py! "0a1b2c3", none, none, false, some Ex.rel112.text, 10, none⟩ (py! "pep440-post") q₂ ∧
    q₁.Older q₂ :=
  C106_newer_with_history rfl rfl rfl (by simp [otherStyles]) (by decide) (by norm_num) Ex.hash7 Ex.hash7 _ _ _ _ _ _

/-! ## C107: the branch -/

theorem parse_branch {run : List Str → Except Exc (Option Str × Option ℤ)} {tp d full : Str} {b : Option Str} {p : Pieces}
    (h : parseDescribe run tp d full b = .ok p) : p.branch = b := by
  unfold parseDescribe at h
  simp only at h
  split_ifs at h
  · split at h
    · cases h; rfl
    · split_ifs at h
      · split at h
        · cases h
        · cases h; rfl
      · cases h; rfl
  · split at h
    · cases h
    · cases h
    · split at h
      · cases h
      · cases h; rfl

theorem pieces_branch {env : Env} {root describe full out out' : Str} (h : Repo env root describe full)
    (hb : Prints env root [py! "rev-parse", py! "--abbrev-ref", py! "HEAD"] out)
    (hb' : Prints env root [py! "branch", py! "--contains"] out') {p : Pieces}
    (hp : gitPieces (fun args => runCommand env.spawn args root (gits env.win32)) tagPrefix = .ok p) :
    p.branch = if strip (stripBytes out) = py! "HEAD" then detachedBranch (stripBytes out') else some (strip (stripBytes out)) := by
  obtain ⟨gd, hgd⟩ := h.gitDir
  unfold gitPieces at hp
  simp only at hp
  rw [run_prints hgd] at hp
  simp only at hp
  rw [show (tagPrefix ++ py! "[[:digit:]]*") = py! "v[[:digit:]]*" from rfl, run_prints h.describeOut] at hp
  simp only at hp
  rw [run_prints h.headOut] at hp
  simp only at hp
  unfold branchThen at hp
  simp only at hp
  rw [run_prints hb] at hp
  simp only at hp
  split_ifs at hp ⊢
  · rw [run_prints hb'] at hp
    exact parse_branch hp
  · exact parse_branch hp

/-- **C107.**  The branch reported (it decides about `.dev0` in two styles, C106) is the one checked out. -/
theorem C107_on_branch {env : Env} {root describe full name : Str} (h : Repo env root describe full) (hname : IsWord name)
    (hne : name ≠ py! "HEAD") (hb : Prints env root [py! "rev-parse", py! "--abbrev-ref", py! "HEAD"] (name ++ ['\n']))
    {p : Pieces} (hp : gitPieces (fun args => runCommand env.spawn args root (gits env.win32)) tagPrefix = .ok p) :
    p.branch = some name := by
  obtain ⟨out', hb'⟩ := h.branchesOut
  rw [pieces_branch h hb hb' hp, stripBytes_newline (tight_word hname) hname.1, strip_tight (tight_word hname), if_neg hne]

theorem detached_strip {w : Str} {branches : List Str} (hb : ∀ b ∈ branches, IsWord b) :
    stripBytes (detachedOutput w branches) =
      (py! "\n").intercalate ((py! "* (HEAD detached at " ++ w ++ py! ")") :: branches.map fun b => py! "  " ++ b) := by
  have key : ∀ (bs : List Str) (a : Str), (∀ b ∈ bs, IsWord b) → Tight isSpace a → a ≠ [] →
      ∃ s, a ++ '\n' :: (bs.flatMap fun b => py! "  " ++ b ++ py! "\n") = s ++ ['\n'] ∧
        s = (py! "\n").intercalate (a :: bs.map fun b => py! "  " ++ b) ∧ Tight isSpace s ∧ s ≠ [] := by
    intro bs
    induction bs with
    | nil => intro a _ ht hne; exact ⟨a, by simp, by simp, ht, hne⟩
    | cons b bs ih =>
      intro a hb ht hne
      have hw := hb b (by simp)
      obtain ⟨s, h1, h2, h3, h4⟩ := ih (a ++ '\n' :: (py! "  " ++ b)) (fun b hb' => hb b (by simp [hb'])) (by
        refine ⟨?_, ?_⟩
        · intro c hc
          obtain ⟨x, a', rfl⟩ := List.exists_cons_of_ne_nil hne
          exact ht.1 c (by simpa using hc)
        · intro c hc
          obtain ⟨x, hx⟩ : ∃ x, b.getLast? = some x := by
            rw [← Option.ne_none_iff_exists']
            simp [hw.1]
          have : (a ++ '\n' :: (py! "  " ++ b)).getLast? = some x := by
            rw [show a ++ '\n' :: (py! "  " ++ b) = (a ++ py! "\n  ") ++ b by simp, List.getLast?_append, hx]
            rfl
          rw [this] at hc
          rw [← Option.some.inj hc]
          exact hw.2 x (List.mem_of_getLast? hx)) (by simp)
      refine ⟨s, ?_, ?_, h3, h4⟩
      · rw [← h1]
        simp
      · rw [h2]
        cases bs <;> simp [List.intercalate]
  obtain ⟨s, h1, h2, h3, h4⟩ := key branches (py! "* (HEAD detached at " ++ w ++ py! ")") hb (by
    refine ⟨?_, ?_⟩
    · intro c hc
      simp at hc
      subst hc
      decide
    · intro c hc
      rw [List.getLast?_append] at hc
      simp at hc
      subst hc
      decide) (by simp)
  rw [← h2, ← stripBytes_newline h3 h4, ← h1]
  simp [detachedOutput]

/-- **C107.**  If no branch is checked out (e.g. on a build server), the branch reported is `master` if it contains the commit, else
the first branch listed by git that does, else none. -/
theorem C107_detached {env : Env} {root describe full w : Str} {branches : List Str} (h : Repo env root describe full)
    (hb : Prints env root [py! "rev-parse", py! "--abbrev-ref", py! "HEAD"] (py! "HEAD\n"))
    (hb' : Prints env root [py! "branch", py! "--contains"] (detachedOutput w branches))
    (hw : '\n' ∉ w) (hbr : ∀ b ∈ branches, IsWord b)
    {p : Pieces} (hp : gitPieces (fun args => runCommand env.spawn args root (gits env.win32)) tagPrefix = .ok p) :
    p.branch = if py! "master" ∈ branches then some (py! "master") else branches.head? := by
  have hword : IsWord (py! "HEAD") := ⟨by simp, by decide⟩
  have e : stripBytes (py! "HEAD\n") = py! "HEAD" := stripBytes_newline (tight_word hword) hword.1
  rw [pieces_branch h hb hb' hp, e, strip_tight (tight_word hword), if_pos rfl, detached_strip hbr]
  unfold detachedBranch
  simp only
  rw [splitOn_lines (by simp)]
  · have e1 : (py! "* (HEAD detached at " ++ w ++ py! ")").contains '(' = true := by simp
    have e2 : (branches.map fun b => py! "  " ++ b).map (fun b => b.drop 2) = branches := by
      rw [List.map_map]
      exact List.map_id' _
    simp only
    rw [if_pos e1, e2]
    simp
  · intro l hl
    rcases List.mem_cons.1 hl with rfl | hl
    · simp [hw]
    · obtain ⟨b, hb, rfl⟩ := List.mem_map.1 hl
      have := (hbr b hb).2
      have hn : '\n' ∉ b := fun hm => absurd (this _ hm) (by decide)
      simp [hn]

example {p : Pieces} (hp : gitPieces (fun args => runCommand
    (Ex.machine unexpanded Ex.versionFile (Ex.answers (py! "v1.1.2-3-g0a1b2c3"))).spawn args (py! "/src/kk") (gits false)) tagPrefix =
      .ok p) : p.branch = some (py! "master") :=
  C107_detached (w := py! "0a1b2c3") (branches := [py! "master"]) (Ex.checkout (py! "v1.1.2-3-g0a1b2c3")).toRepo rfl rfl
    (by decide) (by intro b hb; simp at hb; subst hb; exact ⟨by simp, by decide⟩) hp

end KK.Version
