import Verif.Spec.Version

/-! # Lemmas about the model of `_version.py` -/

namespace KK.Version

variable [Unicode]

set_option linter.unusedSectionVars false

/-! ## Characters and digits -/

theorem char_le_iff (a b : Char) : a ≤ b ↔ a.toNat ≤ b.toNat := by
  rw [Char.le_def, UInt32.le_iff_toNat_le]; rfl

theorem isDigit_iff (c : Char) : c.isDigit = true ↔ 48 ≤ c.toNat ∧ c.toNat ≤ 57 := by
  have h1 := char_le_iff '0' c
  have h2 := char_le_iff c '9'
  simp only [Char.isDigit]
  simp [UInt32.le_iff_toNat_le]

theorem digit_eq {c : Char} (h : c.isDigit = true) : ∃ d : Fin 10, c = Char.ofNat (48 + d) ∧ c.toNat = 48 + d := by
  rw [isDigit_iff] at h
  refine ⟨⟨c.toNat - 48, by omega⟩, ?_, by simp; omega⟩
  have : 48 + (c.toNat - 48) = c.toNat := by omega
  simp only [this]
  exact (Char.ofNat_toNat c).symm

theorem digit_isDecimal {c : Char} (h : c.isDigit = true) : Unicode.isDecimal c = true := by
  obtain ⟨d, hd, -⟩ := digit_eq h
  rw [hd]; exact (Unicode.ascii d).1

theorem digit_value {c : Char} (h : c.isDigit = true) : Unicode.value c = c.toNat - 48 := by
  obtain ⟨d, hd, hn⟩ := digit_eq h
  rw [hn, hd, (Unicode.ascii d).2]; omega

theorem fmtNat_digit {n : ℕ} {c : Char} (h : c ∈ fmtNat n) : c.isDigit = true :=
  Nat.isDigit_of_mem_toDigits (b := 10) (by decide) (by decide) h

theorem fmtNat_ne_nil (n : ℕ) : fmtNat n ≠ [] := Nat.toDigits_ne_nil

theorem toInt_fmtNat (n : ℕ) : toInt (fmtNat n) = n := by
  have key : ∀ (l : Str) (a : ℕ), (∀ c ∈ l, c.isDigit = true) →
      l.foldl (fun n c => 10 * n + Unicode.value c) a = l.foldl (fun n c => 10 * n + (c.toNat - '0'.toNat)) a := by
    intro l
    induction l with
    | nil => intros; rfl
    | cons c l ih =>
      intro a h
      simp only [List.foldl_cons]
      rw [digit_value (h c (by simp)), ih _ (fun c hc => h c (by simp [hc]))]
      rfl
  rw [toInt, key _ _ (fun c hc => fmtNat_digit hc), ← Nat.ofDigitChars_eq_foldl]
  exact Nat.ofDigitChars_ten_toDigits

theorem fmtNat_injective : Function.Injective fmtNat := fun a b h => by
  have : Nat.ofDigitChars 10 (fmtNat a) 0 = Nat.ofDigitChars 10 (fmtNat b) 0 := by rw [h]
  simpa [fmtNat, Nat.ofDigitChars_ten_toDigits] using this

theorem isHash_isHex {h : Str} (hh : IsHash h) : ∀ c ∈ h, isHex c = true := by
  intro c hc
  have := hh.2 c hc
  simp only [isHex, Bool.or_eq_true, Bool.and_eq_true, decide_eq_true_eq]
  exact this

theorem hex_ne {c d : Char} (h : isHex c = true) (hd : isHex d = false) : c ≠ d := by
  rintro rfl; simp [h] at hd

theorem digit_ne {c d : Char} (h : c.isDigit = true) (hd : d.isDigit = false) : c ≠ d := by
  rintro rfl; simp [h] at hd

/-! ## `strip` -/

theorem dropWhile_cons_neg {p : Char → Bool} {c : Char} {s : Str} (h : p c = false) :
    (c :: s).dropWhile p = c :: s := by simp [h]

/-- A string whose ends are not stripped. -/
def Tight (p : Char → Bool) (s : Str) : Prop :=
  (∀ c, s.head? = some c → p c = false) ∧ (∀ c, s.getLast? = some c → p c = false)

theorem dropWhile_tight {p : Char → Bool} {s : Str} (h : ∀ c, s.head? = some c → p c = false) : s.dropWhile p = s := by
  cases s with
  | nil => rfl
  | cons c s => exact dropWhile_cons_neg (h c rfl)

theorem dropWhile_append_all {p : Char → Bool} {a s : Str} (ha : ∀ c ∈ a, p c = true) :
    (a ++ s).dropWhile p = s.dropWhile p := by
  induction a with
  | nil => rfl
  | cons c a ih =>
    rw [List.cons_append, List.dropWhile_cons_of_pos (ha c (by simp))]
    exact ih fun c hc => ha c (by simp [hc])

theorem stripBy_surrounded {p : Char → Bool} {a s b : Str} (ha : ∀ c ∈ a, p c = true) (hb : ∀ c ∈ b, p c = true)
    (h : Tight p s) (hs : s ≠ []) : stripBy p (a ++ s ++ b) = s := by
  unfold stripBy
  rw [List.append_assoc, dropWhile_append_all ha]
  rw [dropWhile_tight (s := s ++ b) (by
    intro c hc
    cases s with
    | nil => exact absurd rfl hs
    | cons d s => exact h.1 c (by simpa using hc))]
  rw [List.reverse_append, dropWhile_append_all (by simpa using hb),
    dropWhile_tight (by intro c hc; exact h.2 c (by rw [List.getLast?_eq_head?_reverse]; exact hc)), List.reverse_reverse]

theorem stripBy_tight {p : Char → Bool} {s : Str} (h : Tight p s) : stripBy p s = s := by
  by_cases hs : s = []
  · subst hs; rfl
  · simpa using stripBy_surrounded (a := []) (b := []) (by simp) (by simp) h hs

theorem stripBy_newline {p : Char → Bool} {s : Str} (hn : p '\n' = true) (h : Tight p s) (hs : s ≠ []) :
    stripBy p (s ++ ['\n']) = s := by
  simpa using stripBy_surrounded (a := []) (b := ['\n']) (by simp) (by simpa using hn) h hs

/-- ASCII white space is white space. -/
theorem tight_bytes {s : Str} (h : Tight isSpace s) :
    Tight (fun c => (9 ≤ c.toNat && c.toNat ≤ 13) || c.toNat == 32) s := by
  have key : ∀ c : Char, isSpace c = false → ((9 ≤ c.toNat && c.toNat ≤ 13) || c.toNat == 32) = false := by
    intro c hc
    simp only [isSpace, Bool.or_eq_false_iff, Bool.and_eq_false_iff, decide_eq_false_iff_not, beq_eq_false_iff_ne] at hc ⊢
    omega
  exact ⟨fun c hc => key c (h.1 c hc), fun c hc => key c (h.2 c hc)⟩

theorem strip_tight {s : Str} (h : Tight isSpace s) : strip s = s := stripBy_tight h

theorem stripBytes_newline {s : Str} (h : Tight isSpace s) (hs : s ≠ []) : stripBytes (s ++ ['\n']) = s :=
  stripBy_newline (by decide) (tight_bytes h) hs

/-! ## The path of the root directory -/

theorem dirname_join {r n : Str} (hr : r ≠ []) (hl : r.getLast? ≠ some '/') (hn : '/' ∉ n) :
    dirname (r ++ '/' :: n) = r := by
  have hd : ((r ++ '/' :: n).reverse.dropWhile (· ≠ '/')).reverse = r ++ ['/'] := by
    rw [List.reverse_append, List.reverse_cons, List.append_assoc, dropWhile_append_all (by
      intro c hc
      simp only [decide_eq_true_eq]
      rintro rfl
      exact hn (by simpa using hc))]
    rw [List.singleton_append, List.dropWhile_cons_of_neg (by simp)]
    simp
  unfold dirname
  rw [hd]
  have hall : (r ++ ['/']).all (· = '/') = false := by
    rw [List.all_eq_false]
    obtain ⟨c, hc⟩ : ∃ c, r.getLast? = some c := by
      cases h : r.getLast? with
      | none => exact absurd (List.getLast?_eq_none_iff.1 h) hr
      | some c => exact ⟨c, rfl⟩
    refine ⟨c, List.mem_append_left _ (List.mem_of_getLast? hc), ?_⟩
    simp only [decide_eq_true_eq]
    rintro rfl
    exact hl hc
  simp only [hall, Bool.false_eq_true, if_false, List.reverse_append, List.reverse_singleton, List.singleton_append]
  rw [List.dropWhile_cons_of_pos (by simp), dropWhile_tight (by
    intro c hc
    simp only [decide_eq_false_iff_not]
    rintro rfl
    rw [← List.getLast?_eq_head?_reverse] at hc
    exact hl hc), List.reverse_reverse]

theorem rootOf_file {r : Str} (hr : r ≠ []) (hl : r.getLast? ≠ some '/') :
    rootOf (r ++ py! "/src/kalmankit/_version.py") = r := by
  have h : (splitOn '/' versionfileSource).length = 3 := by decide
  have hf : ∀ (l : List Str) (a : Str), l.length = 3 → l.foldl (fun root _ => dirname root) a = dirname (dirname (dirname a)) := by
    intro l a hl
    match l, hl with
    | [_, _, _], _ => rfl
  unfold rootOf
  rw [hf _ _ h]
  have e1 : r ++ py! "/src/kalmankit/_version.py" = (r ++ py! "/src/kalmankit") ++ '/' :: py! "_version.py" := by simp
  have e2 : r ++ py! "/src/kalmankit" = (r ++ py! "/src") ++ '/' :: py! "kalmankit" := by simp
  have e3 : r ++ py! "/src" = r ++ '/' :: py! "src" := by simp
  rw [e1, dirname_join (by simp) (by simp) (by decide), e2, dirname_join (by simp) (by simp) (by decide), e3,
    dirname_join hr hl (by decide)]

/-! ## The regular expression -/

theorem takeWhile_append_stop {p : Char → Bool} {a s : Str} (ha : ∀ c ∈ a, p c = true)
    (hs : ∀ c, s.head? = some c → p c = false) : (a ++ s).takeWhile p = a := by
  induction a with
  | nil =>
    cases s with
    | nil => rfl
    | cons c s => simp [hs c rfl]
  | cons c a ih =>
    rw [List.cons_append, List.takeWhile_cons_of_pos (ha c (by simp)), ih fun c hc => ha c (by simp [hc])]

theorem dropWhile_append_stop {p : Char → Bool} {a s : Str} (ha : ∀ c ∈ a, p c = true)
    (hs : ∀ c, s.head? = some c → p c = false) : (a ++ s).dropWhile p = s := by
  rw [dropWhile_append_all ha, dropWhile_tight hs]

theorem reRest_match {num : ℕ} {hash : Str} (hh : IsHash hash) :
    reRest (py! "-" ++ fmtNat num ++ py! "-g" ++ hash) = some (fmtNat num, hash) := by
  have e : py! "-" ++ fmtNat num ++ py! "-g" ++ hash = '-' :: (fmtNat num ++ '-' :: 'g' :: hash) := by simp
  have hd : ∀ c ∈ fmtNat num, Unicode.isDecimal c = true := fun c hc => digit_isDecimal (fmtNat_digit hc)
  have hs : ∀ c, ('-' :: 'g' :: hash).head? = some c → Unicode.isDecimal c = false := by
    intro c hc; simp at hc; subst hc; exact Unicode.hyphen
  rw [e]
  simp only [reRest]
  rw [takeWhile_append_stop hd hs, dropWhile_append_stop hd hs]
  have h1 : hash.takeWhile isHex = hash := by
    simpa using takeWhile_append_stop (s := []) (isHash_isHex hh) (by simp)
  have h2 : hash.dropWhile isHex = [] := by
    simpa using dropWhile_append_stop (s := []) (isHash_isHex hh) (by simp)
  simp [h1, h2, fmtNat_ne_nil, hh.1]

theorem reRest_none_of_head {s : Str} (h : s.head? ≠ some '-') : reRest s = none := by
  cases s with
  | nil => rfl
  | cons c s =>
    have : c ≠ '-' := fun e => h (by simp [e])
    unfold reRest
    split
    · rename_i heq; simp at heq; exact absurd heq.1 this
    · rfl

theorem reRest_none_hash (t : Str) : reRest ('-' :: 'g' :: t) = none := by
  have : Unicode.isDecimal 'g' = false := Unicode.letter _ (by decide)
  simp [reRest, this]

/-- No suffix of `NUM-gHASH` matches. -/
theorem reRest_none_suffix {num : ℕ} {hash : Str} (hh : IsHash hash) {s : Str}
    (hs : s <:+ fmtNat num ++ '-' :: 'g' :: hash) : reRest s = none := by
  by_cases hd : s.head? = some '-'
  · obtain ⟨t, ht⟩ := hs
    cases s with
    | nil => simp at hd
    | cons c s =>
      simp only [List.head?_cons, Option.some.injEq] at hd
      subst hd
      obtain ⟨a, ha1, ha2⟩ | ⟨a, ha1, ha2⟩ := List.append_eq_append_iff.1 ht
      · -- `fmtNat num = t ++ a`
        cases a with
        | nil =>
          simp only [List.nil_append] at ha2
          rw [ha2]
          exact reRest_none_hash hash
        | cons d a =>
          simp only [List.cons_append, List.cons.injEq] at ha2
          have : d ∈ fmtNat num := by rw [ha1]; simp
          rw [← ha2.1] at this
          exact absurd (fmtNat_digit this) (by decide)
      · -- `t = fmtNat num ++ a`
        cases a with
        | nil =>
          simp only [List.nil_append] at ha2
          rw [← ha2]
          exact reRest_none_hash hash
        | cons d a =>
          simp only [List.cons_append, List.cons.injEq] at ha2
          cases a with
          | nil => simp at ha2
          | cons d' a =>
            simp only [List.cons_append, List.cons.injEq] at ha2
            have : '-' ∈ hash := by rw [ha2.2.2]; simp
            exact absurd (isHash_isHex hh _ this) (by decide)
  · exact reRest_none_of_head hd

theorem reFrom_skip {s : Str} {i : ℕ} : ∀ k, (∀ j, i < j → reRest (s.drop j) = none) → reFrom s (i + k) = reFrom s i := by
  intro k h
  induction k with
  | zero => rfl
  | succ k ih =>
    rw [← Nat.add_assoc, reFrom, h (i + k + 1) (by omega)]
    split <;> exact ih

theorem reDescribe_tagged {tag : Str} (ht : tag ≠ []) (hn : '\n' ∉ tag) {num : ℕ} {hash : Str} (hh : IsHash hash) :
    reDescribe (tag ++ py! "-" ++ fmtNat num ++ py! "-g" ++ hash) = some (tag, fmtNat num, hash) := by
  set s := tag ++ py! "-" ++ fmtNat num ++ py! "-g" ++ hash with hs
  have e : s = tag ++ '-' :: (fmtNat num ++ '-' :: 'g' :: hash) := by simp [hs]
  have hlen : s.length = tag.length + (s.length - tag.length) := by rw [e]; simp
  unfold reDescribe
  rw [hlen, reFrom_skip]
  · obtain ⟨m, hm⟩ : ∃ m, tag.length = m + 1 := by
      cases tag with
      | nil => exact absurd rfl ht
      | cons c t => exact ⟨_, rfl⟩
    rw [hm, reFrom, ← hm]
    have h1 : s.take tag.length = tag := by rw [e]; simp
    have h2 : s.drop tag.length = py! "-" ++ fmtNat num ++ py! "-g" ++ hash := by rw [e]; simp
    have hall : tag.all (· ≠ '\n') = true := by
      rw [List.all_eq_true]
      intro c hc
      simp only [decide_eq_true_eq]
      rintro rfl
      exact hn hc
    rw [h1, h2, hall, reRest_match hh]
    simp
  · intro j hj
    obtain ⟨m, rfl⟩ : ∃ m, j = tag.length + (m + 1) := ⟨j - tag.length - 1, by omega⟩
    have : s.drop (tag.length + (m + 1)) = (fmtNat num ++ '-' :: 'g' :: hash).drop m := by
      rw [e, List.drop_append]; simp
    rw [this]
    exact reRest_none_suffix hh (List.drop_suffix _ _)

/-! ## The `-dirty` suffix -/

theorem hash_last {h : Str} (hh : IsHash h) : ∃ c, h.getLast? = some c ∧ isHex c = true := by
  cases hl : h.getLast? with
  | none => exact absurd (List.getLast?_eq_none_iff.1 hl) hh.1
  | some c => exact ⟨c, rfl, isHash_isHex hh c (List.mem_of_getLast? hl)⟩

theorem not_endswith_hash {a h : Str} (hh : IsHash h) : endswith (a ++ h) (py! "-dirty") = false := by
  by_contra hc
  rw [Bool.not_eq_false, endswith, List.isSuffixOf_iff_suffix] at hc
  obtain ⟨t, ht⟩ := hc
  obtain ⟨c, hc, hx⟩ := hash_last hh
  have h1 : (a ++ h).getLast? = some c := by simp [List.getLast?_append, hc]
  rw [← ht] at h1
  simp [List.getLast?_append] at h1
  subst h1
  exact absurd hx (by decide)

theorem dirty_iff {a h : Str} (hh : IsHash h) (dirty : Bool) :
    endswith (a ++ h ++ if dirty then py! "-dirty" else []) (py! "-dirty") = dirty := by
  cases dirty with
  | false => simpa using not_endswith_hash hh
  | true =>
    rw [endswith, List.isSuffixOf_iff_suffix]
    exact ⟨a ++ h, by simp⟩

theorem undirty_hash {a h : Str} (hh : IsHash h) (dirty : Bool) :
    undirty (a ++ h ++ if dirty then py! "-dirty" else []) = a ++ h := by
  unfold undirty
  rw [dirty_iff hh]
  cases dirty with
  | false => simp
  | true =>
    simp only [if_true]
    have : (a ++ h ++ py! "-dirty").length - 6 = (a ++ h).length := by simp; omega
    rw [this, List.take_left']
    rfl

/-! ## Dates -/

theorem isBreak_isSpace {c : Char} (h : isSpace c = false) : isBreak c = false := by
  simp only [isSpace, isBreak, Bool.or_eq_false_iff, Bool.and_eq_false_iff, decide_eq_false_iff_not,
    beq_eq_false_iff_ne] at h ⊢
  omega

theorem splitlinesAux_single : ∀ (s cur : Str), (∀ c ∈ s, isBreak c = false) → cur ++ s ≠ [] →
    splitlinesAux cur s = [cur ++ s]
  | [], cur, _, hne => by
    rw [splitlinesAux]
    simp only [List.append_nil] at hne ⊢
    simp [hne]
  | c :: s, cur, h, _ => by
    have hc := h c (by simp)
    have ih := splitlinesAux_single s (cur ++ [c]) (fun d hd => h d (by simp [hd])) (by simp)
    cases s with
    | nil => rw [splitlinesAux]; simp only [hc, Bool.false_eq_true, if_false, ih]; simp; simp
    | cons d s =>
      have hd : d ≠ '\n' := fun e => by
        have := h d (by simp)
        rw [e] at this
        exact absurd this (by decide)
      rw [splitlinesAux]
      · simp only [hc, Bool.false_eq_true, if_false, ih]; simp
      · intro rest e
        simp at e
        exact absurd e.1 hd

theorem splitlines_single {s : Str} (hs : s ≠ []) (h : ∀ c ∈ s, isBreak c = false) : splitlines s = [s] := by
  unfold splitlines
  simpa using splitlinesAux_single s [] h (by simpa using hs)

theorem replaceSpace_first {new a s : Str} (ha : ∀ c ∈ a, isSpace c = false) :
    replaceSpace new (a ++ ' ' :: s) = a ++ new ++ s := by
  induction a with
  | nil => simp [replaceSpace]
  | cons c a ih =>
    have : c ≠ ' ' := by
      rintro rfl
      exact absurd (ha ' ' (by simp)) (by decide)
    rw [List.cons_append, replaceSpace, if_neg this, ih fun c hc => ha c (by simp [hc])]
    simp

theorem tight_of_ends {a s b : Str} (ha : IsWord a) (hb : IsWord b) : Tight isSpace (a ++ s ++ b) := by
  constructor
  · intro c hc
    obtain ⟨d, a, rfl⟩ := List.exists_cons_of_ne_nil ha.1
    simp only [List.cons_append, List.head?_cons, Option.some.injEq] at hc
    exact ha.2 c (by simp [hc])
  · intro c hc
    cases hl : b.getLast? with
    | none => exact absurd (List.getLast?_eq_none_iff.1 hl) hb.1
    | some d =>
      simp only [List.getLast?_append, hl, Option.some_or, Option.some.injEq] at hc
      exact hc ▸ hb.2 d (List.mem_of_getLast? hl)

theorem tight_word {a : Str} (ha : IsWord a) : Tight isSpace a := by
  constructor
  · intro c hc
    exact ha.2 c (List.mem_of_mem_head? (by rw [hc]; rfl))
  · intro c hc
    exact ha.2 c (List.mem_of_getLast? hc)

theorem gitDate_tight {day time zone : Str} (hd : IsWord day) (hz : IsWord zone) :
    Tight isSpace (gitDate day time zone) := by
  have : gitDate day time zone = day ++ (py! " " ++ time ++ py! " ") ++ zone := by simp [gitDate]
  rw [this]
  exact tight_of_ends hd hz

theorem isoDate_gitDate {day time zone : Str} (hd : IsWord day) (ht : IsWord time) (hz : IsWord zone) :
    isoDate (gitDate day time zone) = .ok (day ++ 'T' :: time ++ zone) := by
  have hne : gitDate day time zone ≠ [] := by simp [gitDate]
  have hb : ∀ c ∈ gitDate day time zone, isBreak c = false := by
    intro c hc
    simp only [gitDate, List.mem_append, List.mem_singleton] at hc
    rcases hc with (((hc | rfl) | hc) | rfl) | hc
    · exact isBreak_isSpace (hd.2 c hc)
    · decide
    · exact isBreak_isSpace (ht.2 c hc)
    · decide
    · exact isBreak_isSpace (hz.2 c hc)
  unfold isoDate
  rw [splitlines_single hne hb]
  simp only [List.getLast?_singleton]
  rw [strip_tight (gitDate_tight hd hz)]
  have e : gitDate day time zone = day ++ ' ' :: (time ++ ' ' :: zone) := by simp [gitDate]
  rw [e, replaceSpace_first hd.2]
  have e2 : day ++ py! "T" ++ (time ++ ' ' :: zone) = (day ++ 'T' :: time) ++ ' ' :: zone := by simp
  rw [e2, replaceSpace_first (by
    intro c hc
    simp only [List.mem_append, List.mem_cons] at hc
    rcases hc with hc | rfl | hc
    · exact hd.2 c hc
    · decide
    · exact ht.2 c hc)]
  simp

/-! ## `split()` -/

theorem words_word {w s : Str} (hw : IsWord w) (hs : ∀ c, s.head? = some c → isSpace c = true) :
    words (w ++ s) = w :: words s := by
  obtain ⟨hne, hall⟩ := hw
  induction w with
  | nil => exact absurd rfl hne
  | cons c w ih =>
    have hc := hall c (by simp)
    cases w with
    | nil =>
      cases s with
      | nil => simp [words, hc]
      | cons d s => simp [words, hc, hs d rfl]
    | cons d w =>
      have hd := hall d (by simp)
      have := ih (by simp) (fun c hc => hall c (by simp [hc]))
      simp only [List.cons_append] at this ⊢
      rw [words, hc]
      simp [hd, this]

theorem words_space {c : Char} {s : Str} (hc : isSpace c = true) : words (c :: s) = words s := by
  cases s <;> simp [words, hc]

theorem words_init {l : List Str} (hl : ∀ w ∈ l, IsWord w) (s : Str) :
    words ((l.flatMap fun w => w ++ ['\n']) ++ s) = l ++ words s := by
  induction l with
  | nil => rfl
  | cons w l ih =>
    have e : (((w :: l).flatMap fun w => w ++ ['\n']) ++ s) = w ++ '\n' :: ((l.flatMap fun w => w ++ ['\n']) ++ s) := by
      simp
    rw [e, words_word (hl w (by simp)) (by simp; decide), words_space (by decide), ih fun w hw => hl w (by simp [hw])]
    rfl

theorem words_lines {l : List Str} (hl : ∀ w ∈ l, IsWord w) :
    words (stripBytes (l.flatMap fun w => w ++ ['\n'])) = l := by
  rcases List.eq_nil_or_concat l with rfl | ⟨init, w, rfl⟩
  · rfl
  · have hw : IsWord w := hl w (by simp)
    have hi : ∀ x ∈ init, IsWord x := fun x hx => hl x (by simp [hx])
    have e : ((init ++ [w]).flatMap fun w => w ++ ['\n']) = ((init.flatMap fun w => w ++ ['\n']) ++ w) ++ ['\n'] := by
      simp
    rw [List.concat_eq_append, e, stripBytes_newline]
    · rw [words_init hi]
      have := words_word (s := []) hw (by simp)
      rw [List.append_nil] at this
      rw [this]
      rfl
    · cases init with
      | nil => simpa using tight_word hw
      | cons x init =>
        have := tight_of_ends (a := x) (s := '\n' :: (init.flatMap fun w => w ++ ['\n'])) (hi x (by simp)) hw
        simpa using this
    · simp [hw.1]

/-! ## Running git -/

theorem run_prints {env : Env} {root : Str} {args : List Str} {out : Str} (h : Prints env root args out) :
    runCommand env.spawn args root (gits env.win32) = .ok (some (stripBytes out), some 0) := by
  unfold Prints at h
  unfold gits
  cases hw : env.win32 with
  | false =>
    simp only [hw, Bool.false_eq_true, if_false] at h ⊢
    simp [runCommand, h]
  | true =>
    simp only [hw, if_true] at h ⊢
    rcases h with h | ⟨h1, h2⟩
    · simp [runCommand, h]
    · simp [runCommand, h1, h2]

theorem hash_word {h : Str} (hh : IsHash h) : IsWord h := by
  refine ⟨hh.1, fun c hc => ?_⟩
  have := hh.2 c hc
  simp only [isSpace, Bool.or_eq_false_iff, Bool.and_eq_false_iff, decide_eq_false_iff_not, beq_eq_false_iff_ne]
  omega

theorem keywords_unexpanded (tp : Str) : gitVersionsFromKeywords unexpanded tp = .error .notThisMethod := by
  have h1 : isoDate (py! "$Format:%ci$") = .ok (py! "$Format:%ci$") := by
    unfold isoDate
    rw [splitlines_single (by simp) (by decide)]
    simp [strip_tight (s := py! "$Format:%ci$") ⟨by simp; decide, by simp; decide⟩, replaceSpace]
  have h2 : strip (py! "$Format:%d$") = py! "$Format:%d$" := strip_tight ⟨by simp; decide, by simp; decide⟩
  simp only [gitVersionsFromKeywords, unexpanded]
  rw [h2]
  have : Option.mapM isoDate (some (py! "$Format:%ci$")) = .ok (some (py! "$Format:%ci$")) := by
    simp only [Option.mapM_some, h1]; rfl
  rw [this]
  rfl

theorem repo_fromGit {env : Env} {root describe full : Str} (h : Repo env root describe full) :
    getVersions env = fromGit env root := by
  unfold getVersions
  rw [h.keywords, keywords_unexpanded, h.file]
  simp only
  rw [rootOf_file h.rootDir.1 h.rootDir.2]

theorem repo_pieces {env : Env} {root describe full : Str} (h : Repo env root describe full) (hd : Tight isSpace describe)
    (hne : describe ≠ []) (hf : IsHash full) :
    ∃ branch, gitPieces (fun args => runCommand env.spawn args root (gits env.win32)) tagPrefix =
      parseDescribe (fun args => runCommand env.spawn args root (gits env.win32)) tagPrefix describe full branch := by
  obtain ⟨gd, hgd⟩ := h.gitDir
  obtain ⟨br, hbr⟩ := h.branchOut
  obtain ⟨brs, hbrs⟩ := h.branchesOut
  have hfull := stripBytes_newline (tight_word (hash_word hf)) hf.1
  have hdesc := stripBytes_newline hd hne
  refine ⟨if strip (stripBytes br) = py! "HEAD" then detachedBranch (stripBytes brs) else some (strip (stripBytes br)), ?_⟩
  unfold gitPieces
  simp only
  rw [run_prints hgd]
  simp only
  rw [show (tagPrefix ++ py! "[[:digit:]]*") = py! "v[[:digit:]]*" from rfl, run_prints h.describeOut]
  simp only
  rw [run_prints h.headOut]
  simp only
  rw [hfull, hdesc, strip_tight hd, strip_tight (tight_word (hash_word hf))]
  unfold branchThen
  simp only
  rw [run_prints hbr]
  simp only
  split_ifs with hH
  · rw [run_prints hbrs]
    rfl
  · rfl

/-- In a checkout, `get_versions` renders the pieces parsed from the output of `git describe`. -/
theorem checkout_fromGit {env : Env} {root describe full : Str}
    (h : Repo env root describe full) (hd : Tight isSpace describe) (hne : describe ≠ [])
    (hf : IsHash full) :
    ∃ branch, ∀ p, parseDescribe (fun args => runCommand env.spawn args root (gits env.win32)) tagPrefix describe full branch
      = .ok p → ∀ v, render p style = .ok v → getVersions env = .ok v := by
  obtain ⟨branch, hb⟩ := repo_pieces h hd hne hf
  refine ⟨branch, fun p hp v hv => ?_⟩
  rw [repo_fromGit h]
  unfold fromGit
  rw [hb, hp]
  simp only [hv]

theorem run_fails {env : Env} {root : Str} {args : List Str} (h : Fails env root args) :
    ∃ rc, runCommand env.spawn args root (gits env.win32) = .ok (none, rc) ∧ rc ≠ some 0 := by
  unfold Fails at h
  unfold gits
  cases hw : env.win32 with
  | false =>
    simp only [hw, Bool.false_eq_true, if_false] at h ⊢
    rcases h with h | h | ⟨out, rc, h, h0⟩
    · exact ⟨none, by simp [runCommand, h], by simp⟩
    · exact ⟨none, by simp [runCommand, h], by simp⟩
    · exact ⟨some rc, by simp [runCommand, h, h0], by simpa using h0⟩
  | true =>
    simp only [hw, if_true] at h ⊢
    rcases h with (h | ⟨out, rc, h, h0⟩) | ⟨h1, h | h | ⟨out, rc, h, h0⟩⟩
    · exact ⟨none, by simp [runCommand, h], by simp⟩
    · exact ⟨some rc, by simp [runCommand, h, h0], by simpa using h0⟩
    · exact ⟨none, by simp [runCommand, h, h1], by simp⟩
    · exact ⟨none, by simp [runCommand, h, h1], by simp⟩
    · exact ⟨some rc, by simp [runCommand, h, h1, h0], by simpa using h0⟩

theorem run_zero {env : Env} {root : Str} {args : List Str} {o : Option Str}
    (h : runCommand env.spawn args root (gits env.win32) = .ok (o, some 0)) : ∃ out, Prints env root args out := by
  unfold gits at h
  unfold Prints
  cases hw : env.win32 with
  | false =>
    simp only [hw, Bool.false_eq_true, if_false, runCommand] at h ⊢
    cases hs : env.spawn (py! "git") args root with
    | notFound => simp [hs] at h
    | osError => simp [hs] at h
    | exited out rc =>
      cases out with
      | none => simp [hs] at h
      | some out =>
        simp only [hs] at h
        split_ifs at h with h0
        · simp at h; exact absurd h.2 h0
        · simp only [not_not] at h0; exact ⟨out, by rw [h0]⟩
  | true =>
    simp only [hw, if_true, runCommand] at h ⊢
    cases hs : env.spawn (py! "git.cmd") args root with
    | osError => simp [hs] at h
    | exited out rc =>
      cases out with
      | none => simp [hs] at h
      | some out =>
        simp only [hs] at h
        split_ifs at h with h0
        · simp at h; exact absurd h.2 h0
        · simp only [not_not] at h0; exact ⟨out, .inl (by rw [h0])⟩
    | notFound =>
      simp only [hs] at h
      cases hs' : env.spawn (py! "git.exe") args root with
      | notFound => simp [hs'] at h
      | osError => simp [hs'] at h
      | exited out rc =>
        cases out with
        | none => simp [hs'] at h
        | some out =>
          simp only [hs'] at h
          split_ifs at h with h0
          · simp at h; exact absurd h.2 h0
          · simp only [not_not] at h0; exact ⟨out, .inr ⟨rfl, by rw [h0]⟩⟩

theorem run_ok {spawn : Str → List Str → Str → Spawn} (hdec : ∀ cmd args dir rc, spawn cmd args dir ≠ .exited none rc)
    (args : List Str) (dir : Str) : ∀ cmds, ∃ r, runCommand spawn args dir cmds = .ok r
  | [] => ⟨_, rfl⟩
  | cmd :: cmds => by
    unfold runCommand
    cases hs : spawn cmd args dir with
    | notFound => simpa using run_ok hdec args dir cmds
    | osError => exact ⟨_, rfl⟩
    | exited out rc =>
      cases out with
      | none => exact absurd hs (hdec _ _ _ _)
      | some out =>
        simp only
        split_ifs <;> exact ⟨_, rfl⟩

theorem mem_dropWhile {p : Char → Bool} {c : Char} {s : Str} (hc : c ∈ s) (hp : p c = false) : c ∈ s.dropWhile p := by
  induction s with
  | nil => simp at hc
  | cons d s ih =>
    rcases List.mem_cons.1 hc with rfl | hm
    · rw [List.dropWhile_cons_of_neg (by simp [hp])]; simp
    · rw [List.dropWhile_cons]
      split_ifs
      · exact ih hm
      · simp [hm]

theorem mem_stripBy {p : Char → Bool} {c : Char} {s : Str} (hc : c ∈ s) (hp : p c = false) : c ∈ stripBy p s := by
  unfold stripBy
  rw [List.mem_reverse]
  exact mem_dropWhile (by rw [List.mem_reverse]; exact mem_dropWhile hc hp) hp

theorem splitlinesAux_ne_nil (cur s : Str) (h : cur ≠ [] ∨ s ≠ []) : splitlinesAux cur s ≠ [] := by
  fun_induction splitlinesAux cur s <;> simp_all

theorem isoDate_ok {s : Str} (hs : s ≠ []) : ∃ d, isoDate s = .ok d := by
  unfold isoDate
  cases h : (splitlines s).getLast? with
  | none =>
    rw [List.getLast?_eq_none_iff] at h
    exact absurd h (splitlinesAux_ne_nil [] s (.inr hs))
  | some l => exact ⟨_, rfl⟩

theorem parentdirLoop_error {pre : Str} : ∀ k root e, parentdirLoop pre k root = .error e → e = .notThisMethod
  | 0, _, e, h => by simpa [parentdirLoop] using h.symm
  | k + 1, root, e, h => by
    unfold parentdirLoop at h
    split_ifs at h
    exact parentdirLoop_error k _ e h

theorem fromParentdir_ok (root : Str) : ∃ v, fromParentdir root = .ok v := by
  unfold fromParentdir
  split
  · exact ⟨_, rfl⟩
  · rename_i hne
    cases h : versionsFromParentdir parentdirPrefix root with
    | ok v => exact ⟨v, rfl⟩
    | error e =>
      have := parentdirLoop_error _ _ _ h
      subst this
      exact absurd h hne

theorem render_ok (p : Pieces) : ∃ v, render p style = .ok v := by
  unfold render
  cases p.error with
  | some e => exact ⟨_, rfl⟩
  | none => exact ⟨_, rfl⟩

end KK.Version
