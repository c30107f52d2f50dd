import Verif.Proofs.Build

/-! # Reading and importing a written `_version.py` -/

namespace KK.Version

/-! ### finding the JSON text -/

/-- The two strings differ at some common position. -/
def clash : Str → Str → Bool
  | p :: ps, a :: as => p ≠ a || clash ps as
  | _, _ => false

theorem clash_startswith {p a : Str} (h : clash p a = true) (s : Str) : startswith (a ++ s) p = false := by
  induction p generalizing a with
  | nil => cases a <;> simp [clash] at h
  | cons c p ih =>
    cases a with
    | nil => simp [clash] at h
    | cons d a =>
      simp only [clash, Bool.or_eq_true, decide_eq_true_eq] at h
      by_cases hcd : c = d
      · have := ih (a := a) (h.resolve_left (by simpa using hcd))
        simp only [startswith, List.cons_append, List.isPrefixOf, hcd] at this ⊢
        simpa using this
      · simp [startswith, List.isPrefixOf, hcd]

theorem searchBetween_skip {pre : Str} (post : Str) {a : Str} (h : ∀ i < a.length, clash pre (a.drop i) = true) (s : Str) :
    searchBetween pre post (a ++ s) = searchBetween pre post s := by
  induction a with
  | nil => rfl
  | cons c a ih =>
    have h0 := clash_startswith (h 0 (by simp)) s
    rw [List.drop_zero, List.cons_append] at h0
    rw [List.cons_append, searchBetween, h0]
    exact ih fun i hi => h (i + 1) (by simpa using hi)

theorem beforeLast_append {post : Str} {t : Str} (ht : beforeLast post t = some []) (x : Str) :
    beforeLast post (x ++ t) = some x := by
  induction x with
  | nil => exact ht
  | cons c x ih => rw [List.cons_append, beforeLast, ih]

set_option maxRecDepth 20000 in
theorem endMark : beforeLast (py! "'''  # END VERSION_JSON") (py! "'''" ++ fileTail) = some [] := by decide

/-- The part of the head before `version_json`. -/
def fileIntro : Str := fileHead.take (fileHead.length - 19)

set_option maxRecDepth 20000 in
theorem fileHead_eq : fileHead = fileIntro ++ py! "version_json = '''\n" := by decide

set_option maxRecDepth 20000 in
theorem fileIntro_clash : ∀ i < fileIntro.length, clash (py! "version_json = '''\n") (fileIntro.drop i) = true := by
  decide

theorem search_versionFile (x : Str) :
    searchBetween (py! "version_json = '''\n") (py! "'''  # END VERSION_JSON") (fileHead ++ x ++ py! "'''" ++ fileTail) =
      some x := by
  rw [fileHead_eq]
  simp only [List.append_assoc]
  rw [searchBetween_skip _ fileIntro_clash]
  have e : ∀ s : Str, searchBetween (py! "version_json = '''\n") (py! "'''  # END VERSION_JSON")
      (py! "version_json = '''\n" ++ s) =
      match beforeLast (py! "'''  # END VERSION_JSON") s with
      | some g => some g
      | none => searchBetween (py! "version_json = '''\n") (py! "'''  # END VERSION_JSON")
        ((py! "version_json = '''\n" ++ s).drop 1) := by
    intro s
    rfl
  rw [e, beforeLast_append endMark]

/-! ### no keywords in it -/

theorem splitOn_join (sep : Char) (a b : Str) : splitOn sep (a ++ sep :: b) = splitOn sep a ++ splitOn sep b := by
  induction a with
  | nil => simp [splitOn]
  | cons c a ih =>
    rw [List.cons_append, splitOn, splitOn]
    split_ifs
    · rw [ih]; rfl
    · rw [ih]
      cases h : splitOn sep a with
      | nil =>
        exfalso
        cases a with
        | nil => simp [splitOn] at h
        | cons d a =>
          rw [splitOn] at h
          split_ifs at h
          split at h <;> simp at h
      | cons w ws => rfl

theorem splitOn_none {sep : Char} {a : Str} (h : sep ∉ a) : splitOn sep a = [a] := by
  induction a with
  | nil => rfl
  | cons c a ih =>
    simp only [List.mem_cons, not_or] at h
    rw [splitOn, if_neg (Ne.symm h.1), ih h.2]

/-- The first visible character is not a `g`. -/
def Boring (line : Str) : Prop := (line.dropWhile isSpace).head? ≠ some 'g'

theorem strip_head {line : Str} {c : Char} {s : Str} (h : strip line = c :: s) : (line.dropWhile isSpace).head? = some c := by
  unfold strip stripBy at h
  generalize line.dropWhile isSpace = t at h ⊢
  have hp : (t.reverse.dropWhile isSpace).reverse <+: t := by
    have := List.dropWhile_suffix isSpace (l := t.reverse)
    rw [← List.reverse_prefix] at this
    simpa using this
  rw [h] at hp
  obtain ⟨r, rfl⟩ := hp
  rfl

theorem boring_start {line : Str} (h : Boring line) (p : Str) : startswith (strip line) ('g' :: p) = false := by
  by_contra hc
  rw [Bool.not_eq_false, startswith, List.isPrefixOf_iff_prefix] at hc
  obtain ⟨r, hr⟩ := hc
  exact h (strip_head (s := p ++ r) (by rw [← hr]; rfl))

theorem boring_line {line : Str} (h : Boring line) (kw : Keywords) : keywordLine kw line = kw := by
  simp only [keywordLine, boring_start h]
  rfl

theorem boring_lines {lines : List Str} (h : ∀ l ∈ lines, Boring l) (kw : Keywords) : lines.foldl keywordLine kw = kw := by
  induction lines with
  | nil => rfl
  | cons l ls ih => rw [List.foldl_cons, boring_line (h l (by simp)), ih fun l hl => h l (by simp [hl])]

theorem jsonChar_noNewline (c : Char) : '\n' ∉ jsonChar c := by
  have hd : ∀ n < 16, '\n' ≠ hexDigit n := by
    intro n hn
    interval_cases n <;> decide
  have hu : ∀ n, '\n' ∉ uEscape n := by
    intro n
    simp only [uEscape, List.cons_append, List.nil_append, List.mem_cons, List.not_mem_nil, or_false, not_or]
    refine ⟨by decide, by decide, ?_, ?_, ?_, ?_⟩ <;> exact hd _ (Nat.mod_lt _ (by norm_num))
  unfold jsonChar
  split_ifs with h1 h2 h3 h4 h5 h6 h7 h8 h9
  all_goals first
    | decide
    | exact hu _
    | skip
  · simp only [List.mem_cons, List.not_mem_nil, or_false]
    exact fun h => h3 h.symm
  · rw [List.mem_append, not_or]; exact ⟨hu _, hu _⟩

theorem json_noNewline (s : Str) : '\n' ∉ s.flatMap jsonChar := by
  simp only [List.mem_flatMap, not_exists, not_and]
  exact fun c _ => jsonChar_noNewline c

/-- An item, without the newline before it. -/
def itemLine (kv : Str × JVal) : Str := (itemText (fun s => s.flatMap jsonChar) kv).tail

theorem itemText_cons (kv : Str × JVal) : itemText (fun s => s.flatMap jsonChar) kv = '\n' :: itemLine kv := rfl

theorem itemLine_noNewline (kv : Str × JVal) : '\n' ∉ itemLine kv := by
  obtain ⟨k, v⟩ := kv
  have hk := json_noNewline k
  rcases v with _ | (_ | _) | s
  · simp [itemLine, itemText, valueText, hk]
  · simp [itemLine, itemText, valueText, hk]
  · simp [itemLine, itemText, valueText, hk]
  · have hs := json_noNewline s
    simp [itemLine, itemText, valueText, hk, hs]

theorem itemLine_boring (kv : Str × JVal) (r : Str) : Boring (itemLine kv ++ r) := by
  have : itemLine kv ++ r = ' ' :: '"' :: ((itemText (fun s => s.flatMap jsonChar) kv).drop 3 ++ r) := rfl
  rw [this, Boring]
  simp [show isSpace ' ' = true by decide, show isSpace '"' = false by decide]

theorem members_lines (kvs : Dict) (rest : Str) (h : ∀ l ∈ splitOn '\n' (py! "}" ++ rest), Boring l) (start : Str)
    (hs : ∀ l ∈ splitOn '\n' start, Boring l) :
    ∀ l ∈ splitOn '\n' (start ++ membersText (fun s => s.flatMap jsonChar) kvs ++ rest), Boring l := by
  induction kvs generalizing start with
  | nil =>
    have : start ++ membersText (fun s => s.flatMap jsonChar) [] ++ rest = start ++ '\n' :: (py! "}" ++ rest) := by
      simp [membersText]
    rw [this, splitOn_join]
    intro l hl
    rcases List.mem_append.1 hl with hl | hl
    · exact hs l hl
    · exact h l hl
  | cons kv kvs ih =>
    cases kvs with
    | nil =>
      have : start ++ membersText (fun s => s.flatMap jsonChar) [kv] ++ rest =
          (start ++ '\n' :: itemLine kv) ++ '\n' :: (py! "}" ++ rest) := by
        simp [membersText, itemText_cons]
      rw [this, splitOn_join, splitOn_join, splitOn_none (itemLine_noNewline kv)]
      intro l hl
      simp only [List.mem_append, List.mem_singleton] at hl
      rcases hl with (hl | rfl) | hl
      · exact hs l hl
      · have := itemLine_boring kv []
        rwa [List.append_nil] at this
      · exact h l hl
    | cons kv' kvs =>
      have : start ++ membersText (fun s => s.flatMap jsonChar) (kv :: kv' :: kvs) ++ rest =
          (start ++ '\n' :: (itemLine kv ++ py! ",")) ++ membersText (fun s => s.flatMap jsonChar) (kv' :: kvs) ++ rest := by
        simp [membersText, itemText_cons]
      rw [this]
      refine ih _ ?_
      rw [splitOn_join, splitOn_none (a := itemLine kv ++ py! ",")]
      · intro l hl
        simp only [List.mem_append, List.mem_singleton] at hl
        rcases hl with hl | rfl
        · exact hs l hl
        · exact itemLine_boring kv _
      · rw [List.mem_append, not_or]
        exact ⟨itemLine_noNewline kv, by decide⟩

instance (l : Str) : Decidable (Boring l) := inferInstanceAs (Decidable (_ ≠ _))

set_option maxRecDepth 20000 in
theorem head_boring : ∀ l ∈ splitOn '\n' (fileHead ++ py! "{"), Boring l := by decide

set_option maxRecDepth 20000 in
theorem tail_boring : ∀ l ∈ splitOn '\n' (py! "}" ++ (py! "\n'''" ++ fileTail)), Boring l := by decide

theorem versionFile_eq (v : Versions) : versionFile v.toDict =
    (fileHead ++ py! "{") ++ membersText (fun s => s.flatMap jsonChar) v.toDict ++ (py! "\n'''" ++ fileTail) := by
  simp [versionFile, dumps_toDict]

theorem versionFile_keywords (v : Versions) : gitGetKeywords (some (versionFile v.toDict)) = ⟨none, none, none⟩ := by
  rw [versionFile_eq]
  exact boring_lines (members_lines _ _ tail_boring _ head_boring) _

theorem toDict_ne (v : Versions) : v.toDict ≠ [] := by simp [Versions.toDict]

theorem toDict_nodup (v : Versions) : (v.toDict.map Prod.fst).Nodup := by rw [toDict_keys]; decide

theorem versionFile_read (v : Versions) : versionsFromFile (some (versionFile v.toDict)) = .ok v.toDict := by
  have e : versionFile v.toDict = fileHead ++ (dumps v.toDict ++ ['\n']) ++ py! "'''" ++ fileTail := by
    simp [versionFile]
  unfold versionsFromFile
  simp only
  rw [e, search_versionFile]
  simp only
  rw [dumps_toDict]
  exact (loads_text (toDict_ne v) (toDict_nodup v) fun kv _ s _ rest => ev_json s rest).1

/-! ### importing it -/

/-- The text evaluates to the value inside of a literal in triple quotes, whatever follows. -/
def Passes (text value : Str) : Prop :=
  ∀ rest q tail, Ev pyUnit rest q tail → Ev pyUnit (text ++ rest) (value ++ q) tail

theorem Passes.append {a b c d : Str} (h : Passes a b) (h' : Passes c d) : Passes (a ++ c) (b ++ d) := by
  intro rest q tail hr
  rw [List.append_assoc, List.append_assoc]
  exact h _ _ _ (h' _ _ _ hr)

theorem pyUnit_plain {c : Char} (h1 : c ≠ '\\') {rest : Str} (h2 : startswith (c :: rest) (py! "'''") = false) :
    pyUnit (c :: rest) = .ok (some [c], rest) := by
  simp [pyUnit, h1, h2]

theorem startswith_ne {c : Char} (h : c ≠ '\'') (rest : Str) : startswith (c :: rest) (py! "'''") = false := by
  simp [startswith, List.isPrefixOf, Ne.symm h]

theorem passes_plain {t : Str} (h : ∀ c ∈ t, c ≠ '\\' ∧ c ≠ '\'') : Passes t t := by
  induction t with
  | nil => exact fun rest q tail hr => hr
  | cons c t ih =>
    intro rest q tail hr
    have hc := h c (by simp)
    exact .piece (p := [c]) (pyUnit_plain hc.1 (startswith_ne hc.2 _)) (ih (fun d hd => h d (by simp [hd])) rest q tail hr)

theorem pyUnit_u (s : Str) : pyUnit ('\\' :: 'u' :: s) =
    match hex4 s with
    | none => .error .syntaxError
    | some (n, rest) => if 0xd800 ≤ n ∧ n ≤ 0xdfff then .error .unmodelled else .ok (some [Char.ofNat n], rest) := rfl

theorem pyUnit_bmp (c : Char) (h : c.toNat < 0x10000) (rest : Str) :
    pyUnit (uEscape c.toNat ++ rest) = .ok (some [c], rest) := by
  have hv := char_valid c
  simp only [uEscape, List.cons_append, List.nil_append, pyUnit_u]
  rw [hex4_digits h]
  simp only
  rw [if_neg (by omega), char_ofNat_toNat]

theorem jsonChar_visible {c : Char} (h1 : 32 ≤ c.toNat) (h2 : c.toNat < 0x10000) (h3 : c ≠ '"') (h4 : c ≠ '\\') :
    jsonChar c = if c.toNat ≤ 126 then [c] else uEscape c.toNat := by
  have e : ∀ d : Char, d.toNat < 32 → c ≠ d := fun d hd he => by rw [he] at h1; omega
  unfold jsonChar
  rw [if_neg h3, if_neg h4, if_neg (e '\n' (by decide)), if_neg (e '\r' (by decide)), if_neg (e '\t' (by decide)),
    if_neg (by omega), if_neg (by omega)]
  by_cases h : c.toNat ≤ 126
  · rw [if_pos ⟨h1, h⟩, if_pos h]
  · rw [if_neg (by omega), if_pos h2, if_neg h]

theorem jsonChar_head {c : Char} (h1 : 32 ≤ c.toNat) (h2 : c.toNat < 0x10000) (h3 : c ≠ '"') (h4 : c ≠ '\\') {s : Str}
    (h : jsonChar c ++ s = '\'' :: t) : c = '\'' ∧ s = t := by
  rw [jsonChar_visible h1 h2 h3 h4] at h
  split_ifs at h
  · simpa using h
  · simp [uEscape] at h

theorem passes_string {s : Str} (h : Harmless s) : Passes (s.flatMap jsonChar ++ ['"']) (s ++ ['"']) := by
  obtain ⟨hc, hq⟩ := h
  intro rest q tail hr
  rw [List.append_assoc, List.append_assoc]
  induction s with
  | nil => exact .piece (p := ['"']) (pyUnit_plain (by decide) (startswith_ne (by decide) _)) hr
  | cons c s ih =>
    have h1 := hc c (by simp)
    have ih' := ih (fun d hd => hc d (by simp [hd])) fun hi => hq (hi.trans (List.suffix_cons c s).isInfix)
    rw [List.flatMap_cons, List.append_assoc]
    refine .piece (p := [c]) ?_ ih'
    rw [jsonChar_visible h1.1 h1.2.1 h1.2.2.1 h1.2.2.2]
    split_ifs with h126
    · refine pyUnit_plain h1.2.2.2 ?_
      by_contra hst
      rw [Bool.not_eq_false, startswith, List.isPrefixOf_iff_prefix] at hst
      obtain ⟨r, hr⟩ := hst
      simp only [List.cons_append, List.nil_append, List.cons.injEq] at hr
      obtain ⟨rfl, hr⟩ := hr
      cases s with
      | nil => simp at hr
      | cons d s =>
        have h2 := hc d (by simp)
        rw [List.flatMap_cons, List.append_assoc] at hr
        obtain ⟨rfl, hr2⟩ := jsonChar_head h2.1 h2.2.1 h2.2.2.1 h2.2.2.2 hr.symm
        cases s with
        | nil => simp at hr2
        | cons e s =>
          have h3 := hc e (by simp)
          rw [List.flatMap_cons, List.append_assoc] at hr2
          obtain ⟨rfl, -⟩ := jsonChar_head h3.1 h3.2.1 h3.2.2.1 h3.2.2.2 hr2
          exact hq ⟨[], s, rfl⟩
    · exact pyUnit_bmp c h1.2.1 _

theorem passes_value {v : JVal} (h : ∀ s ∈ v.strings, Harmless s) :
    Passes (valueText (fun s => s.flatMap jsonChar) v) (valueText id v) := by
  rcases v with _ | (_ | _) | s
  · exact passes_plain (by decide)
  · exact passes_plain (by decide)
  · exact passes_plain (by decide)
  · exact (passes_plain (t := ['"']) (by decide)).append (passes_string (h s (by simp [JVal.strings])))

theorem passes_item {kv : Str × JVal} (h : ∀ s ∈ kv.1 :: kv.2.strings, Harmless s) :
    Passes (itemText (fun s => s.flatMap jsonChar) kv) (itemText id kv) := by
  have h1 := passes_string (h kv.1 (by simp))
  have h2 := passes_value fun s hs => h s (List.mem_cons_of_mem _ hs)
  exact (((passes_plain (t := py! "\n ") (by decide)).append
    ((passes_plain (t := ['"']) (by decide)).append h1)).append (passes_plain (t := py! ": ") (by decide))).append h2

theorem passes_members {kvs : Dict} (h : ∀ kv ∈ kvs, ∀ s ∈ kv.1 :: kv.2.strings, Harmless s) :
    Passes (membersText (fun s => s.flatMap jsonChar) kvs) (membersText id kvs) := by
  induction kvs with
  | nil => exact passes_plain (by decide)
  | cons kv kvs ih =>
    cases kvs with
    | nil => exact (passes_item (h kv (by simp))).append (passes_plain (by decide))
    | cons kv' kvs =>
      exact ((passes_item (h kv (by simp))).append (passes_plain (t := py! ",") (by decide))).append
        (ih fun kv hkv => h kv (by simp [hkv]))

theorem harmless_strings {v : Versions} (h : v.Harmless) : ∀ kv ∈ v.toDict, ∀ s ∈ kv.1 :: kv.2.strings, Harmless s := by
  obtain ⟨h1, h2, h3, h4⟩ := h
  have key : ∀ k ∈ [py! "date", py! "dirty", py! "error", py! "full-revisionid", py! "version"], Harmless k := by
    simp only [Harmless]
    decide
  obtain ⟨ver, full, dirty, error, date⟩ := v
  intro kv hkv s hs
  rcases List.mem_cons.1 hs with rfl | hs
  · exact key _ (by rw [← toDict_keys ⟨ver, full, dirty, error, date⟩]; exact List.mem_map_of_mem hkv)
  · simp only [Versions.toDict, List.mem_cons, List.not_mem_nil, or_false] at hkv
    rcases hkv with rfl | rfl | rfl | rfl | rfl
    · rcases date with _ | d <;> simp [JVal.strings] at hs
      exact hs ▸ h4 d rfl
    · rcases dirty with _ | d <;> simp [JVal.strings] at hs
    · rcases error with _ | d <;> simp [JVal.strings] at hs
      exact hs ▸ h3 d rfl
    · rcases full with _ | d <;> simp [JVal.strings] at hs
      exact hs ▸ h2 d rfl
    · simp [JVal.strings] at hs
      exact hs ▸ h1

set_option maxRecDepth 20000 in
theorem fileHead_last : fileHead = (fileHead.take (fileHead.length - 1)) ++ ['\n'] := by decide

theorem imported_versionFile {v : Versions} (h : v.Harmless) : importedVersions (versionFile v.toDict) = .ok v.toDict := by
  have hh := harmless_strings h
  have e1 : startswith (versionFile v.toDict) fileHead = true := by
    rw [startswith, List.isPrefixOf_iff_prefix, versionFile_eq]
    simp only [List.append_assoc]
    exact List.prefix_append _ _
  have e2 : (versionFile v.toDict).drop (fileHead.length - 1) =
      (py! "\n{" ++ (membersText (fun s => s.flatMap jsonChar) v.toDict ++ ['\n'])) ++ (py! "'''" ++ fileTail) := by
    have := fileHead_last
    rw [versionFile_eq]
    conv_lhs => rw [this]
    simp only [List.append_assoc]
    rw [List.drop_left' (by simp)]
    rfl
  have hp : Passes (py! "\n{" ++ (membersText (fun s => s.flatMap jsonChar) v.toDict ++ ['\n']))
      (py! "\n{" ++ (membersText id v.toDict ++ ['\n'])) :=
    (passes_plain (by decide)).append ((passes_members hh).append (passes_plain (by decide)))
  have hev := hp (py! "'''" ++ fileTail) [] fileTail (.done (by rfl))
  unfold importedVersions
  rw [if_pos e1, e2, hev.pieces (fun _ _ _ => pyUnit_length)]
  · simp only [List.append_nil, if_true]
    refine (loads_text (enc := id) (toDict_ne v) (toDict_nodup v) fun kv hkv s hs rest => ?_).2
    exact ev_raw (fun c hc => ⟨((hh kv hkv s hs).1 c hc).1, ((hh kv hkv s hs).1 c hc).2.2⟩) rest
  · have := congrArg List.length e2
    rw [List.length_drop] at this
    omega

end KK.Version
