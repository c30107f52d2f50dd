import Verif.Props.Version
import Verif.Spec.Build
import Verif.Proofs.BuildFile

/-!
# C102-C104: the version of distributions

`Tree` is everything the build sees: the directory, `src/kalmankit/_version.py` in it, and how git commands behave.
-/

namespace KK.Version

variable [Unicode]

set_option linter.unusedSectionVars false

/-! ## C102: source distributions -/

/-- A tree with a written `_version.py` has the version in it. -/
theorem built_of_written {t : Tree} {v : Versions} (h : t.contents = some (versionFile v.toDict)) :
    buildVersions t = .ok v.toDict := by
  unfold buildVersions
  rw [h, versionFile_keywords]
  simp only [gitVersionsFromKeywords]
  rw [versionFile_read]

/-- **C102.**  The version information survives the journey through source distributions: if the build reports `v` in the tree
`t₀`, it reports `v` in every tree unpacked from a source distribution of `t₀`, of such a tree, and so on, whatever the
directory is called and whether or not it lies in some git repository, and the file it writes is the same to the byte. -/
theorem C102_sdist {t₀ t : Tree} {v : Versions} (h₀ : buildVersions t₀ = .ok v.toDict) (h : Descends t₀ t) :
    buildVersions t = .ok v.toDict ∧ builtFile t = builtFile t₀ ∧ metadataVersion t = .ok (.str v.version) := by
  have key : buildVersions t = .ok v.toDict := by
    induction h with
    | refl => exact h₀
    | sdist _ hb hc ih =>
      rw [builtFile, ih] at hb
      cases hb
      exact built_of_written hc
  refine ⟨key, by simp only [builtFile, key, h₀], ?_⟩
  simp only [metadataVersion, key]
  rfl

/-- What the tree says is always version information (so `h₀` of `C102_sdist` excludes nothing): the keywords, git and the
directory yield it, and so does a written file. -/
theorem built_toDict {t : Tree} {d : Dict} (h : buildVersions t = .ok d) :
    (∃ v : Versions, d = v.toDict) ∨ versionsFromFile t.contents = .ok d := by
  unfold buildVersions at h
  split at h
  · exact .inl ⟨_, (Except.ok.inj h).symm⟩
  · split at h
    · split at h
      · exact .inl ⟨_, (Except.ok.inj h).symm⟩
      · cases h
    · exact .inr h
  · cases h

/-- Any version information whatsoever can be written and read back, also with quotes, backslashes, line breaks, triple quotes
and characters of other alphabets. -/
theorem C102_any_text (v : Versions) (win32 : Bool) (root : Str) (spawn : Str → List Str → Str → Spawn) :
    buildVersions ⟨win32, root, some (versionFile v.toDict), spawn⟩ = .ok v.toDict := built_of_written rfl

/-! ## C104: the build and the checkout agree -/

theorem lead_strip {line p : Str} {c : Char} {q : Str} (hp : p = c :: q) (h : ¬ p <+: line.dropWhile isSpace) :
    startswith (strip line) p = false := by
  by_contra hc
  rw [Bool.not_eq_false, startswith, List.isPrefixOf_iff_prefix] at hc
  refine h (hc.trans ?_)
  unfold strip stripBy
  have := List.dropWhile_suffix isSpace (l := (line.dropWhile isSpace).reverse)
  rw [← List.reverse_prefix] at this
  simpa using this

theorem plain_line {line : Str} (h : ¬ AssignsKeyword line) (kw : Keywords) : keywordLine kw line = kw := by
  simp only [AssignsKeyword, not_or] at h
  simp only [keywordLine, lead_strip rfl h.1, lead_strip rfl h.2.1, lead_strip rfl h.2.2]
  rfl

theorem plain_lines {lines : List Str} (h : ∀ l ∈ lines, ¬ AssignsKeyword l) (kw : Keywords) :
    lines.foldl keywordLine kw = kw := by
  induction lines with
  | nil => rfl
  | cons l ls ih => rw [List.foldl_cons, plain_line (h l (by simp)), ih fun l hl => h l (by simp [hl])]

theorem beforeLast_quote {s : Str} : beforeLast (py! "\"") (s ++ py! "\"") = some s := by
  induction s with
  | nil => rfl
  | cons c s ih => rw [List.cons_append, beforeLast, ih]

theorem quoted_skip {c : Char} (h : c ≠ '=') (s : Str) : quoted (c :: s) = quoted s := by
  rw [quoted, if_neg h]

theorem quoted_hit (s : Str) : quoted (py! "= \"" ++ s ++ py! "\"") = some s := by
  have e : (py! " \"" ++ s ++ py! "\"").dropWhile isSpace = '"' :: (s ++ py! "\"") := by
    simp [List.dropWhile, show isSpace ' ' = true from rfl, show isSpace '"' = false from rfl]
  simp only [List.cons_append, List.nil_append] at e ⊢
  simp only [quoted, if_true, e, beforeLast_quote]

theorem quoted_line {name : Str} (h : '=' ∉ name) (s : Str) : quoted (name ++ py! "= \"" ++ s ++ py! "\"") = some s := by
  induction name with
  | nil => exact quoted_hit s
  | cons c name ih =>
    simp only [List.mem_cons, not_or] at h
    rw [List.cons_append, List.cons_append, List.cons_append, quoted_skip (Ne.symm h.1)]
    exact ih h.2

/-- Stripping a line that ends with a quote. -/
theorem strip_line (name s : Str) (hn : ∃ c r, name = c :: r ∧ isSpace c = false) :
    strip (py! "    " ++ name ++ s ++ py! "\"") = name ++ s ++ py! "\"" := by
  obtain ⟨c, r, rfl, hc⟩ := hn
  have e : (py! "    " ++ (c :: r) ++ s ++ py! "\"").dropWhile isSpace = (c :: r) ++ s ++ py! "\"" := by
    simp [List.dropWhile, show isSpace ' ' = true from rfl, hc]
  rw [strip, stripBy, e]
  simp [List.dropWhile, show isSpace '"' = false from rfl]

theorem clash_append {p a : Str} (h : clash p a = true) (s : Str) : startswith (a ++ s) p = false := clash_startswith h s

theorem start_append (a s : Str) : startswith (a ++ s) a = true := by
  rw [startswith, List.isPrefixOf_iff_prefix]
  exact List.prefix_append a s

theorem line_refnames (kw : Keywords) (s : Str) :
    keywordLine kw (py! "    git_refnames = \"" ++ s ++ py! "\"") = { kw with refnames := some s } := by
  have h1 : strip (py! "    git_refnames = \"" ++ s ++ py! "\"") = py! "git_refnames =" ++ (py! " \"" ++ s ++ py! "\"") :=
    strip_line (py! "git_refnames = \"") s ⟨_, _, rfl, rfl⟩
  have h2 := quoted_line (name := py! "    git_refnames ") (by decide) s
  simp only [keywordLine, h1, start_append, clash_append (p := py! "git_full =") (a := py! "git_refnames =") (by decide),
    clash_append (p := py! "git_date =") (a := py! "git_refnames =") (by decide)]
  simp only [List.cons_append, List.nil_append] at h2 ⊢
  rw [h2]
  rfl

theorem line_full (kw : Keywords) (s : Str) :
    keywordLine kw (py! "    git_full = \"" ++ s ++ py! "\"") = { kw with full := some s } := by
  have h1 : strip (py! "    git_full = \"" ++ s ++ py! "\"") = py! "git_full =" ++ (py! " \"" ++ s ++ py! "\"") :=
    strip_line (py! "git_full = \"") s ⟨_, _, rfl, rfl⟩
  have h2 := quoted_line (name := py! "    git_full ") (by decide) s
  simp only [keywordLine, h1, start_append, clash_append (p := py! "git_refnames =") (a := py! "git_full =") (by decide),
    clash_append (p := py! "git_date =") (a := py! "git_full =") (by decide)]
  simp only [List.cons_append, List.nil_append] at h2 ⊢
  rw [h2]
  rfl

theorem line_date (kw : Keywords) (s : Str) :
    keywordLine kw (py! "    git_date = \"" ++ s ++ py! "\"") = { kw with date := some s } := by
  have h1 : strip (py! "    git_date = \"" ++ s ++ py! "\"") = py! "git_date =" ++ (py! " \"" ++ s ++ py! "\"") :=
    strip_line (py! "git_date = \"") s ⟨_, _, rfl, rfl⟩
  have h2 := quoted_line (name := py! "    git_date ") (by decide) s
  simp only [keywordLine, h1, start_append, clash_append (p := py! "git_refnames =") (a := py! "git_date =") (by decide),
    clash_append (p := py! "git_full =") (a := py! "git_date =") (by decide)]
  simp only [List.cons_append, List.nil_append] at h2 ⊢
  rw [h2]
  rfl

theorem splitOn_lines : ∀ {lines : List Str}, lines ≠ [] → (∀ l ∈ lines, '\n' ∉ l) →
    splitOn '\n' ((py! "\n").intercalate lines) = lines
  | [], h, _ => absurd rfl h
  | [l], _, h => by simpa using splitOn_none (h l (by simp))
  | l :: l' :: ls, _, h => by
    have e : (py! "\n").intercalate (l :: l' :: ls) = l ++ '\n' :: (py! "\n").intercalate (l' :: ls) := by
      simp [List.intercalate]
    rw [e, splitOn_join, splitOn_none (h l (by simp)), splitOn_lines (by simp) fun x hx => h x (by simp [hx])]
    rfl

theorem longFile_keywords {contents refnames full date : Str} (h : LongFile contents refnames full date) :
    gitGetKeywords (some contents) = ⟨some refnames, some full, some date⟩ := by
  obtain ⟨⟨before, after, rfl, hl⟩, hv, -⟩ := h
  have hnl : ∀ s ∈ [refnames, full, date], '\n' ∉ s := fun s hs hm => (hv s hs _ hm).2.2 rfl
  unfold gitGetKeywords
  simp only
  rw [splitOn_lines (by simp)]
  · have h1 := plain_lines (lines := before) fun l hm => (hl l (by simp [hm])).2
    have h2 := plain_lines (lines := after) fun l hm => (hl l (by simp [hm])).2
    rw [List.foldl_append, List.foldl_append, h1, h2]
    simp only [List.foldl_cons, List.foldl_nil, line_refnames, line_full, line_date]
  · intro l hm
    simp only [List.mem_append, List.mem_cons, List.not_mem_nil, or_false] at hm
    rcases hm with (hm | rfl | rfl | rfl) | hm
    · exact (hl l (by simp [hm])).1
    · have := hnl refnames (by simp)
      simp [this]
    · have := hnl full (by simp)
      simp [this]
    · have := hnl date (by simp)
      simp [this]
    · exact (hl l (by simp [hm])).1

theorem searchBetween_none {pre post : Str} (hp : pre ≠ []) : ∀ {s : Str}, ¬ pre <:+: s → searchBetween pre post s = none
  | [], _ => by simp [searchBetween, hp]
  | c :: s, h => by
    have h1 : startswith (c :: s) pre = false := by
      by_contra hc
      rw [Bool.not_eq_false, startswith, List.isPrefixOf_iff_prefix] at hc
      exact h hc.isInfix
    rw [searchBetween, h1]
    exact searchBetween_none hp fun hi => h (hi.trans (List.suffix_cons c s).isInfix)

theorem longFile_noJson {contents refnames full date : Str} (h : LongFile contents refnames full date) :
    versionsFromFile (some contents) = .error (.exc .notThisMethod) := by
  have h1 : ¬ py! "version_json = '''\n" <:+: contents := fun hi =>
    h.noJson ((List.IsPrefix.isInfix ⟨py! "\n", rfl⟩ : py! "version_json = '''" <:+: py! "version_json = '''\n").trans hi)
  have h2 : ¬ py! "version_json = '''\r\n" <:+: contents := fun hi =>
    h.noJson ((List.IsPrefix.isInfix ⟨py! "\r\n", rfl⟩ : py! "version_json = '''" <:+: py! "version_json = '''\r\n").trans hi)
  simp only [versionsFromFile, searchBetween_none (by simp) h1, searchBetween_none (by simp) h2]

/-- **C104.**  The version computed by the build (`versioneer.py`, reading `_version.py` as text) and the one computed by the
package in the same tree (`_version.py`, run from the checkout) are the same, whatever the keywords are and whatever git and the
directory say; if one raises, so does the other. -/
theorem C104_same_in_checkout {t : Tree} {env : Env} (h : SameCheckout t env) :
    buildVersions t = match getVersions env with
      | .ok v => .ok v.toDict
      | .error e => .error (.exc e) := by
  obtain ⟨contents, refnames, full, date, hc, hl, hk⟩ := h.keywords
  unfold buildVersions getVersions
  rw [hc, longFile_keywords hl, longFile_noJson hl, hk, h.file]
  simp only
  rw [rootOf_file h.rootDir.1 h.rootDir.2]
  have e : fromGit ⟨t.win32, unexpanded, none, t.spawn⟩ t.root = fromGit env t.root := by
    unfold fromGit
    rw [h.win32, h.spawn]
  rw [e]
  generalize gitVersionsFromKeywords _ tagPrefix = k
  rcases k with (_ | _ | _ | _ | _ | _) | v
  all_goals rfl

/-! ## C103: installed packages -/

/-- **C103.**  A package built from a tree with harmless version information reports, once installed, exactly that
information. -/
theorem C103_installed {t : Tree} {v : Versions} (hv : v.Harmless) (h : buildVersions t = .ok v.toDict) :
    ∃ file, builtFile t = .ok file ∧ importedVersions file = .ok v.toDict ∧ installedVersion file = .ok (.str v.version) := by
  refine ⟨versionFile v.toDict, by simp only [builtFile, h], imported_versionFile hv, ?_⟩
  simp only [installedVersion, imported_versionFile hv]
  rfl

theorem harmless_of {s : Str} (h : ∀ c ∈ s, 32 ≤ c.toNat ∧ c.toNat < 0x10000 ∧ c ≠ '"' ∧ c ≠ '\\' ∧ c ≠ '\'') : Harmless s :=
  ⟨fun c hc => ⟨(h c hc).1, (h c hc).2.1, (h c hc).2.2.1, (h c hc).2.2.2.1⟩, fun hi =>
    (h '\'' (hi.subset (by simp))).2.2.2.2 rfl⟩

instance (c : Char) : Decidable (Safe c) := inferInstanceAs (Decidable (_ ∧ _))

theorem alphanum_safe {c : Char} (h : c.isAlphanum = true) : Safe c := by
  have h1 : 48 ≤ c.toNat ∧ c.toNat < 123 ∧ c.toNat ≠ 92 := by
    have e : c.toNat = c.val.toNat := rfl
    simp only [Char.isAlphanum, Char.isAlpha, Char.isUpper, Char.isLower, Char.isDigit, Bool.or_eq_true, Bool.and_eq_true,
      decide_eq_true_eq, ge_iff_le, UInt32.le_iff_toNat_le] at h
    rw [e]
    simp at h
    omega
  refine ⟨by omega, by omega, ?_, ?_, ?_⟩ <;> rintro rfl <;> revert h1 <;> decide

theorem public_safe {s : Str} (h : PublicVersion s) : ∀ c ∈ s, Safe c := by
  intro c hc
  by_contra hs
  refine public_foreign ⟨?_, ?_⟩ h hc
  · by_contra hd
    rw [Bool.not_eq_false] at hd
    exact hs (alphanum_safe (digit_alphanum hd))
  · intro hm
    revert hs
    simp only [List.mem_cons, List.not_mem_nil, or_false] at hm
    rcases hm with rfl | rfl | rfl | rfl | rfl | rfl | rfl | rfl | rfl | rfl | rfl | rfl | rfl <;> decide

theorem local_safe {s : Str} (h : LocalVersion s) : ∀ c ∈ s, Safe c := by
  induction h with
  | one _ h => exact fun c hc => alphanum_safe (h c hc)
  | dot _ _ h ih =>
    intro c hc
    simp only [List.mem_append, List.mem_cons] at hc
    rcases hc with hc | rfl | hc
    · exact ih c hc
    · decide
    · exact alphanum_safe (h c hc)

theorem version_safe {s : Str} (h : IsVersion s) : ∀ c ∈ s, Safe c := by
  rcases h with h | ⟨v, l, hv, hl, rfl⟩
  · exact public_safe h
  · intro c hc
    simp only [List.mem_append, List.mem_cons] at hc
    rcases hc with hc | rfl | hc
    · exact public_safe hv c hc
    · decide
    · exact local_safe hl c hc

/-- In words: check out a release tagged `vREL` (or any commit after it), build source distributions, unpack them, build again,
install: `kalmankit.__version__` is the version that the checkout itself reports. -/
theorem C103_installed_from_checkout {t₀ t : Tree} {env : Env} {root rel full hash day time zone commits : Str} {num : ℕ}
    {dirty : Bool} (hrel : IsVersion rel) (hhash : IsHash hash) (hfull : IsHash full)
    (hday : IsWord day) (htime : IsWord time) (hzone : IsWord zone) (hsafe : ∀ c ∈ day ++ time ++ zone, Safe c)
    (h : Checkout env root (describeTagged ('v' :: rel) num hash dirty) full (gitDate day time zone) commits)
    (hsame : SameCheckout t₀ env) (hdesc : Descends t₀ t) :
    ∃ file, builtFile t = .ok file ∧ importVersion env env = .ok (buildVersion rel num hash dirty) ∧
      installedVersion file = .ok (.str (buildVersion rel num hash dirty)) ∧
      metadataVersion t = .ok (.str (buildVersion rel num hash dirty)) := by
  have hg := C70_tagged_checkout (version_ne_nil hrel) (version_noNewline hrel) hhash hfull hday htime hzone h
  have hb := C104_same_in_checkout hsame
  rw [hg] at hb
  have hd := C102_sdist hb hdesc
  have hv : Versions.Harmless ⟨buildVersion rel num hash dirty, some full, some dirty, none,
      some (day ++ 'T' :: time ++ zone)⟩ := by
    obtain ⟨v, hv, hv'⟩ := C73_pep440 hrel hhash hfull hday htime hzone h
    rw [hg] at hv
    cases hv
    refine ⟨harmless_of (version_safe hv'), ?_, by simp, ?_⟩
    · rintro s ⟨⟩
      exact harmless_of fun c hc => alphanum_safe (hash_alphanum hfull c hc)
    · rintro s ⟨⟩
      refine harmless_of fun c hc => ?_
      simp only [List.mem_append, List.mem_cons] at hc
      rcases hc with (hc | rfl | hc) | hc
      · exact hsafe c (by simp [hc])
      · decide
      · exact hsafe c (by simp [hc])
      · exact hsafe c (by simp [hc])
  obtain ⟨file, hf, -, hi⟩ := C103_installed hv hd.1
  exact ⟨file, hf, by simp only [importVersion, hg], hi, hd.2.2⟩

/-! ## Concrete cases -/

namespace Ex

/-- The text of `_version.py`, shortened. -/
def longFile (refnames full date : Str) : Str :=
  (py! "\n").intercalate ([py! "def get_keywords():", py! "    # these strings will be replaced by git during git-archive."] ++
    [py! "    git_refnames = \"" ++ refnames ++ py! "\"", py! "    git_full = \"" ++ full ++ py! "\"",
     py! "    git_date = \"" ++ date ++ py! "\""] ++
    [py! "    keywords = {\"refnames\": git_refnames, \"full\": git_full, \"date\": git_date}", py! "    return keywords", []])

instance (l : Str) : Decidable (AssignsKeyword l) := inferInstanceAs (Decidable (_ ∨ _))

set_option maxRecDepth 20000 in
theorem longFile_ok : LongFile (longFile (py! "$Format:%d$") (py! "$Format:%H$") (py! "$Format:%ci$")) (py! "$Format:%d$")
    (py! "$Format:%H$") (py! "$Format:%ci$") where
  lines := ⟨_, _, rfl, by decide⟩
  values := by decide
  noJson := by decide

/-- The checkout of `Ex.machine`, seen by the build. -/
def tree (describe : Str) : Tree where
  win32 := false
  root := py! "/src/kk"
  contents := some (longFile (py! "$Format:%d$") (py! "$Format:%H$") (py! "$Format:%ci$"))
  spawn := (machine unexpanded versionFile (answers describe)).spawn

theorem tree_same (describe : Str) : SameCheckout (tree describe) (machine unexpanded versionFile (answers describe)) where
  win32 := rfl
  spawn := rfl
  file := rfl
  rootDir := (by decide : py! "/src/kk" ≠ [] ∧ (py! "/src/kk").getLast? ≠ some '/')
  keywords := ⟨_, _, _, _, rfl, longFile_ok, rfl⟩

/-- An unpacked source distribution in which git reports something else, in a directory with a misleading name. -/
def unpacked (file : Str) : Tree :=
  ⟨false, py! "/tmp/kalmankit-9.9", some file, (machine unexpanded versionFile (answers (py! "v7.7-0-gabcdef0"))).spawn⟩

end Ex

/-- C102 applied to a checkout: a source distribution of a source distribution keeps the version of the checkout. -/
example : ∃ file file', builtFile (Ex.tree (py! "v1.1.2-3-g0a1b2c3-dirty")) = .ok file ∧
    builtFile (Ex.unpacked file) = .ok file' ∧
    metadataVersion (Ex.unpacked file') = .ok (.str (py! "1.1.2+3.g0a1b2c3.dirty")) := by
  have hb := C104_same_in_checkout (Ex.tree_same (py! "v1.1.2-3-g0a1b2c3-dirty"))
  have hg := C70_tagged_checkout (rel := py! "1.1.2") (num := 3) (hash := py! "0a1b2c3") (dirty := true) (by simp) (by decide)
    Ex.hash7 Ex.hash16 Ex.word_day Ex.word_time Ex.word_zone (Ex.checkout (py! "v1.1.2-3-g0a1b2c3-dirty"))
  rw [hg] at hb
  have h1 : Descends (Ex.tree (py! "v1.1.2-3-g0a1b2c3-dirty")) (Ex.tree (py! "v1.1.2-3-g0a1b2c3-dirty")) := .refl
  obtain ⟨file, hf⟩ : ∃ file, builtFile (Ex.tree (py! "v1.1.2-3-g0a1b2c3-dirty")) = .ok file := by
    simp only [builtFile, hb]
    exact ⟨_, rfl⟩
  have h2 := Descends.sdist (t' := Ex.unpacked file) h1 hf rfl
  have hf' := (C102_sdist hb h2).2.1
  rw [hf] at hf'
  exact ⟨file, file, hf, hf', (C102_sdist hb (Descends.sdist (t' := Ex.unpacked file) h2 hf' rfl)).2.2⟩

/-- C103 for a checkout after a release, through one source distribution. -/
example (num : ℕ) (dirty : Bool) (file₀ : Str)
    (h₀ : builtFile (Ex.tree (describeTagged ('v' :: py! "1!2.0rc1.post3.dev4+local.7") num (py! "0a1b2c3") dirty)) = .ok file₀) :
    ∃ file, builtFile (Ex.unpacked file₀) = .ok file ∧
      installedVersion file = .ok (.str (buildVersion (py! "1!2.0rc1.post3.dev4+local.7") num (py! "0a1b2c3") dirty)) := by
  obtain ⟨file, h1, -, h2, -⟩ := C103_installed_from_checkout (num := num) (dirty := dirty) Ex.valid Ex.hash7 Ex.hash16
    Ex.word_day Ex.word_time Ex.word_zone (by decide) (Ex.checkout _) (Ex.tree_same _)
    (Descends.sdist (t' := Ex.unpacked file₀) .refl h₀ rfl)
  exact ⟨file, h1, h2⟩

set_option maxRecDepth 20000 in
/-- The hypothesis of C103 is needed: git allows tag names with a double quote, the build reads its file back correctly
(`C102_any_text`), but importing the installed package fails, because the backslash of the JSON text is consumed by the Python
literal around it. -/
example : importedVersions (versionFile (Versions.toDict ⟨py! "1.0\"a", none, some false, none, none⟩)) =
    .error .jsonDecodeError := by
  rw [versionFile_eq]
  rfl

set_option maxRecDepth 20000 in
/-- Letters of other alphabets are harmless. -/
example : Versions.Harmless ⟨py! "1.0é", none, some false, some (py! "tag 'x' doesn't start with prefix 'v'"), none⟩ := by
  refine ⟨by unfold Harmless; decide, by simp, ?_, by simp⟩
  rintro s ⟨⟩
  unfold Harmless
  decide

end KK.Version
