import Verif.Proofs.Version

/-!
# C70-C76: `kalmankit.__version__`

Theorems about the model of `_version.py`.  `Env` is everything `get_versions` sees: the keywords in the file, the path
of the file, and how git commands behave; it is arbitrary unless restricted by a hypothesis.
-/

namespace KK.Version

variable [Unicode]

set_option linter.unusedSectionVars false

/-! ## Concrete cases -/

namespace Ex

omit [Unicode] in
theorem alpha_code {c : Char} (h : c.isAlpha = true) : 57 < c.toNat := by
  simp only [Char.isAlpha, Char.isUpper, Char.isLower, Bool.or_eq_true, Bool.and_eq_true, decide_eq_true_eq,
    ge_iff_le, UInt32.le_iff_toNat_le] at h
  have : c.toNat = c.val.toNat := rfl
  rw [this]
  rcases h with ⟨h, -⟩ | ⟨h, -⟩
  · exact lt_of_lt_of_le (by decide) h
  · exact lt_of_lt_of_le (by decide) h

/-- The assumptions about Unicode are consistent: ASCII digits only. -/
def ascii : Unicode where
  isDecimal c := 48 ≤ c.toNat && c.toNat ≤ 57
  value c := c.toNat - 48
  ascii := by decide
  hyphen := by decide
  letter := by
    intro c h
    have := alpha_code h
    simp only [Bool.and_eq_false_iff, decide_eq_false_iff_not]
    omega

/-- A machine where git answers the listed commands in `/src/kk`, and fails otherwise. -/
def machine (kw : Keywords) (file : Str) (answers : List (List Str × Str)) : Env where
  win32 := false
  keywords := kw
  file := some file
  spawn cmd args dir :=
    if cmd = py! "git" then
      if dir = py! "/src/kk" then
        match answers.lookup args with
        | some out => .exited (some out) 0
        | none => .exited (some []) 128
      else .exited (some []) 128
    else .notFound

/-- The answers in a repository, but for `git show`. -/
def repoAnswers (describe : Str) : List (List Str × Str) :=
  [([py! "rev-parse", py! "--git-dir"], py! ".git\n"),
   ([py! "describe", py! "--tags", py! "--dirty", py! "--always", py! "--long", py! "--match", py! "v[[:digit:]]*"],
     describe ++ ['\n']),
   ([py! "rev-parse", py! "HEAD"], py! "0a1b2c3d4e5f0a1b\n"),
   ([py! "rev-parse", py! "--abbrev-ref", py! "HEAD"], py! "HEAD\n"),
   ([py! "branch", py! "--contains"], py! "* (HEAD detached at 0a1b2c3)\n  master\n"),
   ([py! "rev-list", py! "HEAD", py! "--left-right"], py! ">0a1b2c3d4e5f0a1b\n>ffffff\n")]

/-- All answers. -/
def answers (describe : Str) : List (List Str × Str) :=
  repoAnswers describe ++ [([py! "show", py! "-s", py! "--format=%ci", py! "HEAD"], py! "2024-01-02 03:04:05 +0100\n")]

def versionFile : Str := py! "/src/kk/src/kalmankit/_version.py"

theorem repo (describe : Str) : Repo (machine unexpanded versionFile (repoAnswers describe)) (py! "/src/kk") describe
    (py! "0a1b2c3d4e5f0a1b") where
  keywords := rfl
  file := rfl
  rootDir := by decide
  gitDir := ⟨_, rfl⟩
  describeOut := rfl
  headOut := rfl
  branchOut := ⟨_, rfl⟩
  branchesOut := ⟨_, rfl⟩

theorem checkout (describe : Str) : Checkout (machine unexpanded versionFile (answers describe)) (py! "/src/kk") describe
    (py! "0a1b2c3d4e5f0a1b") (gitDate (py! "2024-01-02") (py! "03:04:05") (py! "+0100"))
    ([py! ">0a1b2c3d4e5f0a1b", py! ">ffffff"].flatMap fun c => c ++ ['\n']) where
  keywords := rfl
  file := rfl
  rootDir := by decide
  gitDir := ⟨_, rfl⟩
  describeOut := rfl
  headOut := rfl
  branchOut := ⟨_, rfl⟩
  branchesOut := ⟨_, rfl⟩
  commitsOut := rfl
  dateOut := rfl

theorem hash7 : IsHash (py! "0a1b2c3") := ⟨by simp, by decide⟩
theorem hash16 : IsHash (py! "0a1b2c3d4e5f0a1b") := ⟨by simp, by decide⟩
theorem word_day : IsWord (py! "2024-01-02") := ⟨by simp, by decide⟩
theorem word_time : IsWord (py! "03:04:05") := ⟨by simp, by decide⟩
theorem word_zone : IsWord (py! "+0100") := ⟨by simp, by decide⟩

end Ex

theorem dirty_word : ∀ c ∈ py! "-dirty", isSpace c = false := by decide

theorem describe_tight {T hash : Str} {num : ℕ} {dirty : Bool} (hh : IsHash hash) :
    Tight isSpace (describeTagged ('v' :: T) num hash dirty) ∧ describeTagged ('v' :: T) num hash dirty ≠ [] := by
  have hw : IsWord (hash ++ if dirty then py! "-dirty" else []) := by
    refine ⟨by simp [hh.1], fun c hc => ?_⟩
    rcases List.mem_append.1 hc with hc | hc
    · exact (hash_word hh).2 c hc
    · cases dirty with
      | false => simp at hc
      | true => exact dirty_word c hc
  constructor
  · have := tight_of_ends (a := ['v']) (s := T ++ py! "-" ++ fmtNat num ++ py! "-g") ⟨by simp, by decide⟩ hw
    simpa [describeTagged] using this
  · simp [describeTagged]

theorem parse_tagged {run : List Str → Except Exc (Option Str × Option ℤ)} {T hash full : Str} {num : ℕ} {dirty : Bool}
    {branch : Option Str} {date : Str} (hn : '\n' ∉ T) (hh : IsHash hash) (hd : commitDate run = .ok date) :
    parseDescribe run tagPrefix (describeTagged ('v' :: T) num hash dirty) full branch =
      .ok ⟨full, hash, none, branch, dirty, some T, num, some date⟩ := by
  have e : describeTagged ('v' :: T) num hash dirty =
      ('v' :: T ++ py! "-" ++ fmtNat num ++ py! "-g") ++ hash ++ if dirty then py! "-dirty" else [] := by
    simp [describeTagged]
  unfold parseDescribe
  simp only
  rw [e, undirty_hash hh, dirty_iff hh]
  have hc : ('v' :: T ++ py! "-" ++ fmtNat num ++ py! "-g" ++ hash).contains '-' = true := by simp
  rw [hc, if_pos rfl, reDescribe_tagged (by simp) (by simpa using hn) hh]
  have hs : startswith ('v' :: T) tagPrefix = true := by simp [startswith, tagPrefix]
  simp only [hs, if_true, hd]
  simp [toInt_fmtNat, tagPrefix]

theorem parse_tagged_error {run : List Str → Except Exc (Option Str × Option ℤ)} {T hash full : Str} {num : ℕ}
    {dirty : Bool} {branch : Option Str} {e : Exc} (hn : '\n' ∉ T) (hh : IsHash hash) (hd : commitDate run = .error e) :
    parseDescribe run tagPrefix (describeTagged ('v' :: T) num hash dirty) full branch = .error e := by
  have e : describeTagged ('v' :: T) num hash dirty =
      ('v' :: T ++ py! "-" ++ fmtNat num ++ py! "-g") ++ hash ++ if dirty then py! "-dirty" else [] := by
    simp [describeTagged]
  unfold parseDescribe
  simp only
  rw [e, undirty_hash hh, dirty_iff hh]
  have hc : ('v' :: T ++ py! "-" ++ fmtNat num ++ py! "-g" ++ hash).contains '-' = true := by simp
  rw [hc, if_pos rfl, reDescribe_tagged (by simp) (by simpa using hn) hh]
  have hs : startswith ('v' :: T) tagPrefix = true := by simp [startswith, tagPrefix]
  simp only [hs, if_true, hd]

theorem checkout_date {env : Env} {root describe full day time zone commits : Str}
    (h : Checkout env root describe full (gitDate day time zone) commits) (h1 : IsWord day) (h2 : IsWord time)
    (h3 : IsWord zone) :
    commitDate (fun args => runCommand env.spawn args root (gits env.win32)) = .ok (day ++ 'T' :: time ++ zone) := by
  unfold commitDate
  simp only
  rw [run_prints h.dateOut]
  simp only
  rw [stripBytes_newline (gitDate_tight h1 h3) (by simp [gitDate]), strip_tight (gitDate_tight h1 h3),
    isoDate_gitDate h1 h2 h3]

/-- **C70.**  In a git checkout whose nearest release tag is `vREL`, `get_versions()` reports `REL` exactly if the tree
is clean at the tag and otherwise `REL+NUM.gHASH[.dirty]` (with `.` for `+` if the tag already has a local part),
together with the commit, the dirty flag and the commit date in ISO-8601 form. -/
theorem C70_tagged_checkout {env : Env} {root rel full hash day time zone commits : Str} {num : ℕ} {dirty : Bool}
    (hrel : rel ≠ []) (hnl : '\n' ∉ rel) (hhash : IsHash hash) (hfull : IsHash full)
    (hday : IsWord day) (htime : IsWord time) (hzone : IsWord zone)
    (h : Checkout env root (describeTagged ('v' :: rel) num hash dirty) full (gitDate day time zone) commits) :
    getVersions env =
      .ok ⟨buildVersion rel num hash dirty, some full, some dirty, none, some (day ++ 'T' :: time ++ zone)⟩ := by
  obtain ⟨branch, hb⟩ := checkout_fromGit h.toRepo (describe_tight hhash).1 (describe_tight hhash).2 hfull
  refine hb _ (parse_tagged hnl hhash (checkout_date h hday htime hzone)) _ ?_
  have hs : style = py! "pep440" := rfl
  have ht : tagOf ⟨full, hash, none, branch, dirty, some rel, num, some (day ++ 'T' :: time ++ zone)⟩ = some rel := by
    simp [tagOf, hrel]
  unfold render
  simp only [renderStyle, hs, renderPep440, ht]
  cases dirty <;> by_cases hz : num = 0 <;> simp [moved, hz, buildVersion, plusOrDot, ifDirty]

/-- Three commits after `v1.1.2-rc1`, modified: all hypotheses of C70 hold, and the result is as computed. -/
example : getVersions (Ex.machine unexpanded Ex.versionFile (Ex.answers (py! "v1.1.2-rc1-3-g0a1b2c3-dirty"))) =
    .ok ⟨py! "1.1.2-rc1+3.g0a1b2c3.dirty", some (py! "0a1b2c3d4e5f0a1b"), some true, none,
      some (py! "2024-01-02T03:04:05+0100")⟩ :=
  C70_tagged_checkout (rel := py! "1.1.2-rc1") (num := 3) (hash := py! "0a1b2c3") (dirty := true) (by simp) (by decide)
    Ex.hash7 Ex.hash16 Ex.word_day Ex.word_time Ex.word_zone (Ex.checkout _)

/-- Clean at the tag. -/
example : getVersions (Ex.machine unexpanded Ex.versionFile (Ex.answers (py! "v1.1.2-0-g0a1b2c3"))) =
    .ok ⟨py! "1.1.2", some (py! "0a1b2c3d4e5f0a1b"), some false, none, some (py! "2024-01-02T03:04:05+0100")⟩ :=
  C70_tagged_checkout (rel := py! "1.1.2") (num := 0) (hash := py! "0a1b2c3") (dirty := false) (by simp) (by decide)
    Ex.hash7 Ex.hash16 Ex.word_day Ex.word_time Ex.word_zone (Ex.checkout _)

/-- **C72.**  In a git checkout without release tag, `get_versions()` reports `0+untagged.N.gHEX[.dirty]` with the number
`N` of commits and the first seven digits of the commit. -/
theorem C72_untagged_checkout {env : Env} {root full hash day time zone : Str} {commits : List Str} {dirty : Bool}
    (hhash : IsHash hash) (hfull : IsHash full) (hcommits : ∀ c ∈ commits, IsWord c)
    (hday : IsWord day) (htime : IsWord time) (hzone : IsWord zone)
    (h : Checkout env root (describeUntagged hash dirty) full (gitDate day time zone)
      (commits.flatMap fun c => c ++ ['\n'])) :
    getVersions env =
      .ok ⟨py! "0+untagged." ++ fmtNat commits.length ++ py! ".g" ++ full.take 7 ++ (if dirty then py! ".dirty" else []),
        some full, some dirty, none, some (day ++ 'T' :: time ++ zone)⟩ := by
  have hw : IsWord (describeUntagged hash dirty) := by
    refine ⟨by simp [describeUntagged, hhash.1], fun c hc => ?_⟩
    rcases List.mem_append.1 hc with hc | hc
    · exact (hash_word hhash).2 c hc
    · cases dirty with
      | false => simp at hc
      | true => exact dirty_word c hc
  obtain ⟨branch, hb⟩ := checkout_fromGit h.toRepo (tight_word hw) hw.1 hfull
  refine hb ⟨full, full.take 7, none, branch, dirty, none, commits.length, some (day ++ 'T' :: time ++ zone)⟩ ?_ _ ?_
  · have e : describeUntagged hash dirty = [] ++ hash ++ if dirty then py! "-dirty" else [] := by
      simp [describeUntagged]
    unfold parseDescribe
    simp only
    rw [e, undirty_hash hhash, dirty_iff hhash]
    have hc : ([] ++ hash).contains '-' = false := by
      simp only [List.nil_append, List.contains_eq_mem, decide_eq_false_iff_not]
      intro hm
      exact absurd (isHash_isHex hhash _ hm) (by decide)
    rw [hc]
    simp only [Bool.false_eq_true, if_false]
    rw [run_prints h.commitsOut]
    simp only
    rw [checkout_date h hday htime hzone]
    simp only
    rw [words_lines hcommits]
  · unfold render
    simp only [renderStyle, style, renderPep440]
    cases dirty <;> simp [tagOf, ifDirty]

example : getVersions (Ex.machine unexpanded Ex.versionFile (Ex.answers (py! "0a1b2c3-dirty"))) =
    .ok ⟨py! "0+untagged.2.g0a1b2c3.dirty", some (py! "0a1b2c3d4e5f0a1b"), some true, none,
      some (py! "2024-01-02T03:04:05+0100")⟩ :=
  C72_untagged_checkout (hash := py! "0a1b2c3") (dirty := true) Ex.hash7 Ex.hash16
    (by intro c hc; simp only [List.mem_cons, List.not_mem_nil, or_false] at hc
        rcases hc with rfl | rfl <;> exact ⟨by simp, by decide⟩)
    Ex.word_day Ex.word_time Ex.word_zone (Ex.checkout _)

/-! ## C71: the version identifies the build -/

theorem split_inj {c : Char} : ∀ {a b x y : Str}, c ∉ a → c ∉ b → a ++ c :: x = b ++ c :: y → a = b ∧ x = y
  | [], [], x, y, _, _, h => by simpa using h
  | [], d :: b, x, y, _, hb, h => by simp at h; exact absurd h.1 (by rintro rfl; simp at hb)
  | d :: a, [], x, y, ha, _, h => by simp at h; exact absurd h.1 (by rintro rfl; simp at ha)
  | d :: a, e :: b, x, y, ha, hb, h => by
    simp only [List.cons_append, List.cons.injEq] at h
    obtain ⟨rfl, h⟩ := h
    obtain ⟨rfl, rfl⟩ := split_inj (fun hm => ha (by simp [hm])) (fun hm => hb (by simp [hm])) h
    exact ⟨rfl, rfl⟩

theorem not_mem_fmtNat {c : Char} (hc : c.isDigit = false) (n : ℕ) : c ∉ fmtNat n := fun hm => by
  rw [fmtNat_digit hm] at hc; exact absurd hc (by decide)

theorem not_mem_hash {c : Char} (hc : isHex c = false) {h : Str} (hh : IsHash h) : c ∉ h := fun hm => by
  rw [isHash_isHex hh c hm] at hc; exact absurd hc (by decide)

theorem suffix_inj {h₁ h₂ : Str} {d₁ d₂ : Bool} (hh₁ : IsHash h₁) (hh₂ : IsHash h₂)
    (h : (h₁ ++ if d₁ then py! ".dirty" else []) = h₂ ++ if d₂ then py! ".dirty" else []) : h₁ = h₂ ∧ d₁ = d₂ := by
  have n₁ := not_mem_hash (c := '.') (by decide) hh₁
  have n₂ := not_mem_hash (c := '.') (by decide) hh₂
  cases d₁ <;> cases d₂ <;> simp only [if_true, Bool.false_eq_true, if_false, List.append_nil] at h
  · exact ⟨h, rfl⟩
  · exact absurd (h ▸ (by simp : '.' ∈ h₂ ++ py! ".dirty")) n₁
  · exact absurd (h ▸ (by simp : '.' ∈ h₁ ++ py! ".dirty")) n₂
  · exact ⟨(split_inj n₁ n₂ h).1, rfl⟩

/-- **C71.**  Two checkouts that report the same version (release tags without `+`) have the same release tag, the same
number of commits since, the same dirty flag and, unless they are clean at the tag, the same abbreviated commit. -/
theorem C71_version_identifies_build {env₁ env₂ : Env} {root₁ rel₁ full₁ hash₁ day₁ time₁ zone₁ commits₁ : Str}
    {root₂ rel₂ full₂ hash₂ day₂ time₂ zone₂ commits₂ : Str} {num₁ num₂ : ℕ} {dirty₁ dirty₂ : Bool}
    (hrel₁ : rel₁ ≠ []) (hnl₁ : '\n' ∉ rel₁) (hp₁ : '+' ∉ rel₁) (hhash₁ : IsHash hash₁) (hfull₁ : IsHash full₁)
    (hday₁ : IsWord day₁) (htime₁ : IsWord time₁) (hzone₁ : IsWord zone₁)
    (h₁ : Checkout env₁ root₁ (describeTagged ('v' :: rel₁) num₁ hash₁ dirty₁) full₁ (gitDate day₁ time₁ zone₁) commits₁)
    (hrel₂ : rel₂ ≠ []) (hnl₂ : '\n' ∉ rel₂) (hp₂ : '+' ∉ rel₂) (hhash₂ : IsHash hash₂) (hfull₂ : IsHash full₂)
    (hday₂ : IsWord day₂) (htime₂ : IsWord time₂) (hzone₂ : IsWord zone₂)
    (h₂ : Checkout env₂ root₂ (describeTagged ('v' :: rel₂) num₂ hash₂ dirty₂) full₂ (gitDate day₂ time₂ zone₂) commits₂)
    {v₁ v₂ : Versions} (e₁ : getVersions env₁ = .ok v₁) (e₂ : getVersions env₂ = .ok v₂) (hv : v₁.version = v₂.version) :
    rel₁ = rel₂ ∧ num₁ = num₂ ∧ dirty₁ = dirty₂ ∧ (num₁ ≠ 0 ∨ dirty₁ = true → hash₁ = hash₂) := by
  rw [C70_tagged_checkout hrel₁ hnl₁ hhash₁ hfull₁ hday₁ htime₁ hzone₁ h₁, Except.ok.injEq] at e₁
  rw [C70_tagged_checkout hrel₂ hnl₂ hhash₂ hfull₂ hday₂ htime₂ hzone₂ h₂, Except.ok.injEq] at e₂
  rw [← e₁, ← e₂] at hv
  simp only [buildVersion, hp₁, hp₂, if_false] at hv
  have moved : rel₁ ++ py! "+" ++ fmtNat num₁ ++ py! ".g" ++ hash₁ ++ (if dirty₁ then py! ".dirty" else []) =
      rel₂ ++ py! "+" ++ fmtNat num₂ ++ py! ".g" ++ hash₂ ++ (if dirty₂ then py! ".dirty" else []) →
      rel₁ = rel₂ ∧ num₁ = num₂ ∧ hash₁ = hash₂ ∧ dirty₁ = dirty₂ := by
    intro h
    simp only [List.append_assoc, List.singleton_append, List.cons_append, List.nil_append] at h
    obtain ⟨hr, h⟩ := split_inj hp₁ hp₂ h
    obtain ⟨hn, h⟩ := split_inj (not_mem_fmtNat (by decide) _) (not_mem_fmtNat (by decide) _) h
    simp only [List.cons.injEq, true_and] at h
    obtain ⟨hh, hd⟩ := suffix_inj hhash₁ hhash₂ h
    exact ⟨hr, fmtNat_injective hn, hh, hd⟩
  by_cases c₁ : num₁ = 0 ∧ dirty₁ = false <;> by_cases c₂ : num₂ = 0 ∧ dirty₂ = false
  · rw [if_pos c₁, if_pos c₂] at hv
    exact ⟨hv, c₁.1.trans c₂.1.symm, c₁.2.trans c₂.2.symm, fun h => by simp [c₁.1, c₁.2] at h⟩
  · rw [if_pos c₁, if_neg c₂] at hv
    exact absurd (by rw [hv]; simp) hp₁
  · rw [if_neg c₁, if_pos c₂] at hv
    exact absurd (by rw [← hv]; simp) hp₂
  · rw [if_neg c₁, if_neg c₂] at hv
    obtain ⟨a, b, c, d⟩ := moved hv
    exact ⟨a, b, d, fun _ => c⟩

/-- The hypotheses of C71 hold for the two checkouts of the examples of C70 (which report different versions), with `v₁`
and `v₂` given by C70.  Without the restriction to tags without `+` the claim fails: a clean `v1+2.gab` and two commits
after `v1` at `ab` give the same version. -/
example : buildVersion (py! "1+2.gab") 0 (py! "cd") false = buildVersion (py! "1") 2 (py! "ab") false := by decide

/-- The same checkout reached twice. -/
example : ∃ v, getVersions (Ex.machine unexpanded Ex.versionFile (Ex.answers (py! "v1.1.2-3-g0a1b2c3"))) = .ok v ∧
    ∀ num, 3 = num ∨ buildVersion (py! "1.1.2") num (py! "0a1b2c3") false ≠ v.version :=
  ⟨_, C70_tagged_checkout (rel := py! "1.1.2") (num := 3) (hash := py! "0a1b2c3") (dirty := false) (by simp) (by decide)
    Ex.hash7 Ex.hash16 Ex.word_day Ex.word_time Ex.word_zone (Ex.checkout _), fun num => by
      by_contra hc
      push Not at hc
      refine hc.1 (C71_version_identifies_build (rel₁ := py! "1.1.2") (rel₂ := py! "1.1.2") (num₁ := 3) (num₂ := num)
        (hash₁ := py! "0a1b2c3") (hash₂ := py! "0a1b2c3") (dirty₁ := false) (dirty₂ := false)
        (by simp) (by decide) (by decide) Ex.hash7 Ex.hash16 Ex.word_day Ex.word_time Ex.word_zone
        (Ex.checkout _) (by simp) (by decide) (by decide) Ex.hash7 Ex.hash16 Ex.word_day Ex.word_time Ex.word_zone
        (Ex.checkout _)
        (C70_tagged_checkout (rel := py! "1.1.2") (num := 3) (hash := py! "0a1b2c3") (dirty := false) (by simp) (by decide)
          Ex.hash7 Ex.hash16 Ex.word_day Ex.word_time Ex.word_zone (Ex.checkout _))
        (C70_tagged_checkout (rel := py! "1.1.2") (num := num) (hash := py! "0a1b2c3") (dirty := false) (by simp) (by decide)
          Ex.hash7 Ex.hash16 Ex.word_day Ex.word_time Ex.word_zone (Ex.checkout _)) hc.2.symm).2.1⟩

/-! ## C73: PEP 440 -/

/-- Neither a digit nor one of the letters and signs of a public version. -/
def Foreign (x : Char) : Prop := x.isDigit = false ∧ x ∉ py! "!.abrcpostdev"

theorem num_foreign {x : Char} (hx : Foreign x) {n : Str} (h : IsNum n) : x ∉ n := fun hm => by
  have := h.2 _ hm
  rw [hx.1] at this
  exact absurd this (by decide)

theorem release_foreign {x : Char} (hx : Foreign x) {r : Str} (h : Release r) : x ∉ r := by
  have : x ≠ '.' := fun e => hx.2 (by simp [e])
  induction h with
  | one h => exact num_foreign hx h
  | dot _ h ih => simp [ih, num_foreign hx h, this]

theorem public_foreign {x : Char} (hx : Foreign x) {s : Str} (h : PublicVersion s) : x ∉ s := by
  obtain ⟨e, r, p, q, d, rfl, he, hr, hp, hq, hd⟩ := h
  have hx2 := hx.2
  simp only [List.mem_cons, not_or] at hx2
  simp only [List.mem_append, not_or]
  refine ⟨⟨⟨⟨?_, release_foreign hx hr⟩, ?_⟩, ?_⟩, ?_⟩
  · rcases he with rfl | ⟨n, hn, rfl⟩
    · simp
    · simp [num_foreign hx hn, hx2]
  · rcases hp with rfl | ⟨n, hn, rfl | rfl | rfl⟩ <;> simp [num_foreign hx, hx2, *]
  · rcases hq with rfl | ⟨n, hn, rfl⟩
    · simp
    · simp [num_foreign hx hn, hx2]
  · rcases hd with rfl | ⟨n, hn, rfl⟩
    · simp
    · simp [num_foreign hx hn, hx2]

theorem public_notPlus {s : Str} (h : PublicVersion s) : '+' ∉ s := public_foreign ⟨by decide, by decide⟩ h

theorem public_ne_nil {s : Str} (h : PublicVersion s) : s ≠ [] := by
  obtain ⟨e, r, p, q, d, rfl, he, hr, hp, hq, hd⟩ := h
  have : r ≠ [] := by
    cases hr with
    | one h => exact h.1
    | dot _ _ => simp
  simp [this]

theorem local_noNewline {l : Str} (h : LocalVersion l) : '\n' ∉ l := by
  induction h with
  | one _ h => exact fun hm => absurd (h _ hm) (by decide)
  | dot _ _ h ih =>
    have : '\n' ∉ _ := fun hm => absurd (h '\n' hm) (by decide)
    simp [ih, this]

theorem version_noNewline {s : Str} (h : IsVersion s) : '\n' ∉ s := by
  rcases h with h | ⟨v, l, hv, hl, rfl⟩
  · exact public_foreign ⟨by decide, by decide⟩ h
  · simp [public_foreign (x := '\n') ⟨by decide, by decide⟩ hv, local_noNewline hl]

theorem version_ne_nil {s : Str} (h : IsVersion s) : s ≠ [] := by
  rcases h with h | ⟨v, l, hv, hl, rfl⟩
  · exact public_ne_nil h
  · simp

theorem isNum_fmtNat (n : ℕ) : IsNum (fmtNat n) := ⟨fmtNat_ne_nil n, fun _ hc => fmtNat_digit hc⟩

theorem digit_alphanum {c : Char} (h : c.isDigit = true) : c.isAlphanum = true := by simp [Char.isAlphanum, h]

theorem hash_alphanum {h : Str} (hh : IsHash h) : ∀ c ∈ h, c.isAlphanum = true := by
  intro c hc
  have hx := hh.2 c hc
  rcases hx with hx | hx
  · exact digit_alphanum ((isDigit_iff c).2 hx)
  · have h1 : ('a' ≤ c) := (char_le_iff _ _).2 hx.1
    have h2 : (c ≤ 'z') := (char_le_iff _ _).2 (by have : 'z'.toNat = 122 := rfl; omega)
    have h3 : c.isLower = true := by
      rw [Char.le_def] at h1 h2
      simp only [Char.isLower, Bool.and_eq_true, decide_eq_true_eq]
      exact ⟨h1, h2⟩
    simp [Char.isAlphanum, Char.isAlpha, h3]

theorem public_zero : PublicVersion (py! "0") :=
  ⟨[], py! "0", [], [], [], rfl, .inl rfl, .one ⟨by simp, by decide⟩, .inl rfl, .inl rfl, .inl rfl⟩

/-- The local label `NUM.gHASH[.dirty]`, after an optional label. -/
theorem local_build (num : ℕ) {hash : Str} (hh : ∀ c ∈ hash, c.isAlphanum = true) (dirty : Bool) :
    ∀ l : Str, LocalVersion l →
      LocalVersion (l ++ '.' :: (fmtNat num ++ py! ".g" ++ hash ++ if dirty then py! ".dirty" else [])) := by
  intro l hl
  have h1 := LocalVersion.dot hl (fmtNat_ne_nil num) (fun c hc => digit_alphanum (fmtNat_digit hc))
  have h2 := LocalVersion.dot h1 (w := 'g' :: hash) (by simp) (by
    intro c hc
    rcases List.mem_cons.1 hc with rfl | hc
    · decide
    · exact hh c hc)
  cases dirty with
  | false => simpa using h2
  | true =>
    have h3 := LocalVersion.dot h2 (w := py! "dirty") (by simp) (by decide)
    simpa using h3

theorem local_build' (num : ℕ) {hash : Str} (hh : ∀ c ∈ hash, c.isAlphanum = true) (dirty : Bool) :
    LocalVersion (fmtNat num ++ py! ".g" ++ hash ++ if dirty then py! ".dirty" else []) := by
  have h1 := LocalVersion.one (fmtNat_ne_nil num) (fun c hc => digit_alphanum (fmtNat_digit hc))
  have h2 := LocalVersion.dot h1 (w := 'g' :: hash) (by simp) (by
    intro c hc
    rcases List.mem_cons.1 hc with rfl | hc
    · decide
    · exact hh c hc)
  cases dirty with
  | false => simpa using h2
  | true =>
    have h3 := LocalVersion.dot h2 (w := py! "dirty") (by simp) (by decide)
    simpa using h3

/-- **C73.**  If the release tag is a valid PEP 440 version (with or without local label), so is the reported version,
however many commits and changes there are since. -/
theorem C73_pep440 {env : Env} {root rel full hash day time zone commits : Str} {num : ℕ} {dirty : Bool}
    (hrel : IsVersion rel) (hhash : IsHash hash) (hfull : IsHash full)
    (hday : IsWord day) (htime : IsWord time) (hzone : IsWord zone)
    (h : Checkout env root (describeTagged ('v' :: rel) num hash dirty) full (gitDate day time zone) commits) :
    ∃ v, getVersions env = .ok v ∧ IsVersion v.version := by
  refine ⟨_, C70_tagged_checkout (version_ne_nil hrel) (version_noNewline hrel) hhash hfull hday htime hzone h, ?_⟩
  simp only [buildVersion]
  by_cases h1 : num = 0 ∧ dirty = false
  · rw [if_pos h1]; exact hrel
  · rw [if_neg h1]
    rcases hrel with hrel | ⟨v, l, hv, hl, rfl⟩
    · rw [if_neg (public_notPlus hrel)]
      exact .inr ⟨rel, _, hrel, local_build' num (hash_alphanum hhash) dirty, by simp⟩
    · rw [if_pos (by simp)]
      exact .inr ⟨v, _, hv, local_build num (hash_alphanum hhash) dirty l hl, by simp⟩

/-- `1!2.0rc1.post3.dev4+local.7` is a valid version, so C73 applies to it as a tag, in any state of the checkout. -/
theorem Ex.valid : IsVersion (py! "1!2.0rc1.post3.dev4+local.7") :=
  .inr ⟨py! "1!2.0rc1.post3.dev4", py! "local.7",
    ⟨py! "1!", py! "2.0", py! "rc1", py! ".post3", py! ".dev4", by decide, .inr ⟨py! "1", ⟨by simp, by decide⟩, by decide⟩,
      .dot (r := py! "2") (n := py! "0") (.one ⟨by simp, by decide⟩) ⟨by simp, by decide⟩,
      .inr ⟨py! "1", ⟨by simp, by decide⟩, .inr (.inr (by decide))⟩, .inr ⟨py! "3", ⟨by simp, by decide⟩, by decide⟩,
      .inr ⟨py! "4", ⟨by simp, by decide⟩, by decide⟩⟩,
    .dot (l := py! "local") (w := py! "7") (.one (by simp) (by decide)) (by simp) (by decide), by decide⟩

example (num : ℕ) (dirty : Bool) : ∃ v, getVersions (Ex.machine unexpanded Ex.versionFile (Ex.answers
    (describeTagged ('v' :: py! "1!2.0rc1.post3.dev4+local.7") num (py! "0a1b2c3") dirty))) = .ok v ∧ IsVersion v.version :=
  C73_pep440 Ex.valid Ex.hash7 Ex.hash16 Ex.word_day Ex.word_time Ex.word_zone (Ex.checkout _)

/-- Not everything is a version: the text reported when the output of `git describe` cannot be parsed is not. -/
theorem C73_unknown_is_invalid : ¬ IsVersion (py! "unknown") := by
  have hu : Foreign 'u' := ⟨by decide, by decide⟩
  rintro (h | ⟨v, l, hv, -, he⟩)
  · exact public_foreign hu h (by simp)
  · cases v with
    | nil => simp at he
    | cons c v =>
      simp only [List.cons_append, List.cons.injEq] at he
      exact public_foreign hu hv (by simp [← he.1])

/-- **C73** without a release tag. -/
theorem C73_pep440_untagged {env : Env} {root full hash day time zone : Str} {commits : List Str} {dirty : Bool}
    (hhash : IsHash hash) (hfull : IsHash full) (hcommits : ∀ c ∈ commits, IsWord c)
    (hday : IsWord day) (htime : IsWord time) (hzone : IsWord zone)
    (h : Checkout env root (describeUntagged hash dirty) full (gitDate day time zone)
      (commits.flatMap fun c => c ++ ['\n'])) :
    ∃ v, getVersions env = .ok v ∧ IsVersion v.version := by
  refine ⟨_, C72_untagged_checkout hhash hfull hcommits hday htime hzone h, ?_⟩
  have h1 : LocalVersion (py! "untagged") := .one (by simp) (by decide)
  refine .inr ⟨_, _, public_zero, local_build commits.length (hash := full.take 7)
    (fun c hc => hash_alphanum hfull c (List.mem_of_mem_take hc)) dirty _ h1, ?_⟩
  simp

example (dirty : Bool) : ∃ v, getVersions (Ex.machine unexpanded Ex.versionFile (Ex.answers
    (describeUntagged (py! "0a1b2c3") dirty))) = .ok v ∧ IsVersion v.version :=
  C73_pep440_untagged Ex.hash7 Ex.hash16
    (by intro c hc; simp only [List.mem_cons, List.not_mem_nil, or_false] at hc
        rcases hc with rfl | rfl <;> exact ⟨by simp, by decide⟩)
    Ex.word_day Ex.word_time Ex.word_zone (Ex.checkout _)

/-! ## C74: the import does not fail -/

theorem pieces_error {env : Env} {root : Str} (hdec : ∀ cmd args dir rc, env.spawn cmd args dir ≠ .exited none rc)
    (hgit : (∃ out, Prints env root [py! "rev-parse", py! "--git-dir"] out) →
      (∃ out, Prints env root [py! "rev-list", py! "HEAD", py! "--left-right"] out) ∧
      ∃ out, Prints env root [py! "show", py! "-s", py! "--format=%ci", py! "HEAD"] out ∧ ∃ c ∈ out, isSpace c = false)
    {e : Exc} (h : gitPieces (fun args => runCommand env.spawn args root (gits env.win32)) tagPrefix = .error e) :
    e = .notThisMethod := by
  have hr := fun args => run_ok hdec args root (gits env.win32)
  have hzero := fun args o => run_zero (env := env) (root := root) (args := args) (o := o)
  have hprints := fun args out => run_prints (env := env) (root := root) (args := args) (out := out)
  generalize hrun : (fun args => runCommand env.spawn args root (gits env.win32)) = run at h
  have hr' : ∀ args, ∃ r, run args = .ok r := by rw [← hrun]; exact hr
  unfold gitPieces at h
  obtain ⟨⟨o1, rc1⟩, h1⟩ := hr' [py! "rev-parse", py! "--git-dir"]
  rw [h1] at h
  by_cases h0 : rc1 = some 0
  · subst h0
    have hg := hgit (hzero _ o1 (by rw [← h1, ← hrun]))
    obtain ⟨⟨rl, hrl⟩, sh, hsh, c, hc, hcs⟩ := hg
    have hrl' : run [py! "rev-list", py! "HEAD", py! "--left-right"] = .ok (some (stripBytes rl), some 0) := by
      rw [← hrun]; exact hprints _ _ hrl
    have hsh' : ∃ d, commitDate run = .ok d := by
      have : run [py! "show", py! "-s", py! "--format=%ci", py! "HEAD"] = .ok (some (stripBytes sh), some 0) := by
        rw [← hrun]; exact hprints _ _ hsh
      unfold commitDate
      rw [this]
      refine isoDate_ok ?_
      have hb : ((9 ≤ c.toNat && c.toNat ≤ 13) || c.toNat == 32) = false := by
        simp only [isSpace, Bool.or_eq_false_iff, Bool.and_eq_false_iff, decide_eq_false_iff_not,
          beq_eq_false_iff_ne] at hcs ⊢
        omega
      exact List.ne_nil_of_mem (mem_stripBy (mem_stripBy hc hb) hcs)
    obtain ⟨d, hd⟩ := hsh'
    have hparse : ∀ desc full branch, ∃ p, parseDescribe run tagPrefix desc full branch = .ok p := by
      intro desc full branch
      unfold parseDescribe
      simp only [hd, hrl']
      split_ifs
      · split
        · exact ⟨_, rfl⟩
        · split_ifs <;> exact ⟨_, rfl⟩
      · exact ⟨_, rfl⟩
    obtain ⟨⟨o2, rc2⟩, h2⟩ := hr' [py! "describe", py! "--tags", py! "--dirty", py! "--always", py! "--long", py! "--match",
        tagPrefix ++ py! "[[:digit:]]*"]
    obtain ⟨⟨o3, rc3⟩, h3⟩ := hr' [py! "rev-parse", py! "HEAD"]
    obtain ⟨⟨o4, rc4⟩, h4⟩ := hr' [py! "rev-parse", py! "--abbrev-ref", py! "HEAD"]
    obtain ⟨⟨o5, rc5⟩, h5⟩ := hr' [py! "branch", py! "--contains"]
    simp only [h2] at h
    cases o2 with
    | none => simpa using h.symm
    | some o2 =>
      simp only [h3] at h
      cases o3 with
      | none => simpa using h.symm
      | some o3 =>
        simp only [branchThen, h4] at h
        split at h
        · simp_all
        · rename_i heq
          simp only [Except.ok.injEq, Prod.mk.injEq] at heq
          split_ifs at h
          · simp only [h5] at h
            split at h
            · simp_all
            · obtain ⟨p, hp⟩ := hparse (strip o2) (strip o3) (detachedBranch ‹_›)
              rw [hp] at h; simp at h
            · simpa using h.symm
          · obtain ⟨p, hp⟩ := hparse (strip o2) (strip o3) (some (strip ‹_›))
            rw [hp] at h; simp at h
        · simpa using h.symm
  · simp only at h
    split at h
    · simp_all
    · rename_i heq; simp only [Except.ok.injEq, Prod.mk.injEq] at heq; exact absurd heq.2 h0
    · simpa using h.symm

theorem getVersions_ok {env : Env} (hfull : env.keywords.full ≠ none) (hdate : env.keywords.date ≠ some [])
    (hdec : ∀ cmd args dir rc, env.spawn cmd args dir ≠ .exited none rc)
    (hgit : ∀ root, (∃ out, Prints env root [py! "rev-parse", py! "--git-dir"] out) →
      (∃ out, Prints env root [py! "rev-list", py! "HEAD", py! "--left-right"] out) ∧
      ∃ out, Prints env root [py! "show", py! "-s", py! "--format=%ci", py! "HEAD"] out ∧ ∃ c ∈ out, isSpace c = false) :
    ∃ v, getVersions env = .ok v := by
  obtain ⟨full, hf⟩ := Option.ne_none_iff_exists'.1 hfull
  have hkw : (∃ v, gitVersionsFromKeywords env.keywords tagPrefix = .ok v) ∨
      gitVersionsFromKeywords env.keywords tagPrefix = .error .notThisMethod := by
    unfold gitVersionsFromKeywords
    cases env.keywords.refnames with
    | none => exact .inr rfl
    | some refs =>
      have : ∃ d, env.keywords.date.mapM isoDate = .ok d := by
        cases hd : env.keywords.date with
        | none => exact ⟨none, rfl⟩
        | some d =>
          obtain ⟨x, hx⟩ := isoDate_ok (s := d) (fun e => hdate (by rw [hd, e]))
          exact ⟨some x, by simp only [Option.mapM_some, hx]; rfl⟩
      obtain ⟨d, hd⟩ := this
      simp only [hd, hf]
      split_ifs
      · exact .inr rfl
      · left; split <;> exact ⟨_, rfl⟩
  unfold getVersions
  rcases hkw with ⟨v, hv⟩ | hv
  · rw [hv]; exact ⟨v, rfl⟩
  · rw [hv]
    simp only
    cases env.file with
    | none => exact ⟨_, rfl⟩
    | some file =>
      simp only
      unfold fromGit
      cases hp : gitPieces (fun args => runCommand env.spawn args (rootOf file) (gits env.win32)) tagPrefix with
      | error e =>
        have := pieces_error hdec (hgit _) hp
        subst this
        exact fromParentdir_ok _
      | ok p =>
        obtain ⟨v, hv⟩ := render_ok p
        simp only [hv]
        exact ⟨v, rfl⟩

/-- **C74.**  Whatever state git is in (not installed, not a repository, failing commands, unparsable output), importing
the package yields a version string, provided the output of git is valid UTF-8, and `git rev-list` and `git show` work
(and print a date) wherever `git rev-parse --git-dir` works, and the keywords in the file are not damaged. -/
theorem C74_import_succeeds {env₁ env₂ : Env}
    (hfull : ∀ env ∈ [env₁, env₂], env.keywords.full ≠ none ∧ env.keywords.date ≠ some [])
    (hdec : ∀ env ∈ [env₁, env₂], ∀ cmd args dir rc, env.spawn cmd args dir ≠ .exited none rc)
    (hgit : ∀ env ∈ [env₁, env₂], ∀ root, (∃ out, Prints env root [py! "rev-parse", py! "--git-dir"] out) →
      (∃ out, Prints env root [py! "rev-list", py! "HEAD", py! "--left-right"] out) ∧
      ∃ out, Prints env root [py! "show", py! "-s", py! "--format=%ci", py! "HEAD"] out ∧ ∃ c ∈ out, isSpace c = false) :
    ∃ version, importVersion env₁ env₂ = .ok version := by
  obtain ⟨v₁, h₁⟩ := getVersions_ok (hfull env₁ (by simp)).1 (hfull env₁ (by simp)).2 (hdec env₁ (by simp))
    (hgit env₁ (by simp))
  obtain ⟨v₂, h₂⟩ := getVersions_ok (hfull env₂ (by simp)).1 (hfull env₂ (by simp)).2 (hdec env₂ (by simp))
    (hgit env₂ (by simp))
  exact ⟨v₂.version, by simp [importVersion, h₁, h₂]⟩

/-- **C74**, the proviso is needed: in an otherwise healthy tagged checkout where `git show` fails, the import raises
`AttributeError`. -/
theorem C74_git_show_fails {env env' : Env} {root rel full hash : Str} {num : ℕ} {dirty : Bool}
    (hnl : '\n' ∉ rel) (hhash : IsHash hash) (hfull : IsHash full)
    (h : Repo env root (describeTagged ('v' :: rel) num hash dirty) full)
    (hshow : Fails env root [py! "show", py! "-s", py! "--format=%ci", py! "HEAD"]) :
    importVersion env env' = .error .attributeError := by
  obtain ⟨branch, hb⟩ := repo_pieces h (describe_tight hhash).1 (describe_tight hhash).2 hfull
  have hd : commitDate (fun args => runCommand env.spawn args root (gits env.win32)) = .error .attributeError := by
    obtain ⟨rc, hrc, -⟩ := run_fails hshow
    unfold commitDate
    simp only
    rw [hrc]
  have hp := parse_tagged_error (full := full) (num := num) (dirty := dirty) (branch := branch) hnl hhash hd
  have hg : getVersions env = .error .attributeError := by
    rw [repo_fromGit h]
    unfold fromGit
    rw [hb, hp]
  simp [importVersion, hg]

/-- No git at all: every hypothesis of C74 holds. -/
example : ∃ version, importVersion ⟨false, unexpanded, some Ex.versionFile, fun _ _ _ => .notFound⟩
    ⟨true, unexpanded, none, fun _ _ _ => .osError⟩ = .ok version :=
  C74_import_succeeds (by simp [unexpanded]) (by simp) (by simp [Prints])

/-- The machine of the examples: wherever `git rev-parse --git-dir` works, so do the others. -/
example (describe : Str) : ∃ version, importVersion (Ex.machine unexpanded Ex.versionFile (Ex.answers describe))
    (Ex.machine unexpanded Ex.versionFile (Ex.answers describe)) = .ok version := by
  refine C74_import_succeeds (by simp [unexpanded, Ex.machine]) ?_ ?_
  · simp only [List.mem_cons, List.not_mem_nil, or_false, or_self, forall_eq, Ex.machine]
    intro cmd args dir rc
    split_ifs
    · split <;> simp
    · simp
    · simp
  · simp only [List.mem_cons, List.not_mem_nil, or_false, or_self, forall_eq]
    rintro root ⟨out, h⟩
    by_cases hr : root = py! "/src/kk"
    · subst hr
      exact ⟨⟨_, (Ex.checkout describe).commitsOut⟩, _, (Ex.checkout describe).dateOut, '2', by decide, by decide⟩
    · simp [Prints, Ex.machine, hr] at h

example : importVersion (Ex.machine unexpanded Ex.versionFile (Ex.repoAnswers (py! "v1.1.2-3-g0a1b2c3")))
    (Ex.machine unexpanded Ex.versionFile []) = .error .attributeError :=
  C74_git_show_fails (rel := py! "1.1.2") (num := 3) (hash := py! "0a1b2c3") (dirty := false) (by decide) Ex.hash7 Ex.hash16
    (Ex.repo _) (.inr (.inr ⟨[], 128, rfl, by decide⟩))

/-! ## C75: outside of a checkout -/

theorem basename_join {r n : Str} (hn : '/' ∉ n) : basename (r ++ '/' :: n) = n := by
  unfold basename
  rw [List.reverse_append, List.reverse_cons, List.append_assoc, List.singleton_append, takeWhile_append_stop]
  · simp
  · intro c hc
    simp only [decide_eq_true_eq]
    rintro rfl
    exact hn (by simpa using hc)
  · intro c hc
    simp only [List.head?_cons, Option.some.injEq] at hc
    simp [← hc]

theorem last_join {r n : Str} (hne : n ≠ []) (hn : '/' ∉ n) :
    r ++ '/' :: n ≠ [] ∧ (r ++ '/' :: n).getLast? ≠ some '/' := by
  refine ⟨by simp, fun h => ?_⟩
  obtain ⟨m, c, rfl⟩ := List.eq_nil_or_concat n |>.resolve_left hne
  have e : r ++ '/' :: (m.concat c) = (r ++ '/' :: m) ++ [c] := by simp
  rw [e, List.getLast?_append] at h
  simp at h
  exact hn (by simp [h])

theorem startswith_dir (d : Str) : startswith d parentdirPrefix = true ↔ py! "kalmankit-" <+: d := by
  unfold startswith parentdirPrefix
  exact List.isPrefixOf_iff_prefix

/-- **C75.**  Outside of a git checkout (git missing, failing, or not a repository) and without expanded keywords, the
version is the one in the name `kalmankit-VERSION` of the root directory or, failing that, of its parent or grandparent;
if none has such a name it is `0+unknown` with an error message.  There is no commit or date. -/
theorem C75_outside_checkout {env : Env} {up a b c : Str} (ha : a ≠ []) (hb : b ≠ []) (hc : c ≠ [])
    (ha' : '/' ∉ a) (hb' : '/' ∉ b) (hc' : '/' ∉ c) (hkw : env.keywords = unexpanded)
    (hfile : env.file = some (up ++ '/' :: c ++ '/' :: b ++ '/' :: a ++ py! "/src/kalmankit/_version.py"))
    (hgit : Fails env (up ++ '/' :: c ++ '/' :: b ++ '/' :: a) [py! "rev-parse", py! "--git-dir"]) :
    getVersions env = .ok (match [a, b, c].findSome? dirVersion with
      | some version => ⟨version, none, some false, none, none⟩
      | none => ⟨py! "0+unknown", none, none, some (py! "unable to compute version"), none⟩) := by
  have lc := last_join (r := up) hc hc'
  have lb := last_join (r := up ++ '/' :: c) hb hb'
  have la := last_join (r := up ++ '/' :: c ++ '/' :: b) ha ha'
  unfold getVersions
  rw [hkw, keywords_unexpanded, hfile]
  simp only
  rw [rootOf_file la.1 la.2]
  unfold fromGit
  have hp : gitPieces (fun args => runCommand env.spawn args (up ++ '/' :: c ++ '/' :: b ++ '/' :: a) (gits env.win32))
      tagPrefix = .error .notThisMethod := by
    obtain ⟨rc, hrc, h0⟩ := run_fails hgit
    unfold gitPieces
    simp only
    rw [hrc]
    split
    · simp_all
    · rename_i heq; simp only [Except.ok.injEq, Prod.mk.injEq] at heq; exact absurd heq.2 h0
    · rfl
  rw [hp]
  simp only
  unfold fromParentdir versionsFromParentdir
  simp only [parentdirLoop, basename_join ha', dirname_join lb.1 lb.2 ha', basename_join hb',
    dirname_join lc.1 lc.2 hb', basename_join hc', startswith_dir, List.findSome?, dirVersion]
  by_cases h1 : py! "kalmankit-" <+: a
  · simp [h1, parentdirPrefix]
  · by_cases h2 : py! "kalmankit-" <+: b
    · simp [h1, h2, parentdirPrefix]
    · by_cases h3 : py! "kalmankit-" <+: c
      · simp [h1, h2, h3, parentdirPrefix]
      · simp [h1, h2, h3, lastResort]

/-- An unpacked source distribution, nested once. -/
example : getVersions (Ex.machine unexpanded (py! "/tmp/kalmankit-1.1.2/x/src/kalmankit/_version.py") []) =
    .ok ⟨py! "1.1.2", none, some false, none, none⟩ :=
  C75_outside_checkout (up := []) (c := py! "tmp") (b := py! "kalmankit-1.1.2") (a := py! "x") (by simp) (by simp) (by simp)
    (by decide) (by decide) (by decide) rfl rfl (.inr (.inr ⟨[], 128, rfl, by decide⟩))

end KK.Version
