import Verif.Spec.Install
import Verif.Proofs.BuildFile
import Verif.Proofs.Version
import Mathlib.Data.List.Induction
import Mathlib.Data.List.Infix

/-!
# C128, C129: `python versioneer.py setup`
-/

set_option linter.unusedSectionVars false

namespace KK.Version

/-! ## Python `str` -/

theorem isIn_iff {s : Str} : ∀ {t : Str}, isIn s t = true ↔ s <:+: t
  | [] => by simp [isIn]
  | c :: rest => by
    rw [isIn, Bool.or_eq_true, isIn_iff (t := rest), startswith, List.isPrefixOf_iff_prefix, List.infix_cons_iff]

theorem words_append_space {c : Char} (hc : isSpace c = true) : ∀ s : Str, words (s ++ [c]) = words s
  | [] => by simp [words, hc]
  | [d] => by
    by_cases hd : isSpace d = true
    · simp [words, hc, hd]
    · simp [words, hc, hd]
  | d :: e :: s => by
    have ih := words_append_space hc (e :: s)
    simp only [List.cons_append] at ih ⊢
    rw [words, words, ih]

theorem words_append_spaces {t : Str} (ht : ∀ c ∈ t, isSpace c = true) (s : Str) : words (s ++ t) = words s := by
  induction t using List.reverseRecOn with
  | nil => simp
  | append_singleton t c ih =>
    rw [← List.append_assoc, words_append_space (ht c (by simp)), ih fun c hc => ht c (by simp [hc])]

theorem words_dropWhile (s : Str) : words (s.dropWhile isSpace) = words s := by
  induction s with
  | nil => rfl
  | cons c s ih =>
    by_cases hc : isSpace c = true
    · rw [List.dropWhile_cons_of_pos hc, ih]
      cases s <;> simp [words, hc]
    · rw [List.dropWhile_cons_of_neg hc]

theorem words_strip (s : Str) : words (strip s) = words s := by
  have e : ∀ t : Str, t = (t.reverse.dropWhile isSpace).reverse ++ (t.reverse.takeWhile isSpace).reverse := fun t => by
    rw [← List.reverse_append, List.takeWhile_append_dropWhile, List.reverse_reverse]
  unfold strip stripBy
  rw [← words_dropWhile s]
  conv_rhs => rw [e (s.dropWhile isSpace)]
  refine (words_append_spaces (fun c hc => ?_) _).symm
  rw [List.mem_reverse] at hc
  exact List.all_eq_true.1 (List.all_takeWhile (p := isSpace)) c hc

theorem words_prefix {v : Str} (hne : v ≠ []) (hv : ∀ c ∈ v, isSpace c = false) (r : Str) :
    ∃ w ws, words (v ++ r) = (v ++ w) :: ws := by
  induction v with
  | nil => exact absurd rfl hne
  | cons c v ih =>
    have hc := hv c (by simp)
    cases v with
    | nil =>
      cases r with
      | nil => exact ⟨[], [], by simp [words, hc]⟩
      | cons d r =>
        by_cases hd : isSpace d = true
        · exact ⟨[], words (d :: r), by simp [words, hc, hd]⟩
        · cases hw : words (d :: r) with
          | nil => exact ⟨[], [], by rw [List.singleton_append, words, hw]; simp [hc, hd]⟩
          | cons w ws => exact ⟨w, ws, by rw [List.singleton_append, words, hw]; simp [hc, hd]⟩
    | cons d v =>
      have hd := hv d (by simp)
      obtain ⟨w, ws, e⟩ := ih (by simp) fun c hc => hv c (by simp [hc])
      refine ⟨w, ws, ?_⟩
      simp only [List.cons_append] at e ⊢
      rw [words, hc]
      simp [hd, e]

theorem splitOn_ne_nil (sep : Char) (a : Str) : splitOn sep a ≠ [] := by
  cases a with
  | nil => simp [splitOn]
  | cons c a =>
    rw [splitOn]
    split_ifs
    · simp
    · split <;> simp

/-! ## Killed processes -/

section
variable {α : Type} {fs fs' : Files}

theorem killed_ret {a : α} : (Cmd.ret a).Killed fs fs' ↔ fs' = fs :=
  ⟨fun h => by cases h; rfl, fun h => h ▸ .here _ _⟩

theorem killed_read {p : Str} {k : Option Str → Cmd α} : (Cmd.read p k).Killed fs fs' ↔ (k (fs p)).Killed fs fs' := by
  constructor
  · intro h
    cases h with
    | here => exact .here _ _
    | read h => exact h
  · exact .read

theorem killed_trunc {p : Str} {k : Cmd α} : (Cmd.trunc p k).Killed fs fs' ↔ fs' = fs ∨ k.Killed (fs.truncate p) fs' := by
  constructor
  · intro h
    cases h with
    | here => exact .inl rfl
    | trunc h => exact .inr h
  · rintro (rfl | h)
    · exact .here _ _
    · exact .trunc h

theorem killed_put {p s : Str} {k : Cmd α} : (Cmd.put p s k).Killed fs fs' ↔
    fs' = fs ∨ (∃ s', s' <+: s ∧ fs' = fs.append p s') ∨ k.Killed (fs.append p s) fs' := by
  constructor
  · intro h
    cases h with
    | here => exact .inl rfl
    | part h => exact .inr (.inl ⟨_, h, rfl⟩)
    | put h => exact .inr (.inr h)
  · rintro (rfl | ⟨s', h, rfl⟩ | h)
    · exact .here _ _
    · exact .part h
    · exact .put h

theorem killed_run (c : Cmd α) : ∀ fs : Files, c.Killed fs (c.run fs).1 := by
  induction c with
  | ret a => exact fun fs => .here _ _
  | read p k ih => exact fun fs => .read (ih _ _)
  | trunc p k ih => exact fun fs => .trunc (ih _)
  | put p s k ih => exact fun fs => .put (ih _)

end


/-! ## The run -/

/-- `__init__.py` afterwards. -/
def initAfter : Option Str → Option Str
  | none => none
  | some old =>
    if isIn oldLines old then some (replaceAll oldLines snippet old)
    else if isIn snippet old then some old else some (old ++ snippet)

/-- `.gitattributes` afterwards. -/
def attrAfter (text : Option Str) : Option Str :=
  if present versionfileSource text then text else some (text.getD [] ++ (versionfileSource ++ py! " export-subst\n"))

theorem init_path : joinPath (dirname versionfileSource) (py! "__init__.py") = initPath := by decide

theorem old_lines : oldSnippet = oldLines := by decide

theorem init_snippet : initSnippet (splitextRoot (basename versionfileSource)) = snippet := by decide

variable {ps : Parsers} {long : Config → Str} {fs fs' : Files} {cfg : Config}

/-- The files afterwards. -/
def after (long : Config → Str) (cfg : Config) (fs : Files) : Files := fun p =>
  if p = versionfileSource then some (long cfg)
  else if p = initPath then initAfter (fs initPath)
  else if p = gitattributes then attrAfter (fs gitattributes)
  else fs p

/-- What is left of the run when the configuration has been read. -/
def rest (long : Config → Str) (cfg : Config) (k : SetupEnd → Cmd SetupEnd) : Cmd SetupEnd :=
  .trunc versionfileSource (.put versionfileSource (long cfg)
    (setupInit versionfileSource fun ipy => doVcsInstall versionfileSource ipy fun files => k (.ok (0, files))))

theorem doSetup_killed (h : Configured ps fs cfg) (k : SetupEnd → Cmd SetupEnd) :
    (doSetup ps long k).Killed fs fs' ↔ (rest long cfg k).Killed fs fs' := by
  rw [doSetup, killed_read, killed_read, h.config]
  simp only [h.source, h.vcs, if_true]
  rfl

theorem doSetup_run (h : Configured ps fs cfg) (k : SetupEnd → Cmd SetupEnd) :
    (doSetup ps long k).run fs = (rest long cfg k).run fs := by
  rw [doSetup, Cmd.run, Cmd.run, h.config]
  simp only [h.source, h.vcs, if_true]
  rfl

/-- The files handed to `git add`. -/
def added (fs : Files) : List Str :=
  versionfileSource :: ((if (fs initPath).isSome then [initPath] else []) ++ [py! "versioneer.py"]) ++
    if present versionfileSource (fs gitattributes) then [] else [gitattributes]

theorem rest_run (k : SetupEnd → Cmd SetupEnd) :
    (rest long cfg k).run fs = (k (.ok (0, added fs))).run (after long cfg fs) := by
  have hne1 : initPath ≠ versionfileSource := by decide
  have hne2 : gitattributes ≠ versionfileSource := by decide
  have hne3 : gitattributes ≠ initPath := by decide
  have e1 : ∀ g : Files, g versionfileSource = some (long cfg) → g initPath = initAfter (fs initPath) →
      (∀ p, p ≠ versionfileSource → p ≠ initPath → g p = fs p) → ∀ ipy : Option Str,
      ipy = (if (fs initPath).isSome then some initPath else none) →
      (doVcsInstall versionfileSource ipy fun files => k (.ok (0, files))).run g =
        (k (.ok (0, added fs))).run (after long cfg fs) := by
    intro g h1 h2 h3 ipy hipy
    rw [doVcsInstall, Cmd.run, h3 _ hne2 hne3]
    have hadd : added fs = (versionfileSource :: (ipy.toList ++ [py! "versioneer.py"])) ++
        if present versionfileSource (fs gitattributes) then [] else [gitattributes] := by
      rw [added, hipy]
      cases (fs initPath).isSome <;> rfl
    by_cases hp : present versionfileSource (fs gitattributes) = true
    · simp only [hp, if_true] at hadd ⊢
      rw [hadd, List.append_nil]
      congr 1
      funext p
      simp only [after]
      split_ifs with c1 c2 c3
      · rw [c1, h1]
      · rw [c2, h2]
      · rw [attrAfter, if_pos hp, c3, h3 _ hne2 hne3]
      · exact h3 p c1 c2
    · simp only [hp] at hadd ⊢
      rw [if_neg (by simp), Cmd.run, hadd]
      simp only [Bool.false_eq_true, if_false]
      congr 1
      funext p
      simp only [after, Files.append]
      by_cases c3 : p = gitattributes
      · subst c3
        rw [if_pos rfl, if_neg hne2, if_neg hne3, if_pos rfl, attrAfter, if_neg hp, h3 _ hne2 hne3]
      · rw [if_neg c3]
        split_ifs with c1 c2
        · rw [c1, h1]
        · rw [c2, h2]
        · exact h3 p c1 c2
  rw [rest, Cmd.run, Cmd.run, setupInit, old_lines, Cmd.run, init_path, init_snippet]
  obtain ⟨g, hg⟩ : ∃ g, g = (fs.truncate versionfileSource).append versionfileSource (long cfg) := ⟨_, rfl⟩
  have g1 : g versionfileSource = some (long cfg) := by simp [hg, Files.append, Files.truncate]
  have g2 : ∀ p, p ≠ versionfileSource → g p = fs p := fun p hp => by simp [hg, Files.append, Files.truncate, hp]
  rw [← hg, g2 _ hne1]
  cases hi : fs initPath with
  | none =>
    simp only
    exact e1 g g1 (by rw [g2 _ hne1, hi]; rfl) (fun p h _ => g2 p h) none (by simp [hi])
  | some old =>
    simp only
    split_ifs with c1 c2
    · rw [Cmd.run, Cmd.run]
      refine e1 _ ?_ ?_ ?_ _ (by simp [hi])
      · simp [Files.append, Files.truncate, hne1.symm, g1]
      · simp [Files.append, Files.truncate, hi, initAfter, c1]
      · intro p h1 h2
        simp [Files.append, Files.truncate, h2, g2 p h1]
    · refine e1 g g1 ?_ (fun p h _ => g2 p h) _ (by simp [hi])
      rw [g2 _ hne1, hi]
      simp [initAfter, c1, c2]
    · rw [Cmd.run]
      refine e1 _ ?_ ?_ ?_ _ (by simp [hi])
      · simp [Files.append, hne1.symm, g1]
      · simp [Files.append, g2 _ hne1, hi, initAfter, c1, c2]
      · intro p h1 h2
        simp [Files.append, h2, g2 p h1]

/-! ## What is kept -/

/-- The end of `setup_command`. -/
def scan (r : SetupEnd) : Cmd SetupEnd :=
  match r with
  | .error e => .ret (.error e)
  | .ok (errors, files) =>
    .read (py! "setup.py") fun text =>
      match text with
      | none => .ret (.error .osError)
      | some text => .ret (.ok (if errors + scanSetupPy text = 0 then 0 else 1, files))

theorem setupCommand_eq : setupCommand ps long = doSetup ps long scan := rfl

theorem scan_killed {r : SetupEnd} : (scan r).Killed fs fs' ↔ fs' = fs := by
  cases r with
  | error e => exact killed_ret
  | ok r =>
    obtain ⟨e, files⟩ := r
    rw [scan, killed_read]
    cases fs (py! "setup.py") <;> exact killed_ret

theorem scan_run {r : SetupEnd} : ((scan r).run fs).1 = fs := scan_killed.1 (killed_run _ _)

/-- Only text was added to files, and only to the two that the installer adds to. -/
def Kept (fs fs' : Files) : Prop := ∀ p, p ≠ versionfileSource →
  (∀ text, fs p = some text → ∃ more, fs' p = some (text ++ more)) ∧ (p ≠ initPath → p ≠ gitattributes → fs' p = fs p) ∧
  (p ≠ gitattributes → fs p = none → fs' p = none)

theorem Kept.append {p s : Str} (h : Kept fs fs') (hp : p = gitattributes ∨ p = initPath ∧ fs p ≠ none) : Kept fs (fs'.append p s) := by
  intro x hx
  obtain ⟨h1, h2, h3⟩ := h x hx
  by_cases e : x = p
  · subst e
    refine ⟨fun text ht => ?_, fun n1 n2 => ?_, fun n1 n2 => ?_⟩
    · obtain ⟨more, hm⟩ := h1 text ht
      exact ⟨more ++ s, by simp [Files.append, hm]⟩
    · rcases hp with hp | hp
      · exact absurd hp n2
      · exact absurd hp.1 n1
    · rcases hp with hp | hp
      · exact absurd hp n1
      · exact absurd n2 hp.2
  · have e' : fs'.append p s x = fs' x := by simp [Files.append, e]
    rw [e']
    exact ⟨h1, h2, h3⟩

/-- C128: `python versioneer.py setup` in the configured project, killed at any moment - or not at all - keeps what the files
contained: nothing is removed from any file other than `src/kalmankit/_version.py`, text is added only at the end of
`__init__.py` and `.gitattributes`, and no file except these is created.  (`__init__.py` must not contain the three lines that older
versions of versioneer added.) -/
theorem C128_text_is_kept (h : Configured ps fs cfg) (hold : ∀ text, fs initPath = some text → ¬ oldLines <:+: text)
    (hk : (setupCommand ps long).Killed fs fs') : ∀ p, p ≠ py! "src/kalmankit/_version.py" →
      (∀ text, fs p = some text → ∃ more, fs' p = some (text ++ more)) ∧
      (p ≠ py! "src/kalmankit/__init__.py" → p ≠ py! ".gitattributes" → fs' p = fs p) ∧
      (p ≠ py! ".gitattributes" → fs p = none → fs' p = none) := by
  change Kept fs fs'
  have hne1 : initPath ≠ versionfileSource := by decide
  have base : ∀ g : Files, (∀ p, p ≠ versionfileSource → g p = fs p) → Kept fs g := fun g hg p hp => by
    rw [hg p hp]
    exact ⟨fun text ht => ⟨[], by simpa using ht⟩, fun _ _ => rfl, fun _ h => h⟩
  have b0 : Kept fs fs := base fs fun _ _ => rfl
  have vcs : ∀ (g : Files) (ipy : Option Str), Kept fs g → (doVcsInstall versionfileSource ipy fun files => scan (.ok (0, files))).Killed g fs' →
      Kept fs fs' := by
    intro g ipy hg hk
    rw [doVcsInstall, killed_read] at hk
    split_ifs at hk with c
    · rw [scan_killed.1 hk]; exact hg
    · rw [killed_put] at hk
      rcases hk with rfl | ⟨s', -, rfl⟩ | hk
      · exact hg
      · exact hg.append (.inl rfl)
      · rw [scan_killed.1 hk]; exact hg.append (.inl rfl)
  rw [setupCommand_eq, doSetup_killed h, rest, killed_trunc, killed_put] at hk
  have t1 : ∀ p, p ≠ versionfileSource → fs.truncate versionfileSource p = fs p := fun p hp => by simp [Files.truncate, hp]
  rcases hk with rfl | rfl | ⟨s', -, rfl⟩ | hk
  · exact b0
  · exact base _ t1
  · exact base _ fun p hp => by rw [← t1 p hp]; simp [Files.append, hp]
  · obtain ⟨g, hg⟩ : ∃ g, g = (fs.truncate versionfileSource).append versionfileSource (long cfg) := ⟨_, rfl⟩
    have g2 : ∀ p, p ≠ versionfileSource → g p = fs p := fun p hp => by simp [hg, Files.append, Files.truncate, hp]
    rw [← hg, setupInit, old_lines, killed_read, init_path, init_snippet, g2 _ hne1] at hk
    have hkg := base g g2
    cases hi : fs initPath with
    | none =>
      rw [hi] at hk
      exact vcs _ _ hkg hk
    | some old =>
      rw [hi] at hk
      simp only at hk
      rw [if_neg (by rw [isIn_iff]; exact hold old hi)] at hk
      split_ifs at hk with c
      · exact vcs _ _ hkg hk
      · rw [killed_put] at hk
        have ha : ∀ s, Kept fs (g.append initPath s) := fun s => hkg.append (.inr ⟨rfl, by simp [hi]⟩)
        rcases hk with rfl | ⟨s', -, rfl⟩ | hk
        · exact hkg
        · exact ha _
        · exact vcs _ _ (ha _) hk

/-- C128 (no configuration): if the configuration cannot be read, whatever happens and whenever the installer is killed, no file other
than `setup.cfg` is touched, and that one only gets text added at its end. -/
theorem C128_unconfigured {e : SetupExc} (h : getConfig ps (fs (py! "pyproject.toml")) (fs (py! "setup.cfg")) = .error e)
    (hk : (setupCommand ps long).Killed fs fs') :
    (∀ p, p ≠ py! "setup.cfg" → fs' p = fs p) ∧ ∀ text, fs (py! "setup.cfg") = some text →
      ∃ more, fs' (py! "setup.cfg") = some (text ++ more) := by
  have key : fs' = fs ∨ ∃ s, fs' = fs.append (py! "setup.cfg") s := by
    rw [setupCommand_eq, doSetup, killed_read, killed_read, h] at hk
    simp only at hk
    split_ifs at hk
    · rw [killed_put] at hk
      rcases hk with h | ⟨s', -, h⟩ | h
      · exact .inl h
      · exact .inr ⟨_, h⟩
      · exact .inr ⟨_, scan_killed.1 h⟩
    · exact .inl (scan_killed.1 hk)
    · exact .inl (killed_ret.1 hk)
  rcases key with rfl | ⟨s, rfl⟩
  · exact ⟨fun _ _ => rfl, fun text ht => ⟨[], by simpa using ht⟩⟩
  · refine ⟨fun p hp => by simp [Files.append, hp], fun text ht => ⟨s, ?_⟩⟩
    simp [Files.append, ht]

/-- C128 (the lines of older versions): if `__init__.py` does contain them, the installer can be killed at a moment when the file is
empty - what it contained is lost. -/
theorem C128_old_lines_lost (h : Configured ps fs cfg) {text : Str} (ht : fs initPath = some text) (hold : oldLines <:+: text) :
    ∃ fs', (setupCommand ps long).Killed fs fs' ∧ fs' (py! "src/kalmankit/__init__.py") = some [] := by
  have hne1 : initPath ≠ versionfileSource := by decide
  obtain ⟨g, hg⟩ : ∃ g, g = (fs.truncate versionfileSource).append versionfileSource (long cfg) := ⟨_, rfl⟩
  have g2 : g initPath = some text := by rw [← ht]; simp [hg, Files.append, Files.truncate, hne1]
  refine ⟨g.truncate initPath, ?_, by simp [Files.truncate, initPath]⟩
  rw [setupCommand_eq, doSetup_killed h, rest, killed_trunc]
  right
  rw [killed_put]
  right; right
  rw [← hg, setupInit, old_lines, killed_read, init_path, init_snippet, g2]
  simp only
  rw [if_pos (isIn_iff.2 hold), killed_trunc]
  exact .inr (.here _ _)

/-- C128 (another version control system): a configuration for anything but git makes the installer empty the version file and raise
KeyError. -/
theorem C128_other_vcs {p : Str} (h : getConfig ps (fs (py! "pyproject.toml")) (fs (py! "setup.cfg")) = .ok cfg)
    (hvcs : cfg.vcs ≠ py! "git") (hp : cfg.source = some p) :
    ((setupCommand ps long).run fs).2 = .error .keyError ∧ ((setupCommand ps long).run fs).1 p = some [] ∧
      ∀ x, x ≠ p → ((setupCommand ps long).run fs).1 x = fs x := by
  rw [setupCommand_eq, doSetup, Cmd.run, Cmd.run, h]
  simp only [hp, if_neg hvcs, Cmd.run]
  exact ⟨trivial, by simp [Files.truncate], fun x hx => by simp [Files.truncate, hx]⟩

/-! ## What is achieved -/

theorem run_eq (h : Configured ps fs cfg) : ((setupCommand ps long).run fs).1 = after long cfg fs := by
  rw [setupCommand_eq, doSetup_run h, rest_run, scan_run]

theorem after_configured (h : Configured ps fs cfg) : Configured ps (after long cfg fs) cfg where
  config := by
    rw [show after long cfg fs (py! "pyproject.toml") = fs (py! "pyproject.toml") from rfl,
      show after long cfg fs (py! "setup.cfg") = fs (py! "setup.cfg") from rfl]
    exact h.config
  vcs := h.vcs
  source := h.source

theorem infix_append_cases {l a b : Str} (h : l <:+: a ++ b) :
    l <:+: a ∨ l <:+: b ∨ ∃ u v, l = u ++ v ∧ u <:+ a ∧ v <+: b := by
  rw [List.infix_append_iff] at h
  rcases h with h | h | ⟨t₁, t₂, rfl, h1, h2⟩
  · exact .inl h
  · exact .inr (.inl h)
  · exact .inr (.inr ⟨t₁, t₂, rfl, h1, h2⟩)

set_option maxRecDepth 20000 in
theorem old_tails : ∀ v ∈ oldLines.tails, v.isPrefixOf snippet = true → v = [] ∨ v = ['\n'] := by decide

set_option maxRecDepth 20000 in
theorem old_not_snippet : isIn oldLines snippet = false := by decide

theorem old_append {text : Str} (h : ¬ oldLines <:+: text ++ ['\n']) : ¬ oldLines <:+: text ++ snippet := by
  have h0 : ¬ oldLines <:+: text := fun c => h (c.trans (List.infix_append' [] text ['\n']))
  intro c
  rcases infix_append_cases c with c | c | ⟨u, v, e, hu, hv⟩
  · exact h0 c
  · rw [← isIn_iff, old_not_snippet] at c
    simp at c
  · have hv' : v ∈ oldLines.tails := by rw [List.mem_tails, e]; exact List.suffix_append u v
    rcases old_tails v hv' (List.isPrefixOf_iff_prefix.2 hv) with rfl | rfl
    · rw [List.append_nil] at e
      exact h0 (e ▸ hu.isInfix)
    · refine h (e ▸ ?_)
      obtain ⟨t, rfl⟩ := hu
      have h' : u ++ ['\n'] <:+ t ++ u ++ ['\n'] := ⟨t, by simp⟩
      exact h'.isInfix

theorem initAfter_idem {o : Option Str} (h : ∀ t, o = some t → ¬ oldLines <:+: t ++ ['\n']) :
    initAfter (initAfter o) = initAfter o ∧ ∀ t, o = some t → ∃ t', initAfter o = some t' ∧ snippet <:+: t' ∧
      ∃ more, t' = t ++ more := by
  cases o with
  | none => exact ⟨rfl, by simp⟩
  | some t =>
    have h1 := h t rfl
    have h0 : ¬ oldLines <:+: t := fun c => h1 (c.trans (List.infix_append' [] t ['\n']))
    have n0 : ¬ isIn oldLines t = true := by rw [isIn_iff]; exact h0
    by_cases c : isIn snippet t = true
    · have e : initAfter (some t) = some t := by simp [initAfter, n0, c]
      exact ⟨by rw [e, e], fun t' ht' => ⟨t', by rw [← ht', e], by cases ht'; exact isIn_iff.1 c, [], by simp⟩⟩
    · have e : initAfter (some t) = some (t ++ snippet) := by simp [initAfter, n0, c]
      have n1 : ¬ isIn oldLines (t ++ snippet) = true := by rw [isIn_iff]; exact old_append h1
      have c1 : isIn snippet (t ++ snippet) = true := isIn_iff.2 (List.suffix_append t snippet).isInfix
      refine ⟨by rw [e]; simp [initAfter, n1, c1], fun t' ht' => ?_⟩
      cases ht'
      exact ⟨_, e, (List.suffix_append t snippet).isInfix, snippet, rfl⟩

theorem splitOn_line (t : Str) (ht : t = [] ∨ t.getLast? = some '\n') (s : Str) :
    ∃ ls, splitOn '\n' (t ++ s) = ls ++ splitOn '\n' s ∧ ∀ l ∈ ls, l ∈ splitOn '\n' t := by
  rcases ht with rfl | ht
  · exact ⟨[], by simp, by simp⟩
  · obtain ⟨i, rfl⟩ := List.getLast?_eq_some_iff.1 ht
    refine ⟨splitOn '\n' i, by rw [List.append_assoc, List.singleton_append, splitOn_join], fun l hl => ?_⟩
    rw [splitOn_join]
    exact List.mem_append_left _ hl

theorem line_marks : (splitOn '\n' (versionfileSource ++ py! " export-subst\n")).any (marksLine versionfileSource) = true := by decide

theorem present_append (t : Str) (ht : t = [] ∨ t.getLast? = some '\n') :
    present versionfileSource (some (t ++ (versionfileSource ++ py! " export-subst\n"))) = true := by
  obtain ⟨ls, e, -⟩ := splitOn_line t ht (versionfileSource ++ py! " export-subst\n")
  rw [present, e, List.any_append, line_marks, Bool.or_true]

theorem attr_ends (t : Str) : (t ++ (versionfileSource ++ py! " export-subst\n")).getLast? = some '\n' := by
  rw [List.getLast?_append_of_ne_nil _ (by simp)]
  rfl

theorem attrAfter_idem {o : Option Str} (h : ∀ t, o = some t → t = [] ∨ t.getLast? = some '\n') :
    attrAfter (attrAfter o) = attrAfter o := by
  by_cases c : present versionfileSource o = true
  · rw [attrAfter, attrAfter, if_pos c, if_pos c]
  · have e : attrAfter o = some (o.getD [] ++ (versionfileSource ++ py! " export-subst\n")) := by rw [attrAfter, if_neg c]
    rw [e, attrAfter, if_pos]
    refine present_append _ ?_
    cases o with
    | none => exact .inl rfl
    | some t => exact h t rfl

theorem attrAfter_twice (o : Option Str) : attrAfter (attrAfter (attrAfter o)) = attrAfter (attrAfter o) := by
  by_cases c : present versionfileSource o = true
  · have e : attrAfter o = o := by rw [attrAfter, if_pos c]
    rw [e, e, e]
  · refine attrAfter_idem fun t ht => .inr ?_
    have e : attrAfter o = some (o.getD [] ++ (versionfileSource ++ py! " export-subst\n")) := by rw [attrAfter, if_neg c]
    rw [e, Option.some.injEq] at ht
    rw [← ht, attr_ends]

/-! ### the mark -/

theorem source_word : versionfileSource ≠ [] ∧ ∀ c ∈ versionfileSource, isSpace c = false := ⟨by decide, by decide⟩

theorem marksLine_words {line : Str} (h : marksLine versionfileSource line = true) :
    ∃ w ws, words line = w :: ws ∧ versionfileSource <+: w ∧ py! "export-subst" ∈ ws := by
  rw [marksLine, Bool.and_eq_true, startswith, List.isPrefixOf_iff_prefix] at h
  obtain ⟨⟨r, hr⟩, h2⟩ := h
  obtain ⟨w, ws, e⟩ := words_prefix source_word.1 source_word.2 r
  rw [hr] at e
  rw [e, List.drop_one, List.tail_cons, List.contains_iff_mem] at h2
  exact ⟨_, ws, (words_strip line).symm.trans e, List.prefix_append _ _, h2⟩

theorem marks_of_present {t : Str} (h : present versionfileSource (some t) = true) (hn : NoLonger versionfileSource t) :
    Marks versionfileSource t := by
  rw [present, List.any_eq_true] at h
  obtain ⟨line, hl, hm⟩ := h
  obtain ⟨w, ws, e, hw, hx⟩ := marksLine_words hm
  exact ⟨line, hl, ws, by rw [e, hn line hl w ws e hw], hx⟩

theorem noLonger_append {t : Str} (h : NoLonger versionfileSource t) (ht : t = [] ∨ t.getLast? = some '\n') :
    NoLonger versionfileSource (t ++ (versionfileSource ++ py! " export-subst\n")) := by
  obtain ⟨ls, e, hls⟩ := splitOn_line t ht (versionfileSource ++ py! " export-subst\n")
  intro line hl w ws ew hw
  rw [e, List.mem_append] at hl
  rcases hl with hl | hl
  · exact h line (hls line hl) w ws ew hw
  · rw [show splitOn '\n' (versionfileSource ++ py! " export-subst\n") = [versionfileSource ++ py! " export-subst", []] by decide] at hl
    simp only [List.mem_cons, List.not_mem_nil, or_false] at hl
    rcases hl with rfl | rfl
    · rw [show words (versionfileSource ++ py! " export-subst") = [versionfileSource, py! "export-subst"] by decide] at ew
      simp only [List.cons.injEq] at ew
      exact ew.1.symm
    · simp [words] at ew

theorem words_append_sep {c : Char} (hc : isSpace c = true) (r : Str) : ∀ s : Str, words (s ++ c :: r) = words s ++ words r
  | [] => by
    rw [List.nil_append]
    cases r <;> simp [words, hc]
  | [d] => by
    have e : words (c :: r) = words r := by cases r <;> simp [words, hc]
    by_cases hd : isSpace d = true
    · rw [List.singleton_append, show words (d :: c :: r) = words (c :: r) by simp [words, hd], e]; simp [words, hd]
    · rw [List.singleton_append, show words (d :: c :: r) = [d] :: words (c :: r) by conv_lhs => rw [words.eq_def]
                                                                                     simp [hd, hc], e]; simp [words, hd]
  | d :: d' :: s => by
    have ih := words_append_sep hc r (d' :: s)
    simp only [List.cons_append] at ih ⊢
    rw [words, words, ih]
    split_ifs
    · rfl
    · simp
    · split
      · rename_i e
        rw [List.append_eq_nil_iff] at e
        simp [e.1, e.2]
      · rename_i w ws e
        cases hw : words (d' :: s) with
        | nil =>
          exfalso
          rename_i h2 _
          cases s with
          | nil => simp [words, h2] at hw
          | cons x s =>
            rw [words, if_neg h2] at hw
            split at hw
            · simp at hw
            · split at hw <;> simp at hw
        | cons w' ws' =>
          rw [hw] at e
          simp only [List.cons_append, List.cons.injEq] at e
          simp [e.1, e.2]

theorem splitOn_append_plain {s : Str} (hs : '\n' ∉ s) : ∀ t : Str, ∃ ls last, splitOn '\n' t = ls ++ [last] ∧
    splitOn '\n' (t ++ s) = ls ++ [last ++ s]
  | [] => ⟨[], [], by simp [splitOn], by simp [splitOn_none hs]⟩
  | c :: t => by
    obtain ⟨ls, last, e1, e2⟩ := splitOn_append_plain hs t
    by_cases hc : c = '\n'
    · refine ⟨[] :: ls, last, by rw [splitOn, if_pos hc, e1]; rfl, by rw [List.cons_append, splitOn, if_pos hc, e2]; rfl⟩
    · cases ls with
      | nil => exact ⟨[], c :: last, by rw [splitOn, if_neg hc, e1]; rfl, by rw [List.cons_append, splitOn, if_neg hc, e2]; rfl⟩
      | cons l ls =>
        exact ⟨(c :: l) :: ls, last, by rw [splitOn, if_neg hc, e1]; rfl, by rw [List.cons_append, splitOn, if_neg hc, e2]; rfl⟩

theorem noLonger_glue {t : Str} (h : NoLonger versionfileSource (t ++ versionfileSource)) :
    NoLonger versionfileSource (t ++ (versionfileSource ++ py! " export-subst\n")) := by
  obtain ⟨ls, last, -, e2⟩ := splitOn_append_plain (s := versionfileSource) (by decide) t
  have e3 : splitOn '\n' (t ++ (versionfileSource ++ py! " export-subst\n")) =
      ls ++ [last ++ versionfileSource ++ py! " export-subst", []] := by
    have := splitOn_join '\n' ((t ++ versionfileSource) ++ py! " export-subst") []
    have e : t ++ (versionfileSource ++ py! " export-subst\n") = (t ++ versionfileSource) ++ py! " export-subst" ++ '\n' :: [] := by simp
    rw [e, this]
    obtain ⟨ls', last', e4, e5⟩ := splitOn_append_plain (s := py! " export-subst") (by decide) (t ++ versionfileSource)
    rw [e2] at e4
    obtain ⟨rfl, e4⟩ := List.append_inj' e4 rfl
    have e4 : last ++ versionfileSource = last' := by simpa using e4
    rw [e5, ← e4]
    simp [splitOn]
  intro line hl w ws ew hw
  rw [e3, List.mem_append] at hl
  simp only [List.mem_cons, List.not_mem_nil, or_false] at hl
  rcases hl with hl | rfl | rfl
  · exact h line (by rw [e2]; simp [hl]) w ws ew hw
  · rw [show py! " export-subst" = ' ' :: py! "export-subst" from rfl, words_append_sep (by decide)] at ew
    have hm : last ++ versionfileSource ∈ splitOn '\n' (t ++ versionfileSource) := by rw [e2]; simp
    cases hw' : words (last ++ versionfileSource) with
    | nil =>
      rw [hw', List.nil_append, show words (py! "export-subst") = [py! "export-subst"] by decide] at ew
      simp only [List.cons.injEq] at ew
      rw [← ew.1] at hw
      exact absurd hw (by decide)
    | cons w' ws' =>
      rw [hw'] at ew
      simp only [List.cons_append, List.cons.injEq] at ew
      exact h _ hm w ws' (by rw [hw', ew.1]) hw
  · simp [words] at ew

theorem runs_succ (n : ℕ) : runs ps long (n + 1) fs = runs ps long n ((setupCommand ps long).run fs).1 := rfl

theorem runs_succ' (n : ℕ) : runs ps long (n + 1) fs = ((setupCommand ps long).run (runs ps long n fs)).1 :=
  Function.iterate_succ_apply' _ _ _

theorem runs_fixed (h : ((setupCommand ps long).run fs).1 = fs) (n : ℕ) : runs ps long n fs = fs := Function.iterate_fixed h n

theorem after_idem (hi : initAfter (initAfter (fs initPath)) = initAfter (fs initPath))
    (ha : attrAfter (attrAfter (fs gitattributes)) = attrAfter (fs gitattributes)) :
    after long cfg (after long cfg fs) = after long cfg fs := by
  have h1 : after long cfg fs initPath = initAfter (fs initPath) := by
    rw [after, if_neg (by decide), if_pos rfl]
  have h2 : after long cfg fs gitattributes = attrAfter (fs gitattributes) := by
    rw [after, if_neg (by decide), if_neg (by decide), if_pos rfl]
  funext p
  have h3 : ∀ g : Files, after long cfg g p = if p = versionfileSource then some (long cfg)
    else if p = initPath then initAfter (g initPath) else if p = gitattributes then attrAfter (g gitattributes) else g p := fun _ => rfl
  rw [h3 (after long cfg fs), h1, h2, hi, ha, h3 fs]
  split_ifs <;> rfl

/-! ### `setup.py` -/

theorem infix_lines {s : Str} (hs : '\n' ∉ s) : ∀ (n : ℕ) (t : Str), t.length ≤ n → ((∃ line ∈ splitOn '\n' t, s <:+: line) ↔ s <:+: t)
  | 0, t, h => by
    have : t = [] := List.length_eq_zero_iff.1 (Nat.le_zero.1 h)
    subst this
    simp [splitOn]
  | n + 1, t, h => by
    by_cases ht : '\n' ∈ t
    · obtain ⟨a, b, e, ha⟩ := List.eq_append_cons_of_mem ht
      subst e
      have ih := infix_lines hs n b (by simp at h; omega)
      rw [splitOn_join, splitOn_none ha, List.singleton_append]
      simp only [List.mem_cons, exists_eq_or_imp, ih]
      constructor
      · rintro (c | c)
        · exact c.trans (List.prefix_append _ _).isInfix
        · have h' : b <:+ a ++ '\n' :: b := ⟨a ++ ['\n'], by simp⟩
          exact c.trans h'.isInfix
      · intro c
        rcases infix_append_cases c with c | c | ⟨u, v, rfl, hu, hv⟩
        · exact .inl c
        · rcases List.infix_cons_iff.1 c with c | c
          · cases s with
            | nil => exact .inl List.nil_infix
            | cons x s =>
              rw [List.cons_prefix_cons] at c
              exact absurd (by simp [c.1]) hs
          · exact .inr c
        · cases v with
          | nil => rw [List.append_nil]; exact .inl hu.isInfix
          | cons x v =>
            rw [List.cons_prefix_cons] at hv
            exact absurd (by simp [hv.1]) hs
    · rw [splitOn_none ht]
      simp

theorem found_iff {s : Str} (hs : '\n' ∉ s) (t : Str) : (splitOn '\n' t).any (isIn s) = true ↔ s <:+: t := by
  rw [List.any_eq_true, ← infix_lines hs _ t le_rfl]
  simp only [isIn_iff]

theorem scan_zero (t : Str) : scanSetupPy t = 0 ↔
    (py! "import versioneer" <:+: t ∧ py! "versioneer.get_cmdclass()" <:+: t ∧ py! "versioneer.get_version()" <:+: t) ∧
      ¬ py! "versioneer.VCS" <:+: t ∧ ¬ py! "versioneer.versionfile_source" <:+: t := by
  rw [← found_iff (s := py! "import versioneer") (by decide), ← found_iff (s := py! "versioneer.get_cmdclass()") (by decide),
    ← found_iff (s := py! "versioneer.get_version()") (by decide), ← found_iff (s := py! "versioneer.VCS") (by decide),
    ← found_iff (s := py! "versioneer.versionfile_source") (by decide), scanSetupPy]
  dsimp only
  have key : ∀ b1 b2 b3 b4 b5 : Bool, (((if (b1 && b2 && b3) = true then 0 else 1) + if (b4 || b5) = true then 1 else 0 : ℕ) = 0 ↔
    (b1 = true ∧ b2 = true ∧ b3 = true) ∧ ¬ b4 = true ∧ ¬ b5 = true) := by decide
  exact key _ _ _ _ _

theorem command_run (h : Configured ps fs cfg) {py : Str} (hpy : fs (py! "setup.py") = some py) :
    (setupCommand ps long).run fs = (after long cfg fs, .ok (if scanSetupPy py = 0 then 0 else 1, added fs)) := by
  rw [setupCommand_eq, doSetup_run h, rest_run, scan, Cmd.run,
    show after long cfg fs (py! "setup.py") = fs (py! "setup.py") from rfl, hpy]
  simp [Cmd.run]

/-- C129: `python versioneer.py setup` in the configured project raises nothing; the exit code is 0 exactly if `setup.py` contains the three things it looks for
and none of the two it complains about; afterwards `_version.py` contains the generated text, an existing `__init__.py` the two lines
that set `__version__`, and `.gitattributes` marks `_version.py` for substitution.  A second call changes no file.

Conditions: `.gitattributes`, if there is one, ends with a newline and has no line about a longer path that begins with
`src/kalmankit/_version.py`; `__init__.py` does not contain the lines that older versions of versioneer added (also not at its end without a newline). -/
theorem C129_once (h : Configured ps fs cfg) {py : Str} (hpy : fs (py! "setup.py") = some py)
    (hinit : ∀ text, fs initPath = some text → ¬ oldLines <:+: text ++ py! "\n")
    (hattr : ∀ text, fs (py! ".gitattributes") = some text →
      (text = [] ∨ text.getLast? = some '\n') ∧ NoLonger versionfileSource text) :
    ∃ (fs' : Files) (code : ℕ) (files : List Str), (setupCommand ps long).run fs = (fs', .ok (code, files)) ∧
      (code = 0 ↔ (py! "import versioneer" <:+: py ∧ py! "versioneer.get_cmdclass()" <:+: py ∧ py! "versioneer.get_version()" <:+: py) ∧
        ¬ py! "versioneer.VCS" <:+: py ∧ ¬ py! "versioneer.versionfile_source" <:+: py) ∧
      fs' versionfileSource = some (long cfg) ∧
      (∀ text, fs initPath = some text → ∃ text', fs' initPath = some text' ∧ snippet <:+: text') ∧
      (∃ text', fs' (py! ".gitattributes") = some text' ∧ Marks versionfileSource text') ∧
      ((setupCommand ps long).run fs').1 = fs' := by
  have hi := initAfter_idem hinit
  have ha : attrAfter (attrAfter (fs gitattributes)) = attrAfter (fs gitattributes) := attrAfter_idem fun t ht => (hattr t ht).1
  refine ⟨_, _, _, command_run h hpy, ?_, ?_, ?_, ?_, ?_⟩
  · rw [← scan_zero]
    split_ifs <;> simp_all
  · rw [after, if_pos rfl]
  · intro text ht
    obtain ⟨t', e, hs, -⟩ := hi.2 text ht
    refine ⟨t', ?_, hs⟩
    rw [after, if_neg (by decide), if_pos rfl, e]
  · have e : after long cfg fs (py! ".gitattributes") = attrAfter (fs gitattributes) := by
      change after long cfg fs gitattributes = _
      rw [after, if_neg (by decide), if_neg (by decide), if_pos rfl]
    rw [e]
    by_cases c : present versionfileSource (fs gitattributes) = true
    · rw [attrAfter, if_pos c]
      cases ht : fs gitattributes with
      | none => rw [ht] at c; simp [present] at c
      | some t => exact ⟨t, rfl, marks_of_present (by rw [← ht]; exact c) (hattr t ht).2⟩
    · rw [attrAfter, if_neg c]
      refine ⟨_, rfl, ?_⟩
      cases ht : fs gitattributes with
      | none =>
        exact marks_of_present (present_append [] (.inl rfl)) (noLonger_append (by
          intro line hl w ws ew
          rw [show line = [] by simpa [splitOn] using hl] at ew
          simp [words] at ew) (.inl rfl))
      | some t =>
        have := hattr t ht
        exact marks_of_present (present_append t this.1) (noLonger_append this.2 this.1)
  · rw [run_eq (after_configured h), after_idem hi.1 ha]

/-- C129 (two calls): if `.gitattributes` does not end with a newline - because someone left it so, or because an earlier call was
killed - the first call may add its entry to the last line, where it has no effect.  After two calls the file is in order and further
calls change no file. -/
theorem C129_twice (h : Configured ps fs cfg)
    (hinit : ∀ text, fs initPath = some text → ¬ oldLines <:+: text ++ py! "\n")
    (hattr : ∀ text, fs (py! ".gitattributes") = some text →
      NoLonger versionfileSource text ∧ NoLonger versionfileSource (text ++ versionfileSource)) :
    runs ps long 2 fs versionfileSource = some (long cfg) ∧
    (∀ text, fs initPath = some text → ∃ text', runs ps long 2 fs initPath = some text' ∧ snippet <:+: text') ∧
    (∃ text', runs ps long 2 fs (py! ".gitattributes") = some text' ∧ Marks versionfileSource text') ∧
    ∀ n, runs ps long (n + 2) fs = runs ps long 2 fs := by
  have hi := initAfter_idem hinit
  have e2 : runs ps long 2 fs = after long cfg (after long cfg fs) := by
    rw [runs_succ, runs_succ, run_eq h, run_eq (after_configured h)]
    rfl
  have i1 : after long cfg fs initPath = initAfter (fs initPath) := by rw [after, if_neg (by decide), if_pos rfl]
  have i2 : after long cfg (after long cfg fs) initPath = initAfter (fs initPath) := by
    rw [after, if_neg (by decide), if_pos rfl, i1, hi.1]
  have a1 : after long cfg fs gitattributes = attrAfter (fs gitattributes) := by
    rw [after, if_neg (by decide), if_neg (by decide), if_pos rfl]
  have a2 : after long cfg (after long cfg fs) gitattributes = attrAfter (attrAfter (fs gitattributes)) := by
    rw [after, if_neg (by decide), if_neg (by decide), if_pos rfl, a1]
  refine ⟨?_, ?_, ?_, ?_⟩
  · rw [e2, after, if_pos rfl]
  · intro text ht
    obtain ⟨t', e, hs, -⟩ := hi.2 text ht
    exact ⟨t', by rw [e2, i2, e], hs⟩
  · rw [e2]
    change ∃ text', after long cfg (after long cfg fs) gitattributes = _ ∧ _
    rw [a2]
    have hmid : ∃ t, attrAfter (fs gitattributes) = some t ∧ NoLonger versionfileSource t ∧
        (present versionfileSource (some t) = true ∨ t.getLast? = some '\n') := by
      by_cases c : present versionfileSource (fs gitattributes) = true
      · rw [attrAfter, if_pos c]
        cases ht : fs gitattributes with
        | none => rw [ht] at c; simp [present] at c
        | some t => exact ⟨t, rfl, (hattr t ht).1, .inl (by rw [← ht]; exact c)⟩
      · rw [attrAfter, if_neg c]
        refine ⟨_, rfl, ?_, .inr (attr_ends _)⟩
        cases ht : fs gitattributes with
        | none =>
          exact noLonger_append (by
            intro line hl w ws ew
            simp only [Option.getD_none, splitOn, List.mem_singleton] at hl
            rw [hl] at ew
            simp [words] at ew) (.inl rfl)
        | some t => exact noLonger_glue (hattr t ht).2
    obtain ⟨t, et, hn, hp⟩ := hmid
    rw [et]
    by_cases c : present versionfileSource (some t) = true
    · rw [attrAfter, if_pos c]
      exact ⟨t, rfl, marks_of_present c hn⟩
    · have hp := hp.resolve_left c
      rw [attrAfter, if_neg c]
      exact ⟨_, rfl, marks_of_present (present_append t (.inr hp)) (noLonger_append hn (.inr hp))⟩
  · intro n
    have hfix : ((setupCommand ps long).run (runs ps long 2 fs)).1 = runs ps long 2 fs := by
      rw [e2, run_eq (after_configured (after_configured h))]
      refine after_idem ?_ ?_
      · rw [i1, hi.1, hi.1]
      · rw [a1, attrAfter_twice]
    rw [runs, Function.iterate_add_apply]
    exact runs_fixed hfix n

/-- C129 (not repaired): if a call was killed at the moment when exactly the path had been written to an empty `.gitattributes`, no number of
further calls makes the file mark `_version.py`. -/
theorem C129_not_repaired (h : Configured ps fs cfg) (hattr : fs (py! ".gitattributes") = some (py! "src/kalmankit/_version.py"))
    (n : ℕ) : ∃ text, runs ps long n fs (py! ".gitattributes") = some text ∧ ¬ Marks versionfileSource text := by
  obtain ⟨glued, hg⟩ : ∃ g, g = versionfileSource ++ (versionfileSource ++ py! " export-subst\n") := ⟨_, rfl⟩
  have n0 : ¬ Marks versionfileSource versionfileSource := by
    rintro ⟨line, hl, attrs, e, hx⟩
    rw [splitOn_none (by decide), List.mem_singleton] at hl
    rw [hl, show words versionfileSource = [versionfileSource] by decide] at e
    simp only [List.cons.injEq] at e
    rw [← e.2] at hx
    simp at hx
  have n1 : ¬ Marks versionfileSource glued := by
    rintro ⟨line, hl, attrs, e, hx⟩
    rw [hg, show splitOn '\n' (versionfileSource ++ (versionfileSource ++ py! " export-subst\n")) =
      [versionfileSource ++ (versionfileSource ++ py! " export-subst"), []] by decide] at hl
    simp only [List.mem_cons, List.not_mem_nil, or_false] at hl
    rcases hl with rfl | rfl
    · rw [show words (versionfileSource ++ (versionfileSource ++ py! " export-subst")) =
        [versionfileSource ++ versionfileSource, py! "export-subst"] by decide] at e
      simp only [List.cons.injEq] at e
      exact absurd e.1 (by decide)
    · simp [words] at e
  have p0 : present versionfileSource (some versionfileSource) = false := by decide
  have p1 : present versionfileSource (some glued) = true := by rw [hg]; decide
  have key : ∀ n, Configured ps (runs ps long n fs) cfg ∧
      (runs ps long n fs gitattributes = some versionfileSource ∨ runs ps long n fs gitattributes = some glued) := by
    intro n
    induction n with
    | zero => exact ⟨h, .inl hattr⟩
    | succ n ih =>
      obtain ⟨ih, ih'⟩ := ih
      rw [runs_succ', run_eq ih]
      refine ⟨after_configured ih, .inr ?_⟩
      rw [after, if_neg (by decide), if_neg (by decide), if_pos rfl]
      rcases ih' with e | e
      · rw [e, attrAfter, if_neg (by rw [p0]; simp), hg]; rfl
      · rw [e, attrAfter, if_pos p1]
  rcases (key n).2 with e | e
  · exact ⟨_, e, n0⟩
  · exact ⟨_, e, n1⟩

/-- C129 (where the settings come from): with a TOML parser, the section `[tool.versioneer]` of `pyproject.toml` decides, whatever
`setup.cfg` contains, and for the section of this project the settings are those compiled into `_version.py`. -/
theorem C129_settings {parse : Str → Option (List (Str × Str))} {text : Str} (hp : ps.toml = some parse)
    (ht : parse text = some repoSection) (setupCfg : Option Str) :
    ∃ cfg, getConfig ps (some text) setupCfg = .ok cfg ∧ cfg.vcs = py! "git" ∧ cfg.style = style ∧ cfg.tagPrefix = tagPrefix ∧
      cfg.source = some versionfileSource ∧ cfg.parentdirPrefix = some parentdirPrefix ∧
      cfg.build = some (py! "kalmankit/_version.py") := by
  have e : tomlSection ps (some text) = some repoSection := by
    simp [tomlSection, hp, ht, repoSection]
  rw [getConfig, e]
  exact ⟨_, rfl, rfl, rfl, rfl, rfl, rfl, rfl⟩

/-- C129 (other settings): whatever section is found, its settings are used as they are, except that no tag prefix, and one written as
two quotation marks, means the empty prefix; without the setting `VCS` a `KeyError` is raised. -/
theorem C129_settings_any {parse : Str → Option (List (Str × Str))} {text : Str} (hp : ps.toml = some parse) {s : List (Str × Str)} (hs : s ≠ [])
    (ht : parse text = some s) (setupCfg : Option Str) :
    (s.lookup (py! "VCS") = none → getConfig ps (some text) setupCfg = .error .keyError) ∧
    ∀ vcs, s.lookup (py! "VCS") = some vcs → ∃ cfg, getConfig ps (some text) setupCfg = .ok cfg ∧ cfg.vcs = vcs ∧
      (s.lookup (py! "tag_prefix") = none → cfg.tagPrefix = []) ∧
      (∀ t, s.lookup (py! "tag_prefix") = some t → (t = py! "''" → cfg.tagPrefix = []) ∧ (t = py! "\"\"" → cfg.tagPrefix = []) ∧
        (t ≠ py! "''" → t ≠ py! "\"\"" → cfg.tagPrefix = t)) ∧
      cfg.source = s.lookup (py! "versionfile_source") ∧ cfg.build = s.lookup (py! "versionfile_build") ∧
      cfg.parentdirPrefix = s.lookup (py! "parentdir_prefix") ∧ (∀ t, s.lookup (py! "style") = some t → cfg.style = t) := by
  have e : tomlSection ps (some text) = some s := by
    simp [tomlSection, hp, ht, hs]
  rw [getConfig, e]
  refine ⟨fun h => by simp [readConfig, h], fun vcs h => ?_⟩
  simp only [readConfig, h]
  refine ⟨_, rfl, rfl, fun h => by simp only [h], fun t h => ⟨fun h' => ?_, fun h' => ?_, fun h1 h2 => ?_⟩, rfl, rfl, rfl, fun t h => by simp only [h]; rfl⟩
  · simp only [h, h', true_or, if_true]
  · simp only [h, h', or_true, if_true]
  · simp only [h, h1, h2, or_self, if_false]

/-- C129 (no TOML parser): on a Python before 3.11 without `tomli` the settings in `pyproject.toml` are not seen: the installer - there being no
`setup.cfg` in this project - writes one with a sample section, changes nothing else and exits with code 1. -/
theorem C129_no_toml (hp : ps.toml = none) (hc : fs (py! "setup.cfg") = none) {py : Str} (hpy : fs (py! "setup.py") = some py) :
    ∃ fs', (setupCommand ps long).run fs = (fs', .ok (1, [])) ∧ fs' (py! "setup.cfg") = some sampleConfig ∧
      ∀ p, p ≠ py! "setup.cfg" → fs' p = fs p := by
  have e : ∀ x, getConfig ps x (fs (py! "setup.cfg")) = .error .osError := fun x => by
    have : tomlSection ps x = none := by
      cases x <;> simp [tomlSection, hp]
    rw [getConfig, this, hc]
    rfl
  refine ⟨fs.append (py! "setup.cfg") sampleConfig, ?_, by simp [Files.append, hc], fun p hp => by simp [Files.append, hp]⟩
  rw [setupCommand_eq, doSetup, Cmd.run, Cmd.run, e]
  simp only [true_or, if_true, Cmd.run, scan]
  rw [show fs.append (py! "setup.cfg") sampleConfig (py! "setup.py") = fs (py! "setup.py") from rfl, hpy]
  simp [Cmd.run]

/-! ## The lines of older versions are replaced -/

theorem replace_skip (old new s : Str) : ∀ (x : Str) (k : ℕ), x.length = k → replaceAux old new k (x ++ s) = replaceAux old new 0 s
  | [], k, h => by cases h; rfl
  | c :: x, k, h => by
    cases k with
    | zero => simp at h
    | succ k => rw [List.cons_append, replaceAux, replace_skip old new s x k (by simpa using h)]

theorem replace_none {old new : Str} : ∀ {s : Str}, ¬ old <:+: s → replaceAux old new 0 s = s
  | [], _ => rfl
  | c :: s, h => by
    rw [List.infix_cons_iff, not_or] at h
    have h1 : ¬ startswith (c :: s) old = true := by
      rw [startswith, List.isPrefixOf_iff_prefix]; exact h.1
    rw [replaceAux, if_neg h1, replace_none h.2]

theorem replace_first {old new b : Str} (hne : old ≠ []) (hb : ¬ old <:+: b) : ∀ {a : Str}, ¬ old <:+: a ++ old.dropLast →
    replaceAux old new 0 (a ++ (old ++ b)) = a ++ (new ++ b)
  | [], _ => by
    cases old with
    | nil => exact absurd rfl hne
    | cons c old =>
      rw [List.nil_append, List.nil_append, List.cons_append, replaceAux, if_pos (by
        rw [startswith, List.isPrefixOf_iff_prefix, ← List.cons_append]; exact List.prefix_append _ _),
        List.length_cons, Nat.add_sub_cancel, replace_skip _ _ _ _ _ rfl, replace_none hb]
  | c :: a, h => by
    rw [List.cons_append, List.infix_cons_iff, not_or] at h
    have h1 : ¬ startswith (c :: (a ++ (old ++ b))) old = true := by
      rw [startswith, List.isPrefixOf_iff_prefix]
      intro hp
      refine h.1 (List.prefix_of_prefix_length_le hp ?_ ?_)
      · rw [List.cons_prefix_cons]
        refine ⟨rfl, (List.prefix_append_right_inj a).2 ((List.dropLast_prefix old).trans (List.prefix_append _ _))⟩
      · simp only [List.length_cons, List.length_append, List.length_dropLast]
        omega
    rw [List.cons_append, replaceAux, if_neg h1, replace_first hne hb h.2]
    rfl

/-- C128 (the lines of older versions): a call that is not killed replaces them by the new ones, and keeps what is before and after. -/
theorem C128_old_lines_replaced (h : Configured ps fs cfg) {a b : Str} (ht : fs initPath = some (a ++ (oldLines ++ b)))
    (ha : ¬ oldLines <:+: a ++ oldLines.dropLast) (hb : ¬ oldLines <:+: b) :
    ((setupCommand ps long).run fs).1 initPath = some (a ++ (snippet ++ b)) := by
  have hin : isIn oldLines (a ++ (oldLines ++ b)) = true := isIn_iff.2 ⟨a, b, by simp⟩
  rw [run_eq h, after, if_neg (by decide), if_pos rfl, ht, initAfter, if_pos hin, replaceAll, replace_first (by decide) hb ha]

/-! ## Concrete cases -/

namespace Ex

/-- A Python with `tomllib`. -/
def python : Parsers where
  toml := some fun _ => some repoSection
  ini := fun _ => .error .noSection

/-- The settings. -/
def settings : Config := ⟨py! "git", py! "pep440", some (py! "src/kalmankit/_version.py"), some (py! "kalmankit/_version.py"), py! "v",
  some (py! "kalmankit-")⟩

/-- `/repo/src/kalmankit/__init__.py` (the whole file). -/
def initText : Str := py! "\"\"\"Multidimensional implementation of the Kalman Filter algorithm.\"\"\"

from . import utils
from ._version import get_versions
from .extended import ExtendedKalmanFilter
from .standard import KalmanFilter
from . import _version

__all__ = [\"KalmanFilter\", \"ExtendedKalmanFilter\", \"utils\"]

__version__ = get_versions()[\"version\"]
del get_versions

__version__ = _version.get_versions()[\"version\"]
"

/-- `/repo/setup.py` (the whole file). -/
def setupText : Str := py! "import versioneer
from setuptools import setup

setup(
    version=versioneer.get_version(),
    cmdclass=versioneer.get_cmdclass(),
)
"

/-- A project with the given `__init__.py` and `.gitattributes`. -/
def project (init attr : Option Str) : Files := fun p =>
  if p = py! "pyproject.toml" then some (py! "[tool.versioneer]")
  else if p = py! "setup.py" then some setupText
  else if p = py! "src/kalmankit/__init__.py" then init
  else if p = py! ".gitattributes" then attr
  else none

theorem project_configured (init attr : Option Str) : Configured python (project init attr) settings :=
  ⟨by rfl, rfl, rfl⟩

/-- `/repo/.gitattributes` (the whole file). -/
def attrText : Str := py! "src/kalmankit/_version.py export-subst\n"

set_option maxRecDepth 40000 in
theorem init_noOld : isIn oldLines (initText ++ py! "\n") = false := by decide

theorem attr_noLonger : NoLonger versionfileSource attrText := by
  intro line hl w ws e _
  rw [show splitOn '\n' attrText = [versionfileSource ++ py! " export-subst", []] by decide] at hl
  simp only [List.mem_cons, List.not_mem_nil, or_false] at hl
  rcases hl with rfl | rfl
  · rw [show words (versionfileSource ++ py! " export-subst") = [versionfileSource, py! "export-subst"] by decide] at e
    simp only [List.cons.injEq] at e
    exact e.1.symm
  · simp [words] at e

/-- The hypotheses of C128 hold for the files of the repository. -/
example (fs' : Files) (hk : (setupCommand python fun _ => py! "# long").Killed (project (some initText) (some attrText)) fs') :
    fs' (py! "setup.py") = some setupText :=
  (C128_text_is_kept (project_configured _ _) (fun text ht => by
    have e : initText = text := Option.some.inj ht
    subst e
    intro c
    have := isIn_iff.2 (c.trans (List.prefix_append initText (py! "\n")).isInfix)
    rw [init_noOld] at this
    exact absurd this (by simp)) hk (py! "setup.py") (by decide)).2.1 (by decide) (by decide)

set_option maxRecDepth 40000 in
/-- The hypotheses of C129 hold for the files of the repository.  There `__init__.py` has double quotes in the line that sets
`__version__` and is not recognised: the lines are added once more, by the first call only. -/
example : ((setupCommand python fun _ => py! "# long").run (project (some initText) (some attrText))).1 initPath =
      some (initText ++ snippet) ∧
    ∃ (fs' : Files) (code : ℕ) (files : List Str),
      (setupCommand python fun _ => py! "# long").run (project (some initText) (some attrText)) = (fs', .ok (code, files)) ∧
      ((setupCommand python fun _ => py! "# long").run fs').1 = fs' := by
  constructor
  · rw [run_eq (project_configured _ _), after, if_neg (by decide), if_pos rfl]
    rw [show project (some initText) (some attrText) initPath = some initText from rfl, initAfter,
      if_neg (by decide), if_neg (by decide)]
  · obtain ⟨fs', code, files, h1, -, -, -, -, h2⟩ := C129_once (ps := python) (long := fun _ => py! "# long")
      (project_configured (some initText) (some attrText)) (py := setupText) rfl (fun text ht => by
        have e : initText = text := Option.some.inj ht
        subst e
        rw [← isIn_iff, init_noOld]; simp)
      (fun text ht => by
        have e : attrText = text := Option.some.inj ht
        subst e
        exact ⟨.inr rfl, attr_noLonger⟩)
    exact ⟨fs', code, files, h1, h2⟩

/-- A `.gitattributes` without a final newline: the first call has no effect there, the second has. -/
example : ∃ text, runs python (fun _ => py! "# long") 1 (project none (some (py! "*.png binary"))) (py! ".gitattributes") = some text ∧
    text = py! "*.png binarysrc/kalmankit/_version.py export-subst\n" := ⟨_, rfl, by decide⟩

example : ∃ text, runs python (fun _ => py! "# long") 2 (project none (some (py! "*.png binary"))) (py! ".gitattributes") = some text ∧
    Marks versionfileSource text :=
  (C129_twice (project_configured _ _) (fun text ht => by
    have : (none : Option Str) = some text := ht
    simp at this) (fun text ht => by
    have e : py! "*.png binary" = text := Option.some.inj ht
    subst e
    constructor
    · intro line hl w ws e hw
      rw [splitOn_none (by decide), List.mem_singleton] at hl
      rw [hl, show words (py! "*.png binary") = [py! "*.png", py! "binary"] by decide] at e
      simp only [List.cons.injEq] at e
      rw [← e.1] at hw
      exact absurd hw (by decide)
    · intro line hl w ws e hw
      rw [splitOn_none (by decide), List.mem_singleton] at hl
      rw [hl, show words (py! "*.png binary" ++ versionfileSource) = [py! "*.png", py! "binary" ++ versionfileSource] by decide] at e
      simp only [List.cons.injEq] at e
      rw [← e.1] at hw
      exact absurd hw (by decide))).2.2.1

/-- A project where older lines are replaced. -/
example : ((setupCommand python fun _ => py! "# long").run (project (some (py! "import os" ++ (oldLines ++ py! "x = 1\n"))) none)).1
    initPath = some (py! "import os" ++ (snippet ++ py! "x = 1\n")) := by
  refine C128_old_lines_replaced (project_configured _ _) rfl ?_ ?_ <;>
  · rw [← isIn_iff]; decide

example : ∃ fs', (setupCommand python fun _ => py! "# long").Killed (project (some (py! "import os" ++ (oldLines ++ py! "x = 1\n"))) none) fs' ∧
    fs' (py! "src/kalmankit/__init__.py") = some [] :=
  C128_old_lines_lost (project_configured _ _) rfl ⟨py! "import os", py! "x = 1\n", by simp⟩

/-- The state of C129_not_repaired is reached by killing a call in a project without `.gitattributes`. -/
example : ∃ fs', (setupCommand python fun _ => py! "# long").Killed (project none none) fs' ∧
    Configured python fs' settings ∧ fs' (py! ".gitattributes") = some (py! "src/kalmankit/_version.py") := by
  obtain ⟨g, hg⟩ : ∃ g, g = ((project none none).truncate versionfileSource).append versionfileSource (py! "# long") := ⟨_, rfl⟩
  refine ⟨g.append gitattributes versionfileSource, ?_, ?_, ?_⟩
  · rw [setupCommand_eq, doSetup_killed (project_configured none none), rest, killed_trunc]
    right
    rw [killed_put]
    right; right
    rw [← hg, setupInit, old_lines, killed_read, init_path, show g initPath = none by rw [hg]; rfl]
    simp only
    rw [doVcsInstall, killed_read, show g gitattributes = none by rw [hg]; rfl]
    rw [if_neg (by decide), killed_put]
    exact .inr (.inl ⟨versionfileSource, List.prefix_append _ _, rfl⟩)
  · rw [hg]; exact ⟨rfl, rfl, rfl⟩
  · rw [hg]; rfl

/-- No TOML parser, no `setup.cfg`. -/
example : ∃ fs', (setupCommand ⟨none, fun _ => .error .noSection⟩ fun _ => py! "# long").run (project (some initText) (some attrText)) =
    (fs', .ok (1, [])) ∧ fs' (py! "setup.cfg") = some sampleConfig :=
  let ⟨fs', h1, h2, _⟩ := C129_no_toml (long := fun _ => py! "# long") (ps := ⟨none, fun _ => .error .noSection⟩)
    (fs := project (some initText) (some attrText)) rfl rfl (py := setupText) rfl
  ⟨fs', h1, h2⟩

/-- A quoted empty tag prefix. -/
example : ∃ cfg, getConfig ⟨some fun _ => some [(py! "VCS", py! "git"), (py! "tag_prefix", py! "''")], fun _ => .error .noSection⟩ (some []) none = .ok cfg ∧
    cfg.tagPrefix = [] := by
  obtain ⟨cfg, h, -, -, ht, -⟩ := (C129_settings_any (ps := ⟨some fun _ => some [(py! "VCS", py! "git"), (py! "tag_prefix", py! "''")], fun _ => .error .noSection⟩)
    (text := []) rfl (s := [(py! "VCS", py! "git"), (py! "tag_prefix", py! "''")]) (by simp) rfl none).2 (py! "git") rfl
  exact ⟨cfg, h, (ht (py! "''") rfl).1 rfl⟩

/-- Other version control. -/
example : ((setupCommand ⟨some fun _ => some [(py! "VCS", py! "hg"), (py! "versionfile_source", py! "v.py")], fun _ => .error .noSection⟩
    fun _ => py! "# long").run (project none none)).1 (py! "v.py") = some [] :=
  (C128_other_vcs (cfg := ⟨py! "hg", [], some (py! "v.py"), none, [], none⟩) rfl (by decide) rfl).2.1

end Ex

end KK.Version
