import Verif.Spec.Root
import Verif.Props.Build
import Verif.Props.Install

/-!
# C163: where the build finds the project
-/

set_option linter.unusedSectionVars false

namespace KK.Version

variable [Unicode]

omit [Unicode] in
theorem joinPath_plain {dir name : Str} (h : PlainDir dir) : joinPath dir name = dir ++ py! "/" ++ name := by
  unfold joinPath
  rw [if_neg h.1, if_neg]
  intro he
  obtain ⟨s, hs⟩ := List.isSuffixOf_iff_suffix.1 he
  exact h.2 (by rw [← hs]; simp)

omit [Unicode] in
theorem looksLikeRoot_iff {p : Process} {dir : Str} (h : PlainDir dir) : looksLikeRoot p dir = true ↔ IsProject p dir := by
  simp only [looksLikeRoot, joinPath_plain h, Bool.or_eq_true, IsProject, List.mem_cons, List.not_mem_nil, or_false,
    exists_eq_or_imp, exists_eq_left, or_assoc]

/-- C163 (root): the build works on the current directory if that contains `setup.py`, `pyproject.toml` or `versioneer.py`,
whatever script is run; otherwise on the directory of the script, if that contains one of these; otherwise it raises
VersioneerBadRootError. -/
theorem C163_root {p : Process} {dir name : Str} (hh : PlainDir p.here) (hd : PlainDir dir) (hn : '/' ∉ name)
    (hs : p.script = dir ++ py! "/" ++ name) :
    (IsProject p p.here → getRoot p = .ok p.here) ∧
    (¬ IsProject p p.here → IsProject p dir → getRoot p = .ok dir) ∧
    (¬ IsProject p p.here → ¬ IsProject p dir → getRoot p = .error .badRoot) := by
  have e : dirname p.script = dir := by
    rw [hs, List.append_assoc]
    exact dirname_join hd.1 hd.2 hn
  rw [← looksLikeRoot_iff hh, ← looksLikeRoot_iff hd]
  unfold getRoot
  rw [e]
  refine ⟨fun h => by rw [if_pos h], fun h h' => by rw [if_neg h, if_pos h'], fun h h' => by rw [if_neg h, if_neg h']⟩

/-- C163 (any directory): `python DIR/setup.py` started in a directory that is not itself a project gives the version information
it gives when started in `DIR`, or fails in the same way; whatever the configuration, the files and git are. -/
theorem C163_anywhere (ps : Parsers) {p : Process} {dir : Str} (hh : PlainDir p.here) (hd : PlainDir dir)
    (hs : p.script = dir ++ py! "/setup.py") (he : p.pathExists (dir ++ py! "/setup.py") = true)
    (hn : ¬ IsProject p p.here) : runVersions ps p = runVersions ps { p with here := dir } := by
  have hproj : IsProject p dir := ⟨py! "setup.py", by simp, by rw [List.append_assoc]; exact he⟩
  have h1 := (C163_root (name := py! "setup.py") hh hd (by decide) (by rw [hs, List.append_assoc]; rfl)).2.1 hn hproj
  have h2 := (C163_root (p := { p with here := dir }) (name := py! "setup.py") hd hd (by decide)
    (by rw [show ({ p with here := dir } : Process).script = p.script from rfl, hs, List.append_assoc]; rfl)).1 hproj
  unfold runVersions
  rw [h1, h2]
  rfl

/-- C163 (another project): if the current directory contains `setup.py`, `pyproject.toml` or `versioneer.py`, the version
information is that of the current directory, whatever script of whatever project is run. -/
theorem C163_other_project (ps : Parsers) {p : Process} (hh : PlainDir p.here) (h : IsProject p p.here) (script : Str) :
    runVersions ps { p with script := script } = versionsIn ps p p.here := by
  have : getRoot { p with script := script } = .ok p.here := by
    unfold getRoot
    exact if_pos ((looksLikeRoot_iff (p := { p with script := script }) hh).2 h)
  unfold runVersions
  rw [this]
  rfl

/-- The settings of this project. -/
theorem settings_of {ps : Parsers} {p : Process} {dir : Str} (hd : PlainDir dir) (h : HasSettings ps p dir) :
    getConfig ps (p.text (joinPath dir (py! "pyproject.toml"))) (p.text (joinPath dir (py! "setup.cfg"))) =
      .ok ⟨py! "git", py! "pep440", some (py! "src/kalmankit/_version.py"), some (py! "kalmankit/_version.py"), py! "v",
        some (py! "kalmankit-")⟩ := by
  obtain ⟨parse, text, h1, h2, h3⟩ := h
  have h2' : p.text (joinPath dir (py! "pyproject.toml")) = some text := by
    rw [joinPath_plain hd, List.append_assoc]; exact h2
  have : tomlSection ps (p.text (joinPath dir (py! "pyproject.toml"))) = some repoSection := by
    unfold tomlSection
    rw [h2', h1]
    simp only [h3]
    rfl
  unfold getConfig
  rw [this]
  rfl

theorem versionsWith_settings (t : Tree) :
    versionsWith ⟨py! "git", py! "pep440", some (py! "src/kalmankit/_version.py"), some (py! "kalmankit/_version.py"), py! "v",
        some (py! "kalmankit-")⟩ t = buildVersions t := by
  rfl

/-- C163 (this project): in a directory with the configuration of this project, the build computes what `C102`-`C104` are about, for
the tree in that directory. -/
theorem C163_this_project {ps : Parsers} {p : Process} {dir : Str} (hd : PlainDir dir) (h : HasSettings ps p dir) :
    versionsIn ps p dir = (buildVersions (p.tree dir)).mapError BuildExc.rest := by
  unfold versionsIn
  rw [settings_of hd h]
  simp only [if_true]
  rw [versionsWith_settings, joinPath_plain hd, List.append_assoc]
  rw [show (⟨p.win32, dir, p.text (dir ++ (py! "/" ++ py! "src/kalmankit/_version.py")), p.spawn⟩ : Tree) = p.tree dir from rfl]
  rcases buildVersions (p.tree dir) with f | d <;> rfl

/-- C163 (checkout): `python DIR/setup.py` of a checkout in `DIR`, started anywhere outside of projects, computes the version that the
package in the checkout reports (`kalmankit.__version__`), or raises the same exception. -/
theorem C163_checkout {ps : Parsers} {p : Process} {dir : Str} {env : Env} (hh : PlainDir p.here) (hd : PlainDir dir)
    (hs : p.script = dir ++ py! "/setup.py") (he : p.pathExists (dir ++ py! "/setup.py") = true)
    (hn : ¬ IsProject p p.here) (h : HasSettings ps p dir) (hc : SameCheckout (p.tree dir) env) :
    runVersions ps p = match getVersions env with
      | .ok v => .ok v.toDict
      | .error e => .error (.rest (.exc e)) := by
  have hproj : IsProject p dir := ⟨py! "setup.py", by simp, by rw [List.append_assoc]; exact he⟩
  have h1 := (C163_root (name := py! "setup.py") hh hd (by decide) (by rw [hs, List.append_assoc]; rfl)).2.1 hn hproj
  unfold runVersions
  rw [h1]
  show versionsIn ps p dir = _
  rw [C163_this_project hd h, C104_same_in_checkout hc]
  rcases getVersions env with e | v <;> rfl

/-- C163 (no TOML parser): on a Python before 3.11 without `tomli`, and without a `setup.cfg`, the build raises OSError whatever
`pyproject.toml` says. -/
theorem C163_no_toml {ps : Parsers} {p : Process} {dir : Str} (hd : PlainDir dir) (h : ps.toml = none)
    (hcfg : p.text (dir ++ py! "/setup.cfg") = none) : versionsIn ps p dir = .error (.config .osError) := by
  have h1 : p.text (joinPath dir (py! "setup.cfg")) = none := by rw [joinPath_plain hd, List.append_assoc]; exact hcfg
  have h2 : ∀ t, tomlSection ps t = none := fun t => by
    unfold tomlSection; rw [h]; rcases t with _ | t <;> rfl
  unfold versionsIn getConfig
  rw [h2, h1]
  rfl

/-! ### An example -/

namespace Ex

/-- The checkout in `/src/kk`, and another project in `/src/other`. -/
def process (here : Str) : Process where
  here := here
  script := py! "/src/kk/setup.py"
  pathExists := fun f => [py! "/src/kk/setup.py", py! "/src/kk/pyproject.toml", py! "/src/kk/versioneer.py",
    py! "/src/other/pyproject.toml"].contains f
  text := fun f =>
    if f = py! "/src/kk/pyproject.toml" then some (py! "kk")
    else if f = py! "/src/kk/src/kalmankit/_version.py" then (tree (py! "v1.1.2-3-g0a1b2c3-dirty")).contents
    else if f = py! "/src/other/pyproject.toml" then some (py! "other")
    else none
  win32 := false
  spawn := (tree (py! "v1.1.2-3-g0a1b2c3-dirty")).spawn

/-- The parsed sections. -/
def toml : Parsers := ⟨some fun t => if t = py! "kk" then some repoSection else if t = py! "other" then
  some [(py! "VCS", py! "git"), (py! "versionfile_source", py! "other.py"), (py! "parentdir_prefix", py! "other-")] else none,
  fun _ => .error .noSection⟩

theorem process_settings (here : Str) : HasSettings toml (process here) (py! "/src/kk") :=
  ⟨_, py! "kk", rfl, by simp [process], by simp⟩

theorem process_tree (here : Str) : (process here).tree (py! "/src/kk") = tree (py! "v1.1.2-3-g0a1b2c3-dirty") := by
  simp [Process.tree, process, tree]

end Ex

-- C163: started in `/tmp`, the build reports the version of the checkout.
example : ∃ v, getVersions (Ex.machine unexpanded Ex.versionFile (Ex.answers (py! "v1.1.2-3-g0a1b2c3-dirty"))) = .ok v ∧
    v.version = py! "1.1.2+3.g0a1b2c3.dirty" ∧ runVersions Ex.toml (Ex.process (py! "/tmp")) = .ok v.toDict := by
  have hg := C70_tagged_checkout (rel := py! "1.1.2") (num := 3) (hash := py! "0a1b2c3") (dirty := true) (by simp) (by decide)
    Ex.hash7 Ex.hash16 Ex.word_day Ex.word_time Ex.word_zone (Ex.checkout (py! "v1.1.2-3-g0a1b2c3-dirty"))
  have hr := C163_checkout (p := Ex.process (py! "/tmp")) (dir := py! "/src/kk") ⟨by decide, by decide⟩ ⟨by decide, by decide⟩ rfl
    (by decide) (by
      rintro ⟨name, hm, h⟩
      simp only [List.mem_cons, List.not_mem_nil, or_false] at hm
      rcases hm with rfl | rfl | rfl <;> exact absurd h (by decide)) (Ex.process_settings _)
    (by rw [Ex.process_tree]; exact Ex.tree_same _)
  rw [hg] at hr ⊢
  exact ⟨_, rfl, by decide, hr⟩

-- C163: started in the other project, the root is that of the other project, although the script is `/src/kk/setup.py`.
example : getRoot (Ex.process (py! "/src/other")) = .ok (py! "/src/other") := by decide

end KK.Version
