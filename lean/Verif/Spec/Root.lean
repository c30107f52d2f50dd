import Verif.Model.Root
import Verif.Spec.Build
import Verif.Spec.Install

/-!
# Where the build runs
-/

namespace KK.Version

/-- An absolute path of a directory other than `/`, without a slash at the end. -/
def PlainDir (dir : Str) : Prop := dir ≠ [] ∧ dir.getLast? ≠ some '/'

/-- The directory contains `setup.py`, `pyproject.toml` or `versioneer.py`. -/
def IsProject (p : Process) (dir : Str) : Prop :=
  ∃ name ∈ [py! "setup.py", py! "pyproject.toml", py! "versioneer.py"], p.pathExists (dir ++ py! "/" ++ name) = true

/-- `pyproject.toml` in the directory is that of this project, and there is a TOML parser. -/
def HasSettings (ps : Parsers) (p : Process) (dir : Str) : Prop :=
  ∃ parse text, ps.toml = some parse ∧ p.text (dir ++ py! "/pyproject.toml") = some text ∧ parse text = some repoSection

/-- The source tree of this project in the directory. -/
def Process.tree (p : Process) (dir : Str) : Tree := ⟨p.win32, dir, p.text (dir ++ py! "/src/kalmankit/_version.py"), p.spawn⟩

end KK.Version
