import Verif.Model.Install

/-!
# What the installer should achieve
-/

namespace KK.Version

/-- The `__init__.py` of the package. -/
def initPath : Str := py! "src/kalmankit/__init__.py"

/-- The section `[tool.versioneer]` of `/repo/pyproject.toml` (l. 75-81). -/
def repoSection : List (Str × Str) :=
  [(py! "VCS", py! "git"), (py! "style", py! "pep440"), (py! "versionfile_source", py! "src/kalmankit/_version.py"),
   (py! "versionfile_build", py! "kalmankit/_version.py"), (py! "tag_prefix", py! "v"), (py! "parentdir_prefix", py! "kalmankit-")]

/-- The project is configured for git and for `src/kalmankit/_version.py`. -/
structure Configured (ps : Parsers) (fs : Files) (cfg : Config) : Prop where
  config : getConfig ps (fs (py! "pyproject.toml")) (fs (py! "setup.cfg")) = .ok cfg
  vcs : cfg.vcs = py! "git"
  source : cfg.source = some (py! "src/kalmankit/_version.py")

/-- A text of attributes has a line for the path, with the attribute `export-subst`, which makes `git archive` fill in the keywords. -/
def Marks (path text : Str) : Prop :=
  ∃ line ∈ splitOn '\n' text, ∃ attrs, words line = path :: attrs ∧ py! "export-subst" ∈ attrs

/-- No line of the text is about a longer path that begins with this one. -/
def NoLonger (path text : Str) : Prop :=
  ∀ line ∈ splitOn '\n' text, ∀ w ws, words line = w :: ws → path <+: w → w = path

/-- The lines that the installer adds to `__init__.py`. -/
def snippet : Str := py! "
from . import _version
__version__ = _version.get_versions()['version']
"

/-- The lines that older versions of versioneer added to `__init__.py`. -/
def oldLines : Str := py! "
from ._version import get_versions
__version__ = get_versions()['version']
del get_versions
"

/-- The files after `n` calls of `python versioneer.py setup`. -/
def runs (ps : Parsers) (long : Config → Str) (n : ℕ) (fs : Files) : Files :=
  (fun fs => ((setupCommand ps long).run fs).1)^[n] fs

end KK.Version
