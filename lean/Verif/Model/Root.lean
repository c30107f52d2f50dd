import Verif.Model.Build
import Verif.Model.Install

/-!
# Model of `versioneer.py`: where the build finds the project, and `get_versions` for any configuration

`setup.py` calls `versioneer.get_version()`, which looks for the root directory of the project (`get_root`), reads its configuration
(`get_config_from_root`, `Verif.Model.Install`) and computes the version.  Line numbers refer to `versioneer.py`.

Simplifications: as in `Verif.Model.Build` and `Verif.Model.Install`; what is printed (also the warning of l. 377-389) is left out;
`os.path.realpath(os.path.abspath(..))` of the current directory and of `sys.argv[0]` are given.
-/

namespace KK.Version

/-- The process that runs the build: the real paths of the current directory (l. 351) and of `sys.argv[0]` (l. 362), which paths
exist, what is in the files (`none`: cannot be read), the platform, and what running a command does. -/
structure Process where
  here : Str
  script : Str
  pathExists : Str → Bool
  text : Str → Option Str
  win32 : Bool
  spawn : Str → List Str → Str → Spawn

/-- How `get_versions` fails. -/
inductive BuildExc where
  /-- `VersioneerBadRootError` (l. 372) -/
  | badRoot
  /-- an exception of `get_config_from_root` -/
  | config (e : SetupExc)
  /-- `AssertionError` (l. 1805-1811) -/
  | assertion
  /-- an exception of the rest -/
  | rest (f : Fail)
  deriving DecidableEq, Repr

/-- `os.path.exists(setup_py) or os.path.exists(pyproject_toml) or os.path.exists(versioneer_py)` (l. 352-359, 363-370) -/
def looksLikeRoot (p : Process) (root : Str) : Bool :=
  p.pathExists (joinPath root (py! "setup.py")) || p.pathExists (joinPath root (py! "pyproject.toml")) ||
    p.pathExists (joinPath root (py! "versioneer.py"))

/-- `get_root` (l. 345-391) -/
def getRoot (p : Process) : Except BuildExc Str :=
  if looksLikeRoot p p.here then .ok p.here
  else if looksLikeRoot p (dirname p.script) then .ok (dirname p.script)
  else .error .badRoot

variable [Unicode]

/-- From the parent directory if there is a prefix, or the last resort (l. 1846-1862). -/
def fromDirectory (cfg : Config) (root : Str) : Except Exc Versions :=
  match cfg.parentdirPrefix with
  | none => .ok lastResort
  | some [] => .ok lastResort
  | some pre =>
    match versionsFromParentdir pre root with
    | .error .notThisMethod => .ok lastResort
    | r => r

/-- From git, or further (l. 1836-1862). -/
def fromVcs (cfg : Config) (t : Tree) : Except Exc Versions :=
  match gitPieces (fun args => runCommand t.spawn args t.root (gits t.win32)) cfg.tagPrefix with
  | .error .notThisMethod => fromDirectory cfg t.root
  | .error e => .error e
  | .ok pieces =>
    match render pieces cfg.style with
    | .error .notThisMethod => fromDirectory cfg t.root
    | r => r

/-- The keywords, the file, git, the parent directory, in this order (l. 1815-1862). -/
def versionsWith (cfg : Config) (t : Tree) : Except Fail Dict :=
  match gitVersionsFromKeywords (gitGetKeywords t.contents) cfg.tagPrefix with
  | .ok v => .ok v.toDict
  | .error .notThisMethod =>
    match versionsFromFile t.contents with
    | .error (.exc .notThisMethod) =>
      match fromVcs cfg t with
      | .ok v => .ok v.toDict
      | .error e => .error (.exc e)
    | r => r
  | .error e => .error (.exc e)

/-- `get_versions` once the root is known (l. 1803-1862).  There is one entry in `HANDLERS`, `git` (l. 1194, 1222, 1290). -/
def versionsIn (ps : Parsers) (p : Process) (root : Str) : Except BuildExc Dict :=
  match getConfig ps (p.text (joinPath root (py! "pyproject.toml"))) (p.text (joinPath root (py! "setup.cfg"))) with
  | .error e => .error (.config e)
  | .ok cfg =>
    if cfg.vcs = py! "git" then
      match cfg.source with
      | none => .error .assertion
      | some source =>
        match versionsWith cfg ⟨p.win32, root, p.text (joinPath root source), p.spawn⟩ with
        | .error f => .error (.rest f)
        | .ok d => .ok d
    else .error .assertion

/-- `versioneer.get_versions()` (l. 1793-1862) -/
def runVersions (ps : Parsers) (p : Process) : Except BuildExc Dict :=
  match getRoot p with
  | .error e => .error e
  | .ok root => versionsIn ps p root

end KK.Version
