import Verif.Model.Version

/-!
# Model of `python versioneer.py setup`

The installer: it reads the configuration, writes `_version.py`, adds lines to the `__init__.py` next to it, and marks
`_version.py` in `.gitattributes`.  Line numbers refer to `versioneer.py`.

Simplifications: it runs in the root directory of the project (`get_root`, l. 345-391, returns it); directories exist and files can be
read and written; text files have `\n` line ends; what is printed and `git add` itself are left out (the list of files handed to
`git add` is part of the outcome); `verbose` is left out of the configuration; the TOML and INI parsers of the standard library
and the text of the long `_version.py` are parameters.
-/

namespace KK.Version

/-- The files: contents by path (`none`: there is no such file). -/
abbrev Files := Str → Option Str

/-- A process that works on files. -/
inductive Cmd (α : Type) where
  /-- It ends. -/
  | ret (a : α)
  /-- It reads a file (`none`: there is no such file). -/
  | read (p : Str) (k : Option Str → Cmd α)
  /-- It opens a file with mode `"w"`: the file is empty. -/
  | trunc (p : Str) (k : Cmd α)
  /-- It adds text at the end of a file. -/
  | put (p : Str) (s : Str) (k : Cmd α)

/-- The files after text was added to the end of one. -/
def Files.append (fs : Files) (p s : Str) : Files := fun x => if x = p then some ((fs p).getD [] ++ s) else fs x

/-- The files after one was emptied or created. -/
def Files.truncate (fs : Files) (p : Str) : Files := fun x => if x = p then some [] else fs x

/-- The process runs to its end. -/
def Cmd.run {α : Type} : Cmd α → Files → Files × α
  | .ret a, fs => (fs, a)
  | .read p k, fs => (k (fs p)).run fs
  | .trunc p k, fs => k.run (fs.truncate p)
  | .put p s k, fs => k.run (fs.append p s)

/-- The process, started on `fs`, can be killed when the files are `fs'`; of a text that is being written any part from the
beginning may have reached the file. -/
inductive Cmd.Killed {α : Type} : Cmd α → Files → Files → Prop
  | here (c : Cmd α) (fs : Files) : Killed c fs fs
  | read {p : Str} {k : Option Str → Cmd α} {fs fs' : Files} : Killed (k (fs p)) fs fs' → Killed (.read p k) fs fs'
  | trunc {p : Str} {k : Cmd α} {fs fs' : Files} : Killed k (fs.truncate p) fs' → Killed (.trunc p k) fs fs'
  | part {p s s' : Str} {k : Cmd α} {fs : Files} : s' <+: s → Killed (.put p s k) fs (fs.append p s')
  | put {p s : Str} {k : Cmd α} {fs fs' : Files} : Killed k (fs.append p s) fs' → Killed (.put p s k) fs fs'

/-! ## `get_config_from_root` (l. 394-439) -/

/-- `VersioneerConfig` (l. 333-342); `None` where the section has no such entry. -/
structure Config where
  vcs : Str
  style : Str
  source : Option Str
  build : Option Str
  tagPrefix : Str
  parentdirPrefix : Option Str
  deriving DecidableEq, Repr

/-- Exceptions of the installer. -/
inductive SetupExc where
  /-- `OSError` -/
  | osError
  /-- `configparser.NoSectionError` -/
  | noSection
  /-- `configparser.NoOptionError` -/
  | noOption
  /-- other errors of `configparser` -/
  | configParser
  /-- `KeyError` -/
  | keyError
  /-- `TypeError` -/
  | typeError
  deriving DecidableEq, Repr

/-- The parsers of the standard library. -/
structure Parsers where
  /-- `tomllib.load(...)['tool']['versioneer']`; the parser is `none` if neither `tomllib` nor `tomli` can be imported
  (`have_tomllib`, l. 323-330), the result is `none` if `TOMLDecodeError` or `KeyError` is raised. -/
  toml : Option (Str → Option (List (Str × Str)))
  /-- `configparser`: the section `versioneer` of the text. -/
  ini : Str → Except SetupExc (List (Str × Str))

/-- The section `[tool.versioneer]` of `pyproject.toml`, if it can be read and is not empty (l. 403-412, `if not section`). -/
def tomlSection (ps : Parsers) (pyproject : Option Str) : Option (List (Str × Str)) :=
  match pyproject, ps.toml with
  | some text, some parse => (parse text).filter (· ≠ [])
  | _, _ => none

/-- The section `[versioneer]` of `setup.cfg` (l. 412-418): `open` raises if there is no file; `parser.get("versioneer", "VCS")`. -/
def iniSection (ps : Parsers) : Option Str → Except SetupExc (List (Str × Str))
  | none => .error .osError
  | some text =>
    match ps.ini text with
    | .error e => .error e
    | .ok s => if (s.lookup (py! "VCS")).isSome then .ok s else .error .noOption

/-- The settings in a section (l. 424-437). -/
def readConfig (s : List (Str × Str)) : Except SetupExc Config :=
  match s.lookup (py! "VCS") with
  | none => .error .keyError
  | some vcs => .ok
    { vcs := vcs
      style := (s.lookup (py! "style")).getD []
      source := s.lookup (py! "versionfile_source")
      build := s.lookup (py! "versionfile_build")
      tagPrefix := match s.lookup (py! "tag_prefix") with
        | none => []
        | some t => if t = py! "''" ∨ t = py! "\"\"" then [] else t
      parentdirPrefix := s.lookup (py! "parentdir_prefix") }

/-- `get_config_from_root` (l. 394-439), given the contents of `pyproject.toml` and `setup.cfg`. -/
def getConfig (ps : Parsers) (pyproject setupCfg : Option Str) : Except SetupExc Config :=
  match tomlSection ps pyproject with
  | some s => readConfig s
  | none =>
    match iniSection ps setupCfg with
    | .error e => .error e
    | .ok s => readConfig s

/-! ## `do_vcs_install` (l. 1428-1463) -/

/-- `s in text` -/
def isIn (s : Str) : Str → Bool
  | [] => s = []
  | c :: rest => startswith (c :: rest) s || isIn s rest

/-- `.gitattributes` (l. 1451, 1460). -/
def gitattributes : Str := py! ".gitattributes"

/-- One line of `.gitattributes` (l. 1453-1454). -/
def marksLine (source line : Str) : Bool :=
  startswith (strip line) source && ((words (strip line)).drop 1).contains (py! "export-subst")

/-- `present` (l. 1449-1458), given the contents of `.gitattributes`. -/
def present (source : Str) : Option Str → Bool
  | none => false
  | some text => (splitOn '\n' text).any (marksLine source)

/-- `do_vcs_install` (l. 1428-1463); `versioneer.py` is the name under which it finds itself.  Continues with the files handed to
`git add`. -/
def doVcsInstall {α : Type} (source : Str) (ipy : Option Str) (k : List Str → Cmd α) : Cmd α :=
  let files := source :: (ipy.toList ++ [py! "versioneer.py"])
  .read gitattributes fun text =>
    if present source text then k files
    else .put gitattributes (source ++ py! " export-subst\n") (k (files ++ [gitattributes]))

/-! ## `do_setup` (l. 2173-2227) -/

/-- `SAMPLE_CONFIG` (l. 2146-2159) -/
def sampleConfig : Str := py! "
# See the docstring in versioneer.py for instructions. Note that you must
# re-run 'versioneer.py setup' after changing this section, and commit the
# resulting files.

[versioneer]
#VCS = git
#style = pep440
#versionfile_source =
#versionfile_build =
#tag_prefix =
#parentdir_prefix =

"

/-- `OLD_SNIPPET` (l. 2161-2165) -/
def oldSnippet : Str := py! "
from ._version import get_versions
__version__ = get_versions()['version']
del get_versions
"

/-- `INIT_PY_SNIPPET.format(module)` (l. 2167-2170, 2208) -/
def initSnippet (module : Str) : Str :=
  py! "\nfrom . import " ++ module ++ py! "\n__version__ = " ++ module ++ py! ".get_versions()['version']\n"

/-- `os.path.join(a, b)` (posix) for a relative path `b`. -/
def joinPath (a b : Str) : Str := if a = [] then b else if endswith a (py! "/") then a ++ b else a ++ py! "/" ++ b

/-- `os.path.splitext(name)[0]` (posix) for a name without slashes: up to the last dot, unless only dots precede it. -/
def splitextRoot (name : Str) : Str :=
  let root := (name.reverse.dropWhile (· ≠ '.')).drop 1 |>.reverse
  if name.contains '.' && !root.all (· = '.') then root else name

/-- `s.replace(old, new)`, for a non-empty `old`; the number counts characters of a replaced occurrence that are still to be skipped. -/
def replaceAux (old new : Str) : ℕ → Str → Str
  | _, [] => []
  | k + 1, _ :: rest => replaceAux old new k rest
  | 0, c :: rest =>
    if startswith (c :: rest) old then new ++ replaceAux old new (old.length - 1) rest else c :: replaceAux old new 0 rest

/-- `s.replace(old, new)`, for a non-empty `old`. -/
def replaceAll (old new s : Str) : Str := replaceAux old new 0 s

/-- How the installer ends: the number of errors and the files handed to `git add`, or an exception. -/
abbrev SetupEnd := Except SetupExc (ℕ × List Str)

/-- The `__init__.py` next to `_version.py` (l. 2198-2221); continues with its path if there is one. -/
def setupInit {α : Type} (source : Str) (k : Option Str → Cmd α) : Cmd α :=
  let ipy := joinPath (dirname source) (py! "__init__.py")
  .read ipy fun text =>
    match text with
    | none => k none
    | some old =>
      let snippet := initSnippet (splitextRoot (basename source))
      if isIn oldSnippet old then .trunc ipy (.put ipy (replaceAll oldSnippet snippet old) (k (some ipy)))
      else if isIn snippet old then k (some ipy)
      else .put ipy snippet (k (some ipy))

/-- `do_setup` (l. 2173-2227).  `long` is `LONG_VERSION_PY["git"] % {...}` (l. 2189-2196); there is no other key in that
dictionary (l. 508), so that any other `VCS` raises KeyError after the file was opened; `open(None)` raises TypeError. -/
def doSetup (ps : Parsers) (long : Config → Str) (k : SetupEnd → Cmd SetupEnd) : Cmd SetupEnd :=
  .read (py! "pyproject.toml") fun pyproject => .read (py! "setup.cfg") fun setupCfg =>
    match getConfig ps pyproject setupCfg with
    | .error e =>
      if e = .osError ∨ e = .noSection then .put (py! "setup.cfg") sampleConfig (k (.ok (1, [])))
      else if e = .noOption then k (.ok (1, []))
      else .ret (.error e)
    | .ok cfg =>
      match cfg.source with
      | none => .ret (.error .typeError)
      | some source =>
        .trunc source
          (if cfg.vcs = py! "git" then
            .put source (long cfg) (setupInit source fun ipy => doVcsInstall source ipy fun files => k (.ok (0, files)))
          else .ret (.error .keyError))

/-! ## `scan_setup_py`, `setup_command` (l. 2230-2272) -/

/-- `scan_setup_py` (l. 2230-2264), given the contents of `setup.py`: the number of complaints. -/
def scanSetupPy (text : Str) : ℕ :=
  let lines := splitOn '\n' text
  let found (s : Str) : Bool := lines.any (isIn s)
  (if found (py! "import versioneer") && found (py! "versioneer.get_cmdclass()") && found (py! "versioneer.get_version()") then 0
   else 1) +
  if found (py! "versioneer.VCS") || found (py! "versioneer.versionfile_source") then 1 else 0

/-- `python versioneer.py setup` (`setup_command`, l. 2267-2271): the exit code, 1 if there are errors. -/
def setupCommand (ps : Parsers) (long : Config → Str) : Cmd SetupEnd :=
  doSetup ps long fun r =>
    match r with
    | .error e => .ret (.error e)
    | .ok (errors, files) =>
      .read (py! "setup.py") fun text =>
        match text with
        | none => .ret (.error .osError)
        | some text => .ret (.ok (if errors + scanSetupPy text = 0 then 0 else 1, files))

end KK.Version
