import Mathlib.Data.List.Basic
import Mathlib.Data.List.Sort
import Mathlib.Data.Char

/-!
# Model of `src/kalmankit/_version.py`: how `kalmankit.__version__` is computed

A Python `str` is a list of code points (`List Char`).  `git` is an arbitrary function from command lines to outcomes, the
file system enters through the path of `_version.py`.  Line numbers refer to `src/kalmankit/_version.py`.

Simplifications: posix paths only; `verbose` output (`print`) is dropped (`get_config` sets `verbose = False`, l. 56);
`os.path.realpath` and `os.environ` do not raise; strings contain no surrogates; the limit on the number of digits
accepted by `int()` is not modelled; a git command is a function of its arguments during one call of `get_versions`.
-/

namespace KK.Version

/-- Python `str`. -/
abbrev Str := List Char

open Lean in
/-- `py! "abc"` is the explicit list of characters of a literal. -/
macro "py!" s:str : term => do
  let cs := (s.getString.toList.map fun c => Syntax.mkCharLit c).toArray
  `(([$[$cs],*] : List Char))

/-- What the code uses of the Unicode database: the decimal digits matched by `\d`, with their values.  Only the facts
needed are assumed; ASCII digits are decimal, and ASCII letters and `-` are not. -/
class Unicode where
  isDecimal : Char → Bool
  value : Char → ℕ
  ascii : ∀ d : Fin 10, isDecimal (Char.ofNat (48 + d)) = true ∧ value (Char.ofNat (48 + d)) = d
  hyphen : isDecimal '-' = false
  letter : ∀ c : Char, c.isAlpha = true → isDecimal c = false

variable [Unicode]

/-! ## `str` methods -/

/-- Characters removed by `str.strip()` (`str.isspace`). -/
def isSpace (c : Char) : Bool :=
  let n := c.toNat
  (9 ≤ n && n ≤ 13) || (28 ≤ n && n ≤ 32) || n == 0x85 || n == 0xa0 || n == 0x1680 || (0x2000 ≤ n && n ≤ 0x200a) ||
    n == 0x2028 || n == 0x2029 || n == 0x202f || n == 0x205f || n == 0x3000

/-- `str.strip` with a set of characters. -/
def stripBy (p : Char → Bool) (s : Str) : Str := ((s.dropWhile p).reverse.dropWhile p).reverse

/-- `s.strip()` -/
def strip (s : Str) : Str := stripBy isSpace s

/-- `bytes.strip()` of the UTF-8 encoding (l. 124): ASCII white space only. -/
def stripBytes (s : Str) : Str := stripBy (fun c => (9 ≤ c.toNat && c.toNat ≤ 13) || c.toNat == 32) s

/-- Line boundaries of `str.splitlines`. -/
def isBreak (c : Char) : Bool :=
  let n := c.toNat
  (10 ≤ n && n ≤ 13) || (28 ≤ n && n ≤ 30) || n == 0x85 || n == 0x2028 || n == 0x2029

/-- `str.splitlines`, with the characters of the current line so far. -/
def splitlinesAux (cur : Str) : Str → List Str
  | [] => if cur = [] then [] else [cur]
  | c :: '\n' :: rest =>
    if c = '\r' then cur :: splitlinesAux [] rest
    else if isBreak c then cur :: splitlinesAux [] ('\n' :: rest)
    else splitlinesAux (cur ++ [c]) ('\n' :: rest)
  | c :: rest => if isBreak c then cur :: splitlinesAux [] rest else splitlinesAux (cur ++ [c]) rest
termination_by s => s.length

/-- `s.splitlines()` -/
def splitlines (s : Str) : List Str := splitlinesAux [] s

/-- `s.split(c)` for a one-character separator; never empty. -/
def splitOn (sep : Char) : Str → List Str
  | [] => [[]]
  | c :: rest =>
    if c = sep then [] :: splitOn sep rest
    else match splitOn sep rest with
      | [] => [[c]]
      | w :: ws => (c :: w) :: ws

/-- `s.split()`: the maximal runs of non-space characters. -/
def words : Str → List Str
  | [] => []
  | c :: rest =>
    if isSpace c then words rest
    else match rest with
      | [] => [[c]]
      | d :: _ => if isSpace d then [c] :: words rest else match words rest with
        | [] => [[c]]
        | w :: ws => (c :: w) :: ws

/-- `s.replace(" ", new, 1)` -/
def replaceSpace (new : Str) : Str → Str
  | [] => []
  | c :: rest => if c = ' ' then new ++ rest else c :: replaceSpace new rest

/-- `s.startswith(p)` -/
def startswith (s p : Str) : Bool := p.isPrefixOf s

/-- `s.endswith(p)` -/
def endswith (s p : Str) : Bool := p.isSuffixOf s

/-- `"%d" % n` for a natural number. -/
def fmtNat (n : ℕ) : Str := Nat.toDigits 10 n

/-- `int(s)` of a string of decimal digits. -/
def toInt (s : Str) : ℕ := s.foldl (fun n c => 10 * n + Unicode.value c) 0

/-- `os.path.dirname` (posix): `head = p[:rfind('/')+1]`, trailing slashes removed unless it is all slashes. -/
def dirname (p : Str) : Str :=
  let head := (p.reverse.dropWhile (· ≠ '/')).reverse
  if head.all (· = '/') then head else (head.reverse.dropWhile (· = '/')).reverse

/-- `os.path.basename` (posix): what follows the last slash. -/
def basename (p : Str) : Str := (p.reverse.takeWhile (· ≠ '/')).reverse

/-! ## Exceptions and results -/

/-- Exceptions that can occur. -/
inductive Exc where
  | notThisMethod
  | indexError
  | attributeError
  | keyError
  | valueError
  | unicodeDecodeError
  deriving DecidableEq, Repr

/-- The dictionaries returned by `get_versions`. -/
structure Versions where
  version : Str
  full : Option Str
  dirty : Option Bool
  error : Option Str
  date : Option Str
  deriving DecidableEq, Repr

/-- The dictionary of `get_keywords` (l. 22-32); a missing key is `none`.  The three strings of a checkout are given by
`unexpanded`; `git archive` replaces them. -/
structure Keywords where
  refnames : Option Str
  full : Option Str
  date : Option Str

/-- The keywords as they are in the repository (l. 28-30). -/
def unexpanded : Keywords := ⟨some (py! "$Format:%d$"), some (py! "$Format:%H$"), some (py! "$Format:%ci$")⟩

/-- Outcome of `subprocess.Popen(...)` and `communicate` for one command: executable not found, another `OSError`, or
finished with output (`none`: not valid UTF-8) and return code. -/
inductive Spawn where
  | notFound
  | osError
  | exited (stdout : Option Str) (rc : ℤ)

/-- The environment of one call of `get_versions`: platform, keywords in the file, path of the file (`none`: `__file__`
undefined), and what running a command (first argument: executable) in a directory does. -/
structure Env where
  win32 : Bool
  keywords : Keywords
  file : Option Str
  spawn : Str → List Str → Str → Spawn

/-- `run_command` (l. 81-130): try the commands in order until one can be started. -/
def runCommand (spawn : Str → List Str → Str → Spawn) (args : List Str) (cwd : Str) :
    List Str → Except Exc (Option Str × Option ℤ)
  | [] => .ok (none, none)
  | command :: rest =>
    match spawn command args cwd with
    | .notFound => runCommand spawn args cwd rest
    | .osError => .ok (none, none)
    | .exited none _ => .error .unicodeDecodeError
    | .exited (some out) rc => if rc ≠ 0 then .ok (none, some rc) else .ok (some (stripBytes out), some rc)

/-! ## `versions_from_parentdir` (l. 133-164) -/

/-- The loop (l. 146-164), with the number of levels left. -/
def parentdirLoop (pre : Str) : ℕ → Str → Except Exc Versions
  | 0, _ => .error .notThisMethod
  | k + 1, root =>
    if startswith (basename root) pre then
      .ok ⟨(basename root).drop pre.length, none, some false, none, none⟩
    else parentdirLoop pre k (dirname root)

/-- `versions_from_parentdir` (l. 133-164) -/
def versionsFromParentdir (pre root : Str) : Except Exc Versions := parentdirLoop pre 3 root

/-! ## `git_versions_from_keywords` (l. 196-267) -/

/-- Normalisation of a date (l. 205-216, 413-416): last line, ISO-8601. -/
def isoDate (date : Str) : Except Exc Str :=
  match (splitlines date).getLast? with
  | none => .error .indexError
  | some l => .ok (replaceSpace [] (replaceSpace (py! "T") (strip l)))

/-- The set of refs (l. 222). -/
def refsOf (refnames : Str) : List Str :=
  (splitOn ',' (stripBy (fun c => c = '(' || c = ')') refnames)).map strip

/-- The candidate tags (l. 225-235). -/
def tagsOf (refs : List Str) : List Str :=
  let tags := (refs.filter fun r => startswith r (py! "tag: ")).map fun r => r.drop 5
  if tags = [] then refs.filter fun r => r.any Unicode.isDecimal else tags

/-- `sorted` (l. 240) of a set of strings: by code points, without duplicates. -/
def sortedSet (l : List Str) : List Str := (l.mergeSort fun a b => decide (a ≤ b)).dedup

/-- `re.match(r"\d", r)` (l. 247) -/
def startsWithDigit : Str → Bool
  | [] => false
  | c :: _ => Unicode.isDecimal c

/-- The first usable ref (l. 240-257). -/
def pickTag (tagPrefix : Str) : List Str → Option Str
  | [] => none
  | ref :: rest =>
    if startswith ref tagPrefix && startsWithDigit (ref.drop tagPrefix.length) then some (ref.drop tagPrefix.length)
    else pickTag tagPrefix rest

/-- `git_versions_from_keywords` (l. 196-267) -/
def gitVersionsFromKeywords (kw : Keywords) (tagPrefix : Str) : Except Exc Versions :=
  match kw.refnames with
  | none => .error .notThisMethod
  | some refnames =>
    match kw.date.mapM isoDate with
    | .error e => .error e
    | .ok date =>
      if startswith (strip refnames) (py! "$Format") then .error .notThisMethod
      else match pickTag tagPrefix (sortedSet (tagsOf (refsOf (strip refnames)))) with
        | some r =>
          match kw.full with
          | none => .error .keyError
          | some full => .ok ⟨r, some (strip full), some false, none, date⟩
        | none =>
          match kw.full with
          | none => .error .keyError
          | some full => .ok ⟨py! "0+unknown", some (strip full), some false, some (py! "no suitable tags"), none⟩

/-! ## `git_pieces_from_vcs` (l. 271-418) -/

/-- The dictionary of pieces (l. 323-418).  `closest-tag`, `distance` and `date` are missing (`none`) if `error` is set. -/
structure Pieces where
  long : Str
  short : Str
  error : Option Str
  branch : Option Str
  dirty : Bool
  closestTag : Option Str
  distance : ℕ
  date : Option Str

/-- `[0-9a-f]` (l. 376) -/
def isHex (c : Char) : Bool := (48 ≤ c.toNat && c.toNat ≤ 57) || (97 ≤ c.toNat && c.toNat ≤ 102)

/-- The part `-(\d+)-g([0-9a-f]+)$` of the regular expression (l. 376), anchored; `$` also matches before a final newline. -/
def reRest : Str → Option (Str × Str)
  | '-' :: s =>
    let d := s.takeWhile Unicode.isDecimal
    match s.dropWhile Unicode.isDecimal with
    | '-' :: 'g' :: t =>
      let h := t.takeWhile isHex
      let e := t.dropWhile isHex
      if d ≠ [] ∧ h ≠ [] ∧ (e = [] ∨ e = ['\n']) then some (d, h) else none
    | _ => none
  | _ => none

/-- Backtracking over the length of the greedy `(.+)` (l. 376), from `i` down to one. -/
def reFrom (s : Str) : ℕ → Option (Str × Str × Str)
  | 0 => none
  | i + 1 =>
    if (s.take (i + 1)).all (· ≠ '\n') then
      match reRest (s.drop (i + 1)) with
      | some (d, h) => some (s.take (i + 1), d, h)
      | none => reFrom s i
    else reFrom s i

/-- `re.search(r"^(.+)-(\d+)-g([0-9a-f]+)$", s)` (l. 376) -/
def reDescribe (s : Str) : Option (Str × Str × Str) := reFrom s s.length

/-- The branch of a detached head (l. 344-358), from the output of `git branch --contains`. -/
def detachedBranch (out : Str) : Option Str :=
  let branches := splitOn '\n' out
  let branches := match branches with
    | b :: bs => if b.contains '(' then bs else b :: bs
    | [] => []
  let branches := branches.map fun b => b.drop 2
  if branches.contains (py! "master") then some (py! "master")
  else branches.head?

/-- `git_describe` without the `-dirty` suffix (l. 364-370).  (`endswith` holds, so `rindex` is `len - 6`.) -/
def undirty (describe : Str) : Str :=
  if endswith describe (py! "-dirty") then describe.take (describe.length - 6) else describe

/-- The commands used (l. 280-282). -/
def gits (win32 : Bool) : List Str := if win32 then [py! "git.cmd", py! "git.exe"] else [py! "git"]

/-- `date = runner(GITS, ["show", ...])[0].strip()` and normalisation (l. 410-416). -/
def commitDate (run : List Str → Except Exc (Option Str × Option ℤ)) : Except Exc Str :=
  match run [py! "show", py! "-s", py! "--format=%ci", py! "HEAD"] with
  | .error e => .error e
  | .ok (none, _) => .error .attributeError
  | .ok (some out, _) => isoDate (strip out)

/-- Parsing of the output of `git describe` and the rest of the function (l. 362-418). -/
def parseDescribe (run : List Str → Except Exc (Option Str × Option ℤ)) (tagPrefix describe full : Str)
    (branch : Option Str) : Except Exc Pieces :=
  let dirty := endswith describe (py! "-dirty")
  let base : Pieces := ⟨full, full.take 7, none, branch, dirty, none, 0, none⟩
  if (undirty describe).contains '-' then
    match reDescribe (undirty describe) with
    | none => .ok { base with error := some (py! "unable to parse git-describe output: '" ++ describe ++ py! "'") }
    | some (fullTag, num, hex) =>
      if startswith fullTag tagPrefix then
        match commitDate run with
        | .error e => .error e
        | .ok date =>
          .ok { base with
                closestTag := some (fullTag.drop tagPrefix.length)
                distance := toInt num
                short := hex
                date := some date }
      else
        .ok { base with
              error := some (py! "tag '" ++ fullTag ++ py! "' doesn't start with prefix '" ++ tagPrefix ++ py! "'") }
  else
    match run [py! "rev-list", py! "HEAD", py! "--left-right"] with
    | .error e => .error e
    | .ok (none, _) => .error .attributeError
    | .ok (some out, _) =>
      match commitDate run with
      | .error e => .error e
      | .ok date => .ok { base with distance := (words out).length, date := some date }

/-- The branch name (l. 328-360), and the rest. -/
def branchThen (run : List Str → Except Exc (Option Str × Option ℤ)) (tagPrefix describe full : Str) :
    Except Exc Pieces :=
  match run [py! "rev-parse", py! "--abbrev-ref", py! "HEAD"] with
  | .error e => .error e
  | .ok (some name, some 0) =>
    if strip name = py! "HEAD" then
      match run [py! "branch", py! "--contains"] with
      | .error e => .error e
      | .ok (some out, some 0) => parseDescribe run tagPrefix describe full (detachedBranch out)
      | .ok _ => .error .notThisMethod
    else parseDescribe run tagPrefix describe full (some (strip name))
  | .ok _ => .error .notThisMethod

/-- `git_pieces_from_vcs` (l. 271-418), given how a git command runs in the root directory. -/
def gitPieces (run : List Str → Except Exc (Option Str × Option ℤ)) (tagPrefix : Str) : Except Exc Pieces :=
  match run [py! "rev-parse", py! "--git-dir"] with
  | .error e => .error e
  | .ok (_, some 0) =>
    match run [py! "describe", py! "--tags", py! "--dirty", py! "--always", py! "--long", py! "--match",
        tagPrefix ++ py! "[[:digit:]]*"] with
    | .error e => .error e
    | .ok (none, _) => .error .notThisMethod
    | .ok (some describe, _) =>
      match run [py! "rev-parse", py! "HEAD"] with
      | .error e => .error e
      | .ok (none, _) => .error .notThisMethod
      | .ok (some full, _) => branchThen run tagPrefix (strip describe) (strip full)
  | .ok _ => .error .notThisMethod

/-! ## Rendering (l. 421-677) -/

/-- `plus_or_dot` (l. 421-425), for a tag. -/
def plusOrDot (tag : Str) : Str := if tag.contains '+' then py! "." else py! "+"

/-- `".dirty"` (or `".dev0"`, `"-dirty"`) if the tree is modified (e.g. l. 442, 534, 613). -/
def ifDirty (p : Pieces) (s : Str) : Str := if p.dirty then s else []

/-- `".dev0"` off the master branch (e.g. l. 464, 473) -/
def dev0Branch (p : Pieces) : Str := if p.branch ≠ some (py! "master") then py! ".dev0" else []

/-- `pieces["closest-tag"]` is truthy (e.g. l. 437). -/
def tagOf (p : Pieces) : Option Str := p.closestTag.filter (· ≠ [])

/-- `pieces["distance"] or pieces["dirty"]` (e.g. l. 439) -/
def moved (p : Pieces) : Bool := p.distance ≠ 0 || p.dirty

/-- `render_pep440` (l. 428-449) -/
def renderPep440 (p : Pieces) : Str :=
  match tagOf p with
  | some tag =>
    if moved p then tag ++ plusOrDot tag ++ fmtNat p.distance ++ py! ".g" ++ p.short ++ ifDirty p (py! ".dirty") else tag
  | none => py! "0+untagged." ++ fmtNat p.distance ++ py! ".g" ++ p.short ++ ifDirty p (py! ".dirty")

/-- `render_pep440_branch` (l. 452-478) -/
def renderPep440Branch (p : Pieces) : Str :=
  match tagOf p with
  | some tag =>
    if moved p then tag ++ dev0Branch p ++ plusOrDot tag ++ fmtNat p.distance ++ py! ".g" ++ p.short ++
      ifDirty p (py! ".dirty") else tag
  | none => py! "0" ++ dev0Branch p ++ py! "+untagged." ++ fmtNat p.distance ++ py! ".g" ++ p.short ++
      ifDirty p (py! ".dirty")

/-- The pieces of `s.split(".post")` (l. 487), with the characters of the current piece so far. -/
def splitPostAux (cur : Str) : Str → List Str
  | '.' :: 'p' :: 'o' :: 's' :: 't' :: rest => cur :: splitPostAux [] rest
  | c :: rest => splitPostAux (cur ++ [c]) rest
  | [] => [cur]

/-- `pep440_split_post` (l. 481-488); `int` raises `ValueError` for anything but (possibly signed, underscored, space
surrounded) decimal digits.  Simplification: signs, underscores and spaces are rejected too. -/
def splitPost (ver : Str) : Except Exc (Str × Option ℕ) :=
  match splitPostAux [] ver with
  | [a, b] =>
    if b = [] then .ok (a, some 0)
    else if b.all Unicode.isDecimal then .ok (a, some (toInt b)) else .error .valueError
  | a :: _ => .ok (a, none)
  | [] => .ok ([], none)

/-- `render_pep440_pre` (l. 491-517) -/
def renderPep440Pre (p : Pieces) : Except Exc Str :=
  match tagOf p with
  | some tag =>
    if p.distance ≠ 0 then
      match splitPost tag with
      | .error e => .error e
      | .ok (v, some post) => .ok (v ++ py! ".post" ++ fmtNat (post + 1) ++ py! ".dev" ++ fmtNat p.distance)
      | .ok (v, none) => .ok (v ++ py! ".post0.dev" ++ fmtNat p.distance)
    else .ok tag
  | none => .ok (py! "0.post0.dev" ++ fmtNat p.distance)

/-- `render_pep440_post` (l. 520-544) -/
def renderPep440Post (p : Pieces) : Str :=
  match tagOf p with
  | some tag =>
    if moved p then tag ++ py! ".post" ++ fmtNat p.distance ++ ifDirty p (py! ".dev0") ++ plusOrDot tag ++ py! "g" ++ p.short
    else tag
  | none => py! "0.post" ++ fmtNat p.distance ++ ifDirty p (py! ".dev0") ++ py! "+g" ++ p.short

/-- `render_pep440_post_branch` (l. 547-573) -/
def renderPep440PostBranch (p : Pieces) : Str :=
  match tagOf p with
  | some tag =>
    if moved p then tag ++ py! ".post" ++ fmtNat p.distance ++ dev0Branch p ++ plusOrDot tag ++ py! "g" ++ p.short ++
      ifDirty p (py! ".dirty") else tag
  | none => py! "0.post" ++ fmtNat p.distance ++ dev0Branch p ++ py! "+g" ++ p.short ++ ifDirty p (py! ".dirty")

/-- `render_pep440_old` (l. 576-595) -/
def renderPep440Old (p : Pieces) : Str :=
  match tagOf p with
  | some tag => if moved p then tag ++ py! ".post" ++ fmtNat p.distance ++ ifDirty p (py! ".dev0") else tag
  | none => py! "0.post" ++ fmtNat p.distance ++ ifDirty p (py! ".dev0")

/-- `render_git_describe` (l. 598-615) -/
def renderGitDescribe (p : Pieces) : Str :=
  (match tagOf p with
    | some tag => if p.distance ≠ 0 then tag ++ py! "-" ++ fmtNat p.distance ++ py! "-g" ++ p.short else tag
    | none => p.short) ++ ifDirty p (py! "-dirty")

/-- `render_git_describe_long` (l. 618-635) -/
def renderGitDescribeLong (p : Pieces) : Str :=
  (match tagOf p with
    | some tag => tag ++ py! "-" ++ fmtNat p.distance ++ py! "-g" ++ p.short
    | none => p.short) ++ ifDirty p (py! "-dirty")

/-- The dispatch on the style (l. 649-669). -/
def renderStyle (p : Pieces) (style : Str) : Except Exc Str :=
  if style = [] ∨ style = py! "default" ∨ style = py! "pep440" then .ok (renderPep440 p)
  else if style = py! "pep440-branch" then .ok (renderPep440Branch p)
  else if style = py! "pep440-pre" then renderPep440Pre p
  else if style = py! "pep440-post" then .ok (renderPep440Post p)
  else if style = py! "pep440-post-branch" then .ok (renderPep440PostBranch p)
  else if style = py! "pep440-old" then .ok (renderPep440Old p)
  else if style = py! "git-describe" then .ok (renderGitDescribe p)
  else if style = py! "git-describe-long" then .ok (renderGitDescribeLong p)
  else .error .valueError

/-- `render` (l. 638-677) -/
def render (p : Pieces) (style : Str) : Except Exc Versions :=
  match p.error with
  | some e => .ok ⟨py! "unknown", some p.long, none, some e, none⟩
  | none =>
    match renderStyle p style with
    | .error e => .error e
    | .ok v => .ok ⟨v, some p.long, some p.dirty, none, p.date⟩

/-! ## `get_versions` (l. 680-731) -/

/-- `cfg.tag_prefix` (`get_config`, l. 53) -/
def tagPrefix : Str := py! "v"
/-- `cfg.style` (`get_config`, l. 52) -/
def style : Str := py! "pep440"
/-- `cfg.parentdir_prefix` (`get_config`, l. 54) -/
def parentdirPrefix : Str := py! "kalmankit-"
/-- `cfg.versionfile_source` (`get_config`, l. 55) -/
def versionfileSource : Str := py! "src/kalmankit/_version.py"

/-- The root of the source tree (l. 698-703). -/
def rootOf (file : Str) : Str := (splitOn '/' versionfileSource).foldl (fun root _ => dirname root) file

/-- The last resort (l. 725-731). -/
def lastResort : Versions := ⟨py! "0+unknown", none, none, some (py! "unable to compute version"), none⟩

/-- From the parent directory, or the last resort (l. 719-731). -/
def fromParentdir (root : Str) : Except Exc Versions :=
  match versionsFromParentdir parentdirPrefix root with
  | .error .notThisMethod => .ok lastResort
  | r => r

/-- From git, or further (l. 713-731). -/
def fromGit (env : Env) (root : Str) : Except Exc Versions :=
  match gitPieces (fun args => runCommand env.spawn args root (gits env.win32)) tagPrefix with
  | .error .notThisMethod => fromParentdir root
  | .error e => .error e
  | .ok pieces =>
    match render pieces style with
    | .error .notThisMethod => fromParentdir root
    | r => r

/-- `get_versions` (l. 680-731) -/
def getVersions (env : Env) : Except Exc Versions :=
  match gitVersionsFromKeywords env.keywords tagPrefix with
  | .error .notThisMethod =>
    match env.file with
    | none => .ok ⟨py! "0+unknown", none, none, some (py! "unable to find root of source tree"), none⟩
    | some file => fromGit env (rootOf file)
  | r => r

/-- `kalmankit.__version__` after `import kalmankit` (`src/kalmankit/__init__.py`, l. 11-14: computed twice, the second
time counts, an exception in either makes the import fail). -/
def importVersion (env₁ env₂ : Env) : Except Exc Str :=
  match getVersions env₁ with
  | .error e => .error e
  | .ok _ =>
    match getVersions env₂ with
    | .error e => .error e
    | .ok v => .ok v.version

end KK.Version
