import Verif.Model.Version

/-!
# What git prints, and what a version string should look like

`Checkout` describes the outcomes of the git commands in a healthy checkout; `PublicVersion`, `LocalVersion` are the
relevant part of PEP 440.  Only the types and the `str` primitives of the model are used.
-/

namespace KK.Version

variable [Unicode]

/-- A non-empty string of hexadecimal digits. -/
def IsHash (h : Str) : Prop := h ≠ [] ∧ ∀ c ∈ h, (48 ≤ c.toNat ∧ c.toNat ≤ 57) ∨ (97 ≤ c.toNat ∧ c.toNat ≤ 102)

/-- What `git describe --tags --dirty --always --long` prints (without the newline) for a reachable tag: `TAG-NUM-gHASH`,
and `-dirty` if the tree is modified. -/
def describeTagged (tag : Str) (num : ℕ) (hash : Str) (dirty : Bool) : Str :=
  tag ++ py! "-" ++ fmtNat num ++ py! "-g" ++ hash ++ if dirty then py! "-dirty" else []

/-- The same if there is no such tag: `HASH`, and `-dirty`. -/
def describeUntagged (hash : Str) (dirty : Bool) : Str := hash ++ if dirty then py! "-dirty" else []

/-- Running `git args` in `root` succeeds and prints `out`: the first executable that exists does so. -/
def Prints (env : Env) (root : Str) (args : List Str) (out : Str) : Prop :=
  if env.win32 then
    env.spawn (py! "git.cmd") args root = .exited (some out) 0 ∨
      (env.spawn (py! "git.cmd") args root = .notFound ∧ env.spawn (py! "git.exe") args root = .exited (some out) 0)
  else env.spawn (py! "git") args root = .exited (some out) 0

/-- A git checkout (keywords not expanded) in directory `root` whose `git describe` prints `describe`, at commit `full`. -/
structure Repo (env : Env) (root describe full : Str) : Prop where
  keywords : env.keywords = unexpanded
  file : env.file = some (root ++ py! "/src/kalmankit/_version.py")
  rootDir : root ≠ [] ∧ root.getLast? ≠ some '/'
  gitDir : ∃ out, Prints env root [py! "rev-parse", py! "--git-dir"] out
  describeOut : Prints env root [py! "describe", py! "--tags", py! "--dirty", py! "--always", py! "--long", py! "--match",
    py! "v[[:digit:]]*"] (describe ++ ['\n'])
  headOut : Prints env root [py! "rev-parse", py! "HEAD"] (full ++ ['\n'])
  branchOut : ∃ branch, Prints env root [py! "rev-parse", py! "--abbrev-ref", py! "HEAD"] branch
  branchesOut : ∃ branches, Prints env root [py! "branch", py! "--contains"] branches

/-- Such a checkout where also `git show` prints `date` and `git rev-list` prints `commits`. -/
structure Checkout (env : Env) (root describe full date commits : Str) : Prop extends Repo env root describe full where
  commitsOut : Prints env root [py! "rev-list", py! "HEAD", py! "--left-right"] commits
  dateOut : Prints env root [py! "show", py! "-s", py! "--format=%ci", py! "HEAD"] (date ++ ['\n'])

/-- What `git branch --contains` prints if no branch is checked out: a line about that, then one line for each branch. -/
def detachedOutput (where_ : Str) (branches : List Str) : Str :=
  py! "* (HEAD detached at " ++ where_ ++ py! ")\n" ++ branches.flatMap fun b => py! "  " ++ b ++ py! "\n"

/-- A non-empty string without white space. -/
def IsWord (w : Str) : Prop := w ≠ [] ∧ ∀ c ∈ w, isSpace c = false

/-- A date as git prints it, day, time and zone, e.g. `2024-01-02 03:04:05 +0100`. -/
def gitDate (day time zone : Str) : Str := day ++ py! " " ++ time ++ py! " " ++ zone

/-- The version of a build `num` commits after the release `rel`, at commit `hash`. -/
def buildVersion (rel : Str) (num : ℕ) (hash : Str) (dirty : Bool) : Str :=
  if num = 0 ∧ dirty = false then rel
  else rel ++ (if '+' ∈ rel then py! "." else py! "+") ++ fmtNat num ++ py! ".g" ++ hash ++
    if dirty then py! ".dirty" else []

/-! ## PEP 440 -/

/-- A non-empty string of ASCII digits. -/
def IsNum (s : Str) : Prop := s ≠ [] ∧ ∀ c ∈ s, c.isDigit = true

/-- `N(.N)*` -/
inductive Release : Str → Prop
  | one {n : Str} : IsNum n → Release n
  | dot {r n : Str} : Release r → IsNum n → Release (r ++ '.' :: n)

/-- A PEP 440 public version: `[N!]N(.N)*[{a|b|rc}N][.postN][.devN]`. -/
def PublicVersion (s : Str) : Prop :=
  ∃ epoch rel pre post dev : Str, s = epoch ++ rel ++ pre ++ post ++ dev ∧
    (epoch = [] ∨ ∃ n, IsNum n ∧ epoch = n ++ py! "!") ∧ Release rel ∧
    (pre = [] ∨ ∃ n, IsNum n ∧ (pre = py! "a" ++ n ∨ pre = py! "b" ++ n ∨ pre = py! "rc" ++ n)) ∧
    (post = [] ∨ ∃ n, IsNum n ∧ post = py! ".post" ++ n) ∧
    (dev = [] ∨ ∃ n, IsNum n ∧ dev = py! ".dev" ++ n)

/-- A PEP 440 local version label: non-empty segments of ASCII letters and digits, separated by dots. -/
inductive LocalVersion : Str → Prop
  | one {w : Str} : w ≠ [] → (∀ c ∈ w, c.isAlphanum = true) → LocalVersion w
  | dot {l w : Str} : LocalVersion l → w ≠ [] → (∀ c ∈ w, c.isAlphanum = true) → LocalVersion (l ++ '.' :: w)

/-- A PEP 440 version identifier: a public version, optionally followed by `+` and a local version label. -/
def IsVersion (s : Str) : Prop := PublicVersion s ∨ ∃ v l, PublicVersion v ∧ LocalVersion l ∧ s = v ++ '+' :: l

/-! ## Outside of a checkout -/

/-- git is not installed, cannot be run, or exits with an error: the first executable found does so. -/
def Fails (env : Env) (root : Str) (args : List Str) : Prop :=
  let bad (s : Spawn) : Prop := s = .osError ∨ ∃ out rc, s = .exited (some out) rc ∧ rc ≠ 0
  if env.win32 then
    bad (env.spawn (py! "git.cmd") args root) ∨ (env.spawn (py! "git.cmd") args root = .notFound ∧
      (env.spawn (py! "git.exe") args root = .notFound ∨ bad (env.spawn (py! "git.exe") args root)))
  else env.spawn (py! "git") args root = .notFound ∨ bad (env.spawn (py! "git") args root)

/-- What the directory name `kalmankit-VERSION` says. -/
def dirVersion (name : Str) : Option Str :=
  if py! "kalmankit-" <+: name then some (name.drop 10) else none

/-- The ref names of `git archive`: ` (REF, REF, ...)`. -/
def decoration (refs : List Str) : Str := py! " (" ++ (py! ", ").intercalate refs ++ py! ")"

/-- A ref name as it occurs in a decoration, e.g. `HEAD -> main` or `tag: v1.0`: not empty, no space at the ends, no comma,
no parenthesis. -/
def IsRef (r : Str) : Prop :=
  r ≠ [] ∧ (∀ c, r.head? = some c ∨ r.getLast? = some c → isSpace c = false) ∧
    ∀ c ∈ r, c ≠ ',' ∧ c ≠ '(' ∧ c ≠ ')'

/-- The names considered: those marked as tags, or all if none is marked. -/
def candidate (refs : List Str) (name : Str) : Prop :=
  (py! "tag: " ++ name) ∈ refs ∨ ((∀ t, (py! "tag: " ++ t) ∉ refs) ∧ name ∈ refs)

/-- `v` followed by a version starting with a digit. -/
def releaseName (name ver : Str) : Prop := name = 'v' :: ver ∧ ∃ c rest, ver = c :: rest ∧ Unicode.isDecimal c = true

end KK.Version
