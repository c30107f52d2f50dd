import Verif.Model.Version

/-!
# Model of the parts of `versioneer.py` used by `setup.py`: the version of a distribution

`setup.py` calls `versioneer.get_version()` and installs commands that write `_version.py` into source distributions (`sdist`)
and built packages (`build_py`).  Modelled: how the version is computed at build time, the file that is written, how the build
reads such a file and what importing it yields.  Line numbers refer to `versioneer.py`.

`run_command`, `versions_from_parentdir`, `git_versions_from_keywords`, `git_pieces_from_vcs` and `render` in `versioneer.py` are
the same functions as in `src/kalmankit/_version.py` (see `Verif.Model.Version`).  Simplifications: as in `Verif.Model.Version`;
`get_root` finds the root and `get_config_from_root` reads `[tool.versioneer]` of `pyproject.toml` (l. 75-81 there; the same
settings as in `_version.py`); `json.loads` is modelled for objects whose values are strings, `true`, `false` and `null`.
Whatever is outside of the model (numbers, nested values, lone surrogates, `\x`, `\N`, `\U` and octal escapes, code after the
string literal) is reported as `unmodelled`, and no theorem says anything about it.
-/

namespace KK.Version

/-! ## Values -/

/-- What a version dictionary contains. -/
inductive JVal where
  | null
  | bool (b : Bool)
  | str (s : Str)
  deriving DecidableEq, Repr

/-- A Python `dict`, in the order of insertion. -/
abbrev Dict := List (Str × JVal)

/-- The dictionary written as a structure in `Verif.Model.Version` (keys as in l. 1860-1862), sorted by key. -/
def Versions.toDict (v : Versions) : Dict :=
  let opt : Option Str → JVal := fun o => match o with
    | none => .null
    | some s => .str s
  [(py! "date", opt v.date),
   (py! "dirty", match v.dirty with
    | none => .null
    | some b => .bool b),
   (py! "error", opt v.error),
   (py! "full-revisionid", opt v.full),
   (py! "version", .str v.version)]

/-- How an evaluation ends without a result. -/
inductive Fail where
  | exc (e : Exc)
  | jsonDecodeError
  | syntaxError
  | unmodelled
  deriving DecidableEq, Repr

/-! ## `json.dumps(versions, sort_keys=True, indent=1, separators=(",", ": "))` (l. 1531-1532) -/

/-- A hexadecimal digit. -/
def hexDigit (n : ℕ) : Char := Char.ofNat (if n < 10 then 48 + n else 87 + n)

/-- `'\\u{0:04x}'.format(n)` -/
def uEscape (n : ℕ) : Str :=
  py! "\\u" ++ [hexDigit (n / 4096 % 16), hexDigit (n / 256 % 16), hexDigit (n / 16 % 16), hexDigit (n % 16)]

/-- One character in a JSON string (`ensure_ascii`). -/
def jsonChar (c : Char) : Str :=
  if c = '"' then py! "\\\""
  else if c = '\\' then py! "\\\\"
  else if c = '\n' then py! "\\n"
  else if c = '\r' then py! "\\r"
  else if c = '\t' then py! "\\t"
  else if c.toNat = 12 then py! "\\f"
  else if c.toNat = 8 then py! "\\b"
  else if 32 ≤ c.toNat ∧ c.toNat ≤ 126 then [c]
  else if c.toNat < 0x10000 then uEscape c.toNat
  else uEscape (0xd800 + (c.toNat - 0x10000) / 1024) ++ uEscape (0xdc00 + (c.toNat - 0x10000) % 1024)

/-- A JSON string. -/
def jsonString (s : Str) : Str := '"' :: s.flatMap jsonChar ++ ['"']

/-- A value. -/
def jsonValue : JVal → Str
  | .null => py! "null"
  | .bool true => py! "true"
  | .bool false => py! "false"
  | .str s => jsonString s

/-- One line of the indented object. -/
def jsonItem (kv : Str × JVal) : Str := py! "\n " ++ jsonString kv.1 ++ py! ": " ++ jsonValue kv.2

/-- `json.dumps` of a dictionary, as above (`{}` if it is empty). -/
def dumps (d : Dict) : Str :=
  match d.mergeSort fun a b => decide (a.1 ≤ b.1) with
  | [] => py! "{}"
  | kvs => '{' :: (py! ",").intercalate (kvs.map jsonItem) ++ py! "\n}"

/-! ## `json.loads` -/

/-- Value of a hexadecimal digit. -/
def hexValue (c : Char) : Option ℕ :=
  if 48 ≤ c.toNat ∧ c.toNat ≤ 57 then some (c.toNat - 48)
  else if 97 ≤ c.toNat ∧ c.toNat ≤ 102 then some (c.toNat - 87)
  else if 65 ≤ c.toNat ∧ c.toNat ≤ 70 then some (c.toNat - 55)
  else none

/-- Four hexadecimal digits. -/
def hex4 : Str → Option (ℕ × Str)
  | a :: b :: c :: d :: rest =>
    match hexValue a, hexValue b, hexValue c, hexValue d with
    | some a, some b, some c, some d => some (((a * 16 + b) * 16 + c) * 16 + d, rest)
    | _, _, _, _ => none
  | _ => none

/-- Pieces of a string literal until its end: `unit` reads the next piece (`none`: the end).  The number bounds the pieces. -/
def pieces (unit : Str → Except Fail (Option Str × Str)) : ℕ → Str → Except Fail (Str × Str)
  | 0, _ => .error .unmodelled
  | k + 1, s =>
    match unit s with
    | .error e => .error e
    | .ok (none, rest) => .ok ([], rest)
    | .ok (some p, rest) =>
      match pieces unit k rest with
      | .error e => .error e
      | .ok (q, rest) => .ok (p ++ q, rest)

/-- After `\u` in a JSON string; a pair of surrogates is one character. -/
def jsonU (s : Str) : Except Fail (Option Str × Str) :=
  match hex4 s with
  | none => .error .jsonDecodeError
  | some (n, rest) =>
    if 0xd800 ≤ n ∧ n ≤ 0xdbff ∧ rest.take 2 = py! "\\u" then
      match hex4 (rest.drop 2) with
      | none => .error .jsonDecodeError
      | some (m, rest) =>
        if 0xdc00 ≤ m ∧ m ≤ 0xdfff then
          .ok (some [Char.ofNat (0x10000 + (n - 0xd800) * 1024 + (m - 0xdc00))], rest)
        else .error .unmodelled
    else if 0xd800 ≤ n ∧ n ≤ 0xdfff then .error .unmodelled
    else .ok (some [Char.ofNat n], rest)

/-- After a backslash in a JSON string. -/
def jsonEscape : Str → Except Fail (Option Str × Str)
  | [] => .error .jsonDecodeError
  | c :: rest =>
    if c = '"' ∨ c = '\\' ∨ c = '/' then .ok (some [c], rest)
    else if c = 'n' then .ok (some ['\n'], rest)
    else if c = 'r' then .ok (some ['\r'], rest)
    else if c = 't' then .ok (some ['\t'], rest)
    else if c = 'f' then .ok (some [Char.ofNat 12], rest)
    else if c = 'b' then .ok (some [Char.ofNat 8], rest)
    else if c = 'u' then jsonU rest
    else .error .jsonDecodeError

/-- The next piece of a JSON string, or its end (`strict`: no control characters). -/
def jsonUnit : Str → Except Fail (Option Str × Str)
  | [] => .error .jsonDecodeError
  | c :: rest =>
    if c = '"' then .ok (none, rest)
    else if c = '\\' then jsonEscape rest
    else if c.toNat < 32 then .error .jsonDecodeError
    else .ok (some [c], rest)

/-- A JSON string, after the opening quote. -/
def scanString (s : Str) : Except Fail (Str × Str) := pieces jsonUnit (s.length + 1) s

/-- White space in JSON. -/
def skipWs (s : Str) : Str := s.dropWhile fun c => c = ' ' || c = '\t' || c = '\n' || c = '\r'

/-- A value. -/
def scanValue : Str → Except Fail (JVal × Str)
  | [] => .error .jsonDecodeError
  | c :: rest =>
    if c = '"' then
      match scanString rest with
      | .error e => .error e
      | .ok (s, rest) => .ok (.str s, rest)
    else if startswith (c :: rest) (py! "null") then .ok (.null, rest.drop 3)
    else if startswith (c :: rest) (py! "true") then .ok (.bool true, rest.drop 3)
    else if startswith (c :: rest) (py! "false") then .ok (.bool false, rest.drop 4)
    else if c = '{' ∨ c = '[' ∨ c = '-' ∨ c = 'N' ∨ c = 'I' ∨ (48 ≤ c.toNat ∧ c.toNat ≤ 57) then .error .unmodelled
    else .error .jsonDecodeError

/-- A quoted key, the colon and the value. -/
def scanItem : Str → Except Fail ((Str × JVal) × Str)
  | [] => .error .jsonDecodeError
  | c :: rest =>
    if c = '"' then
      match scanString rest with
      | .error e => .error e
      | .ok (k, rest) =>
        match skipWs rest with
        | [] => .error .jsonDecodeError
        | c :: rest =>
          if c = ':' then
            match scanValue (skipWs rest) with
            | .error e => .error e
            | .ok (v, rest) => .ok ((k, v), rest)
          else .error .jsonDecodeError
    else .error .jsonDecodeError

/-- The members of a non-empty object, after the opening brace and white space.  The number bounds the members. -/
def scanMembers : ℕ → Str → Except Fail (Dict × Str)
  | 0, _ => .error .unmodelled
  | k + 1, s =>
    match scanItem s with
    | .error e => .error e
    | .ok (kv, rest) =>
      match skipWs rest with
      | [] => .error .jsonDecodeError
      | c :: rest =>
        if c = '}' then .ok ([kv], rest)
        else if c = ',' then
          match scanMembers k (skipWs rest) with
          | .error e => .error e
          | .ok (kvs, rest) => .ok (kv :: kvs, rest)
        else .error .jsonDecodeError

/-- `d[k] = v` for one item after the other: a repeated key keeps its place and gets the new value. -/
def insert (d : Dict) (kv : Str × JVal) : Dict :=
  if d.any (·.1 = kv.1) then d.map fun e => if e.1 = kv.1 then (e.1, kv.2) else e else d ++ [kv]

/-- `json.loads(s)` of an object. -/
def loads (s : Str) : Except Fail Dict :=
  match skipWs s with
  | [] => .error .jsonDecodeError
  | c :: rest =>
    if c = '{' then
      if (skipWs rest).head? = some '}' then
        if skipWs ((skipWs rest).drop 1) = [] then .ok [] else .error .jsonDecodeError
      else
        match scanMembers (rest.length + 1) (skipWs rest) with
        | .error e => .error e
        | .ok (kvs, rest) => if skipWs rest = [] then .ok (kvs.foldl insert []) else .error .jsonDecodeError
    else .error .unmodelled

/-! ## The written file (l. 1494-1536) -/

/-- `SHORT_VERSION_PY` (l. 1494-1509) before `%s`. -/
def fileHead : Str := py! "
# This file was generated by 'versioneer.py' (0.29) from
# revision-control system data, or from the parent directory name of an
# unpacked source archive. Distribution tarballs contain a pre-generated copy
# of this file.

import json

version_json = '''
"

/-- `SHORT_VERSION_PY` (l. 1494-1509) after `%s` and the closing quotes. -/
def fileTail : Str := py! "  # END VERSION_JSON


def get_versions():
    return json.loads(version_json)
"

/-- What `write_to_version_file` (l. 1529-1536) writes. -/
def versionFile (d : Dict) : Str := fileHead ++ dumps d ++ py! "\n'''" ++ fileTail

/-! ## Reading it at build time -/

/-- The part of `s` before the last occurrence of `post`. -/
def beforeLast (post : Str) : Str → Option Str
  | [] => if post = [] then some [] else none
  | c :: rest =>
    match beforeLast post rest with
    | some g => some (c :: g)
    | none => if startswith (c :: rest) post then some [] else none

/-- `re.search(pre + "(.*)" + post, s, re.S)`, for literal `pre` and `post`: group 1. -/
def searchBetween (pre post : Str) : Str → Option Str
  | [] => if pre = [] then beforeLast post [] else none
  | c :: rest =>
    if startswith (c :: rest) pre then
      match beforeLast post ((c :: rest).drop pre.length) with
      | some g => some g
      | none => searchBetween pre post rest
    else searchBetween pre post rest

/-- `versions_from_file` (l. 1512-1526), given the contents (`none`: OSError). -/
def versionsFromFile : Option Str → Except Fail Dict
  | none => .error (.exc .notThisMethod)
  | some contents =>
    match searchBetween (py! "version_json = '''\n") (py! "'''  # END VERSION_JSON") contents with
    | some g => loads g
    | none =>
      match searchBetween (py! "version_json = '''\r\n") (py! "'''  # END VERSION_JSON") contents with
      | some g => loads g
      | none => .error (.exc .notThisMethod)

/-- `re.search(r'=\s*"(.*)"', line)`: group 1 (l. 1207, 1211, 1215). -/
def quoted : Str → Option Str
  | [] => none
  | c :: rest =>
    let found := if c = '=' then
        match rest.dropWhile isSpace with
        | d :: s => if d = '"' then beforeLast (py! "\"") s else none
        | [] => none
      else none
    match found with
    | some g => some g
    | none => quoted rest

/-- One line of `git_get_keywords` (l. 1205-1216). -/
def keywordLine (kw : Keywords) (line : Str) : Keywords :=
  let kw := if startswith (strip line) (py! "git_refnames =") then { kw with refnames := quoted line <|> kw.refnames } else kw
  let kw := if startswith (strip line) (py! "git_full =") then { kw with full := quoted line <|> kw.full } else kw
  if startswith (strip line) (py! "git_date =") then { kw with date := quoted line <|> kw.date } else kw

/-- `git_get_keywords` (l. 1195-1219), given the contents of the file (`none`: OSError). -/
def gitGetKeywords : Option Str → Keywords
  | none => ⟨none, none, none⟩
  | some contents => (splitOn '\n' contents).foldl keywordLine ⟨none, none, none⟩

/-- A source tree in which `setup.py` runs: platform, root directory, contents of `src/kalmankit/_version.py` (`none`:
unreadable), and what running a command does. -/
structure Tree where
  win32 : Bool
  root : Str
  contents : Option Str
  spawn : Str → List Str → Str → Spawn

variable [Unicode]

/-- The keywords, the file, git, the parent directory, in this order (`get_versions`, l. 1793-1862). -/
def buildVersions (t : Tree) : Except Fail Dict :=
  match gitVersionsFromKeywords (gitGetKeywords t.contents) tagPrefix with
  | .ok v => .ok v.toDict
  | .error .notThisMethod =>
    match versionsFromFile t.contents with
    | .error (.exc .notThisMethod) =>
      match fromGit ⟨t.win32, unexpanded, none, t.spawn⟩ t.root with
      | .ok v => .ok v.toDict
      | .error e => .error (.exc e)
    | r => r
  | .error e => .error (.exc e)

/-- `_version.py` in a source distribution or a built package made from the tree (`cmd_sdist` l. 2095-2115, `cmd_build_py`
l. 1943-1958: `write_to_version_file(..., get_versions())`). -/
def builtFile (t : Tree) : Except Fail Str :=
  match buildVersions t with
  | .error e => .error e
  | .ok d => .ok (versionFile d)

/-- `versioneer.get_version()` (l. 1869-1871), the version in the metadata of the distribution. -/
def metadataVersion (t : Tree) : Except Fail JVal :=
  match buildVersions t with
  | .error e => .error e
  | .ok d =>
    match d.lookup (py! "version") with
    | some v => .ok v
    | none => .error (.exc .keyError)

/-! ## Importing it -/

/-- After a backslash in a Python string literal. -/
def pyEscape : Str → Except Fail (Option Str × Str)
  | [] => .error .syntaxError
  | c :: rest =>
    if c = '"' ∨ c = '\\' ∨ c = '\'' then .ok (some [c], rest)
    else if c = '\n' then .ok (some [], rest)
    else if c = 'n' then .ok (some ['\n'], rest)
    else if c = 'r' then .ok (some ['\r'], rest)
    else if c = 't' then .ok (some ['\t'], rest)
    else if c = 'f' then .ok (some [Char.ofNat 12], rest)
    else if c = 'b' then .ok (some [Char.ofNat 8], rest)
    else if c = 'a' then .ok (some [Char.ofNat 7], rest)
    else if c = 'v' then .ok (some [Char.ofNat 11], rest)
    else if c = 'u' then
      match hex4 rest with
      | none => .error .syntaxError
      | some (n, rest) => if 0xd800 ≤ n ∧ n ≤ 0xdfff then .error .unmodelled else .ok (some [Char.ofNat n], rest)
    else if c = 'x' ∨ c = 'N' ∨ c = 'U' ∨ (48 ≤ c.toNat ∧ c.toNat ≤ 55) then .error .unmodelled
    else .ok (some ['\\', c], rest)

/-- The next piece of a literal in triple quotes, or its end. -/
def pyUnit : Str → Except Fail (Option Str × Str)
  | [] => .error .syntaxError
  | c :: rest =>
    if startswith (c :: rest) (py! "'''") then .ok (none, rest.drop 2)
    else if c = '\\' then pyEscape rest
    else .ok (some [c], rest)

/-- `get_versions()` of a written `_version.py` (l. 1494-1509): `json.loads` of the value of the string literal. -/
def importedVersions (contents : Str) : Except Fail Dict :=
  if startswith contents fileHead then
    match pieces pyUnit (contents.length + 1) (contents.drop (fileHead.length - 1)) with
    | .error e => .error e
    | .ok (s, rest) => if rest = fileTail then loads s else .error .unmodelled
  else .error .unmodelled

/-- `kalmankit.__version__` of an installed package (`src/kalmankit/__init__.py`, l. 11-14; both calls give the same). -/
def installedVersion (contents : Str) : Except Fail JVal :=
  match importedVersions contents with
  | .error e => .error e
  | .ok d =>
    match d.lookup (py! "version") with
    | some v => .ok v
    | none => .error (.exc .keyError)

end KK.Version
