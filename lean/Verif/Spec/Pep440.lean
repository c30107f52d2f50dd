import Verif.Spec.Version
import Mathlib.Data.Prod.Lex
import Mathlib.Data.List.Lex
import Mathlib.Order.WithBot

/-!
# PEP 440: the parts of a version and their order

Independent of the model; only `str` primitives are used.
-/

namespace KK.Version

/-- A segment of a local version label: a number, or lower case letters and digits that are not all digits. -/
inductive Seg where
  | num (n : ℕ)
  | word (w : Str)

/-- Kind of a pre-release. -/
inductive PreKind where
  | a | b | rc

/-- The parts of a version `[N!]N(.N)*[{a|b|rc}N][.postN][.devN][+local]`. -/
structure Pep where
  epoch : ℕ
  /-- the first number of the release, -/
  major : ℕ
  /-- and the others -/
  minor : List ℕ
  pre : Option (PreKind × ℕ)
  post : Option ℕ
  dev : Option ℕ
  localLabel : List Seg

namespace Pep

/-- Text of a segment. -/
def segText : Seg → Str
  | .num n => fmtNat n
  | .word w => w

/-- Text of the public part. -/
def publicText (p : Pep) : Str :=
  (if p.epoch = 0 then [] else fmtNat p.epoch ++ py! "!") ++ (fmtNat p.major ++ p.minor.flatMap fun n => '.' :: fmtNat n) ++
    (match p.pre with
      | none => []
      | some (.a, n) => py! "a" ++ fmtNat n
      | some (.b, n) => py! "b" ++ fmtNat n
      | some (.rc, n) => py! "rc" ++ fmtNat n) ++
    (match p.post with
      | none => []
      | some n => py! ".post" ++ fmtNat n) ++
    match p.dev with
      | none => []
      | some n => py! ".dev" ++ fmtNat n

/-- The normal form of the version, as in the file names of distributions. -/
def text (p : Pep) : Str :=
  p.publicText ++ if p.localLabel = [] then [] else '+' :: (py! ".").intercalate (p.localLabel.map segText)

/-- A segment as it should be. -/
def SegOk : Seg → Prop
  | .num _ => True
  | .word w => (∀ c ∈ w, c.isDigit = true ∨ c.isLower = true) ∧ ∃ c ∈ w, c.isLower = true

/-- All segments of the local label are as they should be. -/
def Ok (p : Pep) : Prop := ∀ s ∈ p.localLabel, SegOk s

/-- Trailing zeros of the release do not count. -/
def trim (l : List ℕ) : List ℕ := (l.reverse.dropWhile (· = 0)).reverse

/-- Alpha, beta, candidate. -/
def kind : PreKind → ℕ
  | .a => 0
  | .b => 1
  | .rc => 2

/-- Pre-releases come before the release; a developmental release of the release itself comes before them. -/
def preKey (p : Pep) : WithBot (WithTop (ℕ ×ₗ ℕ)) :=
  match p.pre, p.post, p.dev with
  | some (k, n), _, _ => ((toLex (kind k, n) : ℕ ×ₗ ℕ) : WithTop (ℕ ×ₗ ℕ))
  | none, none, some _ => ⊥
  | none, _, _ => (⊤ : WithTop (ℕ ×ₗ ℕ))

/-- Post-releases come after the release. -/
def postKey (p : Pep) : WithBot ℕ :=
  match p.post with
  | none => ⊥
  | some n => WithBot.some n

/-- Developmental releases come before what they lead to. -/
def devKey (p : Pep) : WithTop ℕ :=
  match p.dev with
  | none => ⊤
  | some n => WithTop.some n

/-- Numbers come after words, numbers are compared as numbers. -/
def segKey : Seg → WithBot ℕ ×ₗ List Char
  | .num n => toLex (WithBot.some n, [])
  | .word w => toLex (⊥, w)

/-- Key of the public part. -/
def publicKey (p : Pep) : ℕ ×ₗ List ℕ ×ₗ WithBot (WithTop (ℕ ×ₗ ℕ)) ×ₗ WithBot ℕ ×ₗ WithTop ℕ :=
  toLex (p.epoch, toLex (trim (p.major :: p.minor), toLex (p.preKey, toLex (p.postKey, p.devKey))))

/-- The version `p` is older than `q` (PEP 440, "Summary of permitted suffixes and relative ordering"; the key is the one of
`packaging.version`). -/
def Older (p q : Pep) : Prop :=
  p.publicKey < q.publicKey ∨
    (p.publicKey = q.publicKey ∧ p.localLabel.map segKey < q.localLabel.map segKey)

end Pep

/-- The segment `gHASH` of a local label. -/
def hashSeg (hash : Str) : Seg := .word ('g' :: hash)

/-- The segment `dirty`, if so. -/
def dirtySegs (dirty : Bool) : List Seg := if dirty then [.word (py! "dirty")] else []

/-- What the styles are documented to mean (docstrings in `_version.py`, l. 452-595), for a tag without local label: the version of
the commit `hash`, `num` commits after the release `p`, possibly with a modified tree (`dirty`), possibly on the branch `master`. -/
def stylePep (style : Str) (p : Pep) (master : Bool) (num : ℕ) (hash : Str) (dirty : Bool) : Pep :=
  if style = py! "pep440-pre" then
    if num = 0 then p else { p with post := some (p.post.elim 0 (· + 1)), dev := some num }
  else if num = 0 ∧ dirty = false then p
  else if style = py! "pep440-branch" then
    { p with dev := if master then none else some 0, localLabel := .num num :: hashSeg hash :: dirtySegs dirty }
  else if style = py! "pep440-post" then
    { p with post := some num, dev := if dirty then some 0 else none, localLabel := [hashSeg hash] }
  else if style = py! "pep440-post-branch" then
    { p with post := some num, dev := if master then none else some 0, localLabel := hashSeg hash :: dirtySegs dirty }
  else if style = py! "pep440-old" then
    { p with post := some num, dev := if dirty then some 0 else none }
  else { p with localLabel := .num num :: hashSeg hash :: dirtySegs dirty }

/-- The same without a tag: the commit `hash` with `num` commits in its history.  They count as coming after the release `0`. -/
def untaggedPep (style : Str) (master : Bool) (num : ℕ) (hash : Str) (dirty : Bool) : Pep :=
  let zero : Pep := ⟨0, 0, [], none, none, none, []⟩
  if style = py! "pep440-pre" then { zero with post := some 0, dev := some num }
  else if style = py! "pep440-branch" then
    { zero with dev := if master then none else some 0,
                localLabel := .word (py! "untagged") :: .num num :: hashSeg hash :: dirtySegs dirty }
  else if style = py! "pep440-post" then
    { zero with post := some num, dev := if dirty then some 0 else none, localLabel := [hashSeg hash] }
  else if style = py! "pep440-post-branch" then
    { zero with post := some num, dev := if master then none else some 0, localLabel := hashSeg hash :: dirtySegs dirty }
  else if style = py! "pep440-old" then
    { zero with post := some num, dev := if dirty then some 0 else none }
  else { zero with localLabel := .word (py! "untagged") :: .num num :: hashSeg hash :: dirtySegs dirty }

end KK.Version
