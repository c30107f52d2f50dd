import Verif.Model.Build
import Verif.Spec.Version

/-!
# Source trees and distributions
-/

namespace KK.Version

/-- A string without double quotes, backslashes, control characters, three single quotes in a row and characters beyond the
basic multilingual plane. -/
def Harmless (s : Str) : Prop :=
  (∀ c ∈ s, 32 ≤ c.toNat ∧ c.toNat < 0x10000 ∧ c ≠ '"' ∧ c ≠ '\\') ∧ ¬ py! "'''" <:+: s

/-- A character of the basic multilingual plane that is neither a control character nor a quote or backslash. -/
def Safe (c : Char) : Prop := 32 ≤ c.toNat ∧ c.toNat < 0x10000 ∧ c ≠ '"' ∧ c ≠ '\\' ∧ c ≠ '\''

/-- All strings of the version information are harmless. -/
def Versions.Harmless (v : Versions) : Prop :=
  Version.Harmless v.version ∧ (∀ s, v.full = some s → Version.Harmless s) ∧ (∀ s, v.error = some s → Version.Harmless s) ∧
    ∀ s, v.date = some s → Version.Harmless s

/-- A line that assigns one of the three keywords. -/
def AssignsKeyword (line : Str) : Prop :=
  py! "git_refnames =" <+: line.dropWhile isSpace ∨ py! "git_full =" <+: line.dropWhile isSpace ∨
    py! "git_date =" <+: line.dropWhile isSpace

/-- The text of `src/kalmankit/_version.py` as it is in the repository: lines, three of which assign the keywords (l. 28-30; `git
archive` replaces the values), and no `version_json`. -/
structure LongFile (contents refnames full date : Str) : Prop where
  lines : ∃ before after : List Str,
    contents = (py! "\n").intercalate (before ++ [py! "    git_refnames = \"" ++ refnames ++ py! "\"",
      py! "    git_full = \"" ++ full ++ py! "\"", py! "    git_date = \"" ++ date ++ py! "\""] ++ after) ∧
    ∀ line ∈ before ++ after, '\n' ∉ line ∧ ¬ AssignsKeyword line
  values : ∀ s ∈ [refnames, full, date], ∀ c ∈ s, c ≠ '"' ∧ c ≠ '\\' ∧ c ≠ '\n'
  noJson : ¬ py! "version_json = '''" <:+: contents

variable [Unicode]

/-- `t` is the source tree `t₀`, or an unpacked source distribution made from such a tree, made from such a tree, and so on (the
directory, the machine and what git does there may be anything). -/
inductive Descends (t₀ : Tree) : Tree → Prop
  | refl : Descends t₀ t₀
  | sdist {t t' : Tree} {file : Str} : Descends t₀ t → builtFile t = .ok file → t'.contents = some file → Descends t₀ t'

/-- The tree `t` is the checkout seen by `env` from inside of the package. -/
structure SameCheckout (t : Tree) (env : Env) : Prop where
  win32 : t.win32 = env.win32
  spawn : t.spawn = env.spawn
  file : env.file = some (t.root ++ py! "/src/kalmankit/_version.py")
  rootDir : t.root ≠ [] ∧ t.root.getLast? ≠ some '/'
  keywords : ∃ contents refnames full date, t.contents = some contents ∧ LongFile contents refnames full date ∧
    env.keywords = ⟨some refnames, some full, some date⟩

end KK.Version
