import Mathlib.Computability.Language

/-! # The regular expressions of src/gimpy/global_constants.py 123-128 as languages -/

namespace GiMPy
namespace Rx

/-- a character class, given by ranges -/
def cls (l : List (Char × Char)) : Language Char := {s | ∃ c, (∃ r ∈ l, r.1 ≤ c ∧ c ≤ r.2) ∧ s = [c]}

/-- one character -/
def lit (c : Char) : Language Char := {[c]}

/-- `.` with the flag `re.S` -/
def any : Language Char := {s | ∃ c, s = [c]}

/-- `L+` -/
def plus (L : Language Char) : Language Char := L * KStar.kstar L

/-- `L$`: the end of the string, or a line end there -/
def dollar (L : Language Char) : Language Char := L + L * lit '\n'

/-- `[_a-zA-Z]` -/
def cFirst : List (Char × Char) := [('_', '_'), ('a', 'z'), ('A', 'Z')]
/-- `[a-zA-Z0-9_,]` -/
def cWord : List (Char × Char) := [('a', 'z'), ('A', 'Z'), ('0', '9'), ('_', '_'), (',', ',')]
/-- `[a-zA-Z0-9_,:"]` -/
def cPort : List (Char × Char) := [('a', 'z'), ('A', 'Z'), ('0', '9'), ('_', '_'), (',', ','), (':', ':'), ('"', '"')]
/-- `[a-zA-Z0-9_,"]` -/
def cLast : List (Char × Char) := [('a', 'z'), ('A', 'Z'), ('0', '9'), ('_', '_'), (',', ','), ('"', '"')]
/-- `[0-9,]` -/
def cNum : List (Char × Char) := [('0', '9'), (',', ',')]

/-- `ID_RE_ALPHA_NUMS`: line 123 -/
def alphaNums : Language Char := dollar (cls cFirst * KStar.kstar (cls cWord))
/-- `ID_RE_ALPHA_NUMS_WITH_PORTS`: line 124 -/
def withPorts : Language Char := dollar (cls cFirst * KStar.kstar (cls cPort) * plus (cls cLast))
/-- `ID_RE_NUM`: line 125 -/
def num : Language Char := dollar (plus (cls cNum))
/-- `ID_RE_DBL_QUOTED`: line 127 -/
def dblQuoted : Language Char := dollar (lit '"' * KStar.kstar any * lit '"')
/-- `ID_RE_HTML`: line 128 -/
def html : Language Char := dollar (lit '<' * KStar.kstar any * lit '>')

/-- `DOT_KEYWORDS`: line 122 -/
def keyword : List String := ["graph", "subgraph", "digraph", "node", "edge", "strict"]

/-- a character outside ASCII or the character 0, and neither quotes nor angle brackets around the string -/
def Foreign (s : List Char) : Prop := (∃ c ∈ s, c.toNat > 127 ∨ c.toNat = 0) ∧ s ∉ dblQuoted ∧ s ∉ html

/-- a string without need of quotes, by the tests before the one for ports -/
def Simple (s : List Char) : Prop :=
  (∃ k ∈ keyword, s = k.toList) ∨
  ¬ Foreign s ∧ (s ∈ alphaNums ∨ s ∈ num ∨ s ∈ dblQuoted ∨ s ∈ html ∨ s ∈ withPorts)

end Rx
end GiMPy
