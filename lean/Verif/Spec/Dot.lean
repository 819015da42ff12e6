/-! # The identifiers of the DOT language (https://graphviz.org/doc/info/lang.html), as a scanner

HTML strings are left out. -/

namespace GiMPy
namespace DotSpec

/-- first character of an unquoted name -/
def nameStart (c : Char) : Bool :=
  c == '_' || ('a' ≤ c && c ≤ 'z') || ('A' ≤ c && c ≤ 'Z') || 128 ≤ c.toNat

/-- digit -/
def digit (c : Char) : Bool := '0' ≤ c && c ≤ '9'

/-- later characters of an unquoted name -/
def nameChar (c : Char) : Bool := nameStart c || digit c

/-- the keywords, which are case-independent -/
def keyword (s : List Char) : Bool :=
  s.map Char.toLower ∈ ["graph".toList, "subgraph".toList, "digraph".toList, "node".toList, "edge".toList, "strict".toList]

/-- put a character in front of the value -/
def push (c : Char) : Option (List Char × List Char) → Option (List Char × List Char)
  | some (v, r) => some (c :: v, r)
  | none => none

/-- the rest of a double-quoted string: `\"` stands for a quote, `\\` stays, a backslash before a newline joins lines -/
def scanQuoted : List Char → Option (List Char × List Char)
  | [] => none
  | '"' :: t => some ([], t)
  | '\\' :: '"' :: t => push '"' (scanQuoted t)
  | '\\' :: '\\' :: t => push '\\' (push '\\' (scanQuoted t))
  | '\\' :: '\n' :: t => scanQuoted t
  | c :: t => push c (scanQuoted t)

/-- a numeral without sign: digits, then possibly a point and digits; or a point and digits -/
def scanNum (s : List Char) : List Char × List Char :=
  match s.dropWhile digit with
  | '.' :: t => (s.takeWhile digit ++ '.' :: t.takeWhile digit, t.dropWhile digit)
  | r => (s.takeWhile digit, r)

/-- read one identifier: its value and the rest of the text -/
def scanId : List Char → Option (List Char × List Char)
  | [] => none
  | '"' :: t => scanQuoted t
  | c :: t =>
    if nameStart c then
      if keyword (c :: t.takeWhile nameChar) then none else some (c :: t.takeWhile nameChar, t.dropWhile nameChar)
    else if digit c then some (scanNum (c :: t))
    else none

/-- an unsigned numeral with at least one digit in front: digits, then possibly a point and digits -/
def numeral (s : List Char) : Bool :=
  match s.dropWhile digit with
  | [] => true
  | '.' :: t => t.all digit
  | _ => false

/-- a string that is an identifier of DOT as it stands and means itself: a name that is not a keyword, or a numeral -/
def isId : List Char → Bool
  | [] => false
  | c :: t => (nameStart c && t.all nameChar && !keyword (c :: t)) || (digit c && numeral (c :: t))

end DotSpec
end GiMPy

namespace GiMPy
namespace DotSpec

/-- skip blanks and line ends -/
def skipWs (s : List Char) : List Char := s.dropWhile fun c => c == ' ' || c == '\n'

/-- skip blanks and a comma -/
def comma (s : List Char) : List Char :=
  match skipWs s with
  | ',' :: r => r
  | r => r

/-- the rest of an attribute list `name = value, ...]`; the number bounds the length of the list -/
def scanAttrs : Nat → List Char → Option (List (List Char × List Char) × List Char)
  | 0, _ => none
  | k + 1, s => match skipWs s with
    | ']' :: r => some ([], r)
    | s => match scanId s with
      | none => none
      | some (a, r) => match skipWs r with
        | '=' :: r => match scanId (skipWs r) with
          | none => none
          | some (v, r) => match scanAttrs k (comma r) with
            | none => none
            | some (l, r) => some ((a, v) :: l, r)
        | _ => none

/-- a node or edge statement: the first node, the second node with the kind of edge, the attributes -/
structure Read where
  first : List Char
  second : Option (Bool × List Char)
  attrs : List (List Char × List Char)
  deriving DecidableEq

/-- `-> id` or `-- id`, if present -/
def scanTarget (s : List Char) : Option (Option (Bool × List Char) × List Char) :=
  match skipWs s with
  | '-' :: '>' :: r => match scanId (skipWs r) with
    | some (v, r) => some (some (true, v), r)
    | none => none
  | '-' :: '-' :: r => match scanId (skipWs r) with
    | some (v, r) => some (some (false, v), r)
    | none => none
  | r => some (none, r)

/-- `[ ... ]`, if present -/
def scanAttrPart (k : Nat) (s : List Char) : Option (List (List Char × List Char) × List Char) :=
  match skipWs s with
  | '[' :: r => scanAttrs k r
  | r => some ([], r)

/-- a statement that ends with a semicolon: a node or an edge, or `name = value` -/
inductive Item
  | stmt (r : Read)
  | assign (a v : List Char)
  deriving DecidableEq

/-- the semicolon -/
def scanSemi (i : Item) (s : List Char) : Option (Item × List Char) :=
  match skipWs s with
  | ';' :: r => some (i, r)
  | _ => none

/-- the rest of a node or edge statement that begins with `u` -/
def scanStmt (k : Nat) (u s : List Char) : Option (Item × List Char) :=
  match scanTarget s with
  | none => none
  | some (tgt, r) => match scanAttrPart k r with
    | none => none
    | some (l, r) => scanSemi (.stmt ⟨u, tgt, l⟩) r

/-- read one statement -/
def scanItem (k : Nat) (s : List Char) : Option (Item × List Char) :=
  match scanId (skipWs s) with
  | none => none
  | some (u, r) => match skipWs r with
    | '=' :: r' => match scanId (skipWs r') with
      | none => none
      | some (v, r'') => scanSemi (.assign u v) r''
    | _ => scanStmt k u r

/-- read statements up to the closing brace; the number bounds their number and the lengths of the attribute lists -/
def scanItems (k : Nat) : Nat → List Char → Option (List Item × List Char)
  | 0, _ => none
  | f + 1, s => match skipWs s with
    | '}' :: r => some ([], r)
    | s => match scanItem k s with
      | none => none
      | some (i, r) => match scanItems k f r with
        | none => none
        | some (l, r) => some (i :: l, r)

/-- the rest after a given word -/
def word (w s : List Char) : Option (List Char) := if s.take w.length = w then some (s.drop w.length) else none

/-- the first word, `digraph` or `graph` -/
def scanKind (s : List Char) : Option (Bool × List Char) :=
  match word "digraph".toList s with
  | some r => some (true, r)
  | none => match word "graph".toList s with
    | some r => some (false, r)
    | none => none

/-- the body of a graph -/
def scanBody (k : Nat) (s : List Char) : Option (List Item) :=
  match skipWs s with
  | '{' :: r => match scanItems k k r with
    | none => none
    | some (l, r) => if skipWs r = [] then some l else none
  | _ => none

/-- read a graph without subgraphs: is it directed, its name, its statements -/
def scanGraph (k : Nat) (s : List Char) : Option (Bool × List Char × List Item) :=
  match scanKind (skipWs s) with
  | none => none
  | some (d, r) => match scanId (skipWs r) with
    | none => none
    | some (n, r) => match scanBody k r with
      | none => none
      | some l => some (d, n, l)

end DotSpec
end GiMPy
