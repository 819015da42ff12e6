import Verif.Model.Misc

/-! # Model of the DOT output: quoting (src/gimpy/global_constants.py 121-174) and `to_string` (src/gimpy/graph.py 145-165,
598-692)

Strings are lists of characters.  Regular expressions are predicates; `$` also matches before a newline at the end of the
string, as in Python. -/

namespace GiMPy
namespace Dot

/-- `[_a-zA-Z]` -/
def isAlpha (c : Char) : Bool := c == '_' || ('a' ≤ c && c ≤ 'z') || ('A' ≤ c && c ≤ 'Z')

/-- `[0-9]` -/
def isNum (c : Char) : Bool := '0' ≤ c && c ≤ '9'

/-- `[a-zA-Z0-9_,]` -/
def isWord (c : Char) : Bool := isAlpha c || isNum c || c == ','

/-- the meaning of a final `$` -/
def atEnd (p : List Char → Bool) (s : List Char) : Bool := p s || (s.getLast? == some '\n' && p s.dropLast)

/-- `^[_a-zA-Z][a-zA-Z0-9_,]*` -/
def reAlnum : List Char → Bool
  | [] => false
  | c :: t => isAlpha c && t.all isWord

/-- `^[0-9,]+` -/
def reNum (s : List Char) : Bool := !s.isEmpty && s.all fun c => isNum c || c == ','

/-- `^".*"` (`l = r = '"'`) and `^<.*>`: at least two characters, the first and the last given -/
def reBetween (l r : Char) (s : List Char) : Bool := decide (2 ≤ s.length) && s.head? == some l && s.getLast? == some r

/-- `^[_a-zA-Z][a-zA-Z0-9_,:"]*[a-zA-Z0-9_,"]+` -/
def rePorts : List Char → Bool
  | [] => false
  | c :: t => isAlpha c && !t.isEmpty && (t.all fun c => isWord c || c == ':' || c == '"') && !(t.getLast? == some ':')

/-- `DOT_KEYWORDS`: global_constants.py 122 -/
def keywords : List (List Char) :=
  ["graph".toList, "subgraph".toList, "digraph".toList, "node".toList, "edge".toList, "strict".toList]

/-- `ID_RE_DBL_QUOTED.match(s)`, `ID_RE_HTML.match(s)` -/
def dblQuoted (s : List Char) : Bool := atEnd (reBetween '"' '"') s
def html (s : List Char) : Bool := atEnd (reBetween '<' '>') s

/-- `needs_quotes` up to the port test: global_constants.py 164-170 -/
def base (s : List Char) : Option Bool :=
  if s ∈ keywords then some false
  else if (s.any fun c => 127 < c.toNat || c.toNat == 0) && !dblQuoted s && !html s then some true
  else if atEnd reAlnum s || atEnd reNum s || dblQuoted s || html s || atEnd rePorts s then some false
  else none

/-- the two parts of `^([^:]*):([^:]*)$` -/
def splitPort (s : List Char) : Option (List Char × List Char) :=
  if s.count ':' = 1 then some (s.takeWhile (· ≠ ':'), (s.dropWhile (· ≠ ':')).tail) else none

/-- `needs_quotes`: global_constants.py 149-174; the parts contain no colon, so the recursion has depth one -/
def needsQuotes (s : List Char) : Bool :=
  match base s with
  | some b => b
  | none => match splitPort s with
    | some (a, b) => (base a).getD true || (base b).getD true
    | none => true

/-- `s.replace(a, b)` for a single character -/
def replace1 (a : Char) (b s : List Char) : List Char := s.flatMap fun c => if c = a then b else [c]

/-- `s.replace("\\ ", r'\\ ')`: a backslash before a blank is doubled -/
def replaceBs : List Char → List Char
  | '\\' :: ' ' :: t => '\\' :: '\\' :: ' ' :: replaceBs t
  | c :: t => c :: replaceBs t
  | [] => []

/-- the replacements in the order of the dictionary: global_constants.py 139-144 -/
def esc (s : List Char) : List Char :=
  replaceBs (replace1 '\r' ['\\', 'r'] (replace1 '\n' ['\\', 'n'] (replace1 '"' ['\\', '"'] s)))

/-- `quote_if_necessary` of a string: global_constants.py 130-147 -/
def quote (s : List Char) : List Char :=
  if s = [] then s else if needsQuotes s then '"' :: (esc s ++ ['"']) else s

/-! ## to_string -/

variable {N : Type} [DecidableEq N]

/-- `str(x)` of an attribute value, given `str` of node names -/
def strVal (strN : N → List Char) : Val N → List Char
  | .none => "None".toList
  | .bool b => if b then "True".toList else "False".toList
  | .int i => (toString i).toList
  | .str s => s.toList
  | .name n => strN n

/-- `a=quote_if_necessary(str(v)), a=...` without the last comma: graph.py 158-163, 618-624 -/
def attrList (strN : N → List Char) (l : List (String × Val N)) : List Char :=
  [',', ' '].intercalate (l.map fun p => p.1.toList ++ '=' :: quote (strVal strN p.2))

/-- `Node.to_string`: graph.py 145-165 -/
def nodeString (strN : N → List Char) (n : N) (attrs : List (String × Val N)) : List Char :=
  quote (strN n) ++ [' ', '['] ++ attrList strN attrs ++ [']']

/-- `edge_to_string`: graph.py 598-625, for an edge that exists -/
def edgeString (strN : N → List Char) (directed : Bool) (e : N × N) (attrs : List (String × Val N)) : List Char :=
  quote (strN e.1) ++ (if directed then [' ', '-', '>', ' '] else [' ', '-', '-', ' ']) ++ quote (strN e.2) ++
    (if attrs.isEmpty then [] else [' ', ' ', '['] ++ attrList strN attrs ++ [']'])

/-- the statements that `to_string` writes -/
inductive Stmt (N : Type)
  | header | attr (a : String) (v : Val N) | openCluster (c : Val N) | clusterAttr (a : String) (v : Val N)
  | clusterNodeAttrs (l : List (String × Val N)) | node (n : N) | edge (e : N × N) | close
  deriving DecidableEq

/-- the attributes of a cluster: graph.py 655-659; a value that is not a string raises TypeError (a Boolean label is quoted
to a string) -/
def clusterAttrs : List (String × Val N) → Except PyErr (List (Stmt N))
  | [] => .ok []
  | (a, v) :: l =>
    match v with
    | .str _ => match clusterAttrs l with
      | .error e => .error e
      | .ok r => .ok (.clusterAttr a v :: r)
    | .bool _ => if a = "label" then (match clusterAttrs l with
      | .error e => .error e
      | .ok r => .ok (.clusterAttr a v :: r)) else .error .typeError
    | _ => .error .typeError

/-- the default node attributes of a cluster: graph.py 660-667 -/
def clusterNodeAttrs (l : List (String × Val N)) : Except PyErr (List (Stmt N)) :=
  if l.isEmpty then .ok []
  else if l.all fun p => match p.2 with | .str _ => true | _ => false then .ok [.clusterNodeAttrs l]
  else .error .typeError

/-- `self.get_node(n).to_string()` for the nodes of a cluster: graph.py 669-671 -/
def nodeStmts (g : Graph N) : List N → Except PyErr (List (Stmt N))
  | [] => .ok []
  | n :: l => if g.hasNode n then (match nodeStmts g l with
      | .error e => .error e
      | .ok r => .ok (.node n :: r)) else .error .attributeError

/-- the edges of a cluster: graph.py 673-678; `edge_to_string((n,m))` raises KeyError if the edge is stored as `(m,n)` -/
def edgeStmts (g : Graph N) : List (N × N) → Except PyErr (List (Stmt N))
  | [] => .ok []
  | e :: l =>
    if g.checkEdge e.1 e.2 then
      if g.edgeAttr.contains e then (match edgeStmts g l with
        | .error x => .error x
        | .ok r => .ok (.edge e :: r)) else .error .keyError
    else edgeStmts g l

/-- all pairs of the node list: graph.py 673-674 -/
def allPairs (l : List N) : List (N × N) := l.flatMap fun n => l.map fun m => (n, m)

/-- one cluster: graph.py 653-679 -/
def clusterStmts (g : Graph N) (c : Val N) (x : Misc.Cluster N) : Except PyErr (List (Stmt N)) :=
  match clusterAttrs x.attrs.entries with
  | .error e => .error e
  | .ok l1 => match clusterNodeAttrs x.nodeAttrs.entries with
    | .error e => .error e
    | .ok l2 => match nodeStmts g x.nodes with
      | .error e => .error e
      | .ok l3 => match edgeStmts g (allPairs x.nodes) with
        | .error e => .error e
        | .ok l4 => .ok (.openCluster c :: (l1 ++ l2 ++ l3 ++ l4 ++ [.close]))

/-- all clusters: graph.py 653-679 -/
def clustersStmts (g : Graph N) : List (Val N × Misc.Cluster N) → Except PyErr (List (Stmt N))
  | [] => .ok []
  | (c, x) :: l => match clusterStmts g c x with
    | .error e => .error e
    | .ok r => match clustersStmts g l with
      | .error e => .error e
      | .ok r' => .ok (r ++ r')

/-- the keys of `processed_edges`: graph.py 678 -/
def processed (g : Graph N) (cl : List (Val N × Misc.Cluster N)) : List (N × N) :=
  cl.flatMap fun c => (allPairs c.2.nodes).filter fun e => g.checkEdge e.1 e.2

/-- `to_string` as a list of statements: graph.py 627-692; `attrs` are the graph attributes that are in GRAPH_ATTRIBUTES -/
def toStmts (g : Graph N) (attrs : List (String × Val N)) (cl : List (Val N × Misc.Cluster N)) :
    Except PyErr (List (Stmt N)) :=
  match clustersStmts g cl with
  | .error e => .error e
  | .ok r => .ok (.header :: (attrs.map fun p => .attr p.1 p.2) ++ r ++
      (g.getNodeList.filter fun n => !(cl.any fun c => c.2.nodes.contains n)).map .node ++
      (g.getEdgeList.filter fun e => !((processed g cl).contains e)).map .edge ++ [.close])

/-- a graph attribute: graph.py 645-650 -/
def attrString (strN : N → List Char) (a : String) : Val N → List Char
  | .none => a.toList
  | .str s => a.toList ++ '=' :: quote s.toList
  | v => a.toList ++ '=' :: strVal strN v

/-- the text of a statement: graph.py 641, 645-650, 654-667, 671, 677, 679, 687, 690-692.  `name` is `self.name`. -/
def render (strN : N → List Char) (name : List Char) (g : Graph N) : Stmt N → List Char
  | .header => (if g.directed then "digraph ".toList else "graph ".toList) ++ name ++ [' ', '{', '\n']
  | .attr a v => attrString strN a v ++ [';', '\n']
  | .openCluster c => "subgraph cluster_".toList ++ strVal strN c ++ [' ', '{', '\n']
  | .clusterAttr a v => a.toList ++ '=' :: (if a = "label" then quote (strVal strN v) else strVal strN v) ++ [';', '\n']
  | .clusterNodeAttrs l => "node [".toList ++ [','].intercalate (l.map fun p => p.1.toList ++ '=' :: strVal strN p.2) ++
      "];\n".toList
  | .node n => nodeString strN n ((g.nodes.get? n).getD .empty).entries ++ [';', '\n']
  | .edge e => edgeString strN g.directed e ((g.edgeAttr.get? e).getD .empty).entries ++ [';', '\n']
  | .close => ['}', '\n']

/-- `to_string`: graph.py 627-692 -/
def toString (strN : N → List Char) (name : List Char) (g : Graph N) (attrs : List (String × Val N))
    (cl : List (Val N × Misc.Cluster N)) : Except PyErr (List Char) :=
  match toStmts g attrs cl with
  | .error e => .error e
  | .ok l => .ok (l.flatMap (render strN name g))

end Dot
end GiMPy
