import Verif.Spec.Dot

/-! # A reader of DOT graphs with subgraphs of one level (https://graphviz.org/doc/info/lang.html)

An extension of the reader of `Verif.Spec.Dot`: a statement of the graph may also be `subgraph name { ... }`, and a statement
of a subgraph may also be `node [ ... ];`. -/

namespace GiMPy
namespace DotSpec

/-- the rest after a given keyword, which must be a whole word -/
def wholeWord (w s : List Char) : Option (List Char) :=
  if s.takeWhile nameChar = w then some (s.dropWhile nameChar) else none

/-- read statements with a given reader up to the closing brace; the number bounds their number -/
def scanMany {A : Type} (p : List Char → Option (A × List Char)) : Nat → List Char → Option (List A × List Char)
  | 0, _ => none
  | f + 1, s => match skipWs s with
    | '}' :: r => some ([], r)
    | s => match p s with
      | none => none
      | some (a, r) => match scanMany p f r with
        | none => none
        | some (l, r) => some (a :: l, r)

/-- a statement of a subgraph: an item as in the graph, or `node [ ... ];`, the default attributes of nodes -/
inductive SubItem
  | item (i : Item)
  | defaults (l : List (List Char × List Char))
  deriving DecidableEq

/-- the attributes and the semicolon after the word `node` -/
def scanDefaults (k : Nat) (s : List Char) : Option (SubItem × List Char) :=
  match skipWs s with
  | '[' :: r => match scanAttrs k r with
    | none => none
    | some (l, r) => match skipWs r with
      | ';' :: r => some (.defaults l, r)
      | _ => none
  | _ => none

/-- read one statement of a subgraph -/
def scanSubItem (k : Nat) (s : List Char) : Option (SubItem × List Char) :=
  match wholeWord "node".toList (skipWs s) with
  | some r => scanDefaults k r
  | none => match scanItem k s with
    | none => none
    | some (i, r) => some (.item i, r)

/-- a statement of the graph: an item, or a subgraph with its name -/
inductive Top
  | item (i : Item)
  | sub (name : List Char) (l : List SubItem)
  deriving DecidableEq

/-- the name and the body after the word `subgraph` -/
def scanSub (k : Nat) (s : List Char) : Option (Top × List Char) :=
  match scanId (skipWs s) with
  | none => none
  | some (n, r) => match skipWs r with
    | '{' :: r => match scanMany (scanSubItem k) k r with
      | none => none
      | some (l, r) => some (.sub n l, r)
    | _ => none

/-- read one statement of the graph -/
def scanTop (k : Nat) (s : List Char) : Option (Top × List Char) :=
  match wholeWord "subgraph".toList (skipWs s) with
  | some r => scanSub k r
  | none => match scanItem k s with
    | none => none
    | some (i, r) => some (.item i, r)

/-- the body of a graph -/
def scanTops (k : Nat) (s : List Char) : Option (List Top) :=
  match skipWs s with
  | '{' :: r => match scanMany (scanTop k) k r with
    | none => none
    | some (l, r) => if skipWs r = [] then some l else none
  | _ => none

/-- read a graph: is it directed, its name, its statements -/
def scanGraphSub (k : Nat) (s : List Char) : Option (Bool × List Char × List Top) :=
  match scanKind (skipWs s) with
  | none => none
  | some (d, r) => match scanId (skipWs r) with
    | none => none
    | some (n, r) => match scanTops k r with
      | none => none
      | some l => some (d, n, l)

end DotSpec
end GiMPy
