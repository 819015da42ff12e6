import Verif.Model.Graph

/-! # Abstract simple graph

A specification of the edit API that knows nothing of adjacency lists or attribute dictionaries:
a list of nodes, a list of edges, and two functions holding the attributes. -/

namespace GiMPy
variable {N : Type} [DecidableEq N]

/-- a simple graph with attributes; `none` means the attribute was never set -/
structure AGraph (N : Type) where
  directed : Bool
  V : List N
  E : List (N × N)
  na : N → String → Option (Val N)
  ea : N × N → String → Option (Val N)

namespace AGraph

/-- the empty graph -/
def empty (d : Bool) : AGraph N := ⟨d, [], [], fun _ _ => none, fun _ _ => none⟩

/-- the orientation under which the edge `{u,v}` (or arc `(u,v)`) is present, if any -/
def key? (a : AGraph N) (u v : N) : Option (N × N) :=
  if (u, v) ∈ a.E then some (u, v)
  else if a.directed then none
  else if (v, u) ∈ a.E then some (v, u) else none

/-- value of the last keyword argument called `s` -/
def kw (attr : List (String × Val N)) (s : String) : Option (Val N) :=
  (attr.reverse.find? (fun p => p.1 = s)).map Prod.snd

/-- point update of a function -/
def upd {A B : Type} [DecidableEq A] (f : A → B) (a : A) (b : B) : A → B := fun x => if x = a then b else f x

/-- add a node without attributes unless present -/
def ensure (a : AGraph N) (n : N) : AGraph N :=
  if n ∈ a.V then a else { a with V := a.V ++ [n], na := upd a.na n fun _ => none }

/-- one edit: the exception (if any) and the new graph; a raising edit changes nothing -/
def step (a : AGraph N) : Op N → Option PyErr × AGraph N
  | .addNode n attr =>
    if n ∈ a.V then (some .multipleNode, a)
    else (none, { a with V := a.V ++ [n], na := upd a.na n (kw attr) })
  | .addEdge u v attr =>
    if (a.key? u v).isSome then (some .multipleEdge, a)
    else (none, { (a.ensure u).ensure v with E := a.E ++ [(u, v)], ea := upd a.ea (u, v) (kw attr) })
  | .delEdge u v =>
    match a.key? u v with
    | none => (some .exception, a)
    | some k => (none, { a with E := a.E.filter (· ≠ k) })
  | .delNode n =>
    if n ∈ a.V then (none, { a with V := a.V.filter (· ≠ n), E := a.E.filter fun e => e.1 ≠ n ∧ e.2 ≠ n })
    else (some .exception, a)
  | .setNodeAttr n s x =>
    if n ∈ a.V then (none, { a with na := upd a.na n (upd (a.na n) s (some x)) }) else (some .attributeError, a)
  | .setEdgeAttr u v s x =>
    match a.key? u v with
    | none => (some .keyError, a)
    | some k => (none, { a with ea := upd a.ea k (upd (a.ea k) s (some x)) })

/-- the outcomes and the final graph of a history -/
def run (a : AGraph N) : List (Op N) → List (Option PyErr) × AGraph N
  | [] => ([], a)
  | op :: ops =>
    let (e, a') := a.step op
    let (es, a'') := a'.run ops
    (e :: es, a'')

/-- what reading a node attribute returns (`None` for an attribute never set) -/
def getNodeAttr (a : AGraph N) (n : N) (s : String) : Except PyErr (Val N) :=
  if n ∈ a.V then .ok ((a.na n s).getD .none) else .error .attributeError

/-- what reading an edge attribute returns -/
def getEdgeAttr (a : AGraph N) (u v : N) (s : String) : Except PyErr (Val N) :=
  match a.key? u v with
  | none => .error .keyError
  | some k => match a.ea k s with | some x => .ok x | none => .error .keyError

end AGraph

/-- The outcomes of a history of calls on the model. -/
def outcomes (g : Graph N) : List (Op N) → List (Option PyErr)
  | [] => []
  | op :: ops => EStateM.Result.err (op.call.run g) :: outcomes (EStateM.Result.state (op.call.run g)) ops

/-- An operation in scope: everything, except `del_node` on an undirected graph (which always raises, see C05). -/
def Op.InScope (directed : Bool) : Op N → Prop
  | .delNode _ => directed = true
  | _ => True

end GiMPy
