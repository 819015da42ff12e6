import Verif.Model.Graph

/-! # Model of `class Tree` and `class BinaryTree` (src/gimpy/tree.py 17-503)

Left out: the display mode and the pictures; printing is modelled by the list of what is printed. -/

namespace GiMPy
variable {N : Type} [DecidableEq N]

/-- a `Tree` object: the underlying digraph and `self.root`, a `Node` object known by its name (tree.py 22-35) -/
structure Tree (N : Type) where
  g : Graph N
  root : Option N

/-- a method call on a tree -/
abbrev TM (N : Type) (α : Type) := EStateM PyErr (Tree N) α

namespace Tree

/-- `Tree()`: tree.py 22-35 -/
def init : Tree N := ⟨Graph.init true, none⟩

/-- a method of the class `Graph` called on a tree -/
def lift (m : GM N Unit) : TM N Unit := fun t =>
  match m t.g with
  | .ok _ g => .ok () { t with g := g }
  | .error e g => .error e { t with g := g }

/-- `get_children`: tree.py 37-48 -/
def getChildren (t : Tree N) (n : N) : Except PyErr (List N) := t.g.getNeighbors n

/-- `get_parent`: tree.py 50-65 -/
def getParent (t : Tree N) (n : N) : Except PyErr (Val N) := t.g.getNodeAttr n "parent"

/-- `add_root`: tree.py 67-82; keyword arguments are a dictionary, in which `attrs['level'] = 0` overrides -/
def addRoot (r : N) (attr : List (String × Val N)) : TM N Unit := do
  lift (Graph.addNode r (attr ++ [("level", .int 0)]))
  modify fun t => { t with root := some r }

/-- `add_child`: tree.py 84-105.  A missing parent is `None.get_attr`, a parent without level `None + 1`. -/
def addChild (n parent : N) (attr : List (String × Val N)) : TM N Unit := do
  let t ← get
  match t.g.getNodeAttr parent "level" with
  | .error e => throw e
  | .ok (.int k) => do
    lift (Graph.addNode n (attr ++ [("level", .int (k + 1)), ("parent", .name parent)]))
    lift (Graph.addEdge parent n [])
  | .ok _ => throw .typeError

/-- an argument `root`, or an item in the queue of a traversal: a node name, or a `Node` object -/
inductive Ref (N : Type)
  | name (n : N)
  | obj (n : N)

/-- `self.neighbors[x]`: a `Node` object is not a key of that dictionary -/
def childrenOf (t : Tree N) : Ref N → Except PyErr (List N)
  | .name n => t.getChildren n
  | .obj _ => .error .keyError

/-- the loop of `traverse`: tree.py 171-178.  The queue is a list with the next item first; with a `Stack` the children
are pushed one by one, so the last one is next.  Returns the nodes in the order in which they are taken out. -/
def travLoop (t : Tree N) (stack : Bool) : Nat → List (Ref N) → List (Ref N) → Except PyErr (List (Ref N))
  | 0, _, _ => .error .diverge
  | _ + 1, [], vis => .ok vis
  | k + 1, cur :: q, vis => match t.childrenOf cur with
    | .error e => .error e
    | .ok ch => travLoop t stack k (if stack then (ch.map .name).reverse ++ q else q ++ ch.map .name) (vis ++ [cur])

/-- `traverse`: tree.py 143-178, and `dfs`, `bfs` 107-141.  If `root` is omitted the `Node` object `self.root` is used
(`None` if there is no root, which is no key either). -/
def traverse (t : Tree N) (stack : Bool) (root : Option N) (fuel : Nat) : Except PyErr (List (Ref N)) :=
  match root, t.root with
  | some r, _ => travLoop t stack fuel [.name r] []
  | none, some r => travLoop t stack fuel [.obj r] []
  | none, none => .error .keyError

end Tree

namespace BinaryTree
open Tree

/-- the node attribute in which a child is stored; `true` is left (tree.py 210-280) -/
def side (left : Bool) : String := if left then "Lchild" else "Rchild"

/-- `get_left_child`, `get_right_child`: tree.py 248-280 -/
def getChild (t : Tree N) (left : Bool) (n : N) : Except PyErr (Val N) := t.g.getNodeAttr n (side left)

/-- `add_left_child`, `add_right_child`: tree.py 210-246 -/
def addChildLR (left : Bool) (n parent : N) (attr : List (String × Val N)) : TM N Unit := do
  let t ← get
  match getChild t left parent with
  | .error e => throw e
  | .ok .none => do
    lift (Graph.setNodeAttr parent (side left) (.name n))
    addChild n parent (attr ++ [("direction", .str (if left then "L" else "R"))])
  | .ok _ => throw .exception

/-- `del_node`: tree.py 282-297; the parent of the root is None, no node -/
def delNode (n : N) : TM N Unit := do
  let t ← get
  match t.g.getNodeAttr n "parent", t.g.getNodeAttr n "direction" with
  | .ok (.name p), .ok d => do
    lift (Graph.setNodeAttr p (side (decide (d ≠ .str "R"))) .none)
    lift (Graph.delNode n)
  | .ok _, _ => throw .attributeError
  | .error e, _ => throw e

/-- the argument `order` of `print_nodes` -/
inductive Order | pre | ino | post
  deriving DecidableEq

/-- `print_nodes` below a child that may be None -/
def printOpt (p : N → Except PyErr (List N)) : Val N → Except PyErr (List N)
  | .none => .ok []
  | .name n => p n
  | _ => .error .attributeError

/-- `print_nodes(order, priority, root)`: tree.py 299-346; `left` is `priority == 'L'` -/
def printNodes (t : Tree N) (o : Order) (left : Bool) : Nat → N → Except PyErr (List N)
  | 0, _ => .error .diverge
  | k + 1, v => match getChild t left v with
    | .error e => .error e
    | .ok c1 => match printOpt (printNodes t o left k) c1 with
      | .error e => .error e
      | .ok l1 => match getChild t (!left) v with
        | .error e => .error e
        | .ok c2 => match printOpt (printNodes t o left k) c2 with
          | .error e => .error e
          | .ok l2 => .ok ((if o = .pre then [v] else []) ++ l1 ++ (if o = .ino then [v] else []) ++ l2 ++
              (if o = .post then [v] else []))

/-- `print_nodes(order, priority)`: the root is `self.root.name` -/
def printAll (t : Tree N) (o : Order) (left : Bool) (fuel : Nat) : Except PyErr (List N) :=
  match t.root with
  | none => .error .attributeError
  | some r => printNodes t o left fuel r

/-- the child, if there is one -/
def kid : Val N → Except PyErr (List N)
  | .none => .ok []
  | .name n => .ok [n]
  | _ => .error .attributeError

/-- `first_child(current)`, then `second_child(current)`: tree.py 423-429 -/
def kids (t : Tree N) (left : Bool) (v : N) : Except PyErr (List N) :=
  match getChild t left v with
  | .error e => .error e
  | .ok c1 => match kid c1 with
    | .error e => .error e
    | .ok l1 => match getChild t (!left) v with
      | .error e => .error e
      | .ok c2 => match kid c2 with
        | .error e => .error e
        | .ok l2 => .ok (l1 ++ l2)

/-- the loop of `BinaryTree.traverse`: tree.py 418-430; `left` is `priority == 'L'` -/
def btravLoop (t : Tree N) (stack left : Bool) : Nat → List N → List N → Except PyErr (List N)
  | 0, _, _ => .error .diverge
  | _ + 1, [], vis => .ok vis
  | k + 1, cur :: q, vis => match kids t left cur with
    | .error e => .error e
    | .ok ch => btravLoop t stack left k (if stack then ch.reverse ++ q else q ++ ch) (vis ++ [cur])

/-- `BinaryTree.traverse`: tree.py 382-432, and `dfs`, `bfs` 348-380.  If `root` is omitted the `Node` object `self.root`
is used, which `get_left_child` and `get_right_child` accept. -/
def btraverse (t : Tree N) (stack left : Bool) (root : Option N) (fuel : Nat) : Except PyErr (List N) :=
  match root, t.root with
  | some r, _ => btravLoop t stack left fuel [r] []
  | none, some r => btravLoop t stack left fuel [r] []
  | none, none => .error .attributeError

/-! ## Expressions -/

/-- the four operators of the dictionary `opers`: tree.py 470-471 -/
inductive BinOp | add | sub | mul | div
  deriving DecidableEq

/-- `operator.add` and so on, over rational numbers: tree.py 470-471 -/
def BinOp.run : BinOp → Rat → Rat → Except PyErr Rat
  | .add, x, y => .ok (x + y)
  | .sub, x, y => .ok (x - y)
  | .mul, x, y => .ok (x * y)
  | .div, x, y => if y = 0 then .error .zeroDivision else .ok (x / y)

/-- what the code asks of names and labels: `bool(name)`, `int(label)`, `opers[label]` -/
structure Reading (N : Type) where
  truthy : N → Bool
  int : Val N → Option Int
  oper : Val N → Option BinOp

/-- the label of a node, or its name: tree.py 445-453, 479-486.  (For the `Node` object `self.root` the code asks whether the
attribute is present instead; a root label that was set to None is left out.) -/
def labelOf (t : Tree N) (v : N) : Except PyErr (Val N) :=
  match t.g.getNodeAttr v "label" with
  | .error e => .error e
  | .ok .none => .ok (.name v)
  | .ok x => .ok x

/-- evaluate below a child, which is skipped if its name is falsy: tree.py 475-478, 491-492 -/
def evalOpt (R : Reading N) (ev : N → Except PyErr Rat) : Val N → Except PyErr (Option Rat)
  | .none => .ok none
  | .name n => if R.truthy n then (match ev n with | .ok x => .ok (some x) | .error e => .error e) else .ok none
  | _ => .error .attributeError

/-- the end of `postordereval`: tree.py 493-503; `if res1 and res2` is false also when one of them is 0 -/
def combine (R : Reading N) (lab : Val N) (r1 r2 : Option Rat) : Except PyErr Rat :=
  match r1, r2 with
  | some a, some b => if a ≠ 0 ∧ b ≠ 0 then (match R.oper lab with | some f => f.run a b | none => .error .keyError)
      else (match R.int lab with | some i => .ok i | none => .error .valueError)
  | _, _ => match R.int lab with | some i => .ok i | none => .error .valueError

/-- `postordereval(root)`: tree.py 465-503, with rational numbers for the floating point results of `/`; for what it
prints see `evalOut` -/
def eval (t : Tree N) (R : Reading N) : Nat → N → Except PyErr Rat
  | 0, _ => .error .diverge
  | k + 1, v => match getChild t true v with
    | .error e => .error e
    | .ok c1 => match evalOpt R (eval t R k) c1 with
      | .error e => .error e
      | .ok r1 => match labelOf t v with
        | .error e => .error e
        | .ok lab => match getChild t false v with
          | .error e => .error e
          | .ok c2 => match evalOpt R (eval t R k) c2 with
            | .error e => .error e
            | .ok r2 => combine R lab r1 r2

/-- what `printexp` prints -/
inductive Tok (N : Type)
  | op | cl | lab (l : Val N)
  deriving DecidableEq

/-- a child is printed if its name is truthy: tree.py 439-444, 458-463 -/
def expOpt (R : Reading N) (pr : N → Except PyErr (List (Tok N))) (f : List (Tok N) → List (Tok N)) :
    Val N → Except PyErr (List (Tok N))
  | .none => .ok []
  | .name n => if R.truthy n then (match pr n with | .ok l => .ok (f l) | .error e => .error e) else .ok []
  | _ => .error .attributeError

/-- `printexp(root)`: tree.py 434-463 -/
def printexp (t : Tree N) (R : Reading N) : Nat → N → Except PyErr (List (Tok N))
  | 0, _ => .error .diverge
  | k + 1, v => match getChild t true v with
    | .error e => .error e
    | .ok c1 => match expOpt R (printexp t R k) (fun l => .op :: l) c1 with
      | .error e => .error e
      | .ok l1 => match labelOf t v with
        | .error e => .error e
        | .ok lab => match getChild t false v with
          | .error e => .error e
          | .ok c2 => match expOpt R (printexp t R k) (fun l => l ++ [.cl]) c2 with
            | .error e => .error e
            | .ok l2 => .ok (l1 ++ [.lab lab] ++ l2)

end BinaryTree
end GiMPy
