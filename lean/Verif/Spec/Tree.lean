import Verif.Model.Tree
import Verif.Spec.Walk

/-! # Rooted trees and binary trees, independent of the code -/

namespace GiMPy
variable {N : Type} [DecidableEq N]

/-- `R` is a tree on the nodes `V` with root `r`, all edges pointing away from it -/
structure RootedTree (V : List N) (R : N → N → Prop) (r : N) : Prop where
  root : r ∈ V
  inside : ∀ u v, R u v → u ∈ V ∧ v ∈ V
  root_no_parent : ∀ u, ¬ R u r
  one_parent : ∀ v ∈ V, v ≠ r → ∃! p, R p v
  reach : ∀ v ∈ V, Relation.ReflTransGen R r v
  acyclic : ∀ v, ¬ Relation.TransGen R v v

/-- `out` lists every node reachable from `s` once, each node other than `s` after its parent -/
structure IsTraversal (R : N → N → Prop) (s : N) (out : List N) : Prop where
  nodup : out.Nodup
  all : ∀ v, v ∈ out ↔ Relation.ReflTransGen R s v
  after_parent : ∀ l1 v l2, out = l1 ++ v :: l2 → v ≠ s → ∃ p ∈ l1, R p v

/-- depth-first: right after `v` come all its descendants, before anything else -/
def IsDepthFirst (R : N → N → Prop) (out : List N) : Prop :=
  ∀ l1 v l2, out = l1 ++ v :: l2 → ∃ below rest, l2 = below ++ rest ∧ ∀ w, w ∈ below ↔ Relation.TransGen R v w

/-- breadth-first: a node does not come after a node farther from `s` -/
def IsBreadthFirst (R : N → N → Prop) (s : N) (out : List N) : Prop :=
  out.Pairwise fun v w => ∀ j k, WalkLen R s j v → WalkLen R s k w → j ≤ k

/-- abstract binary trees -/
inductive BTree (N : Type)
  | nil
  | node (l : BTree N) (v : N) (r : BTree N)

namespace BTree

/-- the name of the root -/
def top : BTree N → Option N
  | nil => none
  | node _ v _ => some v

/-- the nodes from left to right -/
def inorder : BTree N → List N
  | nil => []
  | node l v r => l.inorder ++ v :: r.inorder

/-- the node, then the left, then the right subtree -/
def preorder : BTree N → List N
  | nil => []
  | node l v r => v :: (l.preorder ++ r.preorder)

/-- the left, then the right subtree, then the node -/
def postorder : BTree N → List N
  | nil => []
  | node l v r => l.postorder ++ r.postorder ++ [v]

/-- left and right exchanged everywhere -/
def mirror : BTree N → BTree N
  | nil => nil
  | node l v r => node r.mirror v l.mirror

/-- has `p` a left (right) child? -/
def hasChild (left : Bool) (p : N) : BTree N → Bool
  | nil => false
  | node l v r => (decide (v = p) && (if left then l else r).top.isSome) || l.hasChild left p || r.hasChild left p

/-- put a leaf `n` below `p` on the left (right), where there was nothing -/
def insert (left : Bool) (n p : N) : BTree N → BTree N
  | nil => nil
  | node l v r =>
    if v = p then (if left then node (node nil n nil) v r else node l v (node nil n nil))
    else node (l.insert left n p) v (r.insert left n p)

/-- the tree without the subtree of `n` -/
def remove (n : N) : BTree N → BTree N
  | nil => nil
  | node l v r => if v = n then nil else node (l.remove n) v (r.remove n)

/-- has every inner node two children? -/
def full : BTree N → Bool
  | nil => true
  | node nil _ nil => true
  | node nil _ (node _ _ _) => false
  | node (node _ _ _) _ nil => false
  | node (node a b c) _ (node a' b' c') => (node a b c).full && (node a' b' c').full

/-- number of nodes -/
def size : BTree N → Nat
  | nil => 0
  | node l _ r => l.size + r.size + 1

/-- number of levels -/
def height : BTree N → Nat
  | nil => 0
  | node l _ r => max l.height r.height + 1

/-- the fully parenthesised infix form of an expression tree -/
def infixForm (lab : N → Val N) : BTree N → List (BinaryTree.Tok N)
  | nil => []
  | node nil v nil => [.lab (lab v)]
  | node l v r => .op :: (l.infixForm lab ++ .lab (lab v) :: r.infixForm lab) ++ [.cl]

/-- what the operators mean; the quotient by 0 is undefined -/
def arith : BinaryTree.BinOp → Rat → Rat → Option Rat
  | .add, x, y => some (x + y)
  | .sub, x, y => some (x - y)
  | .mul, x, y => some (x * y)
  | .div, x, y => if y = 0 then none else some (x / y)

/-- the value of an expression tree: leaves are numbers, inner nodes operations on two operands -/
def value (lab : N → Val N) (int : Val N → Option Int) (oper : Val N → Option BinaryTree.BinOp) : BTree N → Option Rat
  | nil => none
  | node nil v nil => (int (lab v)).map fun i => (i : Rat)
  | node l v r => match oper (lab v), l.value lab int oper, r.value lab int oper with
    | some f, some x, some y => arith f x y
    | _, _, _ => none

/-- the tree is an arithmetic expression: its leaves are numbers, its inner nodes have an operator and two children -/
def isExpr (lab : N → Val N) (int : Val N → Option Int) (oper : Val N → Option BinaryTree.BinOp) : BTree N → Bool
  | nil => false
  | node nil v nil => (int (lab v)).isSome
  | node l v r => (oper (lab v)).isSome && l.isExpr lab int oper && r.isExpr lab int oper

/-- the subtrees of a tree, other than the tree itself and empty ones, satisfy `P` -/
def Below (P : BTree N → Prop) : BTree N → Prop
  | nil => True
  | node l _ r => (l.top.isSome → P l) ∧ (r.top.isSome → P r) ∧ l.Below P ∧ r.Below P

end BTree
end GiMPy
