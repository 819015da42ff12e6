import Verif.Model.Tree

/-! # The shared default queue of `traverse`, and what `postordereval` prints (src/gimpy/tree.py)

`def traverse(self, root = None, display = None, q = Stack())` makes the default `Stack` once, when the class is defined
(tree.py 143, 382): all calls without `q`, on all trees, use the same object.  Here its content is part of the state. -/

namespace GiMPy
variable {N : Type} [DecidableEq N]

namespace Tree

/-- the loop of `traverse` over a stack, with the stack it leaves behind: tree.py 171-178; an item is taken off the stack
before its children are looked up -/
def travQ (t : Tree N) : Nat → List (Ref N) → List (Ref N) → Except PyErr (List (Ref N)) × List (Ref N)
  | 0, q, _ => (.error .diverge, q)
  | _ + 1, [], vis => (.ok vis, [])
  | k + 1, cur :: q, vis => match t.childrenOf cur with
    | .error e => (.error e, q)
    | .ok ch => travQ t k ((ch.map .name).reverse ++ q) (vis ++ [cur])

/-- `traverse(root)` without `q`: tree.py 143-178; `q` is the content of the shared stack before the call -/
def traverseQ (t : Tree N) (root : Option N) (fuel : Nat) (q : List (Ref N)) :
    Except PyErr (List (Ref N)) × List (Ref N) :=
  match root, t.root with
  | some r, _ => travQ t fuel (.name r :: q) []
  | none, some r => travQ t fuel (.obj r :: q) []
  | none, none => (.error .keyError, q)

/-- several calls one after the other, on any trees -/
def sharedCalls : List (Tree N × Option N × Nat) → List (Ref N) → List (Except PyErr (List (Ref N))) × List (Ref N)
  | [], q => ([], q)
  | c :: cs, q => ((traverseQ c.1 c.2.1 c.2.2 q).1 :: (sharedCalls cs (traverseQ c.1 c.2.1 c.2.2 q).2).1,
      (sharedCalls cs (traverseQ c.1 c.2.1 c.2.2 q).2).2)

end Tree

namespace BinaryTree
open Tree

/-- the loop of `BinaryTree.traverse` over a stack, with the stack it leaves behind: tree.py 419-430 -/
def btravQ (t : Tree N) (left : Bool) : Nat → List N → List N → Except PyErr (List N) × List N
  | 0, q, _ => (.error .diverge, q)
  | _ + 1, [], vis => (.ok vis, [])
  | k + 1, cur :: q, vis => match kids t left cur with
    | .error e => (.error e, q)
    | .ok ch => btravQ t left k (ch.reverse ++ q) (vis ++ [cur])

/-- `traverse(root, priority=...)` without `q`: tree.py 382-432; `q` is the content of the shared stack before the call -/
def btraverseQ (t : Tree N) (left : Bool) (root : Option N) (fuel : Nat) (q : List N) : Except PyErr (List N) × List N :=
  match root, t.root with
  | some r, _ => btravQ t left fuel (r :: q) []
  | none, some r => btravQ t left fuel (r :: q) []
  | none, none => (.error .attributeError, q)

/-- a call: the tree, the priority, the root and the bound on the steps -/
structure BCall (N : Type) where
  t : Tree N
  left : Bool
  root : Option N
  fuel : Nat

/-- several calls one after the other, on any trees -/
def bsharedCalls : List (BCall N) → List N → List (Except PyErr (List N)) × List N
  | [], q => ([], q)
  | c :: cs, q => ((btraverseQ c.t c.left c.root c.fuel q).1 :: (bsharedCalls cs (btraverseQ c.t c.left c.root c.fuel q).2).1,
      (bsharedCalls cs (btraverseQ c.t c.left c.root c.fuel q).2).2)

/-- what `postordereval` prints: a label, `= result` and a line end, or a result -/
inductive Out (N : Type)
  | lab (l : Val N) | eq (x : Rat) | num (x : Rat)
  deriving DecidableEq

/-- evaluate and print below a child, which is skipped if its name is falsy: tree.py 475-478, 491-492 -/
def outOpt (R : Reading N) (ev : N → List (Out N) × Except PyErr Rat) : Val N → List (Out N) × Except PyErr (Option Rat)
  | .none => ([], .ok none)
  | .name n => if R.truthy n then ((ev n).1, match (ev n).2 with | .ok x => .ok (some x) | .error e => .error e) else ([], .ok none)
  | _ => ([], .error .attributeError)

/-- the end of `postordereval`: tree.py 493-503; only a computed result is printed -/
def outEnd (R : Reading N) (lab : Val N) (r1 r2 : Option Rat) : List (Out N) :=
  match r1, r2 with
  | some a, some b => if a ≠ 0 ∧ b ≠ 0 then (match combine R lab r1 r2 with | .ok x => [.eq x, .num x] | .error _ => []) else []
  | _, _ => []

/-- `postordereval(root)` with its output, which is printed before an exception is raised too: tree.py 465-503 -/
def evalOut (t : Tree N) (R : Reading N) : Nat → N → List (Out N) × Except PyErr Rat
  | 0, _ => ([], .error .diverge)
  | k + 1, v => match getChild t true v with
    | .error e => ([], .error e)
    | .ok c1 => match outOpt R (evalOut t R k) c1 with
      | (o1, .error e) => (o1, .error e)
      | (o1, .ok r1) => match labelOf t v with
        | .error e => (o1, .error e)
        | .ok lab => match getChild t false v with
          | .error e => (o1 ++ [.lab lab], .error e)
          | .ok c2 => match outOpt R (evalOut t R k) c2 with
            | (o2, .error e) => (o1 ++ [.lab lab] ++ o2, .error e)
            | (o2, .ok r2) => (o1 ++ [.lab lab] ++ o2 ++ outEnd R lab r1 r2, combine R lab r1 r2)

end BinaryTree
end GiMPy
