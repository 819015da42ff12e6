import Verif.Model.Tree
import Mathlib.Algebra.Order.Field.Rat

/-! # Model of the branch and bound program (src/gimpy/examples/BB.py)

The program runs with `layout = 'dot'` and without `coinor.grumpy`, so the branches for the layouts 'bak' and 'ladot' are left
out, and so are the pictures, the timer and the output on the screen.  Numbers are rational numbers.  The solver of linear
programs (`pulp`) is a parameter; it answers 'Infeasible', or 'Optimal' with values for the variables (the region is bounded,
so there are no other cases).  Attributes of the tree that are only drawn (`label`, `obj`, `style`, `fillcolor`, labels of
edges) are left out, except for the label of the edge to a child; `color` is kept.  Every variable is taken to occur in the
problem with a coefficient that is not 0: for another one `pulp` has no value. -/

namespace GiMPy
namespace BB

/-- the names of the nodes: the key 'C', 'I', 'S', 'P', and the numbers of the subproblems -/
inductive Nm | key (s : String) | num (k : Nat)
  deriving DecidableEq

/-- `sense` -/
inductive Sense | le | ge
  deriving DecidableEq

/-- `'<='`, `'>='` -/
def Sense.str : Sense → String
  | .le => "<="
  | .ge => ">="

/-- the relation of a constraint of the linear program -/
inductive Rel | le | ge | eq
  deriving DecidableEq

/-- a linear constraint: terms (coefficient, variable), relation and right-hand side -/
structure Con where
  terms : List (ℚ × String)
  rel : Rel
  rhs : ℚ

/-- an `LpProblem` with `LpMaximize`: the objective and the constraints; the bounds 0 and 1 belong to the variables (94) -/
structure Prob where
  obj : List (ℚ × String)
  cons : List Con

/-- the data: BB.py 75-92; `numCons = len(CONSTRAINTS)`, `mat i j` is `MAT[i][j]` -/
structure Data where
  vars : List String
  numCons : Nat
  obj : String → ℚ
  mat : String → Nat → ℚ
  rhs : Nat → ℚ

/-- `branch_strategy`: BB.py 99-100 -/
inductive Branching | mostFrac | fixed
  deriving DecidableEq

/-- `search_strategy`: BB.py 103-104 -/
inductive Strategy | depthFirst | bestFirst
  deriving DecidableEq

/-- the constants set at the top: BB.py 107-111.  The program puts a constraint `c` into the problem as `LpConstraint(c)`; there
are versions of `pulp` in which this has the relation `=`, whatever the one of `c` is, and `wrapEq` says so. -/
structure Cfg where
  branching : Branching
  strategy : Strategy
  complete : Bool
  wrapEq : Bool

/-- INFINITY: BB.py 116 -/
def INFINITY : ℚ := 9999

/-- what is put into the queue: BB.py 158, 378, 380.  `root` is the tuple `(0, None, None, None, None)`; other tuples never
have the index 0. -/
inductive Item
  | root
  | node (idx parent : Nat) (var : String) (sense : Sense) (rhs : Int)
  deriving DecidableEq

/-- the operations of `blimpy.PriorityQueue` that are used -/
structure BQ (Q : Type) where
  isEmpty : Q → Bool
  push : Q → Item → ℚ → Q
  pop : Q → Option (Item × Q)

/-- the variables of the program; `color` has no value before it is set -/
structure State (Q : Type) where
  t : Tree Nm
  q : Q
  lb : ℚ
  opt : String → ℚ
  color : Option String
  nodeCount : Nat
  iterCount : Nat
  lpCount : Nat

/-- the value of a linear expression -/
def lin (l : List (ℚ × String)) (x : String → ℚ) : ℚ := (l.map fun p => p.1 * x p.2).sum

/-- `lpSum([OBJ[i]*var[i] for i in VARIABLES])`: BB.py 179 -/
def objective (D : Data) : List (ℚ × String) := D.vars.map fun i => (D.obj i, i)

/-- the constraints of the instance: BB.py 180-182 -/
def rows (D : Data) : List Con :=
  (List.range D.numCons).map fun j => ⟨D.vars.map fun i => (D.mat i j, i), .le, D.rhs j⟩

/-- `LpConstraint(lpSum(var[v]) <= r)`: BB.py 190, 192, 200, 202; `var` has the keys VARIABLES -/
def fixCon (D : Data) (C : Cfg) (v : String) (s : Sense) (r : Int) : Except PyErr Con :=
  if v ∈ D.vars then .ok ⟨[(1, v)], if C.wrapEq then .eq else match s with | .le => .le | .ge => .ge, r⟩
  else .error .keyError

/-- one turn of the loop: BB.py 196-204 -/
def nodeCon (D : Data) (C : Cfg) (t : Tree Nm) (pred : Nm) : Except PyErr Con :=
  match t.g.getNodeAttr pred "branch_var", t.g.getNodeAttr pred "rhs", t.g.getNodeAttr pred "sense" with
  | .ok (.str v), .ok (.int r), .ok s => fixCon D C v (if s = .str "<=" then .le else .ge) r
  | .error e, _, _ => .error e
  | _, .error e, _ => .error e
  | _, _, .error e => .error e
  | _, _, _ => .error .typeError

/-- the constraints of the branches above a node: BB.py 194-205; the names are numbers, so `str(pred) == '0'` says that it is
the root -/
def chain (D : Data) (C : Cfg) (t : Tree Nm) : Nat → Nm → Except PyErr (List Con)
  | 0, _ => .error .diverge
  | f + 1, pred =>
    if pred = .num 0 then .ok []
    else match nodeCon D C t pred with
      | .error e => .error e
      | .ok c => match t.g.getNodeAttr pred "parent" with
        | .error e => .error e
        | .ok (.name p) => match chain D C t f p with
          | .error e => .error e
          | .ok l => .ok (c :: l)
        | .ok _ => .error .attributeError

/-- the constraints that fix variables: BB.py 185-205 -/
def branchCons (D : Data) (C : Cfg) (t : Tree Nm) (fuel : Nat) : Item → Except PyErr (List Con)
  | .root => .ok []
  | .node _ parent v s r => match fixCon D C v s r with
    | .error e => .error e
    | .ok c => match chain D C t fuel (.num parent) with
      | .error e => .error e
      | .ok l => .ok (c :: l)

/-- `cur_depth`: BB.py 164-167 -/
def depthOf (t : Tree Nm) : Item → Except PyErr Int
  | .root => .ok 0
  | .node _ parent _ _ _ => match t.g.getNodeAttr (.num parent) "level" with
    | .error e => .error e
    | .ok (.int k) => .ok (k + 1)
    | .ok _ => .error .typeError

/-- `cur_index` -/
def Item.idx : Item → Nat
  | .root => 0
  | .node i _ _ _ _ => i

/-- `integer_solution`: BB.py 233-238 -/
def integral (D : Data) (x : String → ℚ) : Bool := D.vars.all fun i => x i == 0 || x i == 1

/-- `status` -/
inductive Status | sol | infeasible | pruned | leaf | candidate
  deriving DecidableEq

/-- the letter: BB.py 266-284 -/
def Status.str : Status → String
  | .sol => "S"
  | .infeasible => "I"
  | .pruned => "P"
  | .leaf => "L"
  | .candidate => "C"

/-- the colour; a leaf keeps the old value: BB.py 264-286 -/
def Status.color (old : Option String) : Status → Option String
  | .sol => some "lightblue"
  | .infeasible => some "orange"
  | .pruned => some "red"
  | .leaf => old
  | .candidate => some "yellow"

/-- `relax` and the incumbent after the solution of the linear program: BB.py 225-258 -/
def incumbent (D : Data) (res : Option (String → ℚ)) (lb : ℚ) (opt : String → ℚ) : ℚ × (String → ℚ) :=
  match res with
  | none => (lb, opt)
  | some x =>
    if integral D x = true ∧ lin (objective D) x > lb then
      (lin (objective D) x, fun i => if i ∈ D.vars then x i else opt i)
    else (lb, opt)

/-- `relax`: BB.py 225-228, 261-262; `lb` is the bound after the update -/
def relaxOf (D : Data) (C : Cfg) (res : Option (String → ℚ)) (lb : ℚ) : ℚ :=
  if C.complete then lb - 1
  else match res with
    | none => INFINITY
    | some x => lin (objective D) x

/-- the status of the node: BB.py 264-286 -/
def statusOf (D : Data) (C : Cfg) (res : Option (String → ℚ)) (lb : ℚ) (depth : Int) : Status :=
  match res with
  | none => .infeasible
  | some x =>
    if integral D x then .sol
    else if C.complete = false ∧ relaxOf D C res lb ≤ lb then .pruned
    else if depth ≥ D.vars.length then .leaf
    else .candidate

/-- the node of the tree: BB.py 294-299, 315-317, 326-327; `None` is not the name of a parent -/
def addToTree (iter : Nat) (status : Status) (color : String) (it : Item) : TM Nm Unit :=
  if iter = 0 then Tree.addRoot (.num 0) [("status", .str status.str), ("color", .str color)]
  else match it with
    | .root => throw .attributeError
    | .node idx parent v s r => do
      Tree.addChild (.num idx) (.num parent) [("branch_var", .str v), ("sense", .str s.str), ("rhs", .int r),
        ("status", .str status.str), ("color", .str color)]
      Tree.lift (Graph.setEdgeAttr (.num parent) (.num idx) "label" (.str (v ++ s.str ++ toString r)))

/-- `frac`: BB.py 349-350, 359-360 -/
def frac (x : ℚ) : ℚ := min (x - x.floor) (x.ceil - x)

/-- the loop for MOST_FRAC: BB.py 357-363 -/
def mostFrac (x : String → ℚ) : List String → ℚ → Option String → Option String
  | [], _, b => b
  | i :: l, m, b => if frac (x i) > m then mostFrac x l (frac (x i)) (some i) else mostFrac x l m b

/-- `branching_var`: BB.py 345-363 -/
def branchVar (D : Data) (C : Cfg) (x : String → ℚ) : Option String :=
  match C.branching with
  | .fixed => D.vars.find? fun i => decide (frac (x i) > 0)
  | .mostFrac => mostFrac x D.vars (-1) none

/-- `priority`: BB.py 373-376 -/
def priority (C : Cfg) (depth : Int) (relax : ℚ) : ℚ :=
  match C.strategy with
  | .depthFirst => -depth - 1
  | .bestFirst => relax

/-- the two new subproblems: BB.py 377-381; `var[None]` raises KeyError.  The attribute that is set to 'green' has the name that
is the value of `color`; this is done after the two calls of `push`, which do not see the tree. -/
def branch {Q : Type} (B : BQ Q) (D : Data) (C : Cfg) (idx : Nat) (x : String → ℚ) (depth : Int) (relax : ℚ) (color : String)
    (st : State Q) : Except PyErr (State Q) :=
  match branchVar D C x with
  | none => .error .keyError
  | some v =>
    match (Tree.lift (Graph.setNodeAttr (.num idx) color (.str "green"))).run st.t with
    | .error e _ => .error e
    | .ok _ t => .ok { st with
        t := t
        nodeCount := st.nodeCount + 2
        q := B.push (B.push st.q (.node (st.nodeCount + 1) idx v .le (x v).floor) (priority C depth relax))
          (.node (st.nodeCount + 2) idx v .ge (x v).ceil) (priority C depth relax) }

/-- the body of the loop: BB.py 163-381 -/
def step {Q : Type} (B : BQ Q) (D : Data) (solve : Prob → Option (String → ℚ)) (C : Cfg) (fuel : Nat) (it : Item)
    (st : State Q) : Except PyErr (State Q) :=
  match depthOf st.t it with
  | .error e => .error e
  | .ok depth => match branchCons D C st.t fuel it with
    | .error e => .error e
    | .ok cs =>
      let res := solve ⟨objective D, rows D ++ cs⟩
      let inc := incumbent D res st.lb st.opt
      let status := statusOf D C res inc.1 depth
      match status.color st.color with
      | none => .error .unboundLocal
      | some color => match (addToTree st.iterCount status color it).run st.t with
        | .error e _ => .error e
        | .ok _ t =>
          let st' : State Q := { st with t := t, lb := inc.1, opt := inc.2, color := some color, iterCount := st.iterCount + 1, lpCount := st.lpCount + 1 }
          match status, res with
          | .candidate, some x => branch B D C it.idx x depth (relaxOf D C res inc.1) color st'
          | _, _ => .ok st'

/-- the loop: BB.py 161-383 -/
def loop {Q : Type} (B : BQ Q) (D : Data) (solve : Prob → Option (String → ℚ)) (C : Cfg) (inner : Nat) :
    Nat → State Q → Except PyErr (State Q)
  | 0, _ => .error .diverge
  | k + 1, st =>
    if B.isEmpty st.q then .ok st
    else match B.pop st.q with
      | none => .error .indexError
      | some (it, q) => match step B D solve C inner it { st with q := q } with
        | .error e => .error e
        | .ok st => loop B D solve C inner k st

/-- the key: BB.py 60-66 -/
def keyOps : List (Op Nm) :=
  [.addNode (.key "C") [("color", .str "yellow")], .addNode (.key "I") [("color", .str "orange")],
   .addNode (.key "S") [("color", .str "lightblue")], .addNode (.key "P") [("color", .str "red")],
   .addEdge (.key "C") (.key "I") [], .addEdge (.key "I") (.key "S") [], .addEdge (.key "S") (.key "P") []]

/-- the variables before the loop: BB.py 43, 60-66, 119-127, 149-158; `newQ` is the empty queue -/
def start {Q : Type} (B : BQ Q) (newQ : Q) : State Q :=
  { t := ⟨runOps (Graph.init true) keyOps, none⟩
    q := B.push newQ .root INFINITY
    lb := -INFINITY
    opt := fun _ => 0
    color := none
    nodeCount := 1
    iterCount := 0
    lpCount := 0 }

/-- the program -/
def run {Q : Type} (B : BQ Q) (newQ : Q) (D : Data) (solve : Prob → Option (String → ℚ)) (C : Cfg) (fuel : Nat) :
    Except PyErr (State Q) :=
  loop B D solve C fuel fuel (start B newQ)

end BB
end GiMPy
