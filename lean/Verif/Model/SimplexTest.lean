import Verif.Model.Simplex
import Mathlib.Algebra.Order.Ring.Rat

/-! # Model of the comparison of network simplex with an LP solver (src/gimpy/examples/simplex_test.py)

The random numbers are a parameter, the LP solver is a parameter.  The times and the two text files are left out, except for
the values written; so are `get_solution` (27-37), whose result is not used, and the colours and pictures. -/

namespace GiMPy
namespace STest
open Simplex
variable {R : Type} {Q : Type}

/-- the names of the nodes: numbers, and the names 's' and 't' that `find_feasible_flow` adds for a while -/
inductive Nm | num (i : Nat) | s | t
  deriving DecidableEq

/-- the global variables: simplex_test.py 15-21 -/
structure Params where
  capLo : Nat
  capHi : Nat
  costLo : Nat
  costHi : Nat
  demLo : Nat
  demHi : Nat
  demandNodes : Nat
  supplyNodes : Nat
  numNodes : Nat

/-- their values: simplex_test.py 15-21 -/
def params : Params := ⟨10, 20, 30, 50, 10, 15, 3, 2, 6⟩

/-- the module `random`: `coin` is `random() < density`, `int a b` is `randint(a, b)` -/
structure Rand (R : Type) where
  coin : R → Bool × R
  int : Nat → Nat → R → Nat × R

/-- the body of the double loop over the nodes: simplex_test.py 45-54 -/
def arcStep (P : Params) (rnd : Rand R) (i j : Nat) (g : Graph Nm) (r : R) : Except PyErr (Graph Nm × R) :=
  if i = j then .ok (g, r)
  else if (Nm.num i, Nm.num j) ∈ g.getEdgeList then .ok (g, r)
  else if (Nm.num j, Nm.num i) ∈ g.getEdgeList then .ok (g, r)
  else match rnd.coin r with
    | (false, r) => .ok (g, r)
    | (true, r) =>
      let (cap, r) := rnd.int P.capLo P.capHi r
      let (cos, r) := rnd.int P.costLo P.costHi r
      match g.call (.addEdge (.num i) (.num j) [("cost", .int cos), ("capacity", .int cap)]) with
      | .error e => .error e
      | .ok g => .ok (g, r)

/-- the double loop: simplex_test.py 43-54 -/
def arcLoop (P : Params) (rnd : Rand R) : List (Nat × Nat) → Graph Nm → R → Except PyErr (Graph Nm × R)
  | [], g, r => .ok (g, r)
  | (i, j) :: l, g, r => match arcStep P rnd i j g r with
    | .error e => .error e
    | .ok (g, r) => arcLoop P rnd l g r

/-- the pairs of the double loop: simplex_test.py 43-44 -/
def pairs (n : Nat) : List (Nat × Nat) := (List.range n).flatMap fun i => (List.range n).map fun j => (i, j)

/-- the while loops that choose `count` nodes, none of them in `excl`: simplex_test.py 58-62, 65-69 -/
def pick (P : Params) (rnd : Rand R) (excl : List Nat) (count : Nat) : Nat → List Nat → R → Except PyErr (List Nat × R)
  | 0, _, _ => .error .diverge
  | k + 1, l, r =>
    if l.length < count then
      let (n, r) := rnd.int 0 (P.numNodes - 1) r
      if n ∈ excl ∨ n ∈ l then pick P rnd excl count k l r else pick P rnd excl count k (l ++ [n]) r
    else .ok (l, r)

/-- the amounts: simplex_test.py 72-74, 77-79 -/
def amounts (P : Params) (rnd : Rand R) : List Nat → R → List (Nat × Nat) × R
  | [], r => ([], r)
  | n :: l, r =>
    let (x, r) := rnd.int P.demLo P.demHi r
    let (d, r) := amounts P rnd l r
    ((n, x) :: d, r)

/-- `total_demand`, `total_supply`: simplex_test.py 71-79 -/
def total (d : List (Nat × Nat)) : Nat := (d.map Prod.snd).sum

/-- `for n in d: d[n] += excess; break`: simplex_test.py 82-85, 87-90 -/
def addFirst (x : Nat) : List (Nat × Nat) → List (Nat × Nat)
  | [] => []
  | (n, a) :: l => (n, a + x) :: l

/-- the adjustment of the amounts: simplex_test.py 80-90 -/
def balance (d s : List (Nat × Nat)) : List (Nat × Nat) × List (Nat × Nat) :=
  if total s < total d then (d, addFirst (total d - total s) s)
  else if total d < total s then (addFirst (total s - total d) d, s)
  else (d, s)

/-- the value of the attribute `demand`: simplex_test.py 93-98 -/
def demandVal (d s : List (Nat × Nat)) : Nm → Int
  | .num n => match d.find? fun x => decide (x.1 = n) with
    | some x => -1 * (x.2 : Int)
    | none => match s.find? fun x => decide (x.1 = n) with
      | some x => x.2
      | none => 0
  | _ => 0

/-- the loop over the nodes: simplex_test.py 92-98 -/
def setDemands (d s : List (Nat × Nat)) : List Nm → Graph Nm → Except PyErr (Graph Nm)
  | [], g => .ok g
  | n :: l, g => match g.call (.setNodeAttr n "demand" (.int (demandVal d s n))) with
    | .error e => .error e
    | .ok g => setDemands d s l g

/-- `generate_graph`: simplex_test.py 39-99; `r` is the state of the generator after `seed(seed_i)` -/
def generate (P : Params) (rnd : Rand R) (r : R) (fuel : Nat) :
    Except PyErr (Graph Nm × List (Nat × Nat) × List (Nat × Nat)) :=
  match arcLoop P rnd (pairs P.numNodes) (Graph.init true) r with
  | .error e => .error e
  | .ok (g, r) => match pick P rnd [] P.demandNodes fuel [] r with
    | .error e => .error e
    | .ok (dn, r) => match pick P rnd dn P.supplyNodes fuel [] r with
      | .error e => .error e
      | .ok (sn, r) =>
        let (d, r) := amounts P rnd dn r
        let (s, _) := amounts P rnd sn r
        let (d, s) := balance d s
        match setDemands d s g.getNodeList g with
        | .error e => .error e
        | .ok g => .ok (g, d, s)

section
variable {N : Type} [DecidableEq N]

/-- `get_obj_value`: simplex_test.py 101-108 -/
def objValue (g : Graph N) (f : N × N → Int) : List (N × N) → Except PyErr Int
  | [] => .ok 0
  | e :: l => match g.getEdgeCost e.1 e.2 with
    | .error x => .error x
    | .ok c => match g.flowOf f e.1 e.2 with
      | .error x => .error x
      | .ok fl => match objValue g f l with
        | .error x => .error x
        | .ok s => .ok (c * fl + s)

/-- a linear program: variables with upper bounds (the lower bound is 0) and coefficients in the objective; rows with the
variables counted with 1, those counted with -1, and the right hand side -/
structure Program (N : Type) where
  cols : List ((N × N) × Int × Int)
  rows : List (List (N × N) × List (N × N) × Int)
  deriving DecidableEq

/-- capacities and costs of the variables: simplex_test.py 118-120, 123-126 -/
def columns (g : Graph N) : List (N × N) → Except PyErr (List ((N × N) × Int × Int))
  | [] => .ok []
  | e :: l => match g.getEdgeAttr e.1 e.2 "capacity" with
    | .error x => .error x
    | .ok (.int c) => match g.getEdgeCost e.1 e.2 with
      | .error x => .error x
      | .ok w => match columns g l with
        | .error x => .error x
        | .ok d => .ok ((e, c, w) :: d)
    | .ok _ => .error .typeError

/-- the constraints: simplex_test.py 121-122, 129-133; a variable that is not in `x` is a KeyError -/
def rowsOf (g : Graph N) : List N → Except PyErr (List (List (N × N) × List (N × N) × Int))
  | [] => .ok []
  | i :: l => match MinCost.demandOf g i with
    | .error x => .error x
    | .ok b => match g.getNeighbors i with
      | .error x => .error x
      | .ok out => match g.getInNeighbors i with
        | .error x => .error x
        | .ok inn =>
          let o := out.map fun j => (i, j)
          let n := inn.map fun j => (j, i)
          if ∀ e ∈ o ++ n, e ∈ g.getEdgeList then match rowsOf g l with
            | .error x => .error x
            | .ok r => .ok ((o, n, b) :: r)
          else .error .keyError

/-- the linear program of `solve`: simplex_test.py 110-133 -/
def program (g : Graph N) : Except PyErr (Program N) :=
  match columns g g.getEdgeList with
  | .error x => .error x
  | .ok c => match rowsOf g g.getNodeList with
    | .error x => .error x
    | .ok r => .ok ⟨c, r⟩

/-- one pivot of the method `network_simplex` of `mGraph`: like `Simplex.pivotOn`, but the arcs are marked before the leaving
arc is removed: simplex_test.py 189-199 -/
def pivotOnM (g t : Graph N) (f : N × N → Int) (ix : Idx N) (k : N × N) (fuel : Nat) :
    Except PyErr (Graph N × (N × N → Int)) :=
  match identify t ix k.1 k.2 fuel with
  | .error e => .error e
  | .ok cycle => match g.flowOf f k.1 k.2 with
    | .error e => .error e
    | .ok fl => match g.capOf k.1 k.2 with
      | .error e => .error e
      | .ok c =>
        let cycle := if fl = c then cycle.reverse else cycle
        match t.call (.addEdge k.1 k.2 []) with
        | .error e => .error e
        | .ok t => match leaving g t f cycle c with
          | .error e => .error e
          | .ok (p, d) => match markArcs g t f g.getEdgeList with
            | .error e => .error e
            | .ok _ => match pushCycle g t d cycle f with
              | .error e => .error e
              | .ok f => match t.call (.delEdge p.1 p.2) with
                | .error e => .error e
                | .ok t => match stamps g f t.getEdgeList with
                  | .error e => .error e
                  | .ok _ => .ok (t, f)

/-- the body of the main loop: simplex_test.py 186-203 -/
def pivotStepM (g : Graph N) (root : N) (p : Pivot) (st : Simplex.SState N) (fuel : Nat) : Except PyErr (Simplex.SState N) :=
  match entering g st.t st.f st.pi p with
  | .error e => .error e
  | .ok k => match pivotOnM g st.t st.f st.ix k fuel with
    | .error e => .error e
    | .ok (t, f) => refresh g root { st with t := t, f := f } fuel

/-- the main loop: simplex_test.py 181-203 -/
def mainLoopM (g : Graph N) (root : N) (p : Pivot) (inner : Nat) : Nat → Simplex.SState N → Except PyErr (Simplex.SState N)
  | 0, _ => .error .diverge
  | k + 1, st => match optimal g st.t st.f st.pi g.getEdgeList with
    | .error e => .error e
    | .ok true => .ok st
    | .ok false => match pivotStepM g root p st inner with
      | .error e => .error e
      | .ok st => mainLoopM g root p inner k st

/-- from the feasible flow to the main loop: simplex_test.py 169-179 -/
def setupM (g : Graph N) (root : N) (f : N × N → Int) (ix : Idx N) (pi : N → Option Int) (fuel : Nat) :
    Except PyErr (Simplex.SState N) :=
  match findTree g f ix fuel with
  | .error e => .error e
  | .ok (t, f, ix) => match stamps g f t.getEdgeList with
    | .error e => .error e
    | .ok _ => match markArcs g t f g.getEdgeList with
      | .error e => .error e
      | .ok _ => refresh g root ⟨t, f, ix, pi⟩ fuel

/-- the method `network_simplex` of `mGraph`: simplex_test.py 142-204 (the first component of the result); the potentials are
returned too, they stay in the graph -/
def networkSimplexM (g : Graph N) (O : QOps N Q) (newQ : Q) (s t : N) (root : N) (p : Pivot) (pi : N → Option Int)
    (fuel pivots : Nat) : Except PyErr (Bool × (N × N → Int) × Graph N × (N → Option Int)) :=
  match MinCost.feasibleFlow g O newQ s t fuel with
  | .error e => .error e
  | .ok (false, f, g) => .ok (false, f, g, pi)
  | .ok (true, f, g) => match setupM g root f ⟨fun _ => none, fun _ => none, fun _ => none⟩ pi fuel with
    | .error e => .error e
    | .ok st => match mainLoopM g root p fuel pivots st with
      | .error e => .error e
      | .ok st => .ok (true, st.f, g, st.pi)

end

/-- the variables of the script that outlive an iteration, and what is written: for each seed the value found with
'first_eligible', the value of the LP solver, and the value in `dantzig_obj_value` -/
structure MState where
  flag : Option Bool
  dz : Option Int
  lines : List (Nat × Int × Int × Int)
  deriving DecidableEq

/-- what does not change: the parameters, the random numbers, the state of the generator after `seed(i)`, the queue of
`max_flow`, the LP solver (the value of the objective, or None), and the bounds on the loops -/
structure Env (R Q : Type) where
  P : Params
  rnd : Rand R
  start : Nat → R
  O : QOps Nm Q
  newQ : Q
  solver : Program Nm → Option ℚ
  fuel : Nat
  pivots : Nat

/-- one seed: simplex_test.py 215-255.  `int(None)` is a TypeError, `dantzig_obj_value` without a value a NameError (there is one
constructor for NameError and UnboundLocalError). -/
def seedStep (E : Env R Q) (i : Nat) (st : MState) : Except PyErr MState :=
  match generate E.P E.rnd (E.start i) E.fuel with
  | .error e => .error e
  | .ok (g, _, _) =>
    match networkSimplexM g E.O E.newQ .s .t (.num 0) .firstEligible (fun _ => none) E.fuel E.pivots with
    | .error e => .error e
    | .ok (false, _) => .ok st
    | .ok (true, f, g, pi) => match objValue g f g.getEdgeList with
      | .error e => .error e
      | .ok el => match program g with
        | .error e => .error e
        | .ok lp => match E.solver lp with
          | none => .error .typeError
          | some q =>
            let pulp := q.num.tdiv q.den
            match networkSimplexM g E.O E.newQ .s .t (.num 0) .dantzig pi E.fuel E.pivots with
            | .error e => .error e
            | .ok (res, f, g, _) =>
              match (if res then (objValue g f g.getEdgeList).map some else .ok st.dz) with
              | .error e => .error e
              | .ok none => .error .unboundLocal
              | .ok (some dz) => .ok ⟨some (decide (dz = pulp)), some dz, st.lines ++ [(i, el, pulp, dz)]⟩

/-- the loop over the seeds: simplex_test.py 214-255 -/
def seedLoop (E : Env R Q) : List Nat → MState → Except PyErr MState
  | [], st => .ok st
  | i :: l, st => match seedStep E i st with
    | .error e => .error e
    | .ok st => seedLoop E l st

/-- the script: simplex_test.py 206-259 for a list of seeds; whether the message is printed, and the lines -/
def main (E : Env R Q) (seeds : List Nat) : Except PyErr (Bool × List (Nat × Int × Int × Int)) :=
  match seedLoop E seeds ⟨none, none, []⟩ with
  | .error e => .error e
  | .ok st => match st.flag with
    | none => .error .unboundLocal
    | some b => .ok (b, st.lines)

end STest
end GiMPy
