import Verif.Model.MaxFlow
import Verif.Model.MinCost

/-! # Model of the forestry example (src/gimpy/examples/forestry.py)

The numbers are parameters (the script draws them, lines 25-27).  The attributes of the graph, which are only drawn, and the
calls of `display` at the end (51-52) are left out. -/

namespace GiMPy
namespace Forestry

/-- the names of the nodes: 'source', 'sink', `year[i]` ('y0', 'y1', ...), `forest[j]` ('f0', 'f1', ...) and the pairs
`(forest[j], year[i])`: forestry.py 29-30, 36-37, 40-41, 43 -/
inductive Nm | source | sink | year (i : Nat) | forest (j : Nat) | prod (j i : Nat)
  deriving DecidableEq

/-- `numYears`, `numForests`, `demand[i]` and `harvest[i][j]`: forestry.py 23-27 -/
structure Data where
  years : Nat
  forests : Nat
  demand : Nat → Int
  harvest : Nat → Nat → Int

/-- the calls for year `i`: forestry.py 36-37 -/
def yearOps (D : Data) (i : Nat) : List (Op Nm) :=
  [.addNode (.year i) [("label", .str ("Total Production\nin Year " ++ toString (i + 1)))],
   .addEdge (.year i) .sink [("capacity", .int (D.demand i))]]

/-- the calls for forest `j` in year `i`: forestry.py 43-46 -/
def prodOps (D : Data) (j i : Nat) : List (Op Nm) :=
  [.addNode (.prod j i) [("label", .str ("Production\nof Forest " ++ toString (j + 1) ++ "\nin Year " ++ toString (i + 1)))],
   .addEdge (.forest j) (.prod j i) [("capacity", .int (D.harvest i j))],
   .addEdge (.prod j i) (.year i) []]

/-- the calls for forest `j`: forestry.py 40-48 -/
def forestOps (D : Data) (j : Nat) : List (Op Nm) :=
  [.addNode (.forest j) [("label", .str ("Forest " ++ toString (j + 1)))], .addEdge .source (.forest j) []] ++
  (List.range D.years).flatMap (prodOps D j) ++
  (List.range (D.years - 1)).map fun i => .addEdge (.prod j i) (.prod j (i + 1)) []

/-- all calls: forestry.py 35-48 -/
def ops (D : Data) : List (Op Nm) :=
  (List.range D.years).flatMap (yearOps D) ++ (List.range D.forests).flatMap (forestOps D)

/-- a list of calls; the first that raises ends it -/
def script {N : Type} [DecidableEq N] (g : Graph N) : List (Op N) → Except PyErr (Graph N)
  | [] => .ok g
  | op :: l => match g.call op with
    | .error e => .error e
    | .ok g' => script g' l

/-- the script: the graph and the flow that `max_flow('source', 'sink')` leaves: forestry.py 32-50 -/
def main {Q : Type} (D : Data) (O : QOps Nm Q) (newQ : Q) (fuel : Nat) : Except PyErr (Graph Nm × (Nm × Nm → Int)) :=
  match script (Graph.init true) (ops D) with
  | .error e => .error e
  | .ok g => match MaxFlow.maxFlow g O newQ .source .sink fuel with
    | .error e => .error e
    | .ok f => .ok (g, f)

end Forestry
end GiMPy
