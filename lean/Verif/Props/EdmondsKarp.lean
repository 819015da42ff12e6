import Verif.Lemmas.EdmondsKarp
import Verif.Props.MaxFlow

/-! # C114: the number of augmentations of `max_flow` with algo 'BFS' -/

namespace GiMPy
open MaxFlow Search
variable {N : Type} [DecidableEq N] {Q : Type} {g : Graph N} {O : QOps N Q} {items : Q → List N}
variable {cap : N × N → Int} {src sink : N}

/-- passes of the outer loop of `max_flow` that are enough with a first-in first-out queue, whatever the capacities -/
def bfsPasses (g : Graph N) : Nat := g.getEdgeList.length * (g.getNodeList.length + 1) + 1

/-- **C114.** `max_flow(source, sink, algo = 'BFS')` ends after at most `|E|·(|V|+1)` augmentations, whatever the
capacities: the outer loop returns in that many passes and one more, each pass needing at most `|V|` rounds of each
inner loop, with a feasible flow.  Antiparallel arcs and self loops are allowed. -/
theorem C114_bfs_passes (hg : Built g) (hd : g.directed = true) (hb : LawfulFIFO O items) {newQ : Q}
    (hq : items newQ = []) (hc : ∀ u v, (u, v) ∈ g.getEdgeList → g.capOf u v = .ok (cap (u, v)))
    (hpos : ∀ e ∈ g.getEdgeList, 0 ≤ cap e) (hs : src ∈ g.getNodeList) (hst : src ≠ sink) :
    ∃ f, loop g O newQ src sink (g.getNodeList.length + 1) (bfsPasses g) (fun _ => 0) = .ok f ∧
      IsFlow g.getEdgeList cap src sink f := by
  obtain ⟨f, h1, h2, _⟩ := loop_fifo hg.wf hd hb hc hq hs hst (inner := g.getNodeList.length + 1) (by omega) (bfsPasses g)
    _ (zero_isFlow hpos src sink) (by unfold bfsPasses; omega)
  exact ⟨f, h1, h2⟩

/-- **C114.** So `max_flow(source, sink, algo = 'BFS')` returns a maximum flow, if there are no antiparallel arcs, with
a bound on all its loops in which the capacities do not occur. -/
theorem C114_bfs_maximum (hg : Built g) (hd : g.directed = true) (hb : LawfulFIFO O items) {newQ : Q}
    (hq : items newQ = []) (hc : ∀ u v, (u, v) ∈ g.getEdgeList → g.capOf u v = .ok (cap (u, v)))
    (hpos : ∀ e ∈ g.getEdgeList, 0 ≤ cap e) (hs : src ∈ g.getNodeList) (ht : sink ∈ g.getNodeList) (hst : src ≠ sink)
    (hanti : ∀ u v, u ≠ v → (u, v) ∈ g.getEdgeList → (v, u) ∉ g.getEdgeList) {fuel : Nat}
    (hf : bfsPasses g + g.getNodeList.length ≤ fuel) :
    ∃ f, maxFlow g O newQ src sink fuel = .ok f ∧ IsMaxFlow g.getEdgeList cap src sink f := by
  obtain ⟨f, h1, h2, S, hS1, hS2, hS3⟩ := loop_fifo hg.wf hd hb hc hq hs hst (inner := fuel)
    (by unfold bfsPasses at hf; omega) fuel _ (zero_isFlow hpos src sink) (by unfold bfsPasses at hf; omega)
  exact ⟨f, h1, closed_max hg ht hanti h2 hS1 hS2 hS3⟩

/-- the textbook diamond, with two arcs of very large capacity on each side of an arc of capacity 1 -/
def diamond (big : Int) : Graph Nat := runOps (Graph.init true)
  ([(0, 1, big), (0, 2, big), (1, 2, 1), (1, 3, big), (2, 3, big), (3, 4, 2 * big)].map fun e =>
    Op.addEdge e.1 e.2.1 [("capacity", .int e.2.2)])

/-- non-vacuity of C114: 37 passes are enough for capacities of 10⁹, where C27 asks for more than 6·10⁹ -/
example : bfsPasses (diamond 1000000000) = 37 ∧ 6000000000 < flowFuel (diamond 1000000000)
      (fun e => if e = (1, 2) then 1 else if e = (3, 4) then 2000000000 else 1000000000) ∧
    LawfulFIFO (queueOps (N := Nat)) id ∧
    flowsOf (diamond 1000000000) (maxFlow (diamond 1000000000) queueOps [] 0 4 42) =
      some [1000000000, 1000000000, 0, 1000000000, 1000000000, 2000000000] ∧
    (∀ e ∈ (diamond 1000000000).getEdgeList, (diamond 1000000000).capOf e.1 e.2 =
      .ok (if e = (1, 2) then 1 else if e = (3, 4) then 2000000000 else 1000000000)) ∧
    (∀ u ∈ (diamond 1000000000).getNodeList, ∀ v ∈ (diamond 1000000000).getNodeList, u ≠ v →
      (u, v) ∈ (diamond 1000000000).getEdgeList → (v, u) ∉ (diamond 1000000000).getEdgeList) :=
  ⟨by decide +kernel, by decide +kernel, queue_lawful, by decide +kernel, by decide +kernel, by decide +kernel⟩

end GiMPy
