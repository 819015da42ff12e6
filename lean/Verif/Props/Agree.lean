import Verif.Props.Kruskal
import Verif.Props.Prim
import Verif.Props.Dfs
import Verif.Props.FloydWarshall
import Verif.Props.LabelCorrecting
import Verif.Props.Simplex
import Verif.Props.Preflow

/-! # C84-C87: different methods for one problem agree -/

namespace GiMPy
open Search Prim Dfs FW LC MaxFlow Simplex
variable {N : Type} [DecidableEq N] {g : Graph N}

/-! ## Minimum spanning trees -/

/-- the order in which the nodes are listed does not matter -/
theorem isSpanTree_perm {adj : N → N → Prop} {V V' : List N} (h : V.Perm V') {T : List (N × N)} (hT : IsSpanTree adj V T) :
    IsSpanTree adj V' T :=
  ⟨fun e he => ⟨(hT.edges e he).1, h.subset (hT.edges e he).2.1, h.subset (hT.edges e he).2.2⟩,
    fun u hu v hv => hT.conn u (h.symm.subset hu) v (h.symm.subset hv), by rw [← h.length_eq]; exact hT.size⟩

theorem minSpanTree_cost {adj : N → N → Prop} {w : N → N → Int} {V V' : List N} (h : V.Perm V') {T T' : List (N × N)}
    (hT : IsMinSpanTree adj w V T) (hT' : IsMinSpanTree adj w V' T') : treeCost w T = treeCost w T' :=
  Int.le_antisymm (hT.least _ (isSpanTree_perm h.symm hT'.tree)) (hT'.least _ (isSpanTree_perm h hT.tree))

variable {Q Q' : Type} {O : QOps N Q} {items : Q → List N} {O' : QOps N Q'} {items' : Q' → List N}

/-- **C84.** On a connected undirected graph with integer costs and no self loops the three methods, each started anywhere and
over any priority queue, find trees of the same total cost. -/
theorem C84_mst_methods_agree (hg : Built g) (hd : g.directed = false) {w : N → N → Int}
    (hw : ∀ u v, g.checkEdge u v = true → g.getEdgeCost u v = .ok (w u v)) (hnl : ∀ v, g.checkEdge v v = false)
    (hconn : ∀ u ∈ g.getNodeList, ∀ v ∈ g.getNodeList, Reach g false u v)
    (hp : LawfulPQ O items) (comp : Option Int) {src : N} (hsrc : src ∈ g.getNodeList) (col : SState N Q)
    (hq : items col.q = []) {fuel : Nat} (hf : fuelBound g false ≤ fuel)
    (hp' : LawfulPQ O' items') {src' : N} (hsrc' : src' ∈ g.getNodeList) {q : Q'} (hq' : items' q = []) {color : N → Color}
    (hcol : ∀ v, color v ≠ .green) {fuel' : Nat} (hf' : g.getNodeList.length < fuel')
    {fuel'' : Nat} (hf'' : g.getNodeList.length ≤ fuel'') :
    ∃ pred st st' F c, search g O .prim false comp none src col fuel = .ok (.pred pred, st) ∧
      mstPrim g O' src' q color fuel' = .ok st' ∧ Kruskal.kruskal g fuel'' = .ok F ∧
      treeCost w (pred.entries.map fun e => (e.2, e.1)) = c ∧ treeCost w (st'.pred.entries.map fun e => (e.2, e.1)) = c ∧
      treeCost w F = c := by
  obtain ⟨pred, st, V, h1, h2, h3, h4⟩ := C12_prim_search hg hd hp hw hnl comp hsrc col hq hf
  obtain ⟨st', V', h5, h6, h7, h8⟩ := C20_mst_prim hg hd hp' hw hnl hsrc' hq' hcol hf'
  obtain ⟨F, R, h9, _, _, _, h10⟩ := C22_kruskal hg hd hw hf''
  have h11 := h10 (List.ne_nil_of_mem hsrc) hconn
  have hV : V.Perm g.getNodeList := (List.perm_ext_iff_of_nodup h2 hg.wf.nodup).2 fun v =>
    (h3 v).trans ⟨fun h => reach_node hg.wf h hsrc, fun h => hconn _ hsrc _ h⟩
  have hV' : V'.Perm g.getNodeList := (List.perm_ext_iff_of_nodup h6 hg.wf.nodup).2 fun v =>
    (h7 v).trans ⟨fun h => reach_node hg.wf h hsrc', fun h => hconn _ hsrc' _ h⟩
  exact ⟨pred, st, st', F, treeCost w F, h1, h5, h9, minSpanTree_cost hV h4 h11, minSpanTree_cost hV' h8 h11, rfl⟩

/-! ## Shortest paths -/

theorem leastCost_unique {R : N → N → Prop} {w : N → N → Int} {u v : N} {c d : Int} (h : IsLeastCost R w u v c)
    (h' : IsLeastCost R w u v d) : c = d := Int.le_antisymm (h.2 _ h'.1) (h'.2 _ h.1)

theorem walkCost_nonneg {R : N → N → Prop} {w : N → N → Int} (h : ∀ u v, R u v → 0 ≤ w u v) {u v : N} {c : Int}
    (hc : WalkCost R w u c v) : 0 ≤ c := by
  induction hc with
  | nil => exact le_refl _
  | snoc _ hr ih => have := h _ _ hr; omega

theorem pathCost_nonneg {R : N → N → Prop} {w : N → N → Int} (h : ∀ u v, R u v → 0 ≤ w u v) {l : List N}
    (hl : l.IsChain R) : 0 ≤ pathCost w l := by
  induction hl with
  | nil => exact le_refl _
  | singleton => exact le_refl _
  | cons_cons hr _ ih => have := h _ _ hr; unfold pathCost; omega

/-- **C85.** On a digraph with non-negative integer costs and no self loops, Dijkstra's method over any priority queue,
`floyd_warshall` and `fifo_label_correcting` (with the comparison of Python 2) find the same distances from the source to
the nodes that can be reached, and the last two find 'infinity' and 'inf' for the same other nodes.  If the graph has no
cycle and every node can be reached from the source, the paths of `acyclic_shortest_path` have these costs too. -/
theorem C85_shortest_path_methods_agree (hg : Built g) (hd : g.directed = true) {w : N → N → Int}
    (hw : ∀ u v, g.checkEdge u v = true → g.getEdgeCost u v = .ok (w u v))
    (hpos : ∀ u v, g.checkEdge u v = true → 0 ≤ w u v) (hnl : ∀ v, g.checkEdge v v = false)
    (hp : LawfulPQ O items) (comp : Option Int) {src : N} (hsrc : src ∈ g.getNodeList) (col : SState N Q)
    (hq : items col.q = []) {fuel : Nat} (hf : fuelBound g false ≤ fuel)
    {fuel' : Nat} (hf' : turns g.getNodeList.length ≤ fuel')
    (st₀ : Dfs.DState N) (hfresh : ∀ v, st₀.disc v = none) {fuel'' : Nat} (hf'' : g.getNodeList.length ≤ fuel'') :
    ∃ pred st fw lc, search g O .dijkstra false comp none src col fuel = .ok (.pred pred, st) ∧
      floydWarshall g = .ok (true, fw) ∧ fifo g py2 src fuel' = .ok (.inl lc) ∧
      (∀ v ∈ g.getNodeList, lc.dist v = fw.dist (src, v) ∧ ∀ c, fw.dist (src, v) = some c → st.prio v = some c) ∧
      ((∀ u, ¬ Relation.TransGen (Step g false) u u) → (∀ v ∈ g.getNodeList, Reach g false src v) →
        ∀ v ∈ g.getNodeList, ∃ l st', acyclicShortestPath g src (some v) st₀ fuel'' = .ok (.path l, st') ∧
          st.prio v = some (pathCost w l)) := by
  obtain ⟨⟨pred, st, h1, _, h3⟩, _, _⟩ := C11_dijkstra hg hp hw hpos hnl comp hsrc col hq hf
  have hst : ∀ u v, Step g false u v → 0 ≤ w u v := fun u v h => hpos u v h
  obtain ⟨b, fw, h4, h5⟩ := C33_floyd_warshall_valid hg hd hw
  have hb : b = true := by
    by_contra hb
    obtain ⟨v, x, hx, hneg⟩ := h5.1 (by simpa using hb)
    have := walkCost_nonneg hst hx
    omega
  subst hb
  obtain ⟨b', fw', h6, h7⟩ := C32_floyd_warshall_exact hg hd hw
  rw [h4] at h6; cases h6
  replace h7 := h7 rfl
  obtain ⟨r, h8, h9⟩ := C39_fifo_partial hg hw hsrc hf'
  cases r with
  | inr c =>
    obtain ⟨⟨_, u, v, ⟨ha, hl, hch⟩, huv⟩, hneg⟩ := h9
    exfalso
    have : 0 ≤ cycleCost w c := by
      unfold cycleCost
      rw [ha]
      have hch' : (c ++ (some u).toList).IsChain (Step g false) := by
        rw [Option.toList_some, List.isChain_append]
        refine ⟨hch, by simp, ?_⟩
        intro x hx y hy
        rw [hl] at hx
        simp at hx hy
        subst hx hy
        exact huv
      exact pathCost_nonneg hst hch'
    omega
  | inl lc =>
    have key : ∀ v ∈ g.getNodeList, lc.dist v = fw.dist (src, v) ∧ ∀ c, fw.dist (src, v) = some c → st.prio v = some c := by
      intro v hv
      have h10 := h7 src hsrc v hv (Or.inr (hnl src))
      have h11 := h9 v
      rcases hx : fw.dist (src, v) with _ | x <;> rcases hy : lc.dist v with _ | y <;> rw [hx] at h10 <;> rw [hy] at h11 <;>
        simp only [] at h10 h11
      · exact ⟨rfl, fun c h => by cases h⟩
      · exact absurd (walk_reach h11.1.1) h10
      · exact absurd (walk_reach h10.1) h11
      · refine ⟨by rw [leastCost_unique h11.1 h10], fun c h => ?_⟩
        cases h
        obtain ⟨c, hc1, hc2⟩ := h3 v (walk_reach h10.1)
        rw [hc1, leastCost_unique hc2 h10]
    refine ⟨pred, st, fw, lc, h1, h4, h8, key, fun hacyc hall v hv => ?_⟩
    obtain ⟨l, st', h10, _, h12⟩ := C19_acyclic_shortest_path hg hd hw hacyc hsrc hall hv st₀ hfresh hf''
    obtain ⟨c, hc1, hc2⟩ := h3 v (hall v hv)
    exact ⟨l, st', h10, by rw [hc1, leastCost_unique hc2 h12]⟩

/-! ## Maximum flow and minimum cut -/

variable {cap : N × N → Int} {sink : N} {has : Q' → N → Bool} {QS : Type} {OS : QOps N QS} {itemsS : QS → List N}

/-- **C86.** On a digraph without antiparallel arcs and with non-negative integer capacities, the value of the flow that
`max_flow` finds is the capacity of a minimum cut; so is the value of the flow of every run of `max_flow_preflowpush` that
returns. -/
theorem C86_max_flow_min_cut {src : N} (hg : Built g) (hd : g.directed = true) (hb : LawfulBag O items) {newQ : Q} (hq : items newQ = [])
    (hc : ∀ u v, (u, v) ∈ g.getEdgeList → g.capOf u v = .ok (cap (u, v))) (hpos : ∀ e ∈ g.getEdgeList, 0 ≤ cap e)
    (hsn : src ∈ g.getNodeList) (htn : sink ∈ g.getNodeList) (hst : src ≠ sink)
    (hanti : ∀ u v, (u, v) ∈ g.getEdgeList → (v, u) ∉ g.getEdgeList) {fuel : Nat} (hf : flowFuel g cap ≤ fuel)
    (hOS : LawfulFIFO OS itemsS) (hOS' : OS.isPQ = false) (col : SState N QS) (hcol : itemsS col.q = [])
    (hs : LawfulSet O' items' has) {newQ' : Q'} (hq' : items' newQ' = []) (algo : Preflow.PAlgo) {fuel' : Nat}
    (hf' : fuelBound g true ≤ fuel') :
    ∃ f S, maxFlow g O newQ src sink fuel = .ok f ∧ IsMinCut g.getEdgeList cap src sink S ∧
      net g.getEdgeList f sink = cutCap g.getEdgeList cap S ∧
      ∀ st, Preflow.preflowPush g OS col O' has newQ' algo src sink fuel' = .ok st →
        net g.getEdgeList st.flow sink = cutCap g.getEdgeList cap S := by
  classical
  obtain ⟨f, h1, h2, S, hS1, hS2, hS3⟩ := loop_ok hg.wf hd hb hc hq hsn hst (inner := fuel)
    (by unfold flowFuel at hf; omega) fuel _ (zero_isFlow hpos src sink) (by
      have : net g.getEdgeList (fun _ => 0) sink = 0 := by simp [net]
      rw [this]; unfold flowFuel at hf; omega)
  have hEV : ∀ e ∈ g.getEdgeList, e.1 ∈ g.getNodeList ∧ e.2 ∈ g.getNodeList := fun e he => hg.wf.endp e.1 e.2 he
  have hval : net g.getEdgeList f sink = cutCap g.getEdgeList cap fun v => decide (S v) := by
    refine flow_eq_cut hg.wf.nodup hEV htn h2 (by simpa using hS1) (by simpa using hS2) ?_ ?_
    · rintro ⟨u, v⟩ he hu hv
      simp only [decide_eq_true_eq, decide_eq_false_iff_not] at hu hv
      have := mt (hS3 u hu v) hv
      unfold Use pot at this
      rw [if_pos he, not_and] at this
      have := this (Or.inl he)
      have := h2.within _ he
      omega
    · rintro ⟨u, v⟩ he hu hv
      simp only [decide_eq_true_eq, decide_eq_false_iff_not] at hu hv
      have := mt (hS3 v hv u) hu
      unfold Use pot at this
      rw [if_neg (hanti u v he), not_and] at this
      have := this (Or.inr he)
      have := h2.within _ he
      omega
  refine ⟨f, fun v => decide (S v), h1, ⟨by simpa using hS1, by simpa using hS2, fun S' hs' ht' => ?_⟩, hval, fun st h => ?_⟩
  · rw [← hval]
    exact flow_le_cut hg.wf.nodup hEV htn h2 hs' ht'
  · obtain ⟨f', h3, h4⟩ := C29_max_flow_agree hg hd hOS hOS' col hcol hs hq' hb hq algo hc hpos hsn htn hst hanti hf' hf
    have h5 : maxFlow g O newQ src sink fuel = .ok f := h1
    rw [h5] at h3; cases h3
    rw [h4 st h, hval]

/-! ## Minimum cost flow -/

/-- **C87.** Two runs of `min_cost_flow` on one problem that return - whatever algorithm, root, pivot rule and queue they
use - say alike that the problem is infeasible or find flows of the same cost. -/
theorem C87_min_cost_methods_agree {cost : N × N → Int} {b : N → Int} {src snk src' snk' : N}
    (P : FlowProblem g cap cost b src snk) (P' : FlowProblem g cap cost b src' snk')
    (hconn : ∀ u ∈ g.getNodeList, ∀ v ∈ g.getNodeList, EConn g.getEdgeList u v)
    (hq : LawfulBag O items) {newQ : Q} (hnew : items newQ = []) (algo : Option FlowAlgo) {root : Option N}
    (hroot : ∀ r, root = some r → r ∈ g.getNodeList) {pv : Option Pivot} (hpv : pv ≠ some .other) (pi : N → Option Int)
    {fuel : Nat} (hf : Enough g cap b fuel) (pivots : Nat)
    (hq' : LawfulBag O' items') {newQ' : Q'} (hnew' : items' newQ' = []) (algo' : Option FlowAlgo) {root' : Option N}
    (hroot' : ∀ r, root' = some r → r ∈ g.getNodeList) {pv' : Option Pivot} (hpv' : pv' ≠ some .other) (pi' : N → Option Int)
    {fuel' : Nat} (hf' : Enough g cap b fuel') (pivots' : Nat) {res res' : Bool} {f f' : N × N → Int} {g₁ g₂ : Graph N}
    (h : minCostFlow g O newQ src snk algo root pv pi fuel pivots = .ok (some (res, f, g₁)))
    (h' : minCostFlow g O' newQ' src' snk' algo' root' pv' pi' fuel' pivots' = .ok (some (res', f', g₂))) :
    res = res' ∧ (res = true → totalCost g.getEdgeList cost f = totalCost g.getEdgeList cost f') := by
  obtain ⟨a1, a2, _⟩ := (C63_min_cost_flow P hq hnew hconn algo hroot hpv pi hf pivots).1 _ _ _ h
  obtain ⟨b1, b2, _⟩ := (C63_min_cost_flow P' hq' hnew' hconn algo' hroot' hpv' pi' hf' pivots').1 _ _ _ h'
  cases res <;> cases res'
  · exact ⟨rfl, fun h => by cases h⟩
  · exact absurd ⟨f', (b1 rfl).feasible⟩ (a2 rfl)
  · exact absurd ⟨f, (a1 rfl).feasible⟩ (b2 rfl)
  · exact ⟨rfl, fun _ => Int.le_antisymm ((a1 rfl).least _ (b1 rfl).feasible) ((b1 rfl).least _ (a1 rfl).feasible)⟩

/-! ## Examples -/

/-- a connected graph with two minimum spanning trees -/
def exSquare : Graph Nat := runOps (Graph.init false) [Op.addEdge 0 1 [("cost", .int 2)], .addEdge 1 2 [("cost", .int 2)],
  .addEdge 2 3 [("cost", .int 2)], .addEdge 3 0 [("cost", .int (-1))], .addEdge 0 2 [("cost", .int 5)]]

/-- non-vacuity of C84: the methods find different trees, all of cost 3 -/
example : predOf (search exSquare pqOps' .prim false none none 1 (exCol ⟨.empty, by decide⟩) 30) =
      some [(0, 1), (2, 1), (3, 0)] ∧
    mstOf (mstPrim exSquare pqOps' 3 ⟨.empty, by decide⟩ (fun _ => .black) 7) = some [(2, 3), (0, 3), (1, 0)] ∧
    (Kruskal.kruskal exSquare 6).toOption = some [(3, 0), (0, 1), (1, 2)] ∧ exSquare.directed = false ∧
    fuelBound exSquare false ≤ 30 := by decide +kernel

/-- non-vacuity of C85: the four methods on a digraph without cycles, from 0 to 3 -/
def exRoads : Graph Nat := runOps (Graph.init true) [Op.addEdge 0 1 [("cost", .int 5)], .addEdge 0 2 [("cost", .int 1)],
  .addEdge 2 1 [("cost", .int 3)], .addEdge 1 3 [("cost", .int 2)], .addEdge 2 3 [("cost", .int 9)]]

example : pathOf (search exRoads pqOps' .dijkstra false none (some 3) 0 (exCol ⟨.empty, by decide⟩) 20) = some [0, 2, 1, 3] ∧
    distsOf [(0, 0), (0, 1), (0, 2), (0, 3)] (floydWarshall exRoads) = some (true, [some 0, some 4, some 1, some 6]) ∧
    (match fifo exRoads py2 0 18 with
      | .ok (.inl st) => some ([0, 1, 2, 3].map st.dist) | _ => none) = some [some 0, some 4, some 1, some 6] ∧
    (match acyclicShortestPath exRoads 0 (some 3) exD 5 with
      | .ok (.path l, _) => some l | _ => none) = some [0, 2, 1, 3] ∧
    fuelBound exRoads false ≤ 20 ∧ turns exRoads.getNodeList.length = 18 ∧
    (∀ e ∈ exRoads.getEdgeList, e.1 ≠ e.2) := by decide +kernel

/-- non-vacuity of C86: in `exP` the arcs 0→2, 1→2 and 1→3 form a minimum cut, of capacity 5 (the hypotheses are checked for
`exP` beside C28) -/
example : cutCap exP.getEdgeList exPCap (fun v => decide (v = 0 ∨ v = 1)) = 5 ∧
    (match maxFlow exP queueOps [] 0 3 40 with | .ok f => some (net exP.getEdgeList f 3) | .error _ => none) = some 5 := by
  decide +kernel

/-- non-vacuity of C87: two algorithms and pivot rules return with a flow of cost 8 -/
example : inScope exNet (fun i => if i = 0 then 2 else if i = 3 then -2 else 0) 8 9 = true ∧
    ([(some .simplex, some 3, some .firstEligible), (none, none, none), (some .cycleCanceling, none, none)].map fun a =>
      match minCostFlow exNet queueOps [] 8 9 a.1 a.2.1 a.2.2 (fun _ => none) 200 20 with
      | .ok (some (r, f, _)) => some (r, totalCost exNet.getEdgeList (netCost exNet) f) | _ => none) =
      [some (true, 8), some (true, 8), some (true, 8)] := by decide +kernel

end GiMPy
