import Verif.Lemmas.SimplexStart
import Verif.Lemmas.ForestSize
import Verif.Props.MinCost

/-! # C38, C60-C63: network simplex and `min_cost_flow` -/

namespace GiMPy
open MinCost MaxFlow Simplex
variable {N : Type} [DecidableEq N] {Q : Type} {g t : Graph N} {O : QOps N Q} {items : Q → List N}
variable {cap cost f : N × N → Int} {b : N → Int} {src snk root : N} {W : List N}
set_option linter.unusedSectionVars false

/-! ## Spanning trees -/

theorem stree_span (hne : W ≠ []) (h : STree g W t) :
    IsSpanTree (fun u v => (u, v) ∈ g.getEdgeList) W t.getEdgeList :=
  ⟨fun e he => ⟨h.tg.sub e he, h.ends e (h.tg.sub e he)⟩, h.conn,
    forest_size h.nodup hne (fun e he => h.ends e (h.tg.sub e he)) h.tg.built.wf.edup h.forest h.conn⟩

/-- a graph on the nodes of `g` whose edges are a spanning tree of `g`: the trees that network simplex works with -/
structure IsTreeOf (g t : Graph N) : Prop where
  built : Built t
  dir : t.directed = true
  nodes : t.getNodeList = g.getNodeList
  span : IsSpanTree (fun u v => (u, v) ∈ g.getEdgeList) g.getNodeList t.getEdgeList

theorem isTreeOf_iff (hn : Netw g cap cost) (hne : g.getNodeList ≠ []) : IsTreeOf g t ↔ STree g g.getNodeList t := by
  constructor
  · intro h
    exact ⟨hn.core, ⟨h.built, h.dir, h.nodes, fun e he => (h.span.edges e he).1⟩, h.span.forest hn.built.wf.nodup, h.span.conn⟩
  · intro h
    exact ⟨h.tg.built, h.tg.dir, h.tg.nodes, stree_span hne h⟩

/-- outside the tree every arc is empty or full -/
def TreeSolution (E : List (N × N)) (cap : N × N → Int) (T : List (N × N)) (f : N × N → Int) : Prop :=
  ∀ e ∈ E, e ∉ T → f e = 0 ∨ f e = cap e

/-! ## C60: the first spanning tree -/

/-- **C60.** Take a connected digraph with nodes, without antiparallel arcs or self loops, with capacities and costs, and a
flow within the bounds.  Then `simplex_find_tree` returns: a spanning tree and a flow within the bounds, of the same net
flow at each node, that is empty or full on every arc outside the tree. -/
theorem C60_find_tree (hn : Netw g cap cost) (hne : g.getNodeList ≠ [])
    (hconn : ∀ u ∈ g.getNodeList, ∀ v ∈ g.getNodeList, EConn g.getEdgeList u v) (hw : Within g.getEdgeList cap f) {B : Nat}
    (hB : ∀ e ∈ g.getEdgeList, cap e ≤ B) (ix : Idx N) {fuel : Nat} (h1 : g.getNodeList.length < fuel)
    (h2 : (g.getEdgeList.length + 1) * (B + 1) ≤ fuel) :
    ∃ t f' ix', findTree g f ix fuel = .ok (t, f', ix') ∧ IsTreeOf g t ∧ TreeSolution g.getEdgeList cap t.getEdgeList f' ∧
      Within g.getEdgeList cap f' ∧ ∀ v, net g.getEdgeList f' v = net g.getEdgeList f v := by
  obtain ⟨t, f', ix', h3, h4, h5, h6, h7⟩ := findTree_ok hn hne hn.core (fun _ h => List.mem_of_mem_head? h) hconn hw hB ix h1 h2
  exact ⟨t, f', ix', h3, (isTreeOf_iff hn hne).2 h4, h5, h6, h7⟩

/-- in a graph without nodes `simplex_find_tree` raises IndexError, for `nl[0]` -/
theorem C60_no_nodes (f : N × N → Int) (ix : Idx N) (fuel : Nat) :
    findTree (Graph.init true) f ix (fuel + 1) = .error .indexError := rfl

/-! ## C61: one pivot -/

/-- **C61.** Take such a digraph, a spanning tree `t` and a flow within the bounds that is empty or full outside the tree,
and let `simplex_search` and `simplex_compute_potentials` run.  If `simplex_optimal` then says no, the body of the main loop
raises nothing, exchanges one arc of the tree for one outside (possibly the same), and leaves a flow within the bounds with
the same net flows, empty or full outside the new tree, that is cheaper or the same. -/
theorem C61_pivot (hn : Netw g cap cost) (hroot : root ∈ g.getNodeList) (ht : IsTreeOf g t) (hw : Within g.getEdgeList cap f)
    (hb : TreeSolution g.getEdgeList cap t.getEdgeList f) {pv : Pivot} (hpv : pv ≠ .other) (ix : Idx N) (pi : N → Option Int)
    {fuel : Nat} (hf : 2 * g.getNodeList.length ≤ fuel) :
    ∃ st, refresh g root ⟨t, f, ix, pi⟩ fuel = .ok st ∧ st.t = t ∧ st.f = f ∧
      (optimal g t f st.pi g.getEdgeList = .ok true ∨ optimal g t f st.pi g.getEdgeList = .ok false) ∧
      (optimal g t f st.pi g.getEdgeList = .ok false → ∃ st' enter out, pivotStep g root pv st fuel = .ok st' ∧
        IsTreeOf g st'.t ∧ enter ∈ g.getEdgeList ∧ enter ∉ t.getEdgeList ∧ out ∈ t.getEdgeList ++ [enter] ∧
        (∀ e, e ∈ st'.t.getEdgeList ↔ (e ∈ t.getEdgeList ∨ e = enter) ∧ e ≠ out) ∧
        Within g.getEdgeList cap st'.f ∧ TreeSolution g.getEdgeList cap st'.t.getEdgeList st'.f ∧
        (∀ v, net g.getEdgeList st'.f v = net g.getEdgeList f v) ∧
        (totalCost g.getEdgeList cost st'.f < totalCost g.getEdgeList cost f ∨ ∀ e ∈ g.getEdgeList, st'.f e = f e)) := by
  have hne : g.getNodeList ≠ [] := List.ne_nil_of_mem hroot
  have hpos := List.length_pos_of_mem hroot
  have hst := (isTreeOf_iff hn hne).1 ht
  obtain ⟨ix2, pi2, p, seq, h1, h2, h3, hall⟩ := refresh_ok hn hroot (st := ⟨t, f, ix, pi⟩) hst (fuel := fuel) (by omega)
  refine ⟨⟨t, f, ix2, pi2⟩, h1, rfl, rfl, ?_, ?_⟩
  · show optimal g t f pi2 _ = _ ∨ optimal g t f pi2 _ = _
    rw [optimal_ok hn h3.val _ fun e he => he]
    cases (violL t cap cost f p g.getEdgeList).isEmpty <;> simp
  · intro ho
    replace ho : optimal g t f pi2 g.getEdgeList = .ok false := ho
    rw [optimal_ok hn h3.val _ fun e he => he] at ho
    have hv : violL t cap cost f p g.getEdgeList ≠ [] := by
      intro h; rw [h] at ho; cases ho
    obtain ⟨st', e, h4, h5, h6, h7, h8, h9⟩ := pivotStep_ok (st := ⟨t, f, ix2, pi2⟩) hn hroot
      ⟨hst, hw, hb, ⟨seq, h2⟩, ⟨p, h3⟩, hall⟩ hpv hf h3 hv
    obtain ⟨out, ho1, ho2⟩ := h6.swap
    obtain ⟨d, hd1, hd2, hd3⟩ := h6.total
    refine ⟨st', e, out, h4, (isTreeOf_iff hn hne).2 h6.tree, h7, h8, ho1, fun x => ?_, h6.within, h6.bound, h6.net, ?_⟩
    · rw [ho2]
      unfold without
      simp only [List.mem_filter, List.mem_append, List.mem_singleton, ne_eq, decide_not, Bool.not_eq_true',
        decide_eq_false_iff_not]
    · by_cases hd : d = 0
      · exact .inr (hd3 hd).1
      · left
        replace hd2 : totalCost g.getEdgeList cost st'.f = totalCost g.getEdgeList cost f - _ := hd2
        rw [hd2]
        have h10 : 0 < (redc cost p e).natAbs := Int.natAbs_pos.2 h9
        have : 0 < d * ((redc cost p e).natAbs : Int) := Int.mul_pos (by omega) (by omega)
        omega

/-! ## C38: the result -/

/-- a minimum cost flow problem in the scope of `min_cost_flow`: costs, non-negative capacities, no antiparallel arcs or self
loops, balanced demands, at least one supply, and neither 's' nor 't' as a node -/
structure FlowProblem (g : Graph N) (cap cost : N × N → Int) (b : N → Int) (src snk : N) : Prop where
  built : Built g
  dir : g.directed = true
  caps : ∀ u v, (u, v) ∈ g.getEdgeList → g.capOf u v = .ok (cap (u, v))
  nonneg : ∀ e ∈ g.getEdgeList, 0 ≤ cap e
  costs : ∀ u v, (u, v) ∈ g.getEdgeList → g.getEdgeCost u v = .ok (cost (u, v))
  anti : ∀ u v, (u, v) ∈ g.getEdgeList → (v, u) ∉ g.getEdgeList
  demand : ∀ v ∈ g.getNodeList, g.getNodeAttr v "demand" = .ok (.int (b v))
  balanced : (g.getNodeList.map b).sum = 0
  supply : ∃ v ∈ g.getNodeList, 0 < b v
  names : src ∉ g.getNodeList ∧ snk ∉ g.getNodeList ∧ src ≠ snk

/-- the root and the first node are in one component with all arcs; nodes without arcs may be apart -/
structure Joined (g : Graph N) (root : N) : Prop where
  mem : root ∈ g.getNodeList
  arcs : ∀ e ∈ g.getEdgeList, EConn g.getEdgeList root e.1
  first : ∀ v, g.getNodeList.head? = some v → EConn g.getEdgeList root v

theorem Joined.of_conn (hwf : g.Wf) (h : ∀ u ∈ g.getNodeList, ∀ v ∈ g.getNodeList, EConn g.getEdgeList u v)
    (hroot : root ∈ g.getNodeList) : Joined g root :=
  ⟨hroot, fun e he => h _ hroot _ (hwf.endp e.1 e.2 he).1, fun _ hv => h _ hroot _ (List.mem_of_mem_head? hv)⟩

open Classical in
theorem Joined.core (h : Joined g root) (hwf : g.Wf) : ∃ W, Core g W ∧ root ∈ W ∧
    (∀ cur, g.getNodeList.head? = some cur → cur ∈ W) ∧ ∀ u ∈ W, ∀ v ∈ W, EConn g.getEdgeList u v := by
  refine ⟨g.getNodeList.filter fun v => decide (EConn g.getEdgeList root v), ⟨hwf.nodup.filter _, ?_, ?_⟩, ?_, ?_, ?_⟩
  · exact fun v hv => (List.mem_filter.1 hv).1
  · intro e he
    have h1 := hwf.endp e.1 e.2 he
    have h2 := h.arcs e he
    simp only [List.mem_filter, decide_eq_true_eq]
    exact ⟨⟨h1.1, h2⟩, h1.2, h2.tail (.inl he)⟩
  · simp only [List.mem_filter, decide_eq_true_eq]
    exact ⟨h.mem, .refl⟩
  · intro cur hc
    simp only [List.mem_filter, decide_eq_true_eq]
    exact ⟨List.mem_of_mem_head? hc, h.first cur hc⟩
  · intro u hu v hv
    simp only [List.mem_filter, decide_eq_true_eq] at hu hv
    exact hu.2.symm.trans hv.2

/-- enough steps for every loop except the main loop -/
def Enough (g : Graph N) (cap : N × N → Int) (b : N → Int) (fuel : Nat) : Prop :=
  2 * g.getNodeList.length + (g.getEdgeList.length + 1) *
    (((g.getEdgeList.map cap).sum + (g.getNodeList.map fun v => ((b v).natAbs : Int)).sum).toNat + 1) + 3 ≤ fuel

theorem FlowProblem.core (P : FlowProblem g cap cost b src snk) : Core g g.getNodeList :=
  ⟨P.built.wf.nodup, fun _ h => h, fun e he => P.built.wf.endp e.1 e.2 he⟩

theorem Simplex.Core.congr {g' : Graph N} (h : Core g W) (h1 : g'.getNodeList = g.getNodeList) (h2 : g'.getEdgeList = g.getEdgeList) :
    Core g' W := ⟨h.nodup, by rw [h1]; exact h.sub, by rw [h2]; exact h.ends⟩

theorem le_sum {l : List (N × N)} {w : N × N → Int} (h : ∀ e ∈ l, 0 ≤ w e) {e : N × N} (he : e ∈ l) : w e ≤ (l.map w).sum := by
  induction l with
  | nil => cases he
  | cons a l ih =>
    have h1 : 0 ≤ (l.map w).sum := List.sum_nonneg (by intro x hx; obtain ⟨y, hy, rfl⟩ := List.mem_map.1 hx; exact h y (by simp [hy]))
    have h2 := h a (by simp)
    rw [List.map_cons, List.sum_cons]
    rcases List.mem_cons.1 he with rfl | he
    · omega
    · have := ih (fun e he => h e (by simp [he])) he
      omega

/-- the calls of `network_simplex` up to the main loop -/
theorem networkSimplex_setup (P : FlowProblem g cap cost b src snk) (hq : LawfulBag O items) {newQ : Q} (hnew : items newQ = [])
    (hW : Core g W) (hroot : root ∈ W) (hhead : ∀ cur, g.getNodeList.head? = some cur → cur ∈ W)
    (hconn : ∀ u ∈ W, ∀ v ∈ W, EConn g.getEdgeList u v)
    (pi : N → Option Int) {fuel : Nat} (hf : Enough g cap b fuel) :
    ((¬ ∃ f', IsFeasible g.getNodeList g.getEdgeList cap b f') ∧
      ∃ f g', g'.getNodeList = g.getNodeList ∧ g'.getEdgeList = g.getEdgeList ∧
        (∀ v x, g'.getNodeAttr v x = g.getNodeAttr v x) ∧ (∀ u v x, g'.getEdgeAttr u v x = g.getEdgeAttr u v x) ∧
        MinCost.feasibleFlow g O newQ src snk fuel = .ok (false, f, g')) ∨
    ∃ st g', Netw g' cap cost ∧ g'.getNodeList = g.getNodeList ∧ g'.getEdgeList = g.getEdgeList ∧
      (∀ v x, g'.getNodeAttr v x = g.getNodeAttr v x) ∧ (∀ u v x, g'.getEdgeAttr u v x = g.getEdgeAttr u v x) ∧
      Simplex.Inv g' W cap cost root st ∧ IsFeasible g.getNodeList g.getEdgeList cap b st.f ∧
      ∃ f0, MinCost.feasibleFlow g O newQ src snk fuel = .ok (true, f0, g') ∧
        setup g' root f0 ⟨fun _ => none, fun _ => none, fun _ => none⟩ pi fuel = .ok st := by
  have hf' := hf
  unfold Enough at hf'
  generalize hK : ((g.getEdgeList.map cap).sum + (g.getNodeList.map fun v => ((b v).natAbs : Int)).sum).toNat = K at hf'
  have hKm : K + 1 ≤ (g.getEdgeList.length + 1) * (K + 1) := Nat.le_mul_of_pos_left _ (by omega)
  obtain ⟨r0, f0, g0, h1, h2, h3, h4, h5, h6, h7, h8, h9⟩ := C37_find_feasible_flow P.built P.dir hq hnew P.caps P.nonneg
    (fun u v _ => P.anti u v) P.demand P.balanced P.supply P.names.1 P.names.2.1 P.names.2.2 (fuel := fuel) (by rw [hK]; omega)
  have hB : ∀ e ∈ g.getEdgeList, cap e ≤ (K : Int) := by
    intro e he
    have q1 := le_sum P.nonneg he
    have q2 : 0 ≤ (g.getNodeList.map fun v => ((b v).natAbs : Int)).sum :=
      List.sum_nonneg (by intro x hx; obtain ⟨y, hy, rfl⟩ := List.mem_map.1 hx; omega)
    omega
  rcases r0 with _ | _
  · left
    refine ⟨fun hex => ?_, f0, g0, h6, h7, h8, h9, h1⟩
    have := h2.2 hex; cases this
  · right
    have hfe := h3 rfl
    have hn : Netw g0 cap cost := by
      refine ⟨h4, h5, by rw [h7]; exact P.anti, ?_, ?_⟩
      · intro u v he
        rw [h7] at he
        rw [capOf_congr P.built.wf P.dir h4.wf h5 he (by rw [h7]; exact he) (h9 u v _), P.caps u v he]
      · intro u v he
        rw [h7] at he
        have := P.costs u v he
        unfold Graph.getEdgeCost at this ⊢
        rw [h9]; exact this
    obtain ⟨st, k1, k2, k3⟩ := setup_ok hn (root := root) (W := W) (hW.congr h6 h7) hroot (by rw [h6]; exact hhead) (by rw [h7]; exact hconn)
      (by rw [h7]; exact hfe.within) (B := K) (by rw [h7]; exact hB) ⟨fun _ => none, fun _ => none, fun _ => none⟩ pi
      (fuel := fuel) (by rw [h6]; omega) (by rw [h7]; omega)
    refine ⟨st, g0, hn, h6, h7, h8, h9, k2, ⟨?_, ?_⟩, f0, h1, k1⟩
    · have := k2.within; rw [h7] at this; exact this
    · intro v hv
      have := k3 v
      rw [h7] at this
      rw [this]; exact hfe.meets v hv

/-- what `network_simplex` does up to the main loop -/
theorem networkSimplex_start (P : FlowProblem g cap cost b src snk) (hq : LawfulBag O items) {newQ : Q} (hnew : items newQ = [])
    (hW : Core g W) (hroot : root ∈ W) (hhead : ∀ cur, g.getNodeList.head? = some cur → cur ∈ W)
    (hconn : ∀ u ∈ W, ∀ v ∈ W, EConn g.getEdgeList u v)
    (pi : N → Option Int) {fuel : Nat} (hf : Enough g cap b fuel) :
    ((¬ ∃ f', IsFeasible g.getNodeList g.getEdgeList cap b f') ∧
      ∃ f g', g'.getNodeList = g.getNodeList ∧ g'.getEdgeList = g.getEdgeList ∧
        (∀ v x, g'.getNodeAttr v x = g.getNodeAttr v x) ∧ (∀ u v x, g'.getEdgeAttr u v x = g.getEdgeAttr u v x) ∧
        ∀ pv k, networkSimplex g O newQ src snk root pv pi fuel k = .ok (false, f, g')) ∨
    ∃ st g', Netw g' cap cost ∧ g'.getNodeList = g.getNodeList ∧ g'.getEdgeList = g.getEdgeList ∧
      (∀ v x, g'.getNodeAttr v x = g.getNodeAttr v x) ∧ (∀ u v x, g'.getEdgeAttr u v x = g.getEdgeAttr u v x) ∧
      Simplex.Inv g' W cap cost root st ∧ IsFeasible g.getNodeList g.getEdgeList cap b st.f ∧
      ∀ pv k, networkSimplex g O newQ src snk root pv pi fuel k = match mainLoop g' root pv fuel k st with
        | .error e => .error e
        | .ok st' => .ok (true, st'.f, g') := by
  rcases networkSimplex_setup P hq hnew hW hroot hhead hconn pi hf with ⟨h1, f, g', h2, h3, h4, h5, h6⟩ |
    ⟨st, g', hn, h2, h3, h4, h5, h6, h7, f0, h8, h9⟩
  · left
    exact ⟨h1, f, g', h2, h3, h4, h5, fun pv k => by unfold networkSimplex; rw [h6]⟩
  · right
    refine ⟨st, g', hn, h2, h3, h4, h5, h6, h7, fun pv k => ?_⟩
    unfold networkSimplex
    rw [h8]
    simp only []
    rw [h9]
    simp only []
    cases mainLoop g' root pv fuel k st <;> rfl

/-- **C38, the test.** If `simplex_optimal` accepts a flow within the bounds that is empty or full outside a set of arcs of zero
reduced cost (no tree is needed), then no flow within the bounds with the same net flows is cheaper. -/
theorem C38_optimality_test (hn : Netw g cap cost) (ht : TGr g t) {pi : N → Option Int} {p : N → Int}
    (hpi : ∀ v ∈ g.getNodeList, pi v = some (p v)) (hzero : ∀ e ∈ t.getEdgeList, cost e - p e.1 + p e.2 = 0)
    (hw : Within g.getEdgeList cap f) (hb : TreeSolution g.getEdgeList cap t.getEdgeList f)
    (h : optimal g t f pi g.getEdgeList = .ok true) {f' : N × N → Int} (hw' : Within g.getEdgeList cap f')
    (hnet : ∀ v ∈ g.getNodeList, net g.getEdgeList f v = net g.getEdgeList f' v) :
    totalCost g.getEdgeList cost f ≤ totalCost g.getEdgeList cost f' := by
  have hpi : ∀ e ∈ g.getEdgeList, pi e.1 = some (p e.1) ∧ pi e.2 = some (p e.2) :=
    fun e he => ⟨hpi _ (hn.ends he).1, hpi _ (hn.ends he).2⟩
  have hp : PotOK g t cost pi p := by
    refine ⟨hpi, fun u v huv => ?_⟩
    unfold rcost
    rcases huv with h1 | h1
    · rw [if_pos (ht.sub _ h1)]
      have := hzero _ h1
      simp only at this; omega
    · rw [if_neg (hn.simple _ _ (ht.sub _ h1))]
      have := hzero _ h1
      simp only at this; omega
  refine optimal_sound hn ht hp hw hb ?_ hw' hnet
  rw [optimal_ok hn hpi _ fun e he => he] at h
  cases hv : violL t cap cost f p g.getEdgeList with
  | nil => rfl
  | cons x l => rw [hv] at h; cases h

/-- `network_simplex` on a network whose arcs are in one component, that of the root and of the first node -/
theorem networkSimplex_core (P : FlowProblem g cap cost b src snk) (hq : LawfulBag O items) {newQ : Q} (hnew : items newQ = [])
    (hW : Core g W) (hroot : root ∈ W) (hhead : ∀ cur, g.getNodeList.head? = some cur → cur ∈ W)
    (hconn : ∀ u ∈ W, ∀ v ∈ W, EConn g.getEdgeList u v)
    {pv : Pivot} (hpv : pv ≠ .other) (pi : N → Option Int) {fuel : Nat} (hf : Enough g cap b fuel) (pivots : Nat) :
    (networkSimplex g O newQ src snk root pv pi fuel pivots = .error .diverge ∧
      ∃ f, IsFeasible g.getNodeList g.getEdgeList cap b f) ∨
    ∃ res f g', networkSimplex g O newQ src snk root pv pi fuel pivots = .ok (res, f, g') ∧
      (res = true → IsMinCost g.getNodeList g.getEdgeList cap cost b f) ∧
      (res = false → ¬ ∃ f', IsFeasible g.getNodeList g.getEdgeList cap b f') ∧
      g'.getNodeList = g.getNodeList ∧ g'.getEdgeList = g.getEdgeList ∧
      (∀ v x, g'.getNodeAttr v x = g.getNodeAttr v x) ∧ (∀ u v x, g'.getEdgeAttr u v x = g.getEdgeAttr u v x) := by
  rcases networkSimplex_start P hq hnew hW hroot hhead hconn pi hf with ⟨h1, f, g', h2, h3, h4, h5, h6⟩ |
    ⟨st, g', hn, h2, h3, h4, h5, h6, h7, h8⟩
  · exact .inr ⟨false, f, g', h6 pv pivots, fun h => (by cases h), fun _ => h1, h2, h3, h4, h5⟩
  · unfold Enough at hf
    rw [h8]
    rcases mainLoop_ok hn hroot hpv (inner := fuel) (by rw [h2]; omega) pivots st h6 with
      h9 | ⟨st', h9, h10, _, h11, h12⟩
    · rw [h9]; exact .inl ⟨rfl, st.f, h7⟩
    · rw [h9]
      refine .inr ⟨true, st'.f, g', rfl, fun _ => ⟨⟨?_, ?_⟩, ?_⟩, fun h => (by cases h), h2, h3, h4, h5⟩
      · have := h10.within; rw [h3] at this; exact this
      · intro v hv
        have := h11 v
        rw [h3] at this
        rw [this]; exact h7.meets v hv
      · intro f' hf'
        rw [h2, h3] at h12
        refine h12 f' hf'.within fun v hv => ?_
        have q1 := hf'.meets v hv
        have q2 := h7.meets v hv
        omega

/-- **C113, the result.** Take a problem in the scope of `min_cost_flow`, a root in one component with all the arcs and the first
node, and one of the two pivot rules; there may be further nodes, without arcs.  However many pivots are allowed,
`network_simplex` raises nothing: either it returns True and the flow is a feasible flow of least cost, or it returns False and
there is no feasible flow, or there is one and the pivots did not suffice.  Nodes, arcs and attributes are as before. -/
theorem C113_joined (P : FlowProblem g cap cost b src snk) (hq : LawfulBag O items) {newQ : Q} (hnew : items newQ = [])
    (hJ : Joined g root) {pv : Pivot} (hpv : pv ≠ .other) (pi : N → Option Int) {fuel : Nat} (hf : Enough g cap b fuel)
    (pivots : Nat) :
    (networkSimplex g O newQ src snk root pv pi fuel pivots = .error .diverge ∧
      ∃ f, IsFeasible g.getNodeList g.getEdgeList cap b f) ∨
    ∃ res f g', networkSimplex g O newQ src snk root pv pi fuel pivots = .ok (res, f, g') ∧
      (res = true → IsMinCost g.getNodeList g.getEdgeList cap cost b f) ∧
      (res = false → ¬ ∃ f', IsFeasible g.getNodeList g.getEdgeList cap b f') ∧
      g'.getNodeList = g.getNodeList ∧ g'.getEdgeList = g.getEdgeList ∧
      (∀ v x, g'.getNodeAttr v x = g.getNodeAttr v x) ∧ (∀ u v x, g'.getEdgeAttr u v x = g.getEdgeAttr u v x) := by
  obtain ⟨W, hW, hroot, hhead, hconn⟩ := hJ.core P.built.wf
  exact networkSimplex_core P hq hnew hW hroot hhead hconn hpv pi hf pivots

/-- **C38.** Take a connected network in the scope of `min_cost_flow`, a root and one of the two pivot rules.  However many
pivots are allowed, `network_simplex` raises nothing: either it returns True and the flow is a feasible flow of least cost,
or it returns False and there is no feasible flow, or there is one and the pivots did not suffice.  Nodes, arcs and
attributes are as before. -/
theorem C38_network_simplex (P : FlowProblem g cap cost b src snk) (hq : LawfulBag O items) {newQ : Q} (hnew : items newQ = [])
    (hconn : ∀ u ∈ g.getNodeList, ∀ v ∈ g.getNodeList, EConn g.getEdgeList u v) (hroot : root ∈ g.getNodeList)
    {pv : Pivot} (hpv : pv ≠ .other) (pi : N → Option Int) {fuel : Nat} (hf : Enough g cap b fuel) (pivots : Nat) :
    (networkSimplex g O newQ src snk root pv pi fuel pivots = .error .diverge ∧
      ∃ f, IsFeasible g.getNodeList g.getEdgeList cap b f) ∨
    ∃ res f g', networkSimplex g O newQ src snk root pv pi fuel pivots = .ok (res, f, g') ∧
      (res = true → IsMinCost g.getNodeList g.getEdgeList cap cost b f) ∧
      (res = false → ¬ ∃ f', IsFeasible g.getNodeList g.getEdgeList cap b f') ∧
      g'.getNodeList = g.getNodeList ∧ g'.getEdgeList = g.getEdgeList ∧
      (∀ v x, g'.getNodeAttr v x = g.getNodeAttr v x) ∧ (∀ u v x, g'.getEdgeAttr u v x = g.getEdgeAttr u v x) :=
  networkSimplex_core P hq hnew P.core hroot (fun _ h => List.mem_of_mem_head? h) hconn hpv pi hf pivots

/-! ## C62: termination -/

/-- every spanning tree solution uses the inside of every tree arc -/
def Nondegenerate (V : List N) (E : List (N × N)) (cap : N × N → Int) (b : N → Int) : Prop :=
  ∀ T f, IsSpanTree (fun u v => (u, v) ∈ E) V T → IsFeasible V E cap b f → TreeSolution E cap T f →
    ∀ e ∈ T, 0 < f e ∧ f e < cap e

theorem totalCost_bound (E : List (N × N)) (hw : Within E cap f) :
    - (E.map fun e => cap e * ((cost e).natAbs : Int)).sum ≤ totalCost E cost f ∧
    totalCost E cost f ≤ (E.map fun e => cap e * ((cost e).natAbs : Int)).sum := by
  unfold totalCost
  induction E with
  | nil => simp
  | cons e E ih =>
    have ih := ih fun e he => hw e (by simp [he])
    have h := hw e (by simp)
    simp only [List.map_cons, List.sum_cons]
    have h1 : f e * cost e ≤ cap e * ((cost e).natAbs : Int) := by
      calc f e * cost e ≤ f e * ((cost e).natAbs : Int) := Int.mul_le_mul_of_nonneg_left (by omega) h.1
        _ ≤ _ := Int.mul_le_mul_of_nonneg_right h.2 (by omega)
    have h2 : - (cap e * ((cost e).natAbs : Int)) ≤ f e * cost e := by
      have h3 : f e * (- cost e) ≤ f e * ((cost e).natAbs : Int) := Int.mul_le_mul_of_nonneg_left (by omega) h.1
      have h4 : f e * ((cost e).natAbs : Int) ≤ cap e * ((cost e).natAbs : Int) := Int.mul_le_mul_of_nonneg_right h.2 (by omega)
      have h5 : f e * (- cost e) = - (f e * cost e) := Int.mul_neg _ _
      omega
    omega

theorem mainLoop_ends (hn : Netw g cap cost) (hroot : root ∈ g.getNodeList) {pv : Pivot} (hpv : pv ≠ .other) {inner : Nat}
    (hf : 2 * g.getNodeList.length ≤ inner) (hcap : ∀ e ∈ g.getEdgeList, 0 < cap e)
    (hnd : Nondegenerate g.getNodeList g.getEdgeList cap b) {L : Int}
    (hL : ∀ f, Within g.getEdgeList cap f → L ≤ totalCost g.getEdgeList cost f) : ∀ (k : Nat) (st : Simplex.SState N),
    Simplex.Inv g g.getNodeList cap cost root st → IsFeasible g.getNodeList g.getEdgeList cap b st.f →
    totalCost g.getEdgeList cost st.f - L < k → mainLoop g root pv inner k st ≠ .error .diverge := by
  intro k
  induction k with
  | zero =>
    intro st h _ hk
    have := hL _ h.within
    simp only [Int.natCast_zero] at hk
    omega
  | succ k ih =>
    intro st h hfe hk
    obtain ⟨p, hp⟩ := h.pots
    unfold mainLoop
    rw [optimal_ok hn hp.val _ fun e he => he]
    by_cases hv : violL st.t cap cost st.f p g.getEdgeList = []
    · rw [hv]; simp
    · have hb : (violL st.t cap cost st.f p g.getEdgeList).isEmpty = false := by simpa using hv
      rw [hb]
      simp only []
      obtain ⟨st', e, h1, h2, h3, h4, h5, h6⟩ := pivotStep_ok hn hroot h hpv hf hp hv
      rw [h1]
      simp only []
      have hfe' : IsFeasible g.getNodeList g.getEdgeList cap b st'.f :=
        ⟨h3.within, fun v hv => by rw [h3.net v]; exact hfe.meets v hv⟩
      refine ih st' h2 hfe' ?_
      obtain ⟨d, hd1, hd2, hd3⟩ := h3.total
      have hd : d ≠ 0 := by
        intro hd
        obtain ⟨q1, q2⟩ := hd3 hd
        have q3 := q2.resolve_left (by have := hcap e h4; omega)
        have q4 := hnd _ st'.f (stree_span (List.ne_nil_of_mem hroot) h3.tree) hfe' h3.bound e q3
        have q5 := h.bound e h4 h5
        rw [q1 e h4] at q4
        omega
      have h10 : 0 < (redc cost p e).natAbs := Int.natAbs_pos.2 h6
      have : 1 * 1 ≤ d * ((redc cost p e).natAbs : Int) := Int.mul_le_mul (by omega) (by omega) (by omega) (by omega)
      rw [Int.natCast_succ] at hk
      omega

/-- **C62, what holds.** If moreover all capacities are positive and every spanning tree solution is strictly inside the
bounds on every tree arc, `network_simplex` returns: twice the sum of capacity times |cost|, plus one, pivots suffice.
Missing: degenerate networks, on which it need not end (`C62_may_not_terminate`). -/
theorem C62_terminates_partial (P : FlowProblem g cap cost b src snk) (hq : LawfulBag O items) {newQ : Q}
    (hnew : items newQ = []) (hconn : ∀ u ∈ g.getNodeList, ∀ v ∈ g.getNodeList, EConn g.getEdgeList u v)
    (hroot : root ∈ g.getNodeList) {pv : Pivot} (hpv : pv ≠ .other) (pi : N → Option Int) {fuel : Nat}
    (hf : Enough g cap b fuel) (hcap : ∀ e ∈ g.getEdgeList, 0 < cap e)
    (hnd : Nondegenerate g.getNodeList g.getEdgeList cap b) {pivots : Nat}
    (hpiv : 2 * (g.getEdgeList.map fun e => cap e * ((cost e).natAbs : Int)).sum < pivots) :
    ∃ res f g', networkSimplex g O newQ src snk root pv pi fuel pivots = .ok (res, f, g') := by
  rcases networkSimplex_start P hq hnew P.core hroot (fun _ h => List.mem_of_mem_head? h) hconn pi hf with ⟨h1, f, g', h2, h3, h4, h5, h6⟩ |
    ⟨st, g', hn, h2, h3, h4, h5, h6, h7, h8⟩
  · exact ⟨false, f, g', h6 pv pivots⟩
  · unfold Enough at hf
    rw [h8]
    have hr : root ∈ g'.getNodeList := by rw [h2]; exact hroot
    have hno := mainLoop_ends (b := b) hn hr hpv (inner := fuel) (by rw [h2]; omega) (by rw [h3]; exact hcap)
      (by rw [h2, h3]; exact hnd) (fun f hw => (totalCost_bound (cost := cost) _ hw).1) pivots st (by rw [h2]; exact h6) (by rw [h2, h3]; exact h7)
      (by rw [h3]
          have := (totalCost_bound (cost := cost) _ h7.within).2
          omega)
    rcases mainLoop_ok hn hroot hpv (inner := fuel) (by rw [h2]; omega) pivots st h6 with h9 | ⟨st', h9, _⟩
    · exact absurd h9 hno
    · rw [h9]; exact ⟨true, st'.f, g', rfl⟩

/-! ## Examples and witnesses -/

/-- the attribute `capacity` of a test network -/
def netCap (g : Graph Nat) (e : Nat × Nat) : Int := match g.capOf e.1 e.2 with | .ok c => c | .error _ => 0

/-- the attribute `cost` of a test network -/
def netCost (g : Graph Nat) (e : Nat × Nat) : Int := match g.getEdgeCost e.1 e.2 with | .ok c => c | .error _ => 0

/-- a boolean test for the scope of `min_cost_flow` -/
def inScope (g : Graph Nat) (b : Nat → Int) (src snk : Nat) : Bool :=
  decide ((∀ e ∈ g.getEdgeList, g.capOf e.1 e.2 = .ok (netCap g e) ∧ 0 ≤ netCap g e ∧ g.getEdgeCost e.1 e.2 = .ok (netCost g e) ∧
    (e.2, e.1) ∉ g.getEdgeList) ∧ (∀ v ∈ g.getNodeList, g.getNodeAttr v "demand" = .ok (.int (b v))) ∧
    (g.getNodeList.map b).sum = 0 ∧ (∃ v ∈ g.getNodeList, 0 < b v) ∧ src ∉ g.getNodeList ∧ snk ∉ g.getNodeList ∧ src ≠ snk)

theorem inScope_ok {n : Nat} {b b' : Nat → Int} {l : List (Nat × Nat × Int × Int)} {src snk : Nat}
    (h : inScope (costNet n b' l) b src snk = true) (hd : (costNet n b' l).directed = true) :
    FlowProblem (costNet n b' l) (netCap (costNet n b' l)) (netCost (costNet n b' l)) b src snk := by
  obtain ⟨h1, h2, h3, h4, h5⟩ := of_decide_eq_true h
  exact ⟨costNet_built _ _ _, hd, fun u v he => (h1 _ he).1, fun e he => (h1 e he).2.1, fun u v he => (h1 _ he).2.2.1,
    fun u v he => (h1 _ he).2.2.2, h2, h3, h4, h5⟩

/-- one arc of capacity 0 and cost -2 beside the path 0, 2, 1 of capacity 2 -/
def zeroNet : Graph Nat := costNet 3 (fun i => if i = 0 then 1 else if i = 1 then -1 else 0)
  [(0, 1, -2, 0), (0, 2, 2, 2), (2, 1, 3, 2)]

/-- **`network_simplex` need not terminate.**  On this network of three nodes, with demands that one flow meets, no number of
pivots suffices, whatever root and pivot rule: the arc of capacity 0 has a negative reduced cost and a flow that equals both
0 and its capacity, so `simplex_optimal` never accepts, and the pivot takes the arc in and out again. -/
theorem C62_may_not_terminate : ∃ (g : Graph Nat) (cap cost : Nat × Nat → Int) (b : Nat → Int),
    FlowProblem g cap cost b 8 9 ∧ (∀ u ∈ g.getNodeList, ∀ v ∈ g.getNodeList, EConn g.getEdgeList u v) ∧
    (∃ f, IsFeasible g.getNodeList g.getEdgeList cap b f) ∧
    ∀ root ∈ g.getNodeList, ∀ pv, pv ≠ .other → ∀ pi fuel, Enough g cap b fuel → ∀ pivots,
      networkSimplex g stackOps [] 8 9 root pv pi fuel pivots = .error .diverge := by
  have hV : zeroNet.getNodeList = [0, 1, 2] := by decide +kernel
  have hE : zeroNet.getEdgeList = [(0, 1), (0, 2), (2, 1)] := by decide +kernel
  have hP : FlowProblem zeroNet (netCap zeroNet) (netCost zeroNet) (fun i => if i = 0 then 1 else if i = 1 then -1 else 0) 8 9 :=
    inScope_ok (by decide +kernel) (by decide +kernel)
  have hcaps : netCap zeroNet (0, 1) = 0 ∧ netCap zeroNet (0, 2) = 2 ∧ netCap zeroNet (2, 1) = 2 := by decide +kernel
  have hcosts : netCost zeroNet (0, 1) = -2 ∧ netCost zeroNet (0, 2) = 2 ∧ netCost zeroNet (2, 1) = 3 := by decide +kernel
  have hconn : ∀ u ∈ zeroNet.getNodeList, ∀ v ∈ zeroNet.getNodeList, EConn zeroNet.getEdgeList u v := by
    have h0 : ∀ v ∈ zeroNet.getNodeList, EConn zeroNet.getEdgeList 0 v := by
      rw [hV, hE]
      intro v hv
      simp only [List.mem_cons, List.not_mem_nil, or_false] at hv
      rcases hv with rfl | rfl | rfl
      · exact .refl
      · exact .single (.inl (by simp))
      · exact .single (.inl (by simp))
    intro u hu v hv
    exact (h0 u hu).symm.trans (h0 v hv)
  have hfeas : IsFeasible zeroNet.getNodeList zeroNet.getEdgeList (netCap zeroNet)
      (fun i => if i = 0 then 1 else if i = 1 then -1 else 0) (fun e => if e = (0, 1) then 0 else 1) := by
    rw [hV, hE]
    refine ⟨?_, ?_⟩
    · intro e he
      simp only [List.mem_cons, List.not_mem_nil, or_false] at he
      rcases he with rfl | rfl | rfl
      · rw [hcaps.1]; decide
      · rw [hcaps.2.1]; decide
      · rw [hcaps.2.2]; decide
    · decide
  refine ⟨zeroNet, netCap zeroNet, netCost zeroNet, _, hP, hconn, ⟨_, hfeas⟩, ?_⟩
  intro root hroot pv hpv pi fuel hf pivots
  rcases networkSimplex_start hP stack_lawful (newQ := []) rfl hP.core hroot (fun _ h => List.mem_of_mem_head? h) hconn pi hf with ⟨h1, _⟩ |
    ⟨st, g', hn, h2, h3, h4, h5, h6, h7, h8⟩
  · exact (h1 ⟨_, hfeas⟩).elim
  · rw [h8]
    unfold Enough at hf
    rcases mainLoop_ok hn hroot hpv (inner := fuel) (by rw [h2]; omega) pivots st h6 with
      h9 | ⟨st', h9, h10, ⟨p, h11, h12⟩, h13, _⟩
    · rw [h9]
    · exfalso
      have hw := h10.within
      have hb := h10.bound
      have hz := h11.zero
      have hvn := violL_nil h12
      unfold AtBound at hb
      rw [h3, hE] at hw hvn hb
      have hm := h7.meets 0 (by rw [hV]; simp)
      have hm2 := h7.meets 2 (by rw [hV]; simp)
      have e0 := h13 0
      have e2 := h13 2
      rw [h3] at e0 e2
      rw [← e0, hE] at hm
      rw [← e2, hE] at hm2
      simp only [net, List.map_cons, List.map_nil, List.sum_cons, List.sum_nil] at hm hm2
      have w1 := hw (0, 1) (by simp)
      rw [hcaps.1] at w1
      simp at hm hm2
      have f01 : st'.f (0, 1) = 0 := by omega
      have f02 : st'.f (0, 2) = 1 := by omega
      have f21 : st'.f (2, 1) = 1 := by omega
      have t02 : (0, 2) ∈ st'.t.getEdgeList := by
        by_contra h
        have := hb (0, 2) (by simp) h
        rw [hcaps.2.1] at this; omega
      have t21 : (2, 1) ∈ st'.t.getEdgeList := by
        by_contra h
        have := hb (2, 1) (by simp) h
        rw [hcaps.2.2] at this; omega
      have z1 := hz 0 2 (.inl t02)
      have z2 := hz 2 1 (.inl t21)
      unfold rcost at z1 z2
      rw [h3, hE, if_pos (by simp), hcosts.2.1] at z1
      rw [h3, hE, if_pos (by simp), hcosts.2.2] at z2
      by_cases t01 : (0, 1) ∈ st'.t.getEdgeList
      · have z3 := hz 0 1 (.inl t01)
        unfold rcost at z3
        rw [h3, hE, if_pos (by simp), hcosts.1] at z3
        omega
      · have v := hvn (0, 1) (by simp) t01
        unfold viol redc at v
        rw [if_pos f01, hcosts.1] at v
        simp only at v
        rw [if_pos (by omega)] at v
        cases v

/-- **C63.** Take a connected network in scope, a root that is a node (or none given) and no other pivot rule than 'dantzig'
and 'first_eligible' (or none given).  Whatever the algorithm, if `min_cost_flow` returns after solving, the flow is a feasible
flow of least cost, or 'problem is infeasible' was printed and there is no feasible flow; only an unknown name of an algorithm
makes it return without solving; and network simplex, the default, raises nothing. -/
theorem C63_min_cost_flow (P : FlowProblem g cap cost b src snk) (hq : LawfulBag O items) {newQ : Q} (hnew : items newQ = [])
    (hconn : ∀ u ∈ g.getNodeList, ∀ v ∈ g.getNodeList, EConn g.getEdgeList u v) (algo : Option FlowAlgo) {root : Option N}
    (hroot : ∀ r, root = some r → r ∈ g.getNodeList) {pv : Option Pivot} (hpv : pv ≠ some .other) (pi : N → Option Int)
    {fuel : Nat} (hf : Enough g cap b fuel) (pivots : Nat) :
    (∀ res f g', minCostFlow g O newQ src snk algo root pv pi fuel pivots = .ok (some (res, f, g')) →
      (res = true → IsMinCost g.getNodeList g.getEdgeList cap cost b f) ∧
      (res = false → ¬ ∃ f', IsFeasible g.getNodeList g.getEdgeList cap b f') ∧
      g'.getNodeList = g.getNodeList ∧ g'.getEdgeList = g.getEdgeList) ∧
    (minCostFlow g O newQ src snk algo root pv pi fuel pivots = .ok none ↔ algo = some .other) ∧
    (algo ≠ some .cycleCanceling → ∀ e, minCostFlow g O newQ src snk algo root pv pi fuel pivots = .error e → e = .diverge) := by
  have hpv' : pv.getD .dantzig ≠ .other := by
    rcases pv with _ | pv
    · simp
    · simpa using hpv
  -- the call of network_simplex
  have hns : ∀ r ∈ g.getNodeList, ∀ x : Except PyErr (Option (Bool × (N × N → Int) × Graph N)),
      (match networkSimplex g O newQ src snk r (pv.getD .dantzig) pi fuel pivots with
        | .error e => .error e
        | .ok x => .ok (some x)) = x →
      (∀ res f g', x = .ok (some (res, f, g')) → (res = true → IsMinCost g.getNodeList g.getEdgeList cap cost b f) ∧
        (res = false → ¬ ∃ f', IsFeasible g.getNodeList g.getEdgeList cap b f') ∧
        g'.getNodeList = g.getNodeList ∧ g'.getEdgeList = g.getEdgeList) ∧ x ≠ .ok none ∧ ∀ e, x = .error e → e = .diverge := by
    intro r hr x hx
    rcases C38_network_simplex P hq hnew hconn hr hpv' pi hf pivots with ⟨h1, _⟩ | ⟨res, f, g', h1, h2, h3, h4, h5, _⟩
    · rw [h1] at hx
      subst hx
      refine ⟨?_, ?_, ?_⟩
      · intro _ _ _ h; cases h
      · intro h; cases h
      · intro e h; cases h; rfl
    · rw [h1] at hx
      subst hx
      refine ⟨?_, ?_, ?_⟩
      · intro _ _ _ h; cases h; exact ⟨h2, h3, h4, h5⟩
      · intro h; cases h
      · intro e h; cases h
  -- simplex
  have hsx : algo.getD .simplex = .simplex → ∃ r ∈ g.getNodeList,
      minCostFlow g O newQ src snk algo root pv pi fuel pivots =
        match networkSimplex g O newQ src snk r (pv.getD .dantzig) pi fuel pivots with
        | .error e => .error e
        | .ok x => .ok (some x) := by
    intro ha
    unfold minCostFlow
    rw [ha]
    rcases root with _ | r
    · obtain ⟨v, hv, _⟩ := P.supply
      obtain ⟨r, l, hl⟩ := List.exists_cons_of_ne_nil (List.ne_nil_of_mem hv)
      refine ⟨r, by rw [hl]; simp, ?_⟩
      rw [hl]
      rfl
    · exact ⟨r, hroot r rfl, rfl⟩
  have simplexCase : algo.getD .simplex = .simplex → algo ≠ some .other →
      (∀ res f g', minCostFlow g O newQ src snk algo root pv pi fuel pivots = .ok (some (res, f, g')) →
        (res = true → IsMinCost g.getNodeList g.getEdgeList cap cost b f) ∧
        (res = false → ¬ ∃ f', IsFeasible g.getNodeList g.getEdgeList cap b f') ∧
        g'.getNodeList = g.getNodeList ∧ g'.getEdgeList = g.getEdgeList) ∧
      (minCostFlow g O newQ src snk algo root pv pi fuel pivots = .ok none ↔ algo = some .other) ∧
      (algo ≠ some .cycleCanceling → ∀ e, minCostFlow g O newQ src snk algo root pv pi fuel pivots = .error e →
        e = .diverge) := by
    intro ha hne
    obtain ⟨r, hr, h1⟩ := hsx ha
    obtain ⟨h2, h3, h4⟩ := hns r hr _ h1.symm
    exact ⟨h2, ⟨fun h => (h3 h).elim, fun h => (hne h).elim⟩, fun _ => h4⟩
  rcases algo with _ | _ | _ | _
  · exact simplexCase rfl (by simp)
  · exact simplexCase rfl (by simp)
  · unfold minCostFlow
    simp only [Option.getD_some]
    cases hcc : cycleCanceling g O newQ src snk fuel with
    | error e =>
      refine ⟨?_, ⟨fun h => (by cases h), fun h => (by cases h)⟩, fun h => (h rfl).elim⟩
      intro _ _ _ h; cases h
    | ok x =>
      obtain ⟨res, f, g'⟩ := x
      refine ⟨?_, ⟨fun h => (by cases h), fun h => (by cases h)⟩, fun h => (h rfl).elim⟩
      intro _ _ _ h
      cases h
      refine C36_cycle_canceling P.built P.dir hq hnew P.caps P.nonneg P.costs P.anti P.demand P.balanced P.supply P.names.1
        P.names.2.1 P.names.2.2 (fuel := fuel) ?_ hcc
      unfold Enough at hf
      generalize ((g.getEdgeList.map cap).sum + (g.getNodeList.map fun v => ((b v).natAbs : Int)).sum).toNat = K at hf ⊢
      have hKm : K + 1 ≤ (g.getEdgeList.length + 1) * (K + 1) := Nat.le_mul_of_pos_left _ (by omega)
      omega
  · refine ⟨?_, ⟨fun _ => rfl, fun _ => rfl⟩, ?_⟩
    · intro _ _ _ h; cases h
    · intro _ _ h; cases h

/-- the tree and the flow of a state -/
def treeOf (r : Except PyErr (Simplex.SState Nat)) : Option (List (Nat × Nat) × Option (List Int)) :=
  match r with
  | .ok st => some (st.t.getEdgeList, some (exNet.getEdgeList.map st.f))
  | .error _ => none

/-- a network with a cycle of arcs strictly inside the bounds -/
def cycNet : Graph Nat := costNet 4 (fun i => if i = 0 then 2 else if i = 3 then -2 else 0)
  [(0, 1, 1, 3), (1, 3, 1, 3), (0, 2, 1, 3), (2, 3, 1, 3), (1, 2, 0, 3)]

/-- non-vacuity of C60 and C61: a flow inside the bounds around a cycle, the tree and the flow that `simplex_find_tree` makes
of it; the tree for a feasible flow that is not optimal, and one pivot -/
example : (match findTree cycNet (tbl cycNet [1, 1, 1, 1, 0]) ⟨fun _ => none, fun _ => none, fun _ => none⟩ 100 with
      | .ok (t, f, _) => some (t.getEdgeList, cycNet.getEdgeList.map f) | .error _ => none) =
      some ([(0, 1), (1, 3), (0, 2)], [2, 2, 0, 0, 0]) ∧
    treeOf (setup exNet 0 (tbl exNet [2, 2, 0, 0, 0]) ⟨fun _ => none, fun _ => none, fun _ => none⟩ (fun _ => none) 100) =
      some ([(0, 2), (2, 3), (0, 1)], some [2, 2, 0, 0, 0]) ∧
    treeOf (match setup exNet 0 (tbl exNet [2, 2, 0, 0, 0]) ⟨fun _ => none, fun _ => none, fun _ => none⟩ (fun _ => none) 100 with
      | .ok st => pivotStep exNet 0 .dantzig st 100 | .error e => .error e) =
      some ([(0, 2), (2, 3), (1, 3)], some [1, 1, 1, 1, 0]) := by decide +kernel

/-- a network all of whose tree solutions are inside the bounds -/
def ndNet : Graph Nat := costNet 3 (fun i => if i = 0 then 3 else if i = 1 then -2 else -1)
  [(0, 1, 4, 5), (0, 2, 1, 5), (2, 1, 1, 5)]

/-- non-vacuity of the hypotheses of C62 -/
example : inScope ndNet (fun i => if i = 0 then 3 else if i = 1 then -2 else -1) 8 9 = true ∧
    (∀ e ∈ ndNet.getEdgeList, 0 < netCap ndNet e) ∧
    Nondegenerate ndNet.getNodeList ndNet.getEdgeList (netCap ndNet) (fun i => if i = 0 then 3 else if i = 1 then -2 else -1) := by
  refine ⟨by decide +kernel, by decide +kernel, ?_⟩
  have hV : ndNet.getNodeList = [0, 1, 2] := by decide +kernel
  have hE : ndNet.getEdgeList = [(0, 1), (0, 2), (2, 1)] := by decide +kernel
  have hcaps : netCap ndNet (0, 1) = 5 ∧ netCap ndNet (0, 2) = 5 ∧ netCap ndNet (2, 1) = 5 := by decide +kernel
  rw [hV, hE]
  intro T f hT hf hb e he
  have hm := hf.meets 0 (by simp)
  have hm2 := hf.meets 2 (by simp)
  simp only [net, List.map_cons, List.map_nil, List.sum_cons, List.sum_nil] at hm hm2
  simp at hm hm2
  have w1 := hf.within (0, 1) (by simp)
  have w2 := hf.within (0, 2) (by simp)
  have w3 := hf.within (2, 1) (by simp)
  have hsz : T.length = 2 := by have := hT.size; simpa using this
  have b1 := hb (0, 1) (by simp)
  have b2 := hb (0, 2) (by simp)
  have b3 := hb (2, 1) (by simp)
  rw [hcaps.1] at w1 b1
  rw [hcaps.2.1] at w2 b2
  rw [hcaps.2.2] at w3 b3
  -- some arc is outside the tree
  have hout : (0, 1) ∉ T ∨ (0, 2) ∉ T ∨ (2, 1) ∉ T := by
    by_contra h
    simp only [not_or, not_not] at h
    have : [(0, 1), (0, 2), (2, 1)].length ≤ T.length := by
      refine (List.Nodup.subperm (by decide) ?_).length_le
      intro x hx
      simp only [List.mem_cons, List.not_mem_nil, or_false] at hx
      rcases hx with rfl | rfl | rfl
      · exact h.1
      · exact h.2.1
      · exact h.2.2
    simp [hsz] at this
  have heE := (hT.edges e he).1
  simp only [List.mem_cons, List.not_mem_nil, or_false] at heE
  rcases heE with heE | heE | heE <;> (have heq : e = (e.1, e.2) := rfl; rw [heE] at heq; subst heq)
  · rw [hcaps.1]
    rcases hout with h | h | h
    · exact absurd he h
    · have := b2 h; omega
    · have := b3 h; omega
  · rw [hcaps.2.1]
    rcases hout with h | h | h
    · have := b1 h; omega
    · exact absurd he h
    · have := b3 h; omega
  · rw [hcaps.2.2]
    rcases hout with h | h | h
    · have := b1 h; omega
    · have := b2 h; omega
    · exact absurd he h

/-- non-vacuity of C38 and C63: the network of C36 is in scope and connected; the optimal flow by both pivot rules and with
the default arguments, and an infeasible network -/
example : inScope exNet (fun i => if i = 0 then 2 else if i = 3 then -2 else 0) 8 9 = true ∧
    resultOf (networkSimplex exNet queueOps [] 8 9 0 .dantzig (fun _ => none) 200 20) = some (true, [1, 0, 1, 2, 1], [0, 2, 3, 1]) ∧
    resultOf (networkSimplex exNet queueOps [] 8 9 3 .firstEligible (fun _ => none) 200 20) =
      some (true, [1, 0, 1, 2, 1], [0, 2, 3, 1]) ∧
    (match minCostFlow exNet queueOps [] 8 9 none none none (fun _ => none) 200 20 with
      | .ok (some x) => resultOf (.ok x) | _ => none) = some (true, [1, 0, 1, 2, 1], [0, 2, 3, 1]) ∧
    resultOf (networkSimplex (costNet 3 (fun i => if i = 0 then 3 else if i = 2 then -3 else 0) [(0, 1, 1, 3), (1, 2, 1, 2)])
      stackOps [] 8 9 0 .dantzig (fun _ => none) 200 20) = some (false, [2, 2], [0, 1, 2]) := by decide +kernel

/-- the pivot rule 'scaled', which the documentation of `min_cost_flow` offers, raises when a pivot is needed -/
theorem C63_scaled_raises : ∃ (g : Graph Nat) (cap cost : Nat × Nat → Int) (b : Nat → Int), FlowProblem g cap cost b 8 9 ∧
    (match minCostFlow g queueOps [] 8 9 (some .simplex) none (some .other) (fun _ => none) 200 20 with
      | .error e => some e | .ok _ => none) = some .exception :=
  ⟨exNet, netCap exNet, netCost exNet, fun i => if i = 0 then 2 else if i = 3 then -2 else 0,
    inScope_ok (by decide +kernel) (by decide +kernel), by decide +kernel⟩

end GiMPy
