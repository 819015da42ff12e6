import Verif.Props.SimplexApart

/-! # C113: network simplex on networks that are not connected -/

namespace GiMPy
open MinCost MaxFlow Simplex
variable {N : Type} [DecidableEq N] {Q : Type} {g t : Graph N} {O : QOps N Q} {items : Q → List N}
variable {cap cost f : N × N → Int} {b : N → Int} {src snk root : N}
set_option linter.unusedSectionVars false

/-- a first forest that does not join the root with the ends of all arcs: KeyError or TypeError -/
theorem simplex_raises (hn : Netw g cap cost) (hroot : root ∈ g.getNodeList) {ix ix' : Idx N} {f' : N × N → Int} {fuel : Nat}
    (h1 : findTree g f ix fuel = .ok (t, f', ix')) (h2 : TGr g t) (h3 : AtBound g t cap f')
    (hbad : ∃ e ∈ g.getEdgeList, ¬ (EConn t.getEdgeList root e.1 ∧ EConn t.getEdgeList root e.2))
    (hf : g.getNodeList.length < fuel) (hsize : 2 * t.getEdgeList.length + 2 ≤ fuel) {pv : Pivot} (hpv : pv ≠ .other) (k : Nat) :
    setup g root f ix (fun _ => none) fuel = .error .keyError ∨
    ∃ st, setup g root f ix (fun _ => none) fuel = .ok st ∧ mainLoop g root pv fuel (k + 1) st = .error .typeError := by
  have hr' : root ∈ t.getNodeList := by rw [h2.nodes]; exact hroot
  obtain ⟨s, s1, s2⟩ := stamps_ok (f := f') hn.caps hn.costs t.getEdgeList h2.sub
  obtain ⟨e, he, hne⟩ := hbad
  unfold setup
  rw [h1]
  simp only []
  rw [s1]
  simp only []
  rw [markArcs_ok hn h3 _ fun e he => he]
  simp only []
  by_cases hall : ∀ e ∈ t.getEdgeList, EConn t.getEdgeList root e.1
  · right
    obtain ⟨d, dx, r, r1, _⟩ := redraw_ok h2.built.wf h2.dir ix' (s := s) (fun e he => ⟨_, by rw [s2, if_pos he]⟩) hr' hall hsize
    rw [r1]
    simp only []
    obtain ⟨ix2, pi2, w1, w2⟩ := refresh_reach hn hroot (st := ⟨t, f', ix', fun _ => none⟩) h2 (fuel := fuel) hf
    rw [w1]
    refine ⟨_, rfl, mainLoop_raises hn ⟨e, he, ?_, ?_⟩ hpv fuel k⟩
    · exact fun h => hne ⟨hall e h, (hall e h).tail (.inl h)⟩
    · by_cases h5 : EConn t.getEdgeList root e.1
      · exact .inr (w2 _ fun h6 => hne ⟨h5, h6⟩)
      · exact .inl (w2 _ h5)
  · left
    rw [redraw_raises h2.built.wf h2.dir ix' s hr' (by push Not at hall; exact hall) hsize]

open Classical in
/-- **C113, any network.** Take a problem in the scope of `min_cost_flow`, connected or not, any node as the root, no potentials
left from earlier calls, one of the two pivot rules and a bound of at least one on the pivots.  Then `network_simplex` never
returns a wrong answer: it returns True and a feasible flow of least cost, or False and there is no feasible flow, or the pivots
did not suffice, or it raises KeyError or TypeError; the latter only if the root is not in one component with all the arcs and
the first node. -/
theorem C113_any_network (P : FlowProblem g cap cost b src snk) (hq : LawfulBag O items) {newQ : Q} (hnew : items newQ = [])
    (hroot : root ∈ g.getNodeList) {pv : Pivot} (hpv : pv ≠ .other) {fuel : Nat} (hf : Enough g cap b fuel) (pivots : Nat) :
    (∃ e, networkSimplex g O newQ src snk root pv (fun _ => none) fuel (pivots + 1) = .error e ∧ (e = .keyError ∨ e = .typeError) ∧
      ¬ Joined g root ∧ ∃ f, IsFeasible g.getNodeList g.getEdgeList cap b f) ∨
    (networkSimplex g O newQ src snk root pv (fun _ => none) fuel (pivots + 1) = .error .diverge ∧
      ∃ f, IsFeasible g.getNodeList g.getEdgeList cap b f) ∨
    ∃ res f g', networkSimplex g O newQ src snk root pv (fun _ => none) fuel (pivots + 1) = .ok (res, f, g') ∧
      (res = true → IsMinCost g.getNodeList g.getEdgeList cap cost b f) ∧
      (res = false → ¬ ∃ f', IsFeasible g.getNodeList g.getEdgeList cap b f') ∧
      g'.getNodeList = g.getNodeList ∧ g'.getEdgeList = g.getEdgeList ∧
      (∀ v x, g'.getNodeAttr v x = g.getNodeAttr v x) ∧ (∀ u v x, g'.getEdgeAttr u v x = g.getEdgeAttr u v x) := by
  by_cases hJ : Joined g root
  · exact .inr (C113_joined P hq hnew hJ hpv _ hf _)
  have hf' := hf
  unfold Enough at hf'
  generalize hK : ((g.getEdgeList.map cap).sum + (g.getNodeList.map fun v => ((b v).natAbs : Int)).sum).toNat = K at hf'
  have hKm : K + 1 ≤ (g.getEdgeList.length + 1) * (K + 1) := Nat.le_mul_of_pos_left _ (by omega)
  obtain ⟨r0, f0, g0, h1, h2, h3, h4, h5, h6, h7, h8, h9⟩ := C37_find_feasible_flow P.built P.dir hq hnew P.caps P.nonneg
    (fun u v _ => P.anti u v) P.demand P.balanced P.supply P.names.1 P.names.2.1 P.names.2.2 (fuel := fuel) (by rw [hK]; omega)
  cases r0 with
  | false =>
    refine .inr (.inr ⟨false, f0, g0, ?_, fun h => (by cases h), fun _ hex => ?_, h6, h7, h8, h9⟩)
    · unfold networkSimplex; rw [h1]
    · have := h2.2 hex; cases this
  | true =>
    have hfe0 := h3 rfl
    have hB : ∀ e ∈ g0.getEdgeList, cap e ≤ (K : Int) := by
      rw [h7]
      intro e he
      have q1 := le_sum P.nonneg he
      have q2 : 0 ≤ (g.getNodeList.map fun v => ((b v).natAbs : Int)).sum :=
        List.sum_nonneg (by intro x hx; obtain ⟨y, hy, rfl⟩ := List.mem_map.1 hx; omega)
      omega
    have hn : Netw g0 cap cost := by
      refine ⟨h4, h5, by rw [h7]; exact P.anti, ?_, ?_⟩
      · intro u v he
        rw [h7] at he
        rw [capOf_congr P.built.wf P.dir h4.wf h5 he (by rw [h7]; exact he) (h9 u v _), P.caps u v he]
      · intro u v he
        rw [h7] at he
        have := P.costs u v he
        unfold Graph.getEdgeCost at this ⊢
        rw [h9]; exact this
    have hr : root ∈ g0.getNodeList := by rw [h6]; exact hroot
    have hpos := List.length_pos_of_mem hroot
    obtain ⟨t, f', ix', k1, k2, k3, _, k4, k5, k6⟩ := findTree_forest hn (List.ne_nil_of_mem hr) (f := f0)
      (by rw [h7]; exact hfe0.within) hB ⟨fun _ => none, fun _ => none, fun _ => none⟩ (fuel := fuel) (by rw [h6]; omega)
      (by rw [h7]; omega)
    by_cases hspan : ∀ e ∈ g0.getEdgeList, EConn t.getEdgeList root e.1 ∧ EConn t.getEdgeList root e.2
    · right
      have hST : STree g0 (g0.getNodeList.filter fun v => decide (EConn t.getEdgeList root v)) t := by
        refine ⟨⟨hn.built.wf.nodup.filter _, fun v hv => (List.mem_filter.1 hv).1, fun e he => ?_⟩, k2, k3, ?_⟩
        · simp only [List.mem_filter, decide_eq_true_eq]
          exact ⟨⟨(hn.ends he).1, (hspan e he).1⟩, (hn.ends he).2, (hspan e he).2⟩
        · intro u hu v hv
          simp only [List.mem_filter, decide_eq_true_eq] at hu hv
          exact hu.2.symm.trans hv.2
      have hrW : root ∈ g0.getNodeList.filter fun v => decide (EConn t.getEdgeList root v) := by
        simp only [List.mem_filter, decide_eq_true_eq]
        exact ⟨hr, .refl⟩
      obtain ⟨st, w1, w2, w3⟩ := setup_of_tree hn hrW k1 hST k4 k5 (fun _ => none) (by rw [h6]; omega)
      have hst : IsFeasible g.getNodeList g.getEdgeList cap b st.f := by
        rw [w3]
        refine ⟨by rw [← h7]; exact k5, fun v hv => ?_⟩
        rw [← h7, k6 v, h7]; exact hfe0.meets v hv
      unfold networkSimplex
      rw [h1]
      simp only []
      rw [w1]
      simp only []
      rcases mainLoop_ok hn hrW hpv (inner := fuel) (by rw [h6]; omega) (pivots + 1) st w2 with
        h9' | ⟨st', h9', h10, _, h11, h12⟩
      · rw [h9']; exact .inl ⟨rfl, st.f, hst⟩
      · rw [h9']
        refine .inr ⟨true, st'.f, g0, rfl, fun _ => ⟨⟨?_, ?_⟩, ?_⟩, fun h => (by cases h), h6, h7, h8, h9⟩
        · have := h10.within; rw [h7] at this; exact this
        · intro v hv
          have := h11 v
          rw [h7] at this
          rw [this]; exact hst.meets v hv
        · intro f' hf'
          rw [h6, h7] at h12
          refine h12 f' hf'.within fun v hv => ?_
          have q1 := hf'.meets v hv
          have q2 := hst.meets v hv
          omega
    · left
      have hlen : t.getEdgeList.length ≤ g.getEdgeList.length := by
        rw [← h7]; exact (k2.nodup.subperm k2.sub).length_le
      have hK1 : 1 ≤ K := by
        obtain ⟨v, hv, hbv⟩ := P.supply
        have q1 : 0 ≤ (g.getEdgeList.map cap).sum :=
          List.sum_nonneg (by intro x hx; obtain ⟨y, hy, rfl⟩ := List.mem_map.1 hx; exact P.nonneg y hy)
        have q2 : ((b v).natAbs : Int) ≤ (g.getNodeList.map fun v => ((b v).natAbs : Int)).sum :=
          List.single_le_sum (by intro x hx; obtain ⟨y, hy, rfl⟩ := List.mem_map.1 hx; omega) _ (List.mem_map.2 ⟨v, hv, rfl⟩)
        omega
      have hmul2 : (g.getEdgeList.length + 1) * 2 ≤ (g.getEdgeList.length + 1) * (K + 1) := Nat.mul_le_mul_left _ (by omega)
      push Not at hspan
      obtain ⟨e, he, hne⟩ := hspan
      have hx := simplex_raises hn hr k1 k2 k4 ⟨e, he, fun h => hne h.1 h.2⟩ (by rw [h6]; omega) (by omega) hpv pivots
      unfold networkSimplex
      rw [h1]
      simp only []
      rcases hx with hx | ⟨st, hx, hy⟩
      · exact ⟨.keyError, by rw [hx], .inl rfl, hJ, f0, hfe0⟩
      · exact ⟨.typeError, by rw [hx]; simp only []; rw [hy], .inr rfl, hJ, f0, hfe0⟩

/-- **C113, the default root.** Take a problem in scope that has a feasible flow, with no potentials left from earlier calls, and
call `min_cost_flow` with network simplex and without a root.  It raises an exception if and only if some arc is not connected
to the first node: nodes without arcs do no harm. -/
theorem C113_default_root (P : FlowProblem g cap cost b src snk) (hq : LawfulBag O items) {newQ : Q} (hnew : items newQ = [])
    {algo : Option FlowAlgo} (ha : algo.getD .simplex = .simplex) {pv : Option Pivot} (hpv : pv ≠ some .other) {fuel : Nat}
    (hf : Enough g cap b fuel) (pivots : Nat) (hfe : ∃ f, IsFeasible g.getNodeList g.getEdgeList cap b f) :
    (∃ e, e ≠ .diverge ∧ minCostFlow g O newQ src snk algo none pv (fun _ => none) fuel (pivots + 1) = .error e) ↔
      ∃ r e, g.getNodeList.head? = some r ∧ e ∈ g.getEdgeList ∧ ¬ EConn g.getEdgeList r e.1 := by
  have hpv' : pv.getD .dantzig ≠ .other := by
    rcases pv with _ | pv
    · simp
    · simpa using hpv
  obtain ⟨v, hv, _⟩ := P.supply
  obtain ⟨r, l, hl⟩ := List.exists_cons_of_ne_nil (List.ne_nil_of_mem hv)
  have hr : r ∈ g.getNodeList := by rw [hl]; simp
  have hh : g.getNodeList.head? = some r := by rw [hl]; rfl
  have hm : minCostFlow g O newQ src snk algo none pv (fun _ => none) fuel (pivots + 1) =
      match networkSimplex g O newQ src snk r (pv.getD .dantzig) (fun _ => none) fuel (pivots + 1) with
      | .error e => .error e
      | .ok x => .ok (some x) := by
    unfold minCostFlow
    rw [ha, hl]
    rfl
  rw [hm]
  constructor
  · rintro ⟨e, he, h⟩
    by_contra hno
    push Not at hno
    have hJ : Joined g r := ⟨hr, fun e he => hno r e hh he, fun v hv => by rw [hh] at hv; cases hv; exact .refl⟩
    rcases C113_joined P hq hnew hJ hpv' (fun _ => none) hf (pivots + 1) with ⟨h1, _⟩ | ⟨res, f, g', h1, _⟩
    · rw [h1] at h; injection h with h; exact he h.symm
    · rw [h1] at h; cases h
  · rintro ⟨r', e, h1, h2, h3⟩
    rw [hh] at h1; cases h1
    rcases C109_not_connected P hq hnew hr ⟨e, h2, h3⟩ hfe hpv' hf pivots with h | h
    · exact ⟨.keyError, by decide, by rw [h]⟩
    · exact ⟨.typeError, by decide, by rw [h]⟩

/-! ## Examples and witnesses -/

/-- like `costNet`, with the nodes added first, in order -/
def nodeNet (n : Nat) (b : Nat → Int) (l : List (Nat × Nat × Int × Int)) : Graph Nat :=
  runOps (Graph.init true) (((List.range n).map fun i => .addNode i [("demand", .int (b i))]) ++
    l.map fun e => .addEdge e.1 e.2.1 [("cost", .int e.2.2.1), ("capacity", .int e.2.2.2)])

theorem nodeNet_built (n : Nat) (b : Nat → Int) (l : List (Nat × Nat × Int × Int)) : Built (nodeNet n b l) :=
  ⟨true, _, by intro op _; cases op <;> simp [Op.InScope], rfl⟩

theorem inScope_built {g : Graph Nat} (hg : Built g) {b : Nat → Int} {src snk : Nat} (h : inScope g b src snk = true)
    (hd : g.directed = true) : FlowProblem g (netCap g) (netCost g) b src snk := by
  obtain ⟨h1, h2, h3, h4, h5⟩ := of_decide_eq_true h
  exact ⟨hg, hd, fun u v he => (h1 _ he).1, fun e he => (h1 e he).2.1, fun u v he => (h1 _ he).2.2.1,
    fun u v he => (h1 _ he).2.2.2, h2, h3, h4, h5⟩

/-- a triangle and node 3 without arcs -/
def isoNet : Graph Nat := nodeNet 4 (fun i => if i = 0 then 1 else if i = 1 then -1 else 0)
  [(0, 1, 9, 2), (0, 2, 2, 2), (2, 1, 3, 2)]

/-- the hypotheses of `C113_joined` are met though the network is not connected; the flow goes through node 2 -/
example : FlowProblem isoNet (netCap isoNet) (netCost isoNet) (fun i => if i = 0 then 1 else if i = 1 then -1 else 0) 8 9 ∧
    Joined isoNet 0 ∧ (3 : Nat) ∈ isoNet.getNodeList ∧ (∀ e ∈ isoNet.getEdgeList, e.1 ≠ 3 ∧ e.2 ≠ 3) ∧
    (match networkSimplex isoNet stackOps [] 8 9 0 .dantzig (fun _ => none) 200 9 with
      | .ok (r, f, _) => some (r, f (0, 1), f (0, 2), f (2, 1)) | .error _ => none) = some (true, 0, 1, 1) := by
  refine ⟨inScope_built (nodeNet_built _ _ _) (by decide +kernel) (by decide +kernel), ⟨by decide +kernel, ?_, ?_⟩, by decide +kernel, by decide +kernel,
    by decide +kernel⟩
  · have hE : isoNet.getEdgeList = [(0, 1), (0, 2), (2, 1)] := by decide +kernel
    rw [hE]
    intro e he
    simp only [List.mem_cons, List.not_mem_nil, or_false] at he
    rcases he with rfl | rfl | rfl
    · exact .refl
    · exact .refl
    · exact .single (.inl (by simp))
  · have hV : isoNet.getNodeList = [0, 1, 2, 3] := by decide +kernel
    rw [hV]
    intro v hv
    cases hv
    exact .refl

/-- node 0 without arcs and the triangle on 1, 2, 3, with `c` as the capacity of the arc from 1 to 2 -/
def firstIso (c : Int) : Graph Nat := nodeNet 4 (fun i => if i = 1 then 3 else if i = 2 then -3 else 0)
  [(1, 2, 1, c), (1, 3, 2, 2), (3, 2, 3, 2)]

/-- **C113, the first node.** The condition on the first node cannot be dropped, nor is it necessary: in both networks the first
node 0 has no arcs and all arcs are connected with the root 1.  With capacity 4 `network_simplex` raises TypeError, since
`simplex_find_tree` looks for arcs from node 0 and adds none; with capacity 2 it returns, since all the arcs that it needs for a
tree are neither empty nor full.  Without a root it raises for both, since node 0 is the root. -/
theorem C113_first_node :
    (match networkSimplex (firstIso 4) stackOps [] 8 9 1 .dantzig (fun _ => none) 200 9 with | .error e => some e | .ok _ => none)
      = some .typeError ∧
    (match networkSimplex (firstIso 2) stackOps [] 8 9 1 .dantzig (fun _ => none) 200 9 with
      | .error _ => none | .ok (r, f, _) => some (r, f (1, 2), f (1, 3), f (3, 2))) = some (true, 2, 1, 1) ∧
    ∀ c ∈ [2, 4], (match minCostFlow (firstIso c) stackOps [] 8 9 none none none (fun _ => none) 200 9 with
      | .error e => some e | .ok _ => none) ≠ none := by decide +kernel

/-- the two networks are in scope, and the arcs are connected with node 1 -/
example : ∀ c ∈ [(2 : Int), 4], FlowProblem (firstIso c) (netCap (firstIso c)) (netCost (firstIso c))
    (fun i => if i = 1 then 3 else if i = 2 then -3 else 0) 8 9 ∧
    ∀ e ∈ (firstIso c).getEdgeList, EConn (firstIso c).getEdgeList 1 e.1 := by
  have hE : ∀ c ∈ [(2 : Int), 4], (firstIso c).getEdgeList = [(1, 2), (1, 3), (3, 2)] := by decide +kernel
  have hS : ∀ c ∈ [(2 : Int), 4], inScope (firstIso c) (fun i => if i = 1 then 3 else if i = 2 then -3 else 0) 8 9 = true ∧
      (firstIso c).directed = true := by decide +kernel
  intro c hc
  refine ⟨inScope_built (nodeNet_built _ _ _) (hS c hc).1 (hS c hc).2, ?_⟩
  rw [hE c hc]
  intro e he
  simp only [List.mem_cons, List.not_mem_nil, or_false] at he
  rcases he with rfl | rfl | rfl
  · exact .refl
  · exact .refl
  · exact .single (.inl (by simp))

end GiMPy
