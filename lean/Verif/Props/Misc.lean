import Verif.Lemmas.PageRank
import Std.Data.String.ToNat

/-! # C47-C50, C52, C53, C57: degrees, diameter, PageRank, clusters, hamiltonian, display mode -/

namespace GiMPy
open Search Misc
variable {N : Type} [DecidableEq N] {g : Graph N}
set_option linter.unusedSectionVars false

/-! ## C47 -/

/-- **C47 (partial).** On graphs made with an explicit `type`: for undirected graphs `get_degrees` gives for every node the
number of edge ends at it (a self loop has two); for digraphs `get_in_degrees` and `get_out_degrees` give the numbers of
incoming and outgoing arcs.  Missing from the full claim: `get_degrees` of a digraph, and graphs made without `type`; the
claim is false there, see `C47_false`. -/
theorem C47_degrees_partial (hg : Built g) :
    (g.directed = false → ∃ d, getDegrees g true = .ok (some d) ∧ d.keys = g.getNodeList ∧
      ∀ n ∈ g.getNodeList, d.get? n = some (outDeg g.getEdgeList n + inDeg g.getEdgeList n)) ∧
    (g.directed = true → ∃ d, getInOutDegrees g true true = .ok (some d) ∧ d.keys = g.getNodeList ∧
      ∀ n ∈ g.getNodeList, d.get? n = some (inDeg g.getEdgeList n)) ∧
    (g.directed = true → ∃ d, getInOutDegrees g true false = .ok (some d) ∧ d.keys = g.getNodeList ∧
      ∀ n ∈ g.getNodeList, d.get? n = some (outDeg g.getEdgeList n)) := by
  refine ⟨fun hd => ?_, fun hd => ?_, fun hd => ?_⟩
  · obtain ⟨d, h1, h2, h3⟩ := degTable_nodes hg.wf (f := g.getNeighbors)
      (k := fun n => outDeg g.getEdgeList n + inDeg g.getEdgeList n) (by
        intro n hn
        obtain ⟨l, hl, hl'⟩ := nbrs_get hn
        exact ⟨l, hl', len_nbrs_und hg.wf hd hl⟩)
    exact ⟨d, by simp [getDegrees, hd, h1], h2, h3⟩
  · obtain ⟨d, h1, h2, h3⟩ := degTable_nodes hg.wf (f := g.getInNeighbors) (k := inDeg g.getEdgeList) (by
        intro n hn
        obtain ⟨l, hl, hl'⟩ := inn_get hg.wf hd hn
        exact ⟨l, hl', len_inn hg.wf hd hl⟩)
    exact ⟨d, by simp [getInOutDegrees, hd, h1], h2, h3⟩
  · obtain ⟨d, h1, h2, h3⟩ := degTable_nodes hg.wf (f := g.getNeighbors) (k := outDeg g.getEdgeList) (by
        intro n hn
        obtain ⟨l, hl, hl'⟩ := nbrs_get hn
        exact ⟨l, hl', len_nbrs_dir hg.wf hd hl⟩)
    exact ⟨d, by simp [getInOutDegrees, hd, h1], h2, h3⟩

/-- **C47 is false**: `get_degrees` of any digraph returns None, and every degree method raises KeyError on a graph made
without the argument `type`. -/
theorem C47_false (hg : Built g) :
    (g.directed = true → getDegrees g true = .ok none) ∧
    getDegrees g false = .error .keyError ∧ ∀ b, getInOutDegrees g false b = .error .keyError := by
  refine ⟨fun hd => ?_, rfl, fun b => rfl⟩
  obtain ⟨d, h1, _⟩ := degTable_nodes hg.wf (f := bothNbrs g)
    (k := fun n => inDeg g.getEdgeList n + outDeg g.getEdgeList n) (by
      intro n hn
      obtain ⟨l, hl, hl'⟩ := inn_get hg.wf hd hn
      obtain ⟨l2, hl2, hl2'⟩ := nbrs_get hn
      exact ⟨l ++ l2, by simp [bothNbrs, hl', hl2'], by
        rw [List.length_append, len_inn hg.wf hd hl, len_nbrs_dir hg.wf hd hl2]; rfl⟩)
  simp [getDegrees, hd, h1]

/-- undirected graph with a self loop -/
def exDeg (d : Bool) : Graph Nat :=
  runOps (Graph.init d) [Op.addEdge 1 2 [], .addEdge 2 2 [], .addEdge 2 3 [], .addEdge 3 1 [], .addNode 9 []]

theorem exDeg_built (d : Bool) : Built (exDeg d) := ⟨d, _, by intro op hop; cases op <;> simp_all [Op.InScope], rfl⟩

/-- non-vacuity of C47: tables with different degrees, zero degrees and self loops -/
example : (getDegrees (exDeg false) true matches .ok (some ⟨[(1, 2), (2, 4), (3, 2), (9, 0)]⟩)) = true ∧
    (getInOutDegrees (exDeg true) true true matches .ok (some ⟨[(1, 1), (2, 2), (3, 1), (9, 0)]⟩)) = true ∧
    (getInOutDegrees (exDeg true) true false matches .ok (some ⟨[(1, 1), (2, 2), (3, 1), (9, 0)]⟩)) = true := by
  decide +kernel

/-! ## C48 -/

/-- **C48**, where the diameter is not defined: `get_diameter` returns None for every digraph (made with `type`), and raises
KeyError on an object made without `type`. -/
theorem C48_not_undirected {Q : Type} (O : QOps N Q) (q0 : Q) (col : SState N Q) (fuel : Nat) :
    (g.directed = true → getDiameter g O q0 true col fuel = .ok .none) ∧
    getDiameter g O q0 false col fuel = .error .keyError := by
  refine ⟨fun hd => ?_, ?_⟩ <;> simp [getDiameter, *]

/-- **C48.** `get_diameter` of an undirected graph (made with `type`, over a FIFO queue): if some pair of nodes is not
connected, the result is 'infinity'; otherwise it is a number that is the distance of some pair and at least the distance of
every pair (and 'infinity' for the graph without nodes). -/
theorem C48_diameter {Q : Type} {O : QOps N Q} {items : Q → List N} {q0 : Q} (hg : Built g) (hd : g.directed = false)
    (hf : LawfulFIFO O items) (hO : O.isPQ = false) (hq : items q0 = []) (col : SState N Q) {fuel : Nat}
    (hfu : fuelBound g false ≤ fuel) :
    (getDiameter g O q0 true col fuel = .ok .infinity ↔
      g.getNodeList = [] ∨ ∃ n ∈ g.getNodeList, ∃ m ∈ g.getNodeList, ¬ Reach g false n m) ∧
    (g.getNodeList ≠ [] → (∀ n ∈ g.getNodeList, ∀ m ∈ g.getNodeList, Reach g false n m) →
      ∃ k, getDiameter g O q0 true col fuel = .ok (.num k) ∧
        (∃ n ∈ g.getNodeList, ∃ m ∈ g.getNodeList, IsLeastLen (Step g false) n m k) ∧
        ∀ n ∈ g.getNodeList, ∀ m ∈ g.getNodeList, ∀ j, IsLeastLen (Step g false) n m j → j ≤ k) := by
  have hrun : getDiameter g O q0 true col fuel = diamOuter g O q0 fuel g.getNodeList col 0 .infinity := by
    simp [getDiameter, hd]
  rw [hrun]
  rcases diamOuter_ok hg hf hO hq hfu g.getNodeList [] col 0 .infinity rfl (by simp) (by simp) (Or.inl ⟨rfl, rfl, rfl⟩) with
    ⟨h1, h2⟩ | ⟨h1, ⟨h2, h3⟩ | ⟨k, h2, h3, h4⟩⟩
  · refine ⟨⟨fun _ => Or.inr h1, fun _ => h2⟩, fun _ hall => ?_⟩
    obtain ⟨n, hn, m, hm, hr⟩ := h1
    exact absurd (hall n hn m hm) hr
  · exact ⟨⟨fun _ => Or.inl h2, fun _ => h3⟩, fun hne => absurd h2 hne⟩
  · refine ⟨⟨fun hh => ?_, ?_⟩, fun _ _ => ⟨k, h2, h3, h4⟩⟩
    · rw [h2] at hh; cases hh
    · rintro (h5 | ⟨n, hn, m, hm, hr⟩)
      · obtain ⟨n, hn, _⟩ := h3
        rw [h5] at hn; cases hn
      · exact absurd (h1 n hn m hm) hr

/-- a path of four nodes, whose end nodes are not first in the node list -/
def exPath : Graph Nat := runOps (Graph.init false) [Op.addEdge 2 1 [], .addEdge 2 3 [], .addEdge 3 4 []]

/-- non-vacuity of C48 -/
example : Built exPath ∧ fuelBound exPath false ≤ 20 ∧
    getDiameter exPath queueOps [] true (exCol []) 20 = .ok (.num 3) ∧
    getDiameter (exDeg false) queueOps [] true (exCol []) 20 = .ok .infinity :=
  ⟨⟨false, _, by intro op hop; simp at hop; rcases hop with rfl | rfl | rfl <;> simp [Op.InScope], rfl⟩, by decide,
    by decide +kernel, by decide +kernel⟩

/-! ## C49, C57 -/

/-- **C49.** `page_rank` of a digraph, over the rational numbers: for all damping factors, numbers of iterations and
tolerances it returns (no division by zero, no missing key) a table with exactly the nodes as keys; if `0 ≤ d ≤ 1`, every
value is at least `(1-d)/N`. -/
theorem C49_page_rank (hg : Built g) (hd : g.directed = true) (d : ℚ) (k : Nat) (md : ℚ) :
    ∃ pr b, pageRank g d k md = .ok (pr, b) ∧ pr.keys = g.getNodeList ∧
      (0 ≤ d → d ≤ 1 → ∀ n ∈ g.getNodeList, ∃ x, pr.get? n = some x ∧ (1 - d) / g.getNodeList.length ≤ x) := by
  unfold pageRank
  by_cases h0 : g.getNodeList.length = 0
  · rw [if_pos h0]
    have h0' := List.length_eq_zero_iff.1 h0
    exact ⟨.empty, true, rfl, by simp [h0'], by simp [h0']⟩
  · rw [if_neg h0]
    obtain ⟨pr, b, j, h1, h2, _⟩ := prLoop_ok hg.wf hd d ((1 - d) / g.getNodeList.length) md k _ _
      (fromKeys_holds hg.wf (1 / (g.getNodeList.length : ℚ)))
    refine ⟨pr, b, h1, h2.keys, fun hd0 hd1 n hn => ⟨_, h2.val n hn, ?_⟩⟩
    have hN : (0 : ℚ) < g.getNodeList.length := by exact_mod_cast Nat.pos_of_ne_zero h0
    refine iter_ge hg.wf hd hd0 (div_nonneg (by linarith) hN.le) j _ (fun _ => ?_) n
    exact div_le_div_of_nonneg_right (by linarith) hN.le

/-- **C57.** For a damping factor `0 ≤ d < 1` and a positive tolerance the iteration of `page_rank` converges: from some
number of iterations on the loop ends by the test `diff < min_delta`; and whenever it ends so, the table is close to the
solution of the PageRank equations: the errors add up to at most `d / (1 - d) * min_delta`. -/
theorem C57_page_rank_converges (hg : Built g) (hd : g.directed = true) {d md : ℚ} (hd0 : 0 ≤ d) (hd1 : d < 1)
    (hmd : 0 < md) :
    (∃ K, ∀ k, K ≤ k → ∃ pr, pageRank g d k md = .ok (pr, true)) ∧
    ∀ k pr, pageRank g d k md = .ok (pr, true) → ∃ x : N → ℚ, (∀ n ∈ g.getNodeList, pr.get? n = some (x n)) ∧
      ∀ p, IsPageRank g.getNodeList g.getEdgeList d p →
        (g.getNodeList.map fun n => |x n - p n|).sum ≤ d / (1 - d) * md := by
  have h1d : 0 < 1 - d := by linarith
  unfold pageRank
  by_cases h0 : g.getNodeList.length = 0
  · simp only [if_pos h0]
    have h0' := List.length_eq_zero_iff.1 h0
    refine ⟨⟨0, fun _ _ => ⟨_, rfl⟩⟩, fun k pr _ => ⟨fun _ => 0, by simp [h0'], fun p _ => ?_⟩⟩
    simp only [h0', List.map_nil, List.sum_nil]
    positivity
  · simp only [if_neg h0]
    have hk := fun k => prLoop_ok hg.wf hd d ((1 - d) / g.getNodeList.length) md k _ _
      (fromKeys_holds hg.wf (1 / (g.getNodeList.length : ℚ)))
    constructor
    · obtain ⟨i, hi⟩ := conv (minv := (1 - d) / g.getNodeList.length) hg.wf hd hd0 hd1 hmd
        (fun _ => 1 / (g.getNodeList.length : ℚ))
      refine ⟨i + 1, fun k hik => ?_⟩
      obtain ⟨pr, b, j, h1, _, _, h4⟩ := hk k
      rcases b with _ | _
      · exact absurd (h4 rfl i (by omega)) (not_le.2 hi)
      · exact ⟨pr, h1⟩
    · intro k pr hpr
      obtain ⟨pr', b, j, h1, h2, h3, _⟩ := hk k
      rw [hpr] at h1
      injection h1 with h1
      injection h1 with h5 h6
      subst h5 h6
      obtain ⟨z, hz, hlt⟩ := h3 rfl
      rw [hz] at h2
      refine ⟨_, h2.val, fun p hp => ?_⟩
      have e1 := err_le (minv := (1 - d) / g.getNodeList.length) hg.wf hd hd0
        (sw (codeF g d ((1 - d) / g.getNodeList.length)) g.getNodeList z) p
        (fun n hn => by rw [← rankOf_eq hg.wf hd]; exact hp n hn)
      have e2 := resid (minv := (1 - d) / g.getNodeList.length) hg.wf hd hd0 z
      have e3 := mul_le_mul_of_nonneg_left hlt.le hd0
      rw [← List.sum_toFinset _ (nodup_nodes hg.wf)]
      rw [div_mul_eq_mul_div, le_div_iff₀ h1d, mul_comm]
      exact (e1.trans e2).trans e3

/-- the values of a table -/
def prOf : Except PyErr (Dict Nat ℚ × Bool) → Option (List (Nat × ℚ) × Bool)
  | .ok (d, b) => some (d.entries, b)
  | .error _ => none

/-- digraph with a node without successor: 1→2, 2→1, 1→3, 4→1 -/
def exPR : Graph Nat := runOps (Graph.init true) [Op.addEdge 1 2 [], .addEdge 2 1 [], .addEdge 1 3 [], .addEdge 4 1 []]

/-- non-vacuity of C49 and C57: the loop ends by the test with non-uniform values; a solution of the equations exists -/
example : prOf (pageRank exPR (1/2) 20 (1/10)) = some ([(1, 147/512), (2, 403/2048), (3, 403/2048), (4, 1/8)], true) ∧
    IsPageRank exPR.getNodeList exPR.getEdgeList (1/2) (fun n => if n = 1 then 2/7 else if n = 4 then 1/8 else 11/56) := by
  unfold IsPageRank
  decide +kernel

/-! ## C50 -/

/-- a call of `create_cluster` with its own dictionary -/
structure CCall (N : Type) where
  nodes : List N
  attrs : Dict String (Val N)
  nodeAttrs : Dict String (Val N)

/-- the calls one after the other -/
def createAll (s : ClusterState N) : List (CCall N) → Except PyErr (ClusterState N)
  | [] => .ok s
  | c :: l => match createCluster s c.nodes (some c.attrs) c.nodeAttrs with
    | .error e => .error e
    | .ok s => createAll s l

/-- the names that clusters should get: the given one, or c0, c1, ... -/
def cnames : Nat → List (CCall N) → List (Val N)
  | _, [] => []
  | k, c :: l => match c.attrs.get? "name" with
    | some nm => nm :: cnames k l
    | none => autoName k :: cnames (k + 1) l

/-- the cluster that a call should make -/
def Made (c : CCall N) (nm : Val N) (x : Cluster N) : Prop :=
  x.nodes = c.nodes ∧ x.nodeAttrs = c.nodeAttrs ∧ ∀ s, x.attrs.get? s = if s = "name" then some nm else c.attrs.get? s

theorem autoName_inj {j k : Nat} (h : (autoName j : Val N) = autoName k) : j = k := by
  unfold autoName at h
  injection h with h
  have := String.append_right_inj "c" |>.1 h
  exact Nat.repr_injective this

theorem cnames_unnamed (l : List (CCall N)) (h : ∀ c ∈ l, c.attrs.get? "name" = none) (k : Nat) :
    cnames k l = (List.range' k l.length).map autoName := by
  induction l generalizing k with
  | nil => rfl
  | cons c l ih =>
    simp only [cnames, h c (by simp), List.length_cons, List.range'_succ, List.map_cons]
    rw [ih (fun c hc => h c (by simp [hc]))]

theorem createAll_ok (l : List (CCall N)) : ∀ (s : ClusterState N), (s.clusters.keys ++ cnames s.count l).Nodup →
    .str "name" ∉ s.clusters.keys ++ cnames s.count l →
    ∃ s', createAll s l = .ok s' ∧ s'.clusters.keys = s.clusters.keys ++ cnames s.count l ∧
      (∀ k ∈ s.clusters.keys, s'.clusters.get? k = s.clusters.get? k) ∧
      List.Forall₂ (fun c nm => ∃ x, s'.clusters.get? nm = some x ∧ Made c nm x) l (cnames s.count l) := by
  induction l with
  | nil => intro s _ _; exact ⟨s, rfl, by simp [cnames], fun _ _ => rfl, .nil⟩
  | cons c l ih =>
    intro s hnd hname
    have step : ∀ (nm : Val N) (at' : Dict String (Val N)) (k' : Nat) (dflt : Dict String (Val N)),
        cnames s.count (c :: l) = nm :: cnames k' l →
        createCluster s c.nodes (some c.attrs) c.nodeAttrs = .ok ⟨s.clusters.set nm ⟨c.nodes, at', c.nodeAttrs⟩, k', dflt⟩ →
        Made c nm ⟨c.nodes, at', c.nodeAttrs⟩ →
        ∃ s', createAll s (c :: l) = .ok s' ∧ s'.clusters.keys = s.clusters.keys ++ cnames s.count (c :: l) ∧
          (∀ k ∈ s.clusters.keys, s'.clusters.get? k = s.clusters.get? k) ∧
          List.Forall₂ (fun c nm => ∃ x, s'.clusters.get? nm = some x ∧ Made c nm x) (c :: l) (cnames s.count (c :: l)) := by
      intro nm at' k' dflt hcn hcr hmade
      rw [hcn] at hnd hname ⊢
      have hnm : nm ∉ s.clusters.keys := fun hh => (List.nodup_append.1 hnd).2.2 nm hh nm (by simp) rfl
      have hkeys := Dict.keys_set_of_not_mem (⟨c.nodes, at', c.nodeAttrs⟩ : Cluster N) hnm
      obtain ⟨s', h1, h2, h3, h4⟩ := ih ⟨s.clusters.set nm ⟨c.nodes, at', c.nodeAttrs⟩, k', dflt⟩
        (by simp only [hkeys]; simpa using hnd) (by simp only [hkeys]; simpa using hname)
      refine ⟨s', by simp only [createAll, hcr]; exact h1, by rw [h2]; simp only [hkeys]; simp, ?_, .cons ?_ h4⟩
      · intro k hk
        rw [h3 k (by simp [Dict.mem_keys_set, hk])]
        exact Dict.get?_set_ne _ _ fun hh => hnm (hh ▸ hk)
      · exact ⟨_, by rw [h3 nm (by simp [Dict.mem_keys_set])]; exact Dict.get?_set_self _ _ _, hmade⟩
    cases hn : c.attrs.get? "name" with
    | some nm =>
      refine step nm c.attrs s.count s.dflt (by simp [cnames, hn]) ?_ ⟨rfl, rfl, fun t => ?_⟩
      · have : s.clusters.contains (.str "name") = false := by
          rw [← Bool.not_eq_true, Dict.contains_iff]
          exact fun hh => hname (by simp [hh])
        simp [createCluster, hn, this]
      · by_cases ht : t = "name"
        · subst ht; simp [hn]
        · simp [ht]
    | none =>
      refine step (autoName s.count) (c.attrs.set "name" (autoName s.count)) (s.count + 1) s.dflt (by simp [cnames, hn]) ?_
        ⟨rfl, rfl, fun t => ?_⟩
      · simp [createCluster, hn]
      · rw [Dict.get?_set]
        by_cases ht : "name" = t
        · subst ht; simp
        · rw [if_neg ht, if_neg (Ne.symm ht)]

/-- **C50 (partial).** A history of `create_cluster` calls, each with a `cluster_attrs` dictionary of its own, on a new graph:
if the names (given, or c0, c1, ...) are all different and none is the word 'name', every call succeeds, the clusters have
exactly those names in that order, and every cluster is the one its call asked for; calls without names always satisfy the
condition.  Missing from the full claim: the default dictionary, see `C50_false`. -/
theorem C50_create_cluster_partial (l : List (CCall N)) (dflt : Dict String (Val N)) :
    ((cnames 0 l).Nodup → .str "name" ∉ cnames 0 l → ∃ s, createAll ⟨.empty, 0, dflt⟩ l = .ok s ∧
      s.clusters.keys = cnames 0 l ∧
      List.Forall₂ (fun c nm => ∃ x, s.clusters.get? nm = some x ∧ Made c nm x) l (cnames 0 l)) ∧
    ((∀ c ∈ l, c.attrs.get? "name" = none) → (cnames 0 l).Nodup ∧ .str "name" ∉ cnames 0 l) := by
  constructor
  · intro h1 h2
    obtain ⟨s, h3, h4, _, h5⟩ := createAll_ok l ⟨.empty, 0, dflt⟩ (by simpa using h1) (by simpa using h2)
    exact ⟨s, h3, by simpa using h4, h5⟩
  · intro h
    rw [cnames_unnamed l h]
    refine ⟨List.Nodup.map (fun _ _ => autoName_inj) (List.nodup_range'), ?_⟩
    intro hh
    obtain ⟨k, _, hk⟩ := List.mem_map.1 hh
    unfold autoName at hk
    injection hk with hk
    have := congrArg (fun s => s.toList.head?) hk
    simp at this

/-- the cluster table after two calls -/
def twoCalls (s : ClusterState Nat) (c c' : List Nat × Option (Dict String (Val Nat))) :
    Option (List (Val Nat × List Nat)) :=
  match createCluster s c.1 c.2 .empty with
  | .error _ => none
  | .ok s => match createCluster s c'.1 c'.2 .empty with
    | .error _ => none
    | .ok s => some (s.clusters.entries.map fun p => (p.1, p.2.nodes))

/-- **C50 is false**: two calls that omit `cluster_attrs` leave one cluster, the second; after a cluster that the user named
'c0' an unnamed one replaces it; and a repeated name replaces the cluster instead of raising. -/
theorem C50_false :
    twoCalls ⟨.empty, 0, .empty⟩ ([1, 2], none) ([3], none) = some [(.str "c0", [3])] ∧
    twoCalls ⟨.empty, 0, .empty⟩ ([1, 2], some ⟨[("name", .str "c0")]⟩) ([3], some .empty) = some [(.str "c0", [3])] ∧
    twoCalls ⟨.empty, 0, .empty⟩ ([1, 2], some ⟨[("name", .str "x")]⟩) ([3], some ⟨[("name", .str "x")]⟩) =
      some [(.str "x", [3])] := by
  decide +kernel

/-- non-vacuity of C50: a named call between unnamed ones -/
example : (cnames 0 [⟨[1, 2], .empty, .empty⟩, ⟨[3], ⟨[("name", .str "x")]⟩, .empty⟩, ⟨[4], .empty, .empty⟩] : List (Val Nat)) =
    [.str "c0", .str "x", .str "c1"] := by decide +kernel

/-! ## C52 -/

/-- `l` is a Hamiltonian path of `g` from `src`, to `dest` if that is given -/
def IsHamPath (g : Graph N) (src : N) (dest : Option N) (l : List N) : Prop :=
  l.head? = some src ∧ l.Nodup ∧ (∀ v ∈ g.getNodeList, v ∈ l) ∧ l.IsChain (Step g false) ∧
    ∀ d, dest = some d → l.getLast? = some d

theorem hamLoop_eq (visited : N → Bool) (l : List N) :
    hamLoop visited l = if ∃ v ∈ l, visited v = false then .error .attributeError else .ok false := by
  induction l with
  | nil => simp [hamLoop]
  | cons a l ih =>
    simp only [hamLoop, ih]
    by_cases h : visited a = true
    · simp [h]
    · simp [h]

/-- the neighbours of a node -/
theorem nbr_step (hg : Built g) {n : N} (hn : n ∈ g.getNodeList) :
    ∃ l, g.getNeighbors n = .ok l ∧ ∀ v, v ∈ l ↔ Step g false n v := by
  obtain ⟨l, h1, h2⟩ := nbrs_ok hg.wf false hn
  exact ⟨l, by simpa [nbrs] using h1, h2⟩

theorem hamiltonian_eq (hg : Built g) (h2 : 2 ≤ g.getNodeList.length) {src : N} (hs : src ∈ g.getNodeList)
    (dest : Option N) :
    ((∃ v, v ≠ src ∧ Step g false src v) ∧ hamiltonian g src dest (fun _ => false) = .error .attributeError) ∨
    ((∀ v, Step g false src v → v = src) ∧ hamiltonian g src dest (fun _ => false) = .ok false) := by
  obtain ⟨l, h3, h4⟩ := nbr_step hg hs
  have hn : g.hasNode src = true := by
    unfold Graph.hasNode; rw [Dict.contains_iff, hg.wf.nodesEq]; exact hs
  have hfirst : hamDone g src dest = false := by
    cases dest with
    | none => simp only [hamDone, decide_eq_false_iff_not]; omega
    | some d => simp only [hamDone, decide_eq_false_iff_not]; omega
  have hrun : hamiltonian g src dest (fun _ => false) = hamLoop (fun v => false || decide (v = src)) l := by
    unfold hamiltonian
    rw [hfirst]
    simp [hn, h3]
  rw [hrun, hamLoop_eq]
  by_cases hex : ∃ v, v ≠ src ∧ Step g false src v
  · left
    obtain ⟨v, hv, hv'⟩ := hex
    exact ⟨⟨v, hv, hv'⟩, if_pos ⟨v, (h4 v).2 hv', by simpa using hv⟩⟩
  · right
    have hall : ∀ v, Step g false src v → v = src := fun v hv => by
      by_contra hh; exact hex ⟨v, hh, hv⟩
    refine ⟨hall, if_neg ?_⟩
    rintro ⟨v, hv, hv'⟩
    simp [hall v ((h4 v).1 hv)] at hv'

theorem ham_neighbor (h2 : 2 ≤ g.getNodeList.length) (hnd : g.getNodeList.Nodup) {src : N} {dest : Option N} {l : List N}
    (h : IsHamPath g src dest l) : ∃ v, v ≠ src ∧ Step g false src v := by
  obtain ⟨h3, h4, h5, h6, _⟩ := h
  rcases l with _ | ⟨a, _ | ⟨b, l⟩⟩
  · cases h3
  · have := (List.Nodup.subperm hnd (fun v hv => h5 v hv)).length_le
    simp at this; omega
  · obtain rfl : a = src := by simpa using h3
    refine ⟨b, ?_, ?_⟩
    · rintro rfl; simp at h4
    · exact (List.isChain_cons_cons.1 h6).1

/-- **C52 (partial).** On a graph with at least two nodes, none marked as visited: the call raises AttributeError exactly when
the source has a neighbour other than itself; otherwise it returns False, and then there is no Hamiltonian path.  In
particular, if `hamiltonian` returns, its answer is right.  Missing from the full claim: it does not always return, and the
answer for one node is wrong, see `C52_false`. -/
theorem C52_hamiltonian_partial (hg : Built g) (h2 : 2 ≤ g.getNodeList.length) {src : N} (hs : src ∈ g.getNodeList)
    (dest : Option N) :
    ((∃ v, v ≠ src ∧ Step g false src v) → hamiltonian g src dest (fun _ => false) = .error .attributeError) ∧
    ((∀ v, Step g false src v → v = src) → hamiltonian g src dest (fun _ => false) = .ok false ∧
      ¬ ∃ l, IsHamPath g src dest l) ∧
    ∀ b, hamiltonian g src dest (fun _ => false) = .ok b → (b = true ↔ ∃ l, IsHamPath g src dest l) := by
  have hno : (∀ v, Step g false src v → v = src) → ¬ ∃ l, IsHamPath g src dest l := by
    rintro h3 ⟨l, hl⟩
    obtain ⟨v, hv, hv'⟩ := ham_neighbor h2 (nodup_nodes hg.wf) hl
    exact absurd (h3 v hv') hv
  rcases hamiltonian_eq hg h2 hs dest with ⟨⟨w, h5, h6⟩, h3⟩ | ⟨h3, h4⟩
  · refine ⟨fun _ => h3, fun h => absurd (h w h6) h5, fun b h => ?_⟩
    rw [h3] at h; cases h
  · refine ⟨?_, fun _ => ⟨h4, hno h3⟩, fun b h => ?_⟩
    · rintro ⟨v, hv, hv'⟩
      exact absurd (h3 v hv') hv
    · rw [h4] at h
      obtain rfl : false = b := by injection h
      exact ⟨fun hh => by simp at hh, fun hh => absurd hh (hno h3)⟩

/-- **C52 is false**: on every graph with at least two nodes that has a Hamiltonian path from the source, `hamiltonian`
raises AttributeError (it calls `self.tsp`, which does not exist); and on a graph with one node it returns False. -/
theorem C52_false :
    (∀ (g : Graph N), Built g → 2 ≤ g.getNodeList.length → ∀ src ∈ g.getNodeList, ∀ dest l, IsHamPath g src dest l →
      hamiltonian g src dest (fun _ => false) = .error .attributeError) ∧
    (hamiltonian (runOps (Graph.init false) [Op.addNode 1 []]) 1 none (fun _ => false) = .ok false ∧
      IsHamPath (runOps (Graph.init false) [Op.addNode 1 []]) 1 none [1]) := by
  refine ⟨?_, by decide +kernel, ?_⟩
  · intro g hg h2 src hs dest l hl
    rcases hamiltonian_eq hg h2 hs dest with ⟨_, h3⟩ | ⟨h3, _⟩
    · exact h3
    · obtain ⟨v, hv, hv'⟩ := ham_neighbor h2 (nodup_nodes hg.wf) hl
      exact absurd (h3 v hv') hv
  · refine ⟨rfl, by decide, by decide +kernel, by simp, by simp⟩

/-- **C52**, a source that is no node: the call raises AttributeError, except that it returns True on a graph without nodes if
no destination is given, and on every graph with one node if the destination is the source (though that node is another one).
The columns `visited` do not matter. -/
theorem C52_missing_source (hg : Built g) {src : N} (hs : src ∉ g.getNodeList) (dest : Option N) (visited : N → Bool) :
    hamiltonian g src dest visited =
      if (dest = none ∧ g.getNodeList = []) ∨ (dest = some src ∧ g.getNodeList.length = 1) then .ok true
      else .error .attributeError := by
  have hn : g.hasNode src = false := by
    rw [Bool.eq_false_iff]
    unfold Graph.hasNode
    rw [ne_eq, Dict.contains_iff, hg.wf.nodesEq]; exact hs
  have hd : hamDone g src dest = true ↔ (dest = none ∧ g.getNodeList = []) ∨ (dest = some src ∧ g.getNodeList.length = 1) := by
    cases dest with
    | none => simp [hamDone]
    | some d => simp only [hamDone, decide_eq_true_eq, reduceCtorEq, false_and, false_or, Option.some.injEq, eq_comm (a := src)]
  unfold hamiltonian
  by_cases h : hamDone g src dest = true
  · rw [if_pos h, if_pos (hd.1 h)]
  · rw [if_neg h, if_neg (fun h' => h (hd.2 h')), if_pos (by simp [hn])]

example : Built exPath ∧ 7 ∉ exPath.getNodeList :=
  ⟨⟨false, _, by intro op hop; simp at hop; rcases hop with rfl | rfl | rfl <;> simp [Op.InScope], rfl⟩, by decide⟩

/-- non-vacuity of C52: a digraph where the call returns, and one with a Hamiltonian path -/
example : Built exPR ∧ 2 ≤ exPR.getNodeList.length ∧ hamiltonian exPR 3 none (fun _ => false) = .ok false ∧
    Built exPath ∧ IsHamPath exPath 1 (some 4) [1, 2, 3, 4] :=
  ⟨⟨true, _, by intro op _; cases op <;> simp [Op.InScope], rfl⟩, by decide, by decide +kernel,
    ⟨false, _, by intro op hop; simp at hop; rcases hop with rfl | rfl | rfl <;> simp [Op.InScope], rfl⟩,
    rfl, by decide, by decide +kernel, by unfold Step; decide +kernel, by simp⟩

/-! ## C53 -/

/-- the display mode after a call -/
def modeAfter {α : Type} (m : DM α) (s : Mode) : Mode := EStateM.Result.state (m.run s)

/-- **C53 (partial).** `max_flow`: whenever the method returns (and whatever its body does with the mode), a mode given as the
argument `display` is set for the body and the earlier one is in force afterwards.  The same for `print_nodes` and
`traverse` of binary trees, if the earlier mode is not the empty string.  Missing: the other methods, and calls that raise,
see `C53_false`. -/
theorem C53_display_restored_partial {α : Type} (d s : Mode) (body : DM α) {x : α} {s' : Mode}
    (h : body.run d = .ok x s') :
    (withRestore (some d) body).run s = .ok x s ∧
    (s ≠ "" → (withRestoreTruthy (some d) body).run s = .ok x s) := by
  have h' : body d = .ok x s' := h
  constructor
  · simp [withRestore, EStateM.run, bind, EStateM.bind, get, getThe, MonadStateOf.get, EStateM.get, set, EStateM.set, h',
      pure, EStateM.pure]
  · intro hs
    simp [withRestoreTruthy, EStateM.run, bind, EStateM.bind, get, getThe, MonadStateOf.get, EStateM.get, set, EStateM.set,
      h', hs, pure, EStateM.pure]

/-- **C53 is false**: for every method that begins by `set_display_mode(display)` (`dfs`, `search`, Prim, Kruskal, push and
relabel, `hamiltonian`) and leaves the mode alone afterwards, the mode after the call is the argument; and `max_flow` does not
restore the mode if its body raises. -/
theorem C53_false {α : Type} (d s : Mode) (hds : d ≠ s) :
    (∀ body : DM α, (∀ t, modeAfter body t = t) → modeAfter (withSet (some d) body) s ≠ s) ∧
    (∀ (body : DM α) e, body.run d = .error e d → modeAfter (withRestore (some d) body) s ≠ s) := by
  constructor
  · intro body hb
    have h1 : modeAfter (withSet (some d) body) s = modeAfter body d := rfl
    rw [h1, hb]; exact hds
  · intro body e he
    have he' : body d = .error e d := he
    have h1 : modeAfter (withRestore (some d) body) s = d := by
      simp [modeAfter, withRestore, EStateM.run, bind, EStateM.bind, get, getThe, MonadStateOf.get, EStateM.get, set,
        EStateM.set, he', EStateM.Result.state]
    rw [h1]; exact hds

/-- non-vacuity of C53: a body that changes the mode and one that raises -/
example : ((set "off" : DM Unit).run "pygame" = .ok () "off") ∧ ((throw .valueError : DM Unit).run "pygame" =
    .error .valueError "pygame") := ⟨rfl, rfl⟩

end GiMPy
