import Verif.Props.Misc
import Verif.Props.Kruskal
import Verif.Props.Prim
import Mathlib.Combinatorics.SimpleGraph.Diam
import Mathlib.Algebra.BigOperators.Finprod
import Mathlib.Order.Interval.Finset.Nat
import Mathlib.Data.Int.Interval
import Mathlib.Combinatorics.SimpleGraph.Acyclic

/-! # C136, C137: distances, components, diameter and spanning trees in the sense of Mathlib's `SimpleGraph` -/

namespace GiMPy
open Misc Search
variable {N : Type} [DecidableEq N] {g : Graph N} {Q : Type} {O : QOps N Q} {items : Q → List N}

/-- the simple graph of an undirected graph: its nodes, and its edges without self loops -/
def nodeGraph (g : Graph N) : SimpleGraph {v // v ∈ g.getNodeList} := SimpleGraph.fromRel fun u v => g.checkEdge u v = true

theorem nodeGraph_adj (hd : g.directed = false) (u v : {v // v ∈ g.getNodeList}) :
    (nodeGraph g).Adj u v ↔ u ≠ v ∧ Step g false u v := by
  unfold nodeGraph
  rw [SimpleGraph.fromRel_adj]
  have : ∀ a b, g.checkEdge a b = true ↔ Step g false a b := fun a b => by unfold Step; simp
  rw [this, this]
  exact ⟨fun h => ⟨h.1, h.2.elim id fun h => Search.step_symm hd h⟩, fun h => ⟨h.1, .inl h.2⟩⟩

theorem walkLen_cons {R : N → N → Prop} {u v w : N} {k : Nat} (h : R u v) (hw : WalkLen R v k w) : WalkLen R u (k + 1) w := by
  induction hw with
  | nil => exact .snoc .nil h
  | snoc _ hs ih => exact .snoc ih hs

/-- a walk in Mathlib's sense is a walk -/
theorem walkLen_of_walk (hd : g.directed = false) {u v : {v // v ∈ g.getNodeList}} (p : (nodeGraph g).Walk u v) :
    WalkLen (Step g false) (u : N) p.length v := by
  induction p with
  | nil => exact .nil
  | cons h p ih => exact walkLen_cons ((nodeGraph_adj hd _ _).1 h).2 ih

/-- a walk is a walk in Mathlib's sense after removing the self loops -/
theorem walk_of_walkLen (hg : g.Wf) (hd : g.directed = false) {u : {v // v ∈ g.getNodeList}} {k : Nat} {v : N}
    (h : WalkLen (Step g false) (u : N) k v) : ∃ hv : v ∈ g.getNodeList, ∃ p : (nodeGraph g).Walk u ⟨v, hv⟩, p.length ≤ k := by
  induction h with
  | nil => exact ⟨u.2, .nil, by simp⟩
  | @snoc k v w _ hs ih =>
    obtain ⟨hv, p, hp⟩ := ih
    have hw := (Search.step_node hg hs).2
    refine ⟨hw, ?_⟩
    by_cases hvw : v = w
    · subst hvw; exact ⟨p, by omega⟩
    · have hadj : (nodeGraph g).Adj ⟨v, hv⟩ ⟨w, hw⟩ := (nodeGraph_adj hd _ _).2 ⟨by simpa using hvw, hs⟩
      exact ⟨p.concat hadj, by rw [SimpleGraph.Walk.length_concat]; omega⟩

theorem walkLen_of_reach {R : N → N → Prop} {u v : N} (h : Relation.ReflTransGen R u v) : ∃ k, WalkLen R u k v := by
  induction h with
  | refl => exact ⟨0, .nil⟩
  | tail _ hs ih => obtain ⟨k, hk⟩ := ih; exact ⟨k + 1, .snoc hk hs⟩

theorem reach_of_walkLen {R : N → N → Prop} {u v : N} {k : Nat} (h : WalkLen R u k v) : Relation.ReflTransGen R u v := by
  induction h with
  | nil => exact .refl
  | snoc _ hs ih => exact ih.tail hs

theorem reachable_iff (hg : g.Wf) (hd : g.directed = false) (u v : {v // v ∈ g.getNodeList}) :
    (nodeGraph g).Reachable u v ↔ Reach g false u v := by
  constructor
  · rintro ⟨p⟩; exact reach_of_walkLen (walkLen_of_walk hd p)
  · intro h
    obtain ⟨k, hk⟩ := walkLen_of_reach h
    obtain ⟨_, p, _⟩ := walk_of_walkLen hg hd hk
    exact ⟨p⟩

theorem leastLen_iff (hg : g.Wf) (hd : g.directed = false) (u v : {v // v ∈ g.getNodeList}) (k : Nat) :
    IsLeastLen (Step g false) (u : N) v k ↔ (nodeGraph g).Reachable u v ∧ (nodeGraph g).dist u v = k := by
  have key : ∀ {k}, IsLeastLen (Step g false) (u : N) v k → (nodeGraph g).Reachable u v ∧ (nodeGraph g).dist u v = k := by
    intro k h
    obtain ⟨_, p, hp⟩ := walk_of_walkLen hg hd h.1
    obtain ⟨q, hq⟩ := SimpleGraph.Reachable.exists_walk_length_eq_dist ⟨p⟩
    refine ⟨⟨p⟩, le_antisymm ((SimpleGraph.dist_le p).trans hp) ?_⟩
    rw [← hq]; exact h.2 _ (walkLen_of_walk hd q)
  refine ⟨key, fun ⟨h, hk⟩ => ?_⟩
  obtain ⟨q, hq⟩ := h.exists_walk_length_eq_dist
  have h1 := walkLen_of_walk hd q
  rw [hq, hk] at h1
  refine ⟨h1, fun x hx => ?_⟩
  obtain ⟨_, p, hp⟩ := walk_of_walkLen hg hd hx
  rw [← hk]
  exact (SimpleGraph.dist_le p).trans hp

/-! ## C136 -/

/-- **C136.** On an undirected graph, `search(algo='BFS'/'UnweightedSPT')` over a FIFO queue gives every node its distance from the
source in the simple graph, and paths of that length; exactly the reachable nodes have a distance. -/
theorem C136_distances (hg : Built g) (hd : g.directed = false) (hf : LawfulFIFO O items) (hO : O.isPQ = false) {algo : Algo}
    (ha : algo = .bfs ∨ algo = .unweightedSPT) (comp : Option Int) (src : {v // v ∈ g.getNodeList}) (col : SState N Q)
    (hq : items col.q = []) {fuel : Nat} (hfu : fuelBound g false ≤ fuel) :
    (∃ pred st, search g O algo false comp none (src : N) col fuel = .ok (.pred pred, st) ∧
      ∀ v : {v // v ∈ g.getNodeList}, ((nodeGraph g).Reachable src v → st.dist v = some ((nodeGraph g).dist src v : Int)) ∧
        (¬ (nodeGraph g).Reachable src v → st.dist v = none)) ∧
    (∀ dst : {v // v ∈ g.getNodeList}, (nodeGraph g).Reachable src dst →
      ∃ l st, search g O algo false comp (some (dst : N)) (src : N) col fuel = .ok (.path l, st) ∧
        l.length = (nodeGraph g).dist src dst + 1) := by
  obtain ⟨⟨pred, st, h1, h2⟩, h3⟩ := C10_bfs_shortest hg hf hO ha false comp src.2 col hq hfu
  refine ⟨⟨pred, st, h1, fun v => ⟨fun h => ?_, fun h => ?_⟩⟩, fun dst h => ?_⟩
  · obtain ⟨k, hk, hl⟩ := (h2 v).1 ((reachable_iff hg.wf hd _ _).1 h)
    rw [hk, ((leastLen_iff hg.wf hd _ _ _).1 hl).2]
  · exact (h2 v).2 fun hr => h ((reachable_iff hg.wf hd _ _).2 hr)
  · obtain ⟨l, st, k, h4, _, h5, h6⟩ := h3 dst ((reachable_iff hg.wf hd _ _).1 h)
    exact ⟨l, st, h4, by rw [h5, ((leastLen_iff hg.wf hd _ _ _).1 h6).2]⟩

/-- **C136.** `label_components` on an undirected graph: the number of components is that of the simple graph, and two nodes have the
same label exactly when they are in the same component. -/
theorem C136_components (hg : Built g) (hd : g.directed = false) (hb : LawfulBag O items) (hO : O.isPQ = false)
    {newQ : Q} (hq : items newQ = []) (num0 : Int) (st : SState N Q) {fuel : Nat} (hf : fuelBound g false ≤ fuel) :
    ∃ st', labelComponents g O newQ num0 st fuel = ⟨none, (Nat.card (nodeGraph g).ConnectedComponent : Int), st'⟩ ∧
      ∀ u v : {v // v ∈ g.getNodeList}, st'.comp u = st'.comp v ↔
        (nodeGraph g).connectedComponentMk u = (nodeGraph g).connectedComponentMk v := by
  obtain ⟨k, st', h1, hk, h2, h3, h4⟩ := C14_label_components hg hd hb hO hq num0 st hf
  have h5 : ∀ u v : {v // v ∈ g.getNodeList}, st'.comp u = st'.comp v ↔
      (nodeGraph g).connectedComponentMk u = (nodeGraph g).connectedComponentMk v := by
    intro u v
    rw [SimpleGraph.ConnectedComponent.eq, reachable_iff hg.wf hd]
    exact h4 u u.2 v v.2
  -- the components correspond to the labels 0, …, k-1
  have hcard : ((Nat.card (nodeGraph g).ConnectedComponent : Nat) : Int) = k := by
    have hlab : ∀ c : (nodeGraph g).ConnectedComponent, ∃ j, j ∈ Finset.Ico 0 k ∧ st'.comp (Quot.out c : {v // v ∈ g.getNodeList}) = some j := by
      intro c
      obtain ⟨j, hj, hj1, hj2⟩ := h2 _ (Quot.out c : {v // v ∈ g.getNodeList}).2
      exact ⟨j, Finset.mem_Ico.2 ⟨hj1, hj2⟩, hj⟩
    choose lab hlab1 hlab2 using hlab
    have hbij : Function.Bijective fun c => (⟨lab c, hlab1 c⟩ : {j // j ∈ Finset.Ico 0 k}) := by
      constructor
      · intro c c' h
        have h6 : lab c = lab c' := congrArg Subtype.val h
        have h7 := (h5 (Quot.out c) (Quot.out c')).1 (by rw [hlab2, hlab2, h6])
        have e : ∀ c : (nodeGraph g).ConnectedComponent, (nodeGraph g).connectedComponentMk (Quot.out c) = c := fun c => Quot.out_eq c
        rwa [e, e] at h7
      · rintro ⟨j, hj⟩
        obtain ⟨hj1, hj2⟩ := Finset.mem_Ico.1 hj
        obtain ⟨v, hv, hvj⟩ := h3 j hj1 hj2
        refine ⟨(nodeGraph g).connectedComponentMk ⟨v, hv⟩, Subtype.ext ?_⟩
        have h6 := (h5 (Quot.out ((nodeGraph g).connectedComponentMk ⟨v, hv⟩)) ⟨v, hv⟩).2 (Quot.out_eq _)
        rw [hlab2, hvj] at h6
        exact Option.some.inj h6
    rw [Nat.card_eq_of_bijective _ hbij, Nat.card_eq_fintype_card, Fintype.card_coe, Int.card_Ico]
    omega
  exact ⟨st', by rw [hcard]; exact h1, h5⟩

/-- **C136.** `get_diameter` of an undirected graph with nodes is 'infinity' exactly when the simple graph is not connected, and
otherwise its diameter. -/
theorem C136_diameter {q0 : Q} (hg : Built g) (hd : g.directed = false) (hne : g.getNodeList ≠ [])
    (hf : LawfulFIFO O items) (hO : O.isPQ = false) (hq : items q0 = []) (col : SState N Q) {fuel : Nat}
    (hfu : fuelBound g false ≤ fuel) :
    (getDiameter g O q0 true col fuel = .ok .infinity ↔ ¬ (nodeGraph g).Connected) ∧
    ((nodeGraph g).Connected → getDiameter g O q0 true col fuel = .ok (.num (nodeGraph g).diam)) := by
  obtain ⟨h1, h2⟩ := C48_diameter hg hd hf hO hq col hfu
  have hcon : (nodeGraph g).Connected ↔ ∀ n ∈ g.getNodeList, ∀ m ∈ g.getNodeList, Reach g false n m := by
    constructor
    · intro h n hn m hm
      exact (reachable_iff hg.wf hd ⟨n, hn⟩ ⟨m, hm⟩).1 (h.preconnected _ _)
    · intro h
      obtain ⟨v, hv⟩ := List.exists_mem_of_ne_nil _ hne
      have : Nonempty {v // v ∈ g.getNodeList} := ⟨⟨v, hv⟩⟩
      exact ⟨fun u v => (reachable_iff hg.wf hd u v).2 (h u u.2 v v.2)⟩
  refine ⟨?_, fun h => ?_⟩
  · rw [h1, hcon]
    push Not
    exact ⟨fun h => h.resolve_left hne, .inr⟩
  · obtain ⟨k, h3, ⟨n, hn, m, hm, h4⟩, h5⟩ := h2 hne (hcon.1 h)
    rw [h3]
    have : Nonempty {v // v ∈ g.getNodeList} := h.nonempty
    have : Finite {v // v ∈ g.getNodeList} := (List.finite_toSet g.getNodeList).to_subtype
    have hfin : (nodeGraph g).ediam ≠ ⊤ := SimpleGraph.connected_iff_ediam_ne_top.1 h
    obtain ⟨u, v, huv⟩ := (nodeGraph g).exists_dist_eq_diam
    congr 2
    apply le_antisymm
    · rw [← ((leastLen_iff hg.wf hd ⟨n, hn⟩ ⟨m, hm⟩ k).1 h4).2]
      exact SimpleGraph.dist_le_diam hfin
    · rw [← huv]
      exact h5 u u.2 v v.2 _ ((leastLen_iff hg.wf hd u v _).2 ⟨h.preconnected u v, rfl⟩)

/-! ## C137 -/

/-- the simple graph whose edges are those of a list -/
def listGraph (V : List N) (T : List (N × N)) : SimpleGraph {v // v ∈ V} := SimpleGraph.fromRel fun u v => ((u : N), (v : N)) ∈ T

/-- total cost of the edges of a simple graph on nodes of `V` -/
noncomputable def edgeCost {V : List N} (W : Sym2 N → Int) (T : SimpleGraph {v // v ∈ V}) : Int :=
  ∑ᶠ e ∈ T.edgeSet, W (e.map Subtype.val)

theorem listGraph_adj {V : List N} {T : List (N × N)} (u v : {v // v ∈ V}) :
    (listGraph V T).Adj u v ↔ u ≠ v ∧ EAdj T u v := by
  unfold listGraph EAdj
  rw [SimpleGraph.fromRel_adj]

theorem listGraph_reachable {V : List N} {T : List (N × N)} (hT : ∀ e ∈ T, e.1 ∈ V ∧ e.2 ∈ V) {u : {v // v ∈ V}} {v : N}
    (h : EConn T u v) : ∃ hv : v ∈ V, (listGraph V T).Reachable u ⟨v, hv⟩ := by
  induction h with
  | refl => exact ⟨u.2, .refl _⟩
  | @tail v w _ hs ih =>
    obtain ⟨hv, hr⟩ := ih
    have hw : w ∈ V := by
      rcases hs with h | h
      · exact (hT _ h).2
      · exact (hT _ h).1
    refine ⟨hw, ?_⟩
    by_cases hvw : v = w
    · subst hvw; exact hr
    · exact hr.trans (SimpleGraph.Adj.reachable ((listGraph_adj ⟨v, hv⟩ ⟨w, hw⟩).2 ⟨by simpa using hvw, hs⟩))

theorem card_nodes {V : List N} (hV : V.Nodup) : Nat.card {v // v ∈ V} = V.length := by
  rw [Nat.subtype_card V.toFinset (fun x => List.mem_toFinset), List.toFinset_card_of_nodup hV]

/-- a spanning tree is a tree in Mathlib's sense, of the same cost -/
theorem listGraph_tree {adj : N → N → Prop} {V : List N} {T : List (N × N)} (hV : V.Nodup) (h : IsSpanTree adj V T)
    (W : Sym2 N → Int) : (listGraph V T).IsTree ∧ edgeCost W (listGraph V T) = treeCost (fun u v => W s(u, v)) T := by
  classical
  have hne : V ≠ [] := by rintro rfl; have := h.size; simp at this
  have : Finite {v // v ∈ V} := (List.finite_toSet V).to_subtype
  have : Fintype {v // v ∈ V} := Fintype.ofFinite _
  obtain ⟨v0, hv0⟩ := List.exists_mem_of_ne_nil _ hne
  have : Nonempty {v // v ∈ V} := ⟨⟨v0, hv0⟩⟩
  have hcon : (listGraph V T).Connected :=
    ⟨fun u v => (listGraph_reachable (fun e he => (h.edges e he).2) (h.conn u u.2 v v.2)).2⟩
  let L := T.map fun e => s(e.1, e.2)
  let I := (listGraph V T).edgeFinset.image (Sym2.map Subtype.val)
  have hinj : Function.Injective (Sym2.map (Subtype.val : {v // v ∈ V} → N)) := Sym2.map.injective Subtype.val_injective
  have hIcard : I.card = (listGraph V T).edgeFinset.card := Finset.card_image_of_injective _ hinj
  have hsub : I ⊆ L.toFinset := by
    intro e he
    obtain ⟨e', he', rfl⟩ := Finset.mem_image.1 he
    induction e' using Sym2.ind with
    | _ a b =>
      rw [SimpleGraph.mem_edgeFinset, SimpleGraph.mem_edgeSet, listGraph_adj] at he'
      simp only [Sym2.map_mk, L, List.mem_toFinset, List.mem_map]
      rcases he'.2 with h | h
      · exact ⟨_, h, rfl⟩
      · exact ⟨_, h, Sym2.eq_swap⟩
  have h1 : I.card ≤ L.toFinset.card := Finset.card_le_card hsub
  have h2 : L.toFinset.card ≤ L.length := List.toFinset_card_le L
  have h3 : L.length = T.length := List.length_map _
  have h4 := hcon.card_vert_le_card_edgeSet_add_one
  have h5 : Nat.card (listGraph V T).edgeSet = (listGraph V T).edgeFinset.card := by
    rw [Nat.card_eq_fintype_card, ← SimpleGraph.edgeFinset_card]
  have h6 := h.size
  rw [card_nodes hV] at h4
  refine ⟨SimpleGraph.isTree_iff_connected_and_card.2 ⟨hcon, by rw [card_nodes hV]; omega⟩, ?_⟩
  have hI : I = L.toFinset := Finset.eq_of_subset_of_card_le hsub (by omega)
  have hLn : L.Nodup := Multiset.coe_nodup.1 (Multiset.toFinset_card_eq_card_iff_nodup.1 (show L.toFinset.card = L.length by omega))
  have h7 : edgeCost W (listGraph V T) = ∑ e ∈ (listGraph V T).edgeFinset, W (e.map Subtype.val) := by
    unfold edgeCost
    rw [← SimpleGraph.coe_edgeFinset, finsum_mem_coe_finset]
  have h8 : ∑ e ∈ I, W e = ∑ e ∈ (listGraph V T).edgeFinset, W (e.map Subtype.val) :=
    Finset.sum_image fun _ _ _ _ h => hinj h
  rw [h7, ← h8, hI, List.sum_toFinset _ hLn]
  simp only [L, List.map_map, treeCost]
  rfl

/-- a tree in Mathlib's sense, as a list of edges -/
theorem tree_list {adj : N → N → Prop} {V : List N} (hV : V.Nodup) {T : SimpleGraph {v // v ∈ V}} (hT : T.IsTree)
    (hadj : ∀ u v, T.Adj u v → adj u v) (W : Sym2 N → Int) :
    ∃ F, IsSpanTree adj V F ∧ treeCost (fun u v => W s(u, v)) F = edgeCost W T := by
  classical
  have : Finite {v // v ∈ V} := (List.finite_toSet V).to_subtype
  have : Fintype {v // v ∈ V} := Fintype.ofFinite _
  let F := T.edgeFinset.toList.map fun e => (((Quot.out e).1 : N), ((Quot.out e).2 : N))
  have hout : ∀ e : Sym2 {v // v ∈ V}, s((Quot.out e).1, (Quot.out e).2) = e := fun e => Quot.out_eq e
  refine ⟨F, ⟨?_, ?_, ?_⟩, ?_⟩
  · intro p hp
    obtain ⟨e, he, rfl⟩ := List.mem_map.1 hp
    refine ⟨hadj _ _ ?_, (Quot.out e).1.2, (Quot.out e).2.2⟩
    rw [← SimpleGraph.mem_edgeSet, hout, ← SimpleGraph.mem_edgeFinset]
    exact Finset.mem_toList.1 he
  · intro u hu v hv
    have hstep : ∀ a b : {v // v ∈ V}, T.Adj a b → EAdj F a b := by
      intro a b hab
      have he : s(a, b) ∈ T.edgeFinset := by rw [SimpleGraph.mem_edgeFinset, SimpleGraph.mem_edgeSet]; exact hab
      have hm : (((Quot.out s(a, b)).1 : N), ((Quot.out s(a, b)).2 : N)) ∈ F := List.mem_map.2 ⟨_, Finset.mem_toList.2 he, rfl⟩
      have ho := hout s(a, b)
      rw [Sym2.eq_iff] at ho
      rcases ho with ⟨h1, h2⟩ | ⟨h1, h2⟩ <;> rw [h1, h2] at hm
      · exact .inl hm
      · exact .inr hm
    have hr := (SimpleGraph.reachable_iff_reflTransGen _ _).1 (hT.connected.preconnected ⟨u, hu⟩ ⟨v, hv⟩)
    exact Relation.ReflTransGen.lift (p := EAdj F) (Subtype.val : {v // v ∈ V} → N) (fun a b => hstep a b) _ _ hr
  · have := hT.card_edgeFinset
    have hc := card_nodes hV
    rw [Nat.card_eq_fintype_card] at hc
    simp only [F, List.length_map, Finset.length_toList]
    omega
  · unfold edgeCost treeCost
    rw [← SimpleGraph.coe_edgeFinset, finsum_mem_coe_finset]
    simp only [F, List.map_map]
    rw [← Finset.sum_map_toList]
    congr 1
    refine List.map_congr_left fun e _ => ?_
    simp only [Function.comp]
    conv_rhs => rw [← hout e]
    rfl

/-- **C137.** On an undirected graph whose simple graph is connected, with a cost for each edge, the edges returned by
`minimum_spanning_tree_kruskal` are a tree in the sense of Mathlib inside that simple graph, and no other such tree costs less. -/
theorem C137_kruskal (hg : Built g) (hd : g.directed = false) {W : Sym2 N → Int}
    (hw : ∀ u v, g.checkEdge u v = true → g.getEdgeCost u v = .ok (W s(u, v))) (hcon : (nodeGraph g).Connected) {fuel : Nat}
    (hf : g.getNodeList.length ≤ fuel) :
    ∃ F, Kruskal.kruskal g fuel = .ok F ∧ listGraph g.getNodeList F ≤ nodeGraph g ∧ (listGraph g.getNodeList F).IsTree ∧
      edgeCost W (listGraph g.getNodeList F) = (F.map fun e => W s(e.1, e.2)).sum ∧
      ∀ T ≤ nodeGraph g, T.IsTree → edgeCost W (listGraph g.getNodeList F) ≤ edgeCost W T := by
  obtain ⟨F, _, h1, _, _, _, h2⟩ := C22_kruskal hg hd (w := fun u v => W s(u, v)) hw hf
  obtain ⟨v0⟩ := hcon.nonempty
  have h3 := h2 (List.ne_nil_of_mem v0.2) fun u hu v hv =>
    (reachable_iff hg.wf hd ⟨u, hu⟩ ⟨v, hv⟩).1 (hcon.preconnected _ _)
  have hV := nodup_nodes hg.wf
  obtain ⟨h4, h5⟩ := listGraph_tree hV h3.tree W
  refine ⟨F, h1, ?_, h4, h5, fun T hT hTt => ?_⟩
  · intro u v huv
    rw [listGraph_adj] at huv
    rw [nodeGraph_adj hd]
    refine ⟨huv.1, ?_⟩
    have hst : ∀ e ∈ F, Step g false e.1 e.2 := fun e he => by unfold Step; simpa using (h3.tree.edges e he).1
    rcases huv.2 with h | h
    · exact hst _ h
    · exact Search.step_symm hd (hst _ h)
  · obtain ⟨F', h6, h7⟩ := tree_list (adj := fun u v => g.checkEdge u v = true) hV hTt (fun u v huv => by
      have := ((nodeGraph_adj hd u v).1 (hT huv)).2
      unfold Step at this; simpa using this) W
    rw [h5, ← h7]
    exact h3.least F' h6

/-- **C137.** On an undirected graph without self loops, with a cost for each edge and no green node, the predecessor links of
`minimum_spanning_tree_prim(source)` are a tree in the sense of Mathlib on the nodes reachable from the source, made of edges of the
graph, and no other such tree costs less. -/
theorem C137_prim (hg : Built g) (hd : g.directed = false) (hp : LawfulPQ O items) {W : Sym2 N → Int}
    (hw : ∀ u v, g.checkEdge u v = true → g.getEdgeCost u v = .ok (W s(u, v))) (hnl : ∀ v, g.checkEdge v v = false)
    {src : N} (hsrc : src ∈ g.getNodeList) {q : Q} (hq : items q = []) {color : N → Color}
    (hcol : ∀ v, color v ≠ .green) {fuel : Nat} (hf : g.getNodeList.length < fuel) :
    ∃ st V, Prim.mstPrim g O src q color fuel = .ok st ∧ (∀ v, v ∈ V ↔ Reach g false src v) ∧
      (listGraph V (st.pred.entries.map fun e => (e.2, e.1))).IsTree ∧
      (∀ u v, (listGraph V (st.pred.entries.map fun e => (e.2, e.1))).Adj u v → g.checkEdge u v = true) ∧
      ∀ T : SimpleGraph {v // v ∈ V}, (∀ u v, T.Adj u v → g.checkEdge u v = true) → T.IsTree →
        edgeCost W (listGraph V (st.pred.entries.map fun e => (e.2, e.1))) ≤ edgeCost W T := by
  obtain ⟨st, V, h1, hV, h2, h3⟩ := C20_mst_prim hg hd hp (w := fun u v => W s(u, v)) hw hnl hsrc hq hcol hf
  obtain ⟨h4, h5⟩ := listGraph_tree hV h3.tree W
  refine ⟨st, V, h1, h2, h4, fun u v huv => ?_, fun T hT hTt => ?_⟩
  · have hst : ∀ e ∈ st.pred.entries.map fun e => (e.2, e.1), Step g false e.1 e.2 := fun e he => by
      unfold Step; simpa using (h3.tree.edges e he).1
    have : Step g false u v := by
      rcases ((listGraph_adj u v).1 huv).2 with h | h
      · exact hst _ h
      · exact Search.step_symm hd (hst _ h)
    unfold Step at this; simpa using this
  · obtain ⟨F', h6, h7⟩ := tree_list (adj := fun u v => g.checkEdge u v = true) hV hTt hT W
    rw [h5, ← h7]
    exact h3.least F' h6

/-! ## Examples -/

/-- undirected: a square 1-2-3-4 with the chord 1-3 and a self loop at 2 -/
def exSq : Graph Nat := runOps (Graph.init false) [Op.addEdge 1 2 [("cost", .int 4)], .addEdge 2 3 [("cost", .int 1)],
  .addEdge 3 4 [("cost", .int 2)], .addEdge 4 1 [("cost", .int 7)], .addEdge 1 3 [("cost", .int 3)], .addEdge 2 2 [("cost", .int (-5))]]

/-- non-vacuity of C136 and C137: the diameter and the tree of a connected graph with cycles and a self loop (for labels
of a graph with two components see C14) -/
example : exSq.directed = false ∧ exSq.getNodeList = [1, 2, 3, 4] ∧ (∀ n ∈ exSq.getNodeList, exSq.checkEdge n 1 || exSq.checkEdge n 3) ∧
    (match Kruskal.kruskal exSq 10 with | .ok F => some F | .error _ => none) = some [(2, 3), (3, 4), (1, 3)] ∧
    (match getDiameter exSq queueOps [] true (exCol []) 100 with | .ok (.num k) => some k | _ => none) = some 2 := by
  decide +kernel

example : (nodeGraph exSq).Connected := by
  have hnl : exSq.getNodeList = [1, 2, 3, 4] := by decide +kernel
  have h1 : 1 ∈ exSq.getNodeList := by rw [hnl]; simp
  have hadj : ∀ n ∈ exSq.getNodeList, n ≠ 1 → exSq.checkEdge n 1 = true := by rw [hnl]; decide +kernel
  have key : ∀ v : {v // v ∈ exSq.getNodeList}, (nodeGraph exSq).Reachable v ⟨1, h1⟩ := by
    intro v
    by_cases hv : v = ⟨1, h1⟩
    · rw [hv]
    · refine SimpleGraph.Adj.reachable ((nodeGraph_adj rfl _ _).2 ⟨hv, ?_⟩)
      unfold Step
      simpa using hadj v v.2 fun h => hv (Subtype.ext h)
  have : Nonempty {v // v ∈ exSq.getNodeList} := ⟨⟨1, h1⟩⟩
  exact ⟨fun u v => (key u).trans (key v).symm⟩

end GiMPy
