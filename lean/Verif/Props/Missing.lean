import Verif.Props.MaxFlow
import Verif.Props.Prim
import Verif.Model.Preflow
import Verif.Model.LabelCorrecting
import Verif.Model.Components
import Verif.Model.Dfs

/-! # C138: names that are not nodes -/

namespace GiMPy
open MaxFlow Search
variable {N : Type} [DecidableEq N] {Q QS : Type} {g : Graph N} {items : Q → List N}
variable {cap : N × N → Int} {src sink : N}

theorem missing_hasNode (hg : Built g) (hs : src ∉ g.getNodeList) : ¬ g.hasNode src = true := by
  unfold Graph.hasNode
  rw [Dict.contains_iff, hg.wf.nodesEq]; exact hs

theorem missing_neighbors (hs : src ∉ g.getNodeList) : g.getNeighbors src = .error .keyError := by
  unfold Graph.getNeighbors
  rw [(Dict.get?_eq_none_iff _ _).2 (show src ∉ g.neighbors.keys from hs)]

/-- **C138 (partial).** The traversals, the shortest path and spanning tree methods and the flow methods raise an exception
when the node to start from is not a node of the graph, and `max_flow_preflowpush` when the sink is not. -/
theorem C138_missing_source_partial (hg : Built g) (hs : src ∉ g.getNodeList) (fuel : Nat) :
    (∀ (O : QOps N Q) algo rev comp dest col, search g O algo rev comp dest src col fuel = .error .attributeError) ∧
    (∀ (O : QOps N Q) comp col, bfs g O comp src col fuel = .error .attributeError) ∧
    (∀ comp st dc fc, Dfs.dfs g comp (fuel + 1) src st dc fc = .error .attributeError ∧
      Dfs.dfsT g comp (fuel + 1) src st dc fc = .error .attributeError) ∧
    (∀ dest st, Dfs.acyclicShortestPath g src dest st (fuel + 1) = .error .attributeError) ∧
    (∀ (O : QOps N Q) q color, Prim.mstPrim g O src q color fuel = .error .attributeError) ∧
    (∀ inf, LC.fifo g inf src fuel = .error .attributeError) ∧
    (∀ (O : QOps N Q) (items : Q → List N) newQ t, LawfulBag O items → items newQ = [] →
      maxFlow g O newQ src t (fuel + 1) = .error .keyError) ∧
    (∀ (OS : QOps N QS) col (O : QOps N Q) has newQ algo t,
      Preflow.preflowPush g OS col O has newQ algo t src fuel = .error .attributeError ∧
      ∃ e, Preflow.preflowPush g OS col O has newQ algo src t fuel = .error e) := by
  have hn := missing_hasNode hg hs
  have hse : ∀ {Q : Type} (O : QOps N Q) algo rev comp dest col,
      search g O algo rev comp dest src col fuel = .error .attributeError := by
    intro Q O algo rev comp dest col
    unfold search; rw [if_pos hn]
  have hdf : ∀ comp st dc fc, Dfs.dfs g comp (fuel + 1) src st dc fc = .error .attributeError := by
    intro comp st dc fc
    rw [Dfs.dfs, if_pos hn]
  refine ⟨fun O => hse O, ?_, ?_, ?_, ?_, ?_, ?_, ?_⟩
  · intro O comp col
    unfold bfs; rw [hse]
  · intro comp st dc fc
    exact ⟨hdf _ _ _ _, by rw [Dfs.dfsT, if_pos hn]⟩
  · intro dest st
    unfold Dfs.acyclicShortestPath; rw [hdf]
  · intro O q color
    unfold Prim.mstPrim; rw [if_neg hn]
  · intro inf
    unfold LC.fifo; rw [if_neg hn]
  · intro O items newQ t hb hq
    have hi : items (O.push newQ src) ≠ [] := by
      intro h
      have := (hb.mem_push newQ src src).2 (Or.inl rfl)
      rw [h] at this; cases this
    obtain ⟨x, hx, hpk⟩ := hb.peek_mem _ hi
    have hxs : x = src := by
      rcases (hb.mem_push _ _ _).1 hx with h | h
      · exact h
      · rw [hq] at h; cases h
    subst hxs
    unfold maxFlow
    rw [MaxFlow.loop, MaxFlow.find, if_neg (fun h => hi ((hb.isEmpty_iff _).1 h)), hpk]
    simp only []
    by_cases ht : x = t
    · subst ht
      rw [if_pos rfl]
      simp only []
      rw [if_pos (by rw [Dict.contains_iff, Dict.mem_keys_set]; exact Or.inl rfl), bottleneck, Dict.get?_set_self]
    · rw [if_neg ht, missing_neighbors hs]
  · intro OS col O has newQ algo t
    refine ⟨by unfold Preflow.preflowPush; rw [hse], ?_⟩
    unfold Preflow.preflowPush
    cases search g OS .unweightedSPT true none none t col fuel with
    | error e => exact ⟨e, rfl⟩
    | ok r => exact ⟨.keyError, by simp only []; rw [missing_neighbors hs]⟩

/-- **C138 is false for the sink of `max_flow`**: the method does not notice that the sink is not a node and leaves the flow
that is 0 everywhere, as if the sink could not be reached. -/
theorem C138_missing_sink_unnoticed {O : QOps N Q} (hg : Built g) (hd : g.directed = true) (hb : LawfulBag O items) {newQ : Q}
    (hq : items newQ = []) (hc : ∀ u v, (u, v) ∈ g.getEdgeList → g.capOf u v = .ok (cap (u, v)))
    (hs : src ∈ g.getNodeList) (ht : sink ∉ g.getNodeList) {fuel : Nat} (hf : g.getNodeList.length < fuel) :
    maxFlow g O newQ src sink fuel = .ok fun _ => 0 := by
  obtain ⟨k, rfl⟩ : ∃ k, fuel = k + 1 := ⟨fuel - 1, by omega⟩
  have h0 : XInv g cap (fun _ => 0) items src (fun _ _ => True) k
      (⟨O.push newQ src, Dict.empty.set src none, [src]⟩ : XState N Q) := by
    have hi : ∀ v, v ∈ items (O.push newQ src) ↔ v = src := by intro v; rw [hb.mem_push, hq]; simp
    refine ⟨?_, .base (Dict.get?_set_self _ _ _), ?_, ?_, ?_, ?_⟩
    · intro v; rw [Dict.mem_keys_set]; simp [Dict.empty, Dict.keys]
    · intro v hv; obtain rfl := List.mem_singleton.1 hv; exact hs
    · intro v hv; simpa using (hi v).1 hv
    · intro u hu; exact Or.inl ((hi u).2 (List.mem_singleton.1 hu))
    · have := hb.len_push newQ src
      rw [hq] at this
      simp only [List.length_nil, List.length_singleton] at this ⊢; omega
  obtain ⟨st, e1, e2, e3, e4, e5⟩ := find_ok (sink := sink) hg.wf hd hb hc k _ h0
  unfold maxFlow
  rw [MaxFlow.loop, e1]
  simp only []
  rw [if_neg (by rw [Dict.contains_iff, e3]; exact fun h => ht (e4 _ h))]

/-- **C138.** `max_flow` with the same node as source and sink raises a KeyError. -/
theorem C138_source_is_sink {O : QOps N Q} (hb : LawfulBag O items) {newQ : Q} (hq : items newQ = []) (fuel : Nat) :
    maxFlow g O newQ src src (fuel + 1) = .error .keyError := by
  have hi : items (O.push newQ src) ≠ [] := by
    intro h
    have := (hb.mem_push newQ src src).2 (Or.inl rfl)
    rw [h] at this; cases this
  obtain ⟨x, hx, hpk⟩ := hb.peek_mem _ hi
  have hxs : x = src := by
    rcases (hb.mem_push _ _ _).1 hx with h | h
    · exact h
    · rw [hq] at h; cases h
  subst hxs
  unfold maxFlow
  rw [MaxFlow.loop, MaxFlow.find, if_neg (fun h => hi ((hb.isEmpty_iff _).1 h)), hpk]
  simp only []
  rw [if_pos trivial]
  simp only []
  rw [if_pos (by rw [Dict.contains_iff, Dict.mem_keys_set]; exact Or.inl rfl), bottleneck, Dict.get?_set_self]

/-- non-vacuity of C138: a network with the arcs 0-1-2 and the name 9 -/
example : (9 : Nat) ∉ (runOps (Graph.init true) [Op.addEdge 0 1 [], Op.addEdge (1 : Nat) 2 []]).getNodeList ∧
    flowsOf (runOps (Graph.init true) [Op.addEdge 0 1 [], Op.addEdge (1 : Nat) 2 []])
      (maxFlow (runOps (Graph.init true) [Op.addEdge 0 1 [], Op.addEdge (1 : Nat) 2 []]) stackOps [] 0 9 10) = some [0, 0] ∧
    flowsOf (runOps (Graph.init true) [Op.addEdge 0 1 [], Op.addEdge (1 : Nat) 2 []])
      (maxFlow (runOps (Graph.init true) [Op.addEdge 0 1 [], Op.addEdge (1 : Nat) 2 []]) stackOps [] 9 0 10) = none ∧
    flowsOf (runOps (Graph.init true) [Op.addEdge 0 1 [], Op.addEdge (1 : Nat) 2 []])
      (maxFlow (runOps (Graph.init true) [Op.addEdge 0 1 [], Op.addEdge (1 : Nat) 2 []]) stackOps [] 0 2 10) =
      some [10000, 10000] := by
  decide +kernel

end GiMPy
