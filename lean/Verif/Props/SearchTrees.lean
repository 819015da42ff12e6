import Verif.Props.SimpleGraphs
import Verif.Props.SearchPic

/-! # C148: search trees are trees in the sense of Mathlib's `SimpleGraph` -/

namespace GiMPy
open Misc Search
variable {N : Type} [DecidableEq N] {g : Graph N} {Q : Type} {O : QOps N Q} {items : Q → List N}

/-- the simple graph of the links of a predecessor dictionary, on the source and the keys -/
def linkGraph (src : N) (pred : Dict N N) : SimpleGraph {v // v ∈ src :: pred.keys} :=
  listGraph (src :: pred.keys) (pred.entries.map fun e => (e.2, e.1))

theorem link_mem {pred : Dict N N} (hn : pred.keys.Nodup) {v p : N} (h : pred.get? v = some p) :
    (p, v) ∈ pred.entries.map fun e => (e.2, e.1) :=
  List.mem_map.2 ⟨(v, p), (Dict.entries_eq_of_get? pred hn v p).1 h, rfl⟩

theorem mem_link {pred : Dict N N} (hn : pred.keys.Nodup) {e : N × N} (h : e ∈ pred.entries.map fun e => (e.2, e.1)) :
    pred.get? e.2 = some e.1 := by
  obtain ⟨⟨v, p⟩, h1, rfl⟩ := List.mem_map.1 h
  exact (Dict.entries_eq_of_get? pred hn v p).2 h1

theorem pred_span {adj : N → N → Prop} {pred : Dict N N} {src : N} (hn : pred.keys.Nodup)
    (hl : ∀ v p, pred.get? v = some p → adj p v ∧ (p = src ∨ p ∈ pred.keys)) (ht : ∀ v ∈ pred.keys, LeadsTo pred src v) :
    IsSpanTree adj (src :: pred.keys) (pred.entries.map fun e => (e.2, e.1)) := by
  have hc : ∀ v, LeadsTo pred src v → EConn (pred.entries.map fun e => (e.2, e.1)) src v := by
    intro v hv
    induction hv with
    | here => exact .refl
    | step h _ ih => exact ih.tail (.inl (link_mem hn h))
  have hV : ∀ v ∈ src :: pred.keys, EConn (pred.entries.map fun e => (e.2, e.1)) src v := by
    intro v hv
    rcases List.mem_cons.1 hv with rfl | hv
    · exact .refl
    · exact hc v (ht v hv)
  refine ⟨fun e he => ?_, fun u hu v hv => (hV u hu).symm.trans (hV v hv), ?_⟩
  · have := mem_link hn he
    exact ⟨(hl _ _ this).1, List.mem_cons.2 (hl _ _ this).2, List.mem_cons.2 (.inr (Dict.mem_keys_of_get? this))⟩
  · rw [List.length_map, List.length_cons, Dict.keys_length]

theorem linkGraph_adj {pred : Dict N N} {src : N} (hn : pred.keys.Nodup) (hd : g.directed = false)
    (hl : ∀ v p, pred.get? v = some p → Step g false p v) (u v : {v // v ∈ src :: pred.keys}) (h : (linkGraph src pred).Adj u v) :
    Step g false u v := by
  rcases ((listGraph_adj u v).1 h).2 with h | h
  · exact hl _ _ (mem_link hn h)
  · exact step_symm hd (hl _ _ (mem_link hn h))

theorem chain_walk {pred : Dict N N} {src : N} (hn : pred.keys.Nodup) {P : N → Prop} {k : Nat} {v : N} (h : PC pred src P k v) :
    ∃ hv : v ∈ src :: pred.keys, ∃ p : (linkGraph src pred).Walk ⟨src, by simp⟩ ⟨v, hv⟩, p.length ≤ k := by
  induction h with
  | src => exact ⟨by simp, .nil, by simp⟩
  | @step k p v _ _ hl ih =>
    obtain ⟨hp, w, hw⟩ := ih
    have hv : v ∈ src :: pred.keys := List.mem_cons.2 (.inr (Dict.mem_keys_of_get? hl))
    refine ⟨hv, ?_⟩
    by_cases hpv : p = v
    · subst hpv; exact ⟨w, by omega⟩
    · have hadj : (linkGraph src pred).Adj ⟨p, hp⟩ ⟨v, hv⟩ :=
        (listGraph_adj ⟨p, hp⟩ ⟨v, hv⟩).2 ⟨by simpa using hpv, .inl (link_mem hn hl)⟩
      exact ⟨w.concat hadj, by rw [SimpleGraph.Walk.length_concat]; omega⟩

/-- **C148.** On an undirected graph, `search(algo='BFS'/'UnweightedSPT')` over a FIFO queue returns the links of a tree in the sense
of Mathlib, without repeated nodes, on exactly the nodes reachable from the source; its edges are edges of the graph, and the distance
of every node from the source in the tree is the distance in the graph. -/
theorem C148_bfs_tree (hg : Built g) (hd : g.directed = false) (hf : LawfulFIFO O items) (hO : O.isPQ = false) {algo : Algo}
    (ha : algo = .bfs ∨ algo = .unweightedSPT) (comp : Option Int) (src : {v // v ∈ g.getNodeList}) (col : SState N Q)
    (hq : items col.q = []) {fuel : Nat} (hfu : fuelBound g false ≤ fuel) :
    ∃ pred st, search g O algo false comp none (src : N) col fuel = .ok (.pred pred, st) ∧
      ((src : N) :: pred.keys).Nodup ∧ (linkGraph (src : N) pred).IsTree ∧
      (∀ v : {v // v ∈ g.getNodeList}, (v : N) ∈ (src : N) :: pred.keys ↔ (nodeGraph g).Reachable src v) ∧
      (∀ u v, (linkGraph (src : N) pred).Adj u v → g.checkEdge u v = true) ∧
      ∀ (v : {v // v ∈ g.getNodeList}) (hv : (v : N) ∈ (src : N) :: pred.keys),
        (linkGraph (src : N) pred).dist ⟨src, by simp⟩ ⟨v, hv⟩ = (nodeGraph g).dist src v := by
  have hp : Algo.plain algo := by rcases ha with rfl | rfl <;> trivial
  have hne : algo ≠ .dfs := by rcases ha with rfl | rfl <;> simp
  obtain ⟨st, t, h1, h2, h3, h4⟩ := search_none_ok (rev := false) hg.wf hf.toLawfulBag
    (inv_bfs (g := g) (src := (src : N)) hf hO hp hne comp col.comp) src.2 col hq (abfs_start hf hO hp comp col hq) hfu
  have hdv : ∀ v, 0 ≤ dv st v := by
    intro v
    unfold dv
    cases h : st.dist v with
    | none => simp
    | some d => obtain ⟨k, rfl, -⟩ := h3.walk v d h; simp
  have hns : (src : N) ∉ st.pred.keys := by
    intro hk
    obtain ⟨p, hp⟩ := (Dict.mem_keys' _ _).1 hk
    have e1 := h3.links _ _ hp
    have e2 := hdv p
    have e3 : dv st (src : N) = 0 := by simp [dv, h3.src0]
    omega
  have hchain : ∀ v, (v = (src : N) ∨ v ∈ st.pred.keys) → ∃ k ≤ t, PC st.pred (src : N) (fun x => st.color x = .green) k v :=
    fun v hv => h2.chain (Or.inr hne) v hv
  have hlink : ∀ v p, st.pred.get? v = some p → Step g false p v ∧ (p = (src : N) ∨ p ∈ st.pred.keys) :=
    fun v p h => ⟨(h2.link v p h).1, (h2.closed p (h2.link v p h).2).1⟩
  have hspan : IsSpanTree (Step g false) ((src : N) :: st.pred.keys) (st.pred.entries.map fun e => (e.2, e.1)) :=
    pred_span h2.pnd hlink fun v hv => by
      obtain ⟨k, _, hk⟩ := hchain v (.inr hv)
      exact leadsTo_of_pc hk
  have hnd : ((src : N) :: st.pred.keys).Nodup := List.nodup_cons.2 ⟨hns, h2.pnd⟩
  have hreach : ∀ v, v ∈ (src : N) :: st.pred.keys ↔ Reach g false (src : N) v := fun v => by
    rw [List.mem_cons]; exact D_iff_reach h2 h4 v
  have hadj := linkGraph_adj (g := g) (src := (src : N)) h2.pnd hd fun v p h => (hlink v p h).1
  have htree : (linkGraph (src : N) st.pred).IsTree := (listGraph_tree hnd hspan fun _ => 0).1
  refine ⟨st.pred, st, h1, hnd, htree, fun v => ?_, fun u v huv => ?_, fun v hv => ?_⟩
  · rw [hreach, reachable_iff hg.wf hd]
  · have := hadj u v huv
    unfold Step at this; simpa using this
  · have hr : (nodeGraph g).Reachable src v := (reachable_iff hg.wf hd _ _).2 ((hreach v).1 hv)
    refine le_antisymm ?_ ?_
    · obtain ⟨k, _, hk⟩ := hchain v (List.mem_cons.1 hv)
      obtain ⟨_, p, hpl⟩ := chain_walk h2.pnd hk
      refine (SimpleGraph.dist_le p).trans (hpl.trans ?_)
      obtain ⟨w, hw⟩ := hr.exists_walk_length_eq_dist
      have e1 := bfs_chain_len h3 hk
      rcases bfs_bound h2 h3 (walkLen_of_walk hd w) with ⟨_, h5⟩ | ⟨y, hy, _⟩
      · rw [e1, hw] at h5; omega
      · rw [h4] at hy; cases hy
    · obtain ⟨w, hw⟩ := (htree.connected.preconnected ⟨src, by simp⟩ ⟨v, hv⟩).exists_walk_length_eq_dist
      rw [← hw]
      have hmap : ∀ {a b : {v // v ∈ (src : N) :: st.pred.keys}} (w : (linkGraph (src : N) st.pred).Walk a b),
          WalkLen (Step g false) (a : N) w.length (b : N) := by
        intro a b w
        induction w with
        | nil => exact .nil
        | cons h p ih => exact walkLen_cons (hadj _ _ h) ih
      obtain ⟨_, p, hpl⟩ := walk_of_walkLen hg.wf hd (u := src) (hmap w)
      exact (SimpleGraph.dist_le p).trans hpl

/-- **C148.** On an undirected graph without self loops `search` with 'DFS', 'BFS' or 'UnweightedSPT', over any queue that is not a
`PriorityQueue`, returns the links of a tree in the sense of Mathlib on exactly the nodes reachable from the source, with edges of the
graph. -/
theorem C148_search_tree (hg : Built g) (hd : g.directed = false) (hb : LawfulBag O items) (hO : O.isPQ = false) {algo : Algo}
    (ha : algo = .dfs ∨ algo = .bfs ∨ algo = .unweightedSPT) (hnl : ∀ v, g.checkEdge v v = false) (comp : Option Int)
    (src : {v // v ∈ g.getNodeList}) (col : SState N Q) (hq : items col.q = []) {fuel : Nat} (hfu : fuelBound g false ≤ fuel) :
    ∃ pred st, search g O algo false comp none (src : N) col fuel = .ok (.pred pred, st) ∧
      ((src : N) :: pred.keys).Nodup ∧ (linkGraph (src : N) pred).IsTree ∧
      (∀ v : {v // v ∈ g.getNodeList}, (v : N) ∈ (src : N) :: pred.keys ↔ (nodeGraph g).Reachable src v) ∧
      ∀ u v, (linkGraph (src : N) pred).Adj u v → g.checkEdge u v = true := by
  have hp : Algo.plain algo := by rcases ha with rfl | rfl | rfl <;> trivial
  have hstep : ∀ v, ¬ Step g false v v := by intro v h; simp only [Step, Bool.false_eq_true, if_false, hnl v] at h
  obtain ⟨st, t, h1, h2, h3, h4⟩ := search_none_ok (rev := false) hg.wf hb
    (inv_plain (src := (src : N)) hb hO hp comp col.comp) src.2 col hq (abag_start hp comp col) hfu
  have hns : (src : N) ∉ st.pred.keys := by
    let pic : Pic N := ⟨fun _ => .black, fun _ => .none⟩
    have hmap := searchP_map (g := g) (O := O) (rev := false) (src := (src : N)) algo comp none col pic fuel
    rw [h1] at hmap
    cases hP : searchP g O algo false comp none (src : N) col pic fuel with
    | error e => rw [hP] at hmap; cases hmap
    | ok r =>
      obtain ⟨r, st', p⟩ := r
      rw [hP] at hmap
      have hst : st' = st := (Prod.mk.inj (Except.ok.inj hmap)).2
      subst hst
      rcases searchP_spec hg hb hstep hq (lab_true algo comp) (fun _ _ => trivial) hP with
        ⟨_, _, h5, _⟩ | ⟨h5, _⟩ | ⟨dst, l, st0, h5, _⟩
      · exact h5.pi.nosrc
      · cases h5
      · cases h5
  have hlink : ∀ v p, st.pred.get? v = some p → Step g false p v ∧ (p = (src : N) ∨ p ∈ st.pred.keys) :=
    fun v p h => ⟨(h2.link v p h).1, (h2.closed p (h2.link v p h).2).1⟩
  have hspan : IsSpanTree (Step g false) ((src : N) :: st.pred.keys) (st.pred.entries.map fun e => (e.2, e.1)) :=
    pred_span h2.pnd hlink fun v hv => by
      obtain ⟨k, _, hk⟩ := h2.chain (Or.inl hstep) v (.inr hv)
      exact leadsTo_of_pc hk
  have hnd : ((src : N) :: st.pred.keys).Nodup := List.nodup_cons.2 ⟨hns, h2.pnd⟩
  refine ⟨st.pred, st, h1, hnd, (listGraph_tree hnd hspan fun _ => 0).1, fun v => ?_, fun u v huv => ?_⟩
  · rw [List.mem_cons, reachable_iff hg.wf hd]; exact D_iff_reach h2 h4 v
  · have := linkGraph_adj (g := g) (src := (src : N)) h2.pnd hd (fun v p h => (hlink v p h).1) u v huv
    unfold Step at this; simpa using this

/-- a triangle with a tail, a self loop and a second component -/
def exTail : Graph Nat := runOps (Graph.init false)
  [.addEdge 0 1 [], .addEdge 0 2 [], .addEdge 2 1 [], .addEdge 2 3 [], .addEdge 1 1 [], .addEdge 4 5 []]

/-- non-vacuity of `C148_bfs_tree` -/
example : Built exTail ∧ exTail.directed = false ∧ 0 ∈ exTail.getNodeList ∧ fuelBound exTail false ≤ 40 ∧
    predOf (search exTail queueOps .bfs false none none 0 (exCol []) 40) = some [(1, 0), (2, 0), (3, 2)] :=
  ⟨⟨false, _, by intro op h; simp at h; rcases h with rfl | rfl | rfl | rfl | rfl | rfl <;> simp [Op.InScope], rfl⟩,
    by decide, by decide, by decide, by decide⟩

/-- the same graph without the self loop -/
def exTail' : Graph Nat := runOps (Graph.init false)
  [.addEdge 0 1 [], .addEdge 0 2 [], .addEdge 2 1 [], .addEdge 2 3 [], .addEdge 4 5 []]

/-- non-vacuity of `C148_search_tree` -/
example : Built exTail' ∧ exTail'.directed = false ∧ (∀ v ∈ exTail'.getNodeList, exTail'.checkEdge v v = false) ∧
    fuelBound exTail' false ≤ 40 ∧
    predOf (search exTail' stackOps .dfs false none none 0 (exCol []) 40) = some [(1, 2), (2, 0), (3, 2)] :=
  ⟨⟨false, _, by intro op h; simp at h; rcases h with rfl | rfl | rfl | rfl | rfl <;> simp [Op.InScope], rfl⟩,
    by decide, by decide, by decide, by decide⟩

end GiMPy
