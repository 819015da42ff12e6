import Verif.Lemmas.Components

/-! # C08-C14: search, shortest paths, Prim search, components -/

namespace GiMPy
open Search
variable {N : Type} [DecidableEq N] {Q : Type}
variable {g : Graph N} {O : QOps N Q} {items : Q → List N}

/-- **C08.** `search` without destination, over any bag-like queue that is not a `PriorityQueue`: it returns, the keys
of the predecessor dictionary together with the source are exactly the reachable nodes, links are edges, and (no self
loops, or `algo` not 'DFS') links lead back to the source. -/
theorem C08_search_tree (hg : Built g) (hb : LawfulBag O items) (hO : O.isPQ = false) {algo : Algo}
    (ha : algo = .dfs ∨ algo = .bfs ∨ algo = .unweightedSPT) (rev : Bool) (comp : Option Int) {src : N}
    (hsrc : src ∈ g.getNodeList) (col : SState N Q) (hq : items col.q = []) {fuel : Nat}
    (hf : fuelBound g rev ≤ fuel) :
    ∃ pred st, search g O algo rev comp none src col fuel = .ok (.pred pred, st) ∧
      (∀ v, (v = src ∨ v ∈ pred.keys) ↔ Reach g rev src v) ∧
      (∀ v p, pred.get? v = some p → Step g rev p v) ∧
      ((∀ v, ¬ Step g rev v v) ∨ algo ≠ .dfs → ∀ v ∈ pred.keys, LeadsTo pred src v) := by
  have hp : Algo.plain algo := by rcases ha with rfl | rfl | rfl <;> trivial
  obtain ⟨st, t, h1, h2, h3, h4⟩ := search_none_ok (rev := rev) hg.wf hb
    (inv_plain (src := src) hb hO hp comp col.comp) hsrc col hq (abag_start hp comp col) hf
  refine ⟨st.pred, st, h1, D_iff_reach h2 h4, fun v p hv => (h2.link v p hv).1, ?_⟩
  intro hc v hv
  obtain ⟨k, _, hk⟩ := h2.chain hc v (Or.inr hv)
  exact leadsTo_of_pc hk

/-- **C09.** `search` with a destination, no self loops (or `algo` not 'DFS'): the result is a path exactly when the
destination is reachable, and then it is a path from source to destination; otherwise the result is None. -/
theorem C09_search_path (hg : Built g) (hb : LawfulBag O items) (hO : O.isPQ = false) {algo : Algo}
    (ha : algo = .dfs ∨ algo = .bfs ∨ algo = .unweightedSPT) (rev : Bool)
    (hl : (∀ v, ¬ Step g rev v v) ∨ algo ≠ .dfs) (comp : Option Int) {src : N}
    (hsrc : src ∈ g.getNodeList) (dst : N) (col : SState N Q) (hq : items col.q = []) {fuel : Nat}
    (hf : fuelBound g rev ≤ fuel) :
    (Reach g rev src dst ∧ ∃ l st, search g O algo rev comp (some dst) src col fuel = .ok (.path l, st) ∧
      IsPath (Step g rev) src dst l) ∨
    (¬ Reach g rev src dst ∧ ∃ st, search g O algo rev comp (some dst) src col fuel = .ok (.none, st)) := by
  have hp : Algo.plain algo := by rcases ha with rfl | rfl | rfl <;> trivial
  by_cases hd : dst = src
  · subst hd
    exact Or.inl ⟨.refl, [dst], _, search_self hg.wf hsrc algo comp col (by unfold fuelBound at hf; omega),
      rfl, rfl, by simp⟩
  · rcases search_some_ok (rev := rev) hg.wf hb (inv_plain (src := src) hb hO hp comp col.comp) hsrc hl col hq
      (abag_start hp comp col) hf hd with ⟨st, t, h1, _, _, _, h2⟩ | ⟨_, st, _, _, l, h1, _, _, _, _, _, _, h2, _, _, h3, _⟩
    · exact Or.inr ⟨h2, st, h1⟩
    · exact Or.inl ⟨h2, l, st, h1, h3⟩

/-- digraph used in the examples: s→a, s→b, a→b, b→s, x→y -/
def exG : Graph Nat := runOps (Graph.init true) [Op.addEdge 0 1 [("cost", .int 5)], .addEdge 0 2 [("cost", .int 9)],
  .addEdge 1 2 [("cost", .int 3)], .addEdge 2 0 [("cost", .int 0)], .addEdge 7 8 [("cost", .int 1)]]

/-- fresh columns -/
def exCol {Q : Type} (q : Q) : SState Nat Q := ⟨q, .empty, fun _ => .black, fun _ => none, fun _ => none, fun _ => none⟩

/-- the returned path, if any -/
def pathOf : Except PyErr (SearchRes Nat × SState Nat Q) → Option (List Nat)
  | .ok (.path l, _) => some l
  | _ => none

/-- the returned predecessor dictionary, if any -/
def predOf : Except PyErr (SearchRes Nat × SState Nat Q) → Option (List (Nat × Nat))
  | .ok (.pred d, _) => some d.entries
  | _ => none

theorem exG_built : Built exG := ⟨true, _, by intro op _; cases op <;> simp [Op.InScope], rfl⟩

/-- non-vacuity of C08 and C09: the hypotheses hold of a graph with several routes and an unreachable part -/
example : 0 ∈ exG.getNodeList ∧ fuelBound exG false ≤ 20 ∧
    predOf (search exG stackOps .dfs false none none 0 (exCol []) 20) = some [(1, 0), (2, 0)] ∧
    pathOf (search exG stackOps .dfs false none (some 2) 0 (exCol []) 20) = some [0, 2] ∧
    pathOf (search exG stackOps .dfs false none (some 8) 0 (exCol []) 20) = none := by decide
example : ∀ v, ¬ Step exG false v v := by
  intro v h
  have : (v, v) ∈ exG.edgeAttr.keys := by
    simpa [Step, Graph.checkEdge, show exG.directed = true by decide, Dict.contains_iff] using h
  have h2 : exG.edgeAttr.keys = [(0, 1), (0, 2), (1, 2), (2, 0), (7, 8)] := by decide
  rw [h2] at this
  simp at this
  omega

/-- The exclusion of self loops in C09 is needed: with edges s→a, a→a, a→t the DFS search from s to t never ends (the
path reconstruction runs around the self loop forever). -/
theorem C09_self_loop_diverges :
    ∃ g : Graph Nat, Built g ∧ Reach g false 0 2 ∧ ∀ fuel,
      (match search g stackOps .dfs false none (some 2) 0 (exCol []) fuel with
        | .error e => some e | .ok _ => none) = some PyErr.diverge := by
  refine ⟨runOps (Graph.init true) [Op.addEdge 0 1 [], .addEdge 1 1 [], .addEdge 1 2 []],
    ⟨true, _, by intro op _; cases op <;> simp [Op.InScope], rfl⟩, ?_, ?_⟩
  · exact (Relation.ReflTransGen.single (show Step _ false 0 1 from by unfold Step; decide)).tail
      (show Step _ false 1 2 from by unfold Step; decide)
  · have hrec : ∀ (pred : Dict Nat Nat) (p1 : pred.get? 1 = some 1) (f : Nat) (path : List Nat),
        reconstruct pred 0 f 1 path = .error .diverge := by
      intro pred p1 f
      induction f with
      | zero => intro path; rfl
      | succ f ih => intro path; rw [reconstruct, if_neg (by decide), p1]; exact ih _
    intro fuel
    match fuel with
    | 0 => decide
    | 1 => decide
    | 2 => decide
    | f + 3 =>
      obtain ⟨st, h1, h2⟩ : ∃ st : SState Nat (List Nat), (∀ f, loop (runOps (Graph.init true)
          [Op.addEdge 0 1 [], .addEdge 1 1 [], .addEdge 1 2 []]) stackOps .dfs false none (some 2) 0 (f + 3)
          (start stackOps .dfs none 0 (exCol [])) = .ok (true, st)) ∧ st.pred.get? 1 = some 1 ∧ st.pred.get? 2 = some 1 :=
        ⟨_, fun f => rfl, rfl, rfl⟩
      have hr : resetEdges (runOps (Graph.init true) [Op.addEdge 0 1 [], .addEdge 1 1 [], .addEdge 1 2 []]) false
          (runOps (Graph.init true) [Op.addEdge 0 1 [], .addEdge 1 1 [], .addEdge 1 2 []]).getNodeList = .ok () := rfl
      unfold search
      rw [if_neg (by decide), hr]
      simp only [show ¬ (some 2 = some 0) by decide, if_false, h1, if_true]
      rw [reconstruct, if_neg (by decide), h2.2]
      simp only []
      rw [hrec _ h2.1]

/-- **C10.** `search(algo='BFS'/'UnweightedSPT')` over a FIFO queue: without destination every reachable node's
`distance` is the least number of edges; with a destination the returned path has that number of edges. -/
theorem C10_bfs_shortest (hg : Built g) (hf : LawfulFIFO O items) (hO : O.isPQ = false) {algo : Algo}
    (ha : algo = .bfs ∨ algo = .unweightedSPT) (rev : Bool) (comp : Option Int) {src : N}
    (hsrc : src ∈ g.getNodeList) (col : SState N Q) (hq : items col.q = []) {fuel : Nat}
    (hfu : fuelBound g rev ≤ fuel) :
    (∃ pred st, search g O algo rev comp none src col fuel = .ok (.pred pred, st) ∧
      ∀ v, (Reach g rev src v → ∃ k : Nat, st.dist v = some (k : Int) ∧ IsLeastLen (Step g rev) src v k) ∧
        (¬ Reach g rev src v → st.dist v = none)) ∧
    (∀ dst, Reach g rev src dst → ∃ l st k, search g O algo rev comp (some dst) src col fuel = .ok (.path l, st) ∧
      IsPath (Step g rev) src dst l ∧ l.length = k + 1 ∧ IsLeastLen (Step g rev) src dst k) := by
  have hp : Algo.plain algo := by rcases ha with rfl | rfl <;> trivial
  have hne : algo ≠ .dfs := by rcases ha with rfl | rfl <;> simp
  constructor
  · obtain ⟨st, t, h1, h2, h3, h4⟩ := search_none_ok (rev := rev) hg.wf hf.toLawfulBag
      (inv_bfs (g := g) (src := src) hf hO hp hne comp col.comp) hsrc col hq (abfs_start hf hO hp comp col hq) hfu
    refine ⟨st.pred, st, h1, fun v => ⟨fun hr => ?_, fun hr => ?_⟩⟩
    · have hD := (D_iff_reach h2 h4 v).2 hr
      obtain ⟨d, hd⟩ := Option.isSome_iff_exists.1 ((h3.dist v).2 hD)
      obtain ⟨k, rfl, hk⟩ := h3.walk v d hd
      refine ⟨k, hd, hk, ?_⟩
      intro x hx
      rcases bfs_bound h2 h3 hx with ⟨_, h5⟩ | ⟨y, hy, _⟩
      · simp only [dv, hd, Option.getD_some] at h5; omega
      · rw [h4] at hy; cases hy
    · have hD : ¬ D src st v := fun h => hr ((D_iff_reach h2 h4 v).1 h)
      have := (h3.dist v).not.2 hD
      simpa using this
  · intro dst hr
    by_cases hd : dst = src
    · subst hd
      exact ⟨[dst], _, 0, search_self hg.wf hsrc algo comp col (by unfold fuelBound at hfu; omega),
        ⟨rfl, rfl, by simp⟩, rfl, .nil, fun x _ => Nat.zero_le x⟩
    · rcases search_some_ok (rev := rev) hg.wf hf.toLawfulBag
        (inv_bfs (g := g) (src := src) hf hO hp hne comp col.comp) hsrc (Or.inr hne) col hq
        (abfs_start hf hO hp comp col hq) hfu hd with
        ⟨st, t, _, _, _, _, h2⟩ | ⟨st0, st, t, k, l, h1, hB, hA, hpk, hI, _, _, _, hpc, _, h3, h4⟩
      · exact absurd hr h2
      · obtain ⟨m, hm, hwm⟩ := walkLen_of_path h3
        have hmin : ∀ x, WalkLen (Step g rev) src x dst → k ≤ x := by
          intro x hx
          have hk := bfs_chain_len hA hpc
          rcases bfs_bound hB hA hx with ⟨_, h5⟩ | ⟨y, hy, h5⟩
          · omega
          · have hh : (items st0.q).head? = some dst := by rw [← hf.peek_eq]; exact hpk
            have hs := hA.sorted
            cases hl : items st0.q with
            | nil => rw [hl] at hy; cases hy
            | cons a l' =>
              rw [hl] at hh hs hy
              obtain rfl := Option.some.inj hh
              rcases List.mem_cons.1 hy with rfl | h
              · omega
              · have := (List.pairwise_cons.1 hs).1 _ h
                omega
        have : m = k := by have := hmin m hwm; omega
        subst this
        exact ⟨l, st, m, h1, h3, hm, hwm, hmin⟩

/-- non-vacuity of C10 -/
example : pathOf (search exG queueOps .bfs false none (some 2) 1 (exCol []) 20) = some [1, 2] ∧
    pathOf (search exG queueOps .bfs false none (some 1) 2 (exCol []) 20) = some [2, 0, 1] := by decide

/-- **C11.** `search(algo='Dijkstra')` with non-negative integer costs and no self loops, over any priority queue
whatever its tie-breaking: `priority` is the least cost of a walk, and the returned path is a cheapest path. -/
theorem C11_dijkstra (hg : Built g) (hp : LawfulPQ O items) {w : N → N → Int}
    (hw : ∀ u v, g.checkEdge u v = true → g.getEdgeCost u v = .ok (w u v))
    (hpos : ∀ u v, g.checkEdge u v = true → 0 ≤ w u v) (hnl : ∀ v, g.checkEdge v v = false)
    (comp : Option Int) {src : N} (hsrc : src ∈ g.getNodeList) (col : SState N Q) (hq : items col.q = []) {fuel : Nat}
    (hf : fuelBound g false ≤ fuel) :
    (∃ pred st, search g O .dijkstra false comp none src col fuel = .ok (.pred pred, st) ∧
      (∀ v, (v = src ∨ v ∈ pred.keys) ↔ Reach g false src v) ∧
      ∀ v, Reach g false src v → ∃ c, st.prio v = some c ∧ IsLeastCost (Step g false) w src v c) ∧
    (∀ dst, Reach g false src dst → ∃ l st, search g O .dijkstra false comp (some dst) src col fuel =
      .ok (.path l, st) ∧ IsPath (Step g false) src dst l ∧ IsLeastCost (Step g false) w src dst (pathCost w l) ∧
      (dst ≠ src → st.prio dst = some (pathCost w l))) ∧
    (∀ dst, ¬ Reach g false src dst → ∃ st, search g O .dijkstra false comp (some dst) src col fuel =
      .ok (.none, st)) := by
  have hnl' : NoLoop g false := by intro v h; simp only [Step, Bool.false_eq_true, if_false, hnl v] at h
  have I := inv_dijkstra (src := src) (rev := false) hp (w := w) hw hpos hnl' comp
  have hA0 : ADij g false w O items src (start O .dijkstra comp src col) := adij_start hp hsrc comp col hq
  refine ⟨?_, ?_, ?_⟩
  · obtain ⟨st, t, h1, h2, h3, h4⟩ := search_none_ok hg.wf hp.toLawfulBag I hsrc col hq hA0 hf
    refine ⟨st.pred, st, h1, D_iff_reach h2 h4, fun v hr => ?_⟩
    have hD := (D_iff_reach h2 h4 v).2 hr
    have hgr : st.color v = .green := (h2.disc v hD).resolve_right (by rw [h4]; simp)
    obtain ⟨c, hc⟩ := Option.isSome_iff_exists.1 (h3.pr v hgr)
    have he : ev O st v = c := by rw [ev_green hgr, hc]; rfl
    refine ⟨c, hc, he ▸ h3.walk v hD, fun x hx => ?_⟩
    rcases dij_bound hpos h2 h3.toCDij hx with ⟨_, h5⟩ | ⟨y, hy, _⟩
    · omega
    · rw [h4] at hy; cases hy
  · intro dst hr
    by_cases hd : dst = src
    · subst hd
      refine ⟨[dst], _, search_self hg.wf hsrc .dijkstra comp col (by unfold fuelBound at hf; omega),
        ⟨rfl, rfl, by simp⟩, ⟨.nil, ?_⟩, fun h => absurd rfl h⟩
      intro x hx
      show (0 : Int) ≤ x
      have key : ∀ x v, WalkCost (Step g false) w dst x v → (0 : Int) ≤ x := by
        intro x v hx
        clear hr
        induction hx with
        | nil => exact Int.le_refl _
        | snoc _ hs ih => have := hpos _ _ hs; omega
      exact key x _ hx
    · rcases search_some_ok hg.wf hp.toLawfulBag I hsrc trivial col hq hA0 hf hd with
        ⟨st, t, _, _, _, _, h2⟩ | ⟨st0, st, t, k, l, h1, hB, hA, hpk, hI, hng, hst, _, hpc, hrec, h3, _⟩
      · exact absurd hr h2
      · have hcost : pathCost w l = ev O st0 dst := by
          have := reconstruct_cost (w := w) (f := ev O st0) hpc hA.src0 hA.nosrc hA.links [] hrec
          simpa [pathCost] using this
        refine ⟨l, st, h1, h3, ⟨hcost ▸ hA.walk dst (hB.item dst hI), fun x hx => ?_⟩, fun _ => ?_⟩
        · rw [hcost]
          rcases dij_bound hpos hB hA.toCDij hx with ⟨_, h5⟩ | ⟨y, hy, h5⟩
          · exact h5
          · have := peek_le hp hpk hI y hy
            rw [ev_open hng]
            rw [ev_open (hA.ng y hy)] at h5
            omega
        · rw [hst]
          simp only [hp.isPQ, if_true, upd_same]
          rw [hcost, ev_open hng]
          obtain ⟨p, hpp⟩ := Option.isSome_iff_exists.1 ((hp.prio_isSome st0.q dst).2 hI)
          simp [qv, hpp]
  · intro dst hr
    have hd : dst ≠ src := by rintro rfl; exact hr .refl
    rcases search_some_ok hg.wf hp.toLawfulBag I hsrc trivial col hq hA0 hf hd with
      ⟨st, t, h1, _⟩ | ⟨_, _, _, _, _, _, _, _, _, _, _, _, h, _⟩
    · exact ⟨st, h1⟩
    · exact absurd h hr

/-- non-vacuity of C11: the cheapest path is not the one with fewest edges -/
example : pathOf (search exG pqOps' .dijkstra false none (some 2) 0 (exCol ⟨.empty, by decide⟩) 20) = some [0, 1, 2] ∧
    (∀ e ∈ exG.getEdgeList, exG.getEdgeCost e.1 e.2 = .ok ([5, 9, 3, 0, 1][exG.getEdgeList.idxOf e]!)) := by decide

/-- **C12.** `search(algo='Prim')` on an undirected graph without self loops, over any priority queue: the predecessor
links form a minimum spanning tree of the source's connected component. -/
theorem C12_prim_search (hg : Built g) (hd : g.directed = false) (hp : LawfulPQ O items) {w : N → N → Int}
    (hw : ∀ u v, g.checkEdge u v = true → g.getEdgeCost u v = .ok (w u v)) (hnl : ∀ v, g.checkEdge v v = false)
    (comp : Option Int) {src : N} (hsrc : src ∈ g.getNodeList) (col : SState N Q) (hq : items col.q = []) {fuel : Nat}
    (hf : fuelBound g false ≤ fuel) :
    ∃ pred st V, search g O .prim false comp none src col fuel = .ok (.pred pred, st) ∧
      V.Nodup ∧ (∀ v, v ∈ V ↔ Reach g false src v) ∧
      IsMinSpanTree (fun u v => g.checkEdge u v = true) w V (pred.entries.map fun e => (e.2, e.1)) := by
  classical
  have hnl' : NoLoop g false := by intro v h; simp only [Step, Bool.false_eq_true, if_false, hnl v] at h
  let V₀ := g.getNodeList.filter fun v => decide (Reach g false src v)
  have hV₀ : ∀ v, v ∈ V₀ ↔ Reach g false src v := by
    intro v
    simp only [V₀, List.mem_filter, decide_eq_true_eq, and_iff_right_iff_imp]
    exact fun h => reach_node hg.wf h hsrc
  have I := inv_prim (src := src) (rev := false) hp (w := w) hw (fun u v h => step_symm hd h)
    (fun u v h => cost_symm hg.wf hd hw h) hnl' comp V₀ hV₀
  obtain ⟨st, t, h1, h2, h3, h4⟩ := search_none_ok hg.wf hp.toLawfulBag I hsrc col hq
    (aprim_start hp hsrc comp col hq V₀) hf
  have hDr := D_iff_reach h2 h4
  have hgreen : ∀ v, D src st v → st.color v = .green := fun v hv => (h2.disc v hv).resolve_right (by rw [h4]; simp)
  have hV₀n : V₀.Nodup := hg.wf.nodup.filter _
  refine ⟨st.pred, st, V₀, h1, hV₀n, hV₀, ?_⟩
  set T := st.pred.entries.map fun e => (e.2, e.1) with hT
  have hmemT : ∀ p v, (p, v) ∈ T ↔ st.pred.get? v = some p := by
    intro p v
    rw [Dict.entries_eq_of_get? _ h2.pnd]
    simp [hT]
  have hnd : T.Nodup := by
    have : st.pred.entries.Nodup := List.Nodup.of_map _ h2.pnd
    refine this.map ?_
    rintro ⟨a, b⟩ ⟨c, d⟩ h
    simp only [Prod.mk.injEq] at h
    simp [h.1, h.2]
  have hperm : (src :: st.pred.keys).Perm V₀ := by
    refine (List.perm_ext_iff_of_nodup (List.nodup_cons.2 ⟨h3.nosrc, h2.pnd⟩) hV₀n).2 ?_
    intro v; rw [hV₀, ← hDr, List.mem_cons]; rfl
  have htree : IsSpanTree (fun u v => g.checkEdge u v = true) V₀ T := by
    refine ⟨?_, ?_, ?_⟩
    · rintro ⟨p, v⟩ he
      have hl := h2.link v p ((hmemT p v).1 he)
      have hs : Step g false p v := hl.1
      refine ⟨hs, (hV₀ p).2 ((hDr p).1 (h2.closed p hl.2).1), (hV₀ v).2 ((hDr v).1 (Or.inr ?_))⟩
      exact Dict.mem_keys_of_get? ((hmemT p v).1 he)
    · have hall : ∀ v ∈ V₀, EConn T src v := by
        intro v hv
        obtain ⟨k, _, hk⟩ := h2.chain trivial v ((hDr v).2 ((hV₀ v).1 hv))
        exact econn_of_pc hk fun v p h => (hmemT p v).2 h
      intro u hu v hv
      exact (hall u hu).symm.trans (hall v hv)
    · have := hperm.length_eq
      rw [← this]
      simp [hT, Dict.keys]
  refine min_of_greedy htree ?_
  obtain ⟨F, f1, f2, f3⟩ := h3.greedy
  have hFT : F.Perm T := by
    refine (List.perm_ext_iff_of_nodup f1 hnd).2 ?_
    rintro ⟨p, v⟩
    rw [f2, hmemT]
    constructor
    · exact fun h => h.2.2
    · intro h
      have hk := Dict.mem_keys_of_get? h
      exact ⟨by rintro rfl; exact h3.nosrc hk, hgreen v (Or.inr hk), h⟩
  intro T' hT'
  obtain ⟨T'', t1, t2, t3⟩ := f3 T' hT'
  exact ⟨T'', t1, t2, hFT.subperm_right.1 t3⟩

/-- undirected graph used in the examples: a weighted triangle with a tail, and another component -/
def exU : Graph Nat := runOps (Graph.init false) [Op.addEdge 0 1 [("cost", .int 5)], .addEdge 0 2 [("cost", .int (-2))],
  .addEdge 1 2 [("cost", .int 3)], .addEdge 2 3 [("cost", .int 0)], .addEdge 7 8 [("cost", .int 1)]]

/-- non-vacuity of C12 -/
example : predOf (search exU pqOps' .prim false none none 0 (exCol ⟨.empty, by decide⟩) 30) =
    some [(1, 2), (2, 0), (3, 2)] ∧ exU.directed = false ∧ fuelBound exU false ≤ 30 := by decide

/-- **C13 is false of the code.** `bfs(0)` on the digraph 0→1, 0→2, 1→2 leaves `distance` 2 at node 2, which is one
edge away: the method runs `search` with the default `algo='DFS'` on a FIFO queue. -/
theorem C13_false : ∃ (g : Graph Nat) (st : SState Nat (List Nat)), Built g ∧
    bfs g queueOps none 0 (exCol []) 20 = .ok st ∧ st.dist 2 = some 2 ∧ IsLeastLen (Step g false) 0 2 1 := by
  refine ⟨runOps (Graph.init true) [Op.addEdge 0 1 [], .addEdge 0 2 [], .addEdge 1 2 []], _,
    ⟨true, _, by intro op _; cases op <;> simp [Op.InScope], rfl⟩, rfl, by decide,
    .snoc .nil (by unfold Step; decide), ?_⟩
  intro x hx
  cases hx with
  | snoc _ _ => omega

/-- **C13, what does hold.** After `bfs(root)` a node has a `distance` iff it is reachable.  Missing from the full
claim: that the value is the least number of edges, which is false (`C13_false`). -/
theorem C13_bfs_marks_reachable_partial (hg : Built g) (hb : LawfulBag O items) (hO : O.isPQ = false)
    (comp : Option Int) {root : N} (hr : root ∈ g.getNodeList) (col : SState N Q) (hq : items col.q = []) {fuel : Nat}
    (hf : fuelBound g false ≤ fuel) :
    ∃ st, bfs g O comp root col fuel = .ok st ∧ ∀ v, (st.dist v).isSome ↔ Reach g false root v := by
  obtain ⟨st, t, h1, h2, h3, h4⟩ := search_none_ok (rev := false) hg.wf hb
    (inv_plain (g := g) (src := root) hb hO (algo := .dfs) trivial comp col.comp) hr col hq
    (abag_start (algo := .dfs) trivial comp col) hf
  refine ⟨st, by unfold bfs; rw [h1], fun v => ?_⟩
  rw [h3.dist, D_iff_reach h2 h4]

/-- **C14.** `label_components()` on an undirected graph returns; every node gets a label in `0..num_components-1`,
every such label is used, and two nodes have the same label iff they are connected. -/
theorem C14_label_components (hg : Built g) (hd : g.directed = false) (hb : LawfulBag O items) (hO : O.isPQ = false)
    {newQ : Q} (hq : items newQ = []) (num0 : Int) (st : SState N Q) {fuel : Nat} (hf : fuelBound g false ≤ fuel) :
    ∃ k st', labelComponents g O newQ num0 st fuel = ⟨none, k, st'⟩ ∧ 0 ≤ k ∧
      (∀ v ∈ g.getNodeList, ∃ j, st'.comp v = some j ∧ 0 ≤ j ∧ j < k) ∧
      (∀ j, 0 ≤ j → j < k → ∃ v ∈ g.getNodeList, st'.comp v = some j) ∧
      (∀ u ∈ g.getNodeList, ∀ v ∈ g.getNodeList, st'.comp u = st'.comp v ↔ Reach g false u v) := by
  have h0 : LInv g [] 0 { st with comp := fun x => if x ∈ g.getNodeList then none else st.comp x } := by
    refine ⟨by omega, ?_, ?_, ?_, by simp⟩
    · intro v j hv hj; simp [hv] at hj
    · intro j h1 h2; omega
    · intro u v j hu _ hj; simp [hu] at hj
  obtain ⟨k, st', h1, h2⟩ := labelLoop_ok hg.wf hd hb hO hq hf g.getNodeList (fun _ h => h) h0
  have hsome : ∀ v ∈ g.getNodeList, ∃ j, st'.comp v = some j := by
    intro v hv
    exact Option.ne_none_iff_exists'.1 (h2.doneS v (by simpa using hv))
  refine ⟨k, st', ?_, h2.kpos, ?_, h2.used, ?_⟩
  · unfold labelComponents; rw [if_neg (by simp [hd])]; exact h1
  · intro v hv
    obtain ⟨j, hj⟩ := hsome v hv
    exact ⟨j, hj, h2.range v j hv hj⟩
  · intro u hu v hv
    obtain ⟨j, hj⟩ := hsome u hu
    rw [← h2.same u v j hu hv hj, hj]
    exact eq_comm

/-- **C14**, second part: on a digraph the call raises and changes nothing. -/
theorem C14_digraph_raises (hd : g.directed = true) (newQ : Q) (num0 : Int) (st : SState N Q) (fuel : Nat) :
    labelComponents g O newQ num0 st fuel = ⟨some .exception, num0, st⟩ := by
  unfold labelComponents; rw [if_pos hd]

/-- non-vacuity of C14 -/
example : exU.getNodeList.map (labelComponents exU stackOps [] 9 (exCol []) 30).st.comp =
    [some 0, some 0, some 0, some 0, some 1, some 1] ∧ (labelComponents exU stackOps [] 9 (exCol []) 30).num = 2 := by
  decide

end GiMPy
