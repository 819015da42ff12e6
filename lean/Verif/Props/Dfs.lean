import Verif.Lemmas.Acyclic
import Verif.Props.Search

/-! # C17-C19: recursive depth-first search, topological order, shortest paths in acyclic graphs -/

namespace GiMPy
open Search Dfs
variable {N : Type} [DecidableEq N] {g : Graph N}

theorem ticks_eq_range (t : Int) (k : Nat) : ticks t k = (List.range k).map fun i : Nat => some (t + i) := by
  induction k generalizing t with
  | zero => rfl
  | succ k ih =>
    rw [ticks, ih, List.range_succ_eq_map, List.map_cons, List.map_map]
    congr 1
    · simp
    · refine List.map_congr_left fun i _ => ?_
      simp only [Function.comp, Nat.succ_eq_add_one]
      congr 1; push_cast; omega

/-- **C17.** `dfs(root)` on a graph without discovery times: the reachable nodes (listed by `L`) and no others get a
discovery and a finish time and the component passed, each kind of time being 1..k without repetition, and (k, k+1) is
returned. -/
theorem C17_dfs_times (hg : Built g) (comp : Option Int) {root : N} (hr : root ∈ g.getNodeList) (st : DState N)
    (hfresh : ∀ v, st.disc v = none) (hpred : st.pred = .empty) {fuel : Nat} (hf : g.getNodeList.length ≤ fuel) :
    ∃ (st' : DState N) (k : Nat) (L : List N), dfs g comp fuel root st 0 1 = .ok (st', k, k + 1) ∧
      L.Nodup ∧ (∀ v, v ∈ L ↔ Reach g false root v) ∧ L.length = k ∧
      (L.map st'.disc).Perm ((List.range k).map fun i : Nat => some (1 + (i : Int))) ∧
      (L.map st'.fin).Perm ((List.range k).map fun i : Nat => some (1 + (i : Int))) ∧
      (∀ v, Reach g false root v → st'.comp v = comp) ∧
      (∀ v, ¬ Reach g false root v → st'.disc v = none ∧ st'.fin v = st.fin v ∧ st'.comp v = st.comp v) := by
  obtain ⟨st', dc', fc', L, M, h1, h2, h3, _⟩ := dfs_fresh hg.wf comp hr hfresh hpred hf 0 1
  have hcomp := (dfs_comp comp fuel root st 0 1 st' dc' fc' (hfresh root) h1).2
  refine ⟨st', L.length, L, ?_, h2.nodup, h3, rfl, ?_, ?_, ?_, ?_⟩
  · rw [h1, h2.dcount, h2.fcount, Int.zero_add, Int.add_comm]
  · rw [← ticks_eq_range, ← show ticks (0 + 1) L.length = ticks 1 L.length from rfl, ← h2.dtimes]
    exact (h2.perm.map _).symm
  · rw [← ticks_eq_range, ← h2.ftimes]
    exact (List.reverse_perm L).symm.map _
  · intro v hv
    rw [hcomp, if_pos ⟨hfresh v, (h2.some v).2 (.inr ((h3 v).2 hv))⟩]
  · intro v hv
    have : v ∉ L := fun h => hv ((h3 v).1 h)
    have hd : st'.disc v = none := by rw [h2.dkeep v this, hfresh]
    exact ⟨hd, h2.fkeep v this, by rw [hcomp, if_neg (by simp [hd])]⟩

/-- **C18.** If no cycle is reachable from `root`, the list filled by `dfs` holds each reachable node exactly once, in
front of the entries it had before, and the head of every edge comes after its tail. -/
theorem C18_topological_order (hg : Built g) (comp : Option Int) {root : N} (hr : root ∈ g.getNodeList) (st : DState N)
    (hfresh : ∀ v, st.disc v = none) (hpred : st.pred = .empty)
    (hacyc : ∀ u, Reach g false root u → ¬ Relation.TransGen (Step g false) u u)
    {fuel : Nat} (hf : g.getNodeList.length ≤ fuel) :
    ∃ (st' : DState N) (dc fc : Int) (L : List N), dfs g comp fuel root st 0 1 = .ok (st', dc, fc) ∧
      st'.order = L ++ st.order ∧ L.Nodup ∧ (∀ v, v ∈ L ↔ Reach g false root v) ∧
      (∀ A u B v, L = A ++ u :: B → Step g false u v → v ∈ B) := by
  obtain ⟨st', dc', fc', L, M, h1, h2, h3, _⟩ := dfs_fresh hg.wf comp hr hfresh hpred hf 0 1
  refine ⟨st', dc', fc', L, h1, h2.ord, h2.nodup, h3, ?_⟩
  intro A u B v hL hs
  rcases h2.topo A u B v hL hs with h | h | h
  · exact h
  · rw [hfresh] at h; cases h
  · exact absurd (.head' hs h) (hacyc u ((h3 u).1 (by rw [hL]; simp)))

/-- columns of nodes that no algorithm has touched -/
def exD : DState Nat := ⟨fun _ => none, fun _ => none, fun _ => none, .empty, []⟩

/-- acyclic digraph with costs of both signs, everything reachable from 0 -/
def exDag : Graph Nat := runOps (Graph.init true) [Op.addEdge 0 1 [("cost", .int 5)], .addEdge 0 2 [("cost", .int 1)],
  .addEdge 1 2 [("cost", .int (-7))], .addEdge 2 3 [("cost", .int 4)], .addEdge 1 3 [("cost", .int 2)]]

/-- the interesting part of a result -/
def timesOf (l : List Nat) : Dfs.Res Nat → Option (List (Option Int) × List (Option Int) × List Nat × Int × Int)
  | .ok (st, d, f) => some (l.map st.disc, l.map st.fin, st.order, d, f)
  | .error _ => none

/-- non-vacuity of C17 (graph with a cycle and an unreachable part) and C18 -/
example : timesOf exG.getNodeList (dfs exG none 5 0 exD 0 1) = some ([some 1, some 2, some 3, none, none],
    [some 3, some 2, some 1, none, none], [0, 1, 2], 3, 4) ∧ exG.getNodeList.length ≤ 5 := by decide
example : timesOf exDag.getNodeList (dfs exDag none 5 0 exD 0 1) = some ([some 1, some 2, some 3, some 4],
    [some 4, some 3, some 2, some 1], [0, 1, 2, 3], 4, 5) := by decide

/-- what both calls of `acyclic_shortest_path` below do before the path is read off -/
theorem acyclic_core (hg : Built g) (hd : g.directed = true) {w : N → N → Int}
    (hw : ∀ u v, g.checkEdge u v = true → g.getEdgeCost u v = .ok (w u v))
    (hacyc : ∀ u, ¬ Relation.TransGen (Step g false) u u) {src : N} (hsrc : src ∈ g.getNodeList)
    (hall : ∀ v ∈ g.getNodeList, Reach g false src v) {dest : Option N} (hdst : ∀ d, dest = some d → d ∈ g.getNodeList)
    (st : DState N) (hfresh : ∀ v, st.disc v = none) {fuel : Nat} (hf : g.getNodeList.length ≤ fuel) :
    ∃ (st' : DState N) (dc fc : Int) (a : AState N) (P' : List N),
      dfs g none fuel src { st with pred := .empty, order := [] } 0 1 = .ok (st', dc, fc) ∧
      acLoop g dest g.getNodeList.length st'.order ⟨.empty, .empty⟩ = .ok (dest.isSome, a) ∧
      AInv g w src P' (fun a b => Step g false a b) a ∧ (∀ p, ¬ Step g false p src) ∧
      (∀ dst, dest = some dst → (∀ p, Step g false p dst → p ∈ P') ∧ P'.length < g.getNodeList.length) ∧
      (dest = none → P'.length = g.getNodeList.length ∧ ∀ v ∈ g.getNodeList, v ∈ P') := by
  have hw' : HasCosts g false w := hw
  have hns : ∀ p, ¬ Step g false p src := by
    intro p hp
    exact hacyc p (.head' hp (hall p (step_node hg.wf hp).1))
  obtain ⟨st', dc, fc, L, h1, h2, h3, h4, h5, h6⟩ : ∃ (st' : DState N) (dc fc : Int) (L : List N),
      dfs g none fuel src { st with pred := .empty, order := [] } 0 1 = .ok (st', dc, fc) ∧
      st'.order = L ∧ L.Nodup ∧ (∀ v, v ∈ L ↔ Reach g false src v) ∧
      (∀ A u B v, L = A ++ u :: B → Step g false u v → v ∈ B) ∧ L.head? = some src := by
    obtain ⟨st', dc', fc', L, M, h1, h2, h3, h4⟩ := dfs_fresh (st := { st with pred := .empty, order := [] })
      hg.wf none hsrc hfresh rfl hf 0 1
    refine ⟨st', dc', fc', L, h1, by simpa using h2.ord, h2.nodup, h3, ?_, h4⟩
    intro A u B v hL hs
    rcases h2.topo A u B v hL hs with h | h | h
    · exact h
    · replace h : (st.disc v).isSome := h
      rw [hfresh] at h; cases h
    · exact absurd (.head' hs h) (hacyc u)
  have hmem : ∀ v, v ∈ L ↔ v ∈ g.getNodeList := fun v => (h4 v).trans ⟨fun h => reach_node hg.wf h hsrc, hall v⟩
  have hlen : L.length = g.getNodeList.length :=
    ((List.perm_ext_iff_of_nodup h3 hg.wf.nodup).2 hmem).length_eq
  obtain ⟨a, P', r1, r2, r3, r4⟩ := acLoop_ok hg.wf hd hw' hns hall (dest := dest) L [] (by simpa using h3)
    (by simpa using hmem) (by simpa using h5) ⟨.empty, .empty⟩ ⟨by simp, (by intro n d h; cases h), by simp,
      (by intro n d h; cases h), (by intro n d h; cases h), by simp⟩ (fun _ => h6) (fun d e => (hmem d).2 (hdst d e))
    (k := g.getNodeList.length) hlen
  refine ⟨st', dc, fc, a, P', h1, by rw [h2, r1], r2, hns, fun d e => ⟨(r3 d e).1, by
    have := (r3 d e).2; simp at this; omega⟩, fun e => ?_⟩
  rw [r4 e]
  exact ⟨by simpa using hlen, fun v hv => by simpa using (hmem v).2 hv⟩

/-- reading off the path to a node with its least cost -/
theorem acyclic_path {w : N → N → Int} {src : N} {a : AState N} {P' : List N}
    (r2 : AInv g w src P' (fun a b => Step g false a b) a) (hns : ∀ p, ¬ Step g false p src) {dst : N} {k fuel : Nat} (hk : k < fuel)
    (hpc : PC a.pred src (· ∈ P') k dst)
    (hleast : dst ≠ src → ∃ d, a.dist.get? dst = some d ∧ IsLeastCost (Step g false) w src dst d) :
    ∃ l, reconstruct a.pred src fuel dst [dst] = .ok l ∧
      IsPath (Step g false) src dst l ∧ IsLeastCost (Step g false) w src dst (pathCost w l) := by
  have hsrcw : ∀ d, WalkCost (Step g false) w src d src → d = 0 := by
    intro d h
    cases h with
    | nil => rfl
    | snoc _ hs => exact absurd hs (hns _)
  have hnk : src ∉ a.pred.keys := by
    intro h
    obtain ⟨p, hp⟩ := (Dict.mem_keys' _ _).1 h
    exact hns p (r2.links src p hp).2.1
  set f : N → Int := fun v => (a.dist.get? v).getD 0 with hfdef
  have hf0 : f src = 0 := by
    simp only [hfdef]
    cases hx : a.dist.get? src with
    | none => rfl
    | some d => exact hsrcw d (r2.sound _ _ hx)
  have hlink : ∀ v p, a.pred.get? v = some p → f v = f p + w p v := by
    intro v p hv
    obtain ⟨_, _, d, dp, e1, e2, e3⟩ := r2.links v p hv
    simp [hfdef, e1, e2, e3]
  have hleast : IsLeastCost (Step g false) w src dst (f dst) := by
    by_cases hds : dst = src
    · subst hds
      refine ⟨by rw [hf0]; exact .nil, fun x hx => ?_⟩
      rw [hf0, hsrcw x hx]; exact Int.le_refl _
    · obtain ⟨d, e1, e2⟩ := hleast hds
      simpa [hfdef, e1] using e2
  obtain ⟨l, q1, q2, _, _⟩ := reconstruct_ok (R := Step g false) (t := dst) hpc
    (fun p v hv => (r2.links v p hv).2.1) [dst] ⟨rfl, rfl, by simp⟩ hk
  have hcost := reconstruct_cost (w := w) hpc hf0 hnk hlink [] q1
  refine ⟨l, q1, q2, ?_⟩
  rw [hcost]
  simpa [pathCost] using hleast

/-- **C19.** On an acyclic digraph in which every node is reachable from the source and every edge has a cost,
`acyclic_shortest_path(src, dst)` returns a path from `src` to `dst` whose cost is the least cost of a walk. -/
theorem C19_acyclic_shortest_path (hg : Built g) (hd : g.directed = true) {w : N → N → Int}
    (hw : ∀ u v, g.checkEdge u v = true → g.getEdgeCost u v = .ok (w u v))
    (hacyc : ∀ u, ¬ Relation.TransGen (Step g false) u u) {src : N} (hsrc : src ∈ g.getNodeList)
    (hall : ∀ v ∈ g.getNodeList, Reach g false src v) {dst : N} (hdst : dst ∈ g.getNodeList) (st : DState N)
    (hfresh : ∀ v, st.disc v = none) {fuel : Nat} (hf : g.getNodeList.length ≤ fuel) :
    ∃ l st', acyclicShortestPath g src (some dst) st fuel = .ok (.path l, st') ∧
      IsPath (Step g false) src dst l ∧ IsLeastCost (Step g false) w src dst (pathCost w l) := by
  obtain ⟨st', dc, fc, a, P', h1, r1, r2, hns, r3, _⟩ := acyclic_core hg hd hw hacyc hsrc hall (dest := some dst)
    (fun d e => by cases e; exact hdst) st hfresh hf
  obtain ⟨hin, hlt⟩ := r3 dst rfl
  obtain ⟨l, q1, q2, q3⟩ : ∃ l, reconstruct a.pred src fuel dst [dst] = .ok l ∧
      IsPath (Step g false) src dst l ∧ IsLeastCost (Step g false) w src dst (pathCost w l) := by
    by_cases hds : dst = src
    · subst hds
      exact acyclic_path r2 hns (k := 0) (by omega) .src (fun h => absurd rfl h)
    · obtain ⟨hl, k, hk, hpc⟩ := ainv_next r2 hds (hall dst hdst) hin
      exact acyclic_path r2 hns (by omega) hpc (fun _ => hl)
  refine ⟨l, st', ?_, q2, q3⟩
  unfold acyclicShortestPath
  rw [h1]
  simp only [r1, Option.isSome_some, q1]

/-- **C19.** Without a destination the result is a dictionary with an entry for every node but the source; from every node the
entries lead back to the source, and what is read off along them is a path from the source whose cost is the least cost of
a walk. -/
theorem C19_predecessors (hg : Built g) (hd : g.directed = true) {w : N → N → Int}
    (hw : ∀ u v, g.checkEdge u v = true → g.getEdgeCost u v = .ok (w u v))
    (hacyc : ∀ u, ¬ Relation.TransGen (Step g false) u u) {src : N} (hsrc : src ∈ g.getNodeList)
    (hall : ∀ v ∈ g.getNodeList, Reach g false src v) (st : DState N)
    (hfresh : ∀ v, st.disc v = none) {fuel : Nat} (hf : g.getNodeList.length ≤ fuel) :
    ∃ pred st', acyclicShortestPath g src none st fuel = .ok (.pred pred, st') ∧
      (∀ v, v ∈ pred.keys ↔ v ∈ g.getNodeList ∧ v ≠ src) ∧
      ∀ v ∈ g.getNodeList, ∃ l, IsPath (Step g false) src v l ∧ IsLeastCost (Step g false) w src v (pathCost w l) ∧
        l.IsChain (fun x y => pred.get? y = some x) := by
  obtain ⟨st', dc, fc, a, P', h1, r1, r2, hns, _, r4⟩ := acyclic_core hg hd hw hacyc hsrc hall (dest := none)
    (by simp) st hfresh hf
  obtain ⟨hlen, hP⟩ := r4 rfl
  refine ⟨a.pred, st', ?_, fun v => ⟨fun h => ?_, fun h => ?_⟩, fun v hv => ?_⟩
  · unfold acyclicShortestPath
    rw [h1]
    simp only [r1, Option.isSome_none]
  · obtain ⟨p, hp⟩ := (Dict.mem_keys' _ _).1 h
    have hs := (r2.links v p hp).2.1
    exact ⟨(step_node hg.wf hs).2, fun e => hns p (e ▸ hs)⟩
  · obtain ⟨d, hd, _⟩ := r2.least v (hP v h.1)
    exact (r2.known v d hd).resolve_left h.2
  · obtain ⟨k, hk, hpc⟩ := r2.chain v (hP v hv)
    obtain ⟨l, q1, q2, q3⟩ := acyclic_path r2 hns (fuel := fuel) (by omega) hpc (fun _ => r2.least v (hP v hv))
    obtain ⟨l', q4, q5, _, _⟩ := reconstruct_ok (R := fun x y => a.pred.get? y = some x) (t := v) (fuel := fuel) hpc
      (fun _ _ h => h) [v] ⟨rfl, rfl, by simp⟩ (by omega)
    rw [q1] at q4
    cases q4
    exact ⟨l, q2, q3, q5.2.2⟩

/-- the returned path -/
def acPathOf : Except PyErr (SearchRes Nat × DState Nat) → Option (List Nat)
  | .ok (.path l, _) => some l
  | _ => none

/-- non-vacuity of C19: a negative cost makes the longer path the cheapest -/
example : acPathOf (acyclicShortestPath exDag 0 (some 3) exD 5) = some [0, 1, 2, 3] ∧ exDag.directed = true ∧
    (∀ e ∈ exDag.getEdgeList, exDag.getEdgeCost e.1 e.2 = .ok ([5, 1, -7, 4, 2][exDag.getEdgeList.idxOf e]!)) ∧
    exDag.getEdgeList.all (fun e => decide (e.1 < e.2)) = true := by decide

/-- the returned dictionary -/
def acPredOf : Except PyErr (SearchRes Nat × DState Nat) → Option (List (Nat × Nat))
  | .ok (.pred d, _) => some d.entries
  | _ => none

example : acPredOf (acyclicShortestPath exDag 0 none exD 5) = some [(1, 0), (2, 1), (3, 2)] := by decide

end GiMPy
