import Verif.Lemmas.DGraph
import Verif.Props.Core

/-! # C147: del_edge undoes add_edge, del_node undoes add_node -/

namespace GiMPy
variable {N : Type} [DecidableEq N]

namespace Dict
variable {K V : Type} [DecidableEq K]

theorem ext_getL : ∀ d1 d2 : List (K × V), d1.map Prod.fst = d2.map Prod.fst → (d1.map Prod.fst).Nodup →
    (∀ k, getL d1 k = getL d2 k) → d1 = d2
  | [], [], _, _, _ => rfl
  | [], _ :: _, h, _, _ => by simp at h
  | _ :: _, [], h, _, _ => by simp at h
  | (k, v) :: d1, (k', v') :: d2, h, hn, hg => by
    simp only [List.map_cons, List.cons.injEq] at h
    obtain ⟨rfl, h⟩ := h
    rw [List.map_cons, List.nodup_cons] at hn
    have h0 := hg k
    simp only [getL, if_true, Option.some.injEq] at h0
    subst h0
    rw [ext_getL d1 d2 h hn.2 fun x => ?_]
    have hx := hg x
    simp only [getL] at hx
    by_cases hk : k = x
    · subst hk
      have e1 : getL d1 k = none := by
        rw [← Option.not_isSome_iff_eq_none, ← mem_keysL]; exact hn.1
      have e2 : getL d2 k = none := by
        rw [← Option.not_isSome_iff_eq_none, ← mem_keysL, ← h]; exact hn.1
      rw [e1, e2]
    · simpa [hk] using hx

/-- dictionaries with the same keys in the same order and the same values are equal -/
theorem ext_get {d1 d2 : Dict K V} (h : d1.keys = d2.keys) (hn : d1.keys.Nodup) (hg : ∀ k, d1.get? k = d2.get? k) : d1 = d2 := by
  cases d1; cases d2
  congr 1
  exact ext_getL _ _ h hn hg

theorem erase_set {d : Dict K V} {k : K} (h : k ∉ d.keys) (hn : d.keys.Nodup) (v : V) : (d.set k v).erase k = d := by
  have hk : ((d.set k v).erase k).keys = d.keys := by
    rw [keys_erase, keys_set_of_not_mem _ h, List.filter_append]
    simp only [List.filter_cons, List.filter_nil, not_true_eq_false, decide_false, Bool.false_eq_true, if_false, List.append_nil]
    rw [List.filter_eq_self]
    intro x hx
    simp only [decide_not, Bool.not_eq_eq_eq_not, Bool.not_true, decide_eq_false_iff_not]
    rintro rfl; exact h hx
  refine ext_get hk (by rw [hk]; exact hn) fun x => ?_
  rw [get?_erase]
  by_cases hx : k = x
  · subst hx
    rw [if_pos rfl, ((get?_eq_none_iff _ _).2 h)]
  · rw [if_neg hx, get?_set_ne _ _ hx]

end Dict

namespace Graph

theorem erase_app {l : List N} {v : N} (h : v ∉ l) : (l ++ [v]).erase v = l := by
  rw [List.erase_append_right _ h]; simp

theorem not_nbr {g : Graph N} (h : g.Wf) {u v : N} (hd : ¬ g.dup u v) : v ∉ (g.neighbors.get? u).getD [] := by
  intro hm
  have h1 := h.out u v
  have h2 : 0 < g.outc u v := List.count_pos_iff.2 hm
  have i1 : g.ind u v = 0 := if_neg fun hh => hd (.inl hh)
  rw [i1] at h1
  cases hdir : g.directed with
  | true => rw [hdir] at h1; simp at h1; omega
  | false =>
    have i2 : g.ind v u = 0 := if_neg fun hh => hd (.inr ⟨hdir, hh⟩)
    rw [hdir] at h1; simp [i2] at h1; omega

/-- taking the edge out again gives the graph from before -/
theorem del_add_edge {g : Graph N} (h : g.Wf) {u v : N} (hu : u ∈ g.neighbors.keys) (hv : v ∈ g.neighbors.keys) (hd : ¬ g.dup u v)
    (attr : List (String × Val N)) (a b : N) (hab : (a, b) = (u, v) ∨ (g.directed = false ∧ (a, b) = (v, u))) :
    (g.addEdgeS u v attr).delEdgeS a b (u, v) = g := by
  obtain ⟨lu, hlu⟩ := (Dict.mem_keys' _ _).1 hu
  obtain ⟨lv, hlv⟩ := (Dict.mem_keys' _ _).1 hv
  have nu : v ∉ lu := by have := not_nbr h hd; rwa [hlu] at this
  have e1 : (g.ensureS u).ensureS v = g := by simp [ensureS, hu, hv]
  have hE := Dict.erase_set (fun hh => hd (.inl hh)) h.edup (Dict.empty.update attr)
  cases hdir : g.directed with
  | true =>
    have hvi : v ∈ g.inNeighbors.keys := by rw [h.inEq hdir]; exact hv
    obtain ⟨li, hli⟩ := (Dict.mem_keys' _ _).1 hvi
    have ni : u ∉ li := by
      intro hm
      have h1 := h.inn hdir v u
      have i1 : g.ind u v = 0 := if_neg fun hh => hd (.inl hh)
      rw [i1] at h1
      simp only [innc, hli, Option.getD_some] at h1
      exact absurd hm (List.count_eq_zero.1 h1)
    have hab' : a = u ∧ b = v := by
      rcases hab with hh | hh
      · exact Prod.mk.inj hh
      · rw [hdir] at hh; exact absurd hh.1 (by simp)
    obtain ⟨rfl, rfl⟩ := hab'
    simp only [addEdgeS, e1, delEdgeS, hdir, if_true, appS, appInS, remS, remInS, Dict.get?_set_self, Option.getD_some, hlu, hli,
      erase_app nu, erase_app ni, hE]
    have k1 : (g.neighbors.set a (lu ++ [b])).set a lu = g.neighbors := by
      have hk : ((g.neighbors.set a (lu ++ [b])).set a lu).keys = g.neighbors.keys := by
        rw [Dict.keys_set_of_mem _ (by rw [Dict.keys_set_of_mem _ hu]; exact hu), Dict.keys_set_of_mem _ hu]
      refine Dict.ext_get hk (by rw [hk]; exact h.nodup) fun x => ?_
      simp only [Dict.get?_set]
      by_cases hx : a = x
      · subst hx; simp [hlu]
      · simp [hx]
    have k2 : (g.inNeighbors.set b (li ++ [a])).set b li = g.inNeighbors := by
      have hk : ((g.inNeighbors.set b (li ++ [a])).set b li).keys = g.inNeighbors.keys := by
        rw [Dict.keys_set_of_mem _ (by rw [Dict.keys_set_of_mem _ hvi]; exact hvi), Dict.keys_set_of_mem _ hvi]
      refine Dict.ext_get hk (by rw [hk, h.inEq hdir]; exact h.nodup) fun x => ?_
      simp only [Dict.get?_set]
      by_cases hx : b = x
      · subst hx; simp [hli]
      · simp [hx]
    rw [k1, k2]
    cases g; simp_all
  | false =>
    have nv : u ∉ lv := by
      have := not_nbr h (u := v) (v := u) fun hh => hd (hh.elim (fun x => .inr ⟨hdir, x⟩) fun x => .inl x.2)
      rwa [hlv] at this
    simp only [addEdgeS, e1, delEdgeS, hdir, Bool.false_eq_true, if_false, appS, remS, hE]
    have main : ∀ D : Dict N (List N), D.keys = g.neighbors.keys → (∀ x, D.get? x = g.neighbors.get? x) → D = g.neighbors :=
      fun D hk hx => Dict.ext_get hk (by rw [hk]; exact h.nodup) hx
    have fin : ∀ D : Dict N (List N), D = g.neighbors →
        ({ directed := false, nodes := g.nodes, neighbors := D, inNeighbors := g.inNeighbors, edgeAttr := g.edgeAttr } : Graph N) = g := by
      rintro D rfl
      conv_lhs => rw [← hdir]
    have mk : ∀ (D : Dict N (List N)) (x : N) (w : List N), D.keys = g.neighbors.keys → x ∈ g.neighbors.keys →
        (D.set x w).keys = g.neighbors.keys := by
      intro D x w hk hx
      rw [Dict.keys_set_of_mem _ (by rw [hk]; exact hx), hk]
    have hkk : a ∈ g.neighbors.keys ∧ b ∈ g.neighbors.keys := by
      rcases hab with hh | ⟨-, hh⟩ <;> obtain ⟨rfl, rfl⟩ := Prod.mk.inj hh
      exacts [⟨hu, hv⟩, ⟨hv, hu⟩]
    refine fin _ (main _ (mk _ _ _ (mk _ _ _ (mk _ _ _ (mk _ _ _ rfl hu) hv) hkk.1) hkk.2) fun x => ?_)
    rcases hab with hh | ⟨-, hh⟩ <;> obtain ⟨rfl, rfl⟩ := Prod.mk.inj hh
    · by_cases huv : a = b
      · subst huv
        have : lu = lv := by rw [hlu] at hlv; exact Option.some.inj hlv
        subst this
        by_cases hx : a = x
        · subst hx
          simp only [Dict.get?_set_self, Option.getD_some, hlu]
          rw [List.append_assoc, List.erase_append_right _ nu]
          simp only [List.cons_append, List.nil_append, List.erase_cons_head]
          rw [erase_app nu]
        · simp [Dict.get?_set, hx]
      · have hvu : ¬ b = a := fun hh => huv hh.symm
        by_cases hx : a = x
        · subst hx; simp [Dict.get?_set, hvu, hlu, erase_app nu]
        · by_cases hy : b = x
          · subst hy; simp [Dict.get?_set, huv, hlv, erase_app nv]
          · simp [Dict.get?_set, hx, hy]
    · by_cases huv : b = a
      · subst huv
        have : lu = lv := by rw [hlu] at hlv; exact Option.some.inj hlv
        subst this
        by_cases hx : b = x
        · subst hx
          simp only [Dict.get?_set_self, Option.getD_some, hlu]
          rw [List.append_assoc, List.erase_append_right _ nu]
          simp only [List.cons_append, List.nil_append, List.erase_cons_head]
          rw [erase_app nu]
        · simp [Dict.get?_set, hx]
      · have hvu : ¬ a = b := fun hh => huv hh.symm
        by_cases hx : b = x
        · subst hx; simp [Dict.get?_set, hvu, hlu, erase_app nu]
        · by_cases hy : a = x
          · subst hy; simp [Dict.get?_set, huv, hlv, erase_app nv]
          · simp [Dict.get?_set, hx, hy]

end Graph

/-- **C147.** On every graph built through the API: `add_edge(u, v, ...)` between two nodes without an edge and then `del_edge` of
this edge (on undirected graphs in either orientation) succeed and leave the graph exactly as it was, including the order of nodes,
edges and neighbours.  (On undirected graphs `del_node` must not have been called, see C05.) -/
theorem C147_del_edge_undoes (d : Bool) (ops : List (Op N)) (hs : ∀ op ∈ ops, op.InScope d) (u v : N)
    (hu : u ∈ (runOps (Graph.init d) ops).getNodeList) (hv : v ∈ (runOps (Graph.init d) ops).getNodeList)
    (h1 : (u, v) ∉ (runOps (Graph.init d) ops).getEdgeList) (h2 : d = false → (v, u) ∉ (runOps (Graph.init d) ops).getEdgeList)
    (attr : List (String × Val N)) :
    (do Graph.addEdge u v attr; Graph.delEdge (u, v) : GM N Unit).run (runOps (Graph.init d) ops) = .ok () (runOps (Graph.init d) ops) ∧
    (d = false → (do Graph.addEdge u v attr; Graph.delEdge (v, u) : GM N Unit).run (runOps (Graph.init d) ops) =
      .ok () (runOps (Graph.init d) ops)) := by
  have h := wf_reachable (N := N) d ops hs
  have hd := runOps_directed (N := N) d ops hs
  generalize runOps (Graph.init d) ops = g at *
  have hdup : ¬ g.dup u v := by
    rintro (hh | ⟨hh, h3⟩)
    · exact h1 hh
    · exact h2 (by rw [← hd, hh]) h3
  have hw : (g.addEdgeS u v attr).Wf := Graph.wf_addEdgeS h hdup attr
  have hmem : (u, v) ∈ (g.addEdgeS u v attr).edgeAttr.keys := by
    have : (g.addEdgeS u v attr).edgeAttr = g.edgeAttr.set (u, v) (Dict.empty.update attr) := by
      unfold Graph.addEdgeS
      cases g.directed <;> simp [Graph.appS, Graph.appInS]
    rw [this, Dict.mem_keys_set]
    exact .inl rfl
  constructor
  · rw [gm_bind, Graph.addEdge_run h, if_neg hdup]
    show (Graph.delEdge (u, v)).run _ = _
    rw [Graph.delEdge_run hw, if_pos (.inl hmem)]
    rw [show (g.addEdgeS u v attr).key u v = (u, v) from if_pos hmem, Graph.del_add_edge h hu hv hdup attr u v (.inl rfl)]
  · intro hdf
    have hgf : g.directed = false := by rw [hd, hdf]
    rw [gm_bind, Graph.addEdge_run h, if_neg hdup]
    show (Graph.delEdge (v, u)).run _ = _
    have hf : (g.addEdgeS u v attr).directed = false := by rw [Graph.addEdgeS_directed, hgf]
    rw [Graph.delEdge_run hw, if_pos (.inr ⟨hf, hmem⟩)]
    have hk : (g.addEdgeS u v attr).key v u = (u, v) := by
      unfold Graph.key
      split
      · next hh => rw [hw.simple hf u v hmem hh]
      · rfl
    rw [hk, Graph.del_add_edge h hu hv hdup attr v u (.inr ⟨hgf, rfl⟩)]

/-- **C147.** On every digraph built through the API: `add_node(n, ...)` with a new name and then `del_node(n)` succeed and leave the
graph exactly as it was. -/
theorem C147_del_node_undoes (ops : List (Op N)) (n : N) (hn : n ∉ (runOps (Graph.init true) ops).getNodeList)
    (attr : List (String × Val N)) :
    (do Graph.addNode n attr; Graph.delNode n : GM N Unit).run (runOps (Graph.init true) ops) =
      .ok () (runOps (Graph.init true) ops) := by
  have hs : ∀ op ∈ ops, op.InScope true := by intro op _; cases op <;> simp [Op.InScope]
  have h := wf_reachable (N := N) true ops hs
  have hd := runOps_directed (N := N) true ops hs
  generalize runOps (Graph.init true) ops = g at *
  replace hn : n ∉ g.neighbors.keys := hn
  have hw := Graph.wf_addNodeS h hn attr
  have hd1 : (g.addNodeS n attr).directed = true := hd
  obtain ⟨g', e0, e1, e2, e3, e4, e5, e6, e7⟩ := Graph.delNode_run_dir hw hd1 (name := n)
    (by show n ∈ (g.neighbors.set n []).keys; rw [Dict.mem_keys_set]; exact .inl rfl)
  have hfil : ((g.neighbors.set n []).keys).filter (fun x => ¬ x = n) = g.neighbors.keys := by
    rw [← Dict.keys_erase, Dict.erase_set hn h.nodup]
  have hne : ∀ e ∈ g.edgeAttr.keys, e.1 ≠ n ∧ e.2 ≠ n := fun e he =>
    ⟨fun hh => hn (hh ▸ (h.endp e.1 e.2 he).1), fun hh => hn (hh ▸ (h.endp e.1 e.2 he).2)⟩
  have a2 : g'.nodes = g.nodes := by
    rw [e2]
    exact Dict.erase_set (by rw [h.nodesEq]; exact hn) (by rw [h.nodesEq]; exact h.nodup) _
  have a3 : g'.edgeAttr = g.edgeAttr := by
    rw [e3]
    show Graph.dropE g.edgeAttr _ = _
    unfold Graph.dropE
    have : g.edgeAttr.entries.filter (fun e => !decide (e.1.1 = n ∨ e.1.2 = n)) = g.edgeAttr.entries := by
      rw [List.filter_eq_self]
      intro e he
      have := hne e.1 (List.mem_map.2 ⟨e, he, rfl⟩)
      simp [this.1, this.2]
    rw [this]
  have a4 : g'.neighbors = g.neighbors := by
    have hk : g'.neighbors.keys = g.neighbors.keys := e4.trans hfil
    refine Dict.ext_get hk (by rw [hk]; exact h.nodup) fun a => ?_
    by_cases ha : a = n
    · subst ha
      rw [(Dict.get?_eq_none_iff _ _).2 hn, (Dict.get?_eq_none_iff _ _).2 (by rw [hk]; exact hn)]
    · rw [e6 a ha]
      show ((g.neighbors.set n []).get? a).map _ = _
      rw [Dict.get?_set_ne _ _ (Ne.symm ha)]
      cases hl : g.neighbors.get? a with
      | none => rfl
      | some l =>
        have : n ∉ l := fun hm => (hne (a, n) ((Graph.mem_nbrs_iff h hd a n).1 (by rw [hl]; exact hm))).2 rfl
        simp [List.erase_of_not_mem this]
  have a5 : g'.inNeighbors = g.inNeighbors := by
    have hk : g'.inNeighbors.keys = g.inNeighbors.keys := by rw [h.inEq hd]; exact e5.trans hfil
    have hin : n ∉ g.inNeighbors.keys := by rw [h.inEq hd]; exact hn
    refine Dict.ext_get hk (by rw [hk, h.inEq hd]; exact h.nodup) fun a => ?_
    by_cases ha : a = n
    · subst ha
      rw [(Dict.get?_eq_none_iff _ _).2 hin, (Dict.get?_eq_none_iff _ _).2 (by rw [hk]; exact hin)]
    · rw [e7 a ha]
      have : (g.addNodeS n attr).inNeighbors = g.inNeighbors.set n [] := by simp [Graph.addNodeS, hd]
      rw [this, Dict.get?_set_ne _ _ (Ne.symm ha)]
      cases hl : g.inNeighbors.get? a with
      | none => rfl
      | some l =>
        have : n ∉ l := fun hm => by
          have h1 := h.inn hd a n
          simp only [Graph.innc, hl, Option.getD_some] at h1
          have h2 : 0 < l.count n := List.count_pos_iff.2 hm
          rw [h1] at h2
          unfold Graph.ind at h2
          split at h2
          · next hh => exact (hne (n, a) hh).1 rfl
          · omega
        simp [List.erase_of_not_mem this]
  have hg : g' = g := by
    cases g'; cases g
    simp_all
  rw [gm_bind, Graph.addNode_run, if_neg (mt (Dict.contains_iff _ _).1 hn)]
  show (Graph.delNode n).run _ = _
  rw [e0, hg]

/-- an undirected graph with a loop, and two nodes without an edge: the hypotheses of `C147_del_edge_undoes` -/
example : (∀ op ∈ [Op.addEdge 1 2 [], .addEdge 3 3 [], .addEdge 2 4 []], op.InScope false) ∧
    4 ∈ (runOps (Graph.init false) [Op.addEdge 1 2 [], .addEdge 3 3 [], .addEdge 2 4 []] : Graph Nat).getNodeList ∧
    (4, 1) ∉ (runOps (Graph.init false) [Op.addEdge 1 2 [], .addEdge 3 3 [], .addEdge 2 4 []] : Graph Nat).getEdgeList ∧
    (1, 4) ∉ (runOps (Graph.init false) [Op.addEdge 1 2 [], .addEdge 3 3 [], .addEdge 2 4 []] : Graph Nat).getEdgeList :=
  ⟨by simp [Op.InScope], by decide, by decide, by decide⟩

/-- a new name for `C147_del_node_undoes` -/
example : 7 ∉ (runOps (Graph.init true) [Op.addEdge 1 2 [], .addEdge 2 1 []] : Graph Nat).getNodeList := by decide

end GiMPy
