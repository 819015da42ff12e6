import Verif.Lemmas.MinCost
import Verif.Props.MaxFlow
import Verif.Props.FloydWarshall

/-! # C30, C31, C36, C37: residual graphs, augmentation, feasible flows and cycle cancelling -/

namespace GiMPy
open MinCost MaxFlow
variable {N : Type} [DecidableEq N] {Q : Type} {g : Graph N} {O : QOps N Q} {items : Q → List N}
variable {cap cost f : N × N → Int}

theorem getInt_rep {r : Graph N} {a : AGraph N} (h : Rep r a) (hd : a.directed = true) {u v : N} {s : String} {x : Int}
    (he : (u, v) ∈ a.E) (hx : a.ea (u, v) s = some (.int x)) : r.getInt u v s = .ok x := by
  unfold Graph.getInt
  rw [getEdgeAttr_rep h hd, if_pos he, hx]

/-- **C30.** On a digraph without antiparallel arcs or self loops, for any flow, `create_residual_graph` returns a
digraph that has an arc `(u,v)` of capacity `x` and cost `c` exactly when `(u,v)` is an arc with remaining capacity
`x > 0` and cost `c`, or `(v,u)` is an arc with flow `x > 0` and cost `-c`. -/
theorem C30_residual_graph (hg : Built g) (hd : g.directed = true)
    (hs : ∀ u v, (u, v) ∈ g.getEdgeList → (v, u) ∉ g.getEdgeList)
    (hcap : ∀ u v, (u, v) ∈ g.getEdgeList → g.getInt u v "capacity" = .ok (cap (u, v)))
    (hcost : ∀ u v, (u, v) ∈ g.getEdgeList → g.getEdgeCost u v = .ok (cost (u, v))) (f : N × N → Int) :
    ∃ r, residual g (fun u v => g.getInt u v "capacity") f = .ok r ∧ Built r ∧ r.directed = true ∧
      ∀ u v x c, ((u, v) ∈ r.getEdgeList ∧ r.getInt u v "capacity" = .ok x ∧ r.getEdgeCost u v = .ok c) ↔
        ((u, v) ∈ g.getEdgeList ∧ x = cap (u, v) - f (u, v) ∧ 0 < x ∧ c = cost (u, v)) ∨
        ((v, u) ∈ g.getEdgeList ∧ x = f (v, u) ∧ 0 < x ∧ c = - cost (v, u)) := by
  obtain ⟨r, a, h1, h2⟩ := residual_ok (cap := cap) (f := f) (cost := cost) hg.wf.edup hd hs
    (capR := fun u v => g.getInt u v "capacity") (fun e he => hcap e.1 e.2 he) (fun e he => hcost e.1 e.2 he)
  refine ⟨r, h1, h2.built, by rw [h2.rep.dir, h2.dir], fun u v x c => ?_⟩
  have hmem : (u, v) ∈ r.getEdgeList ↔ Adj g u v ∧ 0 < pot g cap f u v := by
    rw [Graph.getEdgeList, h2.rep.E, h2.mem]; rfl
  have hatt : (u, v) ∈ r.getEdgeList → r.getInt u v "capacity" = .ok (pot g cap f u v) ∧
      r.getEdgeCost u v = .ok (rcost g cost u v) := by
    intro he
    rw [Graph.getEdgeList, h2.rep.E] at he
    obtain ⟨ha, hb⟩ := h2.attrs _ he
    refine ⟨getInt_rep h2.rep h2.dir he hb, ?_⟩
    unfold Graph.getEdgeCost
    rw [getEdgeAttr_rep h2.rep h2.dir, if_pos he, ha]
  constructor
  · rintro ⟨he, hx, hc⟩
    obtain ⟨ha, hb⟩ := hatt he
    rw [ha] at hx; rw [hb] at hc
    cases hx; cases hc
    have hm := hmem.1 he
    by_cases h : (u, v) ∈ g.getEdgeList
    · left
      have hp : pot g cap f u v = cap (u, v) - f (u, v) := by simp [pot, h]
      refine ⟨h, hp, hm.2, by simp [rcost, h]⟩
    · right
      have hp : pot g cap f u v = f (v, u) := by simp [pot, h]
      exact ⟨hm.1.resolve_left h, hp, hm.2, by simp [rcost, h]⟩
  · rintro (⟨h, rfl, hx, rfl⟩ | ⟨h, rfl, hx, rfl⟩)
    · have hp : pot g cap f u v = cap (u, v) - f (u, v) := by simp [pot, h]
      have he := hmem.2 ⟨.inl h, by rw [hp]; exact hx⟩
      obtain ⟨ha, hb⟩ := hatt he
      exact ⟨he, by rw [ha, hp], by rw [hb]; simp [rcost, h]⟩
    · have h' := hs _ _ h
      have hp : pot g cap f u v = f (v, u) := by simp [pot, h']
      have he := hmem.2 ⟨.inr h, by rw [hp]; exact hx⟩
      obtain ⟨ha, hb⟩ := hatt he
      exact ⟨he, by rw [ha, hp], by rw [hb]; simp [rcost, h']⟩

/-- the residual graph as a relation, for the lemmas -/
theorem residual_facts (hg : Built g) (hd : g.directed = true)
    (hs : ∀ u v, (u, v) ∈ g.getEdgeList → (v, u) ∉ g.getEdgeList) {capR : N → N → Except PyErr Int}
    (hcap : ∀ u v, (u, v) ∈ g.getEdgeList → capR u v = .ok (cap (u, v)))
    (hcost : ∀ u v, (u, v) ∈ g.getEdgeList → g.getEdgeCost u v = .ok (cost (u, v))) (f : N × N → Int) :
    ∃ r, residual g capR f = .ok r ∧ Built r ∧ r.directed = true ∧
      (∀ u v, Step r false u v ↔ Use g cap f u v) ∧
      (∀ u v, Step r false u v → r.getInt u v "capacity" = .ok (pot g cap f u v)) ∧
      (∀ u v, Step r false u v → r.getEdgeCost u v = .ok (rcost g cost u v)) := by
  obtain ⟨r, a, h1, h2⟩ := residual_ok (cap := cap) (f := f) (cost := cost) hg.wf.edup hd hs
    (fun e he => hcap e.1 e.2 he) (fun e he => hcost e.1 e.2 he)
  have hdr : r.directed = true := by rw [h2.rep.dir, h2.dir]
  have hst : ∀ u v, Step r false u v ↔ (u, v) ∈ a.E := by
    intro u v; rw [← arc_eq_step hdr, ← h2.rep.E]; exact Iff.rfl
  refine ⟨r, h1, h2.built, hdr, fun u v => ?_, fun u v h => ?_, fun u v h => ?_⟩
  · rw [hst, h2.mem]; exact Iff.rfl
  · rw [hst] at h; exact getInt_rep h2.rep h2.dir h (h2.attrs _ h).2
  · rw [hst] at h
    unfold Graph.getEdgeCost
    rw [getEdgeAttr_rep h2.rep h2.dir, if_pos h, (h2.attrs _ h).1]

theorem chain_and {R S : N → N → Prop} {l : List N} (h : l.IsChain R) (h' : l.IsChain S) :
    l.IsChain fun a b => R a b ∧ S a b := by
  induction l with
  | nil => simp
  | cons a l ih =>
    rcases l with _ | ⟨b, l⟩
    · simp
    · rw [List.isChain_cons_cons] at *
      exact ⟨⟨h.1, h'.1⟩, ih h.2 h'.2⟩

/-- **C31.** Take a digraph without antiparallel arcs or self loops, a flow within its bounds, and a cycle of the
residual graph.  `find_cycle_capacity` returns the least residual capacity on the cycle, which is positive, and
`augment_cycle` by any amount between 0 and that keeps the flow within its bounds, keeps every node balance, and changes
the total cost by the amount times the cost of the cycle in the residual graph. -/
theorem C31_augment_cycle (hg : Built g) (hd : g.directed = true)
    (hs : ∀ u v, (u, v) ∈ g.getEdgeList → (v, u) ∉ g.getEdgeList)
    (hcap : ∀ u v, (u, v) ∈ g.getEdgeList → g.getInt u v "capacity" = .ok (cap (u, v)))
    (hcost : ∀ u v, (u, v) ∈ g.getEdgeList → g.getEdgeCost u v = .ok (cost (u, v)))
    (hf : Within g.getEdgeList cap f) {r : Graph N} (hr : residual g (fun u v => g.getInt u v "capacity") f = .ok r)
    {w : N → N → Int} (hw : ∀ u v, r.checkEdge u v = true → r.getEdgeCost u v = .ok (w u v))
    {c : List N} (hc : IsCycle (Step r false) c) :
    ∃ m, cycleCapacity r c = .ok m ∧ 0 < m ∧
      ((c ++ c.head?.toList).IsChain fun u v => ∃ x, r.getInt u v "capacity" = .ok x ∧ m ≤ x) ∧
      ∀ d, 0 ≤ d → d ≤ m → ∃ f', augmentCycle g d c f = .ok f' ∧ Within g.getEdgeList cap f' ∧
        (∀ v, net g.getEdgeList f' v = net g.getEdgeList f v) ∧
        totalCost g.getEdgeList cost f' = totalCost g.getEdgeList cost f + d * cycleCost w c := by
  obtain ⟨r', h1, h2, h3, h4, h5, h6⟩ := residual_facts (cap := cap) (cost := cost) hg hd hs hcap hcost f
  obtain rfl : r' = r := by rw [hr] at h1; cases h1; rfl
  obtain ⟨v, l, rfl, hnd, hch⟩ := MinCost.IsCycle.closed hc
  obtain ⟨m, hm1, hm2, hm3⟩ := cycleCapacity_ok (hch.imp fun u v h => h5 u v h)
  have hhead : v :: l ++ (v :: l).head?.toList = v :: l ++ [v] := rfl
  refine ⟨m, hm1, ?_, ?_, ?_⟩
  · have := hm3 1 (hch.imp fun u v h => by have := ((h4 u v).1 h).2; omega)
    omega
  · rw [hhead]
    exact (chain_and hch hm2).imp fun u v h => ⟨_, h5 u v h.1, h.2⟩
  · intro d hd0 hdm
    obtain ⟨f', g1, g2, g3, g4⟩ := augmentCycle_ok (cost := cost) hg.wf.edup hs hd0 hf hnd
      ((chain_and hch hm2).imp fun a b h => ⟨((h4 a b).1 h.1).1, by have := h.2; omega⟩)
    refine ⟨f', g1, g2, g3, ?_⟩
    rw [g4]
    congr 2
    have : ∀ l : List N, l.IsChain (Step r' false) → pathCost (rcost g cost) l = pathCost w l := by
      intro l
      induction l with
      | nil => intro _; rfl
      | cons a l ih =>
        intro h
        rcases l with _ | ⟨b, l⟩
        · rfl
        · rw [List.isChain_cons_cons] at h
          have e1 := h6 _ _ h.1
          rw [hw _ _ (by have := h.1; unfold Step at this; simpa using this)] at e1
          simp only [pathCost, ih h.2, Except.ok.inj e1]
    exact this _ hch

/-! ## `find_feasible_flow` -/

theorem capOf_rep {g : Graph N} {a : AGraph N} (h : Rep g a) {u v : N} (he : (u, v) ∈ a.E) :
    g.capOf u v = match a.ea (u, v) "capacity" with
      | none => .ok INF
      | some (.int c) => .ok c
      | some _ => .error .typeError := by
  unfold Graph.capOf
  have hk : (u, v) ∈ g.edgeAttr.keys := by rw [h.E]; exact he
  have h1 := h.ea _ he "capacity"
  rcases hg : g.edgeAttr.get? (u, v) with _ | d
  · exact absurd hk ((Dict.get?_eq_none_iff _ _).1 hg)
  · rw [hg] at h1
    simp only [Option.bind_some] at h1
    simp only [h1]
    rcases a.ea (u, v) "capacity" with _ | x
    · rfl
    · cases x <;> rfl

theorem capOf_congr {g g' : Graph N} (hg : g.Wf) (hd : g.directed = true) (hg' : g'.Wf) (hd' : g'.directed = true)
    {u v : N} (he : (u, v) ∈ g.getEdgeList) (he' : (u, v) ∈ g'.getEdgeList)
    (h : g'.getEdgeAttr u v "capacity" = g.getEdgeAttr u v "capacity") : g'.capOf u v = g.capOf u v := by
  obtain ⟨a, ha, had⟩ : ∃ a, Rep g a ∧ a.directed = true := ⟨_, rep_of_wf hg, hd⟩
  obtain ⟨a', ha', had'⟩ : ∃ a, Rep g' a ∧ a.directed = true := ⟨_, rep_of_wf hg', hd'⟩
  replace he : (u, v) ∈ a.E := by rw [← ha.E]; exact he
  replace he' : (u, v) ∈ a'.E := by rw [← ha'.E]; exact he'
  rw [capOf_rep ha he, capOf_rep ha' he']
  rw [getEdgeAttr_rep ha had, getEdgeAttr_rep ha' had', if_pos he, if_pos he'] at h
  generalize a.ea (u, v) "capacity" = x at *
  generalize a'.ea (u, v) "capacity" = y at *
  rcases x with _ | x <;> rcases y with _ | y <;> simp_all

theorem saturated_ok {g : Graph N} {f cap : N × N → Int} {s : N} {l : List N}
    (h : ∀ i ∈ l, (s, i) ∈ g.getEdgeList ∧ g.capOf s i = .ok (cap (s, i))) :
    ∃ r, saturated g f s l = .ok r ∧ (r = true ↔ ∀ i ∈ l, f (s, i) = cap (s, i)) := by
  induction l with
  | nil => exact ⟨true, rfl, by simp⟩
  | cons i l ih =>
    obtain ⟨h1, h2⟩ := h i (by simp)
    obtain ⟨r, hr1, hr2⟩ := ih fun j hj => h j (by simp [hj])
    unfold saturated
    rw [flowOf_ok h1, h2]
    simp only []
    by_cases hne : f (s, i) = cap (s, i)
    · refine ⟨r, by simp [hne, hr1], ?_⟩
      rw [hr2]; simp [hne]
    · exact ⟨false, by simp [hne], by simp [hne]⟩

/-- a maximum flow fills a cut -/
theorem max_cut (hg : Built g) (hd : g.directed = true) (hb : LawfulBag O items) {newQ : Q} (hq : items newQ = [])
    (hc : ∀ u v, (u, v) ∈ g.getEdgeList → g.capOf u v = .ok (cap (u, v))) (hpos : ∀ e ∈ g.getEdgeList, 0 ≤ cap e)
    {src sink : N} (hsn : src ∈ g.getNodeList) (htn : sink ∈ g.getNodeList) (hst : src ≠ sink)
    (hanti : ∀ u v, u ≠ v → (u, v) ∈ g.getEdgeList → (v, u) ∉ g.getEdgeList) (hf : IsMaxFlow g.getEdgeList cap src sink f) :
    ∃ S : N → Bool, S src = true ∧ S sink = false ∧ net g.getEdgeList f sink = cutCap g.getEdgeList cap S := by
  classical
  obtain ⟨f', _, h2, S, hS1, hS2, hS3⟩ := loop_ok hg.wf hd hb hc hq hsn hst (inner := flowFuel g cap)
    (by unfold flowFuel; omega) (flowFuel g cap) _ (zero_isFlow hpos src sink) (by
      have : net g.getEdgeList (fun _ => 0) sink = 0 := by simp [net]
      rw [this]; unfold flowFuel; omega)
  have hEV : ∀ e ∈ g.getEdgeList, e.1 ∈ g.getNodeList ∧ e.2 ∈ g.getNodeList := fun e he => hg.wf.endp e.1 e.2 he
  have hval : net g.getEdgeList f' sink = cutCap g.getEdgeList cap fun v => decide (S v) := by
    refine flow_eq_cut hg.wf.nodup hEV htn h2 (by simpa using hS1) (by simpa using hS2) ?_ ?_
    · rintro ⟨u, v⟩ he hu hv
      simp only [decide_eq_true_eq, decide_eq_false_iff_not] at hu hv
      have := mt (hS3 u hu v) hv
      unfold Use pot at this
      rw [if_pos he, not_and] at this
      have := this (Or.inl he)
      have := h2.within _ he
      omega
    · rintro ⟨u, v⟩ he hu hv
      simp only [decide_eq_true_eq, decide_eq_false_iff_not] at hu hv
      have := mt (hS3 v hv u) hu
      unfold Use pot at this
      rw [if_neg (hanti u v (by rintro rfl; exact hu hv) he), not_and] at this
      have := this (Or.inr he)
      have := h2.within _ he
      omega
  refine ⟨fun v => decide (S v), by simpa using hS1, by simpa using hS2, ?_⟩
  have h3 := hf.most f' h2
  have h4 := flow_le_cut hg.wf.nodup hEV htn hf.flow (S := fun v => decide (S v)) (by simpa using hS1) (by simpa using hS2)
  omega

/-- what `find_feasible_flow` does; when it returns False some nodes have more supply than can leave them -/
theorem feasible_facts (hg : Built g) (hd : g.directed = true) (hb : LawfulBag O items) {newQ : Q}
    (hq : items newQ = []) (hc : ∀ u v, (u, v) ∈ g.getEdgeList → g.capOf u v = .ok (cap (u, v)))
    (hpos : ∀ e ∈ g.getEdgeList, 0 ≤ cap e)
    (hanti : ∀ u v, u ≠ v → (u, v) ∈ g.getEdgeList → (v, u) ∉ g.getEdgeList)
    {b : N → Int} (hdem : ∀ v ∈ g.getNodeList, g.getNodeAttr v "demand" = .ok (.int (b v)))
    (hbal : (g.getNodeList.map b).sum = 0) (hsup : ∃ v ∈ g.getNodeList, 0 < b v) {s t : N} (hs : s ∉ g.getNodeList)
    (ht : t ∉ g.getNodeList) (hst : s ≠ t) {fuel : Nat} (hfuel : g.getNodeList.length +
      ((g.getEdgeList.map cap).sum + (g.getNodeList.map fun v => ((b v).natAbs : Int)).sum).toNat + 3 ≤ fuel) :
    ∃ res f g', feasibleFlow g O newQ s t fuel = .ok (res, f, g') ∧
      (res = true ↔ ∃ f', IsFeasible g.getNodeList g.getEdgeList cap b f') ∧
      (res = true → IsFeasible g.getNodeList g.getEdgeList cap b f) ∧
      (res = false → ∃ S : N → Bool, cutCap g.getEdgeList cap S < (g.getNodeList.map fun v => if S v then b v else 0).sum) ∧
      Built g' ∧ g'.directed = true ∧ g'.getNodeList = g.getNodeList ∧ g'.getEdgeList = g.getEdgeList ∧
      (∀ v x, g'.getNodeAttr v x = g.getNodeAttr v x) ∧ (∀ u v x, g'.getEdgeAttr u v x = g.getEdgeAttr u v x) := by
  obtain ⟨a, ha, had⟩ : ∃ a, Rep g a ∧ a.directed = true := ⟨_, rep_of_wf hg.wf, hd⟩
  have hV : g.getNodeList = a.V := ha.V
  have hEq : g.getEdgeList = a.E := ha.E
  have hEV : ∀ e ∈ a.E, e.1 ∈ a.V ∧ e.2 ∈ a.V := by
    intro e he; rw [← hV]; rw [← hEq] at he; exact hg.wf.endp e.1 e.2 he
  have hVn : a.V.Nodup := by rw [← ha.V]; exact hg.wf.nodup
  have hEn : a.E.Nodup := by rw [← ha.E]; exact hg.wf.edup
  rw [hV] at hdem hbal hsup hs ht hfuel
  rw [hEq] at hc hpos hanti hfuel
  have hdem' : ∀ v ∈ a.V, a.na v "demand" = some (.int (b v)) := by
    intro v hv
    have := hdem v hv
    rw [getNodeAttr_rep ha, AGraph.getNodeAttr, if_pos hv] at this
    rcases hx : a.na v "demand" with _ | y
    · rw [hx] at this; cases this
    · rw [hx] at this; cases this; rfl
  obtain ⟨g1, a1, hg1, hi⟩ := addDemands_ok hs ht hst hEV hdem' hVn a.V [] g a rfl
    ⟨ha, hg, had, by simp, by
      refine List.filter_eq_self.2 fun v hv => ?_
      have h1 : v ≠ s := by rintro rfl; exact hs hv
      have h2 : v ≠ t := by rintro rfl; exact ht hv
      simp [h1, h2], fun _ _ => rfl, fun _ _ => rfl, by simp⟩
  have hV1 : g1.getNodeList = a1.V := hi.rep.V
  have hE1 : g1.getEdgeList = a.E ++ a.V.flatMap (extra s t b) := by rw [← hi.E]; exact hi.rep.E
  have hmemX : ∀ e, e ∈ a.V.flatMap (extra s t b) → ∃ i ∈ a.V, (0 < b i ∧ e = (s, i)) ∨ (b i < 0 ∧ e = (i, t)) := by
    intro e he
    obtain ⟨i, h1, h2⟩ := List.mem_flatMap.1 he
    exact ⟨i, h1, mem_extra.1 h2⟩
  have hd1 : g1.directed = true := by rw [hi.rep.dir, hi.dir]
  have hc1 : ∀ u v, (u, v) ∈ g1.getEdgeList → g1.capOf u v = .ok (capX s t b cap (u, v)) := by
    intro u v he
    have he' : (u, v) ∈ a1.E := by rw [hi.E, ← hE1]; exact he
    rw [capOf_rep hi.rep he']
    rw [hE1] at he
    rcases List.mem_append.1 he with he | he
    · rw [hi.ea _ he, ← capOf_rep ha he, hc _ _ he, capX_E hs ht hEV he]
    · obtain ⟨i, h1, h2⟩ := List.mem_flatMap.1 he
      rw [hi.cp i h1 _ h2]
      have his : i ≠ s := by rintro rfl; exact hs h1
      rcases mem_extra.1 h2 with ⟨_, h⟩ | ⟨_, h⟩ <;> rw [h] <;> simp [capX, his]
  have hpos1 : ∀ e ∈ g1.getEdgeList, 0 ≤ capX s t b cap e := by
    intro e he
    rw [hE1] at he
    rcases List.mem_append.1 he with he | he
    · rw [capX_E hs ht hEV he]; exact hpos e he
    · obtain ⟨i, h1, h2⟩ := hmemX e he
      have his : i ≠ s := by rintro rfl; exact hs h1
      rcases h2 with ⟨h, rfl⟩ | ⟨h, rfl⟩ <;> simp [capX, his] <;> omega
  obtain ⟨p, hp, hpb⟩ := hsup
  have hsp : (s, p) ∈ g1.getEdgeList := by
    rw [hE1]; exact List.mem_append_right _ (List.mem_flatMap.2 ⟨p, hp, mem_extra.2 (.inl ⟨hpb, rfl⟩)⟩)
  have hs1 : s ∈ g1.getNodeList := (hi.rep.wf.endp s p hsp).1
  have hdm : ∃ q ∈ a.V, b q < 0 := by
    by_contra hcon
    have h0 : ∀ v ∈ a.V, 0 ≤ b v := fun v hv => by
      by_contra h; exact hcon ⟨v, hv, by omega⟩
    have := eq_of_sum_le (V := a.V) (p := fun _ => 0) (q := b) h0 (by rw [hbal]; simp) p hp
    omega
  obtain ⟨q, hqV, hqb⟩ := hdm
  have hqt : (q, t) ∈ g1.getEdgeList := by
    rw [hE1]; exact List.mem_append_right _ (List.mem_flatMap.2 ⟨q, hqV, mem_extra.2 (.inr ⟨hqb, rfl⟩)⟩)
  have ht1 : t ∈ g1.getNodeList := (hi.rep.wf.endp q t hqt).2
  have hanti1 : ∀ u v, u ≠ v → (u, v) ∈ g1.getEdgeList → (v, u) ∉ g1.getEdgeList := by
    intro u v huv h1 h2
    rw [hE1] at h1 h2
    rcases List.mem_append.1 h1 with h1 | h1 <;> rcases List.mem_append.1 h2 with h2 | h2
    · exact hanti u v huv h1 h2
    · obtain ⟨i, hiV, h | h⟩ := hmemX _ h2
      · exact hs ((Prod.mk.inj h.2).1 ▸ (hEV _ h1).2)
      · exact ht ((Prod.mk.inj h.2).2 ▸ (hEV _ h1).1)
    · obtain ⟨i, hiV, h | h⟩ := hmemX _ h1
      · exact hs ((Prod.mk.inj h.2).1 ▸ (hEV _ h2).2)
      · exact ht ((Prod.mk.inj h.2).2 ▸ (hEV _ h2).1)
    · obtain ⟨i, hiV, h | h⟩ := hmemX _ h1 <;> obtain ⟨j, hjV, h' | h'⟩ := hmemX _ h2 <;>
        obtain ⟨e1, e2⟩ := Prod.mk.inj h.2 <;> obtain ⟨e3, e4⟩ := Prod.mk.inj h'.2
      · exact huv (by rw [e1, e3])
      · exact hst (by rw [← e1, e4])
      · exact hst (by rw [← e3, e2])
      · exact huv (by rw [e2, e4])
  have hlen : a1.V.length ≤ a.V.length + 2 := by
    have hn : a1.V.Nodup := by rw [← hi.rep.V]; exact hi.rep.wf.nodup
    have : a1.V ⊆ s :: t :: a.V := by
      intro v hv
      by_cases h1 : v = s
      · simp [h1]
      · by_cases h2 : v = t
        · simp [h2]
        · have : v ∈ a.V := by rw [← hi.V, List.mem_filter]; exact ⟨hv, by simp [h1, h2]⟩
          simp [this]
    simpa using (hn.subperm this).length_le
  have hcsum : (g1.getEdgeList.map (capX s t b cap)).sum = (a.E.map cap).sum + (a.V.map fun v => ((b v).natAbs : Int)).sum := by
    rw [hE1, List.map_append, List.sum_append, sum_extra]
    congr 2
    · exact List.map_congr_left fun e he => capX_E hs ht hEV he
    · refine List.map_congr_left fun i hiV => ?_
      have his : i ≠ s := by rintro rfl; exact hs hiV
      simp only [capX, his, if_true, if_false]
      split
      · omega
      · split <;> omega
  obtain ⟨f, hf1, hf2⟩ := C27_max_flow_maximum hi.built hd1 hb hq hc1 hpos1 hs1 ht1 hst hanti1 (fuel := fuel) (by
    unfold flowFuel; rw [hcsum, hV1]; omega)
  obtain ⟨nb, inn, hnb, _, hnb', _⟩ := nbrs_edges hi.rep.wf hd1 hs1
  obtain ⟨res, hr1, hr2⟩ := saturated_ok (f := f) (l := nb) (s := s) (g := g1) (cap := capX s t b cap)
    fun i hi => ⟨(hnb' i).1 hi, hc1 _ _ ((hnb' i).1 hi)⟩
  have hfull : res = true ↔ ∀ i ∈ a.V, 0 < b i → f (s, i) = b i := by
    rw [hr2]
    constructor
    · intro h i hi hbi
      have := h i ((hnb' i).2 (by
        rw [hE1]; exact List.mem_append_right _ (List.mem_flatMap.2 ⟨i, hi, mem_extra.2 (.inl ⟨hbi, rfl⟩)⟩)))
      simpa [capX] using this
    · intro h i hi
      have := (hnb' i).1 hi
      rw [hE1] at this
      rcases List.mem_append.1 this with he | he
      · exact absurd (hEV _ he).1 hs
      · obtain ⟨j, hj, h' | h'⟩ := hmemX _ he
        · obtain ⟨_, rfl⟩ := Prod.mk.inj h'.2
          simpa [capX] using h i hj h'.1
        · exact absurd hj ((Prod.mk.inj h'.2).1 ▸ hs)
  rw [hE1] at hf2
  -- deleting the extra nodes
  have hs1' : s ∈ a1.V := by rw [← hV1]; exact hs1
  have ht1' : t ∈ a1.V := by rw [← hV1]; exact ht1
  have st1 : a1.step (.delNode s) = (none, { a1 with V := a1.V.filter (· ≠ s), E := a1.E.filter fun e => e.1 ≠ s ∧ e.2 ≠ s }) := by
    simp [AGraph.step, hs1']
  obtain ⟨g2, hg2, hi2⟩ := rep_call hi.rep hi.dir (.delNode s) (by rw [st1])
  have hb2 := hi.built.call hd1 hg2
  rw [st1] at hi2
  have ht2 : t ∈ a1.V.filter (· ≠ s) := by simp [ht1', Ne.symm hst]
  have st2 : AGraph.step { a1 with V := a1.V.filter (· ≠ s), E := a1.E.filter fun e => e.1 ≠ s ∧ e.2 ≠ s } (.delNode t) =
      (none, { a1 with V := (a1.V.filter (· ≠ s)).filter (· ≠ t), E := (a1.E.filter fun e => e.1 ≠ s ∧ e.2 ≠ s).filter fun e => e.1 ≠ t ∧ e.2 ≠ t }) := by
    simp only [AGraph.step]; rw [if_pos ht2]
  obtain ⟨g3, hg3, hi3⟩ := rep_call hi2 hi.dir (.delNode t) (by rw [st2])
  have hb3 := hb2.call (by rw [hi2.dir]; exact hi.dir) hg3
  rw [st2] at hi3
  have hV3 : (a1.V.filter (· ≠ s)).filter (· ≠ t) = a.V := by
    rw [List.filter_filter, ← hi.V]
    refine List.filter_congr fun v _ => ?_
    simp [Bool.and_comm]
  have hE3 : ((a1.E.filter fun e => e.1 ≠ s ∧ e.2 ≠ s).filter fun e => e.1 ≠ t ∧ e.2 ≠ t) = a.E := by
    rw [List.filter_filter, hi.E, List.filter_append]
    have h1 : a.E.filter (fun e => decide (e.1 ≠ t ∧ e.2 ≠ t) && decide (e.1 ≠ s ∧ e.2 ≠ s)) = a.E := by
      refine List.filter_eq_self.2 fun e he => ?_
      have := hEV e he
      have h1 : e.1 ≠ s := by rintro h; exact hs (h ▸ this.1)
      have h2 : e.1 ≠ t := by rintro h; exact ht (h ▸ this.1)
      have h3 : e.2 ≠ s := by rintro h; exact hs (h ▸ this.2)
      have h4 : e.2 ≠ t := by rintro h; exact ht (h ▸ this.2)
      simp [h1, h2, h3, h4]
    have h2 : (a.V.flatMap (extra s t b)).filter (fun e => decide (e.1 ≠ t ∧ e.2 ≠ t) && decide (e.1 ≠ s ∧ e.2 ≠ s)) = [] := by
      refine List.filter_eq_nil_iff.2 fun e he => ?_
      obtain ⟨i, hi, ⟨_, rfl⟩ | ⟨_, rfl⟩⟩ := hmemX e he <;> simp
    rw [h1, h2, List.append_nil]
  rw [hV3, hE3] at hi3
  refine ⟨res, f, g3, ?_, ?_, ?_, ?_, hb3, by rw [hi3.dir]; exact hi.dir, by rw [hV]; exact hi3.V, by rw [hEq]; exact hi3.E, ?_, ?_⟩
  · unfold feasibleFlow
    rw [hV, hg1]; simp only []
    rw [hf1]; simp only []
    rw [hnb]; simp only []
    rw [hr1]; simp only []
    rw [hg2]; simp only []
    rw [hg3]
  · rw [hV, hEq]
    constructor
    · intro h; exact ⟨f, meets_of_full hVn hs ht hEV hbal hf2.flow (hfull.1 h)⟩
    · rintro ⟨f', hf'⟩
      exact hfull.2 (full_of_feasible hVn hs ht hst hEV hbal hf2 hf')
  · rw [hV, hEq]
    intro h; exact meets_of_full hVn hs ht hEV hbal hf2.flow (hfull.1 h)
  · rw [hV, hEq]
    intro h
    have hcut := max_cut hi.built hd1 hb hq hc1 hpos1 hs1 ht1 hst hanti1 (f := f) (by rw [hE1]; exact hf2)
    rw [hE1] at hcut
    obtain ⟨S, k1, k2, k3⟩ := hcut
    exact ⟨S, gale_of_cut hVn hs ht hst hEV hf2.flow k1 k2 k3 fun hn => by rw [hfull.2 hn] at h; cases h⟩
  · intro v x
    rw [getNodeAttr_rep hi3, getNodeAttr_rep ha]
    unfold AGraph.getNodeAttr
    by_cases hv : v ∈ a.V
    · simp only [hv, if_true, hi.na v hv]
    · simp only [hv, if_false]
  · intro u v x
    rw [getEdgeAttr_rep hi3 hi.dir, getEdgeAttr_rep ha had]
    by_cases he : (u, v) ∈ a.E
    · simp only [he, if_true, hi.ea _ he]
    · simp only [he, if_false]

/-- **C37.** Take a digraph without antiparallel arcs, with non-negative capacities (10000 where none is given), and a
`demand` for every node; the demands sum to 0, some node has a positive one, and neither 's' nor 't' is a node.  Then
`find_feasible_flow` returns; it returns True exactly when there is a flow within the bounds meeting every demand, and
then the flow it stores is one; nodes, edges and attributes are afterwards as they were. -/
theorem C37_find_feasible_flow (hg : Built g) (hd : g.directed = true) (hb : LawfulBag O items) {newQ : Q}
    (hq : items newQ = []) (hc : ∀ u v, (u, v) ∈ g.getEdgeList → g.capOf u v = .ok (cap (u, v)))
    (hpos : ∀ e ∈ g.getEdgeList, 0 ≤ cap e)
    (hanti : ∀ u v, u ≠ v → (u, v) ∈ g.getEdgeList → (v, u) ∉ g.getEdgeList)
    {b : N → Int} (hdem : ∀ v ∈ g.getNodeList, g.getNodeAttr v "demand" = .ok (.int (b v)))
    (hbal : (g.getNodeList.map b).sum = 0) (hsup : ∃ v ∈ g.getNodeList, 0 < b v) {s t : N} (hs : s ∉ g.getNodeList)
    (ht : t ∉ g.getNodeList) (hst : s ≠ t) {fuel : Nat} (hfuel : g.getNodeList.length +
      ((g.getEdgeList.map cap).sum + (g.getNodeList.map fun v => ((b v).natAbs : Int)).sum).toNat + 3 ≤ fuel) :
    ∃ res f g', feasibleFlow g O newQ s t fuel = .ok (res, f, g') ∧
      (res = true ↔ ∃ f', IsFeasible g.getNodeList g.getEdgeList cap b f') ∧
      (res = true → IsFeasible g.getNodeList g.getEdgeList cap b f) ∧
      Built g' ∧ g'.directed = true ∧ g'.getNodeList = g.getNodeList ∧ g'.getEdgeList = g.getEdgeList ∧
      (∀ v x, g'.getNodeAttr v x = g.getNodeAttr v x) ∧ (∀ u v x, g'.getEdgeAttr u v x = g.getEdgeAttr u v x) := by
  obtain ⟨res, f, g', h1, h2, h3, _, h4⟩ := feasible_facts hg hd hb hq hc hpos hanti hdem hbal hsup hs ht hst hfuel
  exact ⟨res, f, g', h1, h2, h3, h4⟩

/-! ## `cycle_canceling` -/

theorem negCycle_isCycle {r : Graph N} (hg : Built r) (hd : r.directed = true) {w : N → N → Int}
    (hw : ∀ u v, r.checkEdge u v = true → r.getEdgeCost u v = .ok (w u v)) {fuel : Nat} {c : List N}
    (h : FW.getNegativeCycle r fuel = .ok (some c)) : IsCycle (Step r false) c := by
  obtain ⟨valid, st, h1, _, _, _, _, h6⟩ := fw_facts hg hd hw
  unfold FW.getNegativeCycle at h
  rw [h1] at h
  rcases hnl : r.getNodeList with _ | ⟨x, l⟩
  · rw [hnl] at h; cases h
  · rw [hnl] at h
    rcases valid with _ | _
    · simp only [] at h
      rcases hc : FW.getCycle (x :: l) st fuel with e | c'
      · rw [hc] at h; cases h
      · rw [hc] at h; cases h
        unfold FW.getCycle at hc
        split at hc
        · cases hc
        · exact cycleFrom_ok (fun i j k hk => by obtain ⟨y, _, hr, _⟩ := h6.next _ _ _ hk; exact hr) fuel fuel _ c hc
    · cases h

/-- what the loop maintains, and what holds when it stops -/
theorem cancelLoop_ok (hg : Built g) (hd : g.directed = true)
    (hs : ∀ u v, (u, v) ∈ g.getEdgeList → (v, u) ∉ g.getEdgeList)
    (hcap : ∀ u v, (u, v) ∈ g.getEdgeList → g.capOf u v = .ok (cap (u, v)))
    (hcost : ∀ u v, (u, v) ∈ g.getEdgeList → g.getEdgeCost u v = .ok (cost (u, v))) {b : N → Int} {inner : Nat} :
    ∀ (k : Nat) (f : N × N → Int), IsFeasible g.getNodeList g.getEdgeList cap b f →
      (∀ f', cancelLoop g inner k f = .ok f' → IsMinCost g.getNodeList g.getEdgeList cap cost b f') := by
  intro k
  induction k with
  | zero => intro f _ f' h; cases h
  | succ k ih =>
    intro f hf f' h
    obtain ⟨r, h1, h2, h3, h4, h5, h6⟩ := residual_facts (cap := cap) (cost := cost) hg hd hs hcap hcost f
    rw [cancelLoop, h1] at h
    simp only [] at h
    have hw : ∀ u v, r.checkEdge u v = true → r.getEdgeCost u v = .ok (rcost g cost u v) := by
      intro u v huv; exact h6 u v (by simpa [Step] using huv)
    rcases hn : FW.getNegativeCycle r inner with e | _ | c
    · rw [hn] at h; cases h
    · rw [hn] at h; cases h
      obtain ⟨valid, st, g1, g2, g3, g4, g5, g6⟩ := fw_facts h2 h3 hw
      have hb : valid = true := by
        unfold FW.getNegativeCycle at hn
        rw [g1] at hn
        rcases hnl : r.getNodeList with _ | ⟨x, l⟩
        · rw [hnl] at hn; cases hn
        · rw [hnl] at hn
          rcases valid with _ | _
          · simp only [] at hn
            split at hn <;> cases hn
          · rfl
      have hbd : ∀ u v x, WalkCost (Step r false) (rcost g cost) u x v →
          (r.getNodeList.map fun u => min 0 ((st.dist (u, v)).getD 0)).sum ≤ x := by
        intro u v x hx
        have hle : ∀ l : List N, (l.map fun u => min 0 ((st.dist (u, v)).getD 0)).sum ≤ 0 := by
          intro l; induction l with
          | nil => simp
          | cons a l ih => simp only [List.map_cons, List.sum_cons]; omega
        rcases FW.Via.of_walk (K := fun _ => True) (fun _ _ _ => trivial) hx with ⟨_, rfl⟩ | hv
        · exact hle _
        · obtain ⟨y, hy, hdy⟩ := g5 _ _ _ hv
          have hu : u ∈ r.getNodeList := by
            have : ∀ {x z}, FW.Via (Step r false) (rcost g cost) (fun _ => True) u x z → u ∈ r.getNodeList := by
              intro x z h
              induction h with
              | arc h => exact (Search.step_node h2.wf h).1
              | snoc _ _ _ ih => exact ih
            exact this hv
          have key : ∀ l : List N, u ∈ l → (l.map fun u => min 0 ((st.dist (u, v)).getD 0)).sum ≤ y := by
            intro l; induction l with
            | nil => intro h; cases h
            | cons a l ih =>
              intro h
              simp only [List.map_cons, List.sum_cons]
              rcases List.mem_cons.1 h with rfl | h
              · have := hle l; rw [hdy, Option.getD_some]; omega
              · have := ih h; omega
          exact Int.le_trans (key _ hu) (hy hb)
      obtain ⟨π, hπ⟩ := potential_exists _ hbd
      refine ⟨hf, fun f' hf' => ?_⟩
      refine cost_le_of_potential hg.wf.nodup (fun e he => hg.wf.endp e.1 e.2 he) hs hf.within π
        (fun u v h => hπ u v ((h4 u v).2 h)) hf'.within fun v hv => ?_
      have := hf.meets v hv
      have := hf'.meets v hv
      omega
    · rw [hn] at h
      simp only [] at h
      obtain ⟨v, l, rfl, hnd, hch⟩ := MinCost.IsCycle.closed (negCycle_isCycle h2 h3 hw hn)
      obtain ⟨m, hm1, hm2, hm3⟩ := cycleCapacity_ok (hch.imp fun u v h => h5 u v h)
      have hm0 : 0 ≤ m := hm3 0 (hch.imp fun u v h => by have := ((h4 u v).1 h).2; omega)
      rw [hm1] at h
      simp only [] at h
      obtain ⟨f1, a1, a2, a3, a4⟩ := augmentCycle_ok (cost := cost) hg.wf.edup hs hm0 hf.within hnd
        ((chain_and hch hm2).imp fun a b h => ⟨((h4 a b).1 h.1).1, h.2⟩)
      rw [a1] at h
      exact ih f1 ⟨a2, fun v hv => by rw [a3]; exact hf.meets v hv⟩ f' h

/-- **C36.** Take a digraph without antiparallel arcs or self loops, with costs and non-negative capacities, balanced
demands, at least one supply, and neither 's' nor 't' as a node.  If `cycle_canceling` returns True then the flow it
stores is a feasible flow of least cost; if it returns False then there is no feasible flow. -/
theorem C36_cycle_canceling (hg : Built g) (hd : g.directed = true) (hb : LawfulBag O items) {newQ : Q}
    (hq : items newQ = []) (hc : ∀ u v, (u, v) ∈ g.getEdgeList → g.capOf u v = .ok (cap (u, v)))
    (hpos : ∀ e ∈ g.getEdgeList, 0 ≤ cap e)
    (hcost : ∀ u v, (u, v) ∈ g.getEdgeList → g.getEdgeCost u v = .ok (cost (u, v)))
    (hanti : ∀ u v, (u, v) ∈ g.getEdgeList → (v, u) ∉ g.getEdgeList)
    {b : N → Int} (hdem : ∀ v ∈ g.getNodeList, g.getNodeAttr v "demand" = .ok (.int (b v)))
    (hbal : (g.getNodeList.map b).sum = 0) (hsup : ∃ v ∈ g.getNodeList, 0 < b v) {s t : N} (hs : s ∉ g.getNodeList)
    (ht : t ∉ g.getNodeList) (hst : s ≠ t) {fuel : Nat} (hfuel : g.getNodeList.length +
      ((g.getEdgeList.map cap).sum + (g.getNodeList.map fun v => ((b v).natAbs : Int)).sum).toNat + 3 ≤ fuel)
    {res : Bool} {f : N × N → Int} {g' : Graph N} (h : cycleCanceling g O newQ s t fuel = .ok (res, f, g')) :
    (res = true → IsMinCost g.getNodeList g.getEdgeList cap cost b f) ∧
    (res = false → ¬ ∃ f', IsFeasible g.getNodeList g.getEdgeList cap b f') ∧
    g'.getNodeList = g.getNodeList ∧ g'.getEdgeList = g.getEdgeList := by
  obtain ⟨r0, f0, g0, h1, h2, h3, h4, h5, h6, h7, h8, h9⟩ := C37_find_feasible_flow hg hd hb hq hc hpos
    (fun u v _ => hanti u v) hdem hbal hsup hs ht hst hfuel
  unfold cycleCanceling at h
  rw [h1] at h
  rcases r0 with _ | _
  · cases h
    refine ⟨fun h => (by cases h), fun _ hex => ?_, h6, h7⟩
    have := h2.2 hex; cases this
  · simp only [] at h
    rcases hl : cancelLoop g0 fuel fuel f0 with e | f1
    · rw [hl] at h; cases h
    · rw [hl] at h; cases h
      refine ⟨fun _ => ?_, fun h => (by cases h), h6, h7⟩
      have hcap0 : ∀ u v, (u, v) ∈ g'.getEdgeList → g'.capOf u v = .ok (cap (u, v)) := by
        intro u v he
        rw [h7] at he
        rw [capOf_congr hg.wf hd h4.wf h5 he (by rw [h7]; exact he) (h9 u v _), hc u v he]
      have := cancelLoop_ok (cap := cap) (cost := cost) (b := b) h4 h5 (by rw [h7]; exact hanti) hcap0 (by
        intro u v he
        rw [h7] at he
        have := hcost u v he
        unfold Graph.getEdgeCost at this ⊢
        rw [h9]; exact this) fuel f0 (by rw [h6, h7]; exact h3 rfl) f hl
      rw [h6, h7] at this
      exact this

/-! ## `cycle_canceling` need not terminate -/

/-- the two flows agree on the arcs -/
def Agree (g : Graph N) (f f' : N × N → Int) : Prop := ∀ e ∈ g.getEdgeList, f e = f' e

theorem residual_congr {f f' : N × N → Int} (h : Agree g f f') (capR : N → N → Except PyErr Int) :
    residual g capR f = residual g capR f' := by
  have : ∀ (l : List (N × N)) (r : Graph N), residualLoop g capR f l r = residualLoop g capR f' l r := by
    intro l
    induction l with
    | nil => intro r; rfl
    | cons e l ih =>
      intro r
      have hfl : g.flowOf f e.1 e.2 = g.flowOf f' e.1 e.2 := by
        unfold Graph.flowOf
        by_cases he : g.edgeAttr.contains (e.1, e.2) = true
        · rw [if_pos he, if_pos he, h _ ((contains_edge g _ _).1 he)]
        · rw [if_neg he, if_neg he]
      simp only [residualLoop, hfl, ih]
  unfold residual; rw [this]

theorem pushArc_congr {f f' f1 : N × N → Int} (h : Agree g f f') {u v : N} {d : Int} (h1 : pushArc g f' u v d = .ok f1) :
    ∃ f2, pushArc g f u v d = .ok f2 ∧ Agree g f2 f1 := by
  unfold pushArc at h1 ⊢
  split at h1
  · next hc =>
    cases h1
    rw [if_pos hc]
    refine ⟨_, rfl, fun e he => ?_⟩
    have := h _ ((contains_edge g u v).1 hc)
    have := h e he
    simp only [upd]
    split <;> omega
  · next hc =>
    split at h1
    · next hc' =>
      cases h1
      rw [if_neg hc, if_pos hc']
      refine ⟨_, rfl, fun e he => ?_⟩
      have := h _ ((contains_edge g v u).1 hc')
      have := h e he
      simp only [upd]
      split <;> omega
    · cases h1

theorem augmentCycle_congr {d : Int} {c : List N} {f f' f1 : N × N → Int} (h : Agree g f f')
    (h1 : augmentCycle g d c f' = .ok f1) : ∃ f2, augmentCycle g d c f = .ok f2 ∧ Agree g f2 f1 := by
  have loop : ∀ (l : List N) (f f' f1 : N × N → Int), Agree g f f' → augLoop g d l f' = .ok f1 →
      ∃ f2, augLoop g d l f = .ok f2 ∧ Agree g f2 f1 := by
    intro l
    induction l with
    | nil => intro f f' f1 h h1; cases h1; exact ⟨f, rfl, h⟩
    | cons u l ih =>
      intro f f' f1 h h1
      rcases l with _ | ⟨v, l⟩
      · cases h1; exact ⟨f, rfl, h⟩
      · rw [augLoop] at h1
        rcases hp : pushArc g f' u v d with e | f3
        · rw [hp] at h1; cases h1
        · rw [hp] at h1
          obtain ⟨f4, h4, h5⟩ := pushArc_congr h hp
          obtain ⟨f5, h6, h7⟩ := ih f4 f3 f1 h5 h1
          exact ⟨f5, by rw [augLoop, h4]; exact h6, h7⟩
  rcases c with _ | ⟨v, l⟩
  · cases h1
  · unfold augmentCycle at h1 ⊢
    simp only [] at h1 ⊢
    rcases ha : augLoop g d (v :: l) f' with e | f3
    · rw [ha] at h1; cases h1
    · rw [ha] at h1
      obtain ⟨f4, h4, h5⟩ := loop _ _ _ _ h ha
      rw [h4]
      exact pushArc_congr h5 h1

/-- if each of some flows is changed by one round of the loop into one of them, the loop never ends -/
theorem cancelLoop_diverges {inner : Nat} (T : List (N × N → Int))
    (hT : ∀ f ∈ T, ∃ r c d f', residual g (fun u v => g.capOf u v) f = .ok r ∧ FW.getNegativeCycle r inner = .ok (some c) ∧
      cycleCapacity r c = .ok d ∧ augmentCycle g d c f = .ok f' ∧ ∃ f'' ∈ T, Agree g f' f'') :
    ∀ (k : Nat) (f : N × N → Int), (∃ f' ∈ T, Agree g f f') → cancelLoop g inner k f = .error .diverge := by
  intro k
  induction k with
  | zero => intro f _; rfl
  | succ k ih =>
    rintro f ⟨f0, h0, h1⟩
    obtain ⟨r, c, d, f', g1, g2, g3, g4, f'', h2, h3⟩ := hT f0 h0
    obtain ⟨f2, g5, g6⟩ := augmentCycle_congr h1 g4
    rw [cancelLoop, residual_congr h1, g1]
    simp only [g2, g3, g5]
    exact ih f2 ⟨f'', h2, fun e he => by rw [g6 e he, h3 e he]⟩

/-- a network on the nodes 0, …, n-1 -/
def costNet (n : Nat) (b : Nat → Int) (l : List (Nat × Nat × Int × Int)) : Graph Nat :=
  runOps (Graph.init true) ((l.map fun e => .addEdge e.1 e.2.1 [("cost", .int e.2.2.1), ("capacity", .int e.2.2.2)]) ++
    (List.range n).map fun i => .setNodeAttr i "demand" (.int (b i)))

theorem costNet_built (n : Nat) (b : Nat → Int) (l : List (Nat × Nat × Int × Int)) : Built (costNet n b l) :=
  ⟨true, _, by intro op _; cases op <;> simp [Op.InScope], rfl⟩

/-- arcs as tail, head, cost, capacity -/
def loopNet : Graph Nat := costNet 8 (fun i => if i = 6 then 1 else if i = 7 then -1 else 0)
  [(0, 5, -2, 1), (3, 2, 0, 2), (5, 2, -2, 1), (1, 5, -2, 2), (1, 2, 0, 1), (2, 0, -2, 2), (5, 4, 0, 1), (1, 3, 0, 1),
   (0, 3, 0, 2), (4, 1, 0, 1), (6, 7, 0, 1)]

/-- the flow with the given values -/
def tbl (g : Graph Nat) (l : List Int) (e : Nat × Nat) : Int := ((g.getEdgeList.zip l).lookup e).getD 0

/-- the flows through which the loop runs -/
def orbit : List (List Int) :=
  [[0, 0, 0, 0, 0, 0, 0, 0, 0, 0, 1], [1, 0, 1, 0, 0, 1, 0, 0, 0, 0, 1], [1, 0, 1, 1, 0, 1, 1, 0, 0, 1, 1]]

/-- one round of the loop -/
def round (g : Graph Nat) (inner : Nat) (f : Nat × Nat → Int) : Option (List Int) :=
  match residual g (fun u v => g.capOf u v) f with
  | .error _ => none
  | .ok r => match FW.getNegativeCycle r inner with
    | .ok (some c) => match cycleCapacity r c with
      | .error _ => none
      | .ok d => match augmentCycle g d c f with
        | .error _ => none
        | .ok f => some (g.getEdgeList.map f)
    | _ => none

theorem round_some {g : Graph Nat} {inner : Nat} {f : Nat × Nat → Int} {l : List Int} (h : round g inner f = some l) :
    ∃ r c d f', residual g (fun u v => g.capOf u v) f = .ok r ∧ FW.getNegativeCycle r inner = .ok (some c) ∧
      cycleCapacity r c = .ok d ∧ augmentCycle g d c f = .ok f' ∧ g.getEdgeList.map f' = l := by
  unfold round at h
  split at h
  · cases h
  · next r h1 =>
    split at h
    · next c h2 =>
      split at h
      · cases h
      · next d h3 =>
        split at h
        · cases h
        · next f' h4 => exact ⟨r, c, d, f', h1, h2, h3, h4, Option.some.inj h⟩
    · cases h

/-- **`cycle_canceling` need not terminate.**  On this network (no antiparallel arcs, no self loops, balanced demands)
`find_feasible_flow` returns True, and from its flow the loop of `cycle_canceling` never ends: `get_negative_cycle` keeps
returning the cycle 5→1→5 of cost 0, as in `C35_false_cost`.  So C36 has to assume that the method returns. -/
theorem C36_may_not_terminate : ∃ (g g' : Graph Nat) (f : Nat × Nat → Int), Built g ∧ g.directed = true ∧
    (∀ u v, (u, v) ∈ g.getEdgeList → (v, u) ∉ g.getEdgeList) ∧
    feasibleFlow g stackOps [] 8 9 30 = .ok (true, f, g') ∧
    ∀ k, cancelLoop g' 20 k f = .error .diverge := by
  have hE : loopNet.getEdgeList = [(0, 5), (3, 2), (5, 2), (1, 5), (1, 2), (2, 0), (5, 4), (1, 3), (0, 3), (4, 1), (6, 7)] := by
    decide +kernel
  have key : ∀ (res : Except PyErr (Bool × (Nat × Nat → Int) × Graph Nat)),
      (match res with
        | .ok (b, f, g') => decide (b = true ∧ (∀ l ∈ orbit, ∃ l' ∈ orbit, round g' 20 (tbl loopNet l) = some l') ∧
          (∀ l ∈ orbit, g'.getEdgeList.map (tbl loopNet l) = l) ∧ g'.getEdgeList.map f ∈ orbit)
        | .error _ => false) = true →
      ∃ g' f, res = .ok (true, f, g') ∧ ∀ k, cancelLoop g' 20 k f = .error .diverge := by
    intro res h
    rcases res with e | ⟨b, f, g'⟩
    · cases h
    · obtain ⟨rfl, h1, h2, h3⟩ := of_decide_eq_true h
      refine ⟨g', f, rfl, fun k => cancelLoop_diverges (orbit.map (tbl loopNet)) ?_ k f ?_⟩
      · intro f hf
        obtain ⟨l, hl, rfl⟩ := List.mem_map.1 hf
        obtain ⟨l', hl', hr⟩ := h1 l hl
        obtain ⟨r, c, d, f', a1, a2, a3, a4, a5⟩ := round_some hr
        refine ⟨r, c, d, f', a1, a2, a3, a4, tbl loopNet l', List.mem_map.2 ⟨l', hl', rfl⟩, ?_⟩
        have := h2 l' hl'
        rw [← a5, List.map_inj_left] at this
        intro e he; rw [← a5]; exact (this e he).symm
      · refine ⟨tbl loopNet (g'.getEdgeList.map f), List.mem_map.2 ⟨_, h3, rfl⟩, ?_⟩
        have := h2 _ h3
        rw [List.map_inj_left] at this
        intro e he; exact (this e he).symm
  obtain ⟨g', f, h1, h2⟩ := key (feasibleFlow loopNet stackOps [] 8 9 30) (by decide +kernel)
  refine ⟨loopNet, g', f, costNet_built _ _ _, rfl, ?_, h1, h2⟩
  rw [hE]; simp only [List.mem_cons, Prod.mk.injEq, List.not_mem_nil, or_false]
  intro u v h h'
  omega

/-! ## Examples and witnesses -/

/-- a network with a cheap and a dear route from 0 to 3 and a dear arc of capacity 2 -/
def exNet : Graph Nat := costNet 4 (fun i => if i = 0 then 2 else if i = 3 then -2 else 0)
  [(0, 2, 5, 2), (2, 3, 4, 2), (0, 1, 1, 1), (1, 3, 1, 2), (2, 1, 0, 1)]

/-- readable form of a graph with its capacities and costs -/
def arcsOf (r : Except PyErr (Graph Nat)) : Option (List (Nat × Nat × Option Int × Option Int)) :=
  match r with
  | .ok g => some (g.getEdgeList.map fun e => (e.1, e.2, (g.getInt e.1 e.2 "capacity").toOption, (g.getEdgeCost e.1 e.2).toOption))
  | .error _ => none

/-- non-vacuity of C30 and C31: a residual graph, the capacity of one of its cycles and the flow after augmenting -/
example : arcsOf (residual exNet (fun u v => exNet.getInt u v "capacity") (tbl exNet [2, 2, 0, 0, 0])) =
      some [(2, 0, some 2, some (-5)), (3, 2, some 2, some (-4)), (0, 1, some 1, some 1), (1, 3, some 2, some 1),
        (2, 1, some 1, some 0)] ∧
    (∀ r, residual exNet (fun u v => exNet.getInt u v "capacity") (tbl exNet [2, 2, 0, 0, 0]) = .ok r →
      cycleCapacity r [0, 1, 3, 2] = .ok 1) ∧
    flowsOf exNet (augmentCycle exNet 1 [0, 1, 3, 2] (tbl exNet [2, 2, 0, 0, 0])) = some [1, 1, 1, 1, 0] := by
  refine ⟨by decide +kernel, ?_, by decide +kernel⟩
  intro r h
  have : (match residual exNet (fun u v => exNet.getInt u v "capacity") (tbl exNet [2, 2, 0, 0, 0]) with
    | .ok r => cycleCapacity r [0, 1, 3, 2] | .error _ => .error .diverge) = .ok 1 := by decide +kernel
  rw [h] at this; exact this

/-- the result of `find_feasible_flow` or `cycle_canceling` -/
def resultOf (r : Except PyErr (Bool × (Nat × Nat → Int) × Graph Nat)) : Option (Bool × List Int × List Nat) :=
  match r with
  | .ok (b, f, g) => some (b, g.getEdgeList.map f, g.getNodeList)
  | .error _ => none

/-- non-vacuity of C36 and C37: a feasible flow that is not optimal, the optimal one, and an infeasible network -/
example : resultOf (feasibleFlow exNet queueOps [] 8 9 30) = some (true, [2, 2, 0, 0, 0], [0, 2, 3, 1]) ∧
    resultOf (cycleCanceling exNet queueOps [] 8 9 30) = some (true, [1, 0, 1, 2, 1], [0, 2, 3, 1]) ∧
    resultOf (cycleCanceling (costNet 3 (fun i => if i = 0 then 3 else if i = 2 then -3 else 0) [(0, 1, 1, 3), (1, 2, 1, 2)])
      stackOps [] 8 9 30) = some (false, [2, 2], [0, 1, 2]) := by decide +kernel

/-- **C30.** On an undirected graph `create_residual_graph` raises, whatever the flow. -/
theorem C30_undirected_raises (hd : g.directed = false) (capR : N → N → Except PyErr Int) (f : N × N → Int) :
    residual g capR f = .error .exception := by
  unfold residual
  rw [hd]
  rfl

/-- the hypothesis of C30 is needed: antiparallel arcs make `create_residual_graph` raise -/
theorem C30_antiparallel_raises : ∃ (g : Graph Nat), Built g ∧ (0, 1) ∈ g.getEdgeList ∧ (1, 0) ∈ g.getEdgeList ∧
    residual g (fun u v => g.getInt u v "capacity") (tbl g [1, 0]) = .error .multipleEdge :=
  ⟨costNet 2 (fun _ => 0) [(0, 1, 1, 2), (1, 0, 1, 2)], costNet_built _ _ _, by decide +kernel, by decide +kernel, by rfl⟩

/-- the hypothesis of C37 that there is a supply is needed: without one `find_feasible_flow` raises KeyError -/
theorem C37_supply_needed : ∃ (g : Graph Nat), Built g ∧ g.getNodeList = [0, 1] ∧
    (∀ v ∈ g.getNodeList, g.getNodeAttr v "demand" = .ok (.int 0)) ∧
    (match feasibleFlow g stackOps [] 8 9 30 with | .error e => some e | .ok _ => none) = some .keyError :=
  ⟨costNet 2 (fun _ => 0) [(0, 1, 1, 2)], costNet_built _ _ _, by decide +kernel, by decide +kernel, by decide +kernel⟩

end GiMPy
