import Verif.Props.Simplex

/-! # C109: network simplex on a network that is not connected -/

namespace GiMPy
open MinCost MaxFlow Simplex
variable {N : Type} [DecidableEq N] {Q : Type} {g t : Graph N} {O : QOps N Q} {items : Q → List N}
variable {cap cost f : N × N → Int} {b : N → Int} {src snk root : N}
set_option linter.unusedSectionVars false

theorem drawAttrs_raises {new : Graph N} {s : N × N → Option (Int × Int × Int)} : ∀ (l : List (N × N))
    (r : N × N → Option (Int × Int × Int)), (∃ e ∈ l, e ∉ new.getEdgeList) →
    drawAttrs new s l r = .error .keyError := by
  intro l
  induction l with
  | nil => rintro r ⟨e, he, _⟩; cases he
  | cons a l ih =>
    rintro r ⟨e, he, hne⟩
    rw [drawAttrs]
    cases s a with
    | none => rfl
    | some x =>
      simp only []
      by_cases ha : new.edgeAttr.contains a = true
      · rw [if_pos ha]
        refine ih _ ⟨e, ?_, hne⟩
        rcases List.mem_cons.1 he with rfl | he
        · exact absurd ((contains_edge new e.1 e.2).1 ha) hne
        · exact he
      · rw [if_neg ha]

/-- an arc of the tree that is not connected to the root makes `simplex_redraw` raise KeyError -/
theorem redraw_raises (hwf : t.Wf) (hd : t.directed = true) (ix : Idx N) (s : N × N → Option (Int × Int × Int))
    (hroot : root ∈ t.getNodeList) (h : ∃ e ∈ t.getEdgeList, ¬ EConn t.getEdgeList root e.1) {fuel : Nat}
    (hf : 2 * t.getEdgeList.length + 2 ≤ fuel) : redraw t ix s root fuel = .error .keyError := by
  obtain ⟨h1, d0, h2, st, h3, h4, h5, h6⟩ := drawAll_ok hwf hd ix hroot hf
  obtain ⟨e, he, hne⟩ := h
  unfold redraw
  rw [if_neg (by simp [h1]), h2]
  simp only []
  rw [h3]
  simp only []
  rw [drawAttrs_raises _ _ ⟨e, he, fun h => hne ((h6 e).1 h).2⟩]

/-- a node without a potential at either end of an arc -/
theorem violation_cases (hn : Netw g cap cost) {pi : N → Option Int} {e : N × N} (he : e ∈ g.getEdgeList) :
    (∃ v, violation g f pi e = .ok v) ∨ violation g f pi e = .error .typeError := by
  unfold violation reduced
  rw [flowOf_ok he, hn.caps e.1 e.2 he, hn.costs e.1 e.2 he]
  simp only []
  cases pi e.1 with
  | none => exact .inr rfl
  | some p =>
    cases pi e.2 with
    | none => exact .inr rfl
    | some q =>
      left
      simp only []
      split
      · exact ⟨_, rfl⟩
      · split <;> exact ⟨_, rfl⟩

theorem violation_none (hn : Netw g cap cost) {pi : N → Option Int} {e : N × N} (he : e ∈ g.getEdgeList)
    (h : pi e.1 = none ∨ pi e.2 = none) : violation g f pi e = .error .typeError := by
  unfold violation reduced
  rw [flowOf_ok he, hn.caps e.1 e.2 he, hn.costs e.1 e.2 he]
  simp only []
  rcases h with h | h
  · rw [h]
  · cases pi e.1 with
    | none => rfl
    | some p => rw [h]

theorem optimal_raises (hn : Netw g cap cost) {pi : N → Option Int} : ∀ l : List (N × N), (∀ e ∈ l, e ∈ g.getEdgeList) →
    (∃ e ∈ l, e ∉ t.getEdgeList ∧ (pi e.1 = none ∨ pi e.2 = none)) →
    optimal g t f pi l = .error .typeError ∨ optimal g t f pi l = .ok false := by
  intro l
  induction l with
  | nil => rintro _ ⟨e, he, _⟩; cases he
  | cons a l ih =>
    rintro hl ⟨e, he, het, hp⟩
    have ih := ih fun e he => hl e (by simp [he])
    unfold optimal
    by_cases ha : a ∈ t.getEdgeList
    · rw [if_pos ((contains_edge t a.1 a.2).2 ha)]
      refine ih ⟨e, ?_, het, hp⟩
      rcases List.mem_cons.1 he with rfl | he
      · exact absurd ha het
      · exact he
    · rw [if_neg (fun h' => ha ((contains_edge t a.1 a.2).1 h'))]
      rcases violation_cases (f := f) hn (pi := pi) (hl a (by simp)) with ⟨v, hv⟩ | hv
      · rw [hv]
        cases v with
        | some x => exact .inr rfl
        | none =>
          simp only []
          refine ih ⟨e, ?_, het, hp⟩
          rcases List.mem_cons.1 he with rfl | he
          · rw [violation_none hn (hl e (by simp)) hp] at hv; cases hv
          · exact he
      · rw [hv]; exact .inl rfl

theorem violating_raises (hn : Netw g cap cost) {pi : N → Option Int} : ∀ l : List (N × N), (∀ e ∈ l, e ∈ g.getEdgeList) →
    (∃ e ∈ l, e ∉ t.getEdgeList ∧ (pi e.1 = none ∨ pi e.2 = none)) → violating g t f pi l = .error .typeError := by
  intro l
  induction l with
  | nil => rintro _ ⟨e, he, _⟩; cases he
  | cons a l ih =>
    rintro hl ⟨e, he, het, hp⟩
    have ih := ih fun e he => hl e (by simp [he])
    unfold violating
    by_cases ha : a ∈ t.getEdgeList
    · rw [if_pos ((contains_edge t a.1 a.2).2 ha)]
      refine ih ⟨e, ?_, het, hp⟩
      rcases List.mem_cons.1 he with rfl | he
      · exact absurd ha het
      · exact he
    · rw [if_neg (fun h' => ha ((contains_edge t a.1 a.2).1 h'))]
      rcases violation_cases (f := f) hn (pi := pi) (hl a (by simp)) with ⟨v, hv⟩ | hv
      · rw [hv]
        simp only []
        rw [ih ⟨e, ?_, het, hp⟩]
        rcases List.mem_cons.1 he with rfl | he
        · rw [violation_none hn (hl e (by simp)) hp] at hv; cases hv
        · exact he
      · rw [hv]

/-- an arc outside the tree at a node without a potential makes the main loop raise TypeError -/
theorem mainLoop_raises (hn : Netw g cap cost) {st : Simplex.SState N} (h : ∃ e ∈ g.getEdgeList, e ∉ st.t.getEdgeList ∧ (st.pi e.1 = none ∨ st.pi e.2 = none))
    {pv : Pivot} (hpv : pv ≠ .other) (inner k : Nat) : mainLoop g root pv inner (k + 1) st = .error .typeError := by
  unfold mainLoop
  rcases optimal_raises (f := st.f) hn _ (fun _ h => h) h with h1 | h1
  · rw [h1]
  · rw [h1]
    simp only []
    unfold pivotStep entering
    cases pv with
    | other => exact absurd rfl hpv
    | dantzig => simp only []; rw [violating_raises hn _ (fun _ h => h) h]
    | firstEligible => simp only []; rw [violating_raises hn _ (fun _ h => h) h]

/-- `simplex_search` and `simplex_compute_potentials` from a root: the nodes that the tree does not join with the root keep
their potential -/
theorem refresh_reach (hn : Netw g cap cost) (hroot : root ∈ g.getNodeList) {st : Simplex.SState N} (ht : TGr g st.t)
    {fuel : Nat} (hf : g.getNodeList.length < fuel) :
    ∃ ix pi, refresh g root st fuel = .ok { st with ix := ix, pi := pi } ∧
      ∀ v, ¬ EConn st.t.getEdgeList root v → pi v = st.pi v := by
  have hnodes := ht.nodes
  obtain ⟨xs, ix, h1, h2, h3, h4⟩ := search_reach ht.built.wf ht.dir (src := root) (by rw [hnodes]; exact hroot) st.ix
    (fuel := fuel) (by rw [hnodes]; exact hf)
  have hix := h4 xs.pred.keys fun v => Iff.rfl
  rw [hnodes] at h3
  obtain ⟨l2, hseq⟩ : ∃ l2, xs.seq = [root] ++ l2 := by
    have := hix.head
    rcases hs : xs.seq with _ | ⟨a, l⟩
    · rw [hs] at this; cases this
    · rw [hs] at this; simp at this; subst this; exact ⟨l, rfl⟩
  have hlen : l2.length < fuel := by
    have : xs.seq.length ≤ g.getNodeList.length := (hix.nodup.subperm fun v hv => h3 v ((hix.mem v).1 hv)).length_le
    rw [hseq] at this; simp at this; omega
  have hth : ix.thread root = some (l2.head?.getD root) := by
    rcases l2 with _ | ⟨c, l2⟩
    · exact hix.last [] root (by simpa using hseq)
    · exact hix.mid [] root c l2 (by simpa using hseq)
  obtain ⟨pi', h5, _, h6⟩ := potLoop_reach hn ht h3 hix l2 [root] (upd st.pi root (some 0)) fuel (by simp) hseq
    ⟨Search.upd_same _ _ _, by
      intro v hv; rw [List.mem_singleton] at hv; subst hv
      exact ⟨⟨0, Search.upd_same _ _ _⟩, fun h => absurd rfl h⟩⟩ hlen
  refine ⟨ix, pi', ?_, fun v hv => ?_⟩
  · unfold refresh
    rw [h1]
    simp only []
    unfold potentials
    rw [if_neg (by simp [hn.hasNode hroot, ht.hasNode hroot]), hth, h5]
  · have hvr : v ≠ root := by rintro rfl; exact hv .refl
    rw [h6 v fun h => hv ((h2 v).1 ((hix.mem v).1 h)), Search.upd_ne _ _ hvr]

/-- **C109.** Take a problem in the scope of `min_cost_flow` that has a feasible flow, on a network with an arc that is not
connected to the root, with no potentials left from earlier calls, and one of the two pivot rules.  Then `network_simplex`
raises KeyError (in `simplex_redraw`, for an arc of the first forest that the root does not reach) or TypeError (in
`simplex_optimal` or in the choice of the entering arc, for an arc outside the forest at a node without a potential). -/
theorem C109_not_connected (P : FlowProblem g cap cost b src snk) (hq : LawfulBag O items) {newQ : Q} (hnew : items newQ = [])
    (hroot : root ∈ g.getNodeList) (hapart : ∃ e ∈ g.getEdgeList, ¬ EConn g.getEdgeList root e.1)
    (hfe : ∃ f, IsFeasible g.getNodeList g.getEdgeList cap b f) {pv : Pivot} (hpv : pv ≠ .other) {fuel : Nat}
    (hf : Enough g cap b fuel) (pivots : Nat) :
    networkSimplex g O newQ src snk root pv (fun _ => none) fuel (pivots + 1) = .error .keyError ∨
    networkSimplex g O newQ src snk root pv (fun _ => none) fuel (pivots + 1) = .error .typeError := by
  have hf' := hf
  unfold Enough at hf'
  generalize hK : ((g.getEdgeList.map cap).sum + (g.getNodeList.map fun v => ((b v).natAbs : Int)).sum).toNat = K at hf'
  have hKm : K + 1 ≤ (g.getEdgeList.length + 1) * (K + 1) := Nat.le_mul_of_pos_left _ (by omega)
  obtain ⟨r0, f0, g0, h1, h2, h3, h4, h5, h6, h7, h8, h9⟩ := C37_find_feasible_flow P.built P.dir hq hnew P.caps P.nonneg
    (fun u v _ => P.anti u v) P.demand P.balanced P.supply P.names.1 P.names.2.1 P.names.2.2 (fuel := fuel) (by rw [hK]; omega)
  obtain rfl := h2.2 hfe
  have hfe0 := h3 rfl
  have hB : ∀ e ∈ g0.getEdgeList, cap e ≤ (K : Int) := by
    rw [h7]
    intro e he
    have q1 := le_sum P.nonneg he
    have q2 : 0 ≤ (g.getNodeList.map fun v => ((b v).natAbs : Int)).sum :=
      List.sum_nonneg (by intro x hx; obtain ⟨y, hy, rfl⟩ := List.mem_map.1 hx; omega)
    omega
  have hn : Netw g0 cap cost := by
    refine ⟨h4, h5, by rw [h7]; exact P.anti, ?_, ?_⟩
    · intro u v he
      rw [h7] at he
      rw [capOf_congr P.built.wf P.dir h4.wf h5 he (by rw [h7]; exact he) (h9 u v _), P.caps u v he]
    · intro u v he
      rw [h7] at he
      have := P.costs u v he
      unfold Graph.getEdgeCost at this ⊢
      rw [h9]; exact this
  have hr : root ∈ g0.getNodeList := by rw [h6]; exact hroot
  have hpos := List.length_pos_of_mem hroot
  obtain ⟨t, f', ix', k1, k2, k3, _, k4, k5, _⟩ := findTree_forest hn (List.ne_nil_of_mem hr) (f := f0)
    (by rw [h7]; exact hfe0.within) hB ⟨fun _ => none, fun _ => none, fun _ => none⟩ (fuel := fuel) (by rw [h6]; omega)
    (by rw [h7]; omega)
  have hr' : root ∈ t.getNodeList := by rw [k2.nodes]; exact hr
  have hlen : t.getEdgeList.length ≤ g.getEdgeList.length := by
    rw [← h7]; exact (k2.nodup.subperm k2.sub).length_le
  have hmul : g.getEdgeList.length + 1 ≤ (g.getEdgeList.length + 1) * (K + 1) := Nat.le_mul_of_pos_right _ (by omega)
  have hK1 : 1 ≤ K := by
    obtain ⟨v, hv, hbv⟩ := P.supply
    have q1 : 0 ≤ (g.getEdgeList.map cap).sum :=
      List.sum_nonneg (by intro x hx; obtain ⟨y, hy, rfl⟩ := List.mem_map.1 hx; exact P.nonneg y hy)
    have q2 : ((b v).natAbs : Int) ≤ (g.getNodeList.map fun v => ((b v).natAbs : Int)).sum :=
      List.single_le_sum (by intro x hx; obtain ⟨y, hy, rfl⟩ := List.mem_map.1 hx; omega) _ (List.mem_map.2 ⟨v, hv, rfl⟩)
    omega
  have hmul2 : (g.getEdgeList.length + 1) * 2 ≤ (g.getEdgeList.length + 1) * (K + 1) := Nat.mul_le_mul_left _ (by omega)
  have hsize : 2 * t.getEdgeList.length + 2 ≤ fuel := by omega
  obtain ⟨s, s1, s2⟩ := stamps_ok (f := f') hn.caps hn.costs t.getEdgeList k2.sub
  have hmono : ∀ v, EConn t.getEdgeList root v → EConn g.getEdgeList root v := by
    intro v hv
    induction hv with
    | refl => exact .refl
    | tail _ hs ih => exact ih.tail (hs.imp (fun h => h7 ▸ k2.sub _ h) (fun h => h7 ▸ k2.sub _ h))
  obtain ⟨e, he, hne⟩ := hapart
  unfold networkSimplex
  rw [h1]
  simp only []
  unfold setup
  rw [k1]
  simp only []
  rw [s1]
  simp only []
  rw [markArcs_ok hn k4 _ fun e he => he]
  simp only []
  by_cases hall : ∀ e ∈ t.getEdgeList, EConn t.getEdgeList root e.1
  · right
    obtain ⟨d, dx, r, r1, _⟩ := redraw_ok k2.built.wf k2.dir ix' (s := s) (fun e he => ⟨_, by rw [s2, if_pos he]⟩) hr' hall hsize
    rw [r1]
    simp only []
    obtain ⟨ix2, pi2, w1, w2⟩ := refresh_reach hn hr (st := ⟨t, f', ix', fun _ => none⟩) k2 (fuel := fuel) (by rw [h6]; omega)
    rw [w1]
    simp only []
    rw [mainLoop_raises hn ⟨e, by rw [h7]; exact he, fun h => hne (hmono _ (hall e h)), ?_⟩ hpv]
    exact .inl (w2 _ fun h => hne (hmono _ h))
  · left
    rw [redraw_raises k2.built.wf k2.dir ix' s hr' (by push Not at hall; exact hall) hsize]

/-- two triangles: supply and demand in the first, none in the second -/
def twoNet : Graph Nat := costNet 6 (fun i => if i = 0 then 1 else if i = 1 then -1 else 0)
  [(0, 1, 2, 2), (0, 2, 2, 2), (2, 1, 3, 2), (3, 4, 1, 2), (4, 5, 1, 2), (3, 5, 1, 2)]

/-- the hypotheses are met, for instance with the root 0 -/
example : FlowProblem twoNet (netCap twoNet) (netCost twoNet) (fun i => if i = 0 then 1 else if i = 1 then -1 else 0) 8 9 ∧
    (0 : Nat) ∈ twoNet.getNodeList ∧ (∃ e ∈ twoNet.getEdgeList, ¬ EConn twoNet.getEdgeList 0 e.1) ∧
    ∃ f, IsFeasible twoNet.getNodeList twoNet.getEdgeList (netCap twoNet) (fun i => if i = 0 then 1 else if i = 1 then -1 else 0)
      f := by
  have hV : twoNet.getNodeList = [0, 1, 2, 3, 4, 5] := by decide +kernel
  have hE : twoNet.getEdgeList = [(0, 1), (0, 2), (2, 1), (3, 4), (4, 5), (3, 5)] := by decide +kernel
  refine ⟨inScope_ok (by decide +kernel) (by decide +kernel), by rw [hV]; decide, ⟨(3, 4), by rw [hE]; decide, ?_⟩,
    fun e => if e = (0, 1) then 1 else 0, ?_, ?_⟩
  · rw [hE]
    intro h
    have key : ∀ v, EConn [(0, 1), (0, 2), (2, 1), (3, 4), (4, 5), (3, 5)] 0 v → v < 3 := by
      intro v hv
      induction hv with
      | refl => decide
      | @tail c d _ hs ih =>
        rcases hs with hs | hs <;>
        · simp only [List.mem_cons, List.not_mem_nil, or_false, Prod.mk.injEq] at hs
          omega
    exact absurd (key 3 h) (by decide)
  · unfold Within; decide +kernel
  · decide +kernel

/-- both exceptions occur: TypeError with the root 0; KeyError with the root 3, since no arc used lies in its triangle -/
theorem C109_both_occur :
    (match networkSimplex twoNet stackOps [] 8 9 0 .dantzig (fun _ => none) 200 5 with | .error e => some e | .ok _ => none)
      = some .typeError ∧
    (match networkSimplex twoNet stackOps [] 8 9 3 .dantzig (fun _ => none) 200 5 with | .error e => some e | .ok _ => none)
      = some .keyError := by decide +kernel

end GiMPy
