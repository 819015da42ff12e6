import Verif.Props.MinCost

/-! # C135: when `cycle_canceling` ends -/

namespace GiMPy
open MinCost MaxFlow
variable {N : Type} [DecidableEq N] {Q : Type} {g : Graph N} {O : QOps N Q} {items : Q → List N}
variable {cap cost : N × N → Int}

/-- rounds of the loop of `cycle_canceling` in each of which the cycle found has negative cost, from the flow `f0` to a flow `f` -/
inductive GoodRounds (g : Graph N) (inner : Nat) (f0 : N × N → Int) : Nat → (N × N → Int) → Prop
  | start : GoodRounds g inner f0 0 f0
  | round {k f r c w m f'} : GoodRounds g inner f0 k f → residual g (fun u v => g.capOf u v) f = .ok r →
      FW.getNegativeCycle r inner = .ok (some c) → (∀ u v, r.checkEdge u v = true → r.getEdgeCost u v = .ok (w u v)) →
      cycleCost w c < 0 → cycleCapacity r c = .ok m → augmentCycle g m c f = .ok f' → GoodRounds g inner f0 (k + 1) f'

/-- on the residual graph of `f` the search for a negative cycle fails, or the cycle found is not negative -/
def BadCycle (g : Graph N) (inner : Nat) (f : N × N → Int) : Prop :=
  ∃ r, residual g (fun u v => g.capOf u v) f = .ok r ∧
    ((∃ e, FW.getNegativeCycle r inner = .error e) ∨
      ∃ c w, FW.getNegativeCycle r inner = .ok (some c) ∧ (∀ u v, r.checkEdge u v = true → r.getEdgeCost u v = .ok (w u v)) ∧
        0 ≤ cycleCost w c)

/-- the greatest possible difference between the costs of two flows within the bounds -/
def costRange (E : List (N × N)) (cap cost : N × N → Int) : Int := (E.map fun e => ((cost e).natAbs : Int) * cap e).sum

theorem totalCost_range {E : List (N × N)} {f f' : N × N → Int} (h : Within E cap f) (h' : Within E cap f') :
    totalCost E cost f - totalCost E cost f' ≤ costRange E cap cost := by
  unfold totalCost costRange
  induction E with
  | nil => simp
  | cons e E ih =>
    simp only [List.map_cons, List.sum_cons]
    have h1 := ih (fun e he => h e (List.mem_cons_of_mem _ he)) (fun e he => h' e (List.mem_cons_of_mem _ he))
    have h2 := h e (by simp)
    have h3 := h' e (by simp)
    have h4 : f e * cost e - f' e * cost e ≤ ((cost e).natAbs : Int) * cap e := by
      rcases Int.natAbs_eq (cost e) with hc | hc
      · have h5 : (0 : Int) ≤ ((cost e).natAbs : Int) := by positivity
        rw [hc]; rw [Int.natAbs_natCast]
        nlinarith
      · have h5 : (0 : Int) ≤ ((cost e).natAbs : Int) := by positivity
        rw [hc]; rw [Int.natAbs_neg, Int.natAbs_natCast]
        nlinarith
    omega

/-- what one round of the loop does when the cycle found is negative -/
theorem cancelLoop_ends (hg : Built g) (hd : g.directed = true)
    (hs : ∀ u v, (u, v) ∈ g.getEdgeList → (v, u) ∉ g.getEdgeList)
    (hcap : ∀ u v, (u, v) ∈ g.getEdgeList → g.capOf u v = .ok (cap (u, v)))
    (hcost : ∀ u v, (u, v) ∈ g.getEdgeList → g.getEdgeCost u v = .ok (cost (u, v))) {inner : Nat} {f0 : N × N → Int} (L : Int) :
    ∀ (k : Nat) (f : N × N → Int) (j : Nat), Within g.getEdgeList cap f →
      (∀ f', Within g.getEdgeList cap f' → L ≤ totalCost g.getEdgeList cost f') → totalCost g.getEdgeList cost f < L + k →
      GoodRounds g inner f0 j f →
      (∃ f' i, cancelLoop g inner k f = .ok f' ∧ GoodRounds g inner f0 i f' ∧ i < j + k) ∨
        ∃ f' i, GoodRounds g inner f0 i f' ∧ i < j + k ∧ BadCycle g inner f' := by
  intro k
  induction k with
  | zero => intro f j hf hL hlt _; have := hL f hf; simp at hlt; omega
  | succ k ih =>
    intro f j hf hL hlt hj
    obtain ⟨r, h1, h2, h3, h4, h5, h6⟩ := residual_facts (cap := cap) (cost := cost) hg hd hs hcap hcost f
    have hw : ∀ u v, r.checkEdge u v = true → r.getEdgeCost u v = .ok (rcost g cost u v) := by
      intro u v huv; exact h6 u v (by simpa [Step] using huv)
    rw [cancelLoop, h1]
    simp only []
    rcases hn : FW.getNegativeCycle r inner with e | _ | c
    · exact .inr ⟨f, j, hj, by omega, r, h1, .inl ⟨e, hn⟩⟩
    · exact .inl ⟨f, j, rfl, hj, by omega⟩
    · by_cases hneg : cycleCost (rcost g cost) c < 0
      · simp only []
        obtain ⟨v, l, rfl, hnd, hch⟩ := MinCost.IsCycle.closed (negCycle_isCycle h2 h3 hw hn)
        obtain ⟨m, hm1, hm2, hm3⟩ := cycleCapacity_ok (hch.imp fun u v h => h5 u v h)
        have hm0 : 1 ≤ m := hm3 1 (hch.imp fun u v h => by have := ((h4 u v).1 h).2; omega)
        rw [hm1]
        simp only []
        obtain ⟨f1, a1, a2, a3, a4⟩ := augmentCycle_ok (cost := cost) hg.wf.edup hs (by omega : 0 ≤ m) hf hnd
          ((chain_and hch hm2).imp fun a b h => ⟨((h4 a b).1 h.1).1, h.2⟩)
        rw [a1]
        simp only []
        have hlt1 : totalCost g.getEdgeList cost f1 < L + k := by
          rw [a4]
          push_cast at hlt
          nlinarith
        rcases ih f1 (j + 1) a2 hL hlt1 (.round hj h1 hn hw hneg hm1 a1) with ⟨f', i, q1, q2, q3⟩ | ⟨f', i, q1, q2, q3⟩
        · exact .inl ⟨f', i, q1, q2, by omega⟩
        · exact .inr ⟨f', i, q1, by omega, q3⟩
      · exact .inr ⟨f, j, hj, by omega, r, h1, .inr ⟨c, _, hn, hw, not_lt.1 hneg⟩⟩

/-- **C135, what holds.**  On the networks of C36 `cycle_canceling` ends, with the right answer, after at most as many rounds as the
costs of two flows can differ, plus one; unless after fewer rounds, each of which cancelled a cycle of negative cost,
`get_negative_cycle` fails on the residual graph or returns a cycle whose cost is not negative.  Missing: it can do so
(`C35_false_cost`, `C35_false_exception`), and then the loop may run for ever (`C36_may_not_terminate`). -/
theorem C135_cancel_ends_partial (hg : Built g) (hd : g.directed = true) (hb : LawfulBag O items) {newQ : Q}
    (hq : items newQ = []) (hc : ∀ u v, (u, v) ∈ g.getEdgeList → g.capOf u v = .ok (cap (u, v)))
    (hpos : ∀ e ∈ g.getEdgeList, 0 ≤ cap e)
    (hcost : ∀ u v, (u, v) ∈ g.getEdgeList → g.getEdgeCost u v = .ok (cost (u, v)))
    (hanti : ∀ u v, (u, v) ∈ g.getEdgeList → (v, u) ∉ g.getEdgeList)
    {b : N → Int} (hdem : ∀ v ∈ g.getNodeList, g.getNodeAttr v "demand" = .ok (.int (b v)))
    (hbal : (g.getNodeList.map b).sum = 0) (hsup : ∃ v ∈ g.getNodeList, 0 < b v) {s t : N} (hs : s ∉ g.getNodeList)
    (ht : t ∉ g.getNodeList) (hst : s ≠ t) {fuel : Nat} (hfuel : g.getNodeList.length +
      ((g.getEdgeList.map cap).sum + (g.getNodeList.map fun v => ((b v).natAbs : Int)).sum).toNat + 3 ≤ fuel)
    (hrounds : costRange g.getEdgeList cap cost < fuel) :
    (∃ f g', cycleCanceling g O newQ s t fuel = .ok (true, f, g') ∧ IsMinCost g.getNodeList g.getEdgeList cap cost b f) ∨
    (∃ f g', cycleCanceling g O newQ s t fuel = .ok (false, f, g') ∧ ¬ ∃ f', IsFeasible g.getNodeList g.getEdgeList cap b f') ∨
    ∃ f0 g0 f k, feasibleFlow g O newQ s t fuel = .ok (true, f0, g0) ∧ GoodRounds g0 fuel f0 k f ∧
      (k : Int) ≤ costRange g.getEdgeList cap cost ∧ BadCycle g0 fuel f := by
  obtain ⟨r0, f0, g0, h1, h2, h3, h4, h5, h6, h7, h8, h9⟩ := C37_find_feasible_flow hg hd hb hq hc hpos
    (fun u v _ => hanti u v) hdem hbal hsup hs ht hst hfuel
  have hsol := fun res f g' h => C36_cycle_canceling (res := res) (f := f) (g' := g') hg hd hb hq hc hpos hcost hanti hdem hbal hsup
    hs ht hst hfuel h
  rcases r0 with _ | _
  · have hcc : cycleCanceling g O newQ s t fuel = .ok (false, f0, g0) := by unfold cycleCanceling; rw [h1]
    exact .inr (.inl ⟨f0, g0, hcc, (hsol _ _ _ hcc).2.1 rfl⟩)
  · have hf0 := h3 rfl
    have hcap0 : ∀ u v, (u, v) ∈ g0.getEdgeList → g0.capOf u v = .ok (cap (u, v)) := by
      intro u v he
      rw [h7] at he
      rw [capOf_congr hg.wf hd h4.wf h5 he (by rw [h7]; exact he) (h9 u v _), hc u v he]
    have hcost0 : ∀ u v, (u, v) ∈ g0.getEdgeList → g0.getEdgeCost u v = .ok (cost (u, v)) := by
      intro u v he
      rw [h7] at he
      have := hcost u v he
      unfold Graph.getEdgeCost at this ⊢
      rw [h9]; exact this
    have hr0 : 0 ≤ costRange g.getEdgeList cap cost := by
      have := totalCost_range (cost := cost) hf0.within hf0.within; omega
    -- run the loop with just as many rounds as are needed
    obtain ⟨K, hK⟩ : ∃ K : Nat, (K : Int) = costRange g.getEdgeList cap cost + 1 := ⟨_, Int.toNat_of_nonneg (by omega)⟩
    have mono : ∀ (k k' : Nat) (f f' : N × N → Int), k ≤ k' → cancelLoop g0 fuel k f = .ok f' → cancelLoop g0 fuel k' f = .ok f' := by
      intro k
      induction k with
      | zero => intro k' f f' _ h; cases h
      | succ k ih =>
        intro k' f f' hk h
        obtain ⟨k', rfl⟩ : ∃ j, k' = j + 1 := ⟨k' - 1, by omega⟩
        rw [cancelLoop] at h ⊢
        rcases hr : residual g0 (fun u v => g0.capOf u v) f with e | r
        · rw [hr] at h; cases h
        rw [hr] at h
        simp only [] at h ⊢
        rcases hn : FW.getNegativeCycle r fuel with e | _ | c
        · rw [hn] at h; cases h
        · rw [hn] at h; exact h
        rw [hn] at h
        simp only [] at h ⊢
        rcases hd' : cycleCapacity r c with e | d
        · rw [hd'] at h; cases h
        rw [hd'] at h
        simp only [] at h ⊢
        rcases hf1 : augmentCycle g0 d c f with e | f1
        · rw [hf1] at h; cases h
        rw [hf1] at h
        simp only [] at h ⊢
        exact ih k' f1 f' (by omega) h
    have hlow : ∀ f', Within g0.getEdgeList cap f' →
        totalCost g0.getEdgeList cost f0 - costRange g.getEdgeList cap cost ≤ totalCost g0.getEdgeList cost f' := by
      intro f' hf'
      rw [h7] at hf' ⊢
      have := totalCost_range (cost := cost) hf0.within hf'
      omega
    rcases cancelLoop_ends (f0 := f0) (inner := fuel) h4 h5 (by rw [h7]; exact hanti) hcap0 hcost0 _ K f0 0 (by rw [h7]; exact hf0.within) hlow
      (by omega) .start with ⟨f', i, q1, q2, q3⟩ | ⟨f', i, q1, q2, q3⟩
    · have hcc : cycleCanceling g O newQ s t fuel = .ok (true, f', g0) := by
        unfold cycleCanceling
        rw [h1]; simp only []
        rw [mono K fuel f0 f' (by omega) q1]
      exact .inl ⟨f', g0, hcc, (hsol _ _ _ hcc).1 rfl⟩
    · exact .inr (.inr ⟨f0, g0, f', i, h1, q1, by omega, q3⟩)

/-- non-vacuity: `exNet` is in scope with cost range 2·5 + 2·4 + 1·1 + 2·1 = 21; the run on it ends with True after rounds that cancel -/
example : Built exNet ∧ (∀ e ∈ exNet.getEdgeList, (e.2, e.1) ∉ exNet.getEdgeList) ∧
    costRange exNet.getEdgeList (fun e => (exNet.getInt e.1 e.2 "capacity").toOption.getD 0)
      (fun e => (exNet.getEdgeCost e.1 e.2).toOption.getD 0) = 21 ∧
    resultOf (feasibleFlow exNet queueOps [] 8 9 30) = some (true, [2, 2, 0, 0, 0], [0, 2, 3, 1]) ∧
    resultOf (cycleCanceling exNet queueOps [] 8 9 30) = some (true, [1, 0, 1, 2, 1], [0, 2, 3, 1]) := by
  refine ⟨costNet_built _ _ _, ?_, ?_, ?_, ?_⟩ <;> decide +kernel

end GiMPy
