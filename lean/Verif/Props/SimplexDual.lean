import Verif.Spec.DualFlow
import Verif.Lemmas.LinearFlow
import Verif.Props.Simplex

/-! # C142: the potentials that `network_simplex` leaves solve the dual linear program -/

namespace GiMPy
open MinCost MaxFlow Simplex LinFlow
variable {N : Type} [DecidableEq N] {Q : Type} {g : Graph N} {O : QOps N Q} {items : Q → List N}
variable {cap cost : N × N → Int} {b : N → Int} {src snk root : N}
variable (K : Type) [Field K] [LinearOrder K] [IsStrictOrderedRing K]

/-- what the supplies are worth at the prices `p` -/
theorem supply_value {V : List N} {E : List (N × N)} (hV : V.Nodup) (hEV : ∀ e ∈ E, e.1 ∈ V ∧ e.2 ∈ V) {x : N × N → K}
    (hx : LPFeasible V E cap b x) (p : N → K) :
    (V.map fun v => (b v : K) * p v).sum = (E.map fun e => x e * (p e.1 - p e.2)).sum := by
  have h1 := LinFlow.potential_sum x hV hEV p
  have h2 : (V.map fun v => (b v : K) * p v) = V.map fun v => 0 - p v * netK E x v :=
    List.map_congr_left fun v hv => by rw [← hx.meets v hv]; ring
  have h3 : (E.map fun e => x e * (p e.1 - p e.2)) = E.map fun e => 0 - x e * (p e.2 - p e.1) :=
    List.map_congr_left fun e _ => by ring
  rw [h2, h3, sum_sub, sum_sub, h1]
  simp

/-- weak duality -/
theorem weak_duality {V : List N} {E : List (N × N)} (hV : V.Nodup) (hEV : ∀ e ∈ E, e.1 ∈ V ∧ e.2 ∈ V) {x : N × N → K}
    (hx : LPFeasible V E cap b x) {q : N → K} {w : N × N → K} (h : DualFeasible E cost q w) :
    dualValue V E cap b q w ≤ (E.map fun e => x e * (cost e : K)).sum := by
  unfold dualValue
  rw [supply_value K hV hEV hx q, ← sum_sub]
  refine List.sum_le_sum fun e he => ?_
  have h1 := hx.within e he
  have h2 := h.nonneg e he
  have h3 := h.price e he
  have h4 : x e * w e ≤ (cap e : K) * w e := mul_le_mul_of_nonneg_right h1.2 h2
  have h5 : x e * (q e.1 - q e.2 - w e) ≤ x e * (cost e : K) := mul_le_mul_of_nonneg_left h3 h1.1
  have h6 : x e * (q e.1 - q e.2 - w e) = x e * (q e.1 - q e.2) - x e * w e := by ring
  linarith

/-- the prices with which every arc is used as it pays -/
def Pays (E : List (N × N)) (cap cost f : N × N → Int) (p : N → Int) : Prop :=
  ∀ e ∈ E, (f e < cap e → p e.1 - p e.2 ≤ cost e) ∧ (0 < f e → cost e ≤ p e.1 - p e.2)

/-- what the capacity of the arc is worth at the prices `p` -/
def capPrice (cost : N × N → Int) (p : N → Int) (e : N × N) : Int := max 0 (p e.1 - p e.2 - cost e)

/-- strong duality -/
theorem strong_duality {V : List N} {E : List (N × N)} (hV : V.Nodup) (hEV : ∀ e ∈ E, e.1 ∈ V ∧ e.2 ∈ V)
    {f : N × N → Int} (hw : Within E cap f) (hx : LPFeasible V E cap b fun e => (f e : K)) {p : N → Int} (h : Pays E cap cost f p) :
    dualValue V E cap b (fun v => (p v : K)) (fun e => (capPrice cost p e : K)) = (totalCost E cost f : K) := by
  unfold dualValue
  rw [supply_value K hV hEV hx fun v => (p v : K), ← sum_sub]
  unfold totalCost
  have key : ∀ e ∈ E, (f e : K) * ((p e.1 : K) - (p e.2 : K)) - (cap e : K) * (capPrice cost p e : K) = ((f e * cost e : Int) : K) := by
    intro e he
    have h1 := h e he
    have h2 := hw e he
    have : f e * (p e.1 - p e.2) - cap e * capPrice cost p e = f e * cost e := by
      unfold capPrice
      by_cases h3 : f e = cap e
      · by_cases h4 : f e = 0
        · rw [← h3, h4]; ring
        · have := h1.2 (by omega)
          rw [max_eq_right (by omega), h3]; ring
      · have h5 := h1.1 (by omega)
        rw [max_eq_left (by omega)]
        by_cases h4 : f e = 0
        · rw [h4]; ring
        · have h6 := h1.2 (by omega)
          have h7 : p e.1 - p e.2 = cost e := by omega
          rw [h7]; ring
    have h8 := congrArg (fun i : Int => (i : K)) this
    push_cast at h8 ⊢
    exact h8
  clear hEV hx hw h
  induction E with
  | nil => simp
  | cons e E ih =>
    rw [List.map_cons, List.sum_cons, List.map_cons, List.sum_cons, ih fun e he => key e (by simp [he]), key e (by simp)]
    push_cast
    rfl

/-- **C142.** Take a connected network in the scope of `min_cost_flow`, a root, one of the two pivot rules and any potentials
before.  If `network_simplex` returns True, every node has a potential, that of the root is 0, an arc that is not full costs no
less than the potential falls along it and an arc that is not empty no more; and the potentials, with the prices of the capacities
that go with them, are an optimal solution of the dual linear program over every ordered field, of the same value as the flow.
If it returns False the potentials are as before. -/
theorem C142_potentials_solve_dual (P : FlowProblem g cap cost b src snk) (hq : LawfulBag O items) {newQ : Q} (hnew : items newQ = [])
    (hconn : ∀ u ∈ g.getNodeList, ∀ v ∈ g.getNodeList, EConn g.getEdgeList u v) (hroot : root ∈ g.getNodeList)
    {pv : Pivot} (hpv : pv ≠ .other) (pi : N → Option Int) {fuel : Nat} (hf : Enough g cap b fuel) (pivots : Nat) :
    (networkSimplex g O newQ src snk root pv pi fuel pivots = .error .diverge ∧
      networkSimplexPi g O newQ src snk root pv pi fuel pivots = .error .diverge) ∨
    (∃ f g', networkSimplex g O newQ src snk root pv pi fuel pivots = .ok (false, f, g') ∧
      networkSimplexPi g O newQ src snk root pv pi fuel pivots = .ok (false, f, g', pi)) ∨
    ∃ f g' pi' p, networkSimplex g O newQ src snk root pv pi fuel pivots = .ok (true, f, g') ∧
      networkSimplexPi g O newQ src snk root pv pi fuel pivots = .ok (true, f, g', pi') ∧
      (∀ v ∈ g.getNodeList, pi' v = some (p v)) ∧ p root = 0 ∧ Pays g.getEdgeList cap cost f p ∧
      DualFeasible (K := K) g.getEdgeList cost (fun v => (p v : K)) (fun e => (capPrice cost p e : K)) ∧
      dualValue g.getNodeList g.getEdgeList cap b (fun v => (p v : K)) (fun e => (capPrice cost p e : K)) =
        (totalCost g.getEdgeList cost f : K) ∧
      ∀ (q : N → K) (w : N × N → K), DualFeasible g.getEdgeList cost q w →
        dualValue g.getNodeList g.getEdgeList cap b q w ≤
          dualValue g.getNodeList g.getEdgeList cap b (fun v => (p v : K)) (fun e => (capPrice cost p e : K)) := by
  rcases networkSimplex_setup P hq hnew P.core hroot (fun _ h => List.mem_of_mem_head? h) hconn pi hf with
    ⟨h1, f, g', h2, h3, h4, h5, h6⟩ | ⟨st, g', hn, h2, h3, h4, h5, h6, h7, f0, h8, h9⟩
  · exact .inr (.inl ⟨f, g', by unfold networkSimplex; rw [h6], by unfold networkSimplexPi; rw [h6]⟩)
  · have hf' := hf
    unfold Enough at hf'
    have e1 : networkSimplex g O newQ src snk root pv pi fuel pivots = match mainLoop g' root pv fuel pivots st with
        | .error e => .error e
        | .ok st' => .ok (true, st'.f, g') := by
      unfold networkSimplex
      rw [h8]
      simp only []
      rw [h9]
      simp only []
      cases mainLoop g' root pv fuel pivots st <;> rfl
    have e2 : networkSimplexPi g O newQ src snk root pv pi fuel pivots = match mainLoop g' root pv fuel pivots st with
        | .error e => .error e
        | .ok st' => .ok (true, st'.f, g', st'.pi) := by
      unfold networkSimplexPi
      rw [h8]
      simp only []
      rw [h9]
      simp only []
      cases mainLoop g' root pv fuel pivots st <;> rfl
    rcases mainLoop_ok hn hroot hpv (inner := fuel) (by rw [h2]; omega) pivots st h6 with
      h10 | ⟨st', h10, h11, ⟨p0, hp0, hv0⟩, h12, _⟩
    · left
      rw [e1, e2, h10]
      exact ⟨rfl, rfl⟩
    · right; right
      rw [h10] at e1 e2
      have hfeas : IsFeasible g.getNodeList g.getEdgeList cap b st'.f := by
        refine ⟨?_, fun v hv => ?_⟩
        · have := h11.within; rw [h3] at this; exact this
        · have := h12 v
          rw [h3] at this
          rw [this]; exact h7.meets v hv
      have hx : LPFeasible g.getNodeList g.getEdgeList cap b fun e => (st'.f e : K) := by
        refine ⟨fun e he => ?_, fun v hv => ?_⟩
        · have := hfeas.within e he
          exact ⟨by exact_mod_cast this.1, by exact_mod_cast this.2⟩
        · rw [netK_cast, ← hfeas.meets v hv]; simp
      have hval : ∀ v ∈ g.getNodeList, st'.pi v = some ((st'.pi v).getD 0) := by
        intro v hv
        obtain ⟨q, hq⟩ := h11.all.2 v hv
        rw [hq]; rfl
      have hEV : ∀ e ∈ g.getEdgeList, e.1 ∈ g.getNodeList ∧ e.2 ∈ g.getNodeList := by
        intro e he
        rw [← h2]
        exact hn.ends (by rw [h3]; exact he)
      have hpays : Pays g.getEdgeList cap cost st'.f fun v => (st'.pi v).getD 0 := by
        intro e he
        have he' : e ∈ g'.getEdgeList := by rw [h3]; exact he
        have v1 := (hp0.val e he').1
        have v2 := (hp0.val e he').2
        simp only [v1, v2, Option.getD_some]
        by_cases ht : e ∈ st'.t.getEdgeList
        · have := hp0.zero e.1 e.2 (.inl ht)
          unfold rcost at this
          rw [if_pos he'] at this
          replace this : p0 e.2 = p0 e.1 - cost e := this
          constructor <;> intro _ <;> omega
        · have k1 := violL_nil hv0 e he' ht
          have k2 := h11.bound e he' ht
          unfold viol redc at k1
          by_cases hz : st'.f e = 0
          · rw [if_pos hz] at k1
            by_cases hlt : cost e - p0 e.1 + p0 e.2 < 0
            · rw [if_pos hlt] at k1; cases k1
            · exact ⟨fun _ => by omega, fun h => by omega⟩
          · have hc := k2.resolve_left hz
            rw [if_neg hz, if_pos hc] at k1
            by_cases hgt : cost e - p0 e.1 + p0 e.2 > 0
            · rw [if_pos hgt] at k1; cases k1
            · exact ⟨fun h => by omega, fun _ => by omega⟩
      refine ⟨st'.f, g', st'.pi, fun v => (st'.pi v).getD 0, e1, e2, hval, ?_, hpays, ⟨?_, ?_⟩, ?_, ?_⟩
      · simp only [h11.all.1, Option.getD_some]
      · intro e _
        have : 0 ≤ capPrice cost (fun v => (st'.pi v).getD 0) e := le_max_left _ _
        exact_mod_cast this
      · intro e _
        have : (st'.pi e.1).getD 0 - (st'.pi e.2).getD 0 - capPrice cost (fun v => (st'.pi v).getD 0) e ≤ cost e := by
          have := le_max_right 0 ((st'.pi e.1).getD 0 - (st'.pi e.2).getD 0 - cost e)
          unfold capPrice
          beta_reduce
          omega
        exact_mod_cast this
      · exact strong_duality K P.built.wf.nodup hEV hfeas.within hx hpays
      · intro q w hqw
        refine le_of_le_of_eq ?_ (strong_duality K P.built.wf.nodup hEV hfeas.within hx hpays).symm
        have := weak_duality K P.built.wf.nodup hEV hx hqw
        have e3 : (totalCost g.getEdgeList cost st'.f : K) = (g.getEdgeList.map fun e => (st'.f e : K) * (cost e : K)).sum := by
          unfold totalCost
          induction g.getEdgeList with
          | nil => simp
          | cons a l ih => simp only [List.map_cons, List.sum_cons]; push_cast; rw [ih]
        rw [e3]; exact this

/-! ## Example -/

/-- result, flow and potentials -/
def piResult (r : Except PyErr (Bool × (Nat × Nat → Int) × Graph Nat × (Nat → Option Int))) :
    Option (Bool × List Int × List (Option Int)) :=
  match r with
  | .ok (res, f, g, pi) => some (res, g.getEdgeList.map f, g.getNodeList.map pi)
  | .error _ => none

/-- non-vacuity: the network of C36 (arcs 02, 23, 01, 13, 21), in scope and connected, by both rules from two roots, with potentials
left from before; the flow costs 8, which is 2 · 9 for the supplies less 7 for the capacity of arc 01 and 3 for that of 21; an infeasible
network -/
example : inScope exNet (fun i => if i = 0 then 2 else if i = 3 then -2 else 0) 8 9 = true ∧
    exNet.getEdgeList = [(0, 2), (2, 3), (0, 1), (1, 3), (2, 1)] ∧
    piResult (networkSimplexPi exNet queueOps [] 8 9 0 .dantzig (fun _ => some 7) 200 20) =
      some (true, [1, 0, 1, 2, 1], [some 0, some (-5), some (-9), some (-8)]) ∧
    [(0, 2), (2, 3), (0, 1), (1, 3), (2, 1)].map (capPrice (fun e => if e = (0, 2) then 5 else if e = (2, 3) then 4 else
      if e = (0, 1) then 1 else if e = (1, 3) then 1 else 0)
      fun v => if v = 0 then 0 else if v = 2 then -5 else if v = 3 then -9 else -8) = [0, 0, 7, 0, 3] ∧
    piResult (networkSimplexPi exNet queueOps [] 8 9 3 .firstEligible (fun _ => none) 200 20) =
      some (true, [1, 0, 1, 2, 1], [some 9, some 4, some 0, some 1]) ∧
    piResult (networkSimplexPi (costNet 3 (fun i => if i = 0 then 3 else if i = 2 then -3 else 0) [(0, 1, 1, 3), (1, 2, 1, 2)])
      stackOps [] 8 9 0 .dantzig (fun _ => some 7) 200 20) = some (false, [2, 2], [some 7, some 7, some 7]) :=
  ⟨by decide +kernel, by decide +kernel, by decide +kernel, by decide +kernel, by decide +kernel, by decide +kernel⟩

end GiMPy
