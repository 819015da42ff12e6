import Verif.Lemmas.LinearFlow
import Verif.Props.Agree

/-! # C107, C108: the flows solve the linear programs -/

namespace GiMPy
open MinCost MaxFlow Simplex LinFlow
variable {N : Type} [DecidableEq N] {Q : Type} {g : Graph N} {O : QOps N Q} {items : Q → List N}
variable {cap cost : N × N → Int} {b : N → Int} {src snk : N}
variable (K : Type) [Field K] [LinearOrder K] [IsStrictOrderedRing K]

/-- nodes with more supply than can leave them have no fractional flow either -/
theorem gale_lp {E : List (N × N)} {V : List N} (hV : V.Nodup) (hEV : ∀ e ∈ E, e.1 ∈ V ∧ e.2 ∈ V) {x : N × N → K}
    (hx : LPFeasible V E cap b x) (S : N → Bool) : (V.map fun v => if S v then b v else 0).sum ≤ cutCap E cap S := by
  have h1 := net_le_cutK (cap := cap) hV hEV hx.within S
  have h2 := LinFlow.potential_sum x hV hEV fun _ => (1 : K)
  simp only [sub_self, mul_zero, List.map_const', List.sum_replicate, smul_zero, one_mul] at h2
  have h3 : (((V.map fun v => if S v then b v else 0).sum : Int) : K) =
      (V.map fun v => if S v then 0 else netK E x v).sum - (V.map fun v => netK E x v).sum := by
    rw [← sum_sub]
    have : ∀ l : List N, (∀ v ∈ l, - netK E x v = (b v : K)) → (((l.map fun v => if S v then b v else 0).sum : Int) : K) =
        (l.map fun v => (if S v then 0 else netK E x v) - netK E x v).sum := by
      intro l
      induction l with
      | nil => simp
      | cons v l ih =>
        intro h
        have h1 := ih fun v hv => h v (by simp [hv])
        have h2 := h v (by simp)
        rw [List.map_cons, List.sum_cons, List.map_cons, List.sum_cons]
        push_cast at h1 ⊢
        rw [h1, ← h2]
        cases S v <;> simp
    exact this V hx.meets
  rw [h2, sub_zero] at h3
  rw [← h3] at h1
  exact_mod_cast h1

/-- **C108.** Under the conditions of C37 `find_feasible_flow` returns False exactly when there is a set of nodes whose supplies
together exceed the capacity of the arcs that leave it; and then no flow with values in an ordered field meets the demands. -/
theorem C108_infeasible_certificate (hg : Built g) (hd : g.directed = true) (hb : LawfulBag O items) {newQ : Q}
    (hq : items newQ = []) (hc : ∀ u v, (u, v) ∈ g.getEdgeList → g.capOf u v = .ok (cap (u, v)))
    (hpos : ∀ e ∈ g.getEdgeList, 0 ≤ cap e)
    (hanti : ∀ u v, u ≠ v → (u, v) ∈ g.getEdgeList → (v, u) ∉ g.getEdgeList)
    (hdem : ∀ v ∈ g.getNodeList, g.getNodeAttr v "demand" = .ok (.int (b v)))
    (hbal : (g.getNodeList.map b).sum = 0) (hsup : ∃ v ∈ g.getNodeList, 0 < b v) {s t : N} (hs : s ∉ g.getNodeList)
    (ht : t ∉ g.getNodeList) (hst : s ≠ t) {fuel : Nat} (hfuel : g.getNodeList.length +
      ((g.getEdgeList.map cap).sum + (g.getNodeList.map fun v => ((b v).natAbs : Int)).sum).toNat + 3 ≤ fuel) :
    ∃ res f g', feasibleFlow g O newQ s t fuel = .ok (res, f, g') ∧
      (res = false ↔ ∃ S : N → Bool, cutCap g.getEdgeList cap S < (g.getNodeList.map fun v => if S v then b v else 0).sum) ∧
      (res = false ↔ ¬ ∃ x : N × N → K, LPFeasible g.getNodeList g.getEdgeList cap b x) := by
  obtain ⟨res, f, g', h1, h2, h3, h4, _⟩ := feasible_facts hg hd hb hq hc hpos hanti hdem hbal hsup hs ht hst hfuel
  have hEV : ∀ e ∈ g.getEdgeList, e.1 ∈ g.getNodeList ∧ e.2 ∈ g.getNodeList := fun e he => hg.wf.endp e.1 e.2 he
  have hlp : ∀ f, IsFeasible g.getNodeList g.getEdgeList cap b f → LPFeasible g.getNodeList g.getEdgeList cap b fun e => (f e : K) := by
    intro f hf
    refine ⟨fun e he => ?_, fun v hv => ?_⟩
    · have := hf.within e he
      exact ⟨by exact_mod_cast this.1, by exact_mod_cast this.2⟩
    · rw [netK_cast, ← hf.meets v hv]; simp
  refine ⟨res, f, g', h1, ⟨h4, ?_⟩, ?_, ?_⟩
  · rintro ⟨S, hS⟩
    cases hr : res with
    | false => rfl
    | true =>
      have := gale_lp K (V := g.getNodeList) hg.wf.nodup hEV (hlp f (h3 hr)) S
      omega
  · rintro hr ⟨x, hx⟩
    obtain ⟨S, hS⟩ := h4 hr
    have := gale_lp K (V := g.getNodeList) hg.wf.nodup hEV hx S
    omega
  · intro hno
    cases hr : res with
    | false => rfl
    | true => exact absurd ⟨_, hlp f (h3 hr)⟩ hno

/-- **C107.** Take a connected problem in the scope of `min_cost_flow` (as in C63).  If `min_cost_flow` returns with a flow, the
flow is an optimal solution of the linear program: no flow with values in an ordered field, such as the rational or the real
numbers, costs less.  If it says that the problem is infeasible, the linear program has no solution. -/
theorem C107_min_cost_flow_lp (P : FlowProblem g cap cost b src snk) (hq : LawfulBag O items) {newQ : Q} (hnew : items newQ = [])
    (hconn : ∀ u ∈ g.getNodeList, ∀ v ∈ g.getNodeList, EConn g.getEdgeList u v) (algo : Option FlowAlgo) {root : Option N}
    (hroot : ∀ r, root = some r → r ∈ g.getNodeList) {pv : Option Pivot} (hpv : pv ≠ some .other) (pi : N → Option Int)
    {fuel : Nat} (hf : Enough g cap b fuel) (pivots : Nat) {res : Bool} {f : N × N → Int} {g' : Graph N}
    (h : minCostFlow g O newQ src snk algo root pv pi fuel pivots = .ok (some (res, f, g'))) :
    (res = true → LPOptimal K g.getNodeList g.getEdgeList cap cost b f) ∧
    (res = false → ¬ ∃ x : N × N → K, LPFeasible g.getNodeList g.getEdgeList cap b x) := by
  obtain ⟨h1, h2, _⟩ := (C63_min_cost_flow P hq hnew hconn algo hroot hpv pi hf pivots).1 _ _ _ h
  have hEV : ∀ e ∈ g.getEdgeList, e.1 ∈ g.getNodeList ∧ e.2 ∈ g.getNodeList := fun e he => P.built.wf.endp e.1 e.2 he
  constructor
  · intro hr
    obtain ⟨π, hπ⟩ := potentials P.built P.dir P.anti P.caps P.costs (h1 hr)
    exact lp_of_potential P.built.wf.nodup hEV P.anti (h1 hr).feasible π hπ
  · intro hr
    obtain ⟨r0, f0, g0, k1, _, k3⟩ := C108_infeasible_certificate (fuel := _) K P.built P.dir hq hnew P.caps P.nonneg
      (fun u v _ => P.anti u v) P.demand P.balanced P.supply P.names.1 P.names.2.1 P.names.2.2 (Nat.le_refl _)
    obtain ⟨r1, f1, g1, m1, m2, m3, _⟩ := C37_find_feasible_flow (fuel := _) P.built P.dir hq hnew P.caps P.nonneg
      (fun u v _ => P.anti u v) P.demand P.balanced P.supply P.names.1 P.names.2.1 P.names.2.2 (Nat.le_refl _)
    rw [m1] at k1
    cases k1
    refine k3.1 ?_
    cases hr1 : r0 with
    | false => rfl
    | true => exact absurd ⟨_, m3 hr1⟩ (h2 hr)

/-- **C107.** The flow that `max_flow` finds has the greatest value among the flows with values in an ordered field. -/
theorem C107_max_flow_lp (hg : Built g) (hd : g.directed = true) (hb : LawfulBag O items) {newQ : Q}
    (hq : items newQ = []) (hc : ∀ u v, (u, v) ∈ g.getEdgeList → g.capOf u v = .ok (cap (u, v)))
    (hpos : ∀ e ∈ g.getEdgeList, 0 ≤ cap e) (hs : src ∈ g.getNodeList) (ht : snk ∈ g.getNodeList) (hst : src ≠ snk)
    (hanti : ∀ u v, u ≠ v → (u, v) ∈ g.getEdgeList → (v, u) ∉ g.getEdgeList) {fuel : Nat} (hf : flowFuel g cap ≤ fuel) :
    ∃ f, maxFlow g O newQ src snk fuel = .ok f ∧ LPFlow g.getEdgeList cap src snk (fun e => (f e : K)) ∧
      ∀ x : N × N → K, LPFlow g.getEdgeList cap src snk x →
        netK g.getEdgeList x snk ≤ netK g.getEdgeList (fun e => (f e : K)) snk := by
  obtain ⟨f, h1, h2⟩ := C27_max_flow_maximum hg hd hb hq hc hpos hs ht hst hanti hf
  obtain ⟨S, h3, h4, h5⟩ := max_cut hg hd hb hq hc hpos hs ht hst hanti h2
  refine ⟨f, h1, ⟨fun e he => ?_, fun v hv1 hv2 => ?_⟩, fun x hx => ?_⟩
  · have := h2.flow.within e he
    exact ⟨by exact_mod_cast this.1, by exact_mod_cast this.2⟩
  · rw [netK_cast, h2.flow.conserved v hv1 hv2]; simp
  · have h6 := net_le_cutK (cap := cap) (E := g.getEdgeList) (V := g.getNodeList) hg.wf.nodup (fun e he => hg.wf.endp e.1 e.2 he) hx.within S
    rw [netK_cast, h5]
    refine le_trans (le_of_eq ?_) h6
    have : (g.getNodeList.map fun v => if S v then 0 else netK g.getEdgeList x v) =
        g.getNodeList.map fun v => if v = snk then netK g.getEdgeList x snk else 0 := by
      refine List.map_congr_left fun v _ => ?_
      by_cases hv : v = snk
      · subst hv; simp [h4]
      · by_cases hv' : v = src
        · subst hv'; simp [h3, hv]
        · rw [hx.conserved v hv' hv]; simp [hv]
    rw [this]
    have : ∀ l : List N, l.Nodup → snk ∈ l → (l.map fun v => if v = snk then netK g.getEdgeList x snk else 0).sum =
        netK g.getEdgeList x snk := by
      intro l
      induction l with
      | nil => intro _ h; cases h
      | cons a l ih =>
        intro hn hm
        rw [List.nodup_cons] at hn
        rw [List.map_cons, List.sum_cons]
        by_cases ha : a = snk
        · subst ha
          have : (l.map fun v => if v = a then netK g.getEdgeList x a else 0) = l.map fun _ => 0 :=
            List.map_congr_left fun v hv => if_neg (by rintro rfl; exact hn.1 hv)
          rw [this]; simp
        · rw [if_neg ha, ih hn.2 ((List.mem_cons.1 hm).resolve_left (Ne.symm ha)), zero_add]
    exact (this _ hg.wf.nodup ht).symm

/-! ## Examples -/

/-- non-vacuity of C107 and C108: a problem in scope with a solution that is not integral (it costs 12, the flow that is found
costs 8: see C87), and a problem in scope that is infeasible, with the set of nodes that shows it -/
example : inScope exNet (fun i => if i = 0 then 2 else if i = 3 then -2 else 0) 8 9 = true ∧
    LPFeasible exNet.getNodeList exNet.getEdgeList (netCap exNet) (fun i => if i = 0 then 2 else if i = 3 then -2 else 0)
      (fun e => if e = (0, 1) ∨ e = (1, 3) then (1 / 2 : ℚ) else if e = (0, 2) ∨ e = (2, 3) then 3 / 2 else 0) ∧
    inScope (costNet 3 (fun i => if i = 0 then 3 else if i = 2 then -3 else 0) [(0, 1, 1, 3), (1, 2, 1, 2)])
      (fun i => if i = 0 then 3 else if i = 2 then -3 else 0) 8 9 = true ∧
    (let g := costNet 3 (fun i => if i = 0 then 3 else if i = 2 then -3 else 0) [(0, 1, 1, 3), (1, 2, 1, 2)]
     cutCap g.getEdgeList (netCap g) (fun v => decide (v < 2)) = 2 ∧
       (g.getNodeList.map fun v => if decide (v < 2) then (if v = 0 then 3 else if v = 2 then -3 else 0 : Int) else 0).sum = 3) := by
  have hV : exNet.getNodeList = [0, 2, 3, 1] := by decide +kernel
  have hE : exNet.getEdgeList = [(0, 2), (2, 3), (0, 1), (1, 3), (2, 1)] := by decide +kernel
  have hc : netCap exNet (0, 2) = 2 ∧ netCap exNet (2, 3) = 2 ∧ netCap exNet (0, 1) = 1 ∧ netCap exNet (1, 3) = 2 ∧ netCap exNet (2, 1) = 1 := by
    decide +kernel
  refine ⟨by decide +kernel, ⟨?_, ?_⟩, by decide +kernel, by decide +kernel⟩
  · rw [hE]; simp [hc]; norm_num
  · rw [hV, hE]; simp [netK]; norm_num

end GiMPy
