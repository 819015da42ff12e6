import Verif.Spec.FreeFlow
import Verif.Props.Agree

/-! # C105: `max_flow` and arcs without capacity -/

namespace GiMPy
open Search MaxFlow
variable {N : Type} [DecidableEq N] {g : Graph N} {Q : Type} {O : QOps N Q} {items : Q → List N}
variable {src sink : N} {up : N × N → Option Int}

/-- what the dictionary of an arc says: its 'capacity', if there is one, is the number `up` -/
def Given (g : Graph N) (up : N × N → Option Int) : Prop :=
  ∀ e ∈ g.getEdgeList, ∃ a, g.edgeAttr.get? e = some a ∧ a.get? "capacity" = (up e).map Val.int

/-- the capacities that the code works with -/
def stored (up : N × N → Option Int) (e : N × N) : Int := (up e).getD 10000

theorem Given.capOf (h : Given g up) (u v : N) (he : (u, v) ∈ g.getEdgeList) : g.capOf u v = .ok (stored up (u, v)) := by
  obtain ⟨a, h1, h2⟩ := h _ he
  unfold Graph.capOf stored
  rw [h1]
  simp only [h2]
  cases up (u, v) <;> rfl

/-- a flow within the bounds stays a flow when bounds are dropped -/
theorem IsFlow.free {E : List (N × N)} {f : N × N → Int} (h : IsFlow E (stored up) src sink f) :
    IsFreeFlow E up src sink f :=
  ⟨fun e he => (h.within e he).1, fun e he c hc => by
    have := (h.within e he).2
    simpa [stored, hc] using this, h.conserved⟩

/-- no flow has a greater value than a cut of arcs that have bounds -/
theorem freeFlow_le_cut {E : List (N × N)} {V : List N} (hV : V.Nodup) (hEV : ∀ e ∈ E, e.1 ∈ V ∧ e.2 ∈ V) (ht : sink ∈ V)
    {f : N × N → Int} (hf : IsFreeFlow E up src sink f) {S : N → Bool} (hs : S src = true) (hst : S sink = false)
    (hS : ∀ e ∈ E, S e.1 = true → S e.2 = false → up e ≠ none) : net E f sink ≤ cutCap E (stored up) S := by
  have h : IsFlow E (fun e => (up e).getD (f e)) src sink f :=
    ⟨fun e he => ⟨hf.nonneg e he, by
      cases h : up e with
      | none => simp
      | some c => simpa using hf.bounded e he c h⟩, hf.conserved⟩
  refine le_trans (flow_le_cut hV hEV ht h hs hst) (le_of_eq ?_)
  unfold cutCap
  congr 1
  refine List.map_congr_left fun e he => ?_
  rw [List.mem_filter, Bool.and_eq_true, Bool.not_eq_true'] at he
  have := hS e he.1 he.2.1 he.2.2
  unfold stored
  cases h : up e with
  | none => exact absurd h this
  | some c => rfl

/-- a cut that contains an arc of some capacity is at least that large -/
theorem le_cutCap {E : List (N × N)} {cap : N × N → Int} (hpos : ∀ e ∈ E, 0 ≤ cap e) {S : N → Bool} {e : N × N} (he : e ∈ E)
    (h1 : S e.1 = true) (h2 : S e.2 = false) : cap e ≤ cutCap E cap S := by
  unfold cutCap
  exact List.single_le_sum (by
    intro x hx
    obtain ⟨y, hy, rfl⟩ := List.mem_map.1 hx
    exact hpos y (List.mem_filter.1 hy).1) _ (List.mem_map.2 ⟨e, List.mem_filter.2 ⟨he, by simp [h1, h2]⟩, rfl⟩)

theorem stored_nonneg (hpos : ∀ e ∈ g.getEdgeList, ∀ c, up e = some c → 0 ≤ c) : ∀ e ∈ g.getEdgeList, 0 ≤ stored up e := by
  intro e he
  unfold stored
  cases h : up e with
  | none => simp
  | some c => simpa using hpos e he c h

variable {Q' QS : Type} {O' : QOps N Q'} {items' : Q' → List N} {has : Q' → N → Bool} {OS : QOps N QS} {itemsS : QS → List N}

/-- **C105, what holds.** Take a digraph without antiparallel arcs and self loops where some arcs have non-negative
capacities and the others none.  If some cut consists of arcs with capacities of at most 10000 together, then the flow of
`max_flow`, and of every run of `max_flow_preflowpush` that returns, is a maximum flow for arcs without bound; so is every
maximum flow for the bound 10000 whose value is less than 10000.  Missing: networks with more to send. -/
theorem C105_free_arcs_partial (hg : Built g) (hd : g.directed = true) (hb : LawfulBag O items) {newQ : Q} (hq : items newQ = [])
    (hc : Given g up) (hpos : ∀ e ∈ g.getEdgeList, ∀ c, up e = some c → 0 ≤ c)
    (hsn : src ∈ g.getNodeList) (htn : sink ∈ g.getNodeList) (hst : src ≠ sink)
    (hanti : ∀ u v, (u, v) ∈ g.getEdgeList → (v, u) ∉ g.getEdgeList) {fuel : Nat} (hf : flowFuel g (stored up) ≤ fuel)
    (hOS : LawfulFIFO OS itemsS) (hOS' : OS.isPQ = false) (col : SState N QS) (hcol : itemsS col.q = [])
    (hs : LawfulSet O' items' has) {newQ' : Q'} (hq' : items' newQ' = []) (algo : Preflow.PAlgo) {fuel' : Nat}
    (hf' : fuelBound g true ≤ fuel') :
    ∃ f, maxFlow g O newQ src sink fuel = .ok f ∧ IsMaxFlow g.getEdgeList (stored up) src sink f ∧
      ((∃ S : N → Bool, S src = true ∧ S sink = false ∧
          (∀ e ∈ g.getEdgeList, S e.1 = true → S e.2 = false → up e ≠ none) ∧ cutCap g.getEdgeList (stored up) S ≤ 10000) →
        IsMaxFreeFlow g.getEdgeList up src sink f ∧
        ∀ st, Preflow.preflowPush g OS col O' has newQ' algo src sink fuel' = .ok st →
          IsMaxFreeFlow g.getEdgeList up src sink st.flow) ∧
      (net g.getEdgeList f sink < 10000 → IsMaxFreeFlow g.getEdgeList up src sink f) := by
  have hpos' := stored_nonneg hpos
  have hEV : ∀ e ∈ g.getEdgeList, e.1 ∈ g.getNodeList ∧ e.2 ∈ g.getNodeList := fun e he => hg.wf.endp e.1 e.2 he
  obtain ⟨f, S0, h1, h2, h3, h4⟩ := C86_max_flow_min_cut hg hd hb hq hc.capOf hpos' hsn htn hst hanti hf hOS hOS' col hcol hs hq'
    algo hf'
  obtain ⟨f', h5, h6⟩ := C27_max_flow_maximum hg hd hb hq hc.capOf hpos' hsn htn hst (fun u v _ => hanti u v) hf
  rw [h1] at h5; cases h5
  have key : (∃ S : N → Bool, S src = true ∧ S sink = false ∧
      (∀ e ∈ g.getEdgeList, S e.1 = true → S e.2 = false → up e ≠ none) ∧ cutCap g.getEdgeList (stored up) S ≤ 10000) →
      ∀ f', IsFreeFlow g.getEdgeList up src sink f' → net g.getEdgeList f' sink ≤ net g.getEdgeList f sink := by
    rintro ⟨S, s1, s2, s3, s4⟩ f' hf'
    rw [h3]
    by_cases hS0 : ∀ e ∈ g.getEdgeList, S0 e.1 = true → S0 e.2 = false → up e ≠ none
    · exact freeFlow_le_cut hg.wf.nodup hEV htn hf' h2.source h2.sink hS0
    · push Not at hS0
      obtain ⟨e, he, e1, e2, e3⟩ := hS0
      have := le_cutCap hpos' he e1 e2
      have h7 := freeFlow_le_cut hg.wf.nodup hEV htn hf' s1 s2 s3
      have h8 : stored up e = 10000 := by simp [stored, e3]
      omega
  refine ⟨f, h1, h6, fun hS => ⟨⟨h6.flow.free, key hS⟩, fun st h => ?_⟩, fun hlt => ⟨h6.flow.free, ?_⟩⟩
  · rcases C28_preflow_max hg hd hOS hOS' col hcol hs hq' algo hc.capOf hpos' hsn htn hst hanti hf' with h' | ⟨st', h', h8, _⟩
    · rw [h'] at h; cases h
    · rw [h'] at h; cases h
      refine ⟨h8.flow.free, fun f' hf' => ?_⟩
      rw [h4 st h', ← h3]
      exact key hS f' hf'
  · refine key ⟨S0, h2.source, h2.sink, fun e he e1 e2 e3 => ?_, by rw [← h3]; omega⟩
    have := le_cutCap hpos' he e1 e2
    rw [← h3] at this
    have h8 : stored up e = 10000 := by simp [stored, e3]
    omega

/-- an arc without capacity before one of capacity 20000 -/
def exFree : Graph Nat := runOps (Graph.init true) [.addEdge 0 1 [], .addEdge 1 2 [("capacity", .int 20000)]]

def exFreeUp (e : Nat × Nat) : Option Int := if e = (0, 1) then none else some 20000

/-- **C105, the negation.** In the network 0 → 1 → 2 whose first arc has no capacity and whose second has capacity 20000
`max_flow`, with any bag, leaves a flow of value at most 10000; a flow of value 20000 exists. -/
theorem C105_false : Built exFree ∧ Given exFree exFreeUp ∧
    (∀ {Q : Type} {O : QOps Nat Q} {items : Q → List Nat} (_ : LawfulBag O items) {newQ : Q} (_ : items newQ = []) {fuel : Nat}
      (_ : 40000 ≤ fuel), ∃ f, maxFlow exFree O newQ 0 2 fuel = .ok f ∧ net exFree.getEdgeList f 2 ≤ 10000) ∧
    ∃ f, IsFreeFlow exFree.getEdgeList exFreeUp 0 2 f ∧ net exFree.getEdgeList f 2 = 20000 := by
  have hB : Built exFree := ⟨true, _, by intro op _; cases op <;> simp [Op.InScope], rfl⟩
  have hE : exFree.getEdgeList = [(0, 1), (1, 2)] := by decide +kernel
  have hG : Given exFree exFreeUp := by
    intro e he
    rw [hE] at he
    simp only [List.mem_cons, List.not_mem_nil, or_false] at he
    rcases he with rfl | rfl
    · exact ⟨_, rfl, rfl⟩
    · exact ⟨_, rfl, rfl⟩
  have hP : ∀ e ∈ exFree.getEdgeList, ∀ c, exFreeUp e = some c → 0 ≤ c := by
    intro e _ c h
    unfold exFreeUp at h
    split at h
    · cases h
    · cases h; omega
  refine ⟨hB, hG, fun {_ _ _} hb {_} hq {fuel} hf => ?_, fun _ => 20000, ⟨?_, ?_, ?_⟩, ?_⟩
  · obtain ⟨f, h1, h2⟩ := C26_max_flow_feasible (g := exFree) (src := 0) (sink := 2) hB (by decide +kernel) hb hq hG.capOf
      (stored_nonneg hP) (by decide +kernel) (by decide) (fuel := fuel) (by
        refine le_trans ?_ hf
        decide +kernel)
    refine ⟨f, h1, ?_⟩
    have h3 := h2.conserved 1 (by decide) (by decide)
    have h4 := h2.within (0, 1) (by rw [hE]; simp)
    rw [hE] at h3 ⊢
    simp [net] at h3 ⊢
    simp [stored, exFreeUp] at h4
    omega
  · intro e _; decide
  · intro e _ c h
    unfold exFreeUp at h
    split at h
    · cases h
    · cases h; decide
  · intro v h1 h2
    rw [hE]
    by_cases hv : v = 1
    · subst hv; decide
    · have h3 : ¬ 1 = v := fun h => hv h.symm
      have h4 : ¬ 2 = v := fun h => h2 h.symm
      have h5 : ¬ 0 = v := fun h => h1 h.symm
      simp [net, h3, h4, h5]
  · rw [hE]; decide

/-- non-vacuity of C105: the arcs 0→1 and 2→3 have no capacity, the other two form a cut -/
def exCut : Graph Nat := runOps (Graph.init true) [.addEdge 0 1 [], .addEdge 1 2 [("capacity", .int 3)],
  .addEdge 0 2 [("capacity", .int 4)], .addEdge 2 3 []]

def exCutUp (e : Nat × Nat) : Option Int := if e = (1, 2) then some 3 else if e = (0, 2) then some 4 else none

example : exCut.getEdgeList = [(0, 1), (1, 2), (0, 2), (2, 3)] ∧ exCut.directed = true ∧
    (∀ e ∈ exCut.getEdgeList, (exCut.edgeAttr.get? e).bind (fun a => a.get? "capacity") = (exCutUp e).map Val.int ∧
      e.swap ∉ exCut.getEdgeList) ∧
    flowsOf exCut (maxFlow exCut stackOps [] 0 3 20020) = some [3, 3, 4, 7] ∧
    cutCap exCut.getEdgeList (stored exCutUp) (fun v => decide (v < 2)) = 7 := by decide +kernel

end GiMPy
