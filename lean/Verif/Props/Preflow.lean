import Verif.Lemmas.Preflow
import Verif.Props.Search
import Verif.Props.MaxFlow
import Mathlib.Tactic.Linarith

/-! # C28, C29, C64: `max_flow_preflowpush` -/

namespace GiMPy
open Search
variable {N : Type} [DecidableEq N] {Q Q' QS : Type} {g : Graph N} {O : QOps N Q} {items : Q → List N}
variable {has : Q → N → Bool} {OS : QOps N QS} {itemsS : QS → List N}
variable {cap : N × N → Int} {src sink : N}

/-- A number of iterations that is enough for the main loop when the neighbours of the source can reach the sink.  With
`n` nodes and `m` arcs: the sum of the labels rises at most by `n (2n+2)`; between two rises each push either closes one of
the at most `m` arcs along which flow can be pushed, or lowers the sum of the labels of the nodes with excess (together at
most `p` pushes); and between two pushes only nodes without excess leave the queue (`w`).  The capacities do not enter. -/
def pushFuel (g : Graph N) : Nat :=
  let n : Nat := g.getNodeList.length
  let m : Nat := g.getEdgeList.length
  let p := (2 * n + 3) * m + n * (2 * n + 2)
  let w := n * (2 * n + 3)
  (n * (2 * n + 2) * (p + 1) + p) * (w + 1) + w + 1

theorem preflow_cases (hg : Built g) (hd : g.directed = true)
    (hOS : LawfulFIFO OS itemsS) (hOS' : OS.isPQ = false) (col : SState N QS) (hcol : itemsS col.q = [])
    (hs : LawfulSet O items has) {newQ : Q} (hq : items newQ = []) (algo : Preflow.PAlgo)
    (hc : ∀ u v, (u, v) ∈ g.getEdgeList → g.capOf u v = .ok (cap (u, v))) (hpos : ∀ e ∈ g.getEdgeList, 0 ≤ cap e)
    (hsn : src ∈ g.getNodeList) (htn : sink ∈ g.getNodeList) (hst : src ≠ sink)
    (hanti : ∀ u v, (u, v) ∈ g.getEdgeList → (v, u) ∉ g.getEdgeList) {fuel : Nat} (hf : fuelBound g true ≤ fuel) :
    (Preflow.preflowPush g OS col O has newQ algo src sink fuel = .error .diverge ∧
      ((∀ v, ((src, v) ∈ g.getEdgeList ∧ 0 < cap (src, v)) ∨ ((v, src) ∈ g.getEdgeList ∧ 0 < cap (v, src)) →
        Reach g true sink v) → fuel < pushFuel g)) ∨
    ∃ st, Preflow.preflowPush g OS col O has newQ algo src sink fuel = .ok st ∧
      IsMaxFlow g.getEdgeList cap src sink st.flow ∧ ∀ v, st.excess v = net g.getEdgeList st.flow v := by
  obtain ⟨⟨pred, s, h1, h2⟩, _⟩ := C10_bfs_shortest hg hOS hOS' (Or.inr rfl) true none htn col hcol hf
  obtain ⟨out, st, h3, h4, h5, h6, h7⟩ := Preflow.start_ok (algo := algo) hg.wf hd hs hc hanti hsn htn hst hpos hq h2
  unfold Preflow.preflowPush
  rw [h1]
  simp only []
  rw [h3]
  simp only []
  rw [h4]
  simp only []
  rcases Preflow.loop_ok (algo := algo) hg.wf hd hs hc hanti hsn fuel none _ h5 h6 with ⟨a, b⟩ | ⟨st', a, b, c, d⟩
  · refine Or.inl ⟨a, fun hall => ?_⟩
    have hF := h7 hall
    have hm := b hF
    obtain ⟨b1, b2, b3, b4, b5, b6⟩ := Preflow.bounds h5 hF
    generalize { st with dist := upd st.dist src (g.getNodeList.length : Int) } = S at *
    unfold Preflow.measure at hm
    have hP : 0 ≤ Preflow.phiMax g := b3.trans b4
    have hW : 0 ≤ Preflow.waitMax g := b5.trans b6
    have e1 := Int.mul_le_mul_of_nonneg_right b2 (show 0 ≤ Preflow.phiMax g + 1 by omega)
    have e2 := Int.mul_le_mul_of_nonneg_right (show Preflow.lab g S * (Preflow.phiMax g + 1) + Preflow.phi g cap src S ≤
      (g.getNodeList.length : Int) * (2 * g.getNodeList.length + 2) * (Preflow.phiMax g + 1) + Preflow.phiMax g
      by omega) (show 0 ≤ Preflow.waitMax g + 1 by omega)
    have e3 : (fuel : Int) ≤ ((g.getNodeList.length : Int) * (2 * g.getNodeList.length + 2) * (Preflow.phiMax g + 1) +
      Preflow.phiMax g) * (Preflow.waitMax g + 1) + Preflow.waitMax g := by omega
    unfold Preflow.phiMax Preflow.waitMax at e3
    unfold pushFuel
    clear h2
    refine Nat.lt_succ_of_le ?_
    exact_mod_cast e3
  · exact Or.inr ⟨st', a, Preflow.max_of_inv hg.wf hanti b c d hsn htn hst, b.net⟩

/-- **C28.** On a digraph without antiparallel arcs and self loops and with non-negative integer capacities (10000 where
none is given), `max_flow_preflowpush` with 'FIFO', 'SAP' or 'HighestLabel' and any queue that holds a set raises no
exception, and whenever it returns the flow is a maximum flow and `excess` is the net flow into each node. -/
theorem C28_preflow_max (hg : Built g) (hd : g.directed = true)
    (hOS : LawfulFIFO OS itemsS) (hOS' : OS.isPQ = false) (col : SState N QS) (hcol : itemsS col.q = [])
    (hs : LawfulSet O items has) {newQ : Q} (hq : items newQ = []) (algo : Preflow.PAlgo)
    (hc : ∀ u v, (u, v) ∈ g.getEdgeList → g.capOf u v = .ok (cap (u, v))) (hpos : ∀ e ∈ g.getEdgeList, 0 ≤ cap e)
    (hsn : src ∈ g.getNodeList) (htn : sink ∈ g.getNodeList) (hst : src ≠ sink)
    (hanti : ∀ u v, (u, v) ∈ g.getEdgeList → (v, u) ∉ g.getEdgeList) {fuel : Nat} (hf : fuelBound g true ≤ fuel) :
    Preflow.preflowPush g OS col O has newQ algo src sink fuel = .error .diverge ∨
    ∃ st, Preflow.preflowPush g OS col O has newQ algo src sink fuel = .ok st ∧
      IsMaxFlow g.getEdgeList cap src sink st.flow ∧ ∀ v, st.excess v = net g.getEdgeList st.flow v :=
  (preflow_cases hg hd hOS hOS' col hcol hs hq algo hc hpos hsn htn hst hanti hf).imp (·.1) id

/-- **C64.** If moreover every node joined to the source by an arc of positive capacity can reach the sink, `max_flow_preflowpush` returns, with the stated number of
iterations of the main loop at most. -/
theorem C64_preflow_terminates (hg : Built g) (hd : g.directed = true)
    (hOS : LawfulFIFO OS itemsS) (hOS' : OS.isPQ = false) (col : SState N QS) (hcol : itemsS col.q = [])
    (hs : LawfulSet O items has) {newQ : Q} (hq : items newQ = []) (algo : Preflow.PAlgo)
    (hc : ∀ u v, (u, v) ∈ g.getEdgeList → g.capOf u v = .ok (cap (u, v))) (hpos : ∀ e ∈ g.getEdgeList, 0 ≤ cap e)
    (hsn : src ∈ g.getNodeList) (htn : sink ∈ g.getNodeList) (hst : src ≠ sink)
    (hanti : ∀ u v, (u, v) ∈ g.getEdgeList → (v, u) ∉ g.getEdgeList)
    (hall : ∀ v, ((src, v) ∈ g.getEdgeList ∧ 0 < cap (src, v)) ∨ ((v, src) ∈ g.getEdgeList ∧ 0 < cap (v, src)) →
      Reach g true sink v) {fuel : Nat} (hf : fuelBound g true ≤ fuel)
    (hf' : pushFuel g ≤ fuel) :
    ∃ st, Preflow.preflowPush g OS col O has newQ algo src sink fuel = .ok st ∧
      IsMaxFlow g.getEdgeList cap src sink st.flow := by
  rcases preflow_cases hg hd hOS hOS' col hcol hs hq algo hc hpos hsn htn hst hanti hf with ⟨_, h⟩ | ⟨st, h1, h2, _⟩
  · have := h hall; omega
  · exact ⟨st, h1, h2⟩

/-- the bound of C64 written out -/
theorem pushFuel_le (g : Graph N) :
    pushFuel g ≤ 12 * (g.getNodeList.length + 1) ^ 5 * (g.getNodeList.length + g.getEdgeList.length + 1) := by
  unfold pushFuel
  generalize g.getNodeList.length = n
  generalize g.getEdgeList.length = m
  have e : (n * (2 * n + 2) * ((2 * n + 3) * m + n * (2 * n + 2) + 1) + ((2 * n + 3) * m + n * (2 * n + 2))) *
      (n * (2 * n + 3) + 1) + n * (2 * n + 3) + 1 =
      ((n * (2 * n + 2) + 1) * ((2 * n + 3) * m + n * (2 * n + 2) + 1)) * (n * (2 * n + 3) + 1) := by ring
  simp only []
  rw [e]
  have h1 : n * (2 * n + 2) + 1 ≤ 2 * (n + 1) ^ 2 := by nlinarith
  have h2 : (2 * n + 3) * m + n * (2 * n + 2) + 1 ≤ 3 * (n + 1) * (n + m + 1) := by nlinarith [Nat.zero_le (n * m)]
  have h3 : n * (2 * n + 3) + 1 ≤ 2 * (n + 1) ^ 2 := by nlinarith
  calc _ ≤ (2 * (n + 1) ^ 2 * (3 * (n + 1) * (n + m + 1))) * (2 * (n + 1) ^ 2) :=
        Nat.mul_le_mul (Nat.mul_le_mul h1 h2) h3
    _ = _ := by ring

/-- **C116.** The number of iterations of the main loop is bounded by a polynomial in the numbers of nodes and arcs alone:
under the hypotheses of C64, `12 (|V|+1)⁵ (|V|+|E|+1)` iterations are enough for any capacities. -/
theorem C116_preflow_iterations (hg : Built g) (hd : g.directed = true)
    (hOS : LawfulFIFO OS itemsS) (hOS' : OS.isPQ = false) (col : SState N QS) (hcol : itemsS col.q = [])
    (hs : LawfulSet O items has) {newQ : Q} (hq : items newQ = []) (algo : Preflow.PAlgo)
    (hc : ∀ u v, (u, v) ∈ g.getEdgeList → g.capOf u v = .ok (cap (u, v))) (hpos : ∀ e ∈ g.getEdgeList, 0 ≤ cap e)
    (hsn : src ∈ g.getNodeList) (htn : sink ∈ g.getNodeList) (hst : src ≠ sink)
    (hanti : ∀ u v, (u, v) ∈ g.getEdgeList → (v, u) ∉ g.getEdgeList)
    (hall : ∀ v, ((src, v) ∈ g.getEdgeList ∧ 0 < cap (src, v)) ∨ ((v, src) ∈ g.getEdgeList ∧ 0 < cap (v, src)) →
      Reach g true sink v) {fuel : Nat} (hf : fuelBound g true ≤ fuel)
    (hf' : 12 * (g.getNodeList.length + 1) ^ 5 * (g.getNodeList.length + g.getEdgeList.length + 1) ≤ fuel) :
    ∃ st, Preflow.preflowPush g OS col O has newQ algo src sink fuel = .ok st ∧
      IsMaxFlow g.getEdgeList cap src sink st.flow :=
  C64_preflow_terminates hg hd hOS hOS' col hcol hs hq algo hc hpos hsn htn hst hanti hall hf ((pushFuel_le g).trans hf')

/-- **C29.** Whenever `max_flow_preflowpush` returns, its flow has the value of the flow of `max_flow` (which always
returns), whatever the queues are. -/
theorem C29_max_flow_agree {O' : QOps N Q'} {items' : Q' → List N} (hg : Built g) (hd : g.directed = true)
    (hOS : LawfulFIFO OS itemsS) (hOS' : OS.isPQ = false) (col : SState N QS) (hcol : itemsS col.q = [])
    (hs : LawfulSet O items has) {newQ : Q} (hq : items newQ = []) (hb : LawfulBag O' items') {newQ' : Q'}
    (hq' : items' newQ' = []) (algo : Preflow.PAlgo)
    (hc : ∀ u v, (u, v) ∈ g.getEdgeList → g.capOf u v = .ok (cap (u, v))) (hpos : ∀ e ∈ g.getEdgeList, 0 ≤ cap e)
    (hsn : src ∈ g.getNodeList) (htn : sink ∈ g.getNodeList) (hst : src ≠ sink)
    (hanti : ∀ u v, (u, v) ∈ g.getEdgeList → (v, u) ∉ g.getEdgeList) {fuel fuel' : Nat}
    (hf : fuelBound g true ≤ fuel) (hf' : flowFuel g cap ≤ fuel') :
    ∃ f, MaxFlow.maxFlow g O' newQ' src sink fuel' = .ok f ∧
      ∀ st, Preflow.preflowPush g OS col O has newQ algo src sink fuel = .ok st →
        net g.getEdgeList st.flow sink = net g.getEdgeList f sink := by
  obtain ⟨f, h1, h2⟩ := C27_max_flow_maximum hg hd hb hq' hc hpos hsn htn hst (fun u v _ => hanti u v) hf'
  refine ⟨f, h1, fun st h => ?_⟩
  rcases C28_preflow_max hg hd hOS hOS' col hcol hs hq algo hc hpos hsn htn hst hanti hf with h3 | ⟨st', h3, h4, _⟩
  · rw [h] at h3; cases h3
  · rw [h] at h3; cases h3
    exact Int.le_antisymm (h2.most _ h4.flow) (h4.most _ h2.flow)

/-! ## Examples -/

/-- a readable form of the result: the flows, and the excesses of the nodes -/
def pushOf (g : Graph Nat) (r : Except PyErr (Preflow.PState Nat Q)) : Option (List Int × List Int) :=
  match r with
  | .ok st => some (g.getEdgeList.map st.flow, g.getNodeList.map st.excess)
  | .error _ => none

/-- 0 is the source, 3 the sink; 4 units must be sent back over 0→1 -/
def exP : Graph Nat := runOps (Graph.init true)
  ([((0, 1), 7), ((0, 2), 2), ((1, 2), 1), ((1, 3), 2), ((2, 3), 4)].map fun e =>
    Op.addEdge e.1.1 e.1.2 [("capacity", .int e.2)])

/-- non-vacuity of C28, C29 and C64, with the queue of each algorithm; excess is returned to the source -/
example :
    pushOf exP (Preflow.preflowPush exP queueOps (exCol []) queueOps (fun q x => decide (x ∈ q)) [] .fifo 0 3 40) =
      some ([3, 2, 1, 2, 3], [-5, 0, 0, 5]) ∧
    pushOf exP (Preflow.preflowPush exP queueOps (exCol []) stackOps (fun q x => decide (x ∈ q)) [] .sap 0 3 40) =
      some ([3, 2, 1, 2, 3], [-5, 0, 0, 5]) ∧
    pushOf exP (Preflow.preflowPush exP queueOps (exCol []) pqOps' (fun q x => q.1.contains x) ⟨.empty, by decide⟩
      .highest 0 3 40) = some ([3, 2, 1, 2, 3], [-5, 0, 0, 5]) ∧
    flowsOf exP (MaxFlow.maxFlow exP stackOps [] 0 3 40) = some [3, 2, 1, 2, 3] := by decide +kernel

/-- `exP` with capacities a million times as large -/
def exPBig : Graph Nat := runOps (Graph.init true)
  ([((0, 1), 7000000), ((0, 2), 2000000), ((1, 2), 1000000), ((1, 3), 2000000), ((2, 3), 4000000)].map fun e =>
    Op.addEdge e.1.1 e.1.2 [("capacity", .int e.2)])

/-- non-vacuity of C116: the large capacities need no more iterations -/
example : pushOf exPBig (Preflow.preflowPush exPBig queueOps (exCol []) queueOps (fun q x => decide (x ∈ q)) [] .fifo 0 3 40) =
      some ([3000000, 2000000, 1000000, 2000000, 3000000], [-5000000, 0, 0, 5000000]) ∧
    12 * (exPBig.getNodeList.length + 1) ^ 5 * (exPBig.getNodeList.length + exPBig.getEdgeList.length + 1) = 375000 := by
  decide +kernel

/-- the capacities of `exP` -/
def exPCap (e : Nat × Nat) : Int :=
  if e = (0, 1) then 7 else if e = (0, 2) then 2 else if e = (1, 2) then 1 else if e = (1, 3) then 2 else 4

/-- the hypotheses of C28, C29 and C64 hold for `exP` -/
example : fuelBound exP true ≤ 40 ∧ flowFuel exP exPCap ≤ 40 ∧ exP.directed = true ∧ 0 ∈ exP.getNodeList ∧
    3 ∈ exP.getNodeList ∧
    (∀ e ∈ exP.getEdgeList, e.swap ∉ exP.getEdgeList ∧ 0 ≤ exPCap e ∧ exP.capOf e.1 e.2 = .ok (exPCap e)) := by
  decide +kernel

example : ∀ v ∈ exP.getNodeList, Reach exP true 3 v := by
  have h : ∀ v ∈ exP.getNodeList, v = 0 ∨ v = 1 ∨ v = 2 ∨ v = 3 := by decide +kernel
  have s1 : Step exP true 3 1 := by unfold Step; decide +kernel
  have s2 : Step exP true 3 2 := by unfold Step; decide +kernel
  have s3 : Step exP true 2 0 := by unfold Step; decide +kernel
  intro v hv
  rcases h v hv with rfl | rfl | rfl | rfl
  · exact (Relation.ReflTransGen.single s2).tail s3
  · exact .single s1
  · exact .single s2
  · exact .refl

/-- `exP` with the node 4, to which 1 can send and which does not reach the sink 3 -/
def exP4 : Graph Nat := runOps exP [.addEdge 1 4 [("capacity", .int 5)]]

/-- non-vacuity of C64 where not every node reaches the sink: 4 keeps its label 2n+1 = 11, so 1 sends nothing to it -/
example : (∀ v, ((0, v) ∈ exP4.getEdgeList ∧ 0 < exPCap (0, v)) ∨ ((v, 0) ∈ exP4.getEdgeList ∧ 0 < exPCap (v, 0)) →
      Reach exP4 true 3 v) ∧ ¬ Reach exP4 true 3 4 ∧
    pushOf exP4 (Preflow.preflowPush exP4 queueOps (exCol []) queueOps (fun q x => decide (x ∈ q)) [] .fifo 0 3 40) =
      some ([3, 2, 1, 2, 3, 0], [-5, 0, 0, 5, 0]) := by
  refine ⟨?_, ?_, by decide +kernel⟩
  · have s1 : Step exP4 true 3 1 := by unfold Step; decide +kernel
    have s2 : Step exP4 true 3 2 := by unfold Step; decide +kernel
    have h : ∀ e ∈ exP4.getEdgeList, (e.1 = 0 → e.2 = 1 ∨ e.2 = 2) ∧ e.2 ≠ 0 := by decide +kernel
    rintro v (⟨hv, _⟩ | ⟨hv, _⟩)
    · rcases (h _ hv).1 rfl with h | h <;> simp only [] at h <;> subst h
      · exact .single s1
      · exact .single s2
    · exact absurd rfl (h _ hv).2
  · intro h
    rcases Relation.ReflTransGen.cases_tail h with h | ⟨b, _, h⟩
    · cases h
    · have h1 : ∀ e ∈ exP4.getEdgeList, e.1 ≠ 4 := by decide +kernel
      have hd : exP4.directed = true := by decide +kernel
      unfold Step Graph.checkEdge at h
      rw [if_pos rfl, if_pos hd] at h
      exact h1 _ ((MaxFlow.contains_edge _ _ _).1 h) rfl

/-! ## Antiparallel arcs -/

/-- source 0, sink 2, the arc 0→1 with its reverse -/
def exA : Graph Nat := runOps (Graph.init true)
  [.addEdge 0 2 [("capacity", .int 1)], .addEdge 0 1 [("capacity", .int 1)], .addEdge 1 0 [("capacity", .int 0)]]

def exACap (e : Nat × Nat) : Int := if e = (1, 0) then 0 else 1

/-- what stays true while the loop runs on `exA` -/
structure Stuck (items : Q → List Nat) (st : Preflow.PState Nat Q) : Prop where
  sub : ∀ v ∈ items st.q, v = 1 ∨ v = 2
  one : 1 ∈ items st.q
  nodup : (items st.q).Nodup
  ex : st.excess 1 = 1
  f01 : st.flow (0, 1) = 1
  f10 : st.flow (1, 0) = 0
  d0 : st.dist 0 = 3
  d2 : st.dist 2 = 0

theorem stuck_loop {O : QOps Nat Q} {items : Q → List Nat} {has : Q → Nat → Bool} (hs : LawfulSet O items has)
    (algo : Preflow.PAlgo) (k : Nat) : ∀ last (st : Preflow.PState Nat Q), Stuck items st →
    Preflow.loop exA O has algo 0 2 k last st = .error .diverge := by
  have n1 : exA.getNeighbors 1 = .ok [0] := by decide +kernel
  have i1 : exA.getInNeighbors 1 = .ok [0] := by decide +kernel
  have n2 : exA.getNeighbors 2 = .ok [] := by decide +kernel
  have i2 : exA.getInNeighbors 2 = .ok [0] := by decide +kernel
  have c10 : exA.edgeAttr.contains (1, 0) = true := by decide +kernel
  have c01 : exA.edgeAttr.contains (0, 1) = true := by decide +kernel
  have k10 : exA.capOf 1 0 = .ok 0 := by decide +kernel
  have len : exA.getNodeList.length = 3 := by decide +kernel
  induction k with
  | zero => intros; rfl
  | succ k ih =>
    intro last st h
    rw [Preflow.loop]
    have hne : items st.q ≠ [] := fun h' => by have := h.one; rw [h'] at this; cases this
    rw [if_neg (fun h' => hne ((hs.isEmpty_iff _).1 h'))]
    obtain ⟨cur, hcur, hpk⟩ := hs.peek_mem st.q hne
    rw [hpk]
    simp only []
    obtain ⟨r1, r2⟩ := hs.nodup_remove st.q cur h.nodup hcur
    suffices ∃ last' st', Preflow.step exA O has algo 0 2 cur last st = .ok (last', st') ∧ Stuck items st' by
      obtain ⟨last', st', h1, h2⟩ := this
      rw [h1]; exact ih last' st' h2
    rcases h.sub cur hcur with rfl | rfl
    · -- node 1: nothing can be pushed, and the new label is again 4
      have hp : Preflow.processEdge exA st 1 0 = .ok (false, st) := by
        unfold Preflow.processEdge
        split
        · rfl
        · rw [k10]
          simp only []
          unfold Preflow.pushOn
          rw [h.f10, if_pos (by decide)]
      have hr : ∀ q : Q, Preflow.relabel exA { st with q := q } 1 = .ok { st with q := q, dist := upd st.dist 1 4 } := by
        intro q
        unfold Preflow.relabel
        rw [n1]
        simp only []
        rw [Preflow.minOut, len]
        simp only [h.d0]
        rw [if_pos (by decide)]
        unfold Graph.flowOf
        rw [if_pos c10, k10]
        simp only [h.f10]
        rw [if_neg (by decide), Preflow.minOut]
        simp only []
        rw [i1]
        simp only []
        rw [Preflow.minIn]
        simp only [h.d0]
        rw [if_pos (by decide)]
        unfold Graph.flowOf
        rw [if_pos c01]
        simp only [h.f01]
        rw [if_pos (by decide), Preflow.minIn]
        rfl
      obtain ⟨e1, e2⟩ := Preflow.enq_ok (algo := algo) hs (O.remove st.q 1) 1 (-4)
      refine ⟨some (false, 0),
        ⟨Preflow.enq O algo (O.remove st.q 1) 1 (-4), st.flow, st.excess, upd st.dist 1 4⟩, ?_, ?_⟩
      · unfold Preflow.step
        rw [n1]
        simp only []
        rw [i1]
        simp only [List.cons_append, List.nil_append]
        rw [Preflow.forNbrs, hp]
        simp only []
        rw [Preflow.forNbrs, hp]
        simp only []
        rw [Preflow.forNbrs]
        simp only []
        rw [if_neg (by decide)]
        unfold Preflow.settle
        simp only [if_true]
        rw [hr]
        simp only []
        rw [if_pos (by show st.excess 1 > 0; rw [h.ex]; decide)]
        simp only []
        unfold Preflow.finish
        simp only []
        rw [if_neg (by simp)]
        simp only [upd, if_true]
      · refine ⟨?_, (e1 1).2 (Or.inl rfl), e2 r1 r2, h.ex, h.f01, h.f10, ?_, ?_⟩
        · intro v hv
          rcases (e1 v).1 hv with hv | hv
          · exact Or.inl hv
          · refine h.sub v ((hs.mem_remove _ 1 hcur v ?_).1 hv)
            rintro rfl; exact r2 hv
        · simp [upd, h.d0]
        · simp [upd, h.d2]
    · -- the sink only leaves the queue
      have hp : Preflow.processEdge exA st 2 0 = .ok (false, st) := by
        unfold Preflow.processEdge
        rw [if_pos (by rw [h.d0, h.d2]; decide)]
      refine ⟨some (false, 0), { st with q := O.remove st.q 2 }, ?_, ?_⟩
      · unfold Preflow.step
        rw [n2]
        simp only []
        rw [i2]
        simp only [List.nil_append]
        rw [Preflow.forNbrs, hp]
        simp only []
        rw [Preflow.forNbrs]
        simp only [if_true]
        unfold Preflow.finish
        simp only []
        rw [if_neg (by simp)]
      · refine ⟨?_, (hs.mem_remove _ 2 hcur 1 (by decide)).2 h.one, r1, h.ex, h.f01, h.f10, h.d0, h.d2⟩
        intro v hv
        refine h.sub v ((hs.mem_remove _ 2 hcur v ?_).1 hv)
        rintro rfl; exact r2 hv

/-- The hypothesis on antiparallel arcs in C28 is needed: on a network with three nodes and no self loop
`max_flow_preflowpush` runs for ever, with each algorithm and each queue.  The excess of node 1 could only be returned over
0→1, but `process_edge_flow` looks at the arc 1→0, which has no room. -/
theorem C28_antiparallel_diverges : ∃ g : Graph Nat, Built g ∧ g.directed = true ∧
    (∀ u, (u, u) ∉ g.getEdgeList) ∧ ∀ {Q QS : Type} {O : QOps Nat Q} {items : Q → List Nat} {has : Q → Nat → Bool}
    {OS : QOps Nat QS} {itemsS : QS → List Nat}, LawfulFIFO OS itemsS → OS.isPQ = false → LawfulSet O items has →
    ∀ (col : SState Nat QS) (newQ : Q), itemsS col.q = [] → items newQ = [] → ∀ (algo : Preflow.PAlgo) (fuel : Nat),
    fuelBound g true ≤ fuel → Preflow.preflowPush g OS col O has newQ algo 0 2 fuel = .error .diverge := by
  have hB : Built exA := ⟨true, _, by intro op _; cases op <;> simp [Op.InScope], rfl⟩
  have hE : exA.getEdgeList = [(0, 2), (0, 1), (1, 0)] := by decide +kernel
  have hd : exA.directed = true := by decide +kernel
  refine ⟨exA, hB, hd, ?_, ?_⟩
  · intro u h
    rw [hE] at h
    simp only [List.mem_cons, Prod.mk.injEq, List.not_mem_nil, or_false] at h
    omega
  · intro Q QS O items has OS itemsS hOS hOS' hs col newQ hcol hq algo fuel hf
    have htn : 2 ∈ exA.getNodeList := by decide +kernel
    obtain ⟨⟨pred, s, h1, h2⟩, _⟩ := C10_bfs_shortest hB hOS hOS' (Or.inr rfl) true none htn col hcol hf
    have hz := (Preflow.labels_ok hB.wf hd htn h2).1
    have hc : MaxFlow.HasCaps exA exACap := by
      intro u v h
      rw [hE] at h
      simp only [List.mem_cons, Prod.mk.injEq, List.not_mem_nil, or_false] at h
      rcases h with ⟨rfl, rfl⟩ | ⟨rfl, rfl⟩ | ⟨rfl, rfl⟩ <;> decide +kernel
    have n0 : exA.getNeighbors 0 = .ok [2, 1] := by decide +kernel
    obtain ⟨st, a, b⟩ := Preflow.saturate_ok (O := O) (algo := algo) (src := 0) (d := Preflow.firstLabels exA s.dist)
      hB.wf hs hc (by rw [hE]; decide) [2, 1] []
      ⟨newQ, fun _ => 0, fun _ => 0, Preflow.firstLabels exA s.dist⟩
      (by rw [hE]; decide) (by decide) ⟨by simp, by simp [net], by simp, by simp, by simp [hq], by simp [hq], rfl⟩
    unfold Preflow.preflowPush
    rw [h1]
    simp only []
    rw [n0]
    simp only []
    rw [a]
    simp only []
    refine stuck_loop hs algo fuel none _ ⟨?_, ?_, b.nodup, ?_, ?_, ?_, ?_, ?_⟩
    · intro v hv
      have := (b.item v).1 hv
      simp at this
      tauto
    · exact (b.item 1).2 (by simp)
    · show st.excess 1 = 1
      rw [b.net, hE]
      simp [net, b.flow, exACap]
    · show st.flow (0, 1) = 1
      rw [b.flow]; decide
    · show st.flow (1, 0) = 0
      rw [b.flow]; decide
    · show upd st.dist 0 (exA.getNodeList.length : Int) 0 = 3
      have : exA.getNodeList.length = 3 := by decide +kernel
      simp [upd, this]
    · show upd st.dist 0 (exA.getNodeList.length : Int) 2 = 0
      simp [upd, b.dist, hz]

end GiMPy
