import Verif.Lemmas.MaxFlow
import Verif.Spec.Built

/-! # C26, C27: `max_flow` -/

namespace GiMPy
open MaxFlow Search
variable {N : Type} [DecidableEq N] {Q : Type} {g : Graph N} {O : QOps N Q} {items : Q → List N}
variable {cap : N × N → Int} {src sink : N}

theorem zero_isFlow {E : List (N × N)} (hpos : ∀ e ∈ E, 0 ≤ cap e) (s t : N) : IsFlow E cap s t fun _ => 0 :=
  ⟨fun e he => ⟨Int.le_refl _, hpos e he⟩, fun v _ _ => by simp [net]⟩

/-- fuel for `max_flow`: more than the number of nodes plus the sum of the capacities -/
def flowFuel (g : Graph N) (cap : N × N → Int) : Nat := g.getNodeList.length + (g.getEdgeList.map cap).sum.toNat + 1

/-- **C26.** `max_flow(source, sink)` on a digraph with non-negative integer capacities (10000 where none is given)
returns, with any bag-like queue, and leaves a feasible flow.  Antiparallel arcs and self loops are allowed. -/
theorem C26_max_flow_feasible (hg : Built g) (hd : g.directed = true) (hb : LawfulBag O items) {newQ : Q}
    (hq : items newQ = []) (hc : ∀ u v, (u, v) ∈ g.getEdgeList → g.capOf u v = .ok (cap (u, v)))
    (hpos : ∀ e ∈ g.getEdgeList, 0 ≤ cap e) (hs : src ∈ g.getNodeList) (hst : src ≠ sink) {fuel : Nat}
    (hf : flowFuel g cap ≤ fuel) :
    ∃ f, maxFlow g O newQ src sink fuel = .ok f ∧ IsFlow g.getEdgeList cap src sink f := by
  obtain ⟨f, h1, h2, _⟩ := loop_ok hg.wf hd hb hc hq hs hst (inner := fuel) (by unfold flowFuel at hf; omega) fuel _
    (zero_isFlow hpos src sink) (by
      have : net g.getEdgeList (fun _ => 0) sink = 0 := by simp [net]
      rw [this]; unfold flowFuel at hf; omega)
  exact ⟨f, h1, h2⟩

/-- a flow is maximum if some set with the source and without the sink is closed under residual arcs -/
theorem closed_max (hg : Built g) (ht : sink ∈ g.getNodeList)
    (hanti : ∀ u v, u ≠ v → (u, v) ∈ g.getEdgeList → (v, u) ∉ g.getEdgeList) {f : N × N → Int}
    (h2 : IsFlow g.getEdgeList cap src sink f) {S : N → Prop} (hS1 : S src) (hS2 : ¬ S sink)
    (hS3 : ∀ u, S u → ∀ v, Use g cap f u v → S v) : IsMaxFlow g.getEdgeList cap src sink f := by
  refine maxFlow_of_cut hg.wf.nodup (fun e he => hg.wf.endp e.1 e.2 he) ht h2 S hS1 hS2 ?_ ?_
  · rintro ⟨u, v⟩ he hu hv
    replace he : (u, v) ∈ g.getEdgeList := he
    have := mt (hS3 u hu v) hv
    unfold Use pot at this
    rw [if_pos he, not_and] at this
    have := this (Or.inl he)
    have := h2.within _ he
    omega
  · rintro ⟨u, v⟩ he hu hv
    replace he : (u, v) ∈ g.getEdgeList := he
    have huv : u ≠ v := by rintro rfl; exact hu hv
    have := mt (hS3 v hv u) hu
    unfold Use pot at this
    rw [if_neg (hanti u v huv he), not_and] at this
    have := this (Or.inr he)
    have := h2.within _ he
    omega

/-- **C27.** If moreover there are no antiparallel arcs, `max_flow` terminates with a maximum flow. -/
theorem C27_max_flow_maximum (hg : Built g) (hd : g.directed = true) (hb : LawfulBag O items) {newQ : Q}
    (hq : items newQ = []) (hc : ∀ u v, (u, v) ∈ g.getEdgeList → g.capOf u v = .ok (cap (u, v)))
    (hpos : ∀ e ∈ g.getEdgeList, 0 ≤ cap e) (hs : src ∈ g.getNodeList) (ht : sink ∈ g.getNodeList) (hst : src ≠ sink)
    (hanti : ∀ u v, u ≠ v → (u, v) ∈ g.getEdgeList → (v, u) ∉ g.getEdgeList) {fuel : Nat}
    (hf : flowFuel g cap ≤ fuel) :
    ∃ f, maxFlow g O newQ src sink fuel = .ok f ∧ IsMaxFlow g.getEdgeList cap src sink f := by
  obtain ⟨f, h1, h2, S, hS1, hS2, hS3⟩ := loop_ok hg.wf hd hb hc hq hs hst (inner := fuel)
    (by unfold flowFuel at hf; omega) fuel _ (zero_isFlow hpos src sink) (by
      have : net g.getEdgeList (fun _ => 0) sink = 0 := by simp [net]
      rw [this]; unfold flowFuel at hf; omega)
  exact ⟨f, h1, closed_max hg ht hanti h2 hS1 hS2 hS3⟩

/-- a network whose first augmenting path, found with a stack, must be partly undone; the last arc has no capacity -/
def exN (extra : List (Op Nat)) : Graph Nat := runOps (Graph.init true)
  (([(0, 5), (5, 2), (0, 1), (1, 6), (1, 2), (6, 3), (2, 3)].map fun e => Op.addEdge e.1 e.2 [("capacity", .int 1)]) ++
    [.addEdge 3 4 []] ++ extra)

/-- a readable form of the result -/
def flowsOf (g : Graph Nat) (r : Except PyErr (Nat × Nat → Int)) : Option (List Int) :=
  match r with
  | .ok f => some (g.getEdgeList.map f)
  | .error _ => none

/-- non-vacuity of C26 and C27, with a stack and with a queue -/
example : flowsOf (exN []) (maxFlow (exN []) stackOps [] 0 4 30) = some [1, 1, 1, 1, 0, 1, 1, 2] ∧
    flowsOf (exN []) (maxFlow (exN []) queueOps [] 0 4 30) = some [1, 1, 1, 1, 0, 1, 1, 2] ∧ (exN []).directed = true ∧
    (∀ e ∈ (exN []).getEdgeList, (exN []).capOf e.1 e.2 = .ok (if e = (3, 4) then 10000 else 1)) := by decide +kernel

/-- The hypothesis on antiparallel arcs in C27 is needed: with the extra arc 2→1 of capacity 0 the method stops at a
flow of value 1, while the value 2 is possible. -/
theorem C27_antiparallel_arcs_matter : ∃ (g : Graph Nat) (f f' : Nat × Nat → Int), Built g ∧
    maxFlow g stackOps [] 0 4 30 = .ok f ∧ net g.getEdgeList f 4 = 1 ∧
    IsFlow g.getEdgeList (fun e => if e = (3, 4) then 10000 else if e = (2, 1) then 0 else 1) 0 4 f' ∧
    net g.getEdgeList f' 4 = 2 := by
  have hE : (exN [.addEdge 2 1 [("capacity", .int 0)]]).getEdgeList =
    [(0, 5), (5, 2), (0, 1), (1, 6), (1, 2), (6, 3), (2, 3), (3, 4), (2, 1)] := by decide +kernel
  refine ⟨exN [.addEdge 2 1 [("capacity", .int 0)]], _,
    fun e => if e = (3, 4) then 2 else if e = (2, 1) ∨ e = (1, 2) then 0 else 1, ⟨true, _, ?_, rfl⟩, rfl, ?_, ⟨?_, ?_⟩, ?_⟩
  · intro op _; cases op <;> simp [Op.InScope]
  · decide +kernel
  · rw [hE]; unfold Within; decide +kernel
  · intro v h1 h2
    rw [hE]
    by_cases a : v = 1
    · subst a; decide
    by_cases b : v = 2
    · subst b; decide
    by_cases c : v = 3
    · subst c; decide
    by_cases d : v = 5
    · subst d; decide
    by_cases e : v = 6
    · subst e; decide
    simp [net, Ne.symm h1, Ne.symm h2, Ne.symm a, Ne.symm b, Ne.symm c, Ne.symm d, Ne.symm e]
  · rw [hE]; decide

end GiMPy
