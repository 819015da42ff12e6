import Verif.Lemmas.SimplexPic
import Verif.Props.Simplex

/-! # C132: the picture that `network_simplex` leaves -/

namespace GiMPy
open MinCost MaxFlow Simplex
variable {N : Type} [DecidableEq N] {Q : Type} {g : Graph N} {O : QOps N Q} {items : Q → List N}
variable {cap cost : N × N → Int} {b : N → Int} {src snk root : N}

/-- the label of an arc: flow, capacity and cost, with slashes between them -/
def flowText (x c w : Int) : String := toString x ++ "/" ++ toString c ++ "/" ++ toString w

/-- a picture of the spanning tree solution `f` with tree `T`: every arc shows flow, capacity and cost; the arcs of the tree are
blue and the others black -/
structure PicturesSolution (E : List (N × N)) (cap cost f : N × N → Int) (T : List (N × N)) (p : SPic N) : Prop where
  label : ∀ e ∈ E, p.label e = flowText (f e) (cap e) (cost e)
  tree : ∀ e ∈ E, e ∈ T → p.color e = "blue"
  other : ∀ e ∈ E, e ∉ T → p.color e = "black"

/-- **C132.** Take a connected network in the scope of `min_cost_flow`, a root, one of the two pivot rules and any colours and
labels on the arcs before.  `network_simplex` does the same as without colours and labels.  If it returns True, the final picture
shows a minimum cost flow: the label of every arc is flow/capacity/cost, the blue arcs are a spanning tree, and all other arcs are
black and empty or full. -/
theorem C132_simplex_picture (P : FlowProblem g cap cost b src snk) (hq : LawfulBag O items) {newQ : Q} (hnew : items newQ = [])
    (hconn : ∀ u ∈ g.getNodeList, ∀ v ∈ g.getNodeList, EConn g.getEdgeList u v) (hroot : root ∈ g.getNodeList)
    {pv : Pivot} (hpv : pv ≠ .other) (pi : N → Option Int) (p0 : SPic N) {fuel : Nat} (hf : Enough g cap b fuel) (pivots : Nat) :
    (networkSimplex g O newQ src snk root pv pi fuel pivots = .error .diverge ∧
      networkSimplexP g O newQ src snk root pv pi p0 fuel pivots = .error .diverge) ∨
    (∃ f g', networkSimplex g O newQ src snk root pv pi fuel pivots = .ok (false, f, g') ∧
      networkSimplexP g O newQ src snk root pv pi p0 fuel pivots = .ok (false, f, g', none)) ∨
    ∃ f g' p T, networkSimplex g O newQ src snk root pv pi fuel pivots = .ok (true, f, g') ∧
      networkSimplexP g O newQ src snk root pv pi p0 fuel pivots = .ok (true, f, g', some p) ∧
      IsMinCost g.getNodeList g.getEdgeList cap cost b f ∧
      IsSpanTree (fun u v => (u, v) ∈ g.getEdgeList) g.getNodeList T ∧
      PicturesSolution g.getEdgeList cap cost f T p ∧
      ∀ e ∈ g.getEdgeList, p.color e = "black" → f e = 0 ∨ f e = cap e := by
  have hmin : ∀ f g', networkSimplex g O newQ src snk root pv pi fuel pivots = .ok (true, f, g') →
      IsMinCost g.getNodeList g.getEdgeList cap cost b f := by
    intro f g' h
    rcases C38_network_simplex P hq hnew hconn hroot hpv pi hf pivots with ⟨h1, _⟩ | ⟨res, f1, g1, h1, h2, _⟩
    · rw [h] at h1; cases h1
    · rw [h] at h1
      simp only [Except.ok.injEq, Prod.mk.injEq] at h1
      obtain ⟨rfl, rfl, rfl⟩ := h1
      exact h2 rfl
  rcases networkSimplex_setup P hq hnew P.core hroot (fun _ h => List.mem_of_mem_head? h) hconn pi hf with
    ⟨h1, f, g', h2, h3, h4, h5, h6⟩ | ⟨st, g', hn, h2, h3, h4, h5, h6, h7, f0, h8, h9⟩
  · exact .inr (.inl ⟨f, g', by unfold networkSimplex; rw [h6], by unfold networkSimplexP; rw [h6]⟩)
  · have hf' := hf
    unfold Enough at hf'
    have e1 : networkSimplex g O newQ src snk root pv pi fuel pivots = match mainLoop g' root pv fuel pivots st with
        | .error e => .error e
        | .ok st' => .ok (true, st'.f, g') := by
      unfold networkSimplex
      rw [h8]
      simp only []
      rw [h9]
      simp only []
      cases mainLoop g' root pv fuel pivots st <;> rfl
    have e2 : networkSimplexP g O newQ src snk root pv pi p0 fuel pivots = match mainLoop g' root pv fuel pivots st with
        | .error e => .error e
        | .ok st' => .ok (true, st'.f, g', some (picOf g' st'.t st'.f)) := by
      unfold networkSimplexP
      rw [h8]
      simp only []
      rw [setupP_eq, h9]
      simp only []
      rw [mainLoopP_eq hn (by rw [← h2] at hroot; exact hroot) hpv (by rw [h2]; omega) pivots st (by rw [h2]; exact h6)]
      cases mainLoop g' root pv fuel pivots st <;> rfl
    rcases mainLoop_ok hn hroot hpv (inner := fuel) (by rw [h2]; omega) pivots st h6 with h10 | ⟨st', h10, h11, _⟩
    · left
      rw [e1, e2, h10]
      exact ⟨rfl, rfl⟩
    · right; right
      rw [h10] at e1 e2
      have hspan := stree_span (List.ne_nil_of_mem hroot) h11.tree
      rw [h3] at hspan
      have hb := h11.bound
      refine ⟨st'.f, g', picOf g' st'.t st'.f, st'.t.getEdgeList, e1, e2, hmin _ _ e1, hspan, ⟨?_, ?_, ?_⟩, ?_⟩
      · intro e he
        have he' : (e.1, e.2) ∈ g'.getEdgeList := by rw [h3]; exact he
        simp only [picOf, arcLabel]
        rw [hn.caps _ _ he', hn.costs _ _ he']
        rfl
      · intro e _ ht
        simp only [picOf]
        rw [if_pos ((contains_pair _ _).2 ht)]
      · intro e _ ht
        simp only [picOf]
        rw [if_neg (mt (contains_pair _ _).1 ht)]
      · intro e he hc
        refine hb e (by rw [h3]; exact he) fun ht => ?_
        simp only [picOf] at hc
        rw [if_pos ((contains_pair _ _).2 ht)] at hc
        exact absurd hc (by decide)

/-! ## Example -/

/-- result, labels and colours -/
def picResult (r : Except PyErr (Bool × (Nat × Nat → Int) × Graph Nat × Option (SPic Nat))) :
    Option (Bool × Option (List (String × String))) :=
  match r with
  | .ok (res, _, g, p) => some (res, p.map fun p => g.getEdgeList.map fun e => (p.label e, p.color e))
  | .error _ => none

/-- non-vacuity: the network of C36 (arcs 02, 23, 01, 13, 21), in scope and connected, by both rules from two roots; an infeasible
network -/
example : inScope exNet (fun i => if i = 0 then 2 else if i = 3 then -2 else 0) 8 9 = true ∧
    exNet.getEdgeList = [(0, 2), (2, 3), (0, 1), (1, 3), (2, 1)] ∧
    picResult (networkSimplexP exNet queueOps [] 8 9 0 .dantzig (fun _ => none) ⟨fun _ => "", fun _ => "pink"⟩ 200 20) =
      some (true, some [("1/2/5", "blue"), ("0/2/4", "blue"), ("1/1/1", "black"), ("2/2/1", "blue"), ("1/1/0", "black")]) ∧
    picResult (networkSimplexP exNet queueOps [] 8 9 3 .firstEligible (fun _ => none) ⟨fun _ => "", fun _ => "pink"⟩ 200 20) =
      some (true, some [("1/2/5", "blue"), ("0/2/4", "blue"), ("1/1/1", "black"), ("2/2/1", "blue"), ("1/1/0", "black")]) ∧
    picResult (networkSimplexP (costNet 3 (fun i => if i = 0 then 3 else if i = 2 then -3 else 0) [(0, 1, 1, 3), (1, 2, 1, 2)])
      stackOps [] 8 9 0 .dantzig (fun _ => none) ⟨fun _ => "", fun _ => "pink"⟩ 200 20) = some (false, none) :=
  ⟨by decide +kernel, by decide +kernel, by decide +kernel, by decide +kernel, by decide +kernel⟩

end GiMPy
