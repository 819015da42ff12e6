import Verif.Lemmas.MaxFlowPic
import Verif.Props.Agree

/-! # C126: the colours and labels that `max_flow` leaves -/

namespace GiMPy
open MaxFlow Search
variable {N : Type} [DecidableEq N] {Q : Type} {g : Graph N} {O : QOps N Q} {items : Q → List N}
variable {cap : N × N → Int} {src sink : N}

/-- **C126.** `max_flow` on a digraph with non-negative integer capacities (10000 where none is given) and no two
antiparallel arcs: in the picture it leaves, the source and the blue nodes are a minimum cut (its capacity is the value of
the flow) and all other nodes are black; the arcs that leave that set are red and full; the arcs that enter it have no flow
and are black, those of capacity 0 being red; every other arc has the colour of its flow, unless it is blue and within
the set.  The label of each arc is "capacity/flow". -/
theorem C126_max_flow_picture (hg : Built g) (hd : g.directed = true) (hb : LawfulBag O items) {newQ : Q}
    (hq : items newQ = []) (hc : ∀ u v, (u, v) ∈ g.getEdgeList → g.capOf u v = .ok (cap (u, v)))
    (hpos : ∀ e ∈ g.getEdgeList, 0 ≤ cap e) (hs : src ∈ g.getNodeList) (ht : sink ∈ g.getNodeList) (hst : src ≠ sink)
    (hanti : ∀ u v, u ≠ v → (u, v) ∈ g.getEdgeList → (v, u) ∉ g.getEdgeList) {fuel : Nat}
    (hf : flowFuel g cap ≤ fuel) (old : FPic N) :
    ∃ f p S, maxFlowP g O newQ src sink old fuel = .ok (f, p) ∧ maxFlow g O newQ src sink fuel = .ok f ∧
      (∀ v, S v = true ↔ v = src ∨ p.node v = .blue) ∧ IsMinCut g.getEdgeList cap src sink S ∧
      net g.getEdgeList f sink = cutCap g.getEdgeList cap S ∧
      p.node src = .black ∧ (∀ v, S v = false → p.node v = .black) ∧
      (∀ u v, (u, v) ∈ g.getEdgeList → S u = true → S v = false → f (u, v) = cap (u, v) ∧ p.edge (u, v) = .red) ∧
      (∀ u v, (u, v) ∈ g.getEdgeList → S u = false → S v = true →
        f (u, v) = 0 ∧ p.edge (u, v) = if cap (u, v) = 0 then .red else .black) ∧
      (∀ u v, (u, v) ∈ g.getEdgeList → TellsFlow (cap (u, v)) (f (u, v)) (p.edge (u, v)) ∨
        (p.edge (u, v) = .blue ∧ S u = true ∧ S v = true)) ∧
      Labelled g f p.label := by
  obtain ⟨f0, h1, h2⟩ := C26_max_flow_feasible hg hd hb hq hc hpos hs hst hf
  have hm := maxFlowP_map (g := g) (O := O) (src := src) (sink := sink) newQ old fuel
  rw [h1] at hm
  cases hp : maxFlowP g O newQ src sink old fuel with
  | error e => rw [hp] at hm; cases hm
  | ok s =>
    obtain ⟨f, p⟩ := s
    rw [hp] at hm
    cases hm
    obtain ⟨hl, p0, st, hfind, hsk⟩ := loopP_last newQ fuel fuel (fun _ => 0) ⟨old.node, old.edge, firstLabel g⟩
      (first_labelled g) hp
    have hitem : ∀ v, v ∈ items (O.push newQ src) ↔ v = src := by intro v; rw [hb.mem_push, hq]; simp
    have hI := findP_inv (src := src) hg.wf hd hb hc h2.within hanti fuel (fun _ => False) _ _
      (by intro v hv; right; rw [hitem]; simpa using hv)
      ⟨by intro v; simp only [Dict.mem_keys_set]; simp [Dict.empty, Dict.keys], by intro v hv; rw [hitem] at hv; simp [hv],
        by rintro u v ⟨h, _⟩; exact h.elim, by simp, by intro v hv; rw [List.mem_singleton.1 hv]; exact hs,
        by intro v; simp only [reset, List.mem_singleton]; rw [if_neg (fun h => h.2 h.1)],
        by
          intro u v huv
          left
          simp only [reset, atCap, hc u v huv, beq_iff_eq]
          unfold TellsFlow
          by_cases h3 : f (u, v) = 0
          · rw [if_pos h3]; exact .inl ⟨rfl, h3⟩
          · rw [if_neg h3]
            by_cases h4 : f (u, v) = cap (u, v)
            · rw [if_pos h4]; exact .inr (.inl ⟨rfl, h4⟩)
            · rw [if_neg h4]; exact .inr (.inr ⟨rfl, h3, h4⟩),
        by rintro u v _ ⟨h, _⟩; exact h.elim, by rintro u v _ ⟨h, _⟩; exact h.elim⟩ hfind hsk
    have hS : ∀ v, decide (v ∈ st.explored) = true ↔ v ∈ st.explored := fun v => by simp
    have hS' : ∀ v, decide (v ∈ st.explored) = false ↔ v ∉ st.explored := fun v => by simp
    have hskx : sink ∉ st.explored := fun h => hsk ((hI.keys sink).2 h)
    have hEV : ∀ e ∈ g.getEdgeList, e.1 ∈ g.getNodeList ∧ e.2 ∈ g.getNodeList := fun e he => hg.wf.endp e.1 e.2 he
    have hout : ∀ u v, (u, v) ∈ g.getEdgeList → decide (u ∈ st.explored) = true → decide (v ∈ st.explored) = false →
        f (u, v) = cap (u, v) ∧ p.edge (u, v) = .red := fun u v huv h3 h4 =>
      hI.out u v huv ⟨(hS u).1 h3, .inl huv⟩ ((hS' v).1 h4)
    have hinn : ∀ u v, (u, v) ∈ g.getEdgeList → decide (u ∈ st.explored) = false → decide (v ∈ st.explored) = true →
        f (u, v) = 0 ∧ p.edge (u, v) = if cap (u, v) = 0 then .red else .black := fun u v huv h3 h4 =>
      hI.inn u v huv ⟨(hS v).1 h4, .inr huv⟩ ((hS' u).1 h3)
    have hval : net g.getEdgeList f sink = cutCap g.getEdgeList cap fun v => decide (v ∈ st.explored) := by
      refine flow_eq_cut hg.wf.nodup hEV ht h2 ((hS _).2 hI.source) ((hS' _).2 hskx) ?_ ?_
      · rintro ⟨u, v⟩ he hu hv; exact (hout u v he hu hv).1
      · rintro ⟨u, v⟩ he hu hv; exact (hinn u v he hu hv).1
    refine ⟨f, p, fun v => decide (v ∈ st.explored), rfl, h1, ?_, ⟨(hS _).2 hI.source, (hS' _).2 hskx, ?_⟩, hval, ?_, ?_,
      hout, hinn, ?_, hl⟩
    · intro v
      rw [hS, hI.node]
      by_cases h3 : v = src
      · subst h3; simp [hI.source]
      · by_cases h4 : v ∈ st.explored <;> simp [h3, h4]
    · intro S' hs' ht'
      rw [← hval]
      exact flow_le_cut hg.wf.nodup hEV ht h2 hs' ht'
    · rw [hI.node, if_neg (fun h => h.2 rfl)]
    · intro v hv
      rw [hI.node, if_neg (fun h => (hS' v).1 hv h.1)]
    · intro u v huv
      refine (hI.arc u v huv).imp id ?_
      rintro ⟨h3, h4, h5⟩
      exact ⟨h3, (hS u).2 h4, (hS v).2 h5⟩

/-- a readable form of the picture -/
def picOf (g : Graph Nat) (r : Except PyErr ((Nat × Nat → Int) × FPic Nat)) :
    Option (List FColor × List FColor × List String) :=
  match r with
  | .ok (_, p) => some (g.getNodeList.map p.node, g.getEdgeList.map p.edge, g.getEdgeList.map p.label)
  | .error _ => none

/-- a network with a bottleneck in the middle: 0→1→2→3, where 0→1 has capacity 5, 1→2 has 2 and 2→3 has none given, and an
arc 2→4 of capacity 1, 4→1 of capacity 7 -/
def exCutPic : Graph Nat := runOps (Graph.init true)
  [.addEdge 0 1 [("capacity", .int 5)], .addEdge 1 2 [("capacity", .int 2)], .addEdge 2 3 [], .addEdge 2 4 [("capacity", .int 1)],
    .addEdge 4 1 [("capacity", .int 7)]]

/-- non-vacuity of C126 -/
example : picOf exCutPic (maxFlowP exCutPic queueOps [] 0 3 ⟨fun _ => .green, fun _ => .yellow, fun _ => ""⟩ 10030) =
      some ([.black, .blue, .black, .black, .black], [.blue, .red, .green, .black, .black],
        ["5/2", "2/2", "INF/2", "1/0", "7/0"]) ∧
    exCutPic.directed = true ∧
    (∀ e ∈ exCutPic.getEdgeList, e.1 ≠ e.2 ∧ (e.2, e.1) ∉ exCutPic.getEdgeList) := by decide +kernel

end GiMPy
