import Verif.Lemmas.SimplexRedraw
import Verif.Props.Simplex

/-! # C73: `simplex_redraw` -/

namespace GiMPy
open Simplex
variable {N : Type} [DecidableEq N] {t : Graph N}

/-- **C73.** `simplex_redraw` on a digraph whose arcs all have the attributes stops, whatever the shape of the graph (the
list of nodes to visit may hold a node several times).  If every arc is connected with the root, it returns a digraph with
exactly the nodes connected with the root, every arc, and the same attributes of nodes and arcs; otherwise it raises
KeyError. -/
theorem C73_redraw (hg : Built t) (hd : t.directed = true) (ix : Idx N) {s : N × N → Option (Int × Int × Int)}
    (hs : ∀ e ∈ t.getEdgeList, ∃ x, s e = some x) {root : N} (hroot : root ∈ t.getNodeList) {fuel : Nat}
    (hf : 2 * t.getEdgeList.length + 2 ≤ fuel) :
    ((∀ e ∈ t.getEdgeList, EConn t.getEdgeList root e.1) → ∃ d dx r, redraw t ix s root fuel = .ok (d, dx, r) ∧
      Built d ∧ d.directed = true ∧ d.getNodeList.Nodup ∧
      (∀ v, v ∈ d.getNodeList ↔ v ∈ t.getNodeList ∧ EConn t.getEdgeList root v) ∧ d.getEdgeList.Perm t.getEdgeList ∧
      (∀ v ∈ d.getNodeList, dx.pred v = ix.pred v ∧ dx.depth v = ix.depth v ∧ dx.thread v = ix.thread v) ∧
      ∀ e ∈ t.getEdgeList, r e = s e) ∧
    ((∃ e ∈ t.getEdgeList, ¬ EConn t.getEdgeList root e.1) → redraw t ix s root fuel = .error .keyError) := by
  constructor
  · intro hc
    obtain ⟨d, dx, r, h1, h2, h3, h4, h5⟩ := redraw_ok hg.wf hd ix hs hroot hc hf
    refine ⟨d, dx, r, h1, h2.built, h2.dir, h2.built.wf.nodup, h3, ?_, h2.idx, fun e he => by rw [h5, if_pos he]⟩
    exact (List.perm_ext_iff_of_nodup h2.built.wf.edup hg.wf.edup).2 h4
  · rintro ⟨e, he, hne⟩
    obtain ⟨h1, d0, h2, st, h3, h4, h5, h6⟩ := drawAll_ok hg.wf hd ix hroot hf
    have key : ∀ (l : List (N × N)) (r : N × N → Option (Int × Int × Int)), e ∈ l → drawAttrs st.new s l r = .error .keyError := by
      intro l
      induction l with
      | nil => intro r h; cases h
      | cons a l ih =>
        intro r h
        unfold drawAttrs
        cases ha : s a with
        | none => rfl
        | some x =>
          by_cases hc : st.new.edgeAttr.contains a = true
          · simp only [hc, if_true]
            refine ih _ ((List.mem_cons.1 h).resolve_left ?_)
            rintro rfl
            exact hne ((h6 e).1 ((MaxFlow.contains_edge st.new e.1 e.2).1 hc)).2
          · simp only [hc]; rfl
    unfold redraw
    rw [if_neg (by simp [h1]), h2]
    simp only []
    rw [h3]
    simp only []
    rw [key _ _ he]

/-- an arc without attributes: KeyError -/
theorem C73_redraw_no_attrs (ix : Idx N) {s : N × N → Option (Int × Int × Int)} {e : N × N} (he : e ∈ t.getEdgeList)
    (hs : s e = none) (root : N) (fuel : Nat) : ∀ x, redraw t ix s root fuel ≠ .ok x := by
  have key : ∀ (d : Graph N) (l : List (N × N)) (r : N × N → Option (Int × Int × Int)), e ∈ l → ∀ x, drawAttrs d s l r ≠ .ok x := by
    intro d l
    induction l with
    | nil => intro r h; cases h
    | cons a l ih =>
      intro r h x hx
      unfold drawAttrs at hx
      rcases List.mem_cons.1 h with rfl | h
      · rw [hs] at hx; cases hx
      · cases ha : s a with
        | none => rw [ha] at hx; cases hx
        | some y =>
          rw [ha] at hx
          by_cases hc : d.edgeAttr.contains a = true
          · simp only [hc, if_true] at hx
            exact ih _ h x hx
          · simp only [hc] at hx; cases hx
  intro x hx
  unfold redraw at hx
  split at hx
  · cases hx
  · split at hx
    · cases hx
    · split at hx
      · cases hx
      · split at hx
        · cases hx
        · next h => exact key _ _ _ he _ h

/-- non-vacuity of C73: a digraph with a cycle and an antiparallel pair; the order of nodes and arcs changes -/
def exRD : Graph Nat := runOps (Graph.init true)
  [.addEdge 1 2 [], .addEdge 2 3 [], .addEdge 3 1 [], .addEdge 3 2 [], .addNode 5 []]

example : Built exRD ∧ (∀ e ∈ exRD.getEdgeList, EConn exRD.getEdgeList 3 e.1) ∧
    (match redraw exRD ⟨fun _ => none, fun _ => some 7, fun _ => none⟩ (fun e => some (e.1, e.2, 9)) 3 20 with
      | .ok (d, dx, r) => decide (d.getNodeList = [3, 1, 2]) && decide (d.getEdgeList = [(3, 1), (3, 2), (2, 3), (1, 2)]) &&
          decide (dx.depth 1 = some 7) && decide (r (2, 3) = some (2, 3, 9))
      | .error _ => false) = true := by
  refine ⟨⟨true, _, by intro op _; cases op <;> simp [Op.InScope], rfl⟩, ?_, by decide⟩
  have h31 : EAdj exRD.getEdgeList 3 1 := by unfold EAdj; decide
  have h32 : EAdj exRD.getEdgeList 3 2 := by unfold EAdj; decide
  intro e he
  have : e ∈ [(1, 2), (2, 3), (3, 1), (3, 2)] := he
  simp only [List.mem_cons, List.not_mem_nil, or_false] at this
  rcases this with rfl | rfl | rfl | rfl
  · exact .single h31
  · exact .single h32
  · exact .refl
  · exact .refl

end GiMPy
