import Verif.Lemmas.Kruskal
import Verif.Props.Search

/-! # C22: Kruskal's algorithm -/

namespace GiMPy
open Kruskal Search
variable {N : Type} [DecidableEq N] {g : Graph N}

/-- **C22.** On an undirected graph whose edges have costs, `minimum_spanning_tree_kruskal()` returns a minimum-cost
spanning forest made of stored edges; when the graph is connected and not empty it is a minimum spanning tree. -/
theorem C22_kruskal (hg : Built g) (hd : g.directed = false) {w : N → N → Int}
    (hw : ∀ u v, g.checkEdge u v = true → g.getEdgeCost u v = .ok (w u v)) {fuel : Nat}
    (hf : g.getNodeList.length ≤ fuel) :
    ∃ F R, kruskal g fuel = .ok F ∧ (∀ e ∈ F, e ∈ g.getEdgeList) ∧
      IsReps (fun u v => g.checkEdge u v = true) g.getNodeList R ∧
      IsMinSpanForest (fun u v => g.checkEdge u v = true) w g.getNodeList R.length F ∧
      (g.getNodeList ≠ [] → (∀ u ∈ g.getNodeList, ∀ v ∈ g.getNodeList, Reach g false u v) →
        IsMinSpanTree (fun u v => g.checkEdge u v = true) w g.getNodeList F) := by
  set adj : N → N → Prop := fun u v => g.checkEdge u v = true with hadjd
  set V := g.getNodeList with hV
  have hsymm : ∀ a b, adj a b → adj b a := fun a b h => step_symm (rev := false) hd h
  have hwsym : ∀ a b, adj a b → w a b = w b a := fun a b h => cost_symm hg.wf hd hw h
  have hadj : ∀ a b, adj a b → (a, b) ∈ g.getEdgeList ∨ (b, a) ∈ g.getEdgeList := by
    intro a b h
    simpa [hadjd, Graph.checkEdge, hd, Dict.contains_iff, Graph.getEdgeList] using h
  have hEadj : ∀ e ∈ g.getEdgeList, adj e.1 e.2 := by
    intro e he
    simp only [hadjd, Graph.checkEdge, hd, Bool.false_eq_true, if_false, Bool.or_eq_true, Dict.contains_iff]
    exact Or.inl he
  have hEV : ∀ e ∈ g.getEdgeList, adj e.1 e.2 ∧ e.1 ∈ V ∧ e.2 ∈ V :=
    fun e he => ⟨hEadj e he, hg.wf.endp e.1 e.2 he⟩
  set E := sorted (g.getEdgeList.map fun e => (e, w e.1 e.2)) with hEdef
  have hperm : E.Perm g.getEdgeList := sorted_perm w _
  obtain ⟨d, d1, d2, d3⟩ := addAll_ok V (DSet.finv_init false) hg.wf.nodup (by simp [DSet.init, Graph.init])
  have hk : d.g.neighbors.keys = V := by rw [d3]; simp [DSet.init, Graph.init]
  have hEq : (Eq : N → N → Prop) = EConn [] := by
    funext u v
    refine propext ⟨fun h => h ▸ .refl, fun h => ?_⟩
    induction h with
    | refl => rfl
    | tail _ h _ => rcases h with h | h <;> cases h
  have h0 : KInv adj w V [] [] d := by
    refine ⟨hEq ▸ d2, hk, by simp, by simp, ⟨V, ⟨hg.wf.nodup, fun _ h => h, fun v hv => ⟨v, hv, .refl⟩, ?_⟩, by simp⟩, ?_⟩
    · intro r _ s _ h
      change EConn [] r s at h
      rw [← hEq] at h; exact h
    · intro c T hT
      exact ⟨T, hT, Int.le_refl _, List.nil_subperm⟩
  obtain ⟨F, f1, f2⟩ := loop_ok hsymm hwsym (E := E) (fun e he => hEV e (hperm.mem_iff.1 he))
    (fun a b h => (hadj a b h).imp hperm.mem_iff.2 hperm.mem_iff.2) hf E [] [] rfl (sorted_sorted w _) h0
  have hiff : ∀ u v, Relation.ReflTransGen adj u v ↔ EConn F u v := by
    intro u v
    constructor
    · intro h
      induction h with
      | refl => exact .refl
      | tail _ hs ih =>
        refine ih.trans ?_
        rcases hadj _ _ hs with h1 | h1
        · exact f2.done _ (hperm.mem_iff.2 h1)
        · exact (f2.done _ (hperm.mem_iff.2 h1)).symm
    · intro h
      refine Relation.ReflTransGen.mono ?_ _ _ h
      rintro a b (h1 | h1)
      · exact hEadj _ (hperm.mem_iff.1 (f2.mem _ h1))
      · exact hsymm _ _ (hEadj _ (hperm.mem_iff.1 (f2.mem _ h1)))
  obtain ⟨R, hR, hlen⟩ := f2.reps
  have hreps : IsReps adj V R := ⟨hR.nodup, hR.sub, fun v hv => by
      obtain ⟨r, h1, h2⟩ := hR.cover v hv
      exact ⟨r, h1, (hiff v r).2 h2⟩, fun r hr s hs h => hR.distinct r hr s hs ((hiff r s).1 h)⟩
  have hforest : IsSpanForest adj V R.length F :=
    ⟨fun e he => hEV e (hperm.mem_iff.1 (f2.mem e he)), fun u _ v _ h => (hiff u v).1 h, hlen⟩
  have hmin : IsMinSpanForest adj w V R.length F := by
    refine ⟨hforest, fun T hT => ?_⟩
    obtain ⟨T', t1, t2, t3⟩ := f2.greedy _ T hT
    have hp : F.Perm T' := t3.perm_of_length_le (by have := t1.size; omega)
    rw [treeCost_perm hp]; exact t2
  refine ⟨F, R, ?_, fun e he => hperm.mem_iff.1 (f2.mem e he), hreps, hmin, ?_⟩
  · unfold kruskal
    rw [costs_ok (w := w) _ (fun e he => hw _ _ (hEadj e he))]
    simp only []
    rw [d1]
    exact f1
  · intro hne hconn
    have hR1 : R.length = 1 := by
      cases hRl : R with
      | nil =>
        obtain ⟨v, hv⟩ := List.exists_mem_of_ne_nil V hne
        obtain ⟨r, hr, _⟩ := hreps.cover v hv
        rw [hRl] at hr; cases hr
      | cons r R' =>
        cases hR' : R' with
        | nil => rfl
        | cons s R'' =>
          exfalso
          have hr : r ∈ R := by simp [hRl]
          have hs : s ∈ R := by simp [hRl, hR']
          have := hreps.distinct r hr s hs (hconn r (hreps.sub r hr) s (hreps.sub s hs))
          have hnd := hreps.nodup
          rw [hRl, hR'] at hnd
          exact (List.nodup_cons.1 hnd).1 (by simp [this])
    refine ⟨⟨hforest.edges, fun u hu v hv => hforest.conn u hu v hv (hconn u hu v hv), by have := hforest.size; omega⟩,
      fun T hT => hmin.least T ⟨hT.edges, fun u hu v hv _ => hT.conn u hu v hv, by have := hT.size; omega⟩⟩

/-- non-vacuity of C22: a graph with two components and a cycle -/
example : (kruskal exU 6).toOption = some [(0, 2), (2, 3), (7, 8), (1, 2)] ∧ exU.directed = false ∧
    exU.getNodeList.length ≤ 6 := by decide +kernel

end GiMPy
