import Verif.Lemmas.MstPic
import Verif.Props.Prim
import Verif.Props.Kruskal
import Verif.Props.KruskalWith
import Verif.Props.SearchPic

/-! # C128, C129: what the spanning tree methods leave in the colours and labels -/

namespace GiMPy
open Search
variable {N : Type} [DecidableEq N] {Q : Type} {g : Graph N} {O : QOps N Q} {items : Q → List N}

/-- **C128.** The colours do not influence `minimum_spanning_tree_kruskal()`.  On an undirected graph with costs it looks at
the first `k` edges of a list `L` of all edges sorted by cost, at all of them unless it has found n - 1 edges.  Of these,
the edges that it returns become green and the others black; the edges after them keep their colour. -/
theorem C128_kruskal_picture (hg : Built g) (hd : g.directed = false) {w : N → N → Int}
    (hw : ∀ u v, g.checkEdge u v = true → g.getEdgeCost u v = .ok (w u v)) {fuel : Nat}
    (hf : g.getNodeList.length ≤ fuel) (old : N × N → String) :
    ∃ (F : List (N × N)) (p : N × N → String) (L : List (N × N)) (k : Nat), Kruskal.kruskalP g old fuel = .ok (F, p) ∧ Kruskal.kruskal g fuel = .ok F ∧
      L.Perm g.getEdgeList ∧ L.Pairwise (fun a b => w a.1 a.2 ≤ w b.1 b.2) ∧
      (k = L.length ∨ F.length + 1 = g.getNodeList.length) ∧ (∀ e ∈ F, e ∈ L.take k) ∧
      (∀ e ∈ F, p e = "green") ∧ (∀ e ∈ L.take k, e ∉ F → p e = "black") ∧ (∀ e, e ∉ L.take k → p e = old e) := by
  obtain ⟨F, R, h1, _⟩ := C22_kruskal hg hd hw hf
  have hm := Kruskal.kruskalP_map (g := g) old fuel
  rw [h1] at hm
  cases hp : Kruskal.kruskalP g old fuel with
  | error e => rw [hp] at hm; cases hm
  | ok s =>
    obtain ⟨F', p⟩ := s
    rw [hp] at hm
    have hF : F' = F := by simpa [Except.map] using hm
    subst hF
    have hEadj : ∀ e ∈ g.getEdgeList, g.checkEdge e.1 e.2 = true := by
      intro e he
      have : g.edgeAttr.contains (e.1, e.2) = true := (Dict.contains_iff _ _).2 he
      simp [Graph.checkEdge, hd, this]
    have hcs := Kruskal.costs_ok (g := g) (w := w) g.getEdgeList (fun e he => hw _ _ (hEadj e he))
    unfold Kruskal.kruskalP at hp
    rw [hcs] at hp
    simp only [] at hp
    cases ha : Kruskal.addAll (DSet.init false) g.getNodeList with
    | error e => rw [ha] at hp; cases hp
    | ok d =>
      rw [ha] at hp
      simp only [] at hp
      have hperm := Kruskal.sorted_perm w g.getEdgeList
      obtain ⟨k, A, a1, a2, a3, a4, a5, a6⟩ := Kruskal.loopP_eff (g := g) _ _ _ (fun e he => hperm.mem_iff.1 he)
        (hperm.nodup_iff.2 hg.wf.edup) d [] old hp
      have hA : A = F' := by simpa using a1.symm
      subst hA
      exact ⟨A, p, _, k, rfl, h1, hperm, Kruskal.sorted_sorted w g.getEdgeList, a6, a2, a3, a4, a5⟩

/-- a triangle, a fourth node and a dear edge -/
def exTri : Graph Nat := runOps (Graph.init false) [Op.addEdge 0 1 [("cost", .int 1)], .addEdge 1 2 [("cost", .int 2)],
  .addEdge 0 2 [("cost", .int 3)], .addEdge 2 3 [("cost", .int 4)], .addEdge 3 0 [("cost", .int 9)]]

/-- a readable form of the picture -/
def kpicOf (g : Graph Nat) : Except PyErr (List (Nat × Nat) × (Nat × Nat → String)) → Option (List ((Nat × Nat) × String))
  | .ok (_, p) => some (g.getEdgeList.map fun e => (e, p e))
  | .error _ => none

/-- non-vacuity of C128: a triangle with a pendant edge, where the dearest edge is not looked at, and a graph with two parts -/
example : kpicOf exTri (Kruskal.kruskalP exTri (fun _ => "old") 6) =
      some [((0, 1), "green"), ((1, 2), "green"), ((0, 2), "black"), ((2, 3), "green"), ((3, 0), "old")] ∧
    exTri.directed = false ∧ kpicOf exU (Kruskal.kruskalP exU (fun _ => "old") 6) =
      some [((0, 1), "black"), ((0, 2), "green"), ((1, 2), "green"), ((2, 3), "green"), ((7, 8), "green")] := by decide +kernel

/-- **C129.** The edge colours and labels do not influence `minimum_spanning_tree_prim(source)`.  On an undirected graph
with costs and without self loops whose nodes are not coloured green, the nodes reached become green, the edges of the
returned tree green, the other edges between nodes reached black; each node reached other than the source has the cost of
its tree edge as label.  Everything else looks as before. -/
theorem C129_prim_picture (hg : Built g) (hd : g.directed = false) (hp : LawfulPQ O items) {w : N → N → Int}
    (hw : ∀ u v, g.checkEdge u v = true → g.getEdgeCost u v = .ok (w u v)) (hnl : ∀ v, g.checkEdge v v = false)
    {src : N} (hsrc : src ∈ g.getNodeList) {q : Q} (hq : items q = []) {color : N → Color}
    (hcol : ∀ v, color v ≠ .green) {fuel : Nat} (hf : g.getNodeList.length < fuel) (old : Prim.MPic N) :
    ∃ st p, Prim.mstPrimP g O src q color old fuel = .ok (st, p) ∧ Prim.mstPrim g O src q color fuel = .ok st ∧
      (∀ v, v ∈ st.pred.keys ↔ v ≠ src ∧ Reach g false src v) ∧
      (∀ v, Reach g false src v → st.color v = .green) ∧ (∀ v, ¬ Reach g false src v → st.color v = color v) ∧
      (∀ v u, st.pred.get? v = some u → p.label v = .int (w u v)) ∧
      (∀ v, v = src ∨ ¬ Reach g false src v → p.label v = old.label v) ∧
      (∀ e ∈ g.edgeAttr.keys, TreeEdge g false st.pred e → p.edge e = "green") ∧
      (∀ e ∈ g.edgeAttr.keys, ¬ TreeEdge g false st.pred e → Reach g false src e.1 → p.edge e = "black") ∧
      (∀ e ∈ g.edgeAttr.keys, ¬ Reach g false src e.1 → p.edge e = old.edge e) := by
  classical
  let V₀ := g.getNodeList.filter fun v => decide (Reach g false src v)
  have hV₀ : ∀ v, v ∈ V₀ ↔ Reach g false src v := by
    intro v
    simp only [V₀, List.mem_filter, decide_eq_true_eq, and_iff_right_iff_imp]
    exact fun h => reach_node hg.wf h hsrc
  obtain ⟨st, h1, h4, h2⟩ := Prim.run_ok hg hd hp hw hnl hsrc hq hcol hf hV₀
  have hgreen : ∀ v, Prim.Dd src st v → st.color v = .green := fun v hv => (h2.disc v hv).resolve_right (by rw [h4]; simp)
  have hDr : ∀ v, Prim.Dd src st v ↔ Reach g false src v := by
    intro v
    refine ⟨h2.reach v, fun h => ?_⟩
    induction h with
    | refl => exact Or.inl rfl
    | tail _ hs ih => exact (h2.closed _ _ (hgreen _ ih) hs trivial).1
  have hgr : ∀ v, st.color v = .green ↔ Reach g false src v :=
    fun v => ⟨fun h => (hDr v).1 (h2.sD v h), fun h => hgreen v ((hDr v).2 h)⟩
  have hm := Prim.mstPrimP_map (g := g) (O := O) (src := src) q color old fuel
  rw [h1] at hm
  cases hr : Prim.mstPrimP g O src q color old fuel with
  | error e => rw [hr] at hm; cases hm
  | ok s =>
    obtain ⟨st', p⟩ := s
    rw [hr] at hm
    have hst : st' = st := by simpa [Except.map] using hm
    subst hst
    unfold Prim.mstPrimP at hr
    rw [if_pos (show g.hasNode src = true by unfold Graph.hasNode; rw [Dict.contains_iff, hg.wf.nodesEq]; exact hsrc)] at hr
    have hnl' : NoLoop g false := by intro v h; simp only [Step, Bool.false_eq_true, if_false, hnl v] at h
    have hI := Prim.loopP_inv (w := w) (color := color) (old := old) hg.wf hd (fun u v h => hw u v (by simpa [Step] using h))
      hnl' fuel _ old ⟨(by intro v u h; cases h), fun u v h => h.2, (by intro v u _ _ h; cases h),
        (by intro a b h; exact absurd h.1 (hcol a)), fun _ _ => rfl, (by intro v u h; cases h), fun _ _ => rfl, fun _ _ _ => rfl⟩ hr
    have hnone : ∀ v, v ∉ st'.pred.keys → st'.pred.get? v = none := by
      intro v hv
      cases h : st'.pred.get? v with
      | none => rfl
      | some u => exact absurd (Dict.mem_keys_of_get? h) hv
    have hnr : ∀ v, ¬ Reach g false src v → st'.pred.get? v = none :=
      fun v hv => hnone v fun h => hv ((hDr v).1 (.inr h))
    have hstep : ∀ e ∈ g.edgeAttr.keys, Step g false e.1 e.2 := by
      intro e he
      have : g.edgeAttr.contains (e.1, e.2) = true := (Dict.contains_iff _ _).2 he
      simp [Step, Graph.checkEdge, hd, this]
    have hke : ∀ v u e, e ∈ g.edgeAttr.keys → st'.pred.get? v = some u →
        (g.edgeKey u v = e ↔ Joins g false u v e) := by
      intro v u e he hu
      have := ekey_joins (rev := false) hg.wf (h2.link v u hu).1 he
      simpa [ekey] using this
    refine ⟨st', p, rfl, h1, ?_, fun v hv => (hgr v).2 hv, ?_, hI.cost, ?_, ?_, ?_, ?_⟩
    · intro v
      constructor
      · intro h; exact ⟨by rintro rfl; exact h2.nosrc h, (hDr v).1 (.inr h)⟩
      · rintro ⟨h, h'⟩; exact ((hDr v).2 h').resolve_left h
    · intro v hv
      exact hI.unseen v (hnr v hv) (mt (hgr v).1 hv)
    · rintro v (rfl | hv)
      · exact hI.label v (hnone v h2.nosrc)
      · exact hI.label v (hnr v hv)
    · rintro e he ⟨v, u, hu, hj⟩
      rw [← (hke v u e he hu).2 hj]
      have hk := Dict.mem_keys_of_get? hu
      exact hI.tree v u (by rintro rfl; exact h2.nosrc hk) (hgreen v (.inr hk)) hu
    · intro e he hn hre
      have hes : g.edgeKey e.1 e.2 = e := edgeKey_self he
      rcases hI.black e.1 e.2 ⟨(hgr _).2 hre, hstep e he⟩ with ⟨v, u, _, hu, hk⟩ | h
      · exact absurd ⟨v, u, hu, (hke v u e he hu).1 (hk.trans hes)⟩ hn
      · rwa [hes] at h
    · intro e he hre
      refine hI.other e fun a b hx hk => hre ?_
      have hab := hx.2
      have ha := (hgr a).1 hx.1
      rcases Prim.edgeKey_or (g := g) a b with h | h <;> rw [h] at hk <;> rw [hk]
      · exact ha
      · exact ha.tail hab

/-- a readable form of the picture -/
def ppicOf (g : Graph Nat) : Except PyErr (Prim.PState Nat (PQ Nat) × Prim.MPic Nat) →
    Option (List (Nat × Val Nat) × List ((Nat × Nat) × String))
  | .ok (_, p) => some (g.getNodeList.map fun v => (v, p.label v), g.getEdgeList.map fun e => (e, p.edge e))
  | .error _ => none

/-- non-vacuity of C129 -/
example : ppicOf exU (Prim.mstPrimP exU pqOps' 0 ⟨.empty, by decide⟩ (fun _ => .black) ⟨fun _ => "old", fun _ => .str "x"⟩ 7) =
    some ([(0, .str "x"), (1, .int 3), (2, .int (-2)), (3, .int 0), (7, .str "x"), (8, .str "x")],
      [((0, 1), "black"), ((0, 2), "green"), ((1, 2), "green"), ((2, 3), "green"), ((7, 8), "old")]) := by decide +kernel

end GiMPy
