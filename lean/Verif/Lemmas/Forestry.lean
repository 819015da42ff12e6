import Verif.Spec.Harvest
import Verif.Lemmas.Script
import Verif.Props.FreeArcs
import Mathlib.Algebra.BigOperators.Intervals
import Mathlib.Algebra.Order.BigOperators.Group.Finset
import Mathlib.Tactic.Linarith

/-! # The network of the forestry example -/

namespace GiMPy
namespace Forestry
open Finset

/-- the arcs of the network -/
def arcs (D : Data) : List (Nm × Nm) := (ops D).filterMap Op.arc?

/-- their capacities -/
def up (D : Data) : Nm × Nm → Option Int
  | (.year i, .sink) => some (D.demand i)
  | (.forest j, .prod _ i) => some (D.harvest i j)
  | _ => none

theorem mem_ops {D : Data} {op : Op Nm} : op ∈ ops D ↔
    (∃ i < D.years, op ∈ yearOps D i) ∨ ∃ j < D.forests, (op ∈ [Op.addNode (.forest j) [("label", .str ("Forest " ++ toString (j + 1)))],
      .addEdge .source (.forest j) []] ∨ (∃ i < D.years, op ∈ prodOps D j i) ∨
        ∃ i < D.years - 1, op = .addEdge (.prod j i) (.prod j (i + 1)) []) := by
  unfold ops forestOps
  simp only [List.mem_append, List.mem_flatMap, List.mem_range, List.mem_map]
  constructor
  · rintro (⟨i, h1, h2⟩ | ⟨j, h1, (h2 | ⟨i, h2, h3⟩) | ⟨i, h2, h3⟩⟩)
    · exact Or.inl ⟨i, h1, h2⟩
    · exact Or.inr ⟨j, h1, Or.inl h2⟩
    · exact Or.inr ⟨j, h1, Or.inr (Or.inl ⟨i, h2, h3⟩)⟩
    · exact Or.inr ⟨j, h1, Or.inr (Or.inr ⟨i, h2, h3.symm⟩)⟩
  · rintro (⟨i, h1, h2⟩ | ⟨j, h1, h2 | ⟨i, h2, h3⟩ | ⟨i, h2, h3⟩⟩)
    · exact Or.inl ⟨i, h1, h2⟩
    · exact Or.inr ⟨j, h1, Or.inl (Or.inl h2)⟩
    · exact Or.inr ⟨j, h1, Or.inl (Or.inr ⟨i, h2, h3⟩)⟩
    · exact Or.inr ⟨j, h1, Or.inr ⟨i, h2, h3.symm⟩⟩

/-- the calls of `add_edge` -/
theorem mem_addEdge {D : Data} {u v : Nm} {attr : List (String × Val Nm)} : Op.addEdge u v attr ∈ ops D ↔
    (∃ i < D.years, u = .year i ∧ v = .sink ∧ attr = [("capacity", .int (D.demand i))]) ∨
    (∃ j < D.forests, u = .source ∧ v = .forest j ∧ attr = []) ∨
    (∃ j < D.forests, ∃ i < D.years, u = .forest j ∧ v = .prod j i ∧ attr = [("capacity", .int (D.harvest i j))]) ∨
    (∃ j < D.forests, ∃ i < D.years, u = .prod j i ∧ v = .year i ∧ attr = []) ∨
    ∃ j < D.forests, ∃ i, i + 1 < D.years ∧ u = .prod j i ∧ v = .prod j (i + 1) ∧ attr = [] := by
  rw [mem_ops]
  simp only [yearOps, prodOps, List.mem_cons, List.not_mem_nil, or_false, reduceCtorEq, false_or, Op.addEdge.injEq]
  constructor
  · rintro (h | ⟨j, hj, h | ⟨i, hi, h | h⟩ | ⟨i, hi, h⟩⟩)
    · exact Or.inl h
    · exact Or.inr (Or.inl ⟨j, hj, h⟩)
    · exact Or.inr (Or.inr (Or.inl ⟨j, hj, i, hi, h⟩))
    · exact Or.inr (Or.inr (Or.inr (Or.inl ⟨j, hj, i, hi, h⟩)))
    · exact Or.inr (Or.inr (Or.inr (Or.inr ⟨j, hj, i, by omega, h⟩)))
  · rintro (h | ⟨j, hj, h⟩ | ⟨j, hj, i, hi, h⟩ | ⟨j, hj, i, hi, h⟩ | ⟨j, hj, i, hi, h⟩)
    · exact Or.inl h
    · exact Or.inr ⟨j, hj, Or.inl h⟩
    · exact Or.inr ⟨j, hj, Or.inr (Or.inl ⟨i, hi, Or.inl h⟩)⟩
    · exact Or.inr ⟨j, hj, Or.inr (Or.inl ⟨i, hi, Or.inr h⟩)⟩
    · exact Or.inr ⟨j, hj, Or.inr (Or.inr ⟨i, by omega, h⟩)⟩

theorem mem_arcs' {D : Data} {u v : Nm} : (u, v) ∈ arcs D ↔
    (∃ i < D.years, u = .year i ∧ v = .sink) ∨ (∃ j < D.forests, u = .source ∧ v = .forest j) ∨
    (∃ j < D.forests, ∃ i < D.years, u = .forest j ∧ v = .prod j i) ∨
    (∃ j < D.forests, ∃ i < D.years, u = .prod j i ∧ v = .year i) ∨
    ∃ j < D.forests, ∃ i, i + 1 < D.years ∧ u = .prod j i ∧ v = .prod j (i + 1) := by
  unfold arcs
  rw [mem_arcs]
  simp only [mem_addEdge]
  constructor
  · rintro ⟨attr, ⟨i, h1, h2, h3, h4⟩ | ⟨i, h1, h2, h3, h4⟩ | ⟨i, h1, j, h2, h3, h4, h5⟩ | ⟨i, h1, j, h2, h3, h4, h5⟩ |
      ⟨i, h1, j, h2, h3, h4, h5⟩⟩
    · exact Or.inl ⟨i, h1, h2, h3⟩
    · exact Or.inr (Or.inl ⟨i, h1, h2, h3⟩)
    · exact Or.inr (Or.inr (Or.inl ⟨i, h1, j, h2, h3, h4⟩))
    · exact Or.inr (Or.inr (Or.inr (Or.inl ⟨i, h1, j, h2, h3, h4⟩)))
    · exact Or.inr (Or.inr (Or.inr (Or.inr ⟨i, h1, j, h2, h3, h4⟩)))
  · rintro (⟨i, h1, h2, h3⟩ | ⟨i, h1, h2, h3⟩ | ⟨i, h1, j, h2, h3, h4⟩ | ⟨i, h1, j, h2, h3, h4⟩ | ⟨i, h1, j, h2, h3, h4⟩)
    · exact ⟨_, Or.inl ⟨i, h1, h2, h3, rfl⟩⟩
    · exact ⟨_, Or.inr (Or.inl ⟨i, h1, h2, h3, rfl⟩)⟩
    · exact ⟨_, Or.inr (Or.inr (Or.inl ⟨i, h1, j, h2, h3, h4, rfl⟩))⟩
    · exact ⟨_, Or.inr (Or.inr (Or.inr (Or.inl ⟨i, h1, j, h2, h3, h4, rfl⟩)))⟩
    · exact ⟨_, Or.inr (Or.inr (Or.inr (Or.inr ⟨i, h1, j, h2, h3, h4, rfl⟩)))⟩

theorem ops_adds (D : Data) : ∀ op ∈ ops D, op.Adds := by
  intro op h
  rw [mem_ops] at h
  simp only [yearOps, prodOps, List.mem_cons, List.not_mem_nil, or_false] at h
  rcases h with ⟨i, _, rfl | rfl⟩ | ⟨j, _, (rfl | rfl) | ⟨i, _, rfl | rfl | rfl⟩ | ⟨i, _, rfl⟩⟩ <;> trivial

theorem ops_before (D : Data) : (ops D).Pairwise Op.Before := by
  unfold ops
  rw [List.pairwise_append]
  refine ⟨?_, ?_, ?_⟩
  · rw [List.pairwise_flatMap]
    refine ⟨fun i _ => by simp [yearOps, Op.Before, Op.arc?], ?_⟩
    refine List.pairwise_lt_range.imp ?_
    intro a b hab x hx y hy
    simp only [yearOps, List.mem_cons, List.not_mem_nil, or_false] at hx hy
    rcases hx with rfl | rfl <;> rcases hy with rfl | rfl <;> simp [Op.Before, Op.names, Op.arc?] <;> omega
  · rw [List.pairwise_flatMap]
    constructor
    · intro j _
      unfold forestOps
      rw [List.pairwise_append, List.pairwise_append]
      refine ⟨⟨by simp [Op.Before, Op.arc?], ?_, ?_⟩, ?_, ?_⟩
      · rw [List.pairwise_flatMap]
        refine ⟨fun i _ => by simp [prodOps, Op.Before, Op.arc?, Op.names], ?_⟩
        refine List.pairwise_lt_range.imp ?_
        intro a b hab x hx y hy
        simp only [prodOps, List.mem_cons, List.not_mem_nil, or_false] at hx hy
        rcases hx with rfl | rfl | rfl <;> rcases hy with rfl | rfl | rfl <;> simp [Op.Before, Op.names, Op.arc?] <;> omega
      · intro x hx y hy
        simp only [prodOps, List.mem_flatMap, List.mem_cons, List.not_mem_nil, or_false] at hx hy
        obtain ⟨i, _, hy⟩ := hy
        rcases hx with rfl | rfl <;> rcases hy with rfl | rfl | rfl <;> simp [Op.Before, Op.names, Op.arc?]
      · rw [List.pairwise_map]
        refine List.pairwise_lt_range.imp ?_
        intro a b hab
        simp [Op.Before, Op.arc?]; omega
      · intro x hx y hy
        simp only [prodOps, List.mem_append, List.mem_flatMap, List.mem_map, List.mem_cons, List.not_mem_nil, or_false] at hx hy
        obtain ⟨i, _, rfl⟩ := hy
        rcases hx with (rfl | rfl) | ⟨k, _, rfl | rfl | rfl⟩ <;> simp [Op.Before, Op.arc?]
    · refine List.pairwise_lt_range.imp ?_
      intro a b hab x hx y hy
      unfold forestOps at hx hy
      simp only [prodOps, List.mem_append, List.mem_flatMap, List.mem_map, List.mem_cons, List.not_mem_nil, or_false] at hx hy
      rcases hx with ((rfl | rfl) | ⟨k, _, rfl | rfl | rfl⟩) | ⟨k, _, rfl⟩ <;>
        rcases hy with ((rfl | rfl) | ⟨l, _, rfl | rfl | rfl⟩) | ⟨l, _, rfl⟩ <;> simp [Op.Before, Op.names, Op.arc?] <;> omega
  · intro x hx y hy
    simp only [yearOps, prodOps, forestOps, List.mem_append, List.mem_flatMap, List.mem_map, List.mem_cons, List.not_mem_nil,
      or_false] at hx hy
    obtain ⟨i, _, hx⟩ := hx
    obtain ⟨j, _, hy⟩ := hy
    rcases hx with rfl | rfl <;>
      rcases hy with ((rfl | rfl) | ⟨l, _, rfl | rfl | rfl⟩) | ⟨l, _, rfl⟩ <;> simp [Op.Before, Op.names, Op.arc?]

/-- the graph that the script builds -/
theorem script_graph (D : Data) : ∃ g, script (Graph.init true) (ops D) = .ok g ∧ Built g ∧ g.directed = true ∧
    g.getEdgeList = arcs D ∧ Given g (up D) ∧ (∀ n, n ∈ g.getNodeList ↔ ∃ op ∈ ops D, n ∈ op.names) ∧
    (∀ n attr, Op.addNode n attr ∈ ops D → ∀ s, g.getNodeAttr n s = .ok ((AGraph.kw attr s).getD .none)) ∧
    ∀ n ∈ g.getNodeList, (∀ attr, Op.addNode n attr ∉ ops D) → ∀ s, g.getNodeAttr n s = .ok .none := by
  obtain ⟨g, h1, h2, h3, h4, h5, h6, h7, h8⟩ := script_ok (ops D) (ops_adds D) (ops_before D)
  refine ⟨g, h1, h2, h3, h4, ?_, h6, h7, h8⟩
  rintro ⟨u, v⟩ he
  rw [h4] at he
  obtain ⟨attr, hm⟩ := mem_arcs.1 he
  obtain ⟨a, ha1, ha2⟩ := h5 u v attr hm
  refine ⟨a, ha1, (ha2 _).trans ?_⟩
  rcases mem_addEdge.1 hm with ⟨i, _, rfl, rfl, rfl⟩ | ⟨j, _, rfl, rfl, rfl⟩ | ⟨j, _, i, _, rfl, rfl, rfl⟩ | ⟨j, _, i, _, rfl, rfl, rfl⟩ |
    ⟨j, _, i, _, rfl, rfl, rfl⟩ <;> rfl

/-! ## Net flows -/

theorem sum_into {E L : List (Nm × Nm)} (hE : E.Nodup) (hL : L.Nodup) {p : Nm × Nm → Prop} [DecidablePred p]
    (h : ∀ e, e ∈ L ↔ e ∈ E ∧ p e) (f : Nm × Nm → Int) :
    (E.map fun e => if p e then f e else 0).sum = (L.map f).sum := by
  have h1 : (E.map fun e => if p e then f e else 0).sum = ((E.filter fun e => decide (p e)).map f).sum := by
    clear h hE
    induction E with
    | nil => rfl
    | cons e E ih =>
      by_cases he : p e
      · rw [List.filter_cons_of_pos (by simpa using he)]; simp [ih, he]
      · rw [List.filter_cons_of_neg (by simpa using he)]; simp [ih, he]
  rw [h1]
  refine (List.Perm.map f ((List.perm_ext_iff_of_nodup (hE.filter _) hL).2 fun e => ?_)).sum_eq
  rw [List.mem_filter, h]
  simp

theorem sum_range_list (n : Nat) (f : Nat → Int) : ((List.range n).map f).sum = ∑ i ∈ range n, f i := by
  induction n with
  | zero => rfl
  | succ n ih => rw [List.range_succ, Finset.sum_range_succ, ← ih]; simp

theorem nodup_range_map {α : Type} {n : Nat} {f : Nat → α} (h : ∀ a b, f a = f b → a = b) : ((List.range n).map f).Nodup :=
  List.nodup_range.map fun a b => h a b

variable {D : Data} (hE : (arcs D).Nodup) (f : Nm × Nm → Int)
include hE

theorem net_sink : net (arcs D) f .sink = ∑ i ∈ range D.years, f (.year i, .sink) := by
  unfold net
  rw [sum_into hE (L := (List.range D.years).map fun i => (.year i, .sink)) (nodup_range_map (by simp)),
    sum_into hE (L := []) (by simp)]
  · simp only [List.map_map, List.map_nil, List.sum_nil, Int.sub_zero]
    exact sum_range_list _ _
  · rintro ⟨u, v⟩
    simp only [List.not_mem_nil, false_iff, not_and]
    intro he hu
    subst hu
    rw [mem_arcs'] at he
    simp at he
  · rintro ⟨u, v⟩
    rw [mem_arcs']
    simp only [List.mem_map, List.mem_range, Prod.mk.injEq]
    constructor
    · rintro ⟨i, hi, rfl, rfl⟩
      exact ⟨Or.inl ⟨i, hi, rfl, rfl⟩, rfl⟩
    · rintro ⟨h, rfl⟩
      simp at h
      obtain ⟨i, hi, rfl⟩ := h
      exact ⟨i, hi, rfl, rfl⟩

theorem net_year {i : Nat} (hi : i < D.years) :
    net (arcs D) f (.year i) = ∑ j ∈ range D.forests, f (.prod j i, .year i) - f (.year i, .sink) := by
  unfold net
  rw [sum_into hE (L := (List.range D.forests).map fun j => (.prod j i, .year i)) (nodup_range_map (by simp)),
    sum_into hE (L := [(.year i, .sink)]) (by simp)]
  · simp only [List.map_map, List.map_cons, List.map_nil, List.sum_cons, List.sum_nil, Int.add_zero]
    congr 1
  · rintro ⟨u, v⟩
    rw [mem_arcs']
    constructor
    · intro h
      simp only [List.mem_singleton, Prod.mk.injEq] at h
      obtain ⟨rfl, rfl⟩ := h
      exact ⟨Or.inl ⟨i, hi, rfl, rfl⟩, rfl⟩
    · rintro ⟨h, rfl⟩
      simp at h
      simp [h]
  · rintro ⟨u, v⟩
    rw [mem_arcs']
    simp only [List.mem_map, List.mem_range, Prod.mk.injEq]
    constructor
    · rintro ⟨j, hj, rfl, rfl⟩
      exact ⟨Or.inr (Or.inr (Or.inr (Or.inl ⟨j, hj, i, hi, rfl, rfl⟩))), rfl⟩
    · rintro ⟨h, rfl⟩
      simp at h
      obtain ⟨j, hj, h, rfl⟩ := h
      exact ⟨j, hj, rfl, rfl⟩

theorem net_forest {j : Nat} (hj : j < D.forests) :
    net (arcs D) f (.forest j) = f (.source, .forest j) - ∑ i ∈ range D.years, f (.forest j, .prod j i) := by
  unfold net
  rw [sum_into hE (L := [(.source, .forest j)]) (by simp),
    sum_into hE (L := (List.range D.years).map fun i => (.forest j, .prod j i)) (nodup_range_map (by simp))]
  · simp only [List.map_map, List.map_cons, List.map_nil, List.sum_cons, List.sum_nil, Int.add_zero]
    congr 1
  · rintro ⟨u, v⟩
    rw [mem_arcs']
    simp only [List.mem_map, List.mem_range, Prod.mk.injEq]
    constructor
    · rintro ⟨i, hi, rfl, rfl⟩
      exact ⟨Or.inr (Or.inr (Or.inl ⟨j, hj, i, hi, rfl, rfl⟩)), rfl⟩
    · rintro ⟨h, rfl⟩
      simp at h
      obtain ⟨_, i, hi, rfl⟩ := h
      exact ⟨i, hi, rfl, rfl⟩
  · rintro ⟨u, v⟩
    rw [mem_arcs']
    constructor
    · intro h
      simp only [List.mem_singleton, Prod.mk.injEq] at h
      obtain ⟨rfl, rfl⟩ := h
      exact ⟨Or.inr (Or.inl ⟨j, hj, rfl, rfl⟩), rfl⟩
    · rintro ⟨h, rfl⟩
      simp at h
      simp [h]

theorem net_prod {j i : Nat} (hj : j < D.forests) (hi : i < D.years) :
    net (arcs D) f (.prod j i) = f (.forest j, .prod j i) + (if i = 0 then 0 else f (.prod j (i - 1), .prod j i)) -
      (f (.prod j i, .year i) + if i + 1 < D.years then f (.prod j i, .prod j (i + 1)) else 0) := by
  unfold net
  rw [sum_into hE (L := (.forest j, .prod j i) :: if i = 0 then [] else [(.prod j (i - 1), .prod j i)]) (by split <;> simp),
    sum_into hE (L := (.prod j i, .year i) :: if i + 1 < D.years then [(.prod j i, .prod j (i + 1))] else []) (by split <;> simp)]
  · simp only [List.map_cons, List.sum_cons]
    congr 1
    · split <;> simp
    · split <;> simp
  · rintro ⟨u, v⟩
    rw [mem_arcs']
    constructor
    · intro h
      rcases List.mem_cons.1 h with h | h
      · cases h
        exact ⟨Or.inr (Or.inr (Or.inr (Or.inl ⟨j, hj, i, hi, rfl, rfl⟩))), rfl⟩
      · by_cases hl : i + 1 < D.years
        · rw [if_pos hl, List.mem_singleton] at h
          cases h
          exact ⟨Or.inr (Or.inr (Or.inr (Or.inr ⟨j, hj, i, hl, rfl, rfl⟩))), rfl⟩
        · rw [if_neg hl] at h; cases h
    · rintro ⟨h, rfl⟩
      simp at h
      rcases h with ⟨_, _, rfl⟩ | ⟨_, h, rfl⟩
      · simp
      · rw [if_pos h]; simp
  · rintro ⟨u, v⟩
    rw [mem_arcs']
    constructor
    · intro h
      rcases List.mem_cons.1 h with h | h
      · cases h
        exact ⟨Or.inr (Or.inr (Or.inl ⟨j, hj, i, hi, rfl, rfl⟩)), rfl⟩
      · by_cases hl : i = 0
        · rw [if_pos hl] at h; cases h
        · rw [if_neg hl, List.mem_singleton] at h
          cases h
          exact ⟨Or.inr (Or.inr (Or.inr (Or.inr ⟨j, hj, i - 1, by omega, rfl, by congr 1; omega⟩))), rfl⟩
    · rintro ⟨h, rfl⟩
      simp at h
      rcases h with ⟨_, _, rfl⟩ | ⟨_, i', _, rfl, rfl⟩
      · simp
      · simp

end Forestry
end GiMPy
