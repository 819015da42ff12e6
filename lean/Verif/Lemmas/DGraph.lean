import Verif.Lemmas.Refine

/-! # Adjacency lists of directed graphs after edge edits -/

namespace GiMPy
namespace Graph
variable {N : Type} [DecidableEq N]
set_option linter.unusedSectionVars false

theorem get?_ensureS (g : Graph N) (n x : N) : (g.ensureS n).neighbors.get? x =
    if x = n ∧ n ∉ g.neighbors.keys then some [] else g.neighbors.get? x := by
  unfold ensureS
  by_cases h : n ∈ g.neighbors.keys
  · simp [h]
  · rw [if_neg h]
    simp only [addNodeS, Dict.get?_set, eq_comm (a := n)]
    by_cases hx : x = n <;> simp [hx, h]

theorem addEdgeS_nbrs {g : Graph N} (hd : g.directed = true) (u v : N) (attr) (x : N) :
    (g.addEdgeS u v attr).neighbors.get? x =
      if x = u then some ((g.neighbors.get? u).getD [] ++ [v])
      else if x = v ∧ v ∉ g.neighbors.keys then some [] else g.neighbors.get? x := by
  have key : (g.addEdgeS u v attr).neighbors.get? x =
      if u = x then some ((((g.ensureS u).ensureS v).neighbors.get? u).getD [] ++ [v])
      else ((g.ensureS u).ensureS v).neighbors.get? x := by
    simp only [addEdgeS, hd, if_true, appS, appInS, Dict.get?_set]
  rw [key]
  simp only [get?_ensureS, mem_ensureS_keys]
  by_cases hx : x = u
  · subst hx
    by_cases hk : x ∈ g.neighbors.keys
    · by_cases hxv : x = v
      · subst hxv; simp [hk]
      · simp [hk, hxv]
    · have := (Dict.get?_eq_none_iff _ _).2 hk
      simp [hk, this]
  · have hxu : u ≠ x := fun h => hx h.symm
    simp only [hx, hxu, if_false, false_and]
    by_cases hxv : x = v
    · subst hxv; simp [hx]
    · simp [hxv]

theorem addEdgeS_keys (g : Graph N) (u v : N) (attr) (hu : u ∈ g.neighbors.keys) (hv : v ∈ g.neighbors.keys) :
    (g.addEdgeS u v attr).neighbors.keys = g.neighbors.keys := by
  have e1 : g.ensureS u = g := by simp [ensureS, hu]
  have e2 : g.ensureS v = g := by simp [ensureS, hv]
  cases hd : g.directed
  · simp only [addEdgeS, hd, e1, e2, Bool.false_eq_true, if_false]
    rw [keys_appS, keys_appS]
    · exact hu
    · rw [keys_appS]; exact hv; exact hu
  · simp only [addEdgeS, hd, e1, e2, if_true, appInS]
    rw [keys_appS]; simp only; exact hu

theorem addEdgeS_keys_new (g : Graph N) (hd : g.directed = true) (u v : N) (attr) (hu : u ∉ g.neighbors.keys)
    (hv : v ∈ g.neighbors.keys) : (g.addEdgeS u v attr).neighbors.keys = g.neighbors.keys ++ [u] := by
  have e1 : ((g.ensureS u).ensureS v).neighbors.keys = g.neighbors.keys ++ [u] := by
    rw [ensureS_keys, if_pos (by rw [mem_ensureS_keys]; exact Or.inr hv), ensureS_keys, if_neg hu]
  simp only [addEdgeS, hd, if_true, appInS]
  rw [keys_appS]
  · exact e1
  · show u ∈ ((g.ensureS u).ensureS v).neighbors.keys
    rw [e1]; simp

@[simp] theorem addEdgeS_directed (g : Graph N) (u v : N) (attr) : (g.addEdgeS u v attr).directed = g.directed := by
  unfold addEdgeS
  cases hd : g.directed <;> simp [appS, appInS, hd]

theorem mem_addEdgeS_keys (g : Graph N) (hd : g.directed = true) (u v : N) (attr) (x : N) :
    x ∈ (g.addEdgeS u v attr).neighbors.keys ↔ x = u ∨ x = v ∨ x ∈ g.neighbors.keys := by
  rw [Dict.mem_keys, addEdgeS_nbrs hd]
  by_cases h1 : x = u
  · simp [h1]
  · by_cases h2 : x = v
    · subst h2
      by_cases h3 : x ∈ g.neighbors.keys
      · simp [h1, h3, (Dict.mem_keys _ _).1 h3]
      · simp [h1, h3]
    · simp [h1, h2, Dict.mem_keys]

theorem delEdgeS_nbrs {g : Graph N} (hd : g.directed = true) (u v : N) (k) (x : N) :
    (g.delEdgeS u v k).neighbors.get? x =
      if x = u then some (((g.neighbors.get? u).getD []).erase v) else g.neighbors.get? x := by
  simp only [delEdgeS, hd, if_true, remS, remInS, Dict.get?_set, eq_comm (a := u)]

theorem delEdgeS_keys {g : Graph N} (hd : g.directed = true) (u v : N) (k) (hu : u ∈ g.neighbors.keys) :
    (g.delEdgeS u v k).neighbors.keys = g.neighbors.keys := by
  simp only [delEdgeS, hd, if_true, remS, remInS]
  rw [Dict.keys_set_of_mem _ hu]

@[simp] theorem delEdgeS_directed (g : Graph N) (u v : N) (k) : (g.delEdgeS u v k).directed = g.directed := by
  unfold delEdgeS
  cases hd : g.directed <;> simp [remS, remInS]

/-- on a directed graph the out-neighbours are exactly the heads of stored edges -/
theorem mem_nbrs_iff {g : Graph N} (h : g.Wf) (hd : g.directed = true) (u v : N) :
    v ∈ (g.neighbors.get? u).getD [] ↔ (u, v) ∈ g.edgeAttr.keys := by
  have := h.out u v
  rw [hd] at this
  simp only [if_true, Nat.add_zero] at this
  rw [← List.count_pos_iff]
  change 0 < g.outc u v ↔ _
  rw [this]
  unfold ind
  split <;> simp_all

theorem dup_iff_directed {g : Graph N} (hd : g.directed = true) (u v : N) : g.dup u v ↔ (u, v) ∈ g.edgeAttr.keys := by
  simp [dup, hd]

end Graph
end GiMPy
