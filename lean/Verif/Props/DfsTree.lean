import Verif.Props.Search
import Verif.Lemmas.SearchDfs

/-! # C88: the search over a stack is depth first -/

namespace GiMPy
open Search
variable {N : Type} [DecidableEq N] {Q : Type}
variable {g : Graph N} {O : QOps N Q} {items : Q → List N}

/-- `pred` is a depth-first tree of the relation `R` with root `src` and preorder `l`: every other node of `l` hangs by
a step of `R`, ancestors come first, the descendants of a node follow it without interruption, and a step to a later
node leads to a descendant. -/
structure IsDfsTree (R : N → N → Prop) (pred : Dict N N) (src : N) (l : List N) : Prop where
  nodup : l.Nodup
  root : l.head? = some src ∧ pred.get? src = none
  tree : ∀ v ∈ l, v ≠ src → ∃ p, pred.get? v = some p
  link : ∀ v p, pred.get? v = some p → v ∈ l ∧ p ∈ l ∧ R p v
  first : ∀ l₁ u l₂, l = l₁ ++ u :: l₂ → ∀ v ∈ l₁, ¬ LeadsTo pred u v
  block : ∀ l₁ u l₂ v l₃, l = l₁ ++ u :: (l₂ ++ v :: l₃) → LeadsTo pred u v → ∀ w ∈ l₂, LeadsTo pred u w
  forward : ∀ l₁ u l₂, l = l₁ ++ u :: l₂ → ∀ v ∈ l₂, R u v → LeadsTo pred u v

theorem IsDfsTree.reach {R : N → N → Prop} {pred : Dict N N} {src : N} {l : List N} (h : IsDfsTree R pred src l) {u v : N}
    (hl : LeadsTo pred u v) : Relation.ReflTransGen R u v := by
  induction hl with
  | here => exact .refl
  | step hp _ ih => exact ih.tail (h.link _ _ hp).2.2

/-- **C88.** `search` with `algo='DFS'` (the default) over a stack (the default), no self loops: the predecessors form a
depth-first tree of the nodes reachable from the source, and `distance` is the depth in this tree. -/
theorem C88_search_dfs_tree (hg : Built g) (hb : LawfulLIFO O items) (hO : O.isPQ = false) (rev : Bool)
    (hl : ∀ v, ¬ Step g rev v v) (comp : Option Int) {src : N} (hsrc : src ∈ g.getNodeList) (col : SState N Q)
    (hq : items col.q = []) {fuel : Nat} (hf : fuelBound g rev ≤ fuel) :
    ∃ pred st l, search g O .dfs rev comp none src col fuel = .ok (.pred pred, st) ∧
      (∀ v, v ∈ l ↔ Reach g rev src v) ∧ IsDfsTree (Step g rev) pred src l ∧
      st.dist src = some 0 ∧ ∀ v p, pred.get? v = some p → ∃ d, st.dist p = some d ∧ st.dist v = some (d + 1) := by
  obtain ⟨st, t, h1, h2, h3, h4⟩ := search_none_ok (rev := rev) hg.wf hb.toLawfulBag
    (inv_dfs (src := src) hb hO hl comp col.comp) hsrc col hq (adfs_start hb hO comp col hq) hf
  obtain ⟨L, G, h5, h6, h7, h8⟩ := h3.core
  have hG : G = [] := by rw [h4] at h5; simpa using h5.symm
  have hD := D_iff_reach h2 h4
  have hmem : ∀ v, v ∈ L ↔ D src st v := by
    intro v
    rw [h6]
    refine ⟨fun h => (h2.closed v h).1, fun h => ?_⟩
    rcases h2.disc v h with h | h
    · exact h
    · rw [h4] at h; cases h
  have hlast : L.getLast? = some src := by
    rcases h8 with h | ⟨_, h, _⟩
    · exact h.2
    · rw [hG] at h; cases h
  have hsrcL : src ∈ L := List.mem_of_getLast? hlast
  have hkey : ∀ v, v ∈ st.pred.keys ↔ ∃ p, st.pred.get? v = some p := fun v => Dict.mem_keys' _ _
  have hin : ∀ y p, st.pred.get? y = some p → y ∈ L := fun y p h => (hmem y).2 (Or.inr ((hkey y).2 ⟨p, h⟩))
  -- positions
  have hpos : ∀ l₁ u l₂, L.reverse = l₁ ++ u :: l₂ → L.idxOf u = l₂.length ∧ u ∈ L ∧ (∀ v ∈ l₂, v ∈ L ∧ L.idxOf v < l₂.length) ∧
      ∀ v ∈ l₁, v ∈ L ∧ l₂.length < L.idxOf v := by
    intro l₁ u l₂ h
    have hL : L = l₂.reverse ++ u :: l₁.reverse := by
      rw [← List.reverse_reverse L, h]; simp
    have hnd := h7.nodup
    rw [hL] at hnd ⊢
    rw [List.nodup_append] at hnd
    obtain ⟨_, hn1, hn2⟩ := hnd
    have hu : u ∉ l₂.reverse := fun hu => hn2 u hu u (by simp) rfl
    refine ⟨?_, by simp, ?_, ?_⟩
    · rw [List.idxOf_append_of_notMem hu]; simp
    · intro v hv
      have hv' : v ∈ l₂.reverse := by simpa using hv
      refine ⟨by simp [hv], ?_⟩
      rw [List.idxOf_append_of_mem hv']
      have := List.idxOf_lt_length_of_mem hv'
      simpa using this
    · intro v hv
      have hv' : v ∈ l₁.reverse := by simpa using hv
      refine ⟨by simp [hv], ?_⟩
      have hvu : v ≠ u := by rintro rfl; exact (List.nodup_cons.1 hn1).1 hv'
      rw [List.idxOf_append_of_notMem fun h => hn2 v h v (by simp [hv]) rfl, List.idxOf_cons_ne _ (Ne.symm hvu)]
      simp
  have hup : ∀ u x, Anc st.pred L u x → x ∈ L → L.idxOf x ≤ L.idxOf u := by
    intro u x h
    induction h with
    | here => intro _; exact Nat.le_refl _
    | step hx hp _ ih =>
      intro _
      obtain ⟨h1, h2⟩ := h7.closed _ hx _ hp
      have := ih h1
      omega
  refine ⟨st.pred, st, L.reverse, h1, fun v => ?_, ⟨List.nodup_reverse.2 h7.nodup, ⟨by simpa using hlast, ?_⟩, ?_, ?_, ?_, ?_, ?_⟩,
    h3.zero, h3.link⟩
  · rw [List.mem_reverse, hmem]; exact hD v
  · -- the source is the oldest node, so it has no link
    cases hp : st.pred.get? src with
    | none => rfl
    | some p =>
      exfalso
      obtain ⟨h9, h10⟩ := h7.closed src hsrcL p hp
      obtain ⟨L', hL'⟩ : ∃ L', L = L' ++ [src] := by
        obtain ⟨L', h⟩ := List.getLast?_eq_some_iff.1 hlast
        exact ⟨L', h⟩
      have := (hpos [] src L'.reverse (by rw [hL']; simp)).1
      have h11 := List.idxOf_lt_length_of_mem h9
      rw [this] at h10
      rw [hL'] at h11 h10
      simp at h10 h11
      rw [hL'] at h9
      omega
  · intro v hv hvs
    rw [List.mem_reverse, hmem] at hv
    rcases hv with h | h
    · exact absurd h hvs
    · exact (hkey v).1 h
  · intro v p hp
    exact ⟨List.mem_reverse.2 (hin v p hp), List.mem_reverse.2 ((h6 p).2 (h2.link v p hp).2), (h2.link v p hp).1⟩
  · intro l₁ u l₂ h v hv hlead
    obtain ⟨e1, e2, _, e4⟩ := hpos l₁ u l₂ h
    obtain ⟨e5, e6⟩ := e4 v hv
    have := hup u v (anc_of_leads hin hlead) e5
    omega
  · intro l₁ u l₂ v l₃ h hlead w hw
    obtain ⟨e1, e2, e3, _⟩ := hpos l₁ u _ h
    obtain ⟨f1, f2, _, f4⟩ := hpos (l₁ ++ u :: l₂) v l₃ (by rw [h]; simp)
    obtain ⟨g1, g2⟩ := f4 w (by simp [hw])
    obtain ⟨_, g3⟩ := e3 w (by simp [hw])
    exact (h7.contig u v w e2 f2 g1 (by omega) (by omega) (anc_of_leads hin hlead)).leads
  · intro l₁ u l₂ h v hv hr
    obtain ⟨e1, e2, e3, _⟩ := hpos l₁ u l₂ h
    obtain ⟨e4, e5⟩ := e3 v hv
    exact (h7.edges u v e2 e4 (by omega) hr).leads

/-- **C88**, undirected graphs: every edge between reached nodes joins an ancestor and a descendant. -/
theorem C88_no_cross_edges (hg : Built g) (hd : g.directed = false) (hb : LawfulLIFO O items) (hO : O.isPQ = false)
    (hl : ∀ v, ¬ Step g false v v) (comp : Option Int) {src : N} (hsrc : src ∈ g.getNodeList) (col : SState N Q)
    (hq : items col.q = []) {fuel : Nat} (hf : fuelBound g false ≤ fuel) :
    ∃ pred st, search g O .dfs false comp none src col fuel = .ok (.pred pred, st) ∧
      ∀ u v, Reach g false src u → Step g false u v → LeadsTo pred u v ∨ LeadsTo pred v u := by
  obtain ⟨pred, st, l, h1, h2, h3, _⟩ := C88_search_dfs_tree hg hb hO false hl comp hsrc col hq hf
  refine ⟨pred, st, h1, fun u v hu huv => ?_⟩
  have hsym : Step g false v u := step_symm hd huv
  obtain ⟨l₁, l₂, rfl⟩ := List.append_of_mem ((h2 u).2 hu)
  have hv := (h2 v).2 (hu.tail huv)
  rcases List.mem_append.1 hv with h | h
  · obtain ⟨l₃, l₄, rfl⟩ := List.append_of_mem h
    exact Or.inr (h3.forward l₃ v (l₄ ++ u :: l₂) (by simp) u (by simp) hsym)
  · rcases List.mem_cons.1 h with rfl | h
    · exact Or.inl .here
    · exact Or.inl (h3.forward l₁ u l₂ rfl v h huv)

/-- non-vacuity of C88: in the complete graph on 0, 1, 2 with a further node 3 at 0, the stack gives a path 0, 2, 1
where a queue would give a star -/
def exK : Graph Nat := runOps (Graph.init false) [Op.addEdge 0 1 [], .addEdge 0 2 [], .addEdge 1 2 [], .addEdge 0 3 []]

theorem exK_built : Built exK := ⟨false, _, by intro op h; simp at h; rcases h with rfl | rfl | rfl | rfl <;> simp [Op.InScope], rfl⟩

example : 0 ∈ exK.getNodeList ∧ fuelBound exK false ≤ 30 ∧ (∀ v ∈ exK.getNodeList, ¬ Step exK false v v) ∧
    predOf (search exK stackOps .dfs false none none 0 (exCol []) 30) = some [(1, 2), (2, 0), (3, 0)] ∧
    predOf (search exK queueOps .bfs false none none 0 (exCol []) 30) = some [(1, 0), (2, 0), (3, 0)] := by
  unfold Step; decide

end GiMPy
