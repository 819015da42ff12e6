import Verif.Lemmas.Tarjan
import Verif.Spec.Built

/-! # C15, C16: strongly connected components -/

namespace GiMPy
open Tarjan Search
variable {N : Type} [DecidableEq N] {g : Graph N}

/-- The labels `comp` with counter `num` describe the strongly connected components: every node has a label in
`0..num-1`, every such label is used, and labels agree exactly on mutually reachable nodes. -/
structure LabelsSCC (g : Graph N) (comp : N → Option Int) (num : Int) : Prop where
  range : ∀ v ∈ g.getNodeList, ∃ j, comp v = some j ∧ 0 ≤ j ∧ j < num
  used : ∀ j, 0 ≤ j → j < num → ∃ v ∈ g.getNodeList, comp v = some j
  same : ∀ u ∈ g.getNodeList, ∀ v ∈ g.getNodeList, (comp u = comp v ↔ Reach g false u v ∧ Reach g false v u)

/-- No edge leads from a component to one with a larger label: the labels are a reverse topological order. -/
def ReverseTopo (g : Graph N) (comp : N → Option Int) : Prop :=
  ∀ u v, Step g false u v → ∃ j k, comp u = some j ∧ comp v = some k ∧ k ≤ j

/-- C15 and C89 together -/
theorem strong_components_topo (hg : Built g) (st : TState N) (hfresh : ∀ v, st.index v = none) {fuel : Nat}
    (hf : g.getNodeList.length ≤ fuel) :
    ∃ st', labelStrongComponent g fuel st = .ok st' ∧ LabelsSCC g st'.comp st'.num ∧
      (∀ v ∈ g.getNodeList, st'.index v ≠ none) ∧ ReverseTopo g st'.comp := by
  have h0 : TInv g [] { st with num := 0, q := [] } 0 0 := by
    have hv : ∀ v, ¬ Vis ({ st with num := 0, q := [] } : TState N) v := by intro v; unfold Vis; simp [hfresh]
    refine ⟨by omega, rfl, ?_, ?_, by simp, by simp, ?_, ?_, ?_, ?_, by simp, by simp, by simp, ?_, ?_⟩
    · intro v h; exact absurd h (hv v)
    · intro v h; exact absurd h (hv v)
    · intro v h; exact absurd h (hv v)
    · intro u v h; exact absurd h (hv u)
    · intro u v h; exact absurd h (hv u)
    · intro j h1 h2; omega
    · intro u v h; exact absurd h (hv u)
    · intro u v j h; exact absurd h (hv u)
  obtain ⟨st', i, c, e1, e2, e3, e4⟩ := tarjanLoop_ok hg.wf (f := fuel) g.getNodeList _ 0 0 (fun _ h => h) h0
    (Nat.le_trans (List.length_filter_le _ _) hf)
  have hq : st'.q = [] := by
    rw [List.eq_nil_iff_forall_not_mem]
    intro y hy
    obtain ⟨x, hx, _⟩ := e2.up y hy
    cases hx
  have hnq : ∀ v, v ∉ st'.q := by intro v; rw [hq]; simp
  refine ⟨st', ?_, ⟨?_, ?_, ?_⟩, fun v hv => Option.isSome_iff_ne_none.1 (e4 v hv), ?_⟩
  · unfold labelStrongComponent tarjan
    simp only [e1]
  · intro v hv; rw [e2.num]; exact e2.ccomp v (e4 v hv) (hnq v)
  · intro j h1 h2
    rw [e2.num] at h2
    obtain ⟨v, a, _, b⟩ := e2.used j h1 h2
    exact ⟨v, e2.node v a, b⟩
  · intro u hu v hv; exact e2.same u v (e4 u hu) (hnq u) (e4 v hv) (hnq v)
  · intro u v hs
    have hu := e4 u (step_node hg.wf hs).1
    obtain ⟨j, hj, _⟩ := e2.ccomp u hu (hnq u)
    obtain ⟨k, hk, hkj⟩ := e2.topo u v j hu (hnq u) hj hs
    exact ⟨j, k, hj, hk, hkj⟩

/-- **C15.** On a graph whose nodes carry no `index`, `label_strong_component()` returns and labels exactly the strongly
connected components, whatever the other attributes; all nodes carry an `index` afterwards. -/
theorem C15_strong_components (hg : Built g) (st : TState N) (hfresh : ∀ v, st.index v = none) {fuel : Nat}
    (hf : g.getNodeList.length ≤ fuel) :
    ∃ st', labelStrongComponent g fuel st = .ok st' ∧ LabelsSCC g st'.comp st'.num ∧
      ∀ v ∈ g.getNodeList, st'.index v ≠ none := by
  obtain ⟨st', h1, h2, h3, _⟩ := strong_components_topo hg st hfresh hf
  exact ⟨st', h1, h2, h3⟩

/-- **C89.** `label_strong_component()` numbers the components in reverse topological order: an edge between different
components leads to a smaller number, and so does every path. -/
theorem C89_components_reverse_topological (hg : Built g) (st : TState N) (hfresh : ∀ v, st.index v = none) {fuel : Nat}
    (hf : g.getNodeList.length ≤ fuel) :
    ∃ st', labelStrongComponent g fuel st = .ok st' ∧
      ∀ u ∈ g.getNodeList, ∀ v, Reach g false u v → ∃ j k, st'.comp u = some j ∧ st'.comp v = some k ∧
        (k < j ∨ (k = j ∧ Reach g false v u)) := by
  obtain ⟨st', h1, h2, h3, h4⟩ := strong_components_topo hg st hfresh hf
  refine ⟨st', h1, fun u hu v hr => ?_⟩
  have hle : ∃ j k, st'.comp u = some j ∧ st'.comp v = some k ∧ k ≤ j := by
    induction hr with
    | refl => obtain ⟨j, hj, _⟩ := h2.range u hu; exact ⟨j, j, hj, hj, Int.le_refl _⟩
    | tail _ hs ih =>
      obtain ⟨j, k, a1, a2, a3⟩ := ih
      obtain ⟨k', l, b1, b2, b3⟩ := h4 _ _ hs
      rw [a2] at b1; cases b1
      exact ⟨j, l, a1, b2, by omega⟩
  obtain ⟨j, k, a1, a2, a3⟩ := hle
  refine ⟨j, k, a1, a2, ?_⟩
  by_cases hjk : k = j
  · have hv : v ∈ g.getNodeList := by
      rcases hr.cases_tail with rfl | ⟨w, _, hs⟩
      · exact hu
      · exact (step_node hg.wf hs).2
    exact Or.inr ⟨hjk, ((h2.same u hu v hv).1 (by rw [a1, a2, hjk])).2⟩
  · exact Or.inl (by omega)


/-- columns of a graph without `index`, with arbitrary other values -/
def exT : TState Nat := ⟨fun _ => none, fun _ => some 7, fun v => if v = 1 then some 4 else none, [], 12⟩

/-- a digraph with the components {0,1,2}, {3,4}, {5} -/
def exS : Graph Nat := runOps (Graph.init true) [Op.addEdge 0 1 [], .addEdge 1 2 [], .addEdge 2 0 [], .addEdge 2 3 [],
  .addEdge 3 4 [], .addEdge 4 3 [], .addEdge 5 0 []]

/-- non-vacuity of C15 -/
example : (match labelStrongComponent exS 6 exT with
    | .ok st => some (exS.getNodeList.map st.comp, st.num)
    | .error _ => none) = some ([some 1, some 1, some 1, some 0, some 0, some 2], 3) ∧ exS.getNodeList.length ≤ 6 := by
  decide +kernel

theorem Tarjan.tarjanLoop_noop {fuel : Nat} : ∀ (L : List N) (st : TState N) (i c : Int), (∀ v ∈ L, st.index v ≠ none) →
    tarjanLoop g fuel L st i c = .ok (st, i, c) := by
  intro L
  induction L with
  | nil => intro st i c _; rfl
  | cons n L ih =>
    intro st i c h
    rw [tarjanLoop, if_neg (h n (by simp))]
    exact ih st i c fun v hv => h v (by simp [hv])

/-- **C16 is false of the code.**  Whatever the graph has become, if all its nodes carry an `index` from an earlier call
then `label_strong_component()` keeps all labels and sets `num_components` to 0. -/
theorem C16_false_relabel_does_nothing (g : Graph N) (st : TState N) (h : ∀ v ∈ g.getNodeList, st.index v ≠ none)
    (fuel : Nat) :
    ∃ st', labelStrongComponent g fuel st = .ok st' ∧ st'.comp = st.comp ∧ st'.num = 0 := by
  refine ⟨{ st with num := 0, q := [] }, ?_, rfl, rfl⟩
  unfold labelStrongComponent tarjan
  simp only []
  rw [tarjanLoop_noop g.getNodeList { st with num := 0, q := [] } 0 0 h]

/-- the graph with the two nodes 0 and 1, before and after adding edges -/
def exR (ops : List (Op Nat)) : Graph Nat := runOps (Graph.init true) ops

/-- **C16, concrete failures.**  (a) Nodes 0 and 1 are labelled 0 and 1; after adding 0→1 and 1→0 a new call leaves the
labels, although the nodes are now mutually reachable.  (b) Node 0 is labelled 0; after adding node 1 a new call labels
node 1 with 0 as well, although it is not reachable. -/
theorem C16_false_concrete :
    (∃ st st' : TState Nat, labelStrongComponent (exR [.addNode 0 [], .addNode 1 []]) 2 exT = .ok st ∧
      labelStrongComponent (exR [.addNode 0 [], .addNode 1 [], .addEdge 0 1 [], .addEdge 1 0 []]) 2 st = .ok st' ∧
      st'.comp 0 ≠ st'.comp 1 ∧
      Reach (exR [.addNode 0 [], .addNode 1 [], .addEdge 0 1 [], .addEdge 1 0 []]) false 0 1 ∧
      Reach (exR [.addNode 0 [], .addNode 1 [], .addEdge 0 1 [], .addEdge 1 0 []]) false 1 0) ∧
    (∃ st st' : TState Nat, labelStrongComponent (exR [.addNode 0 []]) 1 exT = .ok st ∧
      labelStrongComponent (exR [.addNode 0 [], .addNode 1 []]) 2 st = .ok st' ∧ st'.comp 0 = st'.comp 1 ∧
      ¬ Reach (exR [.addNode 0 [], .addNode 1 []]) false 0 1) := by
  refine ⟨⟨_, _, rfl, rfl, by decide, .single (by unfold Step; decide), .single (by unfold Step; decide)⟩,
    ⟨_, _, rfl, rfl, by decide, ?_⟩⟩
  intro h
  rcases h.cases_head with h | ⟨c, h, _⟩
  · exact absurd h (by decide)
  · unfold Step at h
    simp only [exR, Graph.checkEdge] at h
    revert h
    simp only [show (runOps (Graph.init true) [Op.addNode 0 [], Op.addNode 1 []]).edgeAttr = (Dict.empty : Dict (Nat × Nat) _) from rfl]
    simp [Dict.empty, Dict.contains, Dict.get?, Dict.getL]

/-- **C16, what does hold.** Calling `label_strong_component()` twice on a fresh graph without edits in between leaves
the right labels, but `num_components` is 0.  Missing from the full claim: edits in between and the counter; both are
false (`C16_false_relabel_does_nothing`, `C16_false_concrete`). -/
theorem C16_relabel_unchanged_partial (hg : Built g) (st : TState N) (hfresh : ∀ v, st.index v = none) {fuel fuel' : Nat}
    (hf : g.getNodeList.length ≤ fuel) :
    ∃ st' st'', labelStrongComponent g fuel st = .ok st' ∧ labelStrongComponent g fuel' st' = .ok st'' ∧
      LabelsSCC g st''.comp st'.num ∧ st''.num = 0 := by
  obtain ⟨st', h1, h2, h3⟩ := C15_strong_components hg st hfresh hf
  obtain ⟨st'', h4, h5, h6⟩ := C16_false_relabel_does_nothing g st' h3 fuel'
  exact ⟨st', st'', h1, h4, by rw [h5]; exact h2, h6⟩

/-- non-vacuity of the partial theorem -/
example : (match labelStrongComponent exS 6 exT with
    | .ok st => (match labelStrongComponent exS 6 st with
      | .ok st => some (exS.getNodeList.map st.comp, st.num)
      | .error _ => none)
    | .error _ => none) = some ([some 1, some 1, some 1, some 0, some 0, some 2], 0) := by decide +kernel

end GiMPy
