import Verif.Model.GraphType
import Verif.Lemmas.Graph

/-! # C117: the `type` argument of `Graph` -/

namespace GiMPy
open Graph
variable {N : Type} [DecidableEq N]
set_option linter.unusedSectionVars false

/-! ## Invariants of calls -/

/-- the call keeps `I`, whether it returns or raises -/
def Pres {α : Type} (I : Graph N → Prop) (x : GM N α) : Prop := ∀ g, I g → I (EStateM.Result.state (x.run g))

section
variable {α β : Type} {I : Graph N → Prop}

theorem Pres.bind {x : GM N α} {f : α → GM N β} (hx : Pres I x) (hf : ∀ a, Pres I (f a)) : Pres I (x >>= f) := by
  intro g hg
  have h1 := hx g hg
  rw [gm_bind]
  cases h : x.run g with
  | ok a g' => rw [h] at h1; exact hf a g' h1
  | error e g' => rw [h] at h1; exact h1

theorem Pres.get : Pres I (get : GM N (Graph N)) := fun _ h => h
theorem Pres.pure (a : α) : Pres I (pure a : GM N α) := fun _ h => h
theorem Pres.throw (e : PyErr) : Pres I (throw e : GM N α) := fun _ h => h
theorem Pres.modify {f : Graph N → Graph N} (h : ∀ g, I g → I (f g)) : Pres I (modify f : GM N PUnit) := fun g hg => h g hg
theorem Pres.ite {c : Prop} [Decidable c] {x y : GM N α} (hx : Pres I x) (hy : Pres I y) : Pres I (if c then x else y) := by
  split
  · exact hx
  · exact hy

end

/-- a property of the state that is kept by the elementary steps -/
structure Steps (I : Graph N → Prop) : Prop where
  node : ∀ name attr, Pres I (addNode name attr : GM N Unit)
  edge : ∀ g E, I g → I { g with edgeAttr := E }
  nbr : ∀ g u l, u ∈ g.neighbors.keys → I g → I { g with neighbors := g.neighbors.set u l }
  inn : ∀ g D, I g → I { g with inNeighbors := D }
  attr : ∀ g n d d', g.nodes.get? n = some d → I g → I { g with nodes := g.nodes.set n d' }

section
variable {I : Graph N → Prop} (hI : Steps I)
include hI

theorem Steps.ensure (n : N) : Pres I (ensureNode n) :=
  Pres.get.bind fun _ => .ite (.pure _) (hI.node n [])

theorem Steps.appendNbr (u v : N) : Pres I (Graph.appendNbr u v) := by
  intro g hg
  unfold Graph.appendNbr
  rw [gm_bind, gm_get]
  simp only []
  cases h : g.neighbors.get? u with
  | none => exact hg
  | some l => exact hI.nbr g u _ (Dict.mem_keys_of_get? h) hg

theorem Steps.appendIn (u v : N) : Pres I (Graph.appendIn u v) := by
  refine Pres.get.bind fun g => .ite (.throw _) ?_
  split
  · exact .throw _
  · exact .modify fun g hg => hI.inn g _ hg

theorem Steps.removeNbr (u v : N) : Pres I (Graph.removeNbr u v) := by
  intro g hg
  unfold Graph.removeNbr
  rw [gm_bind, gm_get]
  simp only []
  cases h : g.neighbors.get? u with
  | none => exact hg
  | some l =>
    simp only [gm_ite]
    split
    · exact hI.nbr g u _ (Dict.mem_keys_of_get? h) hg
    · exact hg

theorem Steps.removeIn (u v : N) : Pres I (Graph.removeIn u v) := by
  refine Pres.get.bind fun g => .ite (.throw _) ?_
  split
  · exact .throw _
  · exact .ite (.modify fun g hg => hI.inn g _ hg) (.throw _)

theorem Steps.delEdgeAttr (e : N × N) : Pres I (Graph.delEdgeAttr e) :=
  Pres.get.bind fun _ => .ite (.modify fun g hg => hI.edge g _ hg) (.throw _)

theorem Steps.addEdgeT (ty : GType) (u v : N) (attr) : Pres I (Graph.addEdgeT ty u v attr) := by
  refine Pres.get.bind fun g => .ite (.throw _) (.ite (.throw _) ?_)
  refine (Pres.modify fun g hg => hI.edge g _ hg).bind fun _ => (hI.ensure u).bind fun _ => (hI.ensure v).bind fun _ =>
    (hI.appendNbr u v).bind fun _ => .ite (hI.appendNbr v u) (hI.appendIn v u)

theorem Steps.delEdge (e : N × N) : Pres I (Graph.delEdge e) := by
  refine Pres.get.bind fun g => .ite (.ite ?_ (.throw _)) (.ite ?_ (.ite ?_ (.throw _)))
  · exact (hI.delEdgeAttr _).bind fun _ => (hI.removeNbr _ _).bind fun _ => hI.removeIn _ _
  · exact (hI.delEdgeAttr _).bind fun _ => (hI.removeNbr _ _).bind fun _ => hI.removeNbr _ _
  · exact (hI.delEdgeAttr _).bind fun _ => (hI.removeNbr _ _).bind fun _ => hI.removeNbr _ _

theorem Steps.setNodeAttr (n : N) (a : String) (v : Val N) : Pres I (Graph.setNodeAttr n a v) := by
  intro g hg
  rw [setNodeAttr_run]
  cases h : g.nodes.get? n with
  | none => exact hg
  | some d => exact hI.attr g n d _ h hg

theorem Steps.setEdgeAttr (u v : N) (a : String) (x : Val N) : Pres I (Graph.setEdgeAttr u v a x) := by
  refine Pres.get.bind fun g => ?_
  split
  · exact .modify fun g hg => hI.edge g _ hg
  · refine .ite (.throw _) ?_
    split
    · exact .modify fun g hg => hI.edge g _ hg
    · exact .throw _

end

theorem steps_directed (b : Bool) : Steps fun g : Graph N => g.directed = b where
  node := by
    intro name attr g hg
    rw [addNode_run]
    split
    · exact hg
    · exact hg
  edge := fun _ _ h => h
  nbr := fun _ _ _ _ h => h
  inn := fun _ _ h => h
  attr := fun _ _ _ _ _ h => h

/-- `in_neighbors` does not come or go -/
theorem call_directed (b : Bool) (op : Op N) : Pres (fun g => g.directed = b) op.call := by
  have S := steps_directed (N := N) b
  cases op with
  | addNode n attr => exact S.node n attr
  | addEdge u v attr =>
    intro g hg
    have h := S.addEdgeT ⟨b, true⟩ u v attr g hg
    unfold Graph.addEdgeT GType.isUndirected at h
    unfold Op.call Graph.addEdge
    cases b <;> simpa [gm_bind, hg] using h
  | delEdge u v => exact S.delEdge (u, v)
  | delNode n =>
    refine Pres.get.bind fun g => ?_
    split
    · exact .throw _
    · next l _ =>
      refine Pres.bind ?_ fun _ => Pres.bind ?_ fun _ => ?_
      · clear * - S
        induction l with
        | nil => exact .pure _
        | cons m l ih =>
          exact (S.delEdgeAttr _).bind fun _ => Pres.get.bind fun _ =>
            .ite ((S.removeNbr _ _).bind fun _ => ih) ((S.removeIn _ _).bind fun _ => ih)
      · refine Pres.get.bind fun _ => .ite ?_ (.pure _)
        split
        · exact .throw _
        · next l _ =>
          clear * - S
          induction l with
          | nil => exact .pure _
          | cons m l ih => exact (S.delEdgeAttr _).bind fun _ => (S.removeNbr _ _).bind fun _ => ih
      · unfold delEntries
        refine Pres.bind (.modify fun _ h => h) fun _ => Pres.get.bind fun _ => .ite (.throw _) ?_
        exact Pres.bind (.modify fun _ h => h) fun _ => Pres.get.bind fun _ => .ite (.modify fun _ h => h) (.throw _)
  | setNodeAttr n a v => exact S.setNodeAttr n a v
  | setEdgeAttr u v a x => exact S.setEdgeAttr u v a x

/-! ## The constants themselves -/

theorem delOutT_same (ty : GType) (hs : ty.same = true) (name : N) (l : List N) :
    ∀ g : Graph N, g.directed = ty.isDirected → (delOutT ty name l).run g = (delOut name l).run g := by
  induction l with
  | nil => intro g _; rfl
  | cons n l ih =>
    intro g hg
    have S := steps_directed (N := N) ty.isDirected
    rw [delOutT, delOut, gm_bind, gm_bind]
    have h1 := S.delEdgeAttr (name, n) g hg
    cases h : (delEdgeAttr (name, n)).run g with
    | error e g1 => rfl
    | ok a g1 =>
      rw [h] at h1
      replace h1 : g1.directed = ty.isDirected := h1
      simp only [gm_bind, gm_get, gm_ite]
      have hc : ty.eqUndirected = !g1.directed := by
        rw [h1]
        unfold GType.eqUndirected GType.isDirected
        rw [hs]
        cases ty.digraph <;> rfl
      rw [hc]
      have key : ∀ x : GM N Unit, Pres (fun g : Graph N => g.directed = ty.isDirected) x →
          (x >>= fun _ => delOutT ty name l).run g1 = (x >>= fun _ => delOut name l).run g1 := by
        intro x hx
        rw [gm_bind, gm_bind]
        have h2 := hx g1 h1
        cases h' : x.run g1 with
        | error e g2 => rfl
        | ok a g2 =>
          rw [h'] at h2
          exact ih g2 h2
      have k1 := key _ (S.removeNbr n name)
      have k2 := key _ (S.removeIn n name)
      rw [gm_bind, gm_bind] at k1 k2
      cases g1.directed
      · simpa using k1
      · simpa using k2

theorem callT_same (ty : GType) (hs : ty.same = true) (op : Op N) (g : Graph N) (hg : g.directed = ty.isDirected) :
    (op.callT ty).run g = op.call.run g := by
  cases op with
  | addEdge u v attr =>
    have e : ty.isUndirected = !g.directed := by
      rw [hg]; unfold GType.isUndirected GType.isDirected
      rw [hs]; cases ty.digraph <;> rfl
    show (addEdgeT ty u v attr).run g = (addEdge u v attr).run g
    unfold addEdgeT addEdge
    simp only [gm_bind, gm_get, e]
    cases g.directed <;> simp
  | delNode n =>
    show (delNodeT ty n).run g = (delNode n).run g
    unfold delNodeT delNode
    simp only [gm_bind, gm_get]
    cases g.neighbors.get? n with
    | none => rfl
    | some l =>
      simp only [gm_bind]
      rw [delOutT_same ty hs n l g hg]
  | _ => rfl

theorem runOpsT_same (ty : GType) (hs : ty.same = true) (ops : List (Op N)) :
    ∀ g : Graph N, g.directed = ty.isDirected → runOpsT ty g ops = runOps g ops := by
  induction ops with
  | nil => intro g _; rfl
  | cons op ops ih =>
    intro g hg
    rw [runOpsT, runOps, callT_same ty hs op g hg]
    exact ih _ (call_directed _ op g hg)

/-- **C117** (what holds). The constructor accepts the two values and no others; only 'digraph' makes a directed graph, and
without the argument it is undirected.  If the object given is one of the
constants (or `type` is left out), then after every history of edit calls the graph is that of the model in
`Model/Graph.lean`, to which the other claims refer, and each further call gives the same result or exception. -/
theorem C117_constants_partial :
    (∀ s same, (∃ r, initT (N := N) (some (s, same)) = .ok r) ↔ s = "digraph" ∨ s = "graph") ∧
    (∀ arg ty g, initT (N := N) arg = .ok (ty, g) → (ty.digraph = true ↔ ∃ same, arg = some ("digraph", same))) ∧
    ∀ arg ty g, initT (N := N) arg = .ok (ty, g) → (∀ s same, arg = some (s, same) → same = true) →
      g = Graph.init ty.digraph ∧
      ∀ ops : List (Op N), runOpsT ty g ops = runOps (Graph.init ty.digraph) ops ∧
        ∀ op, (Op.callT ty op).run (runOpsT ty g ops) = op.call.run (runOps (Graph.init ty.digraph) ops) := by
  refine ⟨?_, ?_, ?_⟩
  · intro s same
    unfold initT
    by_cases h1 : s = "digraph"
    · simp [h1]
    · by_cases h2 : s = "graph"
      · simp [h2]
      · simp [h1, h2]
  · intro arg ty g h
    cases arg with
    | none =>
      simp only [initT, Except.ok.injEq, Prod.mk.injEq] at h
      obtain ⟨rfl, _⟩ := h
      simp
    | some a =>
      obtain ⟨s, same⟩ := a
      unfold initT at h
      simp only [] at h
      split at h
      · next hs =>
        simp only [Except.ok.injEq, Prod.mk.injEq] at h
        obtain ⟨rfl, _⟩ := h
        simp [hs]
      · next hs =>
        split at h
        · simp only [Except.ok.injEq, Prod.mk.injEq] at h
          obtain ⟨rfl, _⟩ := h
          simp [hs]
        · cases h
  · intro arg ty g h hsame
    have key : ty.same = true ∧ g = Graph.init ty.digraph := by
      cases arg with
      | none =>
        simp only [initT, Except.ok.injEq, Prod.mk.injEq] at h
        obtain ⟨rfl, rfl⟩ := h
        exact ⟨rfl, rfl⟩
      | some a =>
        obtain ⟨s, same⟩ := a
        cases hsame s same rfl
        unfold initT at h
        simp only [] at h
        split at h
        · simp only [Except.ok.injEq, Prod.mk.injEq] at h
          obtain ⟨rfl, rfl⟩ := h
          exact ⟨rfl, rfl⟩
        · split at h
          · simp only [Except.ok.injEq, Prod.mk.injEq] at h
            obtain ⟨rfl, rfl⟩ := h
            exact ⟨rfl, rfl⟩
          · cases h
    obtain ⟨hs, rfl⟩ := key
    refine ⟨rfl, fun ops => ?_⟩
    have hd : (Graph.init ty.digraph : Graph N).directed = ty.isDirected := by
      show ty.digraph = _
      unfold GType.isDirected
      rw [hs]; simp
    have h1 := runOpsT_same ty hs ops _ hd
    refine ⟨h1, fun op => ?_⟩
    rw [h1]
    refine callT_same ty hs op _ ?_
    have : ∀ (ops : List (Op N)) (g : Graph N), g.directed = ty.isDirected → (runOps g ops).directed = ty.isDirected := by
      intro ops
      induction ops with
      | nil => intro g hg; exact hg
      | cons op ops ih => intro g hg; exact ih _ (call_directed _ op g hg)
    exact this ops _ hd

/-! ## Equal strings that are other objects -/

/-- the lists of nodes agree, and there is no attribute `in_neighbors` -/
def Torn (g : Graph N) : Prop := g.directed = false ∧ g.nodes.keys = g.neighbors.keys

theorem steps_torn : Steps (Torn (N := N)) where
  node := by
    intro name attr g hg
    rw [addNode_run]
    split
    · exact hg
    · next h =>
      have hn : name ∉ g.neighbors.keys := fun h' => h ((Dict.contains_iff _ _).2 h')
      refine ⟨hg.1, ?_⟩
      show (g.nodes.set name _).keys = (g.neighbors.set name _).keys
      rw [Dict.keys_set_of_not_mem _ hn, Dict.keys_set_of_not_mem _ (by rw [hg.2]; exact hn), hg.2]
  edge := fun _ _ h => h
  nbr := fun g u l hu h => ⟨h.1, by show _ = (g.neighbors.set u l).keys; rw [Dict.keys_set_of_mem _ hu]; exact h.2⟩
  inn := fun _ _ h => h
  attr := fun g n d d' hn h => ⟨h.1, by
    show (g.nodes.set n d').keys = _; rw [Dict.keys_set_of_mem _ (Dict.mem_keys_of_get? hn)]; exact h.2⟩

theorem runOpsT_torn (ty : GType) (ops : List (Op N)) (hops : ∀ n, Op.delNode n ∉ ops) :
    ∀ g : Graph N, Torn g → Torn (runOpsT ty g ops) := by
  induction ops with
  | nil => intro g h; exact h
  | cons op ops ih =>
    intro g h
    rw [runOpsT]
    refine ih (fun n hn => hops n (by simp [hn])) _ ?_
    have S := steps_torn (N := N)
    cases op with
    | addNode n attr => exact S.node n attr g h
    | addEdge u v attr => exact S.addEdgeT ty u v attr g h
    | delEdge u v => exact S.delEdge (u, v) g h
    | delNode n => exact absurd (by simp) (hops n)
    | setNodeAttr n a v => exact S.setNodeAttr n a v g h
    | setEdgeAttr u v a x => exact S.setEdgeAttr u v a x g h

/-- **C117** (the negation). If the object given as `type` is equal to 'digraph' or 'graph' but is not the constant, no
call of `add_edge` returns: MultipleEdgeException is raised if the edge is there, AttributeError otherwise, after any
history without `del_node`.  In the second case the edge is entered all the same: it is in the edge list, in the neighbour
list of its first end, and `check_edge` finds it in both directions, also for 'digraph'. -/
theorem C117_false_add_edge (digraph : Bool) (ops : List (Op N)) (hops : ∀ n, Op.delNode n ∉ ops) (u v : N)
    (attr : List (String × Val N)) {g : Graph N}
    (hg : g = runOpsT ⟨digraph, false⟩ (Graph.init false) ops) :
    initT (N := N) (some (if digraph then "digraph" else "graph", false)) = .ok (⟨digraph, false⟩, Graph.init false) ∧
    ((u, v) ∈ g.getEdgeList → (addEdgeT ⟨digraph, false⟩ u v attr).run g = .error .multipleEdge g) ∧
    ((u, v) ∉ g.getEdgeList → ∃ g', (addEdgeT ⟨digraph, false⟩ u v attr).run g = .error .attributeError g' ∧
      (∀ e, e ∈ g'.getEdgeList ↔ e = (u, v) ∨ e ∈ g.getEdgeList) ∧
      (∃ l, g'.getNeighbors u = .ok (l ++ [v])) ∧ g'.checkEdge u v = true ∧ g'.checkEdge v u = true) := by
  have hT : Torn g := by
    rw [hg]
    exact runOpsT_torn _ ops hops _ ⟨rfl, rfl⟩
  have hu : GType.isUndirected ⟨digraph, false⟩ = false := by unfold GType.isUndirected; simp
  refine ⟨by cases digraph <;> rfl, fun h => ?_, fun h => ?_⟩
  · unfold addEdgeT
    rw [gm_bind, gm_get]
    simp only [gm_ite]
    rw [if_pos ((Dict.contains_iff _ _).2 h)]
    rfl
  · unfold addEdgeT
    rw [gm_bind, gm_get]
    simp only [gm_ite]
    rw [if_neg (fun h' => h ((Dict.contains_iff _ _).1 h')), hu, if_neg (by simp)]
    simp only [gm_bind, gm_modify]
    have e1 := ensure_run (g := { g with edgeAttr := g.edgeAttr.set (u, v) (Dict.empty.update attr) }) hT.2 u
    rw [e1]
    simp only []
    rw [ensure_run (nodes_ensureS (by exact hT.2) u) v]
    simp only []
    generalize hE : g.edgeAttr.set (u, v) (Dict.empty.update attr) = E
    have hEk : ∀ e, e ∈ E.keys ↔ e = (u, v) ∨ e ∈ g.edgeAttr.keys := by
      intro e; rw [← hE]; exact Dict.mem_keys_set _ _ _ _
    generalize hg2 : (Graph.ensureS { g with edgeAttr := E } u).ensureS v = g2
    have hed : g2.edgeAttr = E := by rw [← hg2]; simp
    have hdir : g2.directed = false := by rw [← hg2]; simp [hT.1]
    have huk : u ∈ g2.neighbors.keys := by rw [← hg2]; simp [mem_ensureS_keys]
    rw [appendNbr_run huk]
    simp only []
    obtain ⟨l, hl⟩ := (Dict.mem_keys' _ _).1 huk
    have hdir2 : (g2.appS u v).directed = false := hdir
    refine ⟨g2.appS u v, by unfold appendIn; simp [gm_bind, hdir2], ?_, ⟨l, ?_⟩, ?_, ?_⟩
    · intro e
      show e ∈ g2.edgeAttr.keys ↔ _
      rw [hed]; exact hEk e
    · unfold Graph.getNeighbors Graph.appS
      simp [hl]
    · unfold Graph.checkEdge
      have : (g2.appS u v).edgeAttr.contains (u, v) = true := by
        show g2.edgeAttr.contains (u, v) = true
        rw [hed, Dict.contains_iff]; exact (hEk _).2 (Or.inl rfl)
      simp [hdir2, this]
    · unfold Graph.checkEdge
      have : (g2.appS u v).edgeAttr.contains (u, v) = true := by
        show g2.edgeAttr.contains (u, v) = true
        rw [hed, Dict.contains_iff]; exact (hEk _).2 (Or.inl rfl)
      simp [hdir2, this]

/-! ## Examples -/

/-- two edges are added and a node is deleted -/
def exTypeOps : List (Op Nat) := [.addEdge 0 1 [], .addEdge 1 2 [], .addNode 3 []]

/-- non-vacuity of `C117_constants_partial`: the neighbour lists of a digraph and of a graph -/
example : (runOpsT ⟨true, true⟩ (Graph.init true) (exTypeOps ++ [.delNode 0])).neighbors.entries = [(1, [2]), (2, []), (3, [])] ∧
    (runOpsT ⟨false, true⟩ (Graph.init false) exTypeOps).neighbors.entries = [(0, [1]), (1, [0, 2]), (2, [1]), (3, [])] := by
  decide

/-- non-vacuity of `C117_false_add_edge`: with a copy of the string 'digraph' both calls of `add_edge` raise, and the lists
are those of a digraph, although 2 and 1 count as joined; with a copy of 'graph' the lists are no longer symmetric -/
example : (runOpsT ⟨true, false⟩ (Graph.init false) exTypeOps).neighbors.entries = [(0, [1]), (1, [2]), (2, []), (3, [])] ∧
    (runOpsT ⟨true, false⟩ (Graph.init false) exTypeOps).checkEdge 2 1 = true ∧
    (runOpsT ⟨false, false⟩ (Graph.init false) exTypeOps).neighbors.entries = [(0, [1]), (1, [2]), (2, []), (3, [])] ∧
    EStateM.Result.err ((addEdgeT ⟨true, false⟩ 3 1 []).run (runOpsT ⟨true, false⟩ (Graph.init false) exTypeOps)) =
      some .attributeError := by
  decide

end GiMPy
