import Verif.Model.Forestry
import Verif.Lemmas.Residual

/-! # Graphs made by a list of calls of `add_node` and `add_edge` -/

namespace GiMPy
variable {N : Type} [DecidableEq N]

/-- the names in a call -/
def Op.names : Op N → List N
  | .addNode n _ => [n]
  | .addEdge u v _ => [u, v]
  | _ => []

/-- the arc that a call adds -/
def Op.arc? : Op N → Option (N × N)
  | .addEdge u v _ => some (u, v)
  | _ => none

/-- a call of `add_node` or `add_edge` -/
def Op.Adds : Op N → Prop
  | .addNode _ _ => True
  | .addEdge _ _ _ => True
  | _ => False

/-- `x` may stand before `y`: no node is added that was named before, no arc twice -/
def Op.Before (x : Op N) : Op N → Prop
  | .addNode n _ => n ∉ x.names
  | .addEdge u v _ => x.arc? ≠ some (u, v)
  | _ => True

theorem mem_arcs {ops : List (Op N)} {u v : N} : (u, v) ∈ ops.filterMap Op.arc? ↔ ∃ attr, Op.addEdge u v attr ∈ ops := by
  rw [List.mem_filterMap]
  constructor
  · rintro ⟨op, h1, h2⟩
    cases op <;> simp [Op.arc?] at h2
    obtain ⟨rfl, rfl⟩ := h2
    exact ⟨_, h1⟩
  · rintro ⟨attr, h⟩
    exact ⟨_, h, rfl⟩

theorem mem_ensure {a : AGraph N} {n m : N} (h : m ∈ (a.ensure n).V) : m ∈ a.V ∨ m = n := by
  unfold AGraph.ensure at h
  by_cases hn : n ∈ a.V
  · rw [if_pos hn] at h; exact Or.inl h
  · rw [if_neg hn] at h
    simpa using h

theorem ensure_old {a : AGraph N} {n : N} (m : N) (h : n ∈ a.V) : n ∈ (a.ensure m).V ∧ (a.ensure m).na n = a.na n := by
  unfold AGraph.ensure
  by_cases hm : m ∈ a.V
  · rw [if_pos hm]; exact ⟨h, rfl⟩
  · rw [if_neg hm]
    refine ⟨by simp [h], ?_⟩
    have : n ≠ m := by rintro rfl; exact hm h
    simp [AGraph.upd, this]

theorem ensure_new {a : AGraph N} {n m : N} (h : n ∈ (a.ensure m).V) :
    n ∈ a.V ∨ (a.ensure m).na n = fun _ => none := by
  unfold AGraph.ensure at h ⊢
  by_cases hm : m ∈ a.V
  · rw [if_pos hm] at h; exact Or.inl h
  · rw [if_neg hm] at h ⊢
    rcases List.mem_append.1 h with h | h
    · exact Or.inl h
    · obtain rfl := List.mem_singleton.1 h
      exact Or.inr (by simp [AGraph.upd])

theorem ensure_mem (a : AGraph N) (n : N) : n ∈ (a.ensure n).V := by
  unfold AGraph.ensure
  by_cases hm : n ∈ a.V
  · rw [if_pos hm]; exact hm
  · rw [if_neg hm]; simp

/-- the nodes after the calls: those named, with the attributes given to `add_node` if that call made them -/
structure NodesOf (ops : List (Op N)) (a : AGraph N) : Prop where
  named : ∀ op ∈ ops, ∀ n ∈ op.names, n ∈ a.V
  given : ∀ n attr, Op.addNode n attr ∈ ops → a.na n = AGraph.kw attr
  plain : ∀ n ∈ a.V, (∀ attr, Op.addNode n attr ∉ ops) → a.na n = fun _ => none

theorem script_inv : ∀ (l done : List (Op N)) (g : Graph N) (a : AGraph N), Rep g a → Built g → a.directed = true →
    a.E = done.filterMap Op.arc? → (∀ n ∈ a.V, ∃ op ∈ done, n ∈ op.names) →
    (∀ u v attr, Op.addEdge u v attr ∈ done → a.ea (u, v) = AGraph.kw attr) → NodesOf done a → (∀ op ∈ l, op.Adds) →
    (done ++ l).Pairwise Op.Before →
    ∃ g' a', Forestry.script g l = .ok g' ∧ Rep g' a' ∧ Built g' ∧ a'.directed = true ∧ a'.E = (done ++ l).filterMap Op.arc? ∧
      (∀ u v attr, Op.addEdge u v attr ∈ done ++ l → a'.ea (u, v) = AGraph.kw attr) ∧ NodesOf (done ++ l) a' ∧
      ∀ n ∈ a'.V, ∃ op ∈ done ++ l, n ∈ op.names := by
  intro l
  induction l with
  | nil =>
    intro done g a h1 h2 h3 h4 h5 h6 hN _ _
    rw [List.append_nil]
    exact ⟨g, a, rfl, h1, h2, h3, h4, h6, hN, h5⟩
  | cons op l ih =>
    intro done g a h1 h2 h3 h4 h5 h6 hN h7 h8
    have hb : ∀ x ∈ done, x.Before op := fun x hx => (List.pairwise_append.1 h8).2.2 x hx op (by simp)
    have h8' : ((done ++ [op]) ++ l).Pairwise Op.Before := by simpa using h8
    have h7' : ∀ o ∈ l, o.Adds := fun o ho => h7 o (by simp [ho])
    have happ : done ++ op :: l = (done ++ [op]) ++ l := by simp
    cases op with
    | addNode n attr =>
      have hn : n ∉ a.V := by
        intro hn
        obtain ⟨x, hx, hx'⟩ := h5 n hn
        exact hb x hx hx'
      have hst : a.step (.addNode n attr) = (none, { a with V := a.V ++ [n], na := AGraph.upd a.na n (AGraph.kw attr) }) := by
        simp [AGraph.step, hn]
      obtain ⟨g', e1, e2⟩ := rep_call h1 h3 (.addNode n attr) (by rw [hst])
      rw [hst] at e2
      obtain ⟨g'', a'', r1, r2⟩ := ih (done ++ [.addNode n attr]) g' _ e2 (h2.call (by rw [h1.dir, h3]) e1) h3
        (by simp [h4, Op.arc?]) (by
          intro m hm
          rcases List.mem_append.1 hm with hm | hm
          · obtain ⟨x, hx, hx'⟩ := h5 m hm
            exact ⟨x, by simp [hx], hx'⟩
          · exact ⟨.addNode n attr, by simp, hm⟩)
        (by
          intro u v at' hm
          simp only [List.mem_append, List.mem_singleton, reduceCtorEq, or_false] at hm
          exact h6 u v at' hm)
        (by
          refine ⟨?_, ?_, ?_⟩
          · intro op hop m hm
            rcases List.mem_append.1 hop with hop | hop
            · exact List.mem_append_left _ (hN.named op hop m hm)
            · obtain rfl := List.mem_singleton.1 hop
              exact List.mem_append_right _ hm
          · intro m at' hm
            rcases List.mem_append.1 hm with hm1 | hm
            · have hmV := hN.named _ hm1 m (by simp [Op.names])
              have : m ≠ n := fun h => hn (h ▸ hmV)
              simp only [AGraph.upd, if_neg this]
              exact hN.given m at' hm1
            · simp only [List.mem_singleton, Op.addNode.injEq] at hm
              obtain ⟨rfl, rfl⟩ := hm
              simp only [AGraph.upd, if_pos]
          · intro m hm hno
            have : m ≠ n := by
              rintro rfl
              exact hno attr (by simp)
            simp only [AGraph.upd, if_neg this]
            refine hN.plain m ((List.mem_append.1 hm).resolve_right (by simpa using this)) fun at' h => ?_
            exact hno at' (by simp [h])) h7' h8'
      refine ⟨g'', a'', ?_, ?_⟩
      · unfold Forestry.script; rw [e1]; exact r1
      · rw [happ]; exact r2
    | addEdge u v attr =>
      have huv : (u, v) ∉ a.E := by
        rw [h4, mem_arcs]
        rintro ⟨at', hat⟩
        exact hb _ hat rfl
      obtain ⟨g', a', e1, e2, e3, e4, e5, e6, e7⟩ := rep_addEdge h1 h3 huv attr
      obtain ⟨g'', a'', r1, r2⟩ := ih (done ++ [.addEdge u v attr]) g' a' e2 (h2.call (by rw [h1.dir, h3]) e1) e3
        (by simp [e4, h4, Op.arc?]) (by
          intro m hm
          rw [e6] at hm
          have : m ∈ a.V ∨ m = u ∨ m = v := by
            rcases mem_ensure hm with hm | hm
            · rcases mem_ensure hm with hm | hm
              · exact Or.inl hm
              · exact Or.inr (Or.inl hm)
            · exact Or.inr (Or.inr hm)
          rcases this with hm | hm
          · obtain ⟨x, hx, hx'⟩ := h5 m hm
            exact ⟨x, by simp [hx], hx'⟩
          · exact ⟨.addEdge u v attr, by simp, by simpa [Op.names] using hm⟩)
        (by
          intro x y at' hm
          rw [e5]
          rcases List.mem_append.1 hm with hm | hm
          · have : (x, y) ≠ (u, v) := by
              intro h
              cases h
              exact hb _ hm rfl
            rw [AGraph.upd, if_neg this]
            exact h6 x y at' hm
          · simp only [List.mem_singleton, Op.addEdge.injEq] at hm
            obtain ⟨rfl, rfl, rfl⟩ := hm
            rw [AGraph.upd, if_pos rfl])
        (by
          have hold : ∀ m ∈ a.V, m ∈ a'.V ∧ a'.na m = a.na m := by
            intro m hm
            obtain ⟨x1, x2⟩ := ensure_old u hm
            obtain ⟨y1, y2⟩ := ensure_old v x1
            rw [e6, e7]
            exact ⟨y1, y2.trans x2⟩
          refine ⟨?_, ?_, ?_⟩
          · intro op hop m hm
            rcases List.mem_append.1 hop with hop | hop
            · exact (hold m (hN.named op hop m hm)).1
            · obtain rfl := List.mem_singleton.1 hop
              simp only [Op.names, List.mem_cons, List.not_mem_nil, or_false] at hm
              rw [e6]
              rcases hm with rfl | rfl
              · exact (ensure_old v (ensure_mem a m)).1
              · exact ensure_mem _ m
          · intro m at' hm
            simp only [List.mem_append, List.mem_singleton, reduceCtorEq, or_false] at hm
            rw [(hold m (hN.named _ hm m (by simp [Op.names]))).2]
            exact hN.given m at' hm
          · intro m hm hno
            by_cases hma : m ∈ a.V
            · rw [(hold m hma).2]
              exact hN.plain m hma fun at' h => hno at' (by simp [h])
            · rw [e6] at hm
              rw [e7]
              rcases ensure_new hm with hm | hm
              · rw [(ensure_old v hm).2]
                exact (ensure_new hm).resolve_left hma
              · exact hm) h7' h8'
      refine ⟨g'', a'', ?_, ?_⟩
      · unfold Forestry.script; rw [e1]; exact r1
      · rw [happ]; exact r2
    | delEdge u v => exact (h7 _ List.mem_cons_self).elim
    | delNode n => exact (h7 _ List.mem_cons_self).elim
    | setNodeAttr n s x => exact (h7 _ List.mem_cons_self).elim
    | setEdgeAttr u v s x => exact (h7 _ List.mem_cons_self).elim

/-- calls of `add_node` for new names and of `add_edge` for new arcs raise nothing, and leave the arcs in the order of the calls
with the attributes given -/
theorem script_ok (ops : List (Op N)) (h1 : ∀ op ∈ ops, op.Adds) (h2 : ops.Pairwise Op.Before) :
    ∃ g, Forestry.script (Graph.init true) ops = .ok g ∧ Built g ∧ g.directed = true ∧
      g.getEdgeList = ops.filterMap Op.arc? ∧ (∀ u v attr, Op.addEdge u v attr ∈ ops →
        ∃ a, g.edgeAttr.get? (u, v) = some a ∧ ∀ s, a.get? s = AGraph.kw attr s) ∧
      (∀ n, n ∈ g.getNodeList ↔ ∃ op ∈ ops, n ∈ op.names) ∧
      (∀ n attr, Op.addNode n attr ∈ ops → ∀ s, g.getNodeAttr n s = .ok ((AGraph.kw attr s).getD .none)) ∧
      ∀ n ∈ g.getNodeList, (∀ attr, Op.addNode n attr ∉ ops) → ∀ s, g.getNodeAttr n s = .ok .none := by
  obtain ⟨g, a, r1, r2, r3, r4, r5, r6, r7, r8⟩ := script_inv ops [] (Graph.init true) (.empty true) (rep_init true)
    ⟨true, [], by simp, rfl⟩ rfl rfl (by simp [AGraph.empty]) (by simp)
    ⟨by simp, by simp, by simp [AGraph.empty]⟩ h1 (by simpa using h2)
  rw [List.nil_append] at r5 r6 r7 r8
  have hna : ∀ n ∈ a.V, ∀ s, g.getNodeAttr n s = .ok ((a.na n s).getD .none) := by
    intro n hn s
    have h := r2.na n hn s
    unfold Graph.getNodeAttr
    cases hg : g.nodes.get? n with
    | none =>
      have : n ∈ g.nodes.keys := by rw [r2.wf.nodesEq, r2.V]; exact hn
      exact absurd this ((Dict.get?_eq_none_iff _ _).1 hg)
    | some x =>
      rw [hg] at h
      simp only [Option.bind_some] at h
      simp only []
      rw [h]
  have hV : g.getNodeList = a.V := r2.V
  refine ⟨g, r1, r3, by rw [r2.dir, r4], r2.E.trans r5, fun u v attr hm => ?_, fun n => ?_, fun n attr hm s => ?_,
    fun n hn hno s => ?_⟩
  rotate_left
  · rw [hV]; exact ⟨r8 n, fun ⟨op, hop, hn⟩ => r7.named op hop n hn⟩
  · rw [hna n (r7.named _ hm n (by simp [Op.names])), r7.given n attr hm]
  · rw [hV] at hn
    rw [hna n hn, r7.plain n hn hno]; rfl
  have he : (u, v) ∈ a.E := by rw [r5]; exact mem_arcs.2 ⟨attr, hm⟩
  have h := fun s => r2.ea _ he s
  cases hg : g.edgeAttr.get? (u, v) with
  | none =>
    have : (u, v) ∈ g.edgeAttr.keys := by rw [r2.E]; exact he
    exact absurd this ((Dict.get?_eq_none_iff _ _).1 hg)
  | some x =>
    refine ⟨x, rfl, fun s => ?_⟩
    have := h s
    rw [hg, r6 u v attr hm] at this
    exact this

end GiMPy
