import Verif.Lemmas.DGraph
import Verif.Lemmas.Misc
import Verif.Lemmas.Display
import Verif.Lemmas.Preflow
import Verif.Spec.Built

/-! # C80-C83: text, labels and colours -/

namespace GiMPy
open Display
variable {N : Type} [DecidableEq N] {g : Graph N}

/-! ## __repr__ -/

theorem dropLast_lines : ∀ (l : List (List Char)), (l.flatMap fun s => s ++ ['\n']).dropLast = ['\n'].intercalate l
  | [] => rfl
  | [s] => by simp
  | s :: t :: l => by
    have ih := dropLast_lines (t :: l)
    have hne : ((t :: l).flatMap fun s => s ++ ['\n']) ≠ [] := by simp
    rw [List.flatMap_cons, List.dropLast_append_of_ne_nil hne, ih]
    simp [List.intercalate, List.intersperse]

/-- **C80.** `__repr__` of a graph built with the public operations raises nothing and gives one line for each node, in the
order of insertion: the name, an arrow, and the list of the neighbours. -/
theorem C80_repr (hg : Built g) (strN : N → List Char) (reprL : List N → List Char) :
    Display.repr strN reprL g = .ok (['\n'].intercalate (g.getNodeList.map fun n =>
      strN n ++ " -> ".toList ++ reprL ((g.neighbors.get? n).getD []))) := by
  have key : ∀ l : List N, (∀ n ∈ l, n ∈ g.neighbors.keys) → reprLines strN reprL g l =
      .ok ((l.map fun n => strN n ++ " -> ".toList ++ reprL ((g.neighbors.get? n).getD [])).flatMap fun s => s ++ ['\n']) := by
    intro l
    induction l with
    | nil => intro _; rfl
    | cons n l ih =>
      intro h
      obtain ⟨nb, hnb⟩ := (Dict.mem_keys' _ _).1 (h n (by simp))
      unfold reprLines Graph.getNeighbors
      rw [hnb]
      simp only []
      rw [ih fun m hm => h m (List.mem_cons_of_mem _ hm)]
      simp [hnb]
  unfold Display.repr
  rw [hg.wf.nodesEq, key _ fun _ h => h]
  simp only []
  rw [dropLast_lines]
  rfl

/-! ## print_flow -/

/-- **C81** is false as stated for negative flows.  Exact: if every arc has a flow and a capacity, `print_flow` prints the arcs
whose flow is not zero, in the order of insertion, with flow and capacity. -/
theorem C81_print_flow_partial (flow cap : N × N → Int)
    (h : ∀ e ∈ g.getEdgeList, ∃ d, g.edgeAttr.get? e = some d ∧ d.get? "flow" = some (.int (flow e)) ∧
      d.get? "capacity" = some (.int (cap e))) :
    printFlow g g.getEdgeList = .ok ((g.getEdgeList.filter fun e => flow e ≠ 0).map fun e => (e, .int (flow e), .int (cap e))) := by
  have key : ∀ l : List (N × N), (∀ e ∈ l, e ∈ g.getEdgeList) → printFlow g l =
      .ok ((l.filter fun e => flow e ≠ 0).map fun e => (e, .int (flow e), .int (cap e))) := by
    intro l
    induction l with
    | nil => intro _; rfl
    | cons e l ih =>
      intro hl
      obtain ⟨d, h1, h2, h3⟩ := h e (hl e (by simp))
      have ih := ih fun m hm => hl m (List.mem_cons_of_mem _ hm)
      unfold printFlow
      rw [h1]
      simp only [Option.bind_some, h2, h3, ih]
      by_cases hz : flow e = 0
      · simp [hz]
      · simp [hz]
  exact key _ fun _ h => h

/-- with non-negative flows these are the arcs with positive flow, as the comment promises -/
theorem C81_positive (flow cap : N × N → Int) (hpos : ∀ e ∈ g.getEdgeList, 0 ≤ flow e)
    (h : ∀ e ∈ g.getEdgeList, ∃ d, g.edgeAttr.get? e = some d ∧ d.get? "flow" = some (.int (flow e)) ∧
      d.get? "capacity" = some (.int (cap e))) : ∃ r, printFlow g g.getEdgeList = .ok r ∧
      ∀ e, e ∈ r.map Prod.fst ↔ e ∈ g.getEdgeList ∧ 0 < flow e := by
  refine ⟨_, C81_print_flow_partial flow cap h, fun e => ?_⟩
  simp only [List.map_map, List.mem_map, List.mem_filter, Function.comp, decide_eq_true_eq, ne_eq]
  constructor
  · rintro ⟨e', ⟨h1, h2⟩, rfl⟩
    have := hpos e' h1
    exact ⟨h1, by omega⟩
  · rintro ⟨h1, h2⟩
    exact ⟨e, ⟨h1, by omega⟩, rfl⟩

/-- a negative flow is printed too -/
theorem C81_negative : ∃ g : Graph Nat, Built g ∧
    (match printFlow g g.getEdgeList with | .ok r => decide (r = [((0, 1), .int (-2), .int 3)]) | .error _ => false) = true :=
  ⟨_, ⟨true, [.addEdge 0 1 [("flow", .int (-2)), ("capacity", .int 3)]], by intro op _; cases op <;> simp [Op.InScope], rfl⟩,
    by decide +kernel⟩

/-! ## show_flow -/

/-- the label of an arc: capacity (INF for 10000) and flow -/
def flowLabel (c f : Int) : String := (if c = 10000 then "INF" else toString c) ++ "/" ++ toString f

/-- red for a saturated arc, green for positive flow, else black -/
def flowColour (c f : Int) : String := if f = c then "red" else if 0 < f then "green" else "black"

/-- the attributes of an arc after `show_flow` -/
def markArc (c f : Int) (d : Attrs N) : Attrs N := (d.set "label" (.str (flowLabel c f))).set "color" (.str (flowColour c f))

theorem showArcs_ok (n : N) (cap flow : N × N → Int) : ∀ (l : List N) (g : Graph N), l.Nodup → g.directed = true →
    (∀ v ∈ l, ∃ d, g.edgeAttr.get? (n, v) = some d ∧ d.get? "capacity" = some (.int (cap (n, v))) ∧
      d.get? "flow" = some (.int (flow (n, v)))) → ∃ g', showArcs n l g = .ok () g' ∧ g'.directed = g.directed ∧
      g'.neighbors = g.neighbors ∧ g'.inNeighbors = g.inNeighbors ∧ g'.nodes = g.nodes ∧
      g'.edgeAttr.keys = g.edgeAttr.keys ∧ ∀ e, g'.edgeAttr.get? e = if e.1 = n ∧ e.2 ∈ l then
        (g.edgeAttr.get? e).map (markArc (cap e) (flow e)) else g.edgeAttr.get? e
  | [], g, _, _, _ => ⟨g, rfl, rfl, rfl, rfl, rfl, rfl, by simp⟩
  | v :: l, g, hn, hd, h => by
    obtain ⟨d, h1, h2, h3⟩ := h v (by simp)
    rw [List.nodup_cons] at hn
    have hk := Dict.mem_keys_of_get? h1
    have hget : ∀ e, (g.edgeAttr.set (n, v) (markArc (cap (n, v)) (flow (n, v)) d)).get? e =
        if e = (n, v) then some (markArc (cap (n, v)) (flow (n, v)) d) else g.edgeAttr.get? e := by
      intro e
      rw [Dict.get?_set]
      by_cases he : (n, v) = e
      · rw [if_pos he, if_pos he.symm]
      · rw [if_neg he, if_neg (Ne.symm he)]
    obtain ⟨g', r1, r2, r3, r4, r5, r6, r7⟩ := showArcs_ok n cap flow l
      { g with edgeAttr := g.edgeAttr.set (n, v) (markArc (cap (n, v)) (flow (n, v)) d) } hn.2 hd (by
        intro u hu
        obtain ⟨d', h4⟩ := h u (List.mem_cons_of_mem _ hu)
        refine ⟨d', ?_, h4.2⟩
        show (g.edgeAttr.set _ _).get? _ = _
        rw [hget, if_neg (by rintro e; cases e; exact hn.1 hu)]
        exact h4.1)
    refine ⟨g', ?_, r2, r3, r4, r5, r6.trans (Dict.keys_set_of_mem _ hk), ?_⟩
    · unfold showArcs
      have e1 : (get : GM N (Graph N)) g = .ok g g := rfl
      rw [bind_ok e1]
      have c1 : arcInt g n v "capacity" = .ok (cap (n, v)) := by
        unfold arcInt Graph.getEdgeAttr; rw [h1]; simp only [Option.bind_some, h2]
      have c2 : arcInt g n v "flow" = .ok (flow (n, v)) := by
        unfold arcInt Graph.getEdgeAttr; rw [h1]; simp only [Option.bind_some, h3]
      rw [c1, c2]
      simp only []
      have s1 : ∀ x, Graph.setEdgeAttr n v "label" x g = .ok ⟨⟩ { g with edgeAttr := g.edgeAttr.set (n, v) (d.set "label" x) } := by
        intro x
        have := Graph.setEdgeAttr_run g n v "label" x
        rw [h1] at this
        exact this
      rw [bind_ok (s1 _)]
      have s2 : ∀ x y, Graph.setEdgeAttr n v "color" y { g with edgeAttr := g.edgeAttr.set (n, v) (d.set "label" x) } =
        .ok ⟨⟩ { g with edgeAttr := g.edgeAttr.set (n, v) ((d.set "label" x).set "color" y) } := by
        intro x y
        have := Graph.setEdgeAttr_run { g with edgeAttr := g.edgeAttr.set (n, v) (d.set "label" x) } n v "color" y
        rw [Dict.get?_set_self] at this
        simp only [set_set] at this
        exact this
      rw [bind_ok (s2 _ _)]
      have l1 : (if cap (n, v) = Display.INF then "INF" ++ "/" ++ strInt (flow (n, v)) else strInt (cap (n, v)) ++ "/" ++
        strInt (flow (n, v))) = flowLabel (cap (n, v)) (flow (n, v)) := by
        unfold flowLabel Display.INF strInt
        split <;> rfl
      have l2 : (if cap (n, v) = flow (n, v) then "red" else if flow (n, v) > 0 then "green" else "black") =
        flowColour (cap (n, v)) (flow (n, v)) := by
        unfold flowColour
        by_cases he : cap (n, v) = flow (n, v)
        · rw [if_pos he, if_pos he.symm]
        · rw [if_neg he, if_neg (Ne.symm he)]
      rw [l1, l2]
      exact r1
    · intro e
      rw [r7]
      show (if _ then (Dict.get? (g.edgeAttr.set _ _) e).map _ else Dict.get? (g.edgeAttr.set _ _) e) = _
      rw [hget]
      by_cases he : e = (n, v)
      · subst he
        rw [if_neg (fun h => hn.1 h.2), if_pos rfl, if_pos ⟨rfl, by simp⟩, h1]
        rfl
      · rw [if_neg he]
        by_cases hc : e.1 = n ∧ e.2 ∈ l
        · rw [if_pos hc, if_pos ⟨hc.1, List.mem_cons_of_mem _ hc.2⟩]
        · rw [if_neg hc, if_neg]
          rintro ⟨a, b⟩
          rcases List.mem_cons.1 b with b | b
          · exact he (Prod.ext a b)
          · exact hc ⟨a, b⟩

/-- the attributes of a node after `show_flow` -/
def markNode (x d : Int) (a : Attrs N) : Attrs N := a.set "label" (.str (toString x ++ "/" ++ toString d))

theorem showNodes_ok (cap flow : N × N → Int) (excess dist : N → Int) : ∀ (l : List N) (g : Graph N), l.Nodup →
    g.directed = true →
    (∀ n ∈ l, ∃ d nb, g.nodes.get? n = some d ∧ d.get? "excess" = some (.int (excess n)) ∧
      d.get? "distance" = some (.int (dist n)) ∧ g.neighbors.get? n = some nb ∧ nb.Nodup ∧
      ∀ v, v ∈ nb ↔ (n, v) ∈ g.edgeAttr.keys) →
    (∀ e ∈ g.edgeAttr.keys, e.1 ∈ l → ∃ d, g.edgeAttr.get? e = some d ∧ d.get? "capacity" = some (.int (cap e)) ∧
      d.get? "flow" = some (.int (flow e))) → ∃ g', showNodes l g = .ok () g' ∧ g'.directed = g.directed ∧
      g'.neighbors = g.neighbors ∧ g'.inNeighbors = g.inNeighbors ∧ g'.nodes.keys = g.nodes.keys ∧
      g'.edgeAttr.keys = g.edgeAttr.keys ∧
      (∀ n, g'.nodes.get? n = if n ∈ l then (g.nodes.get? n).map (markNode (excess n) (dist n)) else g.nodes.get? n) ∧
      ∀ e, g'.edgeAttr.get? e = if e.1 ∈ l then (g.edgeAttr.get? e).map (markArc (cap e) (flow e)) else g.edgeAttr.get? e
  | [], g, _, _, _, _ => ⟨g, rfl, rfl, rfl, rfl, rfl, rfl, by simp, by simp⟩
  | n :: l, g, hn, hd, h, he => by
    obtain ⟨d, nb, h1, h2, h3, h4, h5, h6⟩ := h n (by simp)
    rw [List.nodup_cons] at hn
    obtain ⟨g1, r1, r2, r3, r4, r5, r6, r7⟩ := showArcs_ok n cap flow nb
      { g with nodes := g.nodes.set n (markNode (excess n) (dist n) d) } h5 hd (by
        intro v hv
        exact he (n, v) ((h6 v).1 hv) (by simp))
    have hnode : ∀ m, g1.nodes.get? m = if m = n then some (markNode (excess n) (dist n) d) else g.nodes.get? m := by
      intro m
      rw [r5]
      show (g.nodes.set _ _).get? m = _
      rw [Dict.get?_set]
      by_cases e : n = m
      · rw [if_pos e, if_pos e.symm]
      · rw [if_neg e, if_neg (Ne.symm e)]
    obtain ⟨g2, t1, t2, t3, t4, t5, t6, t7, t8⟩ := showNodes_ok cap flow excess dist l g1 hn.2 (r2.trans hd) (by
        intro m hm
        obtain ⟨d', nb', k1, k2, k3, k4, k5, k6⟩ := h m (List.mem_cons_of_mem _ hm)
        refine ⟨d', nb', ?_, k2, k3, ?_, k5, ?_⟩
        · rw [hnode, if_neg (by rintro rfl; exact hn.1 hm)]
          exact k1
        · rw [r3]; exact k4
        · intro v
          rw [r6]
          exact k6 v) (by
        intro e hk hl
        rw [r6] at hk
        obtain ⟨d', k1⟩ := he e hk (List.mem_cons_of_mem _ hl)
        refine ⟨d', ?_, k1.2⟩
        rw [r7, if_neg (by rintro ⟨rfl, _⟩; exact hn.1 hl)]
        exact k1.1)
    refine ⟨g2, ?_, t2.trans r2, t3.trans r3, t4.trans r4, ?_, t6.trans r6, ?_, ?_⟩
    · unfold showNodes
      have e1 : (get : GM N (Graph N)) g = .ok g g := rfl
      rw [bind_ok e1]
      have c1 : nodeInt g n "excess" = .ok (excess n) := by
        unfold nodeInt Graph.getNodeAttr; rw [h1]; simp only [h2, Option.getD_some]
      have c2 : nodeInt g n "distance" = .ok (dist n) := by
        unfold nodeInt Graph.getNodeAttr; rw [h1]; simp only [h3, Option.getD_some]
      rw [c1, c2]
      simp only []
      have s1 : Graph.setNodeAttr n "label" (.str (strInt (excess n) ++ "/" ++ strInt (dist n))) g =
        .ok ⟨⟩ { g with nodes := g.nodes.set n (markNode (excess n) (dist n) d) } := by
        have := Graph.setNodeAttr_run g n "label" (.str (strInt (excess n) ++ "/" ++ strInt (dist n)))
        rw [h1] at this
        exact this
      rw [bind_ok s1]
      have e2 : (get : GM N (Graph N)) { g with nodes := g.nodes.set n (markNode (excess n) (dist n) d) } = .ok _ _ := rfl
      rw [bind_ok e2]
      have e3 : Graph.getNeighbors { g with nodes := g.nodes.set n (markNode (excess n) (dist n) d) } n = .ok nb := by
        unfold Graph.getNeighbors
        simp only [h4]
      rw [e3]
      simp only []
      rw [bind_ok r1]
      exact t1
    · rw [t5, r5]
      exact Dict.keys_set_of_mem _ (Dict.mem_keys_of_get? h1)
    · intro m
      rw [t7, hnode]
      by_cases e : m = n
      · subst e
        rw [if_neg hn.1, if_pos rfl, if_pos (by simp), h1]
        rfl
      · rw [if_neg e]
        by_cases hl : m ∈ l
        · rw [if_pos hl, if_pos (List.mem_cons_of_mem _ hl)]
        · rw [if_neg hl, if_neg (by simp [e, hl])]
    · intro e
      rw [t8, r7]
      show (if e.1 ∈ l then Option.map _ (if _ then Option.map _ (g.edgeAttr.get? e) else g.edgeAttr.get? e) else
        (if _ then Option.map _ (g.edgeAttr.get? e) else g.edgeAttr.get? e)) = _
      by_cases e1 : e.1 = n
      · rw [if_neg (by rw [e1]; exact hn.1), if_pos (show e.1 ∈ n :: l by simp [e1])]
        cases hx : g.edgeAttr.get? e with
        | none => simp
        | some x =>
          rw [if_pos ⟨e1, (h6 e.2).2 (by rw [← e1]; exact Dict.mem_keys_of_get? hx)⟩]
      · rw [if_neg (fun h : e.1 = n ∧ e.2 ∈ nb => e1 h.1)]
        by_cases hl : e.1 ∈ l
        · rw [if_pos hl, if_pos (List.mem_cons_of_mem _ hl)]
        · rw [if_neg hl, if_neg (by simp [e1, hl])]

/-- **C82.** On a digraph whose nodes have integer excess and distance and whose arcs have integer capacity and flow,
`show_flow` labels every node with excess/distance and every arc with capacity/flow, colours the arcs by saturation, and
changes nothing else. -/
theorem C82_show_flow (hg : Built g) (hd : g.directed = true) (cap flow : N × N → Int) (excess dist : N → Int)
    (hn : ∀ n ∈ g.getNodeList, ∃ d, g.nodes.get? n = some d ∧ d.get? "excess" = some (.int (excess n)) ∧
      d.get? "distance" = some (.int (dist n)))
    (he : ∀ e ∈ g.getEdgeList, ∃ d, g.edgeAttr.get? e = some d ∧ d.get? "capacity" = some (.int (cap e)) ∧
      d.get? "flow" = some (.int (flow e))) :
    ∃ g', showFlow g = .ok () g' ∧ g'.directed = g.directed ∧ g'.neighbors = g.neighbors ∧
      g'.inNeighbors = g.inNeighbors ∧ g'.nodes.keys = g.nodes.keys ∧ g'.edgeAttr.keys = g.edgeAttr.keys ∧
      (∀ n d, g.nodes.get? n = some d → ∃ d', g'.nodes.get? n = some d' ∧
        d'.get? "label" = some (.str (toString (excess n) ++ "/" ++ toString (dist n))) ∧
        ∀ a, a ≠ "label" → d'.get? a = d.get? a) ∧
      ∀ e d, g.edgeAttr.get? e = some d → ∃ d', g'.edgeAttr.get? e = some d' ∧
        d'.get? "label" = some (.str (flowLabel (cap e) (flow e))) ∧
        d'.get? "color" = some (.str (flowColour (cap e) (flow e))) ∧
        ∀ a, a ≠ "label" → a ≠ "color" → d'.get? a = d.get? a := by
  have hwf := hg.wf
  obtain ⟨g', h1, h2, h3, h4, h5, h6, h7, h8⟩ := showNodes_ok cap flow excess dist g.getNodeList g hwf.nodup hd (by
    intro n hn'
    obtain ⟨d, k1, k2, k3⟩ := hn n hn'
    obtain ⟨nb, k4, k5⟩ := Misc.nbrs_get hn'
    refine ⟨d, nb, k1, k2, k3, k4, Preflow.out_nodup hwf hd k5, fun v => ?_⟩
    have := Graph.mem_nbrs_iff hwf hd n v
    rw [k4] at this
    simpa using this) (fun e h _ => he e h)
  refine ⟨g', h1, h2, h3, h4, h5, h6, ?_, ?_⟩
  · intro n d hx
    have hm : n ∈ g.getNodeList := by
      have := Dict.mem_keys_of_get? hx
      rw [hwf.nodesEq] at this
      exact this
    refine ⟨markNode (excess n) (dist n) d, ?_, Dict.get?_set_self _ _ _, fun a ha => Dict.get?_set_ne _ _ (Ne.symm ha)⟩
    rw [h7, if_pos hm, hx]
    rfl
  · intro e d hx
    have hm : e.1 ∈ g.getNodeList := (hwf.endp e.1 e.2 (Dict.mem_keys_of_get? hx)).1
    refine ⟨markArc (cap e) (flow e) d, ?_, ?_, Dict.get?_set_self _ _ _, fun a h1 h2 => ?_⟩
    · rw [h8, if_pos hm, hx]
      rfl
    · exact (Dict.get?_set_ne _ _ (by decide)).trans (Dict.get?_set_self _ _ _)
    · exact (Dict.get?_set_ne _ _ (Ne.symm h2)).trans (Dict.get?_set_ne _ _ (Ne.symm h1))

/-! ## simplex_mark_st_arcs -/

theorem markTree_ok (tel : List (N × N)) : ∀ (l : List (N × N)) (g : Graph N), l.Nodup →
    (∀ e ∈ l, ∃ d f c, g.edgeAttr.get? e = some d ∧ d.get? "flow" = some f ∧ d.get? "capacity" = some c ∧
      (e ∈ tel ∨ f = .int 0 ∨ f = c)) →
    ∃ g', markTree tel l g = .ok () g' ∧ g'.directed = g.directed ∧ g'.neighbors = g.neighbors ∧
      g'.inNeighbors = g.inNeighbors ∧ g'.nodes = g.nodes ∧ g'.edgeAttr.keys = g.edgeAttr.keys ∧
      ∀ e, g'.edgeAttr.get? e = if e ∈ l then
        (g.edgeAttr.get? e).map (·.set "color" (.str (if e ∈ tel then "blue" else "black"))) else g.edgeAttr.get? e
  | [], g, _, _ => ⟨g, rfl, rfl, rfl, rfl, rfl, rfl, by simp⟩
  | e :: l, g, hn, h => by
    obtain ⟨d, f, c, h1, h2, h3, h4⟩ := h e (by simp)
    rw [List.nodup_cons] at hn
    have hget : ∀ x e', (g.edgeAttr.set e x).get? e' = if e' = e then some x else g.edgeAttr.get? e' := by
      intro x e'
      rw [Dict.get?_set]
      by_cases he : e = e'
      · rw [if_pos he, if_pos he.symm]
      · rw [if_neg he, if_neg (Ne.symm he)]
    obtain ⟨g', r1, r2, r3, r4, r5, r6, r7⟩ := markTree_ok tel l
      { g with edgeAttr := g.edgeAttr.set e (d.set "color" (.str (if e ∈ tel then "blue" else "black"))) } hn.2 (by
        intro e' he'
        obtain ⟨d', f', c', k1, k2⟩ := h e' (List.mem_cons_of_mem _ he')
        refine ⟨d', f', c', ?_, k2⟩
        show (g.edgeAttr.set _ _).get? _ = _
        rw [hget, if_neg (by rintro rfl; exact hn.1 he')]
        exact k1)
    have s1 : ∀ y, Graph.setEdgeAttr e.1 e.2 "color" y g = .ok ⟨⟩ { g with edgeAttr := g.edgeAttr.set e (d.set "color" y) } := by
      intro y
      have := Graph.setEdgeAttr_run g e.1 e.2 "color" y
      rw [h1] at this
      exact this
    refine ⟨g', ?_, r2, r3, r4, r5, r6.trans (Dict.keys_set_of_mem _ (Dict.mem_keys_of_get? h1)), ?_⟩
    · unfold markTree
      have e1 : (get : GM N (Graph N)) g = .ok g g := rfl
      rw [bind_ok e1, h1]
      simp only [Option.bind_some, h2, h3]
      by_cases ht : e ∈ tel
      · rw [if_pos (by simpa using ht)]
        have : (if f = Val.int 0 then "blue" else if f = c then "blue" else "blue") = "blue" := by
          split
          · rfl
          · split <;> rfl
        rw [this, bind_ok (s1 _)]
        simp only [if_pos ht] at r1
        exact r1
      · rw [if_neg (by simpa using ht)]
        simp only [if_neg ht] at r1
        by_cases h0 : f = .int 0
        · rw [if_pos h0, bind_ok (s1 _)]
          exact r1
        · rw [if_neg h0, if_pos (by rcases h4 with h | h | h; exacts [absurd h ht, absurd h h0, h]), bind_ok (s1 _)]
          exact r1
    · intro e'
      rw [r7]
      show (if e' ∈ l then Option.map _ (Dict.get? (g.edgeAttr.set _ _) e') else Dict.get? (g.edgeAttr.set _ _) e') = _
      rw [hget]
      by_cases he : e' = e
      · subst he
        rw [if_neg hn.1, if_pos rfl, if_pos (show e' ∈ e' :: l by simp), h1]
        rfl
      · rw [if_neg he]
        by_cases hl : e' ∈ l
        · rw [if_pos hl, if_pos (List.mem_cons_of_mem _ hl)]
        · rw [if_neg hl, if_neg (by simp [he, hl])]

/-- **C83** is false as stated: the comment promises five colours.  Exact: if every arc outside the tree has flow zero or equal
to its capacity, `simplex_mark_st_arcs` colours the arcs of the tree blue and the other arcs black, whatever their flow is,
and changes nothing else. -/
theorem C83_mark_partial (hg : Built g) (tel : List (N × N))
    (h : ∀ e ∈ g.getEdgeList, ∃ d f c, g.edgeAttr.get? e = some d ∧ d.get? "flow" = some f ∧ d.get? "capacity" = some c ∧
      (e ∈ tel ∨ f = .int 0 ∨ f = c)) :
    ∃ g', markTree tel g.getEdgeList g = .ok () g' ∧ g'.directed = g.directed ∧ g'.neighbors = g.neighbors ∧
      g'.inNeighbors = g.inNeighbors ∧ g'.nodes = g.nodes ∧ g'.edgeAttr.keys = g.edgeAttr.keys ∧
      ∀ e d, g.edgeAttr.get? e = some d → ∃ d', g'.edgeAttr.get? e = some d' ∧
        d'.get? "color" = some (.str (if e ∈ tel then "blue" else "black")) ∧ ∀ a, a ≠ "color" → d'.get? a = d.get? a := by
  obtain ⟨g', h1, h2, h3, h4, h5, h6, h7⟩ := markTree_ok tel g.getEdgeList g hg.wf.edup h
  refine ⟨g', h1, h2, h3, h4, h5, h6, fun e d hx => ?_⟩
  refine ⟨_, by rw [h7, if_pos (show e ∈ g.getEdgeList from Dict.mem_keys_of_get? hx), hx]; rfl, Dict.get?_set_self _ _ _, fun a ha =>
    Dict.get?_set_ne _ _ (Ne.symm ha)⟩

theorem markTree_raises (tel : List (N × N)) : ∀ (l : List (N × N)) (g : Graph N), l.Nodup →
    (∀ e ∈ l, ∃ d f c, g.edgeAttr.get? e = some d ∧ d.get? "flow" = some f ∧ d.get? "capacity" = some c) →
    (∃ e ∈ l, ∃ d f c, g.edgeAttr.get? e = some d ∧ d.get? "flow" = some f ∧ d.get? "capacity" = some c ∧
      e ∉ tel ∧ f ≠ .int 0 ∧ f ≠ c) → ∃ g', markTree tel l g = .error .exception g'
  | [], g, _, _, h => by obtain ⟨e, h, _⟩ := h; cases h
  | e :: l, g, hn, h, hb => by
    obtain ⟨d, f, c, h1, h2, h3⟩ := h e (by simp)
    rw [List.nodup_cons] at hn
    have hget : ∀ x e', e' ∈ l → (g.edgeAttr.set e x).get? e' = g.edgeAttr.get? e' := by
      intro x e' he'
      rw [Dict.get?_set, if_neg (by rintro rfl; exact hn.1 he')]
    have s1 : ∀ y, Graph.setEdgeAttr e.1 e.2 "color" y g = .ok ⟨⟩ { g with edgeAttr := g.edgeAttr.set e (d.set "color" y) } := by
      intro y
      have := Graph.setEdgeAttr_run g e.1 e.2 "color" y
      rw [h1] at this
      exact this
    have e1 : (get : GM N (Graph N)) g = .ok g g := rfl
    have ih : ∀ y, (e ∈ tel ∨ f = .int 0 ∨ f = c) →
        ∃ g', markTree tel l { g with edgeAttr := g.edgeAttr.set e (d.set "color" y) } = .error .exception g' := by
      intro y hok
      refine markTree_raises tel l _ hn.2 ?_ ?_
      · intro e' he'
        obtain ⟨d', f', c', k1, k2⟩ := h e' (List.mem_cons_of_mem _ he')
        exact ⟨d', f', c', (hget _ _ he').trans k1, k2⟩
      · obtain ⟨e', he', d', f', c', k1, k2, k3, k4, k5, k6⟩ := hb
        rcases List.mem_cons.1 he' with rfl | he'
        · rw [h1] at k1
          cases k1
          rw [h2] at k2
          cases k2
          rw [h3] at k3
          cases k3
          rcases hok with h | h | h
          exacts [absurd h k4, absurd h k5, absurd h k6]
        · exact ⟨e', he', d', f', c', (hget _ _ he').trans k1, k2, k3, k4, k5, k6⟩
    unfold markTree
    rw [bind_ok e1, h1]
    simp only [Option.bind_some, h2, h3]
    by_cases ht : e ∈ tel
    · rw [if_pos (by simpa using ht), bind_ok (s1 _)]
      exact ih _ (.inl ht)
    · rw [if_neg (by simpa using ht)]
      by_cases h0 : f = .int 0
      · rw [if_pos h0, bind_ok (s1 _)]
        exact ih _ (.inr (.inl h0))
      · rw [if_neg h0]
        by_cases hc : f = c
        · rw [if_pos hc, bind_ok (s1 _)]
          exact ih _ (.inr (.inr hc))
        · rw [if_neg hc]
          exact ⟨_, rfl⟩

/-- an arc outside the tree whose flow is not at a bound is reported with an exception -/
theorem C83_between_bounds (hg : Built g) (tel : List (N × N))
    (h : ∀ e ∈ g.getEdgeList, ∃ d f c, g.edgeAttr.get? e = some d ∧ d.get? "flow" = some f ∧ d.get? "capacity" = some c)
    (hb : ∃ e ∈ g.getEdgeList, ∃ d f c, g.edgeAttr.get? e = some d ∧ d.get? "flow" = some f ∧
      d.get? "capacity" = some c ∧ e ∉ tel ∧ f ≠ .int 0 ∧ f ≠ c) :
    ∃ g', markTree tel g.getEdgeList g = .error .exception g' :=
  markTree_raises tel _ g hg.wf.edup h hb

/-- two arcs of the tree, one at its lower and one at its upper bound, get the same colour -/
theorem C83_same_colour : ∃ (g : Graph Nat) (g' : Graph Nat), Built g ∧
    markTree [(0, 1), (1, 2)] g.getEdgeList g = .ok () g' ∧
    decide ((g.edgeAttr.get? (0, 1)).bind (·.get? "flow") = some (.int 0)) = true ∧
    decide ((g.edgeAttr.get? (1, 2)).bind (·.get? "flow") = (g.edgeAttr.get? (1, 2)).bind (·.get? "capacity")) = true ∧
    (g'.edgeAttr.get? (0, 1)).bind (·.get? "color") = (g'.edgeAttr.get? (1, 2)).bind (·.get? "color") :=
  ⟨_, _, ⟨true, [.addEdge 0 1 [("flow", .int 0), ("capacity", .int 3)], .addEdge 1 2 [("flow", .int 3), ("capacity", .int 3)]],
    by intro op _; cases op <;> simp [Op.InScope], rfl⟩, rfl, by decide +kernel, by decide +kernel, by decide +kernel⟩

/-- entering arc green, leaving arc red; on a digraph the arc must exist -/
theorem C83_mark_arc {e : N × N} {d : Attrs N} (hx : g.edgeAttr.get? e = some d) :
    markEntering e.1 e.2 g = .ok () { g with edgeAttr := g.edgeAttr.set e (d.set "color" (.str "green")) } ∧
    markLeaving e.1 e.2 g = .ok () { g with edgeAttr := g.edgeAttr.set e (d.set "color" (.str "red")) } := by
  constructor
  · have := Graph.setEdgeAttr_run g e.1 e.2 "color" (.str "green")
    rw [hx] at this
    exact this
  · have := Graph.setEdgeAttr_run g e.1 e.2 "color" (.str "red")
    rw [hx] at this
    exact this

/-! ## Examples -/

/-- one saturated arc, one with some flow, one that is unbounded -/
def exShow : List (Op Nat) :=
  [.addNode 0 [("excess", .int (-5)), ("distance", .int 3)], .addNode 1 [("excess", .int 2), ("distance", .int 1)],
   .addNode 2 [("excess", .int 3), ("distance", .int 0)],
   .addEdge 0 1 [("flow", .int 3), ("capacity", .int 3)], .addEdge 1 2 [("flow", .int 1), ("capacity", .int 4)],
   .addEdge 0 2 [("flow", .int 0), ("capacity", .int 10000)]]

def exShowG : Graph Nat := runOps (Graph.init true) exShow

def exCap : Nat × Nat → Int := fun e => if e = (0, 1) then 3 else if e = (1, 2) then 4 else 10000
def exFlow : Nat × Nat → Int := fun e => if e = (0, 1) then 3 else if e = (1, 2) then 1 else 0
def exExcess : Nat → Int := fun n => if n = 0 then -5 else if n = 1 then 2 else 3
def exDist : Nat → Int := fun n => if n = 0 then 3 else if n = 1 then 1 else 0

theorem exShowG_built : Built exShowG := ⟨true, exShow, by intro op _; cases op <;> simp [Op.InScope], rfl⟩

/-- the hypotheses of C82 -/
example : Built exShowG ∧ exShowG.directed = true ∧
    (∀ n ∈ exShowG.getNodeList, ∃ d, exShowG.nodes.get? n = some d ∧ d.get? "excess" = some (.int (exExcess n)) ∧
      d.get? "distance" = some (.int (exDist n))) ∧
    ∀ e ∈ exShowG.getEdgeList, ∃ d, exShowG.edgeAttr.get? e = some d ∧ d.get? "capacity" = some (.int (exCap e)) ∧
      d.get? "flow" = some (.int (exFlow e)) := by
  refine ⟨exShowG_built, rfl, ?_, ?_⟩
  · intro n hn
    have : n = 0 ∨ n = 1 ∨ n = 2 := by
      have h : exShowG.getNodeList = [0, 1, 2] := by decide
      rw [h] at hn
      simpa using hn
    rcases this with rfl | rfl | rfl <;> exact ⟨_, rfl, by decide, by decide⟩
  · intro e he
    have : e = (0, 1) ∨ e = (1, 2) ∨ e = (0, 2) := by
      have h : exShowG.getEdgeList = [(0, 1), (1, 2), (0, 2)] := by decide
      rw [h] at he
      simpa using he
    rcases this with rfl | rfl | rfl <;> exact ⟨_, rfl, by decide, by decide⟩

/-- the hypotheses of C83, with the arc (1, 2), which is not at a bound, in the tree -/
example : Built exShowG ∧ ∀ e ∈ exShowG.getEdgeList, ∃ d f c, exShowG.edgeAttr.get? e = some d ∧
    d.get? "flow" = some f ∧ d.get? "capacity" = some c ∧ (e ∈ [(1, 2)] ∨ f = .int 0 ∨ f = c) := by
  refine ⟨exShowG_built, ?_⟩
  intro e he
  have : e = (0, 1) ∨ e = (1, 2) ∨ e = (0, 2) := by
    have h : exShowG.getEdgeList = [(0, 1), (1, 2), (0, 2)] := by decide
    rw [h] at he
    simpa using he
  rcases this with rfl | rfl | rfl <;> exact ⟨_, _, _, rfl, rfl, rfl, by decide⟩

/-- the hypotheses of C83_between_bounds, without a tree -/
example : ∃ e ∈ exShowG.getEdgeList, ∃ d f c, exShowG.edgeAttr.get? e = some d ∧ d.get? "flow" = some f ∧
    d.get? "capacity" = some c ∧ e ∉ ([] : List (Nat × Nat)) ∧ f ≠ .int 0 ∧ f ≠ c :=
  ⟨(1, 2), by decide, _, _, _, rfl, rfl, rfl, by decide, by decide, by decide⟩

/-- three colours, and the label of the unbounded arc -/
example : flowColour 3 3 = "red" ∧ flowColour 4 1 = "green" ∧ flowColour 10000 0 = "black" ∧ flowLabel 10000 0 = "INF/0" ∧
    flowLabel 4 1 = "4/1" := by decide

end GiMPy
