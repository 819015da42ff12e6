import Verif.Model.MinCost
import Verif.Lemmas.MaxFlow
import Verif.Lemmas.FloydWarshall

/-! # The residual graph and augmentation along its cycles -/

namespace GiMPy
variable {N : Type} [DecidableEq N] {Q : Type} {g : Graph N}
set_option linter.unusedSectionVars false

theorem runOps_append (g : Graph N) (ops ops' : List (Op N)) : runOps g (ops ++ ops') = runOps (runOps g ops) ops' := by
  induction ops generalizing g with
  | nil => rfl
  | cons op ops ih => exact ih _

/-- a call that returns normally on a digraph keeps `Built` -/
theorem Built.call {g g' : Graph N} (hg : Built g) (hd : g.directed = true) {op : Op N} (h : g.call op = .ok g') :
    Built g' := by
  obtain ⟨d, ops, h1, rfl⟩ := hg
  have hd' : d = true := by
    have := (rep_reachable d ops h1).dir
    rw [hd] at this
    have key : ∀ (a : AGraph N) (ops : List (Op N)), (a.run ops).2.directed = a.directed := by
      intro a ops
      induction ops generalizing a with
      | nil => rfl
      | cons op ops ih => simp only [AGraph.run]; rw [ih, step_directed]
    rw [key] at this; exact this.symm
  subst hd'
  refine ⟨true, ops ++ [op], ?_, ?_⟩
  · intro o _; cases o <;> simp [Op.InScope]
  · rw [runOps_append]
    unfold Graph.call at h
    simp only [runOps]
    cases hr : op.call.run (runOps (Graph.init true) ops) with
    | ok x s => rw [hr] at h; cases h; rfl
    | error e s => rw [hr] at h; cases h

/-- a call that does not raise on the abstract graph -/
theorem rep_call {g : Graph N} {a : AGraph N} (h : Rep g a) (hd : a.directed = true) (op : Op N)
    (hn : (a.step op).1 = none) : ∃ g', g.call op = .ok g' ∧ Rep g' (a.step op).2 := by
  obtain ⟨h1, h2⟩ := rep_step h op (by rw [hd]; cases op <;> simp [Op.InScope])
  unfold Graph.call
  cases hr : op.call.run g with
  | ok x s => rw [hr] at h2; exact ⟨s, rfl, h2⟩
  | error e s => rw [hr, hn] at h1; cases h1

theorem rep_addEdge {g : Graph N} {a : AGraph N} (h : Rep g a) (hd : a.directed = true) {u v : N} (huv : (u, v) ∉ a.E)
    (attr : List (String × Val N)) : ∃ g' a', g.call (.addEdge u v attr) = .ok g' ∧ Rep g' a' ∧ a'.directed = true ∧
      a'.E = a.E ++ [(u, v)] ∧ a'.ea = AGraph.upd a.ea (u, v) (AGraph.kw attr) ∧
      a'.V = ((a.ensure u).ensure v).V ∧ a'.na = ((a.ensure u).ensure v).na := by
  have hk : (a.key? u v).isSome = false := by simp [AGraph.key?, huv, hd]
  have hst : a.step (.addEdge u v attr) = (none, { (a.ensure u).ensure v with
      E := a.E ++ [(u, v)], ea := AGraph.upd a.ea (u, v) (AGraph.kw attr) }) := by
    simp [AGraph.step, hk]
  obtain ⟨g', h1, h2⟩ := rep_call h hd (.addEdge u v attr) (by rw [hst])
  rw [hst] at h2
  exact ⟨g', _, h1, h2, by simp [hd], rfl, rfl, rfl, rfl⟩

theorem getEdgeAttr_rep {g : Graph N} {a : AGraph N} (h : Rep g a) (hd : a.directed = true) (u v : N) (s : String) :
    g.getEdgeAttr u v s = if (u, v) ∈ a.E then (match a.ea (u, v) s with | some x => .ok x | none => .error .keyError)
      else .error .keyError := by
  unfold Graph.getEdgeAttr
  rw [h.dir, hd, if_pos rfl]
  by_cases hm : (u, v) ∈ a.E
  · rw [if_pos hm, h.ea _ hm s]
    cases a.ea (u, v) s <;> rfl
  · rw [if_neg hm]
    have : g.edgeAttr.get? (u, v) = none := (Dict.get?_eq_none_iff _ _).2 (by rw [h.E]; exact hm)
    rw [this]; rfl

namespace MinCost
open MaxFlow

/-- cost of a step in the residual graph -/
def rcost (g : Graph N) (cost : N × N → Int) (u v : N) : Int :=
  if (u, v) ∈ g.getEdgeList then cost (u, v) else - cost (v, u)

/-- the graph has neither antiparallel arcs nor self loops -/
def Simple (E : List (N × N)) : Prop := ∀ u v, (u, v) ∈ E → (v, u) ∉ E

/-- the residual graph of the arcs in `l` -/
structure ResInv (g : Graph N) (cap f cost : N × N → Int) (l : List (N × N)) (r : Graph N) (a : AGraph N) : Prop where
  rep : Rep r a
  built : Built r
  dir : a.directed = true
  mem : ∀ e, e ∈ a.E ↔ (e ∈ l ∨ (e.2, e.1) ∈ l) ∧ 0 < pot g cap f e.1 e.2
  attrs : ∀ e ∈ a.E, a.ea e "cost" = some (.int (rcost g cost e.1 e.2)) ∧
    a.ea e "capacity" = some (.int (pot g cap f e.1 e.2))

theorem kw_cost (c x : Int) : AGraph.kw (N := N) [("cost", .int c), ("capacity", .int x)] "cost" = some (.int c) := by
  simp [AGraph.kw, List.find?]

theorem kw_capacity (c x : Int) : AGraph.kw (N := N) [("cost", .int c), ("capacity", .int x)] "capacity" = some (.int x) := by
  simp [AGraph.kw, List.find?]

variable {cap f cost : N × N → Int}

theorem residualLoop_ok (hE : g.getEdgeList.Nodup) (hs : Simple g.getEdgeList) {capR : N → N → Except PyErr Int}
    (hcap : ∀ e ∈ g.getEdgeList, capR e.1 e.2 = .ok (cap e)) (hcost : ∀ e ∈ g.getEdgeList, g.getEdgeCost e.1 e.2 = .ok (cost e)) :
    ∀ (l l' : List (N × N)) (r : Graph N) (a : AGraph N), l' ++ l = g.getEdgeList → ResInv g cap f cost l' r a →
      ∃ r' a', residualLoop g capR f l r = .ok r' ∧ ResInv g cap f cost g.getEdgeList r' a' := by
  intro l
  induction l with
  | nil => intro l' r a hl h; rw [List.append_nil] at hl; subst hl; exact ⟨r, a, rfl, h⟩
  | cons e l ih =>
    intro l' r a hl h
    obtain ⟨u, v⟩ := e
    have he : (u, v) ∈ g.getEdgeList := by rw [← hl]; simp
    have hvu : (v, u) ∉ g.getEdgeList := hs u v he
    have hl' : ∀ e ∈ l', e ∈ g.getEdgeList := fun e he => by rw [← hl]; simp [he]
    have hne : u ≠ v := by rintro rfl; exact hvu he
    have hnd : (u, v) ∉ l' := by
      rw [← hl, List.nodup_append] at hE
      intro hm; exact hE.2.2 _ hm (u, v) (by simp) rfl
    have p1 : pot g cap f u v = cap (u, v) - f (u, v) := by simp [pot, he]
    have p2 : pot g cap f v u = f (u, v) := by simp [pot, hvu]
    have c1 : rcost g cost u v = cost (u, v) := by simp [rcost, he]
    have c2 : rcost g cost v u = - cost (u, v) := by simp [rcost, hvu]
    have n1 : (u, v) ∉ a.E := by
      intro hm
      rcases ((h.mem _).1 hm).1 with hm | hm
      · exact hnd hm
      · exact hvu (hl' _ hm)
    have n2 : (v, u) ∉ a.E := by
      intro hm
      rcases ((h.mem _).1 hm).1 with hm | hm
      · exact hvu (hl' _ hm)
      · exact hnd hm
    unfold residualLoop
    rw [hcap _ he, flowOf_ok he, hcost _ he]
    simp only []
    -- the arc against the flow
    have s1 : ∃ r1 a1, addBack r (u, v) (f (u, v)) (cost (u, v)) = .ok r1 ∧ Rep r1 a1 ∧ Built r1 ∧ a1.directed = true ∧
        (∀ e, e ∈ a1.E ↔ e ∈ a.E ∨ (e = (v, u) ∧ 0 < pot g cap f v u)) ∧
        (∀ e ∈ a1.E, a1.ea e "cost" = some (.int (rcost g cost e.1 e.2)) ∧
          a1.ea e "capacity" = some (.int (pot g cap f e.1 e.2))) := by
      unfold addBack
      by_cases hp : f (u, v) > 0
      · rw [if_pos hp]
        obtain ⟨r1, a1, h1, h2, h3, h4, h5, _⟩ := rep_addEdge h.rep h.dir n2
          [("cost", .int (-1 * cost (u, v))), ("capacity", .int (f (u, v)))]
        refine ⟨r1, a1, h1, h2, h.built.call (by rw [h.rep.dir, h.dir]) h1, h3, ?_, ?_⟩
        · intro e; rw [h4, p2]; simp [hp]
        · intro e hm
          rw [h4] at hm
          rw [h5]
          by_cases hev : e = (v, u)
          · subst hev
            simp only [AGraph.upd, if_pos, kw_cost, kw_capacity, c2, p2]
            simp
          · simp only [AGraph.upd, if_neg hev]
            refine h.attrs e ?_
            simpa [hev] using hm
      · rw [if_neg hp]
        refine ⟨r, a, rfl, h.rep, h.built, h.dir, ?_, h.attrs⟩
        intro e; rw [p2]; simp [hp]
    obtain ⟨r1, a1, h1, h2, h3, h4, h5, h6⟩ := s1
    rw [h1]
    simp only []
    have n3 : (u, v) ∉ a1.E := by
      rw [h5]; rintro (hm | ⟨hm, _⟩)
      · exact n1 hm
      · exact hne (Prod.mk.inj hm).1
    have s2 : ∃ r2 a2, addForth r1 (u, v) (cap (u, v)) (f (u, v)) (cost (u, v)) = .ok r2 ∧ Rep r2 a2 ∧ Built r2 ∧
        a2.directed = true ∧ (∀ e, e ∈ a2.E ↔ e ∈ a1.E ∨ (e = (u, v) ∧ 0 < pot g cap f u v)) ∧
        (∀ e ∈ a2.E, a2.ea e "cost" = some (.int (rcost g cost e.1 e.2)) ∧
          a2.ea e "capacity" = some (.int (pot g cap f e.1 e.2))) := by
      unfold addForth
      by_cases hp : cap (u, v) - f (u, v) > 0
      · rw [if_pos hp]
        obtain ⟨r2, a2, k1, k2, k3, k4, k5, _⟩ := rep_addEdge h2 h4 n3
          [("cost", .int (cost (u, v))), ("capacity", .int (cap (u, v) - f (u, v)))]
        refine ⟨r2, a2, k1, k2, h3.call (by rw [h2.dir, h4]) k1, k3, ?_, ?_⟩
        · intro e; rw [k4, p1]; simp only [List.mem_append, List.mem_singleton]
          constructor
          · rintro (h | h)
            · exact .inl h
            · exact .inr ⟨h, hp⟩
          · rintro (h | h)
            · exact .inl h
            · exact .inr h.1
        · intro e hm
          rw [k4] at hm
          rw [k5]
          by_cases hev : e = (u, v)
          · subst hev
            simp only [AGraph.upd, if_pos, kw_cost, kw_capacity, c1, p1]
            simp
          · simp only [AGraph.upd, if_neg hev]
            refine h6 e ?_
            simpa [hev] using hm
      · rw [if_neg hp]
        refine ⟨r1, a1, rfl, h2, h3, h4, ?_, h6⟩
        intro e; rw [p1]
        constructor
        · exact .inl
        · rintro (h | h)
          · exact h
          · exact absurd h.2 hp
    obtain ⟨r2, a2, k1, k2, k3, k4, k5, k6⟩ := s2
    rw [k1]
    simp only []
    refine ih (l' ++ [(u, v)]) r2 a2 (by rw [← hl]; simp) ⟨k2, k3, k4, ?_, k6⟩
    intro e
    rw [k5, h5, h.mem]
    obtain ⟨x, y⟩ := e
    simp only [List.mem_append, List.mem_singleton, Prod.mk.injEq]
    constructor
    · rintro ((⟨h | h, hp⟩ | ⟨⟨rfl, rfl⟩, hp⟩) | ⟨⟨rfl, rfl⟩, hp⟩)
      · exact ⟨.inl (.inl h), hp⟩
      · exact ⟨.inr (.inl h), hp⟩
      · exact ⟨.inr (.inr ⟨rfl, rfl⟩), hp⟩
      · exact ⟨.inl (.inr ⟨rfl, rfl⟩), hp⟩
    · rintro ⟨(h | ⟨rfl, rfl⟩) | (h | ⟨rfl, rfl⟩), hp⟩
      · exact .inl (.inl ⟨.inl h, hp⟩)
      · exact .inr ⟨⟨rfl, rfl⟩, hp⟩
      · exact .inl (.inl ⟨.inr h, hp⟩)
      · exact .inl (.inr ⟨⟨rfl, rfl⟩, hp⟩)

theorem residual_ok (hE : g.getEdgeList.Nodup) (hd : g.directed = true) (hs : Simple g.getEdgeList)
    {capR : N → N → Except PyErr Int} (hcap : ∀ e ∈ g.getEdgeList, capR e.1 e.2 = .ok (cap e))
    (hcost : ∀ e ∈ g.getEdgeList, g.getEdgeCost e.1 e.2 = .ok (cost e)) :
    ∃ r a, residual g capR f = .ok r ∧ ResInv g cap f cost g.getEdgeList r a := by
  unfold residual
  rw [hd, if_pos rfl]
  refine residualLoop_ok hE hs hcap hcost _ [] _ (.empty true) rfl ⟨rep_init true, ?_, rfl, ?_, ?_⟩
  · exact ⟨true, [], by simp, rfl⟩
  · intro e; simp [AGraph.empty]
  · intro e he; simp [AGraph.empty] at he

/-! ## Augmenting along a cycle -/

/-- 1 if the condition holds, else 0 -/
def one (p : Prop) [Decidable p] : Int := if p then 1 else 0

/-- how often `e` is a pair of consecutive elements -/
def cnt (e : N × N) : List N → Int
  | u :: v :: l => one (e = (u, v)) + cnt e (v :: l)
  | _ => 0

/-- the effect of sending `d` units along a list of nodes -/
structure Sent (g : Graph N) (cost : N × N → Int) (d : Int) (u v : N) (c : Int) (k : N × N → Int) (f f' : N × N → Int) :
    Prop where
  net : ∀ x, net g.getEdgeList f' x = net g.getEdgeList f x + d * (one (v = x) - one (u = x))
  total : totalCost g.getEdgeList cost f' = totalCost g.getEdgeList cost f + d * c
  pt : ∀ e ∈ g.getEdgeList, f' e = f e + d * (k e - k (e.2, e.1))

theorem sent_arc (hE : g.getEdgeList.Nodup) (hs : Simple g.getEdgeList) {u v : N} (h : Adj g u v) (d : Int) :
    ∃ f', pushArc g f u v d = .ok f' ∧ Sent g cost d u v (rcost g cost u v) (fun e => one (e = (u, v))) f f' := by
  unfold pushArc
  by_cases h1 : (u, v) ∈ g.getEdgeList
  · rw [if_pos ((contains_edge g u v).2 h1)]
    have hvu := hs u v h1
    refine ⟨_, rfl, ?_, ?_, ?_⟩
    · intro x
      rw [net_upd hE f h1]
      unfold one
      split <;> split <;> omega
    · unfold totalCost
      rw [sum_upd (fun e y => y * cost e) f hE h1]
      simp only [rcost, h1, if_true]; ring
    · intro e he
      by_cases hev : e = (u, v)
      · subst hev
        have : (v, u) ≠ (u, v) := by intro h; rw [h] at hvu; exact hvu h1
        simp [upd, one, this]
      · have : (e.2, e.1) ≠ (u, v) := by
          intro h; obtain ⟨a, b⟩ := e
          obtain ⟨rfl, rfl⟩ := Prod.mk.inj h
          exact hvu he
        simp [upd, one, this, hev]
  · have h2 := h.resolve_left h1
    rw [if_neg (fun h' => h1 ((contains_edge g u v).1 h')), if_pos ((contains_edge g v u).2 h2)]
    refine ⟨_, rfl, ?_, ?_, ?_⟩
    · intro x
      rw [net_upd hE f h2]
      unfold one
      split <;> split <;> simp
    · unfold totalCost
      rw [sum_upd (fun e y => y * cost e) f hE h2]
      simp only [rcost, h1, if_false]; ring
    · intro e he
      have hev : e ≠ (u, v) := by rintro rfl; exact h1 he
      by_cases hvu : e = (v, u)
      · subst hvu
        simp [upd, one, hev]; ring
      · have : (e.2, e.1) ≠ (u, v) := by
          intro h; obtain ⟨a, b⟩ := e
          obtain ⟨rfl, rfl⟩ := Prod.mk.inj h
          exact hvu rfl
        simp [upd, one, this, hev, hvu]

theorem Sent.trans {d : Int} {u v x : N} {c c' : Int} {k k' : N × N → Int} {f f' f'' : N × N → Int}
    (h : Sent g cost d u v c k f f') (h' : Sent g cost d v x c' k' f' f'') :
    Sent g cost d u x (c + c') (fun e => k e + k' e) f f'' where
  net y := by rw [h'.net, h.net]; ring
  total := by rw [h'.total, h.total]; ring
  pt e he := by rw [h'.pt e he, h.pt e he]; ring

theorem augLoop_ok (hE : g.getEdgeList.Nodup) (hs : Simple g.getEdgeList) (d : Int) :
    ∀ (l : List N) (u : N) (f : N × N → Int), (u :: l).IsChain (Adj g) →
      ∃ f', augLoop g d (u :: l) f = .ok f' ∧
        Sent g cost d u ((u :: l).getLast (by simp)) (pathCost (rcost g cost) (u :: l)) (fun e => cnt e (u :: l)) f f' := by
  intro l
  induction l with
  | nil =>
    intro u f _
    exact ⟨f, rfl, by intro x; show _ = net _ f x + d * (one (u = x) - one (u = x)); rw [Int.sub_self, Int.mul_zero, Int.add_zero], by simp [pathCost], by intro e _; simp [cnt]⟩
  | cons v l ih =>
    intro u f hc
    rw [List.isChain_cons_cons] at hc
    obtain ⟨f1, h1, h2⟩ := sent_arc (f := f) (cost := cost) hE hs hc.1 d
    obtain ⟨f2, h3, h4⟩ := ih v f1 hc.2
    refine ⟨f2, by rw [augLoop, h1]; exact h3, ?_⟩
    have := h2.trans h4
    rw [List.getLast_cons (by simp)]
    exact this

theorem cnt_append (e : N × N) (l : List N) (u v : N) : cnt e (l ++ [u, v]) = cnt e (l ++ [u]) + one (e = (u, v)) := by
  induction l with
  | nil => simp [cnt]
  | cons a l ih =>
    rcases l with _ | ⟨b, l⟩
    · simp [cnt]
    · show one _ + cnt e ((b :: l) ++ [u, v]) = one _ + cnt e ((b :: l) ++ [u]) + one _
      rw [ih]; ring

theorem cnt_bounds (e : N × N) (l : List N) : 0 ≤ cnt e l := by
  induction l with
  | nil => simp [cnt]
  | cons a l ih =>
    rcases l with _ | ⟨b, l⟩
    · simp [cnt]
    · simp only [cnt, one]; split <;> omega

theorem cnt_zero {e : N × N} {l : List N} (h : e.1 ∉ l.dropLast) : cnt e l = 0 := by
  induction l with
  | nil => simp [cnt]
  | cons a l ih =>
    rcases l with _ | ⟨b, l⟩
    · simp [cnt]
    · simp only [List.dropLast_cons_cons, List.mem_cons, not_or] at h
      have : e ≠ (a, b) := by rintro rfl; exact h.1 rfl
      simp only [cnt, one, if_neg this, Int.zero_add]
      exact ih h.2

theorem cnt_le_one {e : N × N} {l : List N} (h : l.dropLast.Nodup) : cnt e l ≤ 1 := by
  induction l with
  | nil => simp [cnt]
  | cons a l ih =>
    rcases l with _ | ⟨b, l⟩
    · simp [cnt]
    · rw [List.dropLast_cons_cons, List.nodup_cons] at h
      simp only [cnt, one]
      by_cases he : e = (a, b)
      · rw [if_pos he, cnt_zero (by rw [he]; exact h.1)]; omega
      · rw [if_neg he]; have := ih h.2; omega

theorem cnt_pos_chain {R : N → N → Prop} {e : N × N} {l : List N} (hl : l.IsChain R) (h : 0 < cnt e l) : R e.1 e.2 := by
  induction l with
  | nil => simp [cnt] at h
  | cons a l ih =>
    rcases l with _ | ⟨b, l⟩
    · simp [cnt] at h
    · rw [List.isChain_cons_cons] at hl
      simp only [cnt, one] at h
      by_cases he : e = (a, b)
      · rw [he]; exact hl.1
      · rw [if_neg he, Int.zero_add] at h; exact ih hl.2 h

/-- a cycle written with its first node repeated at the end -/
theorem IsCycle.closed {R : N → N → Prop} {c : List N} (h : IsCycle R c) :
    ∃ v l, c = v :: l ∧ (v :: l).Nodup ∧ (v :: l ++ [v]).IsChain R := by
  obtain ⟨hnd, u, v, ⟨h1, h2, h3⟩, h4⟩ := h
  rcases c with _ | ⟨a, l⟩
  · cases h1
  · cases h1
    refine ⟨u, l, rfl, hnd, List.isChain_append.2 ⟨h3, by simp, ?_⟩⟩
    intro x hx y hy
    cases hy
    rw [h2] at hx; cases hx; exact h4

/-- the amounts on the arcs of the cycle are at least the value of `find_cycle_capacity` -/
theorem capLoop_ok {r : Graph N} {p : N → N → Int} : ∀ (l : List N) (c : Int),
    l.IsChain (fun u v => r.getInt u v "capacity" = .ok (p u v)) →
      ∃ x, capLoop r l c = .ok x ∧ x ≤ c ∧ l.IsChain (fun u v => x ≤ p u v) ∧
        (∀ m, m ≤ c → l.IsChain (fun u v => m ≤ p u v) → m ≤ x) := by
  intro l
  induction l with
  | nil => intro c _; exact ⟨c, rfl, Int.le_refl _, by simp, fun m h _ => h⟩
  | cons a l ih =>
    intro c h
    rcases l with _ | ⟨b, l⟩
    · exact ⟨c, rfl, Int.le_refl _, by simp, fun m h _ => h⟩
    · rw [List.isChain_cons_cons] at h
      obtain ⟨x, h1, h2, h3, h4⟩ := ih (if c > p a b then p a b else c) h.2
      refine ⟨x, by rw [capLoop, h.1]; exact h1, ?_, ?_, ?_⟩
      · split at h2 <;> omega
      · rw [List.isChain_cons_cons]; refine ⟨?_, h3⟩; split at h2 <;> omega
      · intro m hm hc
        rw [List.isChain_cons_cons] at hc
        refine h4 m ?_ hc.2
        have := hc.1
        split <;> omega

theorem cycleCapacity_ok {r : Graph N} {p : N → N → Int} {v : N} {l : List N}
    (h : (v :: l ++ [v]).IsChain (fun u v => r.getInt u v "capacity" = .ok (p u v))) :
    ∃ x, cycleCapacity r (v :: l) = .ok x ∧ (v :: l ++ [v]).IsChain (fun u v => x ≤ p u v) ∧
      (∀ m, (v :: l ++ [v]).IsChain (fun u v => m ≤ p u v) → m ≤ x) := by
  have h' := List.isChain_append.1 h
  have hlast := h'.2.2 _ (List.getLast?_eq_some_getLast (l := v :: l) (by simp)) v rfl
  obtain ⟨x, h1, h2, h3, h4⟩ := capLoop_ok (v :: l) (p ((v :: l).getLast (by simp)) v) h'.1
  refine ⟨x, ?_, ?_, ?_⟩
  · unfold cycleCapacity; simp only []; rw [hlast]; exact h1
  · refine List.isChain_append.2 ⟨h3, by simp, ?_⟩
    intro a ha b hb
    cases hb
    rw [List.getLast?_eq_some_getLast (l := v :: l) (by simp)] at ha
    cases ha; exact h2
  · intro m hm
    have hm' := List.isChain_append.1 hm
    exact h4 m (hm'.2.2 _ (List.getLast?_eq_some_getLast (l := v :: l) (by simp)) v rfl) hm'.1

/-- augmenting by at most what the arcs of the cycle allow -/
theorem augmentCycle_ok (hE : g.getEdgeList.Nodup) (hs : Simple g.getEdgeList) {d : Int} (hd : 0 ≤ d)
    (hf : Within g.getEdgeList cap f) {v : N} {l : List N} (hnd : (v :: l).Nodup)
    (hc : (v :: l ++ [v]).IsChain (fun a b => Adj g a b ∧ d ≤ pot g cap f a b)) :
    ∃ f', augmentCycle g d (v :: l) f = .ok f' ∧ Within g.getEdgeList cap f' ∧
      (∀ x, net g.getEdgeList f' x = net g.getEdgeList f x) ∧
      totalCost g.getEdgeList cost f' = totalCost g.getEdgeList cost f + d * cycleCost (rcost g cost) (v :: l) := by
  have hadj : (v :: l ++ [v]).IsChain (Adj g) := hc.imp fun _ _ h => h.1
  have hadj' := List.isChain_append.1 hadj
  obtain ⟨f1, h1, h2⟩ := augLoop_ok (cost := cost) hE hs d l v f hadj'.1
  obtain ⟨f2, h3, h4⟩ := sent_arc (f := f1) (cost := cost) hE hs
    (hadj'.2.2 _ (List.getLast?_eq_some_getLast (l := v :: l) (by simp)) v rfl) d
  have h5 := h2.trans h4
  have hsplit : v :: l = (v :: l).dropLast ++ [(v :: l).getLast (by simp)] := (List.dropLast_append_getLast _).symm
  have e0 : v :: l ++ [v] = (v :: l).dropLast ++ [(v :: l).getLast (by simp), v] := by
    conv_lhs => rw [hsplit]
    simp
  have e1 : ∀ e, cnt e (v :: l ++ [v]) = cnt e (v :: l) + one (e = ((v :: l).getLast (by simp), v)) := by
    intro e
    rw [e0, cnt_append, ← hsplit]
  have e2 : cycleCost (rcost g cost) (v :: l) =
      pathCost (rcost g cost) (v :: l) + rcost g cost ((v :: l).getLast (by simp)) v := by
    have pc : ∀ (l : List N) (u v : N), pathCost (rcost g cost) (l ++ [u, v]) =
        pathCost (rcost g cost) (l ++ [u]) + rcost g cost u v := by
      intro l u v
      induction l with
      | nil => simp [pathCost]
      | cons a l ih =>
        rcases l with _ | ⟨b, l⟩
        · simp [pathCost]
        · show _ + pathCost _ ((b :: l) ++ [u, v]) = _ + pathCost _ ((b :: l) ++ [u]) + _
          rw [ih]; ring
    unfold cycleCost
    show pathCost _ (v :: l ++ [v]) = _
    rw [e0, pc, ← hsplit]
  refine ⟨f2, by unfold augmentCycle; simp only []; rw [h1]; exact h3, ?_, ?_, ?_⟩
  · intro e he
    have h6 := h5.pt e he
    rw [← e1 e, ← e1 (e.2, e.1)] at h6
    have hdl : (v :: l ++ [v]).dropLast = v :: l := by rw [List.dropLast_concat]
    have b1 := cnt_bounds e (v :: l ++ [v])
    have b2 := cnt_bounds (e.2, e.1) (v :: l ++ [v])
    have b3 := cnt_le_one (e := e) (l := v :: l ++ [v]) (by rw [hdl]; exact hnd)
    have b4 := cnt_le_one (e := (e.2, e.1)) (l := v :: l ++ [v]) (by rw [hdl]; exact hnd)
    have hw := hf e he
    have hsw : (e.2, e.1) ∉ g.getEdgeList := hs e.1 e.2 he
    have g1 : 0 < cnt e (v :: l ++ [v]) → d ≤ cap e - f e := by
      intro h; have := (cnt_pos_chain hc h).2
      unfold pot at this; rwa [if_pos he] at this
    have g2 : 0 < cnt (e.2, e.1) (v :: l ++ [v]) → d ≤ f e := by
      intro h; have := (cnt_pos_chain hc h).2
      unfold pot at this; rwa [if_neg hsw] at this
    generalize cnt e (v :: l ++ [v]) = x at *
    generalize cnt (e.2, e.1) (v :: l ++ [v]) = y at *
    have hx : x = 0 ∨ x = 1 := by omega
    have hy : y = 0 ∨ y = 1 := by omega
    rcases hx with rfl | rfl <;> rcases hy with rfl | rfl
    · rw [h6]; constructor <;> simp <;> omega
    · have := g2 (by omega); rw [h6]; constructor <;> simp <;> omega
    · have := g1 (by omega); rw [h6]; constructor <;> simp <;> omega
    · rw [h6]; constructor <;> simp <;> omega
  · intro x; rw [h5.net]; ring
  · rw [h5.total, e2]

end MinCost
end GiMPy
