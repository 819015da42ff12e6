import Verif.Lemmas.Residual
import Mathlib.Data.Int.LeastGreatest

/-! # Lemmas on minimum cost flows and on the network with the extra nodes -/

namespace GiMPy
namespace MinCost
open MaxFlow
variable {N : Type} [DecidableEq N] {Q : Type} {g : Graph N} {cap f cost : N × N → Int}
set_option linter.unusedSectionVars false

/-! ## No negative residual cycle, then minimum cost -/

/-- costs of walks that end in `v` have a least element when bounded -/
theorem potential_exists {R : N → N → Prop} {w : N → N → Int} (B : N → Int)
    (h : ∀ u v x, WalkCost R w u x v → B v ≤ x) : ∃ π : N → Int, ∀ u v, R u v → π v ≤ π u + w u v := by
  have key : ∀ v, ∃ p : Int, (∃ u, WalkCost R w u p v) ∧ ∀ u x, WalkCost R w u x v → p ≤ x := by
    intro v
    obtain ⟨p, h1, h2⟩ := Int.exists_least_of_bdd (P := fun x => ∃ u, WalkCost R w u x v)
      ⟨B v, fun z ⟨u, hz⟩ => h u v z hz⟩ ⟨0, v, .nil⟩
    exact ⟨p, h1, fun u x hx => h2 x ⟨u, hx⟩⟩
  choose π h1 h2 using key
  refine ⟨π, fun u v hr => ?_⟩
  obtain ⟨x, hx⟩ := h1 u
  exact h2 v x _ (hx.snoc hr)

theorem sum_map_add' {A : Type} (E : List A) (p q : A → Int) :
    (E.map fun e => p e + q e).sum = (E.map p).sum + (E.map q).sum := by
  induction E with
  | nil => simp
  | cons a E ih => simp only [List.map_cons, List.sum_cons, ih]; ring

theorem cost_le_of_potential {V : List N} (hV : V.Nodup) (hEV : ∀ e ∈ g.getEdgeList, e.1 ∈ V ∧ e.2 ∈ V)
    (hs : Simple g.getEdgeList) (hf : Within g.getEdgeList cap f) (π : N → Int)
    (hπ : ∀ u v, Use g cap f u v → π v ≤ π u + rcost g cost u v) {f' : N × N → Int} (hf' : Within g.getEdgeList cap f')
    (hnet : ∀ v ∈ V, net g.getEdgeList f v = net g.getEdgeList f' v) :
    totalCost g.getEdgeList cost f ≤ totalCost g.getEdgeList cost f' := by
  have e1 := potential_sum f hV hEV π
  have e2 := potential_sum f' hV hEV π
  have e3 : (V.map fun v => π v * net g.getEdgeList f v) = V.map fun v => π v * net g.getEdgeList f' v :=
    List.map_congr_left fun v hv => by rw [hnet v hv]
  rw [e3, e2] at e1
  have e4 : (g.getEdgeList.map fun e => f e * cost e - f e * (π e.2 - π e.1)).sum ≤
      (g.getEdgeList.map fun e => f' e * cost e - f' e * (π e.2 - π e.1)).sum := by
    refine List.sum_le_sum fun e he => ?_
    have hw := hf e he
    have hw' := hf' e he
    have hsw : (e.2, e.1) ∉ g.getEdgeList := hs e.1 e.2 he
    have key : 0 ≤ (f' e - f e) * (cost e + π e.1 - π e.2) := by
      rcases Int.lt_trichotomy (f e) (f' e) with h | h | h
      · have : Use g cap f e.1 e.2 := ⟨.inl he, by unfold pot; rw [if_pos he]; show 0 < cap e - f e; omega⟩
        have := hπ _ _ this
        unfold rcost at this
        rw [if_pos he] at this
        replace this : π e.2 ≤ π e.1 + cost e := this
        exact Int.mul_nonneg (by omega) (by omega)
      · rw [h]; simp
      · have : Use g cap f e.2 e.1 := ⟨.inr he, by unfold pot; rw [if_neg hsw]; show 0 < f e; omega⟩
        have := hπ _ _ this
        unfold rcost at this
        rw [if_neg hsw] at this
        replace this : π e.1 ≤ π e.2 + - cost e := this
        exact Int.mul_nonneg_of_nonpos_of_nonpos (by omega) (by omega)
    have : f' e * cost e - f' e * (π e.2 - π e.1) - (f e * cost e - f e * (π e.2 - π e.1)) =
      (f' e - f e) * (cost e + π e.1 - π e.2) := by ring
    omega
  rw [sum_map_sub', sum_map_sub'] at e4
  unfold totalCost
  omega

/-! ## The network with the nodes `s` and `t` -/

variable {s t : N} {b : N → Int}

/-- the extra arc of node `i` -/
def extra (s t : N) (b : N → Int) (i : N) : List (N × N) :=
  if b i > 0 then [(s, i)] else if b i < 0 then [(i, t)] else []

/-- capacities of the extended network -/
def capX (s t : N) (b : N → Int) (cap : N × N → Int) (e : N × N) : Int :=
  if e.1 = s then b e.2 else if e.2 = t then - b e.1 else cap e

theorem mem_extra {i : N} {e : N × N} : e ∈ extra s t b i ↔ (0 < b i ∧ e = (s, i)) ∨ (b i < 0 ∧ e = (i, t)) := by
  unfold extra
  by_cases h1 : b i > 0
  · have : ¬ b i < 0 := by omega
    simp [h1, this]
  · by_cases h2 : b i < 0
    · simp [h1, h2]
    · simp [h1, h2]

/-- what the loop over the nodes has built -/
structure DemInv (a : AGraph N) (s t : N) (b : N → Int) (l : List N) (g' : Graph N) (a' : AGraph N) : Prop where
  rep : Rep g' a'
  built : Built g'
  dir : a'.directed = true
  E : a'.E = a.E ++ l.flatMap (extra s t b)
  V : a'.V.filter (fun v => v ≠ s ∧ v ≠ t) = a.V
  na : ∀ v ∈ a.V, a'.na v = a.na v
  ea : ∀ e ∈ a.E, a'.ea e = a.ea e
  cp : ∀ i ∈ l, ∀ e ∈ extra s t b i, a'.ea e "capacity" = some (.int (capX s t b (fun _ => 0) e))

theorem getNodeAttr_rep {g : Graph N} {a : AGraph N} (h : Rep g a) (n : N) (x : String) :
    g.getNodeAttr n x = a.getNodeAttr n x := by
  unfold Graph.getNodeAttr AGraph.getNodeAttr
  by_cases hn : n ∈ a.V
  · rw [if_pos hn]
    have h1 := h.na n hn x
    have : n ∈ g.nodes.keys := by rw [h.wf.nodesEq, h.V]; exact hn
    rcases hg : g.nodes.get? n with _ | d
    · exact absurd this ((Dict.get?_eq_none_iff _ _).1 hg)
    · rw [hg] at h1
      simp only [Option.bind_some] at h1
      simp only [h1]
  · rw [if_neg hn]
    have : g.nodes.get? n = none := (Dict.get?_eq_none_iff _ _).2 (by rw [h.wf.nodesEq, h.V]; exact hn)
    rw [this]

theorem demandOf_rep {g : Graph N} {a : AGraph N} (h : Rep g a) {i : N} (hi : i ∈ a.V) {x : Int}
    (hx : a.na i "demand" = some (.int x)) : demandOf g i = .ok x := by
  unfold demandOf
  rw [getNodeAttr_rep h, AGraph.getNodeAttr, if_pos hi, hx]
  rfl

theorem ensure_V_filter {a : AGraph N} {u : N} {p : N → Bool} (h : p u = false ∨ u ∈ a.V) :
    (a.ensure u).V.filter p = a.V.filter p := by
  unfold AGraph.ensure
  split
  · rfl
  · next hn =>
    have hp : p u = false := h.resolve_right hn
    simp [hp]

theorem ensure_na {a : AGraph N} {u v : N} (h : v ≠ u ∨ v ∈ a.V) : (a.ensure u).na v = a.na v := by
  unfold AGraph.ensure
  split
  · rfl
  · next hn =>
    have : v ≠ u := by
      rcases h with h | h
      · exact h
      · rintro rfl; exact hn h
    simp [AGraph.upd, this]

theorem ensure_mem {a : AGraph N} {u v : N} (h : v ∈ a.V) : v ∈ (a.ensure u).V := by
  unfold AGraph.ensure
  split
  · exact h
  · simp [h]

/-- one extra arc -/
theorem DemInv.add {a : AGraph N} {g' : Graph N} {a' : AGraph N} {l : List N} (h : DemInv a s t b l g' a')
    (hs : s ∉ a.V) (ht : t ∉ a.V) (hst : s ≠ t) (hE : ∀ e ∈ a.E, e.1 ∈ a.V ∧ e.2 ∈ a.V) (hl : ∀ j ∈ l, j ∈ a.V) {i : N}
    (hi : i ∈ a.V) (hil : i ∉ l) :
    ∃ g'' a'', addDemand s t g' i (b i) = .ok g'' ∧ DemInv a s t b (l ++ [i]) g'' a'' := by
  have his : i ≠ s := by rintro rfl; exact hs hi
  have hit : i ≠ t := by rintro rfl; exact ht hi
  have hmem : ∀ e, e ∈ a'.E → e ∈ a.E ∨ ∃ j ∈ l, e ∈ extra s t b j := by
    intro e he; rw [h.E, List.mem_append, List.mem_flatMap] at he; exact he
  have hiV : i ∈ a'.V := by
    have : i ∈ a.V := hi
    rw [← h.V, List.mem_filter] at this
    exact this.1
  have main : ∀ (u v : N) (c : Int), extra s t b i = [(u, v)] → capX s t b (fun _ => 0) (u, v) = c →
      (u = s ∧ v = i ∨ u = i ∧ v = t) →
      ∃ g'' a'', g'.call (.addEdge u v [("capacity", .int c)]) = .ok g'' ∧ DemInv a s t b (l ++ [i]) g'' a'' := by
    intro u v c hx hc huv
    have hnew : (u, v) ∉ a'.E := by
      intro hm
      rcases hmem _ hm with hm | ⟨j, hj, hm⟩
      · have := hE _ hm
        rcases huv with ⟨rfl, rfl⟩ | ⟨rfl, rfl⟩
        · exact hs this.1
        · exact ht this.2
      · have hjV := hl j hj
        rw [mem_extra] at hm
        simp only [Prod.mk.injEq] at hm
        rcases huv with ⟨rfl, rfl⟩ | ⟨rfl, rfl⟩
        · rcases hm with ⟨_, _, rfl⟩ | ⟨_, rfl, _⟩
          · exact hil hj
          · exact hs hjV
        · rcases hm with ⟨_, rfl, _⟩ | ⟨_, rfl, _⟩
          · exact his rfl
          · exact hil hj
    obtain ⟨g'', a'', h1, h2, h3, h4, h5, h6, h7⟩ := rep_addEdge h.rep h.dir hnew [("capacity", .int c)]
    refine ⟨g'', a'', h1, h2, h.built.call (by rw [h.rep.dir, h.dir]) h1, h3, ?_, ?_, ?_, ?_, ?_⟩
    · rw [h4, h.E]; simp [hx]
    · rw [h6, ← h.V]
      rcases huv with ⟨rfl, rfl⟩ | ⟨rfl, rfl⟩
      · rw [ensure_V_filter (.inr (ensure_mem hiV)), ensure_V_filter (.inl (by simp))]
      · rw [ensure_V_filter (.inl (by simp)), ensure_V_filter (.inr hiV)]
    · intro x hxV
      have hxs : x ≠ s := by rintro rfl; exact hs hxV
      have hxt : x ≠ t := by rintro rfl; exact ht hxV
      have hxV' : x ∈ a'.V := by
        have : x ∈ a.V := hxV
        rw [← h.V, List.mem_filter] at this
        exact this.1
      rw [h7, ensure_na (.inr (ensure_mem hxV')), ensure_na (.inr hxV'), h.na x hxV]
    · intro e he
      have : e ≠ (u, v) := by
        rintro rfl; exact hnew (by rw [h.E]; simp [he])
      rw [h5]; simp only [AGraph.upd, if_neg this]; exact h.ea e he
    · intro j hj e he
      rw [h5]
      by_cases hev : e = (u, v)
      · subst hev
        simp [AGraph.upd, AGraph.kw, List.find?, hc]
      · simp only [AGraph.upd, if_neg hev]
        rcases List.mem_append.1 hj with hj | hj
        · exact h.cp j hj e he
        · rw [List.mem_singleton] at hj; subst hj
          rw [hx, List.mem_singleton] at he
          exact absurd he hev
  unfold addDemand
  by_cases h1 : b i > 0
  · rw [if_pos h1]
    exact main s i (b i) (by simp [extra, h1]) (by simp [capX]) (.inl ⟨rfl, rfl⟩)
  · rw [if_neg h1]
    by_cases h2 : b i < 0
    · rw [if_pos h2]
      exact main i t (-1 * b i) (by simp [extra, h1, h2]) (by simp [capX, his]) (.inr ⟨rfl, rfl⟩)
    · rw [if_neg h2]
      have hx : extra s t b i = [] := by simp [extra, h1, h2]
      refine ⟨g', a', rfl, h.rep, h.built, h.dir, by rw [h.E]; simp [hx], h.V, h.na, h.ea, ?_⟩
      intro j hj e he
      rcases List.mem_append.1 hj with hj | hj
      · exact h.cp j hj e he
      · rw [List.mem_singleton] at hj; subst hj; rw [hx] at he; cases he

theorem addDemands_ok {a : AGraph N} (hs : s ∉ a.V) (ht : t ∉ a.V) (hst : s ≠ t) (hE : ∀ e ∈ a.E, e.1 ∈ a.V ∧ e.2 ∈ a.V)
    (hb : ∀ v ∈ a.V, a.na v "demand" = some (.int (b v))) (hV : a.V.Nodup) :
    ∀ (l l' : List N) (g' : Graph N) (a' : AGraph N), l' ++ l = a.V → DemInv a s t b l' g' a' →
      ∃ g'' a'', addDemands s t l g' = .ok g'' ∧ DemInv a s t b a.V g'' a'' := by
  intro l
  induction l with
  | nil => intro l' g' a' hl h; rw [List.append_nil] at hl; subst hl; exact ⟨g', a', rfl, h⟩
  | cons i l ih =>
    intro l' g' a' hl h
    have hi : i ∈ a.V := by rw [← hl]; simp
    have hiV : i ∈ a'.V := by
      have : i ∈ a.V := hi
      rw [← h.V, List.mem_filter] at this
      exact this.1
    unfold addDemands
    rw [demandOf_rep h.rep hiV (by rw [h.na i hi]; exact hb i hi)]
    simp only []
    have hil : i ∉ l' := by
      rw [← hl, List.nodup_append] at hV
      intro hm; exact hV.2.2 _ hm i (by simp) rfl
    obtain ⟨g1, a1, h1, h2⟩ := h.add hs ht hst hE (fun j hj => by rw [← hl]; simp [hj]) hi hil
    rw [h1]
    exact ih (l' ++ [i]) g1 a1 (by rw [← hl]; simp) h2

/-! ## Sums over the extra arcs -/

theorem sum_extra (h : N × N → Int) (V : List N) : ((V.flatMap (extra s t b)).map h).sum =
    (V.map fun i => if b i > 0 then h (s, i) else if b i < 0 then h (i, t) else 0).sum := by
  induction V with
  | nil => simp
  | cons i V ih =>
    rw [List.flatMap_cons, List.map_append, List.sum_append, ih, List.map_cons, List.sum_cons]
    congr 1
    unfold extra
    split
    · simp
    · split <;> simp

theorem sum_single {V : List N} (hV : V.Nodup) {v : N} (hv : v ∈ V) (h : N → Int) :
    (V.map fun i => if i = v then h i else 0).sum = h v := by
  induction V with
  | nil => cases hv
  | cons a V ih =>
    rw [List.nodup_cons] at hV
    simp only [List.map_cons, List.sum_cons]
    by_cases hav : a = v
    · subst hav
      have : (V.map fun i => if i = a then h i else 0) = V.map fun _ => 0 :=
        List.map_congr_left fun i hi => if_neg (by rintro rfl; exact hV.1 hi)
      rw [this]; simp
    · rw [if_neg hav, ih hV.2 ((List.mem_cons.1 hv).resolve_left (Ne.symm hav))]; simp

/-- flow through the extra arc into `v`, or out of `v` with negative sign -/
def inX (s t : N) (b : N → Int) (f : N × N → Int) (v : N) : Int :=
  if b v > 0 then f (s, v) else if b v < 0 then - f (v, t) else 0

theorem net_append (E E' : List (N × N)) (f : N × N → Int) (v : N) : net (E ++ E') f v = net E f v + net E' f v := by
  unfold net; simp only [List.map_append, List.sum_append]; ring

theorem net_extra {V : List N} (hV : V.Nodup) (hs : s ∉ V) (ht : t ∉ V) (f : N × N → Int) {v : N} (hv : v ∈ V) :
    net (V.flatMap (extra s t b)) f v = inX s t b f v := by
  have hvs : s ≠ v := by rintro rfl; exact hs hv
  have hvt : t ≠ v := by rintro rfl; exact ht hv
  unfold net
  rw [sum_extra, sum_extra, ← sum_map_sub', ← sum_single hV hv (inX s t b f)]
  congr 1
  refine List.map_congr_left fun i hi => ?_
  unfold inX
  by_cases hiv : i = v
  · subst hiv
    simp only [hvs, hvt, if_true, if_false]
    split
    · omega
    · split <;> omega
  · simp only [hiv, hvs, hvt, if_false]
    split <;> simp

theorem net_extra_t {V : List N} (hs : s ∉ V) (ht : t ∉ V) (hst : s ≠ t) (f : N × N → Int) :
    net (V.flatMap (extra s t b)) f t = (V.map fun i => if b i < 0 then f (i, t) else 0).sum := by
  unfold net
  rw [sum_extra, sum_extra, ← sum_map_sub']
  congr 1
  refine List.map_congr_left fun i hi => ?_
  have hit : i ≠ t := by rintro rfl; exact ht hi
  simp only [hit, hst, if_true, if_false]
  by_cases h1 : b i > 0
  · have : ¬ b i < 0 := by omega
    simp [h1, this]
  · simp [h1]

theorem net_out {E : List (N × N)} {V : List N} (hEV : ∀ e ∈ E, e.1 ∈ V ∧ e.2 ∈ V) (f : N × N → Int) {v : N}
    (hv : v ∉ V) : net E f v = 0 := by
  unfold net
  have h1 : (E.map fun e => if e.2 = v then f e else 0) = E.map fun _ => 0 :=
    List.map_congr_left fun e he => if_neg (by rintro rfl; exact hv (hEV e he).2)
  have h2 : (E.map fun e => if e.1 = v then f e else 0) = E.map fun _ => 0 :=
    List.map_congr_left fun e he => if_neg (by rintro rfl; exact hv (hEV e he).1)
  rw [h1, h2]; simp

theorem net_sum_zero {E : List (N × N)} {V : List N} (hV : V.Nodup) (hEV : ∀ e ∈ E, e.1 ∈ V ∧ e.2 ∈ V)
    (f : N × N → Int) : (V.map fun v => net E f v).sum = 0 := by
  have := potential_sum f hV hEV fun _ => 1
  simpa using this

theorem eq_of_sum_le {V : List N} {p q : N → Int} (h : ∀ v ∈ V, p v ≤ q v) (hs : (V.map q).sum ≤ (V.map p).sum) :
    ∀ v ∈ V, p v = q v := by
  induction V with
  | nil => intro v hv; cases hv
  | cons a V ih =>
    simp only [List.map_cons, List.sum_cons] at hs
    have h1 := h a (by simp)
    have h2 : (V.map p).sum ≤ (V.map q).sum := List.sum_le_sum fun v hv => h v (by simp [hv])
    intro v hv
    rcases List.mem_cons.1 hv with rfl | hv
    · omega
    · exact ih (fun v hv => h v (by simp [hv])) (by omega) v hv

theorem net_congr {E : List (N × N)} {f f' : N × N → Int} (h : ∀ e ∈ E, f e = f' e) (v : N) : net E f v = net E f' v := by
  unfold net
  have h1 : (E.map fun e => if e.2 = v then f e else 0) = E.map fun e => if e.2 = v then f' e else 0 :=
    List.map_congr_left fun e he => by rw [h e he]
  have h2 : (E.map fun e => if e.1 = v then f e else 0) = E.map fun e => if e.1 = v then f' e else 0 :=
    List.map_congr_left fun e he => by rw [h e he]
  rw [h1, h2]

section Ext
variable {V : List N} {E : List (N × N)}

theorem capX_E (hs : s ∉ V) (ht : t ∉ V) (hEV : ∀ e ∈ E, e.1 ∈ V ∧ e.2 ∈ V) {e : N × N} (he : e ∈ E) :
    capX s t b cap e = cap e := by
  have h1 : e.1 ≠ s := by rintro rfl; exact hs (hEV e he).1
  have h2 : e.2 ≠ t := by rintro rfl; exact ht (hEV e he).2
  simp [capX, h1, h2]

/-- a feasible flow extends to a flow that fills the extra arcs -/
theorem extend_flow (hV : V.Nodup) (hs : s ∉ V) (ht : t ∉ V) (hst : s ≠ t) (hEV : ∀ e ∈ E, e.1 ∈ V ∧ e.2 ∈ V)
    (hf : IsFeasible V E cap b f) :
    IsFlow (E ++ V.flatMap (extra s t b)) (capX s t b cap) s t (capX s t b f) ∧
    net (E ++ V.flatMap (extra s t b)) (capX s t b f) t = (V.map fun i => if b i < 0 then - b i else 0).sum := by
  refine ⟨⟨?_, ?_⟩, ?_⟩
  · intro e he
    rcases List.mem_append.1 he with he | he
    · rw [capX_E hs ht hEV he, capX_E hs ht hEV he]; exact hf.within e he
    · obtain ⟨i, hi, he⟩ := List.mem_flatMap.1 he
      have his : i ≠ s := by rintro rfl; exact hs hi
      rcases mem_extra.1 he with ⟨h1, rfl⟩ | ⟨h1, rfl⟩
      · simp [capX]; omega
      · simp [capX, his]; omega
  · intro v h1 h2
    rw [net_append, net_congr (f' := f) (fun e he => capX_E hs ht hEV he)]
    by_cases hv : v ∈ V
    · rw [net_extra hV hs ht _ hv]
      have := hf.meets v hv
      unfold inX
      simp [capX, h1]
      split
      · omega
      · split <;> omega
    · rw [net_out hEV f hv]
      have : ∀ e ∈ V.flatMap (extra s t b), (e.1 ∈ V ∨ e.1 = s) ∧ (e.2 ∈ V ∨ e.2 = t) := by
        intro e he
        obtain ⟨i, hi, he⟩ := List.mem_flatMap.1 he
        rcases mem_extra.1 he with ⟨_, rfl⟩ | ⟨_, rfl⟩
        · exact ⟨.inr rfl, .inl hi⟩
        · exact ⟨.inl hi, .inr rfl⟩
      rw [net_out (V := s :: t :: V) (fun e he => ?_) _ (by simp [h1, h2, hv])]
      · rfl
      · have := this e he; simp only [List.mem_cons]; tauto
  · rw [net_append, net_out hEV _ ht, net_extra_t hs ht hst, Int.zero_add]
    congr 1
    refine List.map_congr_left fun i hi => ?_
    have his : i ≠ s := by rintro rfl; exact hs hi
    simp [capX, his]

/-- with all arcs out of `s` full the flow meets the demands -/
theorem meets_of_full (hV : V.Nodup) (hs : s ∉ V) (ht : t ∉ V) (hEV : ∀ e ∈ E, e.1 ∈ V ∧ e.2 ∈ V)
    (hbal : (V.map b).sum = 0) (hf : IsFlow (E ++ V.flatMap (extra s t b)) (capX s t b cap) s t f)
    (hfull : ∀ i ∈ V, 0 < b i → f (s, i) = b i) : IsFeasible V E cap b f := by
  have hin : ∀ v ∈ V, - net E f v = inX s t b f v := by
    intro v hv
    have := hf.conserved v (by rintro rfl; exact hs hv) (by rintro rfl; exact ht hv)
    rw [net_append, net_extra hV hs ht _ hv] at this
    omega
  refine ⟨fun e he => ?_, fun v hv => ?_⟩
  · have := hf.within e (by simp [he])
    rwa [capX_E hs ht hEV he] at this
  · rw [hin v hv]
    refine (eq_of_sum_le (p := b) (q := inX s t b f) ?_ ?_ v hv).symm
    · intro i hi
      unfold inX
      split
      · rw [hfull i hi (by omega)]
      · split
        · have := hf.within (i, t) (List.mem_append_right _ (List.mem_flatMap.2 ⟨i, hi, mem_extra.2 (.inr ⟨by omega, rfl⟩)⟩))
          have his : i ≠ s := by rintro rfl; exact hs hi
          simp only [capX, his, if_false, if_true] at this
          omega
        · omega
    · rw [hbal]
      have h1 := net_sum_zero hV hEV f
      have h2 : (V.map (inX s t b f)).sum = (V.map fun v => - net E f v).sum := by
        congr 1; exact List.map_congr_left fun v hv => (hin v hv).symm
      have h3 := sum_map_add' V (fun v => net E f v) (fun v => - net E f v)
      rw [h2]
      have h4 : (V.map fun v => net E f v + - net E f v).sum = 0 := by simp
      omega

/-- if a feasible flow exists then a maximum flow fills the arcs out of `s` -/
theorem full_of_feasible (hV : V.Nodup) (hs : s ∉ V) (ht : t ∉ V) (hst : s ≠ t) (hEV : ∀ e ∈ E, e.1 ∈ V ∧ e.2 ∈ V)
    (hbal : (V.map b).sum = 0) (hf : IsMaxFlow (E ++ V.flatMap (extra s t b)) (capX s t b cap) s t f)
    {f' : N × N → Int} (hf' : IsFeasible V E cap b f') : ∀ i ∈ V, 0 < b i → f (s, i) = b i := by
  have hin : ∀ v ∈ V, - net E f v = inX s t b f v := by
    intro v hv
    have := hf.flow.conserved v (by rintro rfl; exact hs hv) (by rintro rfl; exact ht hv)
    rw [net_append, net_extra hV hs ht _ hv] at this
    omega
  obtain ⟨h1, h2⟩ := extend_flow hV hs ht hst hEV hf'
  have h3 := hf.most _ h1
  rw [h2, net_append, net_out hEV _ ht, net_extra_t hs ht hst, Int.zero_add] at h3
  have h4 : (V.map (inX s t b f)).sum = 0 := by
    have h1 := net_sum_zero hV hEV f
    have h2 : (V.map (inX s t b f)).sum = (V.map fun v => - net E f v).sum := by
      congr 1; exact List.map_congr_left fun v hv => (hin v hv).symm
    have h3 := sum_map_add' V (fun v => net E f v) (fun v => - net E f v)
    have h4 : (V.map fun v => net E f v + - net E f v).sum = 0 := by simp
    omega
  have h5 : (V.map (inX s t b f)).sum = (V.map fun i => if 0 < b i then f (s, i) else 0).sum -
      (V.map fun i => if b i < 0 then f (i, t) else 0).sum := by
    rw [← sum_map_sub']
    congr 1
    refine List.map_congr_left fun i hi => ?_
    unfold inX
    by_cases h1 : b i > 0
    · have : ¬ b i < 0 := by omega
      simp [h1, this]
    · by_cases h2 : b i < 0 <;> simp [h1, h2]
  have h6 : (V.map b).sum = (V.map fun i => if 0 < b i then b i else 0).sum - (V.map fun i => if b i < 0 then - b i else 0).sum := by
    rw [← sum_map_sub']
    congr 1
    refine List.map_congr_left fun i hi => ?_
    split <;> split <;> omega
  have h7 := eq_of_sum_le (V := V) (p := fun i => if 0 < b i then f (s, i) else 0) (q := fun i => if 0 < b i then b i else 0)
    (by
      intro i hi
      by_cases hbi : 0 < b i
      · have := hf.flow.within (s, i) (List.mem_append_right _ (List.mem_flatMap.2 ⟨i, hi, mem_extra.2 (.inl ⟨hbi, rfl⟩)⟩))
        simp only [capX, if_true] at this
        simp only [hbi, if_true]; exact this.2
      · simp [hbi]) (by omega)
  intro i hi hbi
  have := h7 i hi
  simpa [hbi] using this

/-- the capacity of a cut in the extended network -/
theorem cutCap_extra (hs : s ∉ V) (ht : t ∉ V) (hEV : ∀ e ∈ E, e.1 ∈ V ∧ e.2 ∈ V) {S : N → Bool} (hS : S s = true)
    (hT : S t = false) : cutCap (E ++ V.flatMap (extra s t b)) (capX s t b cap) S =
      cutCap E cap S + (V.map fun v => if S v then (if b v < 0 then - b v else 0) else (if 0 < b v then b v else 0)).sum := by
  rw [cutCap_eq, cutCap_eq, List.map_append, List.sum_append, sum_extra]
  congr 2
  · refine List.map_congr_left fun e he => ?_
    rw [capX_E hs ht hEV he]
  · refine List.map_congr_left fun v hv => ?_
    have hvs : v ≠ s := by rintro rfl; exact hs hv
    simp only [hS, hT, capX, hvs, if_true, if_false, and_true, true_and]
    rcases Int.lt_trichotomy (b v) 0 with h | h | h
    · have : ¬ 0 < b v := by omega
      cases S v <;> simp [h, this]
    · cases S v <;> simp [h]
    · have : ¬ b v < 0 := by omega
      cases S v <;> simp [h, this]

/-- if a maximum flow does not fill the arcs out of `s` then the nodes on the side of `s` of a minimum cut of the extended
network have more supply than can leave them -/
theorem gale_of_cut (hV : V.Nodup) (hs : s ∉ V) (ht : t ∉ V) (hst : s ≠ t) (hEV : ∀ e ∈ E, e.1 ∈ V ∧ e.2 ∈ V)
    (hf : IsFlow (E ++ V.flatMap (extra s t b)) (capX s t b cap) s t f) {S : N → Bool} (hS : S s = true)
    (hT : S t = false) (hcut : net (E ++ V.flatMap (extra s t b)) f t = cutCap (E ++ V.flatMap (extra s t b)) (capX s t b cap) S)
    (hnot : ¬ ∀ i ∈ V, 0 < b i → f (s, i) = b i) : cutCap E cap S < (V.map fun v => if S v then b v else 0).sum := by
  by_contra hcon
  apply hnot
  have hin : ∀ v ∈ V, - net E f v = inX s t b f v := by
    intro v hv
    have := hf.conserved v (by rintro rfl; exact hs hv) (by rintro rfl; exact ht hv)
    rw [net_append, net_extra hV hs ht _ hv] at this
    omega
  rw [cutCap_extra hs ht hEV hS hT, net_append, net_out hEV _ ht, net_extra_t hs ht hst, Int.zero_add] at hcut
  have h4 : (V.map (inX s t b f)).sum = 0 := by
    have h1 := net_sum_zero hV hEV f
    have h2 : (V.map (inX s t b f)).sum = (V.map fun v => - net E f v).sum := by
      congr 1; exact List.map_congr_left fun v hv => (hin v hv).symm
    have h3 := sum_map_add' V (fun v => net E f v) (fun v => - net E f v)
    have h4 : (V.map fun v => net E f v + - net E f v).sum = 0 := by simp
    omega
  have h5 : (V.map (inX s t b f)).sum = (V.map fun i => if 0 < b i then f (s, i) else 0).sum -
      (V.map fun i => if b i < 0 then f (i, t) else 0).sum := by
    rw [← sum_map_sub']
    congr 1
    refine List.map_congr_left fun i hi => ?_
    unfold inX
    by_cases h1 : b i > 0
    · have : ¬ b i < 0 := by omega
      simp [h1, this]
    · by_cases h2 : b i < 0 <;> simp [h1, h2]
  have h6 : (V.map fun v => if S v then b v else 0).sum = (V.map fun i => if 0 < b i then b i else 0).sum -
      (V.map fun v => if S v then (if b v < 0 then - b v else 0) else (if 0 < b v then b v else 0)).sum := by
    rw [← sum_map_sub']
    congr 1
    refine List.map_congr_left fun i hi => ?_
    cases S i <;> simp <;> split <;> split <;> omega
  have h7 := eq_of_sum_le (V := V) (p := fun i => if 0 < b i then f (s, i) else 0) (q := fun i => if 0 < b i then b i else 0)
    (by
      intro i hi
      by_cases hbi : 0 < b i
      · have := hf.within (s, i) (List.mem_append_right _ (List.mem_flatMap.2 ⟨i, hi, mem_extra.2 (.inl ⟨hbi, rfl⟩)⟩))
        simp only [capX, if_true] at this
        simp only [hbi, if_true]; exact this.2
      · simp [hbi]) (by omega)
  intro i hi hbi
  have := h7 i hi
  simpa [hbi] using this

end Ext
end MinCost
end GiMPy
