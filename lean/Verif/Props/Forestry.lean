import Verif.Lemmas.Forestry

/-! # C106: the forestry example -/

namespace GiMPy
namespace Forestry
open Finset MaxFlow Search

variable {D : Data}

/-! ## From flows to plans -/

/-- what is cut in forest `j` up to year `k` is what came from the node of the forest, less what is left -/
theorem cut_le {f : Nm × Nm → Int} (hE : (arcs D).Nodup) (hf : IsFreeFlow (arcs D) (up D) .source .sink f) {j : Nat}
    (hj : j < D.forests) : ∀ k, k < D.years → ∑ i ∈ range (k + 1), f (.prod j i, .year i) =
      ∑ i ∈ range (k + 1), f (.forest j, .prod j i) - if k + 1 < D.years then f (.prod j k, .prod j (k + 1)) else 0 := by
  intro k
  induction k with
  | zero =>
    intro hk
    have := hf.conserved (.prod j 0) (by simp) (by simp)
    rw [net_prod hE f hj hk, if_pos rfl] at this
    simp only [zero_add, Finset.sum_range_one] at this ⊢
    linarith
  | succ k ih =>
    intro hk
    have h1 := ih (by omega)
    rw [if_pos hk] at h1
    have := hf.conserved (.prod j (k + 1)) (by simp) (by simp)
    rw [net_prod hE f hj hk, if_neg (by omega), Nat.add_sub_cancel] at this
    rw [Finset.sum_range_succ, h1, Finset.sum_range_succ _ (k + 1)]
    linarith

theorem plan_of_flow {f : Nm × Nm → Int} (hE : (arcs D).Nodup) (hf : IsFreeFlow (arcs D) (up D) .source .sink f) :
    IsPlan D.years D.forests D.demand D.harvest (fun j i => f (.prod j i, .year i)) ∧
      yield D.years D.forests (fun j i => f (.prod j i, .year i)) = net (arcs D) f .sink := by
  have hy : ∀ i < D.years, ∑ j ∈ range D.forests, f (.prod j i, .year i) = f (.year i, .sink) := by
    intro i hi
    have := hf.conserved (.year i) (by simp) (by simp)
    rw [net_year hE f hi] at this
    linarith
  refine ⟨⟨fun j hj i hi => ?_, fun j hj k hk => ?_, fun i hi => ?_⟩, ?_⟩
  · exact hf.nonneg _ (mem_arcs'.2 (Or.inr (Or.inr (Or.inr (Or.inl ⟨j, hj, i, hi, rfl, rfl⟩)))))
  · rw [cut_le hE hf hj k hk]
    have h1 : ∑ i ∈ range (k + 1), f (.forest j, .prod j i) ≤ ∑ i ∈ range (k + 1), D.harvest i j := by
      refine Finset.sum_le_sum fun i hi => ?_
      rw [Finset.mem_range] at hi
      exact hf.bounded _ (mem_arcs'.2 (Or.inr (Or.inr (Or.inl ⟨j, hj, i, by omega, rfl, rfl⟩)))) _ rfl
    have h2 : 0 ≤ if k + 1 < D.years then f (.prod j k, .prod j (k + 1)) else 0 := by
      by_cases hl : k + 1 < D.years
      · rw [if_pos hl]
        exact hf.nonneg _ (mem_arcs'.2 (Or.inr (Or.inr (Or.inr (Or.inr ⟨j, hj, k, hl, rfl, rfl⟩)))))
      · rw [if_neg hl]
    linarith
  · rw [hy i hi]
    exact hf.bounded _ (mem_arcs'.2 (Or.inl ⟨i, hi, rfl, rfl⟩)) _ rfl
  · rw [net_sink hE f]
    unfold yield
    exact Finset.sum_congr rfl fun i hi => hy i (Finset.mem_range.1 hi)

/-! ## From plans to flows -/

/-- what forest `j` sends in the first `k` years: as early as possible, but no more than is cut altogether -/
def sent (D : Data) (cut : Nat → Nat → Int) (j k : Nat) : Int :=
  min (∑ i ∈ range k, D.harvest i j) (∑ i ∈ range D.years, cut j i)

/-- the flow of a plan -/
def flowOf (D : Data) (cut : Nat → Nat → Int) : Nm × Nm → Int
  | (.year i, .sink) => ∑ j ∈ range D.forests, cut j i
  | (.source, .forest j) => ∑ i ∈ range D.years, cut j i
  | (.forest j, .prod _ i) => sent D cut j (i + 1) - sent D cut j i
  | (.prod j i, .year _) => cut j i
  | (.prod j i, .prod _ _) => sent D cut j (i + 1) - ∑ i' ∈ range (i + 1), cut j i'
  | _ => 0

/-- non-negative data -/
structure Data.Ok (D : Data) : Prop where
  demand : ∀ i < D.years, 0 ≤ D.demand i
  harvest : ∀ i < D.years, ∀ j < D.forests, 0 ≤ D.harvest i j

variable {cut : Nat → Nat → Int}

theorem sent_zero (h : IsPlan D.years D.forests D.demand D.harvest cut) {j : Nat} (hj : j < D.forests) : sent D cut j 0 = 0 := by
  unfold sent
  rw [Finset.sum_range_zero]
  exact min_eq_left (Finset.sum_nonneg fun i hi => h.nonneg j hj i (Finset.mem_range.1 hi))

theorem sent_last (h : IsPlan D.years D.forests D.demand D.harvest cut) {j : Nat} (hj : j < D.forests) :
    sent D cut j D.years = ∑ i ∈ range D.years, cut j i := by
  unfold sent
  refine min_eq_right ?_
  rcases Nat.eq_zero_or_pos D.years with h0 | h0
  · rw [h0]; simp
  · have := h.ripe j hj (D.years - 1) (by omega)
    rwa [Nat.sub_add_cancel h0] at this

theorem sent_ge (h : IsPlan D.years D.forests D.demand D.harvest cut) {j k : Nat} (hj : j < D.forests) (hk : k < D.years) :
    ∑ i ∈ range (k + 1), cut j i ≤ sent D cut j (k + 1) := by
  unfold sent
  refine le_min (h.ripe j hj k hk) ?_
  refine Finset.sum_le_sum_of_subset_of_nonneg (Finset.range_mono (by omega)) fun i hi _ => h.nonneg j hj i (Finset.mem_range.1 hi)

theorem flow_of_plan (hE : (arcs D).Nodup) (hD : D.Ok) (h : IsPlan D.years D.forests D.demand D.harvest cut) :
    IsFreeFlow (arcs D) (up D) .source .sink (flowOf D cut) ∧
      net (arcs D) (flowOf D cut) .sink = yield D.years D.forests cut := by
  have hstep : ∀ j < D.forests, ∀ i < D.years, 0 ≤ sent D cut j (i + 1) - sent D cut j i ∧
      sent D cut j (i + 1) - sent D cut j i ≤ D.harvest i j := by
    intro j hj i hi
    have h1 := hD.harvest i hi j hj
    unfold sent
    rw [Finset.sum_range_succ]
    constructor
    · have := min_le_min_right (∑ i ∈ range D.years, cut j i) (show ∑ i ∈ range i, D.harvest i j ≤ ∑ i ∈ range i, D.harvest i j + D.harvest i j by linarith)
      linarith
    · rcases le_total (∑ i ∈ range i, D.harvest i j) (∑ i ∈ range D.years, cut j i) with hle | hle
      · rw [min_eq_left hle]
        have := min_le_left (∑ i ∈ range i, D.harvest i j + D.harvest i j) (∑ i ∈ range D.years, cut j i)
        linarith
      · rw [min_eq_right hle]
        have := min_le_right (∑ i ∈ range i, D.harvest i j + D.harvest i j) (∑ i ∈ range D.years, cut j i)
        linarith
  refine ⟨⟨?_, ?_, ?_⟩, ?_⟩
  · rintro ⟨u, v⟩ he
    rcases mem_arcs'.1 he with ⟨i, hi, rfl, rfl⟩ | ⟨j, hj, rfl, rfl⟩ | ⟨j, hj, i, hi, rfl, rfl⟩ | ⟨j, hj, i, hi, rfl, rfl⟩ |
      ⟨j, hj, i, hi, rfl, rfl⟩
    · exact Finset.sum_nonneg fun j hj => h.nonneg j (Finset.mem_range.1 hj) i hi
    · exact Finset.sum_nonneg fun i hi => h.nonneg j hj i (Finset.mem_range.1 hi)
    · exact (hstep j hj i hi).1
    · exact h.nonneg j hj i hi
    · have := sent_ge h hj (show i < D.years by omega)
      simp only [flowOf]
      linarith
  · rintro ⟨u, v⟩ he c hc
    rcases mem_arcs'.1 he with ⟨i, hi, rfl, rfl⟩ | ⟨j, hj, rfl, rfl⟩ | ⟨j, hj, i, hi, rfl, rfl⟩ | ⟨j, hj, i, hi, rfl, rfl⟩ |
      ⟨j, hj, i, hi, rfl, rfl⟩
    · cases hc; exact h.sold i hi
    · cases hc
    · cases hc; exact (hstep j hj i hi).2
    · cases hc
    · cases hc
  · intro v h1 h2
    by_cases hv : ∃ e ∈ arcs D, e.1 = v ∨ e.2 = v
    · obtain ⟨⟨x, y⟩, he, hv⟩ := hv
      have hk : (∃ i < D.years, v = .year i) ∨ (∃ j < D.forests, v = .forest j) ∨ ∃ j < D.forests, ∃ i < D.years, v = .prod j i := by
        rcases mem_arcs'.1 he with ⟨i, hi, rfl, rfl⟩ | ⟨j, hj, rfl, rfl⟩ | ⟨j, hj, i, hi, rfl, rfl⟩ | ⟨j, hj, i, hi, rfl, rfl⟩ |
          ⟨j, hj, i, hi, rfl, rfl⟩ <;> rcases hv with rfl | rfl
        · exact Or.inl ⟨i, hi, rfl⟩
        · exact absurd rfl h2
        · exact absurd rfl h1
        · exact Or.inr (Or.inl ⟨j, hj, rfl⟩)
        · exact Or.inr (Or.inl ⟨j, hj, rfl⟩)
        · exact Or.inr (Or.inr ⟨j, hj, i, hi, rfl⟩)
        · exact Or.inr (Or.inr ⟨j, hj, i, hi, rfl⟩)
        · exact Or.inl ⟨i, hi, rfl⟩
        · exact Or.inr (Or.inr ⟨j, hj, i, by omega, rfl⟩)
        · exact Or.inr (Or.inr ⟨j, hj, i + 1, hi, rfl⟩)
      rcases hk with ⟨i, hi, rfl⟩ | ⟨j, hj, rfl⟩ | ⟨j, hj, i, hi, rfl⟩
      · rw [net_year hE _ hi]
        simp only [flowOf, sub_self]
      · rw [net_forest hE _ hj]
        simp only [flowOf]
        rw [Finset.sum_range_sub (fun i => sent D cut j i), sent_last h hj, sent_zero h hj]
        omega
      · rw [net_prod hE _ hj hi]
        have h3 : (if i = 0 then (0 : Int) else flowOf D cut (.prod j (i - 1), .prod j i)) =
            sent D cut j i - ∑ i' ∈ range i, cut j i' := by
          by_cases h0 : i = 0
          · subst h0; rw [if_pos rfl, sent_zero h hj]; simp
          · rw [if_neg h0]
            simp only [flowOf]
            rw [Nat.sub_add_cancel (by omega)]
        have h4 : (if i + 1 < D.years then flowOf D cut (.prod j i, .prod j (i + 1)) else 0) =
            sent D cut j (i + 1) - ∑ i' ∈ range (i + 1), cut j i' := by
          by_cases h0 : i + 1 < D.years
          · rw [if_pos h0]; rfl
          · rw [if_neg h0]
            have : i + 1 = D.years := by omega
            rw [this, sent_last h hj, sub_self]
        rw [h3, h4]
        simp only [flowOf]
        rw [Finset.sum_range_succ]
        omega
    · unfold net
      have h3 : ∀ p : Nm × Nm → Prop, [DecidablePred p] → (∀ e ∈ arcs D, ¬ p e) →
          ((arcs D).map fun e => if p e then flowOf D cut e else 0).sum = 0 := by
        intro p _ hp
        refine List.sum_eq_zero ?_
        intro x hx
        obtain ⟨e, he, rfl⟩ := List.mem_map.1 hx
        exact if_neg (hp e he)
      rw [h3 _ fun e he hh => hv ⟨e, he, Or.inr hh⟩, h3 _ fun e he hh => hv ⟨e, he, Or.inl hh⟩]
      rfl
  · rw [net_sink hE]
    rfl

/-! ## The script -/

theorem cut_demand (hE : (arcs D).Nodup) : cutCap (arcs D) (stored (up D)) (fun v => decide (v ≠ .sink)) =
    ∑ i ∈ range D.years, D.demand i := by
  rw [cutCap_eq]
  have h := net_sink hE (stored (up D))
  unfold net at h
  have h2 : (List.map (fun e => if e.1 = Nm.sink then stored (up D) e else 0) (arcs D)).sum = 0 := by
    rw [List.map_congr_left (g := fun _ => (0 : Int))]
    · simp
    · rintro ⟨u, v⟩ he
      refine if_neg fun hu => ?_
      simp only at hu
      subst hu
      rw [mem_arcs'] at he
      simp at he
  rw [h2, Int.sub_zero] at h
  rw [show (∑ i ∈ range D.years, D.demand i) = ∑ i ∈ range D.years, stored (up D) (.year i, .sink) from rfl, ← h]
  congr 1
  refine List.map_congr_left ?_
  rintro ⟨u, v⟩ he
  have hu : u ≠ .sink := by
    rintro rfl
    rw [mem_arcs'] at he
    simp at he
  simp [hu]

/-- **C106.** For any positive number of years and forests and any non-negative data with a total demand of at most 10000, the
script raises nothing, with any bag as queue, and the flow that it leaves on the arcs from the production of forest `j` in year
`i` to the total production of that year is a harvest plan of greatest yield. -/
theorem C106_forestry {Q : Type} {O : QOps Nm Q} {items : Q → List Nm} (hb : LawfulBag O items) {newQ : Q} (hq : items newQ = [])
    (hy : 0 < D.years) (hfo : 0 < D.forests) (hD : D.Ok) (hsum : ∑ i ∈ range D.years, D.demand i ≤ 10000) :
    ∃ K, ∀ fuel, K ≤ fuel → ∃ g f, main D O newQ fuel = .ok (g, f) ∧
      IsBestPlan D.years D.forests D.demand D.harvest fun j i => f (.prod j i, .year i) := by
  obtain ⟨g, h1, h2, h3, h4, h5, _⟩ := script_graph D
  have hE : (arcs D).Nodup := by rw [← h4]; exact h2.wf.edup
  have hn : ∀ e ∈ arcs D, e.1 ∈ g.getNodeList ∧ e.2 ∈ g.getNodeList := fun e he => h2.wf.endp e.1 e.2 (by rw [← h4] at he; exact he)
  refine ⟨flowFuel g (stored (up D)), fun fuel hf => ?_⟩
  obtain ⟨f, h6, _, h7, _⟩ := C105_free_arcs_partial (src := Nm.source) (sink := Nm.sink) (up := up D) h2 h3 hb hq h5
    (by
      rintro ⟨u, v⟩ he c hc
      rw [h4] at he
      rcases mem_arcs'.1 he with ⟨i, hi, rfl, rfl⟩ | ⟨j, hj, rfl, rfl⟩ | ⟨j, hj, i, hi, rfl, rfl⟩ | ⟨j, hj, i, hi, rfl, rfl⟩ |
        ⟨j, hj, i, hi, rfl, rfl⟩ <;> cases hc
      · exact hD.demand i hi
      · exact hD.harvest i hi j hj)
    (hn _ (mem_arcs'.2 (Or.inr (Or.inl ⟨0, hfo, rfl, rfl⟩)))).1 (hn _ (mem_arcs'.2 (Or.inl ⟨0, hy, rfl, rfl⟩))).2 (by simp)
    (by
      intro u v he
      rw [h4] at he ⊢
      rw [mem_arcs']
      rcases mem_arcs'.1 he with ⟨i, hi, rfl, rfl⟩ | ⟨j, hj, rfl, rfl⟩ | ⟨j, hj, i, hi, rfl, rfl⟩ | ⟨j, hj, i, hi, rfl, rfl⟩ |
        ⟨j, hj, i, hi, rfl, rfl⟩ <;> simp
      omega)
    hf (queue_lawful (N := Nm)) rfl ⟨[], .empty, fun _ => .black, fun _ => none, fun _ => none, fun _ => none⟩ rfl
    (Preflow.queue_set (N := Nm)) (newQ' := []) rfl .fifo (Nat.le_refl _)
  have hmax := (h7 ⟨fun v => decide (v ≠ .sink), by simp, by simp, by
      rintro ⟨u, v⟩ he hu hv
      rw [h4] at he
      simp at hv
      subst hv
      rw [mem_arcs'] at he
      simp at he
      obtain ⟨i, _, rfl⟩ := he
      simp [up], by rw [h4, cut_demand hE]; exact hsum⟩).1
  rw [h4] at hmax
  obtain ⟨p1, p2⟩ := plan_of_flow hE hmax.flow
  refine ⟨g, f, ?_, p1, fun cut' hc' => ?_⟩
  · unfold main
    rw [h1]
    simp only [h6]
  · obtain ⟨q1, q2⟩ := flow_of_plan hE hD hc'
    rw [p2, ← q2]
    exact hmax.most _ q1

/-- non-vacuity of C106: the data given in the comment of the script (forestry.py 9-20); all that grows is cut, most of it later -/
def exD : Data where
  years := 3
  forests := 2
  demand i := [10, 4, 7].getD i 0
  harvest i j := ([[7, 2], [3, 5], [2, 1]].getD i []).getD j 0

example : exD.Ok ∧ ∑ i ∈ range exD.years, exD.demand i ≤ 10000 := by
  refine ⟨⟨?_, ?_⟩, ?_⟩ <;> decide

example : (match main exD stackOps [] 60100 with
    | .ok (_, f) => some ((List.range 2).map fun j => (List.range 3).map fun i => f (.prod j i, .year i))
    | .error _ => none) = some [[7, 3, 2], [2, 1, 5]] := by decide +kernel

/-- that the total demand is bounded is needed: with 20000 in one year and one forest at most 10000 is cut -/
def exBig : Data where
  years := 1
  forests := 1
  demand _ := 20000
  harvest _ _ := 20000

theorem C106_bound_needed {Q : Type} {O : QOps Nm Q} {items : Q → List Nm} (hb : LawfulBag O items) {newQ : Q}
    (hq : items newQ = []) : exBig.Ok ∧ ∃ K, ∀ fuel, K ≤ fuel → ∃ g f, main exBig O newQ fuel = .ok (g, f) ∧
      ¬ IsBestPlan exBig.years exBig.forests exBig.demand exBig.harvest fun j i => f (.prod j i, .year i) := by
  have hD : exBig.Ok := ⟨fun _ _ => by simp [exBig], fun _ _ _ _ => by simp [exBig]⟩
  refine ⟨hD, ?_⟩
  obtain ⟨g, h1, h2, h3, h4, h5, _⟩ := script_graph exBig
  have hE : (arcs exBig).Nodup := by rw [← h4]; exact h2.wf.edup
  have hm : (Nm.source, Nm.forest 0) ∈ arcs exBig := mem_arcs'.2 (Or.inr (Or.inl ⟨0, by simp [exBig], rfl, rfl⟩))
  have hpos : ∀ e ∈ g.getEdgeList, 0 ≤ stored (up exBig) e := by
    refine stored_nonneg ?_
    rintro ⟨u, v⟩ he c hc
    rw [h4] at he
    rcases mem_arcs'.1 he with ⟨i, hi, rfl, rfl⟩ | ⟨j, hj, rfl, rfl⟩ | ⟨j, hj, i, hi, rfl, rfl⟩ | ⟨j, hj, i, hi, rfl, rfl⟩ |
      ⟨j, hj, i, hi, rfl, rfl⟩ <;> cases hc
    · exact hD.demand i hi
    · exact hD.harvest i hi j hj
  refine ⟨flowFuel g (stored (up exBig)), fun fuel hf => ?_⟩
  obtain ⟨f, h6, h7⟩ := C26_max_flow_feasible (src := Nm.source) (sink := Nm.sink) h2 h3 hb hq h5.capOf hpos
    (h2.wf.endp Nm.source (Nm.forest 0) (by rw [← h4] at hm; exact hm)).1 (by simp) hf
  refine ⟨g, f, by unfold main; rw [h1]; simp only [h6], fun hbest => ?_⟩
  have h8 := hbest.most (fun _ _ => 20000) ⟨fun _ _ _ _ => by simp, fun j hj k hk => by simp [exBig],
    fun i hi => by simp [exBig]⟩
  rw [h4] at h7
  have h9 := h7.conserved (.forest 0) (by simp) (by simp)
  rw [net_forest hE f (by simp [exBig])] at h9
  have h10 := h7.conserved (.prod 0 0) (by simp) (by simp)
  rw [net_prod hE f (by simp [exBig]) (by simp [exBig])] at h10
  have h11 := (h7.within _ hm).2
  simp [exBig, yield] at h8 h9 h10
  simp [stored, up] at h11
  omega

/-- the label of a node: none for the source and the sink -/
def labelOf : Nm → Val Nm
  | .source => .none
  | .sink => .none
  | .year i => .str ("Total Production\nin Year " ++ toString (i + 1))
  | .forest j => .str ("Forest " ++ toString (j + 1))
  | .prod j i => .str ("Production\nof Forest " ++ toString (j + 1) ++ "\nin Year " ++ toString (i + 1))

/-- the nodes of the picture -/
def IsNode (D : Data) : Nm → Prop
  | .source => 0 < D.forests
  | .sink => 0 < D.years
  | .year i => i < D.years
  | .forest j => j < D.forests
  | .prod j i => j < D.forests ∧ i < D.years

/-- the arcs of the picture -/
def IsArc (D : Data) : Nm → Nm → Prop
  | .source, .forest j => j < D.forests
  | .forest j, .prod j' i => j' = j ∧ j < D.forests ∧ i < D.years
  | .prod j i, .year i' => i' = i ∧ j < D.forests ∧ i < D.years
  | .prod j i, .prod j' i' => j' = j ∧ i' = i + 1 ∧ j < D.forests ∧ i + 1 < D.years
  | .year i, .sink => i < D.years
  | _, _ => False

/-- **C141.** The graph that the script builds, whatever the data: its nodes, the text in each of them, its arcs, and the
capacities they are given. -/
theorem C141_forestry_network (D : Data) : ∃ g, script (Graph.init true) (ops D) = .ok g ∧
    (∀ n, n ∈ g.getNodeList ↔ IsNode D n) ∧ (∀ n, IsNode D n → g.getNodeAttr n "label" = .ok (labelOf n)) ∧
    (∀ u v, (u, v) ∈ g.getEdgeList ↔ IsArc D u v) ∧
    (∀ i < D.years, g.getEdgeAttr (.year i) .sink "capacity" = .ok (.int (D.demand i))) ∧
    (∀ j < D.forests, ∀ i < D.years, g.getEdgeAttr (.forest j) (.prod j i) "capacity" = .ok (.int (D.harvest i j))) ∧
    ∀ u v, IsArc D u v → v ≠ .sink → (∀ j, u ≠ .forest j) → g.getEdgeAttr u v "capacity" = .error .keyError := by
  obtain ⟨g, h1, h2, h3, h4, h5, h6, h7, h8⟩ := script_graph D
  have harc : ∀ u v, (u, v) ∈ g.getEdgeList ↔ IsArc D u v := by
    intro u v
    rw [h4, mem_arcs']
    cases u <;> cases v <;> simp [IsArc]
    · constructor
      · rintro ⟨hj, h, rfl⟩; exact ⟨rfl, hj, h⟩
      · rintro ⟨rfl, hj, h⟩; exact ⟨hj, h, rfl⟩
    · constructor
      · rintro ⟨hj, h, rfl⟩; exact ⟨rfl, hj, h⟩
      · rintro ⟨rfl, hj, h⟩; exact ⟨hj, h, rfl⟩
    · constructor
      · rintro ⟨hj, h, rfl, rfl⟩; exact ⟨rfl, rfl, hj, h⟩
      · rintro ⟨rfl, rfl, hj, h⟩; exact ⟨hj, h, rfl, rfl⟩
  have hnode : ∀ n, n ∈ g.getNodeList ↔ IsNode D n := by
    intro n
    rw [h6]
    constructor
    · rintro ⟨op, hop, hn⟩
      rw [mem_ops] at hop
      simp only [yearOps, prodOps, List.mem_cons, List.not_mem_nil, or_false] at hop
      rcases hop with ⟨i, hi, rfl | rfl⟩ | ⟨j, hj, (rfl | rfl) | ⟨i, hi, rfl | rfl | rfl⟩ | ⟨i, hi, rfl⟩⟩ <;>
        simp only [Op.names, List.mem_cons, List.not_mem_nil, or_false] at hn
      · subst hn; exact hi
      · rcases hn with rfl | rfl
        · exact hi
        · show 0 < D.years; omega
      · subst hn; exact hj
      · rcases hn with rfl | rfl
        · show 0 < D.forests; omega
        · exact hj
      · subst hn; exact ⟨hj, hi⟩
      · rcases hn with rfl | rfl
        · exact hj
        · exact ⟨hj, hi⟩
      · rcases hn with rfl | rfl
        · exact ⟨hj, hi⟩
        · exact hi
      · rcases hn with rfl | rfl
        · exact ⟨hj, by omega⟩
        · exact ⟨hj, by omega⟩
    · intro hn
      cases n with
      | source => exact ⟨_, mem_addEdge.2 (Or.inr (Or.inl ⟨0, hn, rfl, rfl, rfl⟩)), by simp [Op.names]⟩
      | sink => exact ⟨_, mem_addEdge.2 (Or.inl ⟨0, hn, rfl, rfl, rfl⟩), by simp [Op.names]⟩
      | year i => exact ⟨_, mem_addEdge.2 (Or.inl ⟨i, hn, rfl, rfl, rfl⟩), by simp [Op.names]⟩
      | forest j => exact ⟨_, mem_addEdge.2 (Or.inr (Or.inl ⟨j, hn, rfl, rfl, rfl⟩)), by simp [Op.names]⟩
      | prod j i =>
        exact ⟨_, mem_addEdge.2 (Or.inr (Or.inr (Or.inr (Or.inl ⟨j, hn.1, i, hn.2, rfl, rfl, rfl⟩)))), by simp [Op.names]⟩
  have hcap : ∀ u v, IsArc D u v → g.getEdgeAttr u v "capacity" =
      match up D (u, v) with | some c => .ok (.int c) | none => .error .keyError := by
    intro u v huv
    obtain ⟨a, ha1, ha2⟩ := h5 (u, v) ((harc u v).2 huv)
    unfold Graph.getEdgeAttr
    rw [h3, if_pos rfl, ha1]
    rw [Option.bind_some, ha2]
    cases up D (u, v) <;> rfl
  refine ⟨g, h1, hnode, ?_, harc, ?_, ?_, ?_⟩
  · intro n hn
    have hno : (n = .source ∨ n = .sink) → g.getNodeAttr n "label" = .ok .none := by
      intro h
      refine h8 n ((hnode n).2 hn) (fun attr ha => ?_) _
      rw [mem_ops] at ha
      simp only [yearOps, prodOps, List.mem_cons, List.not_mem_nil, or_false, Op.addNode.injEq, reduceCtorEq] at ha
      rcases h with rfl | rfl <;> simp at ha
    cases n with
    | source => exact hno (Or.inl rfl)
    | sink => exact hno (Or.inr rfl)
    | year i => exact h7 _ _ (mem_ops.2 (Or.inl ⟨i, hn, List.mem_cons_self⟩)) _
    | forest j => exact h7 _ _ (mem_ops.2 (Or.inr ⟨j, hn, Or.inl List.mem_cons_self⟩)) _
    | prod j i => exact h7 _ _ (mem_ops.2 (Or.inr ⟨j, hn.1, Or.inr (Or.inl ⟨i, hn.2, List.mem_cons_self⟩)⟩)) _
  · intro i hi; exact hcap (.year i) .sink hi
  · intro j hj i hi; exact hcap (.forest j) (.prod j i) ⟨rfl, hj, hi⟩
  · intro u v huv hv hu
    rw [hcap u v huv]
    cases u <;> cases v <;> simp [up] <;> first | exact absurd rfl hv | exact absurd rfl (hu _)

/-- non-vacuity of C141: the number of nodes and arcs and the text of one node, for the data given in the script -/
example : (match script (Graph.init true) (ops exD) with
    | .ok g => some (g.getNodeList.length, g.getEdgeList.length, decide (g.getNodeAttr (.prod 1 2) "label" =
        .ok (.str "Production\nof Forest 2\nin Year 3")))
    | .error _ => none) = some (13, 21, true) := by decide +kernel

end Forestry
end GiMPy
