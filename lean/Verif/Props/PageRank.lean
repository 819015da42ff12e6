import Verif.Props.Misc
import Mathlib.LinearAlgebra.FiniteDimensional.Basic

/-! # C133, C134: the PageRank equations have one solution; the sum of the ranks -/

namespace GiMPy
namespace Misc
variable {N : Type} [DecidableEq N] {g : Graph N} {d minv : ℚ}

/-! ## Lemmas -/

/-- the share that a node passes on -/
theorem co_sum (hg : g.Wf) (u : N) :
    ∑ n ∈ g.getNodeList.toFinset, co g d u n = if outDeg g.getEdgeList u = 0 then 0 else d := by
  unfold co
  rw [← Finset.sum_filter, Finset.sum_const, nsmul_eq_mul]
  have hcard : (g.getNodeList.toFinset.filter fun n => (u, n) ∈ g.getEdgeList).card = outDeg g.getEdgeList u := by
    have hnd : ((g.getEdgeList.filter fun e => e.1 = u).map Prod.snd).Nodup := by
      rw [List.nodup_iff_count_le_one]
      intro v
      rw [count_fst]
      exact List.nodup_iff_count_le_one.1 hg.edup _
    have : (g.getNodeList.toFinset.filter fun n => (u, n) ∈ g.getEdgeList) =
        ((g.getEdgeList.filter fun e => e.1 = u).map Prod.snd).toFinset := by
      ext v
      simp only [List.mem_toFinset, Finset.mem_filter, List.mem_map, Prod.exists, exists_eq_right, List.mem_filter, decide_eq_true_eq]
      constructor
      · exact fun h => h.2
      · exact fun h => ⟨(hg.endp _ _ h).2, h⟩
    rw [this, List.toFinset_card_of_nodup hnd]
    simp [outDeg]
  rw [hcard]
  by_cases h0 : outDeg g.getEdgeList u = 0
  · rw [h0]; simp
  · have : (outDeg g.getEdgeList u : ℚ) ≠ 0 := by exact_mod_cast h0
    rw [if_neg h0, mul_div_cancel₀ _ this]

/-- a table that is below what it passes on is zero -/
theorem no_source (hg : g.Wf) (h : 0 ≤ d) (h1 : d < 1) (x : N → ℚ) (hx : ∀ n, 0 ≤ x n)
    (hle : ∀ n ∈ g.getNodeList, x n ≤ ∑ u ∈ g.getNodeList.toFinset, co g d u n * x u) : ∀ n ∈ g.getNodeList, x n = 0 := by
  have h2 : ∑ n ∈ g.getNodeList.toFinset, x n ≤ d * ∑ n ∈ g.getNodeList.toFinset, x n := by
    refine (Finset.sum_le_sum fun n hn => hle n (List.mem_toFinset.1 hn)).trans ?_
    rw [Finset.sum_comm, Finset.mul_sum]
    refine Finset.sum_le_sum fun u _ => ?_
    rw [← Finset.sum_mul]
    exact mul_le_mul_of_nonneg_right (co_sum_le hg h u) (hx u)
  have h3 : 0 ≤ ∑ n ∈ g.getNodeList.toFinset, x n := Finset.sum_nonneg fun n _ => hx n
  have h4 : ∑ n ∈ g.getNodeList.toFinset, x n = 0 := by nlinarith
  intro n hn
  exact (Finset.sum_eq_zero_iff_of_nonneg fun n _ => hx n).1 h4 n (List.mem_toFinset.2 hn)

/-- solutions of the equations are unique -/
theorem codeF_unique (hg : g.Wf) (hd : g.directed = true) (h : 0 ≤ d) (h1 : d < 1) {p q : N → ℚ}
    (hp : ∀ n ∈ g.getNodeList, p n = codeF g d minv p n) (hq : ∀ n ∈ g.getNodeList, q n = codeF g d minv q n) :
    ∀ n ∈ g.getNodeList, q n = p n := by
  intro n hn
  have := no_source hg h h1 (fun n => |q n - p n|) (fun _ => abs_nonneg _) (fun n hn => by
    have := codeF_sub (minv := minv) hg hd h q p n
    rw [← hp n hn, ← hq n hn] at this
    exact this) n hn
  exact sub_eq_zero.1 (abs_eq_zero.1 this)

/-- there is a solution: the map `x ↦ x - M x` is injective, so it is surjective -/
theorem codeF_exists (hg : g.Wf) (hd : g.directed = true) (h : 0 ≤ d) (h1 : d < 1) :
    ∃ p : N → ℚ, ∀ n ∈ g.getNodeList, p n = codeF g d minv p n := by
  let S := g.getNodeList.toFinset
  let L : (S → ℚ) →ₗ[ℚ] (S → ℚ) :=
    { toFun := fun x n => x n - ∑ u : S, co g d u n * x u
      map_add' := by
        intro x y; funext n
        simp only [Pi.add_apply, mul_add, Finset.sum_add_distrib]; ring
      map_smul' := by
        intro c x; funext n
        simp only [Pi.smul_apply, smul_eq_mul, RingHom.id_apply, mul_sub, Finset.mul_sum]
        congr 1
        exact Finset.sum_congr rfl fun u _ => by ring }
  have ext : ∀ (x : S → ℚ), ∃ y : N → ℚ, ∀ n : S, y n = x n := by
    intro x
    refine ⟨fun n => if hn : n ∈ S then x ⟨n, hn⟩ else 0, fun n => ?_⟩
    simp
  have hsum : ∀ (y : N → ℚ) (n : N), ∑ u : S, co g d u n * y u = ∑ u ∈ S, co g d u n * y u := by
    intro y n
    exact Finset.sum_coe_sort S fun u => co g d u n * y u
  have hinj : Function.Injective L := by
    rw [injective_iff_map_eq_zero]
    intro x hx
    obtain ⟨y, hy⟩ := ext x
    have hz := no_source hg h h1 (fun n => |y n|) (fun _ => abs_nonneg _) (fun n hn => by
      have hL : L x ⟨n, List.mem_toFinset.2 hn⟩ = 0 := by rw [hx]; rfl
      have e1 : x ⟨n, List.mem_toFinset.2 hn⟩ = ∑ u : S, co g d u n * x u := sub_eq_zero.1 hL
      rw [← hy] at e1
      simp only [← hy] at e1
      rw [hsum y n] at e1
      show |y n| ≤ _
      rw [show y n = _ from e1]
      refine (Finset.abs_sum_le_sum_abs _ _).trans (Finset.sum_le_sum fun u _ => ?_)
      rw [abs_mul, abs_of_nonneg (co_nonneg h u n)])
    funext n
    have := hz n (List.mem_toFinset.1 n.2)
    rw [← hy]
    exact abs_eq_zero.1 this
  obtain ⟨x, hx⟩ := (LinearMap.injective_iff_surjective (f := L)).1 hinj fun _ => minv
  obtain ⟨y, hy⟩ := ext x
  refine ⟨y, fun n hn => ?_⟩
  rw [codeF_eq hg hd]
  have e1 : x ⟨n, List.mem_toFinset.2 hn⟩ - ∑ u : S, co g d u n * x u = minv := congrFun hx ⟨n, List.mem_toFinset.2 hn⟩
  rw [← hy] at e1
  simp only [← hy] at e1
  rw [hsum y n] at e1
  linarith

/-- the solution is at least the share of `1 - d` -/
theorem codeF_ge (hg : g.Wf) (hd : g.directed = true) (h : 0 ≤ d) (h1 : d < 1) (hm : 0 ≤ minv) {p : N → ℚ}
    (hp : ∀ n ∈ g.getNodeList, p n = codeF g d minv p n) : ∀ n ∈ g.getNodeList, minv ≤ p n := by
  have h0 : ∀ n ∈ g.getNodeList, max (- p n) 0 = 0 :=
    no_source hg h h1 (fun n => max (- p n) 0) (fun _ => le_max_right _ _) fun n hn => by
      have hs : 0 ≤ ∑ u ∈ g.getNodeList.toFinset, co g d u n * max (- p u) 0 :=
        Finset.sum_nonneg fun u _ => mul_nonneg (co_nonneg h u n) (le_max_right _ _)
      refine max_le ?_ hs
      rw [hp n hn, codeF_eq hg hd]
      have : - ∑ u ∈ g.getNodeList.toFinset, co g d u n * p u ≤ ∑ u ∈ g.getNodeList.toFinset, co g d u n * max (- p u) 0 := by
        rw [← Finset.sum_neg_distrib]
        refine Finset.sum_le_sum fun u _ => ?_
        rw [← mul_neg]
        exact mul_le_mul_of_nonneg_left (le_max_left _ _) (co_nonneg h u n)
      linarith
  have h2 : ∀ n ∈ g.getNodeList, 0 ≤ p n := by
    intro n hn
    have := max_eq_right_iff.1 (h0 n hn)
    linarith
  intro n hn
  rw [hp n hn, codeF_eq hg hd]
  have : 0 ≤ ∑ u ∈ g.getNodeList.toFinset, co g d u n * p u :=
    Finset.sum_nonneg fun u hu => mul_nonneg (co_nonneg h u n) (h2 u (List.mem_toFinset.1 hu))
  linarith

/-- the sum of a table after one round: what the nodes without outgoing arcs hold is lost -/
theorem codeF_total (hg : g.Wf) (hd : g.directed = true) (x : N → ℚ) :
    ∑ n ∈ g.getNodeList.toFinset, codeF g d minv x n = g.getNodeList.length * minv +
      d * ∑ u ∈ g.getNodeList.toFinset, x u - d * ∑ u ∈ g.getNodeList.toFinset.filter (fun u => outDeg g.getEdgeList u = 0), x u := by
  simp only [codeF_eq hg hd]
  rw [Finset.sum_add_distrib, Finset.sum_const, nsmul_eq_mul, List.toFinset_card_of_nodup (nodup_nodes hg), Finset.sum_comm]
  have : ∀ u ∈ g.getNodeList.toFinset, ∑ n ∈ g.getNodeList.toFinset, co g d u n * x u =
      d * x u - if outDeg g.getEdgeList u = 0 then d * x u else 0 := by
    intro u _
    rw [← Finset.sum_mul, co_sum hg]
    split <;> ring
  rw [Finset.sum_congr rfl this, Finset.sum_sub_distrib, ← Finset.sum_filter, ← Finset.mul_sum, ← Finset.mul_sum]
  show (g.getNodeList.length : ℚ) * minv + _ = _
  ring

end Misc

open Misc
variable {N : Type} [DecidableEq N] {g : Graph N} {d md : ℚ}

/-- the nodes from which no arc leaves -/
def danglingNodes (V : List N) (E : List (N × N)) : List N := V.filter fun n => outDeg E n = 0

theorem sum_dangling (hg : g.Wf) (x : N → ℚ) :
    ((danglingNodes g.getNodeList g.getEdgeList).map x).sum =
      ∑ u ∈ g.getNodeList.toFinset.filter (fun u => outDeg g.getEdgeList u = 0), x u := by
  unfold danglingNodes
  rw [← List.sum_toFinset _ ((nodup_nodes hg).filter _)]
  refine Finset.sum_congr ?_ fun _ _ => rfl
  ext u; simp

/-! ## C133 -/

/-- **C133.** For a digraph and a damping factor `0 ≤ d < 1` the PageRank equations have exactly one solution, all of its values
are at least `(1-d)/N`, and `page_rank` finds it: for every tolerance `eps` there is a `min_delta` such that, with sufficiently
many iterations, the errors of the ranks it returns add up to at most `eps`. -/
theorem C133_page_rank_solution (hg : Built g) (hd : g.directed = true) (hd0 : 0 ≤ d) (hd1 : d < 1) :
    ∃ p, IsPageRank g.getNodeList g.getEdgeList d p ∧
      (∀ q, IsPageRank g.getNodeList g.getEdgeList d q → ∀ n ∈ g.getNodeList, q n = p n) ∧
      (∀ n ∈ g.getNodeList, (1 - d) / g.getNodeList.length ≤ p n) ∧
      ∀ eps, 0 < eps → ∃ md K, 0 < md ∧ ∀ k, K ≤ k → ∃ pr, ∃ x : N → ℚ, pageRank g d k md = .ok (pr, true) ∧
        (∀ n ∈ g.getNodeList, pr.get? n = some (x n)) ∧ (g.getNodeList.map fun n => |x n - p n|).sum ≤ eps := by
  have hm : 0 ≤ (1 - d) / (g.getNodeList.length : ℚ) := div_nonneg (by linarith) (by positivity)
  obtain ⟨p, hp⟩ := codeF_exists (minv := (1 - d) / g.getNodeList.length) hg.wf hd hd0 hd1
  have hp' : IsPageRank g.getNodeList g.getEdgeList d p := fun n hn => by rw [rankOf_eq hg.wf hd]; exact hp n hn
  refine ⟨p, hp', fun q hq => codeF_unique hg.wf hd hd0 hd1 hp fun n hn => by rw [← rankOf_eq hg.wf hd]; exact hq n hn,
    codeF_ge hg.wf hd hd0 hd1 hm hp, fun eps heps => ?_⟩
  have h1d : 0 < 1 - d := by linarith
  have hmd : 0 < (1 - d) * eps := mul_pos h1d heps
  obtain ⟨⟨K, hK⟩, h2⟩ := C57_page_rank_converges hg hd hd0 hd1 hmd
  refine ⟨(1 - d) * eps, K, hmd, fun k hk => ?_⟩
  obtain ⟨pr, hpr⟩ := hK k hk
  obtain ⟨x, hx, hx'⟩ := h2 k pr hpr
  refine ⟨pr, x, hpr, hx, (hx' p hp').trans ?_⟩
  have : d / (1 - d) * ((1 - d) * eps) = d * eps := by field_simp
  rw [this]
  nlinarith

/-! ## C134 -/

/-- the sum of the solution: what the nodes without outgoing arcs hold is lost -/
theorem solution_total (hg : g.Wf) (hd : g.directed = true) (hd1 : d < 1) (hne : g.getNodeList ≠ []) {p : N → ℚ}
    (hp : IsPageRank g.getNodeList g.getEdgeList d p) :
    (g.getNodeList.map p).sum = 1 - d / (1 - d) * ((danglingNodes g.getNodeList g.getEdgeList).map p).sum := by
  rw [sum_dangling hg, ← List.sum_toFinset _ (nodup_nodes hg)]
  have h1 : ∑ n ∈ g.getNodeList.toFinset, p n =
      ∑ n ∈ g.getNodeList.toFinset, codeF g d ((1 - d) / g.getNodeList.length) p n :=
    Finset.sum_congr rfl fun n hn => by rw [← rankOf_eq hg hd]; exact hp n (List.mem_toFinset.1 hn)
  rw [codeF_total hg hd] at h1
  have hN : (g.getNodeList.length : ℚ) ≠ 0 := by exact_mod_cast fun h => hne (List.length_eq_zero_iff.1 h)
  have h1d : (1 - d) ≠ 0 := by linarith
  rw [mul_div_cancel₀ _ hN] at h1
  field_simp
  linarith

/-- **C134, what holds.** If from every node an arc leaves, the solution of the PageRank equations adds up to 1, and the ranks that
`page_rank` returns after it converged add up to 1, up to `d / (1 - d) * min_delta`.  Missing: graphs with nodes without outgoing
arcs, for which it is false (`C134_dangling_loses`). -/
theorem C134_ranks_add_up_partial (hg : Built g) (hd : g.directed = true) (hd0 : 0 ≤ d) (hd1 : d < 1) (hmd : 0 < md)
    (hne : g.getNodeList ≠ []) (hout : ∀ n ∈ g.getNodeList, ∃ m, (n, m) ∈ g.getEdgeList) :
    (∀ p, IsPageRank g.getNodeList g.getEdgeList d p → (g.getNodeList.map p).sum = 1) ∧
    ∀ k pr, pageRank g d k md = .ok (pr, true) → ∃ x : N → ℚ, (∀ n ∈ g.getNodeList, pr.get? n = some (x n)) ∧
      |(g.getNodeList.map x).sum - 1| ≤ d / (1 - d) * md := by
  have hz : danglingNodes g.getNodeList g.getEdgeList = [] := by
    unfold danglingNodes
    rw [List.filter_eq_nil_iff]
    intro n hn
    obtain ⟨m, hm⟩ := hout n hn
    simpa using outDeg_pos hm
  have hsum : ∀ p, IsPageRank g.getNodeList g.getEdgeList d p → (g.getNodeList.map p).sum = 1 := by
    intro p hp
    rw [solution_total hg.wf hd hd1 hne hp, hz]; simp
  refine ⟨hsum, fun k pr hpr => ?_⟩
  obtain ⟨p, hp, _⟩ := C133_page_rank_solution hg hd hd0 hd1
  obtain ⟨x, hx, hx'⟩ := (C57_page_rank_converges hg hd hd0 hd1 hmd).2 k pr hpr
  refine ⟨x, hx, le_trans ?_ (hx' p hp)⟩
  rw [← hsum p hp, ← List.sum_toFinset _ (nodup_nodes hg.wf), ← List.sum_toFinset _ (nodup_nodes hg.wf),
    ← List.sum_toFinset _ (nodup_nodes hg.wf), ← Finset.sum_sub_distrib]
  exact Finset.abs_sum_le_sum_abs _ _

/-- **C134 is false** of every digraph with a node without outgoing arcs and every damping factor strictly between 0 and 1: the
solution of the PageRank equations adds up to less than 1, and so do the ranks returned for all small tolerances. -/
theorem C134_dangling_loses (hg : Built g) (hd : g.directed = true) (hd0 : 0 < d) (hd1 : d < 1) {n : N} (hn : n ∈ g.getNodeList)
    (hnone : ∀ m, (n, m) ∉ g.getEdgeList) :
    (∀ p, IsPageRank g.getNodeList g.getEdgeList d p → (g.getNodeList.map p).sum < 1) ∧
    ∃ eps > 0, ∀ md, 0 < md → md ≤ eps → ∀ k pr, pageRank g d k md = .ok (pr, true) →
      ∃ x : N → ℚ, (∀ n ∈ g.getNodeList, pr.get? n = some (x n)) ∧ (g.getNodeList.map x).sum < 1 := by
  have hne : g.getNodeList ≠ [] := List.ne_nil_of_mem hn
  have h1d : 0 < 1 - d := by linarith
  have hN : (0 : ℚ) < g.getNodeList.length := by exact_mod_cast List.length_pos_of_mem hn
  have hmin : 0 < (1 - d) / (g.getNodeList.length : ℚ) := div_pos h1d hN
  have hdn : n ∈ danglingNodes g.getNodeList g.getEdgeList := by
    unfold danglingNodes
    rw [List.mem_filter]
    refine ⟨hn, decide_eq_true ?_⟩
    unfold outDeg
    rw [List.length_eq_zero_iff, List.filter_eq_nil_iff]
    rintro ⟨a, b⟩ hab h
    simp only [decide_eq_true_eq] at h
    exact hnone b (h ▸ hab)
  obtain ⟨p0, hp0, huni, hge, _⟩ := C133_page_rank_solution hg hd hd0.le hd1
  have hlt0 : (g.getNodeList.map p0).sum < 1 := by
    rw [solution_total hg.wf hd hd1 hne hp0]
    have : 0 < ((danglingNodes g.getNodeList g.getEdgeList).map p0).sum := by
      have h1 : p0 n ≤ ((danglingNodes g.getNodeList g.getEdgeList).map p0).sum := by
        refine List.single_le_sum ?_ _ (List.mem_map_of_mem hdn)
        intro y hy
        obtain ⟨u, hu, rfl⟩ := List.mem_map.1 hy
        exact hmin.le.trans (hge u (List.mem_filter.1 hu).1)
      exact (hmin.trans_le (hge n hn)).trans_le h1
    have h2 : 0 < d / (1 - d) * ((danglingNodes g.getNodeList g.getEdgeList).map p0).sum := mul_pos (div_pos hd0 h1d) this
    linarith
  refine ⟨fun p hp => ?_, (1 - d) / d * ((1 - (g.getNodeList.map p0).sum) / 2), ?_, ?_⟩
  · rwa [List.map_congr_left fun n hn => huni p hp n hn]
  · exact mul_pos (div_pos h1d hd0) (by linarith)
  · intro md hmd hle k pr hpr
    obtain ⟨x, hx, hx'⟩ := (C57_page_rank_converges hg hd hd0.le hd1 hmd).2 k pr hpr
    refine ⟨x, hx, ?_⟩
    have h1 := hx' p0 hp0
    have h2 : d / (1 - d) * md ≤ (1 - (g.getNodeList.map p0).sum) / 2 := by
      refine (mul_le_mul_of_nonneg_left hle (div_pos hd0 h1d).le).trans (le_of_eq ?_)
      field_simp
    have h3 : (g.getNodeList.map x).sum - (g.getNodeList.map p0).sum ≤ (g.getNodeList.map fun n => |x n - p0 n|).sum := by
      rw [← List.sum_toFinset _ (nodup_nodes hg.wf), ← List.sum_toFinset _ (nodup_nodes hg.wf),
        ← List.sum_toFinset _ (nodup_nodes hg.wf), ← Finset.sum_sub_distrib]
      exact Finset.sum_le_sum fun _ _ => le_abs_self _
    linarith

/-! ## Examples -/

/-- a digraph in which an arc leaves every node: 1→2, 2→1, 1→3, 3→1 -/
def exPR2 : Graph Nat := runOps (Graph.init true) [Op.addEdge 1 2 [], .addEdge 2 1 [], .addEdge 1 3 [], .addEdge 3 1 []]

/-- non-vacuity of C133 and C134: in `exPR2` every node has an arc, the ranks are near the solution 4/9, 5/18, 5/18; `exPR` has a
node without arcs, 3, and its ranks add up to less than 1 -/
example : (∀ n ∈ exPR2.getNodeList, ∃ m, (n, m) ∈ exPR2.getEdgeList) ∧
    IsPageRank exPR2.getNodeList exPR2.getEdgeList (1/2) (fun n => if n = 1 then 4/9 else 5/18) ∧
    prOf (pageRank exPR2 (1/2) 20 (1/10)) = some ([(1, 11/24), (2, 9/32), (3, 9/32)], true) := by
  refine ⟨?_, ?_, ?_⟩
  · have h : ∀ n ∈ exPR2.getNodeList, ∃ e ∈ exPR2.getEdgeList, e.1 = n := by decide +kernel
    intro n hn
    obtain ⟨e, he, rfl⟩ := h n hn
    exact ⟨e.2, he⟩
  · unfold IsPageRank; decide +kernel
  · decide +kernel

example : 3 ∈ exPR.getNodeList ∧ (∀ m, (3, m) ∉ exPR.getEdgeList) ∧ (147/512 + 403/2048 + 403/2048 + 1/8 : ℚ) < 1 := by
  refine ⟨by decide +kernel, ?_, by decide +kernel⟩
  have h : ∀ e ∈ exPR.getEdgeList, e.1 ≠ 3 := by decide +kernel
  exact fun m hm => h _ hm rfl

end GiMPy
