import Verif.Props.PageRank
import Mathlib.Tactic.NormNum

/-! # C143: how many iterations `page_rank` needs -/

namespace GiMPy
namespace Misc
variable {N : Type} [DecidableEq N] {g : Graph N} {d minv : ℚ}

theorem sw_fixed {F : (N → ℚ) → N → ℚ} (l : List N) (p : N → ℚ) (h : ∀ n ∈ l, p n = F p n) : sw F l p = p := by
  induction l with
  | nil => rfl
  | cons n l ih =>
    have : put p n (F p n) = p := by
      funext u
      unfold put
      split
      · next hu => rw [hu]; exact (h n (by simp)).symm
      · rfl
    rw [sw, this]
    exact ih fun m hm => h m (by simp [hm])

theorem wd_triangle (hg : g.Wf) (h : 0 ≤ d) (h1 : d ≤ 1) (x y z : N → ℚ) : wd g d x z ≤ wd g d x y + wd g d z y := by
  unfold wd
  rw [← Finset.sum_add_distrib]
  refine Finset.sum_le_sum fun u _ => ?_
  have h2 := late_le hg h u
  rw [← mul_add]
  refine mul_le_mul_of_nonneg_left ?_ (by linarith)
  rw [abs_sub_comm (z u)]
  exact abs_sub_le _ _ _

/-- two tables of non-negative numbers that add up to at most 1 -/
theorem dst_le_two {x y : N → ℚ} (hx : ∀ n ∈ g.getNodeList, 0 ≤ x n) (hy : ∀ n ∈ g.getNodeList, 0 ≤ y n)
    (sx : ∑ n ∈ g.getNodeList.toFinset, x n ≤ 1) (sy : ∑ n ∈ g.getNodeList.toFinset, y n ≤ 1) : dst g x y ≤ 2 := by
  have : dst g x y ≤ ∑ n ∈ g.getNodeList.toFinset, (x n + y n) := by
    refine Finset.sum_le_sum fun n hn => ?_
    have h1 := hx n (List.mem_toFinset.1 hn)
    have h2 := hy n (List.mem_toFinset.1 hn)
    rw [abs_le]
    constructor <;> linarith
  rw [Finset.sum_add_distrib] at this
  linarith

end Misc

open Misc
variable {N : Type} [DecidableEq N] {g : Graph N} {d md : ℚ}

/-- **C143.** Take a digraph and a damping factor `0 ≤ d < 1`.  If `2 (1 + d) d ^ k < (1 - d) min_delta`, then `page_rank` ends by its
test `diff < min_delta` in iteration `k + 1` or earlier, however large the graph is. -/
theorem C143_page_rank_iterations (hg : Built g) (hd : g.directed = true) (hd0 : 0 ≤ d) (hd1 : d < 1) {k : Nat}
    (hk : 2 * (1 + d) * d ^ k < (1 - d) * md) {maxIter : Nat} (hm : k < maxIter) :
    ∃ pr, pageRank g d maxIter md = .ok (pr, true) := by
  unfold pageRank
  by_cases h0 : g.getNodeList.length = 0
  · rw [if_pos h0]; exact ⟨_, rfl⟩
  · rw [if_neg h0]
    have h1d : 0 < 1 - d := by linarith
    have hne : g.getNodeList ≠ [] := fun h => h0 (by rw [h]; rfl)
    have hN : (0 : ℚ) < g.getNodeList.length := by exact_mod_cast Nat.pos_of_ne_zero h0
    obtain ⟨p, hp, _, hpge, _⟩ := C133_page_rank_solution hg hd hd0 hd1
    have hp0 : ∀ n ∈ g.getNodeList, 0 ≤ p n := fun n hn => le_trans (div_nonneg h1d.le hN.le) (hpge n hn)
    have hps : ∑ n ∈ g.getNodeList.toFinset, p n ≤ 1 := by
      rw [List.sum_toFinset _ (nodup_nodes hg.wf), solution_total hg.wf hd hd1 hne hp]
      have : 0 ≤ ((danglingNodes g.getNodeList g.getEdgeList).map p).sum := by
        refine List.sum_nonneg fun x hx => ?_
        obtain ⟨n, hn, rfl⟩ := List.mem_map.1 hx
        exact hp0 n (List.mem_filter.1 hn).1
      have := mul_nonneg (div_nonneg hd0 h1d.le) this
      linarith
    set S := sw (codeF g d ((1 - d) / g.getNodeList.length)) g.getNodeList with hS
    set y : N → ℚ := fun _ => 1 / (g.getNodeList.length : ℚ) with hy
    have hys : ∑ n ∈ g.getNodeList.toFinset, y n ≤ 1 := by
      rw [hy, Finset.sum_const, List.toFinset_card_of_nodup (nodup_nodes hg.wf), nsmul_eq_mul, mul_one_div, div_self hN.ne']
    have hSp : S p = p := sw_fixed _ _ fun n hn => by rw [← rankOf_eq hg.wf hd]; exact hp n hn
    have hw0 : wd g d y p ≤ 2 := (wd_le_dst hd0 y p).trans
      (dst_le_two (fun _ _ => by rw [hy]; positivity) hp0 hys hps)
    have hw1 : wd g d (S y) p ≤ d * wd g d y p := by
      have := wd_contract (minv := (1 - d) / g.getNodeList.length) hg.wf hd hd0 hd1.le y p
      rw [← hS, hSp] at this
      exact this
    have hw2 : wd g d y (S y) ≤ 2 * (1 + d) := by
      have h3 := wd_triangle hg.wf hd0 hd1.le y p (S y)
      have h4 := mul_le_mul_of_nonneg_left hw0 hd0
      linarith
    have hit : (1 - d) * dst g (S^[k] y) (S^[k + 1] y) ≤ 2 * (1 + d) * d ^ k := by
      rw [Function.iterate_succ_apply]
      refine (dst_le_wd hg.wf hd0 _ _).trans ((iter_wd hg.wf hd hd0 hd1.le k y (S y)).trans ?_)
      rw [mul_comm]
      exact mul_le_mul_of_nonneg_right hw2 (pow_nonneg hd0 k)
    obtain ⟨pr, b, j, h1, _, _, h4⟩ := prLoop_ok hg.wf hd d ((1 - d) / g.getNodeList.length) md maxIter _ _
      (fromKeys_holds hg.wf (1 / (g.getNodeList.length : ℚ)))
    rcases b with _ | _
    · have h5 := mul_le_mul_of_nonneg_left (h4 rfl k hm) h1d.le
      exact absurd (lt_of_lt_of_le hk h5) (not_lt.2 hit)
    · exact ⟨pr, h1⟩

/-- **C143, the default arguments.** `page_rank()` of a digraph of any size ends by its test, not because the 100 iterations are
used up (92 would do), and the errors of the ranks add up to less than 0.0001. -/
theorem C143_defaults_converge (hg : Built g) (hd : g.directed = true) {maxIter : Nat} (hm : 92 ≤ maxIter) :
    ∃ pr, ∃ x : N → ℚ, pageRank g (85 / 100) maxIter (1 / 100000) = .ok (pr, true) ∧
      (∀ n ∈ g.getNodeList, pr.get? n = some (x n)) ∧
      ∀ p, IsPageRank g.getNodeList g.getEdgeList (85 / 100) p →
        (g.getNodeList.map fun n => |x n - p n|).sum < 1 / 10000 := by
  obtain ⟨pr, hpr⟩ := C143_page_rank_iterations (d := 85 / 100) (md := 1 / 100000) (k := 91) hg hd (by norm_num) (by norm_num)
    (by norm_num) (maxIter := maxIter) (by omega)
  obtain ⟨x, hx, hx'⟩ := (C57_page_rank_converges hg hd (d := 85 / 100) (md := 1 / 100000) (by norm_num) (by norm_num)
    (by norm_num)).2 _ pr hpr
  exact ⟨pr, x, hpr, hx, fun p hp => lt_of_le_of_lt (hx' p hp) (by norm_num)⟩

/-- non-vacuity: for `exPR2` with `d = 1/2` and `min_delta = 1/10` seven iterations are enough by the theorem; one is not -/
example : (2 * (1 + 1/2) * (1/2) ^ 6 : ℚ) < (1 - 1/2) * (1/10) ∧ exPR2.directed = true ∧
    (prOf (pageRank exPR2 (1/2) 7 (1/10))).map Prod.snd = some true ∧
    (prOf (pageRank exPR2 (1/2) 1 (1/10))).map Prod.snd = some false :=
  ⟨by norm_num, by decide +kernel, by decide +kernel, by decide +kernel⟩

end GiMPy
