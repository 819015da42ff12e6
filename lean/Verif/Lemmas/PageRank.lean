import Verif.Lemmas.Misc
import Verif.Spec.PageRank
import Mathlib.Algebra.BigOperators.Group.Finset.Basic
import Mathlib.Algebra.Order.BigOperators.Group.Finset
import Mathlib.Algebra.Order.BigOperators.Ring.Finset
import Mathlib.Algebra.BigOperators.Ring.Finset
import Mathlib.Algebra.Order.Archimedean.Basic
import Mathlib.Data.Rat.Floor
import Mathlib.Tactic.GCongr
import Mathlib.Tactic.Abel

/-! # PageRank iteration -/

namespace GiMPy
namespace Misc
variable {N : Type} [DecidableEq N] {g : Graph N}
set_option linter.unusedSectionVars false

theorem nodup_nodes (hg : g.Wf) : g.getNodeList.Nodup := hg.nodup

/-- point update -/
def put (y : N → ℚ) (n : N) (v : ℚ) : N → ℚ := fun u => if u = n then v else y u

/-- one sweep over `l`, on functions -/
def sw (F : (N → ℚ) → N → ℚ) : List N → (N → ℚ) → N → ℚ
  | [], y => y
  | n :: l, y => sw F l (put y n (F y n))

variable {F : (N → ℚ) → N → ℚ}

theorem sw_append (l r : List N) (y : N → ℚ) : sw F (l ++ r) y = sw F r (sw F l y) := by
  induction l generalizing y with
  | nil => rfl
  | cons n l ih => exact ih _

theorem sw_not_mem (l : List N) (y : N → ℚ) {u : N} (h : u ∉ l) : sw F l y u = y u := by
  induction l generalizing y with
  | nil => rfl
  | cons n l ih =>
    simp only [List.mem_cons, not_or] at h
    rw [sw, ih _ h.2]
    simp [put, h.1]

/-- the nodes before `n` in `V` -/
def before (V : List N) (n : N) : List N := V.takeWhile fun u => decide (u ≠ n)

/-- new values for the nodes before `n`, old values for the others -/
def mix (V : List N) (n : N) (new old : N → ℚ) (u : N) : ℚ := if u ∈ before V n then new u else old u

theorem sw_eq {V : List N} (hV : V.Nodup) {n : N} (hn : n ∈ V) (y : N → ℚ) :
    sw F V y n = F (mix V n (sw F V y) y) n := by
  obtain ⟨l, r, rfl⟩ := List.append_of_mem hn
  have hnl : n ∉ l := fun h => (List.nodup_append.1 hV).2.2 n h n (by simp) rfl
  have hnr : n ∉ r := (List.nodup_cons.1 (List.nodup_append.1 hV).2.1).1
  have hb : before (l ++ n :: r) n = l := by
    unfold before
    rw [List.takeWhile_append_of_pos (by
      intro a ha; simpa using fun h : a = n => hnl (h ▸ ha))]
    simp
  have h1 : sw F (l ++ n :: r) y n = F (sw F l y) n := by
    rw [sw_append, sw, sw_not_mem _ _ hnr]; simp [put]
  have h2 : mix (l ++ n :: r) n (sw F (l ++ n :: r) y) y = sw F l y := by
    funext u
    unfold mix
    rw [hb]
    split
    · next hu =>
      rw [sw_append, sw_not_mem]
      intro hh; exact (List.nodup_append.1 hV).2.2 u hu u hh rfl
    · next hu => rw [sw_not_mem _ _ hu]
  rw [h1, h2]

/-- the values in the table -/
structure Holds (V : List N) (pr : Dict N ℚ) (y : N → ℚ) : Prop where
  keys : pr.keys = V
  val : ∀ n ∈ V, pr.get? n = some (y n)

theorem Holds.set {V : List N} {pr : Dict N ℚ} {y : N → ℚ} (h : Holds V pr y) {n : N} (hn : n ∈ V) (v : ℚ) :
    Holds V (pr.set n v) (put y n v) where
  keys := by rw [Dict.keys_set_of_mem _ (h.keys ▸ hn), h.keys]
  val m hm := by
    rw [Dict.get?_set]
    by_cases hmn : n = m
    · subst hmn; simp [put]
    · rw [if_neg hmn, h.val m hm]; simp [put, Ne.symm hmn]

/-- the sum of the code, on functions -/
def codeF (g : Graph N) (d minv : ℚ) (y : N → ℚ) (n : N) : ℚ :=
  minv + (((g.inNeighbors.get? n).getD []).map fun r => d * y r / outDeg g.getEdgeList r).sum

theorem prNode_ok (hg : g.Wf) (hd : g.directed = true) (d : ℚ) {pr : Dict N ℚ} {y : N → ℚ}
    (h : Holds g.getNodeList pr y) : ∀ (l : List N) (rank : ℚ),
    (∀ r ∈ l, r ∈ g.getNodeList ∧ outDeg g.getEdgeList r ≠ 0) →
    prNode g d pr l rank = .ok (rank + (l.map fun r => d * y r / outDeg g.getEdgeList r).sum) := by
  intro l
  induction l with
  | nil => intro rank _; simp [prNode]
  | cons r l ih =>
    intro rank hl
    obtain ⟨hr, h0⟩ := hl r (by simp)
    obtain ⟨out, ho, ho'⟩ := nbrs_get hr
    have hlen : out.length = outDeg g.getEdgeList r := len_nbrs_dir hg hd ho
    simp only [prNode, h.val r hr, ho', hlen, if_neg h0]
    rw [ih _ fun r' hr' => hl r' (by simp [hr'])]
    simp only [List.map_cons, List.sum_cons]
    rw [add_assoc]

theorem inn_mem (hg : g.Wf) (hd : g.directed = true) {n r : N} :
    r ∈ (g.inNeighbors.get? n).getD [] ↔ (r, n) ∈ g.getEdgeList := by
  rw [← List.count_pos_iff]
  have := hg.inn hd n r
  unfold Graph.innc at this
  rw [this]; unfold Graph.ind
  show _ ↔ (r, n) ∈ g.edgeAttr.keys
  split <;> simp [*]

theorem inn_nodup (hg : g.Wf) (hd : g.directed = true) (n : N) : ((g.inNeighbors.get? n).getD []).Nodup := by
  rw [List.nodup_iff_count_le_one]
  intro r
  have := hg.inn hd n r
  unfold Graph.innc at this
  rw [this]; unfold Graph.ind
  split <;> omega

theorem outDeg_pos {E : List (N × N)} {u v : N} (h : (u, v) ∈ E) : outDeg E u ≠ 0 := by
  unfold outDeg
  intro h0
  have : (u, v) ∈ E.filter fun e => e.1 = u := by simp [h]
  rw [List.length_eq_zero_iff] at h0
  rw [h0] at this
  cases this

theorem prSweep_ok (hg : g.Wf) (hd : g.directed = true) (d minv : ℚ) : ∀ (l : List N) (pr : Dict N ℚ) (y : N → ℚ) (diff : ℚ),
    l.Nodup → (∀ n ∈ l, n ∈ g.getNodeList) → Holds g.getNodeList pr y →
    ∃ pr', prSweep g d minv l pr diff = .ok (pr', diff + (l.map fun n => |y n - sw (codeF g d minv) l y n|).sum) ∧
      Holds g.getNodeList pr' (sw (codeF g d minv) l y) := by
  intro l
  induction l with
  | nil => intro pr y diff _ _ h; exact ⟨pr, by simp [prSweep], h⟩
  | cons n l ih =>
    intro pr y diff hnd hl h
    have hn := hl n (by simp)
    obtain ⟨hnl, hnd'⟩ := List.nodup_cons.1 hnd
    obtain ⟨inn, hi, hi'⟩ := inn_get hg hd hn
    have hF : codeF g d minv y n = minv + (inn.map fun r => d * y r / outDeg g.getEdgeList r).sum := by
      simp [codeF, hi]
    have hrank : prNode g d pr inn minv = .ok (codeF g d minv y n) := by
      rw [hF]
      refine prNode_ok hg hd d h inn minv ?_
      intro r hr
      have hr' : (r, n) ∈ g.getEdgeList := (inn_mem hg hd).1 (by rw [hi]; exact hr)
      exact ⟨(hg.endp _ _ hr').1, outDeg_pos hr'⟩
    obtain ⟨pr', h1, h2⟩ := ih (pr.set n (codeF g d minv y n)) (put y n (codeF g d minv y n))
      (diff + |y n - codeF g d minv y n|) hnd' (fun m hm => hl m (by simp [hm])) (h.set hn _)
    refine ⟨pr', ?_, h2⟩
    simp only [prSweep, hi', hrank, h.val n hn, h1, sw]
    congr 2
    simp only [List.map_cons, List.sum_cons, sw]
    rw [sw_not_mem _ _ hnl]
    have : (l.map fun m => |put y n (codeF g d minv y n) m - sw (codeF g d minv) l (put y n (codeF g d minv y n)) m|) =
        (l.map fun m => |y m - sw (codeF g d minv) l (put y n (codeF g d minv y n)) m|) := by
      apply List.map_congr_left
      intro m hm
      have : m ≠ n := fun hh => hnl (hh ▸ hm)
      simp [put, this]
    rw [this]
    simp only [put, if_true]
    ring

/-! ## the coefficients -/

/-- share of `u` that goes to `n` -/
def co (g : Graph N) (d : ℚ) (u n : N) : ℚ := if (u, n) ∈ g.getEdgeList then d / outDeg g.getEdgeList u else 0

theorem codeF_eq (hg : g.Wf) (hd : g.directed = true) (d minv : ℚ) (y : N → ℚ) (n : N) :
    codeF g d minv y n = minv + ∑ u ∈ g.getNodeList.toFinset, co g d u n * y u := by
  unfold codeF co
  congr 1
  rw [← List.sum_toFinset _ (inn_nodup hg hd n)]
  have hsub : ((g.inNeighbors.get? n).getD []).toFinset = g.getNodeList.toFinset.filter fun u => (u, n) ∈ g.getEdgeList := by
    ext u
    simp only [List.mem_toFinset, Finset.mem_filter]
    rw [inn_mem hg hd]
    exact ⟨fun h => ⟨(hg.endp _ _ h).1, h⟩, fun h => h.2⟩
  rw [hsub, Finset.sum_filter]
  refine Finset.sum_congr rfl fun u _ => ?_
  split
  · ring
  · ring

theorem rankOf_eq (hg : g.Wf) (hd : g.directed = true) (d : ℚ) (y : N → ℚ) (n : N) :
    rankOf g.getNodeList g.getEdgeList d y n = codeF g d ((1 - d) / g.getNodeList.length) y n := by
  unfold rankOf codeF
  congr 1
  have hp : ((g.inNeighbors.get? n).getD []).Perm ((g.getEdgeList.filter fun e => e.2 = n).map Prod.fst) := by
    rw [List.perm_iff_count]
    intro v
    rw [count_snd]
    have := hg.inn hd n v
    unfold Graph.innc at this
    rw [this, ind_count hg]; rfl
  rw [(hp.map _).sum_eq, List.map_map]
  rfl

theorem co_nonneg {d : ℚ} (h : 0 ≤ d) (u n : N) : 0 ≤ co g d u n := by
  unfold co; split
  · positivity
  · exact le_refl _

theorem co_sum_le (hg : g.Wf) {d : ℚ} (h : 0 ≤ d) (u : N) : ∑ n ∈ g.getNodeList.toFinset, co g d u n ≤ d := by
  unfold co
  rw [← Finset.sum_filter, Finset.sum_const, nsmul_eq_mul]
  have hcard : (g.getNodeList.toFinset.filter fun n => (u, n) ∈ g.getEdgeList).card = outDeg g.getEdgeList u := by
    have hnd : ((g.getEdgeList.filter fun e => e.1 = u).map Prod.snd).Nodup := by
      rw [List.nodup_iff_count_le_one]
      intro v
      rw [count_fst]
      exact List.nodup_iff_count_le_one.1 hg.edup _
    have : (g.getNodeList.toFinset.filter fun n => (u, n) ∈ g.getEdgeList) =
        ((g.getEdgeList.filter fun e => e.1 = u).map Prod.snd).toFinset := by
      ext v
      simp only [List.mem_toFinset, Finset.mem_filter, List.mem_map, Prod.exists, exists_eq_right, List.mem_filter, decide_eq_true_eq]
      constructor
      · exact fun h => h.2
      · exact fun h => ⟨(hg.endp _ _ h).2, h⟩
    rw [this, List.toFinset_card_of_nodup hnd]
    simp [outDeg]
  rw [hcard]
  by_cases h0 : outDeg g.getEdgeList u = 0
  · rw [h0]; simpa using h
  · have : (outDeg g.getEdgeList u : ℚ) ≠ 0 := by exact_mod_cast h0
    rw [mul_div_cancel₀ _ this]

section
variable {d minv : ℚ}

/-- lower bound -/
theorem sw_ge (hg : g.Wf) (hd : g.directed = true) (h : 0 ≤ d) (hm : 0 ≤ minv) : ∀ (l : List N) (y : N → ℚ),
    (∀ n, minv ≤ y n) → ∀ n, minv ≤ sw (codeF g d minv) l y n := by
  intro l
  induction l with
  | nil => intro y hy; exact hy
  | cons m l ih =>
    intro y hy
    refine ih _ fun n => ?_
    unfold put
    split
    · rw [codeF_eq hg hd]
      have : 0 ≤ ∑ u ∈ g.getNodeList.toFinset, co g d u m * y u :=
        Finset.sum_nonneg fun u _ => mul_nonneg (co_nonneg h u m) (hm.trans (hy u))
      linarith
    · exact hy n

/-- total difference of two tables -/
def dst (g : Graph N) (x y : N → ℚ) : ℚ := ∑ u ∈ g.getNodeList.toFinset, |x u - y u|

theorem dst_nonneg (x y : N → ℚ) : 0 ≤ dst g x y := Finset.sum_nonneg fun _ _ => abs_nonneg _

theorem codeF_sub (hg : g.Wf) (hd : g.directed = true) (h : 0 ≤ d) (x y : N → ℚ) (n : N) :
    |codeF g d minv x n - codeF g d minv y n| ≤ ∑ u ∈ g.getNodeList.toFinset, co g d u n * |x u - y u| := by
  rw [codeF_eq hg hd, codeF_eq hg hd, add_sub_add_left_eq_sub, ← Finset.sum_sub_distrib]
  refine (Finset.abs_sum_le_sum_abs _ _).trans (Finset.sum_le_sum fun u _ => ?_)
  rw [← mul_sub, abs_mul, abs_of_nonneg (co_nonneg h u n)]

theorem mix_sub (V : List N) (n : N) (x' x y' y : N → ℚ) (u : N) :
    |mix V n x' x u - mix V n y' y u| = if u ∈ before V n then |x' u - y' u| else |x u - y u| := by
  unfold mix; split <;> rfl

/-- part of the share of `u` that goes to later nodes -/
def late (g : Graph N) (d : ℚ) (u : N) : ℚ :=
  ∑ n ∈ g.getNodeList.toFinset, if u ∈ before g.getNodeList n then co g d u n else 0

/-- weighted difference -/
def wd (g : Graph N) (d : ℚ) (x y : N → ℚ) : ℚ := ∑ u ∈ g.getNodeList.toFinset, (1 - late g d u) * |x u - y u|

theorem late_nonneg (h : 0 ≤ d) (u : N) : 0 ≤ late g d u :=
  Finset.sum_nonneg fun n _ => by split; exacts [co_nonneg h u n, le_refl _]

theorem late_le (hg : g.Wf) (h : 0 ≤ d) (u : N) : late g d u ≤ d :=
  (Finset.sum_le_sum fun n _ => by split; exacts [le_refl _, co_nonneg h u n]).trans (co_sum_le hg h u)

theorem wd_contract (hg : g.Wf) (hd : g.directed = true) (h : 0 ≤ d) (h1 : d ≤ 1) (x y : N → ℚ) :
    wd g d (sw (codeF g d minv) g.getNodeList x) (sw (codeF g d minv) g.getNodeList y) ≤ d * wd g d x y := by
  set x' := sw (codeF g d minv) g.getNodeList x with hx'
  set y' := sw (codeF g d minv) g.getNodeList y with hy'
  have key : ∑ n ∈ g.getNodeList.toFinset, |x' n - y' n| ≤
      ∑ n ∈ g.getNodeList.toFinset, ∑ u ∈ g.getNodeList.toFinset,
        ((if u ∈ before g.getNodeList n then co g d u n else 0) * |x' u - y' u| +
          (co g d u n - if u ∈ before g.getNodeList n then co g d u n else 0) * |x u - y u|) := by
    refine Finset.sum_le_sum fun n hn => ?_
    rw [hx', hy', sw_eq (nodup_nodes hg) (List.mem_toFinset.1 hn) x, sw_eq (nodup_nodes hg) (List.mem_toFinset.1 hn) y]
    refine (codeF_sub hg hd h _ _ n).trans (Finset.sum_le_sum fun u _ => ?_)
    rw [mix_sub, ← hx', ← hy']
    change co g d u n * (if u ∈ before g.getNodeList n then _ else _) ≤ _
    split <;> simp
  rw [Finset.sum_comm] at key
  have key2 : ∑ n ∈ g.getNodeList.toFinset, |x' n - y' n| ≤
      ∑ u ∈ g.getNodeList.toFinset, (late g d u * |x' u - y' u| + (d - late g d u) * |x u - y u|) := by
    refine key.trans (Finset.sum_le_sum fun u _ => ?_)
    rw [Finset.sum_add_distrib, ← Finset.sum_mul, ← Finset.sum_mul, Finset.sum_sub_distrib]
    have := co_sum_le hg h u
    have h2 : (∑ n ∈ g.getNodeList.toFinset, co g d u n - late g d u) * |x u - y u| ≤ (d - late g d u) * |x u - y u| :=
      mul_le_mul_of_nonneg_right (by linarith) (abs_nonneg _)
    exact add_le_add (le_refl _) h2
  have e1 : wd g d x' y' = ∑ n ∈ g.getNodeList.toFinset, |x' n - y' n| -
      ∑ u ∈ g.getNodeList.toFinset, late g d u * |x' u - y' u| := by
    unfold wd
    rw [← Finset.sum_sub_distrib]
    exact Finset.sum_congr rfl fun u _ => by ring
  rw [Finset.sum_add_distrib] at key2
  have e2 : ∑ u ∈ g.getNodeList.toFinset, (d - late g d u) * |x u - y u| ≤ d * wd g d x y := by
    unfold wd
    rw [Finset.mul_sum]
    refine Finset.sum_le_sum fun u _ => ?_
    rw [← mul_assoc]
    refine mul_le_mul_of_nonneg_right ?_ (abs_nonneg _)
    have := late_nonneg (g := g) h u
    nlinarith
  linarith

theorem wd_le_dst (h : 0 ≤ d) (x y : N → ℚ) : wd g d x y ≤ dst g x y := by
  refine Finset.sum_le_sum fun u _ => ?_
  have h1 := late_nonneg (g := g) h u
  have h2 := abs_nonneg (x u - y u)
  nlinarith

theorem dst_le_wd (hg : g.Wf) (h : 0 ≤ d) (x y : N → ℚ) : (1 - d) * dst g x y ≤ wd g d x y := by
  unfold dst wd
  rw [Finset.mul_sum]
  refine Finset.sum_le_sum fun u _ => ?_
  have h1 := late_le hg h u
  exact mul_le_mul_of_nonneg_right (by linarith) (abs_nonneg _)

/-- sum over the nodes of the residuals of the equations after a sweep -/
theorem resid (hg : g.Wf) (hd : g.directed = true) (h : 0 ≤ d) (x : N → ℚ) :
    ∑ n ∈ g.getNodeList.toFinset, |sw (codeF g d minv) g.getNodeList x n -
      codeF g d minv (sw (codeF g d minv) g.getNodeList x) n| ≤ d * dst g x (sw (codeF g d minv) g.getNodeList x) := by
  set x' := sw (codeF g d minv) g.getNodeList x with hx'
  have : ∑ n ∈ g.getNodeList.toFinset, |x' n - codeF g d minv x' n| ≤
      ∑ n ∈ g.getNodeList.toFinset, ∑ u ∈ g.getNodeList.toFinset, co g d u n * |x u - x' u| := by
    refine Finset.sum_le_sum fun n hn => ?_
    have h1 : x' n = codeF g d minv (mix g.getNodeList n x' x) n := by
      conv_lhs => rw [hx', sw_eq (nodup_nodes hg) (List.mem_toFinset.1 hn) x]
    rw [h1]
    refine (codeF_sub hg hd h _ _ n).trans (Finset.sum_le_sum fun u _ => ?_)
    refine mul_le_mul_of_nonneg_left ?_ (co_nonneg h u n)
    unfold mix
    split
    · simp
    · exact le_refl _
  refine this.trans ?_
  rw [Finset.sum_comm]
  unfold dst
  rw [Finset.mul_sum]
  refine Finset.sum_le_sum fun u _ => ?_
  rw [← Finset.sum_mul]
  exact mul_le_mul_of_nonneg_right (co_sum_le hg h u) (abs_nonneg _)

/-- distance to an exact solution -/
theorem err_le (hg : g.Wf) (hd : g.directed = true) (h : 0 ≤ d) (x p : N → ℚ)
    (hp : ∀ n ∈ g.getNodeList, p n = codeF g d minv p n) :
    (1 - d) * dst g x p ≤ ∑ n ∈ g.getNodeList.toFinset, |x n - codeF g d minv x n| := by
  have h1 : dst g x p ≤ ∑ n ∈ g.getNodeList.toFinset, (|x n - codeF g d minv x n| +
      ∑ u ∈ g.getNodeList.toFinset, co g d u n * |x u - p u|) := by
    refine Finset.sum_le_sum fun n hn => ?_
    have h2 := codeF_sub (minv := minv) hg hd h x p n
    rw [← hp n (List.mem_toFinset.1 hn)] at h2
    have h3 : x n - p n = (x n - codeF g d minv x n) + (codeF g d minv x n - p n) := by ring
    rw [h3]
    exact (abs_add_le _ _).trans (by linarith)
  rw [Finset.sum_add_distrib, Finset.sum_comm (s := g.getNodeList.toFinset) (t := g.getNodeList.toFinset)] at h1
  have h4 : ∑ u ∈ g.getNodeList.toFinset, ∑ n ∈ g.getNodeList.toFinset, co g d u n * |x u - p u| ≤ d * dst g x p := by
    unfold dst
    rw [Finset.mul_sum]
    refine Finset.sum_le_sum fun u _ => ?_
    rw [← Finset.sum_mul]
    exact mul_le_mul_of_nonneg_right (co_sum_le hg h u) (abs_nonneg _)
  linarith

/-! ## the iterations -/

theorem prLoop_ok (hg : g.Wf) (hd : g.directed = true) (d minv md : ℚ) : ∀ (k : Nat) (pr : Dict N ℚ) (y : N → ℚ),
    Holds g.getNodeList pr y → ∃ pr' b j, prLoop g d minv md k pr = .ok (pr', b) ∧
      Holds g.getNodeList pr' ((sw (codeF g d minv) g.getNodeList)^[j] y) ∧
      (b = true → ∃ z, (sw (codeF g d minv) g.getNodeList)^[j] y = sw (codeF g d minv) g.getNodeList z ∧
        dst g z (sw (codeF g d minv) g.getNodeList z) < md) ∧
      (b = false → ∀ i < k, md ≤ dst g ((sw (codeF g d minv) g.getNodeList)^[i] y)
        ((sw (codeF g d minv) g.getNodeList)^[i + 1] y)) := by
  intro k
  induction k with
  | zero => intro pr y h; exact ⟨pr, false, 0, rfl, h, by simp, by simp⟩
  | succ k ih =>
    intro pr y h
    obtain ⟨pr1, h1, h2⟩ := prSweep_ok hg hd d minv g.getNodeList pr y 0 hg.nodup (fun _ h => h) h
    have hdst : 0 + (g.getNodeList.map fun n => |y n - sw (codeF g d minv) g.getNodeList y n|).sum =
        dst g y (sw (codeF g d minv) g.getNodeList y) := by
      rw [zero_add]; unfold dst
      rw [List.sum_toFinset _ (nodup_nodes hg)]
    rw [hdst] at h1
    simp only [prLoop, h1]
    by_cases hlt : dst g y (sw (codeF g d minv) g.getNodeList y) < md
    · rw [if_pos hlt]
      exact ⟨pr1, true, 1, rfl, h2, fun _ => ⟨y, rfl, hlt⟩, by simp⟩
    · rw [if_neg hlt]
      obtain ⟨pr', b, j, h3, h4, h5, h6⟩ := ih pr1 _ h2
      refine ⟨pr', b, j + 1, h3, ?_, ?_, ?_⟩
      · rw [Function.iterate_succ_apply]; exact h4
      · intro hb
        rw [Function.iterate_succ_apply]; exact h5 hb
      · intro hb i hi
        rcases i with _ | i
        · exact not_lt.1 hlt
        · rw [Function.iterate_succ_apply, Function.iterate_succ_apply]
          exact h6 hb i (by omega)

theorem fromKeys_holds (hg : g.Wf) (x : ℚ) : Holds g.getNodeList (fromKeys x g.getNodeList) fun _ => x := by
  have gen : ∀ (l : List N) (d : Dict N ℚ), (d.keys ++ l).Nodup →
      (Dict.update d (l.map fun n => (n, x))).keys = d.keys ++ l ∧
      ∀ n, (Dict.update d (l.map fun n => (n, x))).get? n = if n ∈ l then some x else d.get? n := by
    intro l
    induction l with
    | nil => intro d _; simp [Dict.update]
    | cons m l ih =>
      intro d hnd
      have hm : m ∉ d.keys := fun hh => (List.nodup_append.1 hnd).2.2 m hh m (by simp) rfl
      have hkeys := Dict.keys_set_of_not_mem x hm
      obtain ⟨h1, h2⟩ := ih (d.set m x) (by rw [hkeys]; simpa using hnd)
      have he : Dict.update d ((m :: l).map fun n => (n, x)) = Dict.update (d.set m x) (l.map fun n => (n, x)) := rfl
      rw [he]
      refine ⟨by rw [h1, hkeys]; simp, fun n => ?_⟩
      rw [h2, Dict.get?_set]
      by_cases hnl : n ∈ l
      · simp [hnl]
      · by_cases hmn : m = n
        · subst hmn; simp
        · simp [hnl, hmn, Ne.symm hmn]
  obtain ⟨h1, h2⟩ := gen g.getNodeList .empty (by rw [Dict.keys_empty, List.nil_append]; exact hg.nodup)
  exact ⟨by unfold fromKeys; rw [h1]; simp, fun n hn => by unfold fromKeys; rw [h2, if_pos hn]⟩

theorem iter_ge (hg : g.Wf) (hd : g.directed = true) (h : 0 ≤ d) (hm : 0 ≤ minv) (j : Nat) (y : N → ℚ)
    (hy : ∀ n, minv ≤ y n) (n : N) : minv ≤ ((sw (codeF g d minv) g.getNodeList)^[j] y) n := by
  induction j generalizing y with
  | zero => exact hy n
  | succ j ih =>
    rw [Function.iterate_succ_apply]
    exact ih _ (sw_ge hg hd h hm _ _ hy)

theorem iter_wd (hg : g.Wf) (hd : g.directed = true) (h : 0 ≤ d) (h1 : d ≤ 1) (j : Nat) (x y : N → ℚ) :
    wd g d ((sw (codeF g d minv) g.getNodeList)^[j] x) ((sw (codeF g d minv) g.getNodeList)^[j] y) ≤ d ^ j * wd g d x y := by
  induction j generalizing x y with
  | zero => simp
  | succ j ih =>
    rw [Function.iterate_succ_apply, Function.iterate_succ_apply]
    refine (ih _ _).trans ?_
    rw [pow_succ, mul_assoc]
    exact mul_le_mul_of_nonneg_left (wd_contract hg hd h h1 x y) (pow_nonneg h j)

/-- some iteration changes the table by less than `md` -/
theorem conv (hg : g.Wf) (hd : g.directed = true) (h : 0 ≤ d) (h1 : d < 1) {md : ℚ} (hmd : 0 < md) (y : N → ℚ) :
    ∃ i, dst g ((sw (codeF g d minv) g.getNodeList)^[i] y) ((sw (codeF g d minv) g.getNodeList)^[i + 1] y) < md := by
  have hW : 0 ≤ dst g y (sw (codeF g d minv) g.getNodeList y) := dst_nonneg _ _
  have h1' : 0 < 1 - d := by linarith
  obtain ⟨i, hi⟩ := exists_pow_lt_of_lt_one (x := (1 - d) * md / (dst g y (sw (codeF g d minv) g.getNodeList y) + 1))
    (by positivity) h1
  refine ⟨i, ?_⟩
  have e1 := dst_le_wd hg h ((sw (codeF g d minv) g.getNodeList)^[i] y) ((sw (codeF g d minv) g.getNodeList)^[i + 1] y)
  rw [Function.iterate_succ_apply] at e1 ⊢
  have e2 := iter_wd (minv := minv) hg hd h h1.le i y (sw (codeF g d minv) g.getNodeList y)
  have e3 := wd_le_dst (g := g) h y (sw (codeF g d minv) g.getNodeList y)
  rw [lt_div_iff₀ (by linarith)] at hi
  have hp : 0 ≤ d ^ i := pow_nonneg h i
  have e4 := mul_le_mul_of_nonneg_left e3 hp
  have e5 : (1 - d) * dst g ((sw (codeF g d minv) g.getNodeList)^[i] y)
      ((sw (codeF g d minv) g.getNodeList)^[i] (sw (codeF g d minv) g.getNodeList y)) < (1 - d) * md := by
    rw [mul_add, mul_one] at hi; linarith
  exact lt_of_mul_lt_mul_left e5 h1'.le

end
end Misc
end GiMPy
