import Verif.Lemmas.SimplexPivot
import Verif.Lemmas.SimplexRedraw
import Verif.Lemmas.ForestSize
import Verif.Lemmas.Kruskal

/-! # Lemmas on network simplex: the first spanning tree -/

namespace GiMPy
namespace Simplex
open MinCost MaxFlow
variable {N : Type} [DecidableEq N] {Q : Type} {g t : Graph N} {cap cost f : N × N → Int}
variable {T : List (N × N)} {V seq : List N} {root : N} {ix : Idx N}
set_option linter.unusedSectionVars false

/-! ## get_simplex_solution_graph -/

/-- strictly between the bounds -/
def inside (cap f : N × N → Int) (e : N × N) : Bool := decide (0 < f e ∧ f e < cap e)

/-- adding arcs one by one -/
def addArcs : List (N × N) → Graph N → Except PyErr (Graph N)
  | [], t => .ok t
  | e :: l, t => match t.call (.addEdge e.1 e.2 []) with
    | .error x => .error x
    | .ok t => addArcs l t

theorem solutionArcs_eq (hn : Netw g cap cost) : ∀ (l : List (N × N)) (t : Graph N), (∀ e ∈ l, e ∈ g.getEdgeList) →
    solutionArcs g f l t = addArcs (l.filter (inside cap f)) t := by
  intro l
  induction l with
  | nil => intro t _; rfl
  | cons e l ih =>
    intro t hl
    have he := hl e (by simp)
    have ih := fun t => ih t fun e he => hl e (by simp [he])
    unfold solutionArcs
    rw [flowOf_ok he, hn.caps e.1 e.2 he]
    simp only []
    by_cases hin : 0 < f e ∧ f e < cap e
    · have : inside cap f e = true := by simp [inside, hin]
      rw [List.filter_cons, if_pos this, addArcs, if_pos hin]
      cases t.call (.addEdge e.1 e.2 []) with
      | error x => rfl
      | ok t => exact ih t
    · have : ¬ inside cap f e = true := by simp only [inside, decide_eq_true_eq]; exact hin
      rw [List.filter_cons, if_neg this, if_neg hin]
      exact ih t

theorem solutionNodes_ok : ∀ (l l' : List N) (t : Graph N), (l' ++ l).Nodup → Built t → t.directed = true →
    t.getNodeList = l' → t.getEdgeList = [] →
    ∃ t', solutionNodes l t = .ok t' ∧ Built t' ∧ t'.directed = true ∧ t'.getNodeList = l' ++ l ∧ t'.getEdgeList = [] := by
  intro l
  induction l with
  | nil => intro l' t _ h1 h2 h3 h4; exact ⟨t, rfl, h1, h2, by simpa using h3, h4⟩
  | cons i l ih =>
    intro l' t hnd h1 h2 h3 h4
    have hi : i ∉ l' := by
      rw [List.nodup_append] at hnd
      intro hm; exact hnd.2.2 _ hm i (by simp) rfl
    have hr := rep_of_wf h1.wf
    have hiV : i ∉ t.neighbors.keys := by
      rw [show t.neighbors.keys = l' from h3]; exact hi
    obtain ⟨t', h5, h6⟩ := rep_call hr h2 (.addNode i []) (by simp only [AGraph.step]; rw [if_neg hiV])
    simp only [AGraph.step] at h6
    rw [if_neg hiV] at h6
    simp only at h6
    obtain ⟨t'', h7, h8⟩ := ih (l' ++ [i]) t' (by simpa using hnd) (h1.call h2 h5) (by rw [h6.dir]; exact h2)
      (by rw [show t'.getNodeList = t'.neighbors.keys from rfl, h6.V]; rw [show t.neighbors.keys = l' from h3])
      (by rw [show t'.getEdgeList = t'.edgeAttr.keys from rfl, h6.E]; exact h4)
    refine ⟨t'', by rw [solutionNodes, h5]; exact h7, h8.1, h8.2.1, by rw [h8.2.2.1]; simp, h8.2.2.2⟩

theorem addArcs_ok (hn : Netw g cap cost) : ∀ (l : List (N × N)) (t : Graph N), TGr g t → (∀ e ∈ l, e ∈ g.getEdgeList) →
    (t.getEdgeList ++ l).Nodup → ∃ t', addArcs l t = .ok t' ∧ TGr g t' ∧ t'.getEdgeList = t.getEdgeList ++ l := by
  intro l
  induction l with
  | nil => intro t h _ _; exact ⟨t, rfl, h, by simp⟩
  | cons e l ih =>
    intro t h hl hnd
    have he := hl e (by simp)
    have hnt : e ∉ t.getEdgeList := by
      rw [List.nodup_append] at hnd
      intro hm; exact hnd.2.2 _ hm e (by simp) rfl
    have hV := hn.ends he
    obtain ⟨t', h1, h2, h3⟩ := h.add hV.1 hV.2 he hnt
    obtain ⟨t'', h4, h5, h6⟩ := ih t' h2 (fun e he => hl e (by simp [he])) (by rw [h3]; simpa using hnd)
    exact ⟨t'', by rw [addArcs, h1]; exact h4, h5, by rw [h6, h3]; simp⟩

theorem built_init : Built (Graph.init true : Graph N) := ⟨true, [], by simp, rfl⟩

/-- the solution graph depends only on which arcs are strictly inside -/
theorem solutionGraph_ok (hn : Netw g cap cost) : ∃ S : List (N × N) → Graph N, ∀ f : N × N → Int,
    solutionGraph g f = .ok (S (g.getEdgeList.filter (inside cap f))) ∧
    TGr g (S (g.getEdgeList.filter (inside cap f))) ∧
    (S (g.getEdgeList.filter (inside cap f))).getEdgeList = g.getEdgeList.filter (inside cap f) := by
  obtain ⟨t0, h1, h2, h3, h4, h5⟩ := solutionNodes_ok g.getNodeList [] (Graph.init true) (show ([] ++ g.getNodeList).Nodup from hn.built.wf.nodup)
    built_init rfl rfl rfl
  have ht0 : TGr g t0 := ⟨h2, h3, by simpa using h4, by intro e he; rw [h5] at he; cases he⟩
  refine ⟨fun l => match addArcs l t0 with | .ok t => t | .error _ => t0, fun f => ?_⟩
  obtain ⟨t', h6, h7, h8⟩ := addArcs_ok hn (g.getEdgeList.filter (inside cap f)) t0 ht0
    (fun e he => (List.mem_filter.1 he).1) (by rw [h5]; exact hn.built.wf.edup.filter _)
  simp only [h6]
  refine ⟨?_, h7, by rw [h8, h5]; rfl⟩
  unfold solutionGraph
  rw [h1]
  simp only []
  rw [solutionArcs_eq hn _ _ fun e he => he]
  exact h6

/-! ## simplex_find_cycle -/

/-- the closed walk that `simplex_find_cycle` returns: it uses every arc at most once on balance, and the last step once -/
def ClosedWalk (T : List (N × N)) (c : List N) : Prop :=
  ∃ v l y, c = v :: l ∧ (v :: l).getLast? = some y ∧ (v :: l ++ [v]).IsChain (EAdj T) ∧
    (∀ a b, cnt (a, b) (v :: l ++ [v]) - cnt (b, a) (v :: l ++ [v]) ≤ 1) ∧
    cnt (y, v) (v :: l ++ [v]) - cnt (v, y) (v :: l ++ [v]) = 1

theorem cnt_glue (e : N × N) (s : N) (B : List N) : ∀ A : List N, cnt e (A ++ s :: B) = cnt e (A ++ [s]) + cnt e (s :: B)
  | [] => by simp [cnt]
  | [a] => by simp [cnt]
  | a :: b :: A => by
    have := cnt_glue e s B (b :: A)
    simp only [List.cons_append, cnt] at this ⊢
    omega

theorem cnt_reverse (a b : N) : ∀ l : List N, cnt (a, b) l.reverse = cnt (b, a) l
  | [] => by simp [cnt]
  | [x] => by simp [cnt]
  | x :: y :: l => by
    have ih := cnt_reverse a b (y :: l)
    have e1 : (x :: y :: l).reverse = l.reverse ++ y :: [x] := by simp
    have e2 : (y :: l).reverse = l.reverse ++ [y] := by simp
    rw [e1, cnt_glue, ← e2, ih]
    simp only [cnt, one, Prod.mk.injEq, Int.add_zero]
    have : (a = y ∧ b = x) ↔ (b = x ∧ a = y) := and_comm
    simp only [this]
    omega

theorem Tr.cnt_pred {P : N → N → Prop} {pred : Dict N (Option N)} {src : N} {L : List N} (h : Tr P pred src L) {a b : N}
    (hc : 0 < cnt (a, b) L) : pred.get? a = some (some b) := by
  induction h with
  | base => simp [cnt] at hc
  | @step x p L h1 h2 h3 h4 ih =>
    simp only [cnt, one] at hc
    by_cases he : (a, b) = (x, p)
    · cases he; exact h1
    · rw [if_neg he, Int.zero_add] at hc
      exact ih hc

theorem Tr.chain {P : N → N → Prop} {pred : Dict N (Option N)} {src : N} {L : List N} (h : Tr P pred src L) :
    L.IsChain (fun x p => P p x) := by
  induction h with
  | base => simp
  | step _ _ h3 _ ih => exact List.isChain_cons_cons.2 ⟨h3, ih⟩

theorem Tr.last {P : N → N → Prop} {pred : Dict N (Option N)} {src : N} {L : List N} (h : Tr P pred src L) :
    L.getLast? = some src := by
  induction h with
  | base => simp
  | step _ _ _ _ ih => rw [List.getLast?_cons_cons]; exact ih

theorem Expl.src_none {P : N → N → Prop} {pred : Dict N (Option N)} {src : N} {L : List N} (h : Expl P pred src L) :
    pred.get? src = some none := by
  induction h with
  | base h => exact h
  | step _ _ _ _ _ ih => exact ih

theorem ancestors_ok {P : N → N → Prop} {pred : Dict N (Option N)} {src : N} (hr : pred.get? src = some none) :
    ∀ (L : List N) (x : N) (k : Nat), Tr P pred src (x :: L) → (x :: L).length ≤ k → ancestors pred k x = .ok (x :: L) := by
  intro L
  induction L with
  | nil =>
    intro x k h hk
    obtain ⟨k, rfl⟩ := Nat.exists_eq_succ_of_ne_zero (show k ≠ 0 by intro h; subst h; simp at hk)
    cases h
    rw [ancestors, hr]
  | cons p L ih =>
    intro x k h hk
    obtain ⟨k, rfl⟩ := Nat.exists_eq_succ_of_ne_zero (show k ≠ 0 by intro h; subst h; simp at hk)
    cases h with
    | step h1 h2 h3 h4 =>
      rw [ancestors, h1]
      simp only []
      rw [ih p k h4 (by simp at hk ⊢; omega)]

theorem Expl.mem_pred {P : N → N → Prop} {pred : Dict N (Option N)} {src : N} {L : List N} (h : Expl P pred src L) {a b : N}
    (ha : a ∈ L) (h1 : pred.get? a = some (some b)) : b ∈ L := by
  induction h with
  | base hr => rw [List.mem_singleton] at ha; subst ha; rw [hr] at h1; cases h1
  | step _ _ hp hm _ ih =>
    rcases List.mem_cons.1 ha with rfl | ha
    · rw [hm] at h1; cases h1; exact List.mem_cons_of_mem _ hp
    · exact List.mem_cons_of_mem _ (ih ha)

theorem Expl.no_two {P : N → N → Prop} {pred : Dict N (Option N)} {src : N} {L : List N} (h : Expl P pred src L) {a b : N}
    (ha : a ∈ L) (h1 : pred.get? a = some (some b)) (h2 : pred.get? b = some (some a)) : False := by
  induction h with
  | base hr => rw [List.mem_singleton] at ha; subst ha; rw [hr] at h1; cases h1
  | @step l m p h0 hm hp hpm _ ih =>
    rcases List.mem_cons.1 ha with rfl | ha
    · rw [hpm] at h1; cases h1
      exact hm (Expl.mem_pred h0 hp h2)
    · exact ih ha

/-- the walk through the root -/
theorem closedWalk_ok {pred : Dict N (Option N)} {src : N} {L : List N} (h : Expl (EAdj T) pred src L) {cur n : N}
    (hc : cur ∈ L) (hn : n ∈ L) (hadj : EAdj T cur n) (h1 : pred.get? cur ≠ some (some n)) (h2 : pred.get? n ≠ some (some cur))
    (hne : cur ≠ n) {fuel : Nat} (hf : L.length ≤ fuel) : ∃ c, closedWalk pred fuel cur n = .ok c ∧ ClosedWalk T c := by
  have hroot := Expl.src_none h
  obtain ⟨L1, t1, d1, m1⟩ := h.trace n hn
  obtain ⟨L2, t2, d2, m2⟩ := h.trace cur hc
  have len1 : (n :: L1).length ≤ fuel := Nat.le_trans (d1.subperm m1).length_le hf
  have len2 : (cur :: L2).length ≤ fuel := Nat.le_trans (d2.subperm m2).length_le hf
  have last1 := Tr.last t1
  have last2 := Tr.last t2
  obtain ⟨A1, hA1⟩ := List.getLast?_eq_some_iff.1 last1
  obtain ⟨A2, hA2⟩ := List.getLast?_eq_some_iff.1 last2
  have hdl : (n :: L1).dropLast = A1 := by rw [hA1, List.dropLast_concat]
  have hrev : (n :: L1).reverse = src :: A1.reverse := by rw [hA1]; simp
  have hw : cur :: L2 ++ A1.reverse = A2 ++ src :: A1.reverse := by rw [hA2]; simp
  have hlast : (cur :: L2 ++ A1.reverse).getLast? = some n := by
    rw [hw, List.getLast?_append, ← hrev, List.getLast?_reverse]; simp
  have hcnt : ∀ a b, cnt (a, b) (cur :: L2 ++ A1.reverse) = cnt (a, b) (cur :: L2) + cnt (b, a) (n :: L1) := by
    intro a b
    rw [hw, cnt_glue, ← hA2, ← hrev, cnt_reverse]
  have hclosed : ∀ e, cnt e (cur :: (L2 ++ A1.reverse) ++ [cur]) = cnt e (cur :: L2 ++ A1.reverse) + one (e = (n, cur)) :=
    fun e => cnt_closed e (by simpa using hlast)
  refine ⟨cur :: (L2 ++ A1.reverse), ?_, cur, L2 ++ A1.reverse, n, rfl, by simpa using hlast, ?_, ?_, ?_⟩
  · unfold closedWalk
    rw [ancestors_ok hroot L1 n fuel t1 len1, ancestors_ok hroot L2 cur fuel t2 len2]
    simp only []
    rw [hdl]; rfl
  · have c2 : (A2 ++ [src]).IsChain (EAdj T) := by rw [← hA2]; exact (Tr.chain t2).imp fun _ _ h => EAdj.symm h
    have c1 : (src :: A1.reverse).IsChain (EAdj T) := by
      rw [← hrev, List.isChain_reverse]; exact Tr.chain t1
    have c3 : (cur :: (L2 ++ A1.reverse)).IsChain (EAdj T) := by
      rw [← List.cons_append, hw]
      rw [List.isChain_append] at c2 ⊢
      refine ⟨c2.1, c1, fun x hx y hy => c2.2.2 x hx y ?_⟩
      simpa using hy
    rw [List.isChain_append]
    refine ⟨c3, by simp, ?_⟩
    intro x hx y hy
    rw [show (cur :: (L2 ++ A1.reverse)).getLast? = some n by simpa using hlast] at hx
    simp only [Option.mem_def, Option.some.injEq] at hx
    cases hy
    subst hx
    exact hadj.symm
  · intro a b
    rw [hclosed, hclosed, hcnt, hcnt]
    have b1 := cnt_bounds (a, b) (cur :: L2)
    have b2 := cnt_bounds (b, a) (cur :: L2)
    have b3 := cnt_bounds (a, b) (n :: L1)
    have b4 := cnt_bounds (b, a) (n :: L1)
    have hle : ∀ (e : N × N) (x : N) (L : List N), (x :: L).Nodup → cnt e (x :: L) ≤ 1 := fun e x L hd =>
      cnt_le_one (hd.sublist (List.dropLast_sublist _))
    have u1 := hle (a, b) cur L2 d2
    have u4 := hle (b, a) n L1 d1
    have p1 : 0 < cnt (a, b) (cur :: L2) → pred.get? a = some (some b) := Tr.cnt_pred t2
    have p4 : 0 < cnt (b, a) (n :: L1) → pred.get? b = some (some a) := Tr.cnt_pred t1
    by_cases hab : (a, b) = (n, cur)
    · cases hab
      have z1 : cnt (n, cur) (cur :: L2) = 0 := by
        by_contra h0; exact h2 (p1 (by omega))
      have z4 : cnt (cur, n) (n :: L1) = 0 := by
        by_contra h0; exact h1 (p4 (by omega))
      have o1 : one ((n, cur) = (n, cur)) = 1 := by simp [one]
      have o2 : 0 ≤ one ((cur, n) = (n, cur)) := by unfold one; split <;> omega
      omega
    · have o1 : one ((a, b) = (n, cur)) = 0 := by simp only [one, if_neg hab]
      have o2 : 0 ≤ one ((b, a) = (n, cur)) := by unfold one; split <;> omega
      by_cases q1 : 0 < cnt (a, b) (cur :: L2)
      · by_cases q4 : 0 < cnt (b, a) (n :: L1)
        · have haL : a ∈ L := m2 a (cnt_mem q1).1
          exact (Expl.no_two h haL (p1 q1) (p4 q4)).elim
        · omega
      · omega
  · rw [hclosed, hclosed, hcnt, hcnt]
    have b1 := cnt_bounds (n, cur) (cur :: L2)
    have b2 := cnt_bounds (cur, n) (cur :: L2)
    have b3 := cnt_bounds (n, cur) (n :: L1)
    have b4 := cnt_bounds (cur, n) (n :: L1)
    have z1 : cnt (n, cur) (cur :: L2) = 0 := by
      by_contra h0; exact h2 (Tr.cnt_pred t2 (a := n) (b := cur) (by omega))
    have z2 : cnt (cur, n) (cur :: L2) = 0 := by
      by_contra h0; exact h1 (Tr.cnt_pred t2 (a := cur) (b := n) (by omega))
    have z3 : cnt (n, cur) (n :: L1) = 0 := by
      by_contra h0; exact h2 (Tr.cnt_pred t1 (a := n) (b := cur) (by omega))
    have z4 : cnt (cur, n) (n :: L1) = 0 := by
      by_contra h0; exact h1 (Tr.cnt_pred t1 (a := cur) (b := n) (by omega))
    have q : (cur, n) ≠ (n, cur) := by intro h'; cases h'; exact hne rfl
    rw [z1, z2, z3, z4]
    simp [one, q]

/-- the search of one component: `M0` are the nodes of the finished components, `L` those of this one, newest first, `A` the
arcs used so far; `D u v` says that the pair has been looked at -/
structure CInv (T : List (N × N)) (V : List N) (src : N) (M0 L : List N) (A : List (N × N)) (D : N → N → Prop) (st : CState N) :
    Prop where
  grow : Grow A (L ++ M0)
  marked : st.marked = L ++ M0
  old : ∀ u ∈ M0, ∀ v, EAdj T u v → EAdj A u v ∧ v ∈ M0
  expl : Expl (EAdj T) st.pred src L
  keys : ∀ v, v ∈ st.pred.keys ↔ v ∈ L
  nodes : ∀ v ∈ L ++ M0, v ∈ V
  used : ∀ v p, st.pred.get? v = some (some p) → EAdj A p v ∧ p ∈ st.visited
  split : (st.q ++ st.visited).Nodup ∧ ∀ v, v ∈ st.q ++ st.visited ↔ v ∈ L
  closed : ∀ u ∈ st.visited, ∀ v, EAdj T u v → D u v → EAdj A u v

variable {src : N} {M0 : List N}

theorem cycleFor_ok (hself : ∀ v, ¬ EAdj T v v) {cur : N} {fuel : Nat} (hf : V.length ≤ fuel) :
    ∀ (l done L : List N) (A : List (N × N)) (st : CState N),
    CInv T V src M0 L A (fun u v => u ≠ cur ∨ v ∈ done) st → cur ∈ st.visited → (∀ n ∈ l, EAdj T cur n ∧ n ∈ V) → l.Nodup →
    (∀ n ∈ l, st.pred.get? n ≠ some (some cur)) →
    (∃ st' L' A', cycleFor fuel cur l st = .ok (.inl st') ∧
      CInv T V src M0 L' A' (fun u v => u ≠ cur ∨ v ∈ l ∨ v ∈ done) st' ∧ st'.visited = st.visited) ∨
    ∃ c, cycleFor fuel cur l st = .ok (.inr c) ∧ ClosedWalk T c := by
  intro l
  induction l with
  | nil => intro done L A st h _ _ _ _; exact .inl ⟨st, L, A, rfl, by simpa using h, rfl⟩
  | cons n l ih =>
    intro done L A st h hcv hl hnd hnp
    rw [List.nodup_cons] at hnd
    have hcL : cur ∈ L := (h.split.2 cur).1 (by simp [hcv])
    obtain ⟨p, hp⟩ := (Dict.mem_keys' _ _).1 ((h.keys cur).2 hcL)
    have hncur : n ≠ cur := by rintro rfl; exact hself _ (hl n (by simp)).1
    have hD : ∀ A' st' L', CInv T V src M0 L' A' (fun u v => u ≠ cur ∨ v ∈ l ∨ v ∈ n :: done) st' →
        CInv T V src M0 L' A' (fun u v => u ≠ cur ∨ v ∈ n :: l ∨ v ∈ done) st' := fun A' st' L' h' =>
      ⟨h'.grow, h'.marked, h'.old, h'.expl, h'.keys, h'.nodes, h'.used, h'.split, fun u hu v hv hd => h'.closed u hu v hv (by
        simp only [List.mem_cons] at hd ⊢; tauto)⟩
    unfold cycleFor
    rw [hp]
    simp only []
    by_cases hpn : p = some n
    · rw [if_pos hpn]
      subst hpn
      have hA := (h.used cur n hp).1
      rcases ih (n :: done) L A st
        ⟨h.grow, h.marked, h.old, h.expl, h.keys, h.nodes, h.used, h.split, fun u hu v hv hd => by
          simp only [List.mem_cons] at hd
          rcases hd with hd | rfl | hd
          · exact h.closed u hu v hv (.inl hd)
          · by_cases huc : u = cur
            · subst huc; exact hA.symm
            · exact h.closed u hu v hv (.inl huc)
          · exact h.closed u hu v hv (.inr hd)⟩ hcv
        (fun m hm => hl m (by simp [hm])) hnd.2 (fun m hm => hnp m (by simp [hm])) with ⟨st', L', A', h1, h2, h3⟩ | h1
      · exact .inl ⟨st', L', A', h1, hD _ _ _ h2, h3⟩
      · exact .inr h1
    · rw [if_neg hpn]
      by_cases hnk : n ∈ st.pred.keys
      · rw [if_pos ((Dict.contains_iff _ _).2 hnk)]
        right
        have hlen : L.length ≤ fuel := by
          have h1 : L.Nodup := h.expl.nodup
          exact Nat.le_trans (h1.subperm fun v hv => h.nodes v (by simp [hv])).length_le hf
        obtain ⟨c, h1, h2⟩ := closedWalk_ok (T := T) h.expl hcL ((h.keys n).1 hnk) (hl n (by simp)).1
          (by rw [hp]; simpa using hpn) (hnp n (by simp)) (Ne.symm hncur) hlen
        exact ⟨c, by rw [h1], h2⟩
      · rw [if_neg (fun h' => hnk ((Dict.contains_iff _ _).1 h'))]
        have hnL : n ∉ L := fun h' => hnk ((h.keys n).2 h')
        have hgn := h.grow.nodup
        rw [List.nodup_append] at hgn
        have hnM : n ∉ M0 := by
          intro hm
          exact hgn.2.2 cur hcL cur (h.old n hm cur (hl n (by simp)).1.symm).2 rfl
        have hnv : n ∉ st.visited := fun h' => hnL ((h.split.2 n).1 (by simp [h']))
        have hnq : n ∉ st.q := fun h' => hnL ((h.split.2 n).1 (by simp [h']))
        have hmono : ∀ {u v}, EAdj A u v → EAdj (A ++ [(cur, n)]) u v := fun h => eAdj_mono (by intro e he; simp [he]) h
        rw [if_neg hnv]
        have key : CInv T V src M0 (n :: L) (A ++ [(cur, n)]) (fun u v => u ≠ cur ∨ v ∈ n :: done)
            { st with pred := st.pred.set n (some cur), marked := n :: st.marked, q := n :: st.q } := by
          constructor
          · exact .arc h.grow (fun h' => (List.mem_append.1 h').elim hnL hnM) (List.mem_append_left _ hcL) (.inl rfl)
          · show n :: st.marked = n :: L ++ M0
            rw [h.marked]; rfl
          · intro u hu v hv
            have := h.old u hu v hv
            exact ⟨hmono this.1, this.2⟩
          · exact .step (h.expl.set hnL _) hnL hcL (by simp) (hl n (by simp)).1
          · intro v
            rw [Dict.mem_keys_set, List.mem_cons, h.keys]
          · intro v hv
            rcases List.mem_cons.1 hv with rfl | hv
            · exact (hl v (by simp)).2
            · exact h.nodes v hv
          · intro v q hv
            by_cases hvn : v = n
            · subst hvn
              rw [Dict.get?_set_self] at hv
              cases hv
              exact ⟨.inl (by simp), hcv⟩
            · rw [Dict.get?_set_ne _ _ (Ne.symm hvn)] at hv
              have := h.used v q hv
              exact ⟨hmono this.1, this.2⟩
          · refine ⟨List.nodup_cons.2 ⟨?_, h.split.1⟩, fun v => ?_⟩
            · exact fun h' => (List.mem_append.1 h').elim hnq hnv
            · simp only [List.cons_append, List.mem_cons, h.split.2 v]
          · intro u hu v hv hd
            rcases hd with hd | hd
            · exact hmono (h.closed u hu v hv (.inl hd))
            · rcases List.mem_cons.1 hd with rfl | hd
              · by_cases huc : u = cur
                · subst huc; exact .inl (by simp)
                · exact hmono (h.closed u hu v hv (.inl huc))
              · exact hmono (h.closed u hu v hv (.inr hd))
        rcases ih (n :: done) (n :: L) (A ++ [(cur, n)]) _ key hcv (fun m hm => hl m (by simp [hm])) hnd.2 (fun m hm => by
          have hmn : n ≠ m := by rintro rfl; exact hnd.1 hm
          show (st.pred.set n (some cur)).get? m ≠ _
          rw [Dict.get?_set_ne _ _ hmn]
          exact hnp m (by simp [hm])) with ⟨st', L', A', h1, h2, h3⟩ | h1
        · exact .inl ⟨st', L', A', h1, hD _ _ _ h2, h3⟩
        · exact .inr h1

theorem cycleLoop_ok (hwf : t.Wf) (hd : t.directed = true) (hs : Simple t.getEdgeList) {inner : Nat}
    (hf : t.getNodeList.length ≤ inner) : ∀ (k : Nat) (L : List N) (A : List (N × N)) (st : CState N),
    CInv t.getEdgeList t.getNodeList src M0 L A (fun _ _ => True) st → t.getNodeList.length < k + st.visited.length →
    (∃ st' L' A', cycleLoop t inner k st = .ok (.inl st') ∧
      CInv t.getEdgeList t.getNodeList src M0 L' A' (fun _ _ => True) st' ∧ st'.q = []) ∨
    ∃ c, cycleLoop t inner k st = .ok (.inr c) ∧ ClosedWalk t.getEdgeList c := by
  have hself : ∀ v, ¬ EAdj t.getEdgeList v v := by rintro v (h | h) <;> exact hs _ _ h h
  intro k
  induction k with
  | zero =>
    intro L A st h hk
    exfalso
    have h1 : st.visited.length ≤ t.getNodeList.length := by
      refine (((List.nodup_append.1 h.split.1).2.1).subperm fun v hv => ?_).length_le
      exact h.nodes v (List.mem_append_left _ ((h.split.2 v).1 (by simp [hv])))
    omega
  | succ k ih =>
    intro L A st h hk
    unfold cycleLoop
    rcases hq : st.q with _ | ⟨cur, q⟩
    · exact .inl ⟨st, L, A, rfl, h, hq⟩
    · simp only []
      have hcL : cur ∈ L := (h.split.2 cur).1 (by simp [hq])
      have hcV := h.nodes cur (List.mem_append_left _ hcL)
      obtain ⟨l, hl, hl'⟩ := around_ok hwf hd hcV
      have hlnd := around_nodup hwf hd hs hcV hl
      rw [hl]
      simp only []
      have hcv : cur ∉ st.visited := by
        have := h.split.1
        rw [hq, List.cons_append, List.nodup_cons, List.mem_append, not_or] at this
        exact this.1.2
      have hperm : (q ++ cur :: st.visited).Perm (st.q ++ st.visited) := by
        rw [hq]; exact List.perm_middle
      have key : CInv t.getEdgeList t.getNodeList src M0 L A (fun u v => u ≠ cur ∨ v ∈ ([] : List N))
          { st with q := q, visited := cur :: st.visited } := by
        constructor
        · exact h.grow
        · exact h.marked
        · exact h.old
        · exact h.expl
        · exact h.keys
        · exact h.nodes
        · intro v p hv
          have := h.used v p hv
          exact ⟨this.1, List.mem_cons_of_mem _ this.2⟩
        · exact ⟨hperm.nodup_iff.2 h.split.1, fun v => by rw [← h.split.2 v]; exact hperm.mem_iff⟩
        · intro u hu v hv hd'
          rcases hd' with hd' | hd'
          · exact h.closed u ((List.mem_cons.1 hu).resolve_left hd') v hv trivial
          · cases hd'
      rcases cycleFor_ok hself (V := t.getNodeList) (fuel := inner) hf l [] L A _ key (by simp) (fun n hn => by
          have h' := (hl' n).1 hn
          refine ⟨h', ?_⟩
          rcases h' with h' | h'
          · exact (hwf.endp _ _ h').2
          · exact (hwf.endp _ _ h').1) hlnd (fun n hn hp => hcv (h.used n cur hp).2) with ⟨st', L', A', h1, h2, h3⟩ | ⟨c, h1, h2⟩
      · rw [h1]
        simp only []
        refine ih L' A' st' ⟨h2.grow, h2.marked, h2.old, h2.expl, h2.keys, h2.nodes, h2.used, h2.split, ?_⟩ ?_
        · intro u hu v hv _
          refine h2.closed u hu v hv ?_
          by_cases huc : u = cur
          · subst huc; exact .inr (.inl ((hl' v).2 hv))
          · exact .inl huc
        · rw [h3]; simp; omega
      · rw [h1]
        exact .inr ⟨c, rfl, h2⟩

theorem cinv_fresh {T : List (N × N)} {V M0 : List N} {A : List (N × N)} (hg : Grow A M0)
    (hold : ∀ u ∈ M0, ∀ v, EAdj T u v → EAdj A u v ∧ v ∈ M0) (hM : ∀ v ∈ M0, v ∈ V) {n : N} (hn : n ∈ V) (hnM : n ∉ M0) :
    CInv T V n M0 [n] A (fun _ _ => True) (freshC n M0) := by
  constructor
  · exact .root hg hnM
  · rfl
  · exact hold
  · exact .base (by simp [freshC, Dict.get?, Dict.getL])
  · intro v; simp [freshC, Dict.keys]
  · intro v hv
    rcases List.mem_append.1 hv with hv | hv
    · rw [List.mem_singleton] at hv; subst hv; exact hn
    · exact hM v hv
  · intro v p hv
    simp only [freshC, Dict.get?, Dict.getL] at hv
    split at hv <;> cases hv
  · simp [freshC]
  · intro u hu; simp [freshC] at hu

/-- the orientation of the arcs does not matter -/
theorem Forest.orient {A T : List (N × N)} (h : Forest A) (hs : Simple T) (hT : ∀ e ∈ T, EAdj A e.1 e.2) : Forest T := by
  rintro ⟨u, v⟩ he hc
  have hvu := hs _ _ he
  have key : ∀ e' : N × N, (e' = (u, v) ∨ e' = (v, u)) → EConn (without A e') u v := by
    intro e' he'
    refine Relation.ReflTransGen.mono ?_ _ _ hc
    have step : ∀ a b, (a, b) ∈ without T (u, v) → EAdj (without A e') a b := by
      intro a b hab
      obtain ⟨h1, h2⟩ := List.mem_filter.1 hab
      have h2 : (a, b) ≠ (u, v) := by intro h; rw [h] at h2; simp at h2
      have h3 : (a, b) ≠ (v, u) := by rintro h; rw [h] at h1; exact hvu h1
      have hab' : (a, b) ≠ e' := by rcases he' with rfl | rfl <;> assumption
      have hba' : (b, a) ≠ e' := by
        rcases he' with rfl | rfl
        · intro h; cases h; exact h3 rfl
        · intro h; cases h; exact h2 rfl
      exact (hT _ h1).imp (fun h => List.mem_filter.2 ⟨h, by simpa using hab'⟩) (fun h => List.mem_filter.2 ⟨h, by simpa using hba'⟩)
    rintro a b (hab | hab)
    · exact step a b hab
    · exact (step b a hab).symm
  rcases hT _ he with h1 | h1
  · exact h _ h1 (key _ (.inl rfl))
  · exact h _ h1 (key _ (.inr rfl)).symm

theorem cycleOuter_ok (hwf : t.Wf) (hd : t.directed = true) (hs : Simple t.getEdgeList) {inner : Nat}
    (hf : t.getNodeList.length < inner) : ∀ (k : Nat) (M0 : List N) (A : List (N × N)) (n : N), Grow A M0 →
    (∀ u ∈ M0, ∀ v, EAdj t.getEdgeList u v → EAdj A u v ∧ v ∈ M0) → (∀ v ∈ M0, v ∈ t.getNodeList) → n ∈ t.getNodeList →
    n ∉ M0 → t.getNodeList.length < k + M0.length →
    (cycleOuter t inner k (freshC n M0) = .ok none ∧ Forest t.getEdgeList) ∨
    ∃ c, cycleOuter t inner k (freshC n M0) = .ok (some c) ∧ ClosedWalk t.getEdgeList c := by
  intro k
  induction k with
  | zero =>
    intro M0 A n hg _ hM hn hnM hk
    exfalso
    have : M0.length ≤ t.getNodeList.length := (hg.nodup.subperm hM).length_le
    omega
  | succ k ih =>
    intro M0 A n hg hold hM hn hnM hk
    unfold cycleOuter
    rcases cycleLoop_ok hwf hd hs (inner := inner) (Nat.le_of_lt hf) inner [n] A _ (cinv_fresh hg hold hM hn hnM)
      (by show _ < inner + 0; omega) with ⟨st', L', A', h1, h2, h3⟩ | ⟨c, h1, h2⟩
    · rw [h1]
      simp only []
      have hvis : ∀ v, v ∈ st'.visited ↔ v ∈ L' := by
        intro v; have := h2.split.2 v; rw [h3] at this; simpa using this
      have hold' : ∀ u ∈ L' ++ M0, ∀ v, EAdj t.getEdgeList u v → EAdj A' u v ∧ v ∈ L' ++ M0 := by
        intro u hu v hv
        have : EAdj A' u v := by
          rcases List.mem_append.1 hu with hu | hu
          · exact h2.closed u ((hvis u).2 hu) v hv trivial
          · exact (h2.old u hu v hv).1
        refine ⟨this, ?_⟩
        rcases this with h | h
        · exact (h2.grow.mem _ h).2
        · exact (h2.grow.mem _ h).1
      cases hfind : t.getNodeList.find? fun m => decide (m ∉ st'.marked) with
      | none =>
        left
        refine ⟨rfl, Forest.orient (Grow.forest h2.grow) hs ?_⟩
        rintro ⟨u, v⟩ he
        have huV := (hwf.endp _ _ he).1
        have hmk : u ∈ st'.marked := by
          have := List.find?_eq_none.1 hfind u huV
          simpa using this
        rw [h2.marked] at hmk
        exact (hold' u hmk v (.inl he)).1
      | some m =>
        simp only []
        have hm := List.find?_some hfind
        have hmV := List.mem_of_find?_eq_some hfind
        rw [h2.marked] at hm ⊢
        have hm' : m ∉ L' ++ M0 := by simpa using hm
        refine ih (L' ++ M0) A' m h2.grow hold' h2.nodes hmV hm' ?_
        have : L' ≠ [] := by
          intro h; have := h2.expl.src_mem; rw [h] at this; cases this
        have := List.length_pos_of_ne_nil this
        simp; omega
    · rw [h1]
      exact .inr ⟨c, rfl, h2⟩

/-- `simplex_find_cycle` never raises; without a result the arcs are a forest -/
theorem findCycle_ok (hwf : t.Wf) (hd : t.directed = true) (hs : Simple t.getEdgeList) (hne : t.getNodeList ≠ []) {fuel : Nat}
    (hf : t.getNodeList.length < fuel) :
    (findCycle t fuel = .ok none ∧ Forest t.getEdgeList) ∨ ∃ c, findCycle t fuel = .ok (some c) ∧ ClosedWalk t.getEdgeList c := by
  unfold findCycle
  cases hl : t.getNodeList with
  | nil => exact (hne hl).elim
  | cons n l =>
    exact cycleOuter_ok hwf hd hs hf fuel [] [] n .nil (by simp) (by simp) (by rw [hl]; simp) (by simp) (by simpa using hf)

/-! ## Removing the cycles -/

theorem amountLoop_ok {p : N → N → Int} : ∀ (l : List N) (c : Int), l.IsChain (fun u v => resid g f u v = .ok (p u v)) →
    ∃ x, amountLoop g f l c = .ok x ∧ x ≤ c ∧ l.IsChain (fun u v => x ≤ p u v) ∧
      (∀ m, m ≤ c → l.IsChain (fun u v => m ≤ p u v) → m ≤ x) := by
  intro l
  induction l with
  | nil => intro c _; exact ⟨c, rfl, Int.le_refl _, by simp, fun m h _ => h⟩
  | cons a l ih =>
    intro c h
    rcases l with _ | ⟨b, l⟩
    · exact ⟨c, rfl, Int.le_refl _, by simp, fun m h _ => h⟩
    · rw [List.isChain_cons_cons] at h
      obtain ⟨x, h1, h2, h3, h4⟩ := ih (if c > p a b then p a b else c) h.2
      refine ⟨x, by rw [amountLoop, h.1]; exact h1, ?_, ?_, ?_⟩
      · split at h2 <;> omega
      · rw [List.isChain_cons_cons]; refine ⟨?_, h3⟩; split at h2 <;> omega
      · intro m hm hc
        rw [List.isChain_cons_cons] at hc
        refine h4 m ?_ hc.2
        have := hc.1
        split <;> omega

theorem amount_ok {p : N → N → Int} {v : N} {l : List N} (h : (v :: l ++ [v]).IsChain (fun u v => resid g f u v = .ok (p u v))) :
    ∃ x, amount g f (v :: l) = .ok x ∧ (v :: l ++ [v]).IsChain (fun u v => x ≤ p u v) ∧
      (∀ m, (v :: l ++ [v]).IsChain (fun u v => m ≤ p u v) → m ≤ x) := by
  have h' := List.isChain_append.1 h
  have hlast := h'.2.2 _ (List.getLast?_eq_some_getLast (l := v :: l) (by simp)) v rfl
  obtain ⟨x, h1, h2, h3, h4⟩ := amountLoop_ok (v :: l) (p ((v :: l).getLast (by simp)) v) h'.1
  refine ⟨x, ?_, ?_, ?_⟩
  · unfold amount; simp only []; rw [hlast]; exact h1
  · rw [List.isChain_append]
    refine ⟨h3, by simp, ?_⟩
    intro a ha b hb
    rw [List.getLast?_eq_some_getLast (l := v :: l) (by simp)] at ha
    cases ha; cases hb
    exact h2
  · intro m hm
    have hm' := List.isChain_append.1 hm
    exact h4 m (hm'.2.2 _ (List.getLast?_eq_some_getLast (l := v :: l) (by simp)) v rfl) hm'.1

/-- what the removal of a cycle does -/
theorem breakOne_ok (hn : Netw g cap cost) (hw : Within g.getEdgeList cap f) {c : List N}
    (hc : ClosedWalk (g.getEdgeList.filter (inside cap f)) c) :
    ∃ v l y d f', c = v :: l ∧ (v :: l).getLast? = some y ∧ amount g f c = .ok d ∧ augmentCycle g d c f = .ok f' ∧
      Within g.getEdgeList cap f' ∧ (∀ x, net g.getEdgeList f' x = net g.getEdgeList f x) ∧
      (∀ e ∈ g.getEdgeList, inside cap f e = false → f' e = f e) ∧ pot g cap f' y v < pot g cap f y v ∧ Adj g y v := by
  obtain ⟨v, l, y, rfl, hy, hch, hle, hone⟩ := hc
  have hpos : ∀ a b, EAdj (g.getEdgeList.filter (inside cap f)) a b → Adj g a b ∧ 1 ≤ pot g cap f a b := by
    rintro a b (h | h)
    · obtain ⟨h1, h2⟩ := List.mem_filter.1 h
      simp only [inside, decide_eq_true_eq] at h2
      refine ⟨.inl h1, ?_⟩
      unfold pot; rw [if_pos h1]; omega
    · obtain ⟨h1, h2⟩ := List.mem_filter.1 h
      simp only [inside, decide_eq_true_eq] at h2
      refine ⟨.inr h1, ?_⟩
      unfold pot; rw [if_neg (hn.simple _ _ h1)]; omega
  have hadj : (v :: l ++ [v]).IsChain (Adj g) := hch.imp fun a b h => (hpos a b h).1
  have hres : (v :: l ++ [v]).IsChain (fun u v => resid g f u v = .ok (pot g cap f u v)) :=
    hadj.imp fun a b h => potential_ok hn.caps h
  obtain ⟨d, h1, h2, h3⟩ := amount_ok hres
  have hd : 1 ≤ d := h3 1 (hch.imp fun a b h => (hpos a b h).2)
  obtain ⟨f', h4, h5⟩ := augmentCycle_sent (cost := cost) hn.built.wf.edup hn.simple d hadj f
  have hyv : EAdj (g.getEdgeList.filter (inside cap f)) y v := (List.isChain_append.1 hch).2.2 _ hy v rfl
  refine ⟨v, l, y, d, f', rfl, hy, h1, h4, ?_, ?_, ?_, ?_, (hpos _ _ hyv).1⟩
  · refine sent_within hn.simple (by omega) h5 hw ?_
    intro a b _
    have q1 := hle a b
    have q2 := hle b a
    have q3 := cnt_bounds (a, b) (v :: l ++ [v])
    have q4 := cnt_bounds (b, a) (v :: l ++ [v])
    by_cases z0 : cnt (a, b) (v :: l ++ [v]) - cnt (b, a) (v :: l ++ [v]) = 0
    · exact .inl z0
    · right
      by_cases z1 : 0 < cnt (a, b) (v :: l ++ [v]) - cnt (b, a) (v :: l ++ [v])
      · left
        refine ⟨by omega, ?_⟩
        exact cnt_pos_chain (e := (a, b)) h2 (by omega)
      · right
        refine ⟨by omega, ?_⟩
        exact cnt_pos_chain (e := (b, a)) h2 (by omega)
  · intro x
    rw [h5.net x]; omega
  · rintro ⟨a, b⟩ he hin
    have hno : ¬ EAdj (g.getEdgeList.filter (inside cap f)) a b := by
      rintro (h | h)
      · rw [List.mem_filter, hin] at h; cases h.2
      · exact hn.simple _ _ he (List.mem_filter.1 h).1
    have z1 : cnt (a, b) (v :: l ++ [v]) = 0 := by
      by_contra h0
      have := cnt_bounds (a, b) (v :: l ++ [v])
      exact hno (cnt_pos_chain (e := (a, b)) hch (by omega))
    have z2 : cnt (b, a) (v :: l ++ [v]) = 0 := by
      by_contra h0
      have := cnt_bounds (b, a) (v :: l ++ [v])
      exact hno (cnt_pos_chain (e := (b, a)) hch (by omega)).symm
    have := h5.pt _ he
    simp only [z1, z2] at this
    omega
  · have hA := (hpos _ _ hyv).1
    unfold pot
    by_cases hm : (y, v) ∈ g.getEdgeList
    · rw [if_pos hm, if_pos hm]
      have := h5.pt _ hm
      simp only [hone] at this
      omega
    · rw [if_neg hm, if_neg hm]
      have hm' := hA.resolve_left hm
      have := h5.pt _ hm'
      simp only at this
      rw [show cnt (v, y) (v :: l ++ [v]) - cnt (y, v) (v :: l ++ [v]) = -1 by omega] at this
      omega

theorem filter_shrink {p q : N × N → Bool} : ∀ E : List (N × N), (∀ e ∈ E, q e = true → p e = true) →
    (E.filter q).length < (E.filter p).length ∨ E.filter q = E.filter p := by
  intro E
  induction E with
  | nil => intro _; exact .inr rfl
  | cons e E ih =>
    intro h
    have ih := ih fun e he => h e (by simp [he])
    have he := h e (by simp)
    cases hq : q e with
    | true =>
      rw [List.filter_cons, List.filter_cons, if_pos hq, if_pos (he hq)]
      rcases ih with ih | ih
      · exact .inl (by simp; omega)
      · exact .inr (by rw [ih])
    | false =>
      rw [List.filter_cons, if_neg (by rw [hq]; simp), List.filter_cons]
      cases hp : p e with
      | true =>
        rw [if_pos rfl]
        rcases ih with ih | ih
        · exact .inl (by simp; omega)
        · exact .inl (by simp [ih])
      | false => rw [if_neg (by simp)]; exact ih

/-- the residual capacity of the closing step of the cycle that is found next -/
def slack (g t : Graph N) (cap f : N × N → Int) (inner : Nat) : Nat :=
  match findCycle t inner with
  | .ok (some (v :: l)) => match (v :: l).getLast? with
    | some y => (pot g cap f y v).toNat
    | none => 0
  | _ => 0

theorem pot_bounds (hw : Within g.getEdgeList cap f) {B : Nat} (hB : ∀ e ∈ g.getEdgeList, cap e ≤ B) {u v : N} (h : Adj g u v) :
    0 ≤ pot g cap f u v ∧ pot g cap f u v ≤ B := by
  unfold pot
  by_cases hm : (u, v) ∈ g.getEdgeList
  · rw [if_pos hm]; have := hw _ hm; have := hB _ hm; omega
  · rw [if_neg hm]; have := hw _ (h.resolve_left hm); have := hB _ (h.resolve_left hm); omega

theorem breakCycles_ok (hn : Netw g cap cost) (hne : g.getNodeList ≠ []) {inner B : Nat} (hin : g.getNodeList.length < inner)
    (hB : ∀ e ∈ g.getEdgeList, cap e ≤ B) : ∀ (k : Nat) (f : N × N → Int), Within g.getEdgeList cap f →
    (g.getEdgeList.length + 1) * (B + 1) ≤ k →
    ∃ t f', breakCycles g inner k f = .ok (t, f') ∧ TGr g t ∧ Forest t.getEdgeList ∧
      t.getEdgeList = g.getEdgeList.filter (inside cap f') ∧ Within g.getEdgeList cap f' ∧
      (∀ x, net g.getEdgeList f' x = net g.getEdgeList f x) := by
  obtain ⟨S, hS⟩ := solutionGraph_ok hn
  have key : ∀ (k : Nat) (f : N × N → Int), Within g.getEdgeList cap f →
      (g.getEdgeList.filter (inside cap f)).length * (B + 1) +
        slack g (S (g.getEdgeList.filter (inside cap f))) cap f inner < k →
      ∃ t f', breakCycles g inner k f = .ok (t, f') ∧ TGr g t ∧ Forest t.getEdgeList ∧
        t.getEdgeList = g.getEdgeList.filter (inside cap f') ∧ Within g.getEdgeList cap f' ∧
        (∀ x, net g.getEdgeList f' x = net g.getEdgeList f x) := by
    intro k
    induction k with
    | zero => intro f _ h; omega
    | succ k ih =>
      intro f hw hk
      obtain ⟨h1, h2, h3⟩ := hS f
      have hsim : Simple (S (g.getEdgeList.filter (inside cap f))).getEdgeList := fun a b hab hba =>
        hn.simple a b (h2.sub _ hab) (h2.sub _ hba)
      unfold breakCycles
      rw [h1]
      simp only []
      rcases findCycle_ok h2.built.wf h2.dir hsim (by rw [h2.nodes]; exact hne) (fuel := inner) (by rw [h2.nodes]; exact hin)
        with ⟨h4, h5⟩ | ⟨c, h4, h5⟩
      · rw [h4]
        exact ⟨_, f, rfl, h2, h5, h3, hw, fun _ => rfl⟩
      · rw [h4]
        simp only []
        rw [h3] at h5
        obtain ⟨v, l, y, d, f', rfl, hy, h6, h7, h8, h9, h10, h11, h12⟩ := breakOne_ok hn hw h5
        rw [h6]
        simp only []
        rw [h7]
        simp only []
        have hshr : (g.getEdgeList.filter (inside cap f')).length < (g.getEdgeList.filter (inside cap f)).length ∨
            g.getEdgeList.filter (inside cap f') = g.getEdgeList.filter (inside cap f) := by
          refine filter_shrink _ fun e he hq => ?_
          by_contra hp
          have hp : inside cap f e = false := by simpa using hp
          have := h10 e he hp
          unfold inside at hp hq
          rw [this, hp] at hq
          cases hq
        have hsl : slack g (S (g.getEdgeList.filter (inside cap f))) cap f inner = (pot g cap f y v).toNat := by
          unfold slack; rw [h4]; simp only []; rw [hy]
        have hsl' : slack g (S (g.getEdgeList.filter (inside cap f'))) cap f' inner ≤ B := by
          obtain ⟨_, k2, k3⟩ := hS f'
          have hsim' : Simple (S (g.getEdgeList.filter (inside cap f'))).getEdgeList := fun a b hab hba =>
            hn.simple a b (k2.sub _ hab) (k2.sub _ hba)
          unfold slack
          rcases findCycle_ok k2.built.wf k2.dir hsim' (by rw [k2.nodes]; exact hne) (fuel := inner)
            (by rw [k2.nodes]; exact hin) with ⟨k4, _⟩ | ⟨c', k4, k5⟩
          · rw [k4]; simp
          · rw [k4]
            obtain ⟨v', l', y', rfl, k6, k7, _⟩ := k5
            simp only []
            rw [k6]
            simp only []
            have hadj : Adj g y' v' := by
              have := (List.isChain_append.1 k7).2.2 _ k6 v' rfl
              exact this.imp (k2.sub _) (k2.sub _)
            have := pot_bounds h8 hB hadj
            omega
        have hm : (g.getEdgeList.filter (inside cap f')).length * (B + 1) +
            slack g (S (g.getEdgeList.filter (inside cap f'))) cap f' inner < k := by
          rcases hshr with h | h
          · have : ((g.getEdgeList.filter (inside cap f')).length + 1) * (B + 1) ≤
              (g.getEdgeList.filter (inside cap f)).length * (B + 1) := Nat.mul_le_mul_right _ h
            rw [Nat.add_mul, Nat.one_mul] at this
            omega
          · have hs2 : slack g (S (g.getEdgeList.filter (inside cap f))) cap f' inner = (pot g cap f' y v).toNat := by
              unfold slack; rw [h4]; simp only []; rw [hy]
            rw [h, hs2]
            rw [hsl] at hk
            have b1 := pot_bounds hw hB h12
            have b2 := pot_bounds h8 hB h12
            omega
        obtain ⟨t', f'', r1, r2, r3, r4, r5, r6⟩ := ih f' h8 hm
        exact ⟨t', f'', r1, r2, r3, r4, r5, fun x => (r6 x).trans (h9 x)⟩
  intro k f hw hk
  refine key k f hw ?_
  obtain ⟨h1, h2, h3⟩ := hS f
  have hlen := List.length_filter_le (inside cap f) g.getEdgeList
  have hmul := Nat.mul_le_mul_right (B + 1) hlen
  rw [Nat.add_mul, Nat.one_mul] at hk
  have : slack g (S (g.getEdgeList.filter (inside cap f))) cap f inner ≤ B := by
    have hsim' : Simple (S (g.getEdgeList.filter (inside cap f))).getEdgeList := fun a b hab hba =>
      hn.simple a b (h2.sub _ hab) (h2.sub _ hba)
    unfold slack
    rcases findCycle_ok h2.built.wf h2.dir hsim' (by rw [h2.nodes]; exact hne) (fuel := inner)
      (by rw [h2.nodes]; exact hin) with ⟨k4, _⟩ | ⟨c', k4, k5⟩
    · rw [k4]; simp
    · rw [k4]
      obtain ⟨v', l', y', rfl, k6, k7, _⟩ := k5
      simp only []
      rw [k6]
      simp only []
      have hadj : Adj g y' v' := by
        have := (List.isChain_append.1 k7).2.2 _ k6 v' rfl
        exact this.imp (h2.sub _) (h2.sub _)
      have := pot_bounds hw hB hadj
      omega
  omega

/-! ## Joining the components -/

theorem arcTo_some {n : N} {e : N × N} : ∀ l : List N, arcTo g n l = some e →
    e ∈ g.getEdgeList ∧ ∃ m ∈ l, e = (n, m) ∨ e = (m, n) := by
  intro l
  induction l with
  | nil => intro h; cases h
  | cons m l ih =>
    intro h
    unfold arcTo at h
    split at h
    · next hc => cases h; exact ⟨(contains_edge g _ _).1 hc, m, by simp, .inl rfl⟩
    · split at h
      · next hc => cases h; exact ⟨(contains_edge g _ _).1 hc, m, by simp, .inr rfl⟩
      · obtain ⟨h1, m', h2, h3⟩ := ih h
        exact ⟨h1, m', by simp [h2], h3⟩

theorem arcTo_none {n : N} : ∀ l : List N, arcTo g n l = none → ∀ m ∈ l, ¬ Adj g n m := by
  intro l
  induction l with
  | nil => intro _ m hm; cases hm
  | cons m l ih =>
    intro h m' hm'
    unfold arcTo at h
    split at h
    · cases h
    · next h1 =>
      split at h
      · cases h
      · next h2 =>
        rcases List.mem_cons.1 hm' with rfl | hm'
        · rintro (h' | h')
          · exact h1 ((contains_edge g _ _).2 h')
          · exact h2 ((contains_edge g _ _).2 h')
        · exact ih h m' hm'

theorem arcOut_some {sep : List N} {e : N × N} : ∀ l : List N, arcOut g sep l = some e →
    e ∈ g.getEdgeList ∧ ∃ n ∈ l, n ∉ sep ∧ ∃ m ∈ sep, e = (n, m) ∨ e = (m, n) := by
  intro l
  induction l with
  | nil => intro h; cases h
  | cons n l ih =>
    intro h
    unfold arcOut at h
    have up : (e ∈ g.getEdgeList ∧ ∃ n ∈ l, n ∉ sep ∧ ∃ m ∈ sep, e = (n, m) ∨ e = (m, n)) →
        e ∈ g.getEdgeList ∧ ∃ n' ∈ n :: l, n' ∉ sep ∧ ∃ m ∈ sep, e = (n', m) ∨ e = (m, n') := by
      rintro ⟨h1, n', h2, h3⟩
      exact ⟨h1, n', by simp [h2], h3⟩
    split at h
    · exact up (ih h)
    · next hn =>
      split at h
      · next e' he' =>
        cases h
        obtain ⟨h1, m, h2, h3⟩ := arcTo_some _ he'
        exact ⟨h1, n, by simp, hn, m, h2, h3⟩
      · exact up (ih h)

theorem arcOut_none {sep : List N} : ∀ l : List N, arcOut g sep l = none → ∀ n ∈ l, n ∉ sep → ∀ m ∈ sep, ¬ Adj g n m := by
  intro l
  induction l with
  | nil => intro _ n hn; cases hn
  | cons n l ih =>
    intro h n' hn' hs
    unfold arcOut at h
    split at h
    · next hn =>
      rcases List.mem_cons.1 hn' with rfl | hn'
      · exact (hs hn).elim
      · exact ih h n' hn' hs
    · split at h
      · cases h
      · next he =>
        rcases List.mem_cons.1 hn' with rfl | hn'
        · exact arcTo_none _ he
        · exact ih h n' hn' hs

theorem connectLoop_forest (hn : Netw g cap cost) (hne : g.getNodeList ≠ []) {inner : Nat}
    (hin : g.getNodeList.length < inner) : ∀ (k : Nat) (t : Graph N) (ix : Idx N), TGr g t → Forest t.getEdgeList →
    g.getEdgeList.length < k + t.getEdgeList.length →
    ∃ t' ix', connectLoop g inner k t ix = .ok (t', ix') ∧ TGr g t' ∧ Forest t'.getEdgeList ∧
      (∀ cur, g.getNodeList.head? = some cur → ∀ v, EConn g.getEdgeList cur v → EConn t'.getEdgeList cur v) ∧
      ∀ e ∈ t.getEdgeList, e ∈ t'.getEdgeList := by
  intro k
  induction k with
  | zero =>
    intro t ix ht _ hk
    have := (ht.built.wf.edup.subperm ht.sub).length_le
    simp only [Graph.getEdgeList] at *
    omega
  | succ k ih =>
    intro t ix ht hF hk
    unfold connectLoop
    obtain ⟨cur, rest, hl⟩ := List.exists_cons_of_ne_nil (show t.getNodeList ≠ [] by rw [ht.nodes]; exact hne)
    have hcur : cur ∈ t.getNodeList := by rw [hl]; simp
    obtain ⟨st, ix', h1, h2, _⟩ := search_ok ht.built.wf ht.dir hcur ix (fuel := inner) (by rw [ht.nodes]; exact hin)
    simp only [hl]
    rw [h1]
    simp only []
    rw [← hl]
    cases ho : arcOut g st.pred.keys t.getNodeList with
    | none =>
      refine ⟨t, ix', rfl, ht, hF, ?_, fun e he => he⟩
      intro cur' hcur' v hv
      have hcc : cur' = cur := by
        rw [← ht.nodes, hl] at hcur'; simpa using hcur'.symm
      subst hcc
      induction hv with
      | refl => exact .refl
      | @tail b c h3 h4 ih' =>
        by_contra hc
        have hcV : c ∈ t.getNodeList := by
          rw [ht.nodes]
          rcases h4 with h4 | h4
          · exact (hn.ends h4).2
          · exact (hn.ends h4).1
        exact arcOut_none _ ho c hcV (fun h => hc ((h2 c).1 h)) b ((h2 b).2 ih') h4.symm
    | some e =>
      simp only []
      obtain ⟨h3, n, hnV, hns, m, hms, h4⟩ := arcOut_some _ ho
      have hno : ¬ EConn t.getEdgeList e.1 e.2 := by
        have hm := (h2 m).1 hms
        rcases h4 with rfl | rfl
        · exact fun h => hns ((h2 n).2 (hm.trans h.symm))
        · exact fun h => hns ((h2 n).2 (hm.trans h))
      have het : e ∉ t.getEdgeList := fun h => hno (.single (.inl h))
      have hV := hn.ends h3
      obtain ⟨t', h5, h6, h7⟩ := ht.add hV.1 hV.2 h3 het
      rw [h5]
      simp only []
      obtain ⟨t'', ix'', h8, h9, h9', h9'', h10⟩ := ih t' ix' h6 (by rw [h7]; exact hF.add hno) (by rw [h7]; simp; omega)
      exact ⟨t'', ix'', h8, h9, h9', h9'', fun e' he' => h10 e' (by rw [h7]; simp [he'])⟩

theorem connectLoop_ok (hn : Netw g cap cost) (hne : g.getNodeList ≠ []) {W : List N} (hW : Core g W)
    (hhead : ∀ cur, g.getNodeList.head? = some cur → cur ∈ W) (hconn : ∀ u ∈ W, ∀ v ∈ W, EConn g.getEdgeList u v) {inner : Nat}
    (hin : g.getNodeList.length < inner) (k : Nat) (t : Graph N) (ix : Idx N) (ht : TGr g t) (hF : Forest t.getEdgeList)
    (hk : g.getEdgeList.length < k + t.getEdgeList.length) :
    ∃ t' ix', connectLoop g inner k t ix = .ok (t', ix') ∧ STree g W t' ∧ ∀ e ∈ t.getEdgeList, e ∈ t'.getEdgeList := by
  obtain ⟨t', ix', h1, h2, h3, h4, h5⟩ := connectLoop_forest hn hne hin k t ix ht hF hk
  obtain ⟨cur, rest, hl⟩ := List.exists_cons_of_ne_nil hne
  have hcur : cur ∈ W := hhead cur (by rw [hl]; rfl)
  have hall : ∀ v ∈ W, EConn t'.getEdgeList cur v := fun v hv => h4 cur (by rw [hl]; rfl) v (hconn cur hcur v hv)
  exact ⟨t', ix', h1, ⟨hW, h2, h3, fun u hu v hv => (hall u hu).symm.trans (hall v hv)⟩, h5⟩

/-- `simplex_find_tree`, connected or not -/
theorem findTree_forest (hn : Netw g cap cost) (hne : g.getNodeList ≠ []) (hw : Within g.getEdgeList cap f) {B : Nat}
    (hB : ∀ e ∈ g.getEdgeList, cap e ≤ B) (ix : Idx N) {fuel : Nat} (h1 : g.getNodeList.length < fuel)
    (h2 : (g.getEdgeList.length + 1) * (B + 1) ≤ fuel) :
    ∃ t f' ix', findTree g f ix fuel = .ok (t, f', ix') ∧ TGr g t ∧ Forest t.getEdgeList ∧
      (∀ cur, g.getNodeList.head? = some cur → ∀ v, EConn g.getEdgeList cur v → EConn t.getEdgeList cur v) ∧ AtBound g t cap f' ∧ Within g.getEdgeList cap f' ∧
      (∀ x, net g.getEdgeList f' x = net g.getEdgeList f x) := by
  obtain ⟨t, f', h3, h4, h5, h6, h7, h8⟩ := breakCycles_ok hn hne h1 hB fuel f hw h2
  obtain ⟨t', ix', h9, h10, h12, h13, h11⟩ := connectLoop_forest hn hne h1 fuel t ix h4 h5 (by
    have : g.getEdgeList.length + 1 ≤ (g.getEdgeList.length + 1) * (B + 1) := Nat.le_mul_of_pos_right _ (by omega)
    omega)
  refine ⟨t', f', ix', ?_, h10, h12, h13, ?_, h7, h8⟩
  · unfold findTree
    rw [h3]
    simp only []
    rw [h9]
    simp only []
    rw [Kruskal.costs_ok (w := fun a b => cost (a, b)) _ fun e he => hn.costs e.1 e.2 he]
  · intro e he het
    have hni : e ∉ t.getEdgeList := fun h => het (h11 e h)
    rw [h6, List.mem_filter] at hni
    have hni : ¬ inside cap f' e = true := fun h => hni ⟨he, h⟩
    simp only [inside, decide_eq_true_eq] at hni
    have := h7 e he
    omega

/-- `simplex_find_tree` -/
theorem findTree_ok (hn : Netw g cap cost) (hne : g.getNodeList ≠ []) {W : List N} (hW : Core g W)
    (hhead : ∀ cur, g.getNodeList.head? = some cur → cur ∈ W) (hconn : ∀ u ∈ W, ∀ v ∈ W, EConn g.getEdgeList u v) (hw : Within g.getEdgeList cap f) {B : Nat}
    (hB : ∀ e ∈ g.getEdgeList, cap e ≤ B) (ix : Idx N) {fuel : Nat} (h1 : g.getNodeList.length < fuel)
    (h2 : (g.getEdgeList.length + 1) * (B + 1) ≤ fuel) :
    ∃ t f' ix', findTree g f ix fuel = .ok (t, f', ix') ∧ STree g W t ∧ AtBound g t cap f' ∧ Within g.getEdgeList cap f' ∧
      (∀ x, net g.getEdgeList f' x = net g.getEdgeList f x) := by
  obtain ⟨t, f', ix', h3, h4, h5, h6, h7⟩ := findTree_forest hn hne hw hB ix h1 h2
  obtain ⟨cur, rest, hl⟩ := List.exists_cons_of_ne_nil hne
  have hcur : cur ∈ W := hhead cur (by rw [hl]; rfl)
  have hall : ∀ v ∈ W, EConn t.getEdgeList cur v := fun v hv => h6 cur (by rw [hl]; rfl) v (hconn cur hcur v hv)
  exact ⟨t, f', ix', h3, ⟨hW, h4, h5, fun u hu v hv => (hall u hu).symm.trans (hall v hv)⟩, h7⟩

/-! ## The main loop -/

/-- what holds before every test of the main loop -/
structure Inv (g : Graph N) (W : List N) (cap cost : N × N → Int) (root : N) (st : SState N) : Prop where
  tree : STree g W st.t
  within : Within g.getEdgeList cap st.f
  bound : AtBound g st.t cap st.f
  index : ∃ seq, Good st.t.getEdgeList W root seq st.ix
  pots : ∃ p, PotOK g st.t cost st.pi p
  all : st.pi root = some 0 ∧ ∀ v ∈ W, ∃ q, st.pi v = some q

/-- the attributes of the tree and the copy of the tree -/
theorem redraw_tree (hn : Netw g cap cost) {W : List N} (hroot : root ∈ W) (ht : STree g W t) (f : N × N → Int) (ix : Idx N)
    {fuel : Nat} (hf : 2 * g.getNodeList.length ≤ fuel) :
    ∃ s x, stamps g f t.getEdgeList = .ok s ∧ redraw t ix s root fuel = .ok x := by
  obtain ⟨s, h1, h2⟩ := stamps_ok (f := f) hn.caps hn.costs t.getEdgeList ht.tg.sub
  have hsize := forest_size ht.nodup (List.ne_nil_of_mem hroot) (fun e he => ht.ends e (ht.tg.sub e he))
    ht.tg.built.wf.edup ht.forest ht.conn
  have hsize' : t.getEdgeList.length + 1 = W.length := hsize
  have hlen := ht.toCore.len
  obtain ⟨d, dx, r, h3, _⟩ := redraw_ok ht.tg.built.wf ht.tg.dir ix (s := s) (fun e he => ⟨_, by rw [h2, if_pos he]⟩)
    (root := root) (by rw [ht.tg.nodes]; exact ht.sub _ hroot)
    (fun e he => ht.conn root hroot _ (ht.ends e (ht.tg.sub e he)).1)
    (fuel := fuel) (by omega)
  exact ⟨s, _, h1, h3⟩

theorem setup_of_tree (hn : Netw g cap cost) {W : List N} (hroot : root ∈ W) {ix ix' : Idx N} {f' : N × N → Int} {fuel : Nat}
    (h3 : findTree g f ix fuel = .ok (t, f', ix')) (h4 : STree g W t) (h5 : AtBound g t cap f') (h6 : Within g.getEdgeList cap f')
    (pi : N → Option Int) (h1 : 2 * g.getNodeList.length ≤ fuel) :
    ∃ st, setup g root f ix pi fuel = .ok st ∧ Inv g W cap cost root st ∧ st.f = f' := by
  have hpos := List.length_pos_of_mem (h4.sub _ hroot)
  obtain ⟨ix2, pi2, p, seq, h8, h9, h10, hall⟩ := refresh_ok hn hroot (st := ⟨t, f', ix', pi⟩) h4 (fuel := fuel) (by omega)
  obtain ⟨s, x, h11, h12⟩ := redraw_tree hn hroot h4 f' ix' h1
  refine ⟨⟨t, f', ix2, pi2⟩, ?_, ⟨h4, h6, h5, ⟨seq, h9⟩, ⟨p, h10⟩, hall⟩, rfl⟩
  unfold setup
  rw [h3]
  simp only []
  rw [h11]
  simp only []
  rw [markArcs_ok hn h5 _ fun e he => he]
  simp only []
  rw [h12]
  exact h8

theorem setup_ok (hn : Netw g cap cost) {W : List N} (hW : Core g W) (hroot : root ∈ W)
    (hhead : ∀ cur, g.getNodeList.head? = some cur → cur ∈ W) (hconn : ∀ u ∈ W, ∀ v ∈ W, EConn g.getEdgeList u v) (hw : Within g.getEdgeList cap f) {B : Nat}
    (hB : ∀ e ∈ g.getEdgeList, cap e ≤ B) (ix : Idx N) (pi : N → Option Int) {fuel : Nat} (h1 : 2 * g.getNodeList.length ≤ fuel)
    (h2 : (g.getEdgeList.length + 1) * (B + 1) ≤ fuel) :
    ∃ st, setup g root f ix pi fuel = .ok st ∧ Inv g W cap cost root st ∧
      (∀ x, net g.getEdgeList st.f x = net g.getEdgeList f x) := by
  have hpos := List.length_pos_of_mem (hW.sub _ hroot)
  obtain ⟨t, f', ix', h3, h4, h5, h6, h7⟩ := findTree_ok hn (List.ne_nil_of_mem (hW.sub _ hroot)) hW hhead hconn hw hB ix
    (fuel := fuel) (by omega) h2
  obtain ⟨st, h8, h9, h10⟩ := setup_of_tree hn hroot h3 h4 h5 h6 pi h1
  exact ⟨st, h8, h9, by rw [h10]; exact h7⟩

theorem pivotStep_ok (hn : Netw g cap cost) {W : List N} (hroot : root ∈ W) {st : SState N} (h : Inv g W cap cost root st)
    {pv : Pivot} (hpv : pv ≠ .other) {fuel : Nat} (hf : 2 * g.getNodeList.length ≤ fuel) {p : N → Int}
    (hp : PotOK g st.t cost st.pi p) (hne : violL st.t cap cost st.f p g.getEdgeList ≠ []) :
    ∃ st' e, pivotStep g root pv st fuel = .ok st' ∧ Inv g W cap cost root st' ∧ PivotOK g W cap cost p st.t st.f e st'.t st'.f ∧
      e ∈ g.getEdgeList ∧ e ∉ st.t.getEdgeList ∧ redc cost p e ≠ 0 := by
  obtain ⟨e, x, h1, h2, h3, h4⟩ := entering_ok hn hp.val hpv hne
  obtain ⟨seq, hix⟩ := h.index
  obtain ⟨t', f', h5, h6⟩ := pivotOn_ok hn h.tree hix hp h.within h.bound h2 h3 h4 hf
  have hpos : 0 < g.getNodeList.length := List.length_pos_of_mem (h.tree.sub _ hroot)
  obtain ⟨ix2, pi2, p2, seq2, h8, h9, h10, hall⟩ := refresh_ok hn hroot (st := { st with t := t', f := f' }) h6.tree
    (fuel := fuel) (by omega)
  obtain ⟨s, y, h11, h12⟩ := redraw_tree hn hroot h6.tree f' st.ix hf
  refine ⟨⟨t', f', ix2, pi2⟩, e, ?_, ⟨h6.tree, h6.within, h6.bound, ⟨seq2, h9⟩, ⟨p2, h10⟩, hall⟩, h6, h2, h3, ?_⟩
  · unfold pivotStep
    rw [h1]
    simp only []
    rw [h5]
    simp only []
    rw [h11]
    simp only []
    rw [markArcs_ok hn h6.bound _ fun e he => he]
    simp only []
    rw [h12]
    exact h8
  · intro hz
    unfold viol at h4
    rw [hz] at h4
    simp at h4

/-- the main loop: no exception; at the end the flow is of least cost among the flows with the same net flows -/
theorem mainLoop_ok (hn : Netw g cap cost) {W : List N} (hroot : root ∈ W) {pv : Pivot} (hpv : pv ≠ .other) {inner : Nat}
    (hf : 2 * g.getNodeList.length ≤ inner) : ∀ (k : Nat) (st : SState N), Inv g W cap cost root st →
    mainLoop g root pv inner k st = .error .diverge ∨
    ∃ st', mainLoop g root pv inner k st = .ok st' ∧ Inv g W cap cost root st' ∧
      (∃ p, PotOK g st'.t cost st'.pi p ∧ violL st'.t cap cost st'.f p g.getEdgeList = []) ∧
      (∀ x, net g.getEdgeList st'.f x = net g.getEdgeList st.f x) ∧
      ∀ f', Within g.getEdgeList cap f' → (∀ v ∈ g.getNodeList, net g.getEdgeList f' v = net g.getEdgeList st.f v) →
        totalCost g.getEdgeList cost st'.f ≤ totalCost g.getEdgeList cost f' := by
  intro k
  induction k with
  | zero => intro st _; exact .inl rfl
  | succ k ih =>
    intro st h
    obtain ⟨p, hp⟩ := h.pots
    unfold mainLoop
    rw [optimal_ok hn hp.val _ fun e he => he]
    by_cases hv : violL st.t cap cost st.f p g.getEdgeList = []
    · rw [hv]
      right
      exact ⟨st, rfl, h, ⟨p, hp, hv⟩, fun _ => rfl, fun f' hf' hnet =>
        optimal_sound hn h.tree.tg hp h.within h.bound hv hf' fun v hv' => (hnet v hv').symm⟩
    · have hb : (violL st.t cap cost st.f p g.getEdgeList).isEmpty = false := by simpa using hv
      rw [hb]
      simp only []
      obtain ⟨st', e, h1, h2, h3, _⟩ := pivotStep_ok hn hroot h hpv hf hp hv
      rw [h1]
      simp only []
      rcases ih st' h2 with h4 | ⟨st2, h4, h5, h5', h6, h7⟩
      · exact .inl h4
      · right
        refine ⟨st2, h4, h5, h5', fun x => (h6 x).trans (h3.net x), fun f' hf' hnet => h7 f' hf' fun v hv' => ?_⟩
        rw [hnet v hv', h3.net v]

end Simplex
end GiMPy
