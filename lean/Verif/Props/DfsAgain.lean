import Verif.Props.Dfs

/-! # C120: `dfs` and `acyclic_shortest_path` on a graph that was searched before -/

namespace GiMPy
open Search Dfs
variable {N : Type} [DecidableEq N] {g : Graph N}

/-- there is a walk from `u` to `v` all of whose nodes after the first are without discovery time -/
def FreeReach (g : Graph N) (disc : N → Option Int) : N → N → Prop :=
  Relation.ReflTransGen fun a b => Step g false a b ∧ disc b = none

namespace Dfs

theorem free_weaken {d d' : N → Option Int} (h : ∀ v, (d v).isSome → (d' v).isSome) {u v : N}
    (hr : FreeReach g d' u v) : FreeReach g d u v := by
  refine Relation.ReflTransGen.mono (fun a b hab => ⟨hab.1, ?_⟩) _ _ hr
  cases hd : d b with
  | none => rfl
  | some x =>
    have := h b (by simp [hd])
    rw [hab.2] at this
    cases this

/-- what is newly discovered was reached through undiscovered nodes -/
def FreeOK (g : Graph N) (r : N) (st st' : DState N) : Prop :=
  ∀ v, st.disc v = none → (st'.disc v).isSome → FreeReach g st.disc r v

theorem dfsFor_free {component : Option Int} {rec : N → DState N → Int → Int → Res N}
    (hc : ∀ r st dc fc st' dc' fc', st.disc r = none → rec r st dc fc = .ok (st', dc', fc') → CompOK component st st')
    (h : ∀ r st dc fc st' dc' fc', st.disc r = none → rec r st dc fc = .ok (st', dc', fc') → FreeOK g r st st') (root : N)
    (l : List N) (st : DState N) (dc fc : Int) {st' : DState N} {dc' fc' : Int}
    (he : dfsFor rec root l st dc fc = .ok (st', dc', fc')) :
    ∀ v, st.disc v = none → (st'.disc v).isSome → ∃ i ∈ l, st.disc i = none ∧ FreeReach g st.disc i v := by
  induction l generalizing st dc fc with
  | nil => cases he; intro v h1 h2; rw [h1] at h2; cases h2
  | cons i l ih =>
    rw [dfsFor] at he
    split at he
    · next hd =>
      split at he
      · cases he
      · next st1 dc1 fc1 h1 =>
        intro v h2 h3
        cases h4 : st1.disc v with
        | some x => exact ⟨i, by simp, hd, h i { st with pred := st.pred.set i root } dc fc st1 dc1 fc1 hd h1 v h2 (by simp [h4])⟩
        | none =>
          obtain ⟨j, hj, h5, h6⟩ := ih st1 dc1 fc1 he v h4 h3
          have hm : ∀ v, (st.disc v).isSome → (st1.disc v).isSome :=
            (hc i { st with pred := st.pred.set i root } dc fc st1 dc1 fc1 hd h1).1
          refine ⟨j, by simp [hj], ?_, free_weaken hm h6⟩
          cases h7 : st.disc j with
          | none => rfl
          | some x => have := hm j (by simp [h7]); rw [h5] at this; cases this
    · intro v h2 h3
      obtain ⟨j, hj, h5, h6⟩ := ih st dc fc he v h2 h3
      exact ⟨j, by simp [hj], h5, h6⟩

theorem dfs_free (hw : g.Wf) (component : Option Int) (f : Nat) :
    ∀ (r : N) (st : DState N) (dc fc : Int) (st' : DState N) (dc' fc' : Int),
    st.disc r = none → dfs g component f r st dc fc = .ok (st', dc', fc') → FreeOK g r st st' := by
  induction f with
  | zero => intro r st dc fc st' dc' fc' _ h; cases h
  | succ f ih =>
    intro r st dc fc st' dc' fc' hd h
    rw [dfs] at h
    split at h
    · cases h
    · next hn =>
      split at h
      · cases h
      · split at h
        · cases h
        · next l hl =>
          split at h
          · cases h
          · next st1 dc1 fc1 h1 =>
            cases h
            intro v h2 h3
            by_cases hv : v = r
            · subst hv; exact .refl
            have e2 : ∀ x, (enter component r st dc).disc x = upd st.disc r (some (dc + 1)) x := fun _ => rfl
            have hm : ∀ x, (st.disc x).isSome → ((enter component r st dc).disc x).isSome := by
              intro x hx
              rw [e2]
              by_cases hx' : x = r
              · subst hx'; simp
              · rw [upd_ne _ _ hx']; exact hx
            obtain ⟨i, hi, h4, h5⟩ := dfsFor_free (fun r st dc fc st' dc' fc' => dfs_comp component f r st dc fc st' dc' fc')
              ih r l _ _ _ h1 v (by rw [e2, upd_ne _ _ hv]; exact h2) h3
            have hr : r ∈ g.getNodeList := by
              simp only [Decidable.not_not] at hn
              unfold Graph.hasNode at hn
              rw [Dict.contains_iff, hw.nodesEq] at hn
              exact hn
            obtain ⟨l', hl', hmem⟩ := nbrs_ok hw false hr
            have hl' : g.getNeighbors r = .ok l' := by simpa [nbrs] using hl'
            rw [hl] at hl'
            cases hl'
            refine .head ⟨(hmem i).1 hi, ?_⟩ (free_weaken hm h5)
            cases h7 : st.disc i with
            | none => rfl
            | some x => have := hm i (by simp [h7]); rw [h4] at this; cases this

/-- the discovery time of the root itself does not matter -/
theorem dfs_root (component : Option Int) (f : Nat) (r : N) (st : DState N) (x : Option Int) (dc fc : Int) :
    dfs g component f r st dc fc = dfs g component f r { st with disc := upd st.disc r x } dc fc := by
  cases f with
  | zero => rfl
  | succ f =>
    have : enter component r st dc = enter component r { st with disc := upd st.disc r x } dc := by
      unfold enter
      congr 1
      funext v
      by_cases h : v = r
      · subst h; simp
      · simp only [upd_ne _ _ h]
    rw [dfs, dfs, ← this]

theorem free_root {d : N → Option Int} {r v : N} : FreeReach g (upd d r none) r v ↔ FreeReach g d r v := by
  constructor
  · intro h
    induction h with
    | refl => exact .refl
    | @tail b c _ hs ih =>
      by_cases hc : c = r
      · subst hc; exact .refl
      · exact ih.tail ⟨hs.1, by rw [upd_ne _ _ hc] at hs; exact hs.2⟩
  · intro h
    refine Relation.ReflTransGen.mono (fun a b hab => ⟨hab.1, ?_⟩) _ _ h
    by_cases hb : b = r
    · subst hb; simp
    · rw [upd_ne _ _ hb]; exact hab.2

end Dfs

/-- **C120 (partial).** `dfs(root)` on a graph in any state: it visits exactly the nodes to which there is a walk from `root`
through nodes that have no discovery time yet (`root` itself is always visited); these get discovery and finish times
1..k without repetition and the component passed, `(k, k+1)` is returned, and the other nodes keep what they had.
Missing from the full claim: that all reachable nodes are visited, which is false, see `C120_false`. -/
theorem C120_dfs_any_state_partial (hg : Built g) (comp : Option Int) {root : N} (hr : root ∈ g.getNodeList) (st : DState N)
    (hpred : st.pred = .empty) {fuel : Nat} (hf : g.getNodeList.length ≤ fuel) :
    ∃ (st' : DState N) (k : Nat) (L : List N), dfs g comp fuel root st 0 1 = .ok (st', k, k + 1) ∧
      L.Nodup ∧ (∀ v, v ∈ L ↔ FreeReach g st.disc root v) ∧ L.length = k ∧ st'.order = L ++ st.order ∧
      (L.map st'.disc).Perm ((List.range k).map fun i : Nat => some (1 + (i : Int))) ∧
      (L.map st'.fin).Perm ((List.range k).map fun i : Nat => some (1 + (i : Int))) ∧
      (∀ v ∈ L, st'.comp v = comp) ∧
      (∀ v, v ∉ L → st'.disc v = st.disc v ∧ st'.fin v = st.fin v ∧ st'.comp v = st.comp v) := by
  rw [dfs_root comp fuel root st none]
  set s0 : DState N := { st with disc := upd st.disc root none } with hs0
  have hd0 : s0.disc root = none := by simp [hs0]
  have hne : ∀ v, v ≠ root → s0.disc v = st.disc v := fun v hv => upd_ne _ _ hv
  obtain ⟨st', dc', fc', L, M, h1, h2, h3, h4, h5⟩ := dfs_ok hg.wf comp fuel root s0 0 1 hr hd0
    (le_trans (List.length_filter_le _ _) hf) (by intro v p hv; rw [show s0.pred = .empty from hpred] at hv; cases hv)
  have hcomp := (dfs_comp comp fuel root s0 0 1 st' dc' fc' hd0 h1).2
  have hmem : ∀ v, v ∈ L ↔ FreeReach g st.disc root v := by
    intro v
    rw [← free_root]
    constructor
    · intro hv
      exact dfs_free hg.wf comp fuel root s0 0 1 st' dc' fc' hd0 h1 v (h2.fresh v hv) ((h2.some v).2 (.inr hv))
    · intro hv
      induction hv with
      | refl => exact h3
      | tail _ hs ih =>
        rcases (h2.some _).1 (h2.closed _ _ ih hs.1) with h | h
        · rw [show s0.disc _ = none from hs.2] at h; cases h
        · exact h
  refine ⟨st', L.length, L, ?_, h2.nodup, hmem, rfl, h2.ord, ?_, ?_, ?_, ?_⟩
  · rw [h1, h2.dcount, h2.fcount, Int.zero_add, Int.add_comm]
  · rw [← ticks_eq_range, ← show ticks (0 + 1) L.length = ticks 1 L.length from rfl, ← h2.dtimes]
    exact (h2.perm.map _).symm
  · rw [← ticks_eq_range, ← h2.ftimes]
    exact (List.reverse_perm L).symm.map _
  · intro v hv
    rw [hcomp, if_pos ⟨h2.fresh v hv, (h2.some v).2 (.inr hv)⟩]
  · intro v hv
    have hvr : v ≠ root := by rintro rfl; exact hv h3
    have hd : st'.disc v = s0.disc v := h2.dkeep v hv
    refine ⟨by rw [hd, hne v hvr], h2.fkeep v hv, ?_⟩
    rw [hcomp, if_neg]
    rintro ⟨a, b⟩
    rw [hd, a] at b
    cases b

/-- **C120 is false**: after `dfs(root)` on a graph without discovery times, a second `dfs` from any node `r` that the first one
reached visits `r` alone and returns (1, 2), whatever can be reached from `r`. -/
theorem C120_false (hg : Built g) (comp comp' : Option Int) {root r : N} (hr : root ∈ g.getNodeList) (hreach : Reach g false root r)
    (st : DState N) (hfresh : ∀ v, st.disc v = none) (hpred : st.pred = .empty) {fuel : Nat} (hf : g.getNodeList.length ≤ fuel) :
    ∃ st1 dc fc st2, dfs g comp fuel root st 0 1 = .ok (st1, dc, fc) ∧
      dfs g comp' fuel r { st1 with pred := .empty, order := [] } 0 1 = .ok (st2, 1, 2) ∧ st2.order = [r] ∧
      ∀ v ≠ r, st2.disc v = st1.disc v ∧ st2.fin v = st1.fin v ∧ st2.comp v = st1.comp v := by
  obtain ⟨st1, dc, fc, L, M, h1, h2, h3, _⟩ := dfs_fresh hg.wf comp hr hfresh hpred hf 0 1
  obtain ⟨st2, k, L2, e1, e2, e3, e4, e5, _, _, _, e9⟩ := C120_dfs_any_state_partial hg comp' (root := r)
    (reach_node hg.wf hreach hr) { st1 with pred := .empty, order := [] } rfl hf
  have hL2 : ∀ v, v ∈ L2 ↔ v = r := by
    intro v
    rw [e3]
    constructor
    · intro h
      have key : ∀ x, FreeReach g st1.disc r x → x = r := by
        intro x hx
        induction hx with
        | refl => rfl
        | tail _ hs ih =>
          subst ih
          have := h2.closed _ _ ((h3 _).2 hreach) hs.1
          rw [hs.2] at this
          cases this
      exact key v h
    · rintro rfl; exact .refl
  have hL : L2 = [r] := List.perm_singleton.1
    ((List.perm_ext_iff_of_nodup e2 (List.nodup_singleton r)).2 fun v => by rw [hL2]; simp)
  subst hL
  subst e4
  refine ⟨st1, dc, fc, st2, h1, e1, by simpa using e5, fun v hv => e9 v (by simpa using hv)⟩

namespace Dfs

theorem acFor_total {m : N} (l : List N) (hc : ∀ n ∈ l, ∃ c, g.getEdgeCost m n = .ok c) (a : AState N)
    (hm : ∃ d, a.dist.get? m = some d) : ∃ a', acFor g m l a = .ok a' := by
  induction l generalizing a with
  | nil => exact ⟨a, rfl⟩
  | cons n l ih =>
    obtain ⟨d, hd⟩ := hm
    obtain ⟨c, hcc⟩ := hc n (by simp)
    rw [acFor, hd]
    simp only [hcc]
    have ih := fun a => ih (fun n hn => hc n (by simp [hn])) a
    split
    · refine ih _ ?_
      by_cases hnm : n = m
      · subst hnm; exact ⟨_, Dict.get?_set_self _ _ _⟩
      · exact ⟨d, by rw [Dict.get?_set_ne _ _ hnm]; exact hd⟩
    · exact ih a ⟨d, hd⟩

end Dfs

/-- **C120 is false** for `acyclic_shortest_path` as well: let all nodes, at least two, be reachable from the source in an acyclic
digraph whose edges have costs.  After one call of it, for any destination, a second call raises IndexError, for every destination other than
the source and without destination. -/
theorem C120_false_acyclic (hg : Built g) (hd : g.directed = true) {w : N → N → Int}
    (hw : ∀ u v, g.checkEdge u v = true → g.getEdgeCost u v = .ok (w u v))
    (hacyc : ∀ u, ¬ Relation.TransGen (Step g false) u u) {src : N} (hsrc : src ∈ g.getNodeList)
    (hall : ∀ v ∈ g.getNodeList, Reach g false src v) (htwo : 2 ≤ g.getNodeList.length) (st : DState N)
    (hfresh : ∀ v, st.disc v = none) {fuel : Nat} (hf : g.getNodeList.length ≤ fuel) {dest dest' : Option N}
    {res : SearchRes N} {st1 : DState N} (h : acyclicShortestPath g src dest st fuel = .ok (res, st1)) (hdest : dest' ≠ some src) :
    acyclicShortestPath g src dest' st1 fuel = .error .indexError := by
  have hns : ∀ p, ¬ Step g false p src := by
    intro p hp
    exact hacyc p (.head' hp (hall p (step_node hg.wf hp).1))
  obtain ⟨s1, dc, fc, s2, a1, a2, a3, _⟩ := C120_false hg none none hsrc (r := src) .refl { st with pred := .empty, order := [] }
    hfresh rfl hf
  have hs : s1 = st1 := by
    unfold acyclicShortestPath at h
    rw [a1] at h
    simp only [] at h
    split at h
    · cases h
    · split at h
      · cases h
      · split at h
        · cases h
        · cases h; rfl
    · cases h; rfl
  subst hs
  unfold acyclicShortestPath
  rw [a2]
  simp only [a3]
  obtain ⟨k, hk⟩ : ∃ k, g.getNodeList.length = k + 2 := ⟨g.getNodeList.length - 2, by omega⟩
  rw [hk]
  obtain ⟨inl, i1, i2⟩ := nbrs_ok hg.wf true hsrc
  have i1 : g.getInNeighbors src = .ok inl := by simpa [nbrs, hd] using i1
  have hin : inl = [] := by
    cases inl with
    | nil => rfl
    | cons p l => exact absurd ((i2 p).1 (by simp)) (by
        intro hp
        exact hns p (by
          have : Step g true src p := hp
          simpa [Step, hd] using this))
  obtain ⟨outl, o1, o2⟩ := nbrs_ok hg.wf false hsrc
  have o1 : g.getNeighbors src = .ok outl := by simpa [nbrs] using o1
  subst hin
  have hloop : acLoop g dest' (k + 2) [src] ⟨.empty, .empty⟩ = .error .indexError := by
    rw [acLoop, if_neg hdest, i1]
    simp only [List.length_nil, if_true, o1]
    obtain ⟨a', ha'⟩ := acFor_total (g := g) (m := src) outl (fun n hn => ⟨_, hw src n (by simpa [Step] using (o2 n).1 hn)⟩)
      ⟨(Dict.empty : Dict N Int).set src 0, .empty⟩ ⟨0, Dict.get?_set_self _ _ _⟩
    rw [ha']
    rfl
  rw [hloop]

/-- non-vacuity of C120: the searches of C17 and C19, called twice -/
example : (match dfs exDag none 5 0 exD 0 1 with
      | .ok (st, _, _) => timesOf exDag.getNodeList (dfs exDag none 5 1 { st with pred := .empty, order := [] } 0 1)
      | .error _ => none) = some ([some 1, some 1, some 3, some 4], [some 4, some 1, some 2, some 1], [1], 1, 2) ∧
    (match acyclicShortestPath exDag 0 (some 3) exD 5 with
      | .ok (_, st) => (match acyclicShortestPath exDag 0 (some 3) st 5 with
        | .error e => e == .indexError
        | .ok _ => false)
      | .error _ => false) = true ∧ 2 ≤ exDag.getNodeList.length := by decide

end GiMPy
