import Verif.Lemmas.SearchUnit
import Verif.Props.Search

/-! # C70-C72: search with a priority queue, search against the arcs -/

namespace GiMPy
open Search
variable {N : Type} [DecidableEq N] {Q : Type}
variable {g : Graph N} {O : QOps N Q} {items : Q → List N}

/-- **C70.** `search(algo='BFS' or 'UnweightedSPT', q=PriorityQueue())`: whatever the tie-breaking, and also with self
loops, every reachable node gets as `distance` and `priority` the least number of edges of a walk from the source, the
other nodes get None, and the path returned to a destination is a shortest one; None is returned exactly when there is no
path. -/
theorem C70_bfs_pq (hg : Built g) (hp : LawfulPQ O items) {algo : Algo} (ha : algo = .bfs ∨ algo = .unweightedSPT)
    (rev : Bool) (comp : Option Int) {src : N} (hsrc : src ∈ g.getNodeList) (col : SState N Q) (hq : items col.q = [])
    {fuel : Nat} (hfu : fuelBound g rev ≤ fuel) :
    (∃ pred st, search g O algo rev comp none src col fuel = .ok (.pred pred, st) ∧
      (∀ v, (v = src ∨ v ∈ pred.keys) ↔ Reach g rev src v) ∧
      (∀ v ∈ pred.keys, LeadsTo pred src v) ∧
      ∀ v, (Reach g rev src v → ∃ k : Nat, st.dist v = some (k : Int) ∧ IsLeastLen (Step g rev) src v k) ∧
        (¬ Reach g rev src v → st.dist v = none)) ∧
    (∀ dst, Reach g rev src dst → ∃ l st k, search g O algo rev comp (some dst) src col fuel = .ok (.path l, st) ∧
      IsPath (Step g rev) src dst l ∧ l.length = k + 1 ∧ IsLeastLen (Step g rev) src dst k) ∧
    (∀ dst, ¬ Reach g rev src dst → ∃ st, search g O algo rev comp (some dst) src col fuel = .ok (.none, st)) := by
  have I := inv_unit (g := g) (rev := rev) (src := src) hp ha comp col.comp
  have hA0 : AUnit g rev O items src comp col.comp (start O algo comp src col) := aunit_start hp ha hsrc comp col hq
  refine ⟨?_, ?_, ?_⟩
  · obtain ⟨st, t, h1, h2, h3, h4⟩ := search_none_ok hg.wf hp.toLawfulBag I hsrc col hq hA0 hfu
    refine ⟨st.pred, st, h1, D_iff_reach h2 h4, ?_, fun v => ⟨fun hr => ?_, fun hr => ?_⟩⟩
    · intro v hv
      obtain ⟨k, _, hk⟩ := h2.chain trivial v (.inr hv)
      exact leadsTo_of_pc hk
    · have hD := (D_iff_reach h2 h4 v).2 hr
      obtain ⟨d, hd⟩ := Option.isSome_iff_exists.1 ((h3.dist v).2 hD)
      obtain ⟨k, rfl, hk⟩ := h3.walk v d hd
      refine ⟨k, hd, hk, ?_⟩
      intro x hx
      rcases unit_bound h2 h3 hx with ⟨_, h5⟩ | ⟨y, hy, _⟩
      · simp only [dv, hd, Option.getD_some] at h5; omega
      · rw [h4] at hy; cases hy
    · have hD : ¬ D src st v := fun h => hr ((D_iff_reach h2 h4 v).1 h)
      have := (h3.dist v).not.2 hD
      simpa using this
  · intro dst hr
    by_cases hd : dst = src
    · subst hd
      exact ⟨[dst], _, 0, search_self hg.wf hsrc algo comp col (by unfold fuelBound at hfu; omega),
        ⟨rfl, rfl, by simp⟩, rfl, .nil, fun x _ => Nat.zero_le x⟩
    · rcases search_some_ok hg.wf hp.toLawfulBag I hsrc trivial col hq hA0 hfu hd with
        ⟨st, t, _, _, _, _, h2⟩ | ⟨st0, st, t, k, l, h1, hB, hA, hpk, hI, _, _, _, hpc, _, h3, h4⟩
      · exact absurd hr h2
      · obtain ⟨m, hm, hwm⟩ := walkLen_of_path h3
        have hmin : ∀ x, WalkLen (Step g rev) src x dst → k ≤ x := by
          intro x hx
          have hk := unit_chain_len hA hpc
          rcases unit_bound hB hA hx with ⟨_, h5⟩ | ⟨y, hy, h5⟩
          · omega
          · have h6 := peek_le hp hpk hI y hy
            unfold qv at h6
            rw [hA.pri _ hI, hA.pri _ hy] at h6
            have h7 : dv st0 dst ≤ dv st0 y := h6
            omega
        have : m = k := by have := hmin m hwm; omega
        subst this
        exact ⟨l, st, m, h1, h3, hm, hwm, hmin⟩
  · intro dst hr
    have hd : dst ≠ src := by rintro rfl; exact hr .refl
    rcases search_some_ok hg.wf hp.toLawfulBag I hsrc trivial col hq hA0 hfu hd with
      ⟨st, t, h1, _⟩ | ⟨_, _, _, _, _, _, _, _, _, _, _, _, h, _⟩
    · exact ⟨st, h1⟩
    · exact absurd h hr

/-- digraph with a self loop, two routes of different length and an unreachable part -/
def exL : Graph Nat := runOps (Graph.init true) [Op.addEdge 0 0 [], .addEdge 0 1 [], .addEdge 1 2 [], .addEdge 2 3 [],
  .addEdge 1 3 [], .addEdge 3 3 [], .addEdge 7 8 []]

/-- non-vacuity of C70 -/
example : Built exL ∧ LawfulPQ (pqOps' : QOps Nat (PQ Nat)) (fun d => d.1.keys) ∧ fuelBound exL false ≤ 20 ∧
    pathOf (search exL pqOps' .bfs false none (some 3) 0 (exCol ⟨.empty, by decide⟩) 20) = some [0, 1, 3] ∧
    pathOf (search exL pqOps' .bfs false none (some 8) 0 (exCol ⟨.empty, by decide⟩) 20) = none :=
  ⟨⟨true, _, by intro op _; cases op <;> simp [Op.InScope], rfl⟩, pq_lawful, by decide, by decide, by decide⟩

/-! ## depth first search over a priority queue -/

/-- what `process_edge_search` does for `algo='DFS'` and a priority queue -/
theorem processEdge_dfs_pq (hO : O.isPQ = true) (comp : Option Int) (st : SState N Q) (c n : N) :
    processEdge g O .dfs comp st c n = match st.dist c with
      | none => .error .typeError
      | some d =>
        if (match O.getPriority st.q n with | some p => decide (-d - 1 ≥ p) | none => false) then .ok st
        else .ok (finishEdge comp { st with q := O.pushP st.q n (-d - 1) } c n) := by
  simp only [processEdge, hO, if_true]
  rfl

/-- invariant: only the source has a distance; it is finished or alone in the queue -/
structure ADeep (g : Graph N) (rev : Bool) (items : Q → List N) (src : N) (st : SState N Q) : Prop where
  dist : ∀ v, st.dist v = if v = src then some 0 else none
  items : st.color src = .green ∨ ∀ x ∈ items st.q, x = src
  near : ∀ x, D src st x → x = src ∨ Step g rev src x

/-- **C71 (what holds).** `search(algo='DFS', q=PriorityQueue())` finds exactly the reachable nodes if the nodes next to the
source lead nowhere but back to the source.  Missing from the full statement: all other graphs, see
`C71_dfs_pq_raises`. -/
theorem C71_dfs_pq_partial (hg : Built g) (hp : LawfulPQ O items) (rev : Bool) (comp : Option Int) {src : N}
    (hsrc : src ∈ g.getNodeList) (hstar : ∀ u v, Step g rev src u → u ≠ src → Step g rev u v → v = src)
    (col : SState N Q) (hq : items col.q = []) {fuel : Nat} (hf : fuelBound g rev ≤ fuel) :
    ∃ pred st, search g O .dfs rev comp none src col fuel = .ok (.pred pred, st) ∧
      (∀ v, (v = src ∨ v ∈ pred.keys) ↔ Reach g rev src v) ∧
      (∀ v p, pred.get? v = some p → Step g rev p v) := by
  have I : Inv g O items rev src False .dfs comp (ADeep g rev items src)
      (fun c _ st => ADeep g rev items src st ∨ (c = src ∧ (∀ v, st.dist v = if v = src then some 0 else none) ∧
        ∀ x, D src st x → x = src ∨ Step g rev src x)) := by
    refine ⟨?_, ?_, ?_, ?_, ?_⟩
    · intro st t c hB hA hpk hc hgr
      refine ⟨hA.dist, hA.items.imp id fun h x hx => ?_, hA.near⟩
      by_cases hx' : x = c
      · exact hx' ▸ h c hc
      · exact h x ((hp.mem_remove _ _ hc x hx').1 hx)
    · intro st t c hB hA hpk hc hgr
      by_cases hcs : c = src
      · exact .inr ⟨hcs, hA.dist, hA.near⟩
      · refine .inl ⟨hA.dist, hA.items.imp (fun h => ?_) id, hA.near⟩
        show upd st.color c .blue src = .green
        rw [upd_ne _ _ (Ne.symm hcs)]; exact h
    · intro c t len0 color0 done n st hM hA _ _
      exact hA
    · intro c t len0 color0 done n st hM hA hgr hs
      rw [processEdge_dfs_pq hp.isPQ]
      have hsrcgreen : c ≠ src → st.color src = .green := by
        intro hcs
        rcases hA with hA | hA
        · exact hA.items.resolve_right fun h => hcs (h c hM.curItem)
        · exact absurd hA.1 hcs
      have hnear : ∀ x, D src st x → x = src ∨ Step g rev src x := by
        rcases hA with hA | hA
        · exact hA.near
        · exact hA.2.2
      have hdist : ∀ v, st.dist v = if v = src then some 0 else none := by
        rcases hA with hA | hA
        · exact hA.dist
        · exact hA.2.1
      by_cases hcs : c = src
      · subst hcs
        rw [hdist, if_pos rfl]
        by_cases h : (match O.getPriority st.q n with | some p => decide (-(0 : Int) - 1 ≥ p) | none => false) = true
        · refine ⟨st, if_pos h, .inl ⟨rfl, rfl, rfl, hM.item n ?_⟩, .inr ⟨rfl, hdist, hnear⟩⟩
          cases hpn : O.getPriority st.q n with
          | none => rw [hpn] at h; simp at h
          | some p => exact (hp.prio_isSome st.q n).1 (by simp [hpn])
        · refine ⟨_, if_neg h, .inr ⟨rfl, fun y => hp.mem_pushP _ _ _ _, hp.len_pushP _ _ _, ⟨.red, by simp, rfl⟩, False.elim⟩,
            .inr ⟨rfl, hdist, ?_⟩⟩
          intro x hx
          rcases hx with h | h
          · exact .inl h
          · replace h : x ∈ (st.pred.set n c).keys := h
            rw [Dict.mem_keys_set] at h
            rcases h with rfl | h
            · exact .inr hs
            · exact hnear x (.inr h)
      · exfalso
        have h1 := (hnear c (hM.item c hM.curItem)).resolve_left hcs
        have h2 := hstar c n h1 hcs hs
        subst h2
        exact hgr (hsrcgreen hcs)
    · intro c t len0 color0 done st hM hA hdone
      rcases hA with hA | ⟨rfl, h1, h2⟩
      · refine ⟨hA.dist, ?_, hA.near⟩
        rcases hA.items with h | h
        · left
          show upd st.color c .green src = .green
          by_cases hcs : src = c
          · subst hcs; simp
          · rw [upd_ne _ _ hcs]; exact h
        · left
          show upd st.color c .green src = .green
          rw [h c hM.curItem]; simp
      · refine ⟨h1, .inl ?_, h2⟩
        show upd st.color c .green c = .green
        simp
  obtain ⟨h1, hc, _⟩ := start_fields (O := O) (src := src) .dfs comp col
  obtain ⟨_, hit, _⟩ := base_start (g := g) (rev := rev) (NS := True) hp.toLawfulBag hsrc .dfs comp col hq
  have hA0 : ADeep g rev items src (start O .dfs comp src col) := by
    refine ⟨fun v => rfl, .inr fun x hx => (hit x).1 hx, ?_⟩
    intro x hx
    rcases hx with h | h
    · exact .inl h
    · rw [h1] at h; simp [Dict.empty, Dict.keys] at h
  obtain ⟨st, t, h1, h2, _, h4⟩ := search_none_ok hg.wf hp.toLawfulBag I hsrc col hq hA0 hf
  exact ⟨st.pred, st, h1, D_iff_reach h2 h4, fun v p hv => (h2.link v p hv).1⟩

/-- non-vacuity of `C71_dfs_pq_partial`: a star whose leaves have arcs back -/
example : predOf (search (runOps (Graph.init true) [Op.addEdge 0 1 [], .addEdge 0 2 [], .addEdge 1 0 []]) pqOps' .dfs false
    none none 0 (exCol ⟨.empty, by decide⟩) 20) = some [(1, 0), (2, 0)] := by decide

/-- a node without distance: the loop over its neighbours raises TypeError at the first one that is not finished -/
theorem forNbrs_no_dist (hO : O.isPQ = true) {rev : Bool} (comp : Option Int) {c : N} {st : SState N Q} (hd : st.dist c = none)
    (l : List N) (hl : ∀ n ∈ l, Step g rev c n) :
    ((∀ n ∈ l, st.color n = .green) ∧ forNbrs g O .dfs rev comp c l st = .ok st) ∨
    ((∃ n ∈ l, st.color n ≠ .green) ∧ forNbrs g O .dfs rev comp c l st = .error .typeError) := by
  induction l with
  | nil => exact .inl ⟨by simp, rfl⟩
  | cons n l ih =>
    rw [forNbrs]
    by_cases h : st.color n = .green
    · rw [if_pos h]
      rcases ih fun m hm => hl m (by simp [hm]) with ⟨h1, h2⟩ | ⟨⟨m, h1, h2⟩, h3⟩
      · exact .inl ⟨by simpa [h] using h1, h2⟩
      · exact .inr ⟨⟨m, by simp [h1], h2⟩, h3⟩
    · rw [if_neg h, touch_ok (hl n (by simp)), processEdge_dfs_pq hO, hd]
      exact .inr ⟨⟨n, by simp, h⟩, rfl⟩

/-- state after the visit of the source -/
structure ARaise (g : Graph N) (rev : Bool) (items : Q → List N) (src u : N) (st : SState N Q) : Prop where
  dist : ∀ v, v ≠ src → st.dist v = none
  green : ∀ v, st.color v = .green → v = src ∨ Step g rev src v
  ng : ∀ v ∈ items st.q, v ≠ src ∧ Step g rev src v ∧ st.color v ≠ .green ∧ st.pred.get? v = some src
  u : u ∈ items st.q

theorem loop_raises (hw : g.Wf) (hp : LawfulPQ O items) {rev : Bool} (comp : Option Int) {src u w : N} {dest : Option N}
    (hdest : ∀ d, dest = some d → ¬ Step g rev src d) (huw : Step g rev u w) (hws : w ≠ src) (hw2 : ¬ Step g rev src w)
    (fuel : Nat) (st : SState N Q) (h : ARaise g rev items src u st) (hf : (items st.q).length < fuel) :
    loop g O .dfs rev comp dest src fuel st = .error .typeError := by
  induction fuel generalizing st with
  | zero => omega
  | succ f ih =>
    have hne : items st.q ≠ [] := List.ne_nil_of_mem h.u
    obtain ⟨c, hc, hpk⟩ := hp.peek_mem st.q hne
    obtain ⟨c1, c2, c3, c4⟩ := h.ng c hc
    rw [loop, if_neg (fun he => hne ((hp.isEmpty_iff _).1 he)), hpk]
    simp only []
    rw [if_neg c3]
    have hent : enter g O rev src st c = .ok
        { st with prio := upd st.prio c (O.getPriority st.q c), color := upd st.color c .blue } := by
      unfold enter
      simp only [hp.isPQ, if_true, if_neg c1, c4, touch_ok c2]
    rw [hent]
    simp only []
    rw [if_neg (fun hd => hdest c hd c2)]
    obtain ⟨l, hl, hmem⟩ := nbrs_ok hw rev (step_node hw c2).2
    unfold visit
    rw [hl]
    simp only []
    rcases forNbrs_no_dist (g := g) hp.isPQ (rev := rev) comp (c := c)
      (st := { st with prio := upd st.prio c (O.getPriority st.q c), color := upd st.color c .blue })
      (h.dist c c1) l (fun n hn => (hmem n).1 hn) with ⟨h1, h2⟩ | ⟨_, h2⟩
    · rw [h2]
      simp only []
      refine ih _ ⟨h.dist, ?_, ?_, ?_⟩ ?_
      · intro v hv
        by_cases hvc : v = c
        · exact .inr (hvc ▸ c2)
        · replace hv : upd (upd st.color c .blue) c .green v = .green := hv
          rw [upd_ne _ _ hvc, upd_ne _ _ hvc] at hv
          exact h.green v hv
      · intro v hv
        have hv := (mem_remove_iff hp hc v).1 hv
        obtain ⟨a1, a2, a3, a4⟩ := h.ng v hv.2
        refine ⟨a1, a2, ?_, a4⟩
        show upd (upd st.color c .blue) c .green v ≠ .green
        rw [upd_ne _ _ hv.1, upd_ne _ _ hv.1]
        exact a3
      · refine (mem_remove_iff hp hc u).2 ⟨?_, h.u⟩
        rintro rfl
        have h3 := h1 w ((hmem w).2 huw)
        by_cases hwu : w = u
        · subst hwu; exact hw2 c2
        · replace h3 : upd st.color u .blue w = .green := h3
          rw [upd_ne _ _ hwu] at h3
          exact (h.green w h3).elim hws hw2
      · show (items (O.remove st.q c)).length < f
        have := hp.len_remove st.q c hc
        omega
    · rw [h2]

/-- the loop over the neighbours of the source -/
theorem forNbrs_src (hp : LawfulPQ O items) {rev : Bool} (comp : Option Int) {src : N} (l : List N)
    (hl : ∀ n ∈ l, Step g rev src n) (st : SState N Q) (hd : ∀ v, st.dist v = if v = src then some 0 else none)
    (hc : ∀ v, st.color v ≠ .green) (hpred : ∀ v ∈ items st.q, v ≠ src → st.pred.get? v = some src) :
    ∃ st', forNbrs g O .dfs rev comp src l st = .ok st' ∧ (∀ v, st'.dist v = if v = src then some 0 else none) ∧
      (∀ v, st'.color v ≠ .green) ∧ (∀ v ∈ items st'.q, v ≠ src → st'.pred.get? v = some src) ∧
      (∀ y, y ∈ items st'.q ↔ y ∈ l ∨ y ∈ items st.q) ∧ (items st'.q).length ≤ (items st.q).length + l.length := by
  induction l generalizing st with
  | nil => exact ⟨st, rfl, hd, hc, hpred, by simp, by simp⟩
  | cons n l ih =>
    have hs := hl n (by simp)
    rw [forNbrs, if_neg (hc n), touch_ok hs, processEdge_dfs_pq hp.isPQ, hd, if_pos rfl]
    by_cases h : (match O.getPriority st.q n with | some p => decide (-(0 : Int) - 1 ≥ p) | none => false) = true
    · have e : (if (match O.getPriority st.q n with | some p => decide (-(0 : Int) - 1 ≥ p) | none => false) = true
          then Except.ok st else .ok (finishEdge comp { st with q := O.pushP st.q n (-0 - 1) } src n)) =
          (Except.ok st : Except PyErr (SState N Q)) := if_pos h
      simp only [e]
      have hn : n ∈ items st.q := by
        cases hpn : O.getPriority st.q n with
        | none => rw [hpn] at h; simp at h
        | some p => exact (hp.prio_isSome st.q n).1 (by simp [hpn])
      obtain ⟨st', h1, h2, h3, h4, h5, h6⟩ := ih (fun m hm => hl m (by simp [hm])) st hd hc hpred
      refine ⟨st', h1, h2, h3, h4, fun y => ?_, by simp only [List.length_cons]; omega⟩
      rw [h5, List.mem_cons]
      constructor
      · rintro (h | h) <;> simp [h]
      · rintro ((rfl | h) | h) <;> simp [*]
    · have e : (if (match O.getPriority st.q n with | some p => decide (-(0 : Int) - 1 ≥ p) | none => false) = true
          then Except.ok st else .ok (finishEdge comp { st with q := O.pushP st.q n (-0 - 1) } src n)) =
          (Except.ok (finishEdge comp { st with q := O.pushP st.q n (-0 - 1) } src n) : Except PyErr (SState N Q)) := if_neg h
      simp only [e]
      obtain ⟨st', h1, h2, h3, h4, h5, h6⟩ := ih (fun m hm => hl m (by simp [hm]))
        (finishEdge comp { st with q := O.pushP st.q n (-0 - 1) } src n) hd (by
          intro v
          show upd st.color n .red v ≠ .green
          by_cases hv : v = n
          · subst hv; simp
          · rw [upd_ne _ _ hv]; exact hc v) (by
          intro v hv hvs
          show (st.pred.set n src).get? v = some src
          rw [Dict.get?_set]
          split
          · rfl
          · next hvn => exact hpred v (((hp.mem_pushP _ _ _ _).1 hv).resolve_left (Ne.symm hvn)) hvs)
      refine ⟨st', h1, h2, h3, h4, fun y => ?_, ?_⟩
      · rw [h5]
        show _ ∨ y ∈ items (O.pushP st.q n (-0 - 1)) ↔ _
        rw [hp.mem_pushP, List.mem_cons]
        constructor
        · rintro (h | h | h) <;> simp [h]
        · rintro ((h | h) | h) <;> simp [h]
      · have := hp.len_pushP st.q n (-0 - 1)
        replace h6 : (items st'.q).length ≤ (items (O.pushP st.q n (-0 - 1))).length + l.length := h6
        simp only [List.length_cons]
        omega

/-- **C71 is false of the code**: as soon as there is a node two edges away from the source, `search(algo='DFS',
q=PriorityQueue())` raises TypeError, whatever the priority queue, without a destination and for every destination that is
not next to the source (nodes found get a `depth` but no `distance`, and None cannot be negated). -/
theorem C71_dfs_pq_raises (hg : Built g) (hp : LawfulPQ O items) (rev : Bool) (comp : Option Int) {src v : N}
    (hsrc : src ∈ g.getNodeList) (hv : IsLeastLen (Step g rev) src v 2) (dest : Option N)
    (hdest : ∀ d, dest = some d → d ≠ src ∧ ¬ Step g rev src d) (col : SState N Q) (hq : items col.q = []) {fuel : Nat}
    (hf : fuelBound g rev ≤ fuel) :
    search g O .dfs rev comp dest src col fuel = .error .typeError := by
  obtain ⟨u, hsu, huv, hus, hvs, hsv⟩ : ∃ u, Step g rev src u ∧ Step g rev u v ∧ u ≠ src ∧ v ≠ src ∧ ¬ Step g rev src v := by
    obtain ⟨h1, h2⟩ := hv
    have hsv : ¬ Step g rev src v := fun h => absurd (h2 1 (.snoc .nil h)) (by omega)
    have hvs : v ≠ src := by rintro rfl; exact absurd (h2 0 .nil) (by omega)
    cases h1 with
    | snoc h1 huv =>
      cases h1 with
      | snoc h1 hsu =>
        cases h1
        exact ⟨_, hsu, huv, fun h => hsv (h ▸ huv), hvs, hsv⟩
  have hn : g.hasNode src = true := by unfold Graph.hasNode; rw [Dict.contains_iff, hg.wf.nodesEq]; exact hsrc
  obtain ⟨h1, hc, _⟩ := start_fields (O := O) (src := src) .dfs comp col
  obtain ⟨_, hit, hwork⟩ := base_start (g := g) (rev := rev) (NS := True) hp.toLawfulBag hsrc .dfs comp col hq
  set st := start O .dfs comp src col with hst
  have hlen : (items st.q).length ≤ 1 := by
    have : st.q = O.pushP col.q src 0 := by rw [hst]; simp [start, processSource, hp.isPQ]
    rw [this]
    have := hp.len_pushP col.q src 0
    rw [hq] at this
    simpa using this
  obtain ⟨l, hl, hmem⟩ := nbrs_ok hg.wf rev hsrc
  have hdeg : l.length + 1 < fuel := by
    have hd : deg g rev src = l.length := by unfold deg; rw [hl]
    have : deg g rev src + 1 ≤ (g.getNodeList.map fun u => deg g rev u + 1).sum := by
      have key : ∀ l : List N, src ∈ l → deg g rev src + 1 ≤ (l.map fun u => deg g rev u + 1).sum := by
        intro l
        induction l with
        | nil => intro h; cases h
        | cons a l ih =>
          intro h
          rw [List.map_cons, List.sum_cons]
          rcases List.mem_cons.1 h with h | h
          · rw [← h]; omega
          · have := ih h; omega
      exact key _ hsrc
    unfold fuelBound at hf
    omega
  have hloop : loop g O .dfs rev comp dest src fuel st = .error .typeError := by
    obtain ⟨f, rfl⟩ : ∃ f, fuel = f + 1 := ⟨fuel - 1, by omega⟩
    have hsi : src ∈ items st.q := (hit src).2 rfl
    have hne : items st.q ≠ [] := List.ne_nil_of_mem hsi
    obtain ⟨c, hc', hpk⟩ := hp.peek_mem st.q hne
    obtain rfl := (hit c).1 hc'
    rw [loop, if_neg (fun he => hne ((hp.isEmpty_iff _).1 he)), hpk]
    simp only []
    rw [if_neg (by rw [hc]; simp)]
    have hent : enter g O rev c st c = .ok
        { st with prio := upd st.prio c (O.getPriority st.q c), color := upd st.color c .blue } := by
      unfold enter
      simp only [hp.isPQ, if_true]
    rw [hent]
    simp only []
    rw [if_neg (fun hd => (hdest c hd).1 rfl)]
    obtain ⟨st', e1, e2, e3, e4, e5, e6⟩ := forNbrs_src (g := g) hp (rev := rev) comp (src := c) l (fun n h => (hmem n).1 h)
      { st with prio := upd st.prio c (O.getPriority st.q c), color := upd st.color c .blue }
      (fun v => rfl) (by
        intro v
        show upd st.color c .blue v ≠ .green
        by_cases hv : v = c
        · subst hv; simp
        · rw [upd_ne _ _ hv, hc]; simp) (fun v hv hvc => absurd ((hit v).1 hv) hvc)
    unfold visit
    rw [hl]
    simp only []
    rw [e1]
    simp only []
    have hci : c ∈ items st'.q := (e5 c).2 (.inr hsi)
    refine loop_raises hg.wf hp comp (u := u) (fun d hd => (hdest d hd).2) huv hvs hsv f _ ⟨?_, ?_, ?_, ?_⟩ ?_
    · intro v hvc
      show st'.dist v = none
      rw [e2, if_neg hvc]
    · intro v hv
      by_cases hvc : v = c
      · exact .inl hvc
      · replace hv : upd st'.color c .green v = .green := hv
        rw [upd_ne _ _ hvc] at hv
        exact absurd hv (e3 v)
    · intro v hv
      have hv := (mem_remove_iff hp hci v).1 hv
      refine ⟨hv.1, ?_, ?_, e4 v hv.2 hv.1⟩
      · rcases (e5 v).1 hv.2 with h | h
        · exact (hmem v).1 h
        · exact absurd ((hit v).1 h) hv.1
      · show upd st'.color c .green v ≠ .green
        rw [upd_ne _ _ hv.1]
        exact e3 v
    · exact (mem_remove_iff hp hci u).2 ⟨hus, (e5 u).2 (.inl ((hmem u).2 hsu))⟩
    · show (items (O.remove st'.q c)).length < f
      have h7 := hp.len_remove st'.q c hci
      replace e6 : (items st'.q).length ≤ (items st.q).length + l.length := e6
      omega
  unfold search
  rw [if_neg (by simp [hn]), resetEdges_ok hg.wf rev _ (fun _ h => h)]
  simp only []
  rw [if_neg (fun hd => (hdest src hd).1 rfl), hloop]

/-- non-vacuity of `C71_dfs_pq_raises`: a path of three nodes -/
example : IsLeastLen (Step exG false) 2 1 2 ∧ (match search exG pqOps' .dfs false none none 2 (exCol ⟨.empty, by decide⟩) 20 with
    | .error e => some e | .ok _ => none) = some PyErr.typeError := by
  refine ⟨⟨.snoc (.snoc .nil (v := 2) (w := 0) (by unfold Step; decide)) (by unfold Step; decide), ?_⟩, by decide⟩
  intro x hx
  match x, hx with
  | x + 2, _ => omega
  | 1, .snoc .nil h => exact absurd h (by unfold Step; decide)

/-! ## reverse search -/

/-- **C72 (what holds).** On an undirected graph `reverse=True` changes nothing.  Missing: digraphs, see
`C72_reverse_raises`. -/
theorem C72_reverse_partial (hd : g.directed = false) (O : QOps N Q) (algo : Algo) (comp : Option Int) (dest : Option N) (src : N)
    (col : SState N Q) (fuel : Nat) :
    search g O algo true comp dest src col fuel = search g O algo false comp dest src col fuel := by
  have hn : ∀ u, nbrs g true u = nbrs g false u := by intro u; simp [nbrs, hd]
  have ht : touch g true = touch g false := by
    funext u v
    unfold touch Graph.checkEdge
    simp [hd, Bool.or_comm]
  have h1 : ∀ u l, touchAll g true u l = touchAll g false u l := by
    intro u l
    induction l with
    | nil => rfl
    | cons v l ih => rw [touchAll, touchAll, ht, ih]
  have h2 : ∀ l, resetEdges g true l = resetEdges g false l := by
    intro l
    induction l with
    | nil => rfl
    | cons v l ih => simp only [resetEdges, hn, h1, ih]
  have h3 : ∀ c l (st : SState N Q), forNbrs g O algo true comp c l st = forNbrs g O algo false comp c l st := by
    intro c l
    induction l with
    | nil => intro st; rfl
    | cons v l ih => intro st; simp only [forNbrs, ht, ih]
  have h4 : ∀ (st : SState N Q) c, enter g O true src st c = enter g O false src st c := by
    intro st c; simp only [enter, ht]
  have h5 : ∀ (st : SState N Q) c, visit g O algo true comp st c = visit g O algo false comp st c := by
    intro st c; simp only [visit, hn, h3]
  have h6 : ∀ f (st : SState N Q), loop g O algo true comp dest src f st = loop g O algo false comp dest src f st := by
    intro f
    induction f with
    | zero => intro st; rfl
    | succ f ih => intro st; simp only [loop, h4, h5, ih]
  simp only [search, h2, h6]

/-- **C72 is false of the code.** On a digraph `search(algo='Dijkstra', reverse=True)` raises KeyError as soon as some arc
enters the source without an opposite arc: the cost is looked up for the arc from the current node to the neighbour.  The
same holds for 'Prim'. -/
theorem C72_reverse_raises (hg : Built g) (hd : g.directed = true) (hp : LawfulPQ O items) {algo : Algo}
    (ha : algo = .dijkstra ∨ algo = .prim) (hcost : ∀ u v, g.checkEdge u v = true → ∃ c, g.getEdgeCost u v = .ok c)
    (comp : Option Int) {src u : N} (hin : g.checkEdge u src = true) (hout : g.checkEdge src u = false) (dest : Option N)
    (hdest : dest ≠ some src) (col : SState N Q) (hq : items col.q = []) (fuel : Nat) :
    search g O algo true comp dest src col (fuel + 1) = .error .keyError := by
  have hsu : Step g true src u := by simpa [Step] using hin
  have hsrc := (step_node hg.wf hsu).1
  have hn : g.hasNode src = true := by unfold Graph.hasNode; rw [Dict.contains_iff, hg.wf.nodesEq]; exact hsrc
  obtain ⟨h1, hc, _⟩ := start_fields (O := O) (src := src) algo comp col
  obtain ⟨_, hit, _⟩ := base_start (g := g) (rev := true) (NS := True) hp.toLawfulBag hsrc algo comp col hq
  set st := start O algo comp src col with hst
  obtain ⟨l, hl, hmem⟩ := nbrs_ok hg.wf true hsrc
  have hbad : ∀ n, g.checkEdge src n = false → g.getEdgeCost src n = .error .keyError := by
    intro n h
    simp only [Graph.checkEdge, hd, if_true] at h
    unfold Graph.getEdgeCost Graph.getEdgeAttr
    have : g.edgeAttr.get? (src, n) = none := by
      rw [← Option.not_isSome_iff_eq_none]
      simpa [Dict.contains] using h
    simp [hd, this]
  have key : ∀ (l : List N) (st : SState N Q), (∀ n ∈ l, Step g true src n) → u ∈ l → (∀ v, st.color v ≠ .green) →
      src ∈ items st.q → (∀ v ∈ st.pred.keys, v ∈ items st.q) →
      forNbrs g O algo true comp src l st = .error .keyError := by
    intro l
    induction l with
    | nil => intro st _ h; cases h
    | cons n l ih =>
      intro st hl hu hc hs hk
      obtain ⟨p, hpp⟩ := Option.isSome_iff_exists.1 ((hp.prio_isSome st.q src).2 hs)
      rw [forNbrs, if_neg (hc n), touch_ok (hl n (by simp))]
      simp only []
      by_cases hsn : g.checkEdge src n = true
      · obtain ⟨w, hw⟩ := hcost src n hsn
        have hpe : ∃ e, processEdge g O algo comp st src n = processEdgePQ O st src n e := by
          rcases ha with rfl | rfl
          · exact ⟨p + w, by simp only [processEdge, hpp, hw]⟩
          · exact ⟨w, by simp only [processEdge, hw]⟩
        obtain ⟨e, he⟩ := hpe
        have hu' : u ∈ l := by
          rcases List.mem_cons.1 hu with rfl | h
          · rw [hout] at hsn; cases hsn
          · exact h
        rw [he]
        rcases processEdgePQ_cases hp (c := src) (e := e) (hk n) with ⟨e1, _, _⟩ | ⟨e1, _⟩
        · rw [e1]
          exact ih st (fun m hm => hl m (by simp [hm])) hu' hc hs hk
        · rw [e1]
          refine ih (relaxed O st src n e) (fun m hm => hl m (by simp [hm])) hu' ?_ ?_ ?_
          · intro v h
            exact hc v ((relaxed_green st src n e (hc n) v).1 h)
          · exact (hp.mem_pushP _ _ _ _).2 (.inr hs)
          · intro v hv
            replace hv : v ∈ (st.pred.set n src).keys := hv
            rw [Dict.mem_keys_set] at hv
            exact (hp.mem_pushP _ _ _ _).2 (hv.imp id (hk v))
      · have hb := hbad n (by simpa using hsn)
        have hpe : processEdge g O algo comp st src n = .error .keyError := by
          rcases ha with rfl | rfl <;> simp only [processEdge, hpp, hb]
        rw [hpe]
  have hsi : src ∈ items st.q := (hit src).2 rfl
  have hne : items st.q ≠ [] := List.ne_nil_of_mem hsi
  obtain ⟨c, hc', hpk⟩ := hp.peek_mem st.q hne
  obtain rfl := (hit c).1 hc'
  have hloop : loop g O algo true comp dest c (fuel + 1) st = .error .keyError := by
    rw [loop, if_neg (fun he => hne ((hp.isEmpty_iff _).1 he)), hpk]
    simp only []
    rw [if_neg (by rw [hc]; simp)]
    have hent : enter g O true c st c = .ok
        { st with prio := upd st.prio c (O.getPriority st.q c), color := upd st.color c .blue } := by
      unfold enter
      simp only [hp.isPQ, if_true]
    rw [hent]
    simp only []
    rw [if_neg hdest]
    unfold visit
    rw [hl]
    simp only []
    rw [key l { st with prio := upd st.prio c (O.getPriority st.q c), color := upd st.color c .blue }
      (fun n h => (hmem n).1 h) ((hmem u).2 hsu) ?_ hsi ?_]
    · intro v
      show upd st.color c .blue v ≠ .green
      by_cases hv : v = c
      · subst hv; simp
      · rw [upd_ne _ _ hv, hc]; simp
    · intro v hv
      replace hv : v ∈ st.pred.keys := hv
      rw [h1] at hv
      simp [Dict.empty, Dict.keys] at hv
  unfold search
  rw [if_neg (by simp [hn]), resetEdges_ok hg.wf true _ (fun _ h => h)]
  simp only []
  rw [if_neg hdest, hloop]

/-- non-vacuity of `C72_reverse_raises` -/
example : exG.checkEdge 2 0 = true ∧ exG.checkEdge 0 2 = true ∧ exG.checkEdge 0 1 = true ∧ exG.checkEdge 1 0 = false ∧
    (match search exG pqOps' .dijkstra true none none 1 (exCol ⟨.empty, by decide⟩) 20 with
      | .error e => some e | .ok _ => none) = some PyErr.keyError := by decide

/-! ## self loops -/

/-- The exclusion of self loops in C11 is needed: with arcs s→s of cost 5 and s→a of cost 1 the node a gets the
priority 6. -/
theorem C11_self_loop : ∃ g : Graph Nat, Built g ∧ (∀ u v, g.checkEdge u v = true → ∃ c ≥ 0, g.getEdgeCost u v = .ok c) ∧
    (match search g pqOps' .dijkstra false none none 0 (exCol ⟨.empty, by decide⟩) 10 with
      | .error _ => none | .ok (_, st) => st.prio 1) = some 6 ∧
    ∀ w : Nat → Nat → Int, g.getEdgeCost 0 1 = .ok (w 0 1) → WalkCost (Step g false) w 0 1 1 := by
  refine ⟨runOps (Graph.init true) [Op.addEdge 0 0 [("cost", .int 5)], .addEdge 0 1 [("cost", .int 1)]],
    ⟨true, _, by intro op _; cases op <;> simp [Op.InScope], rfl⟩, ?_, by decide, ?_⟩
  · intro u v h
    have h2 : (u, v) ∈ [(0, 0), (0, 1)] := by
      have : (u, v) ∈ (runOps (Graph.init true) [Op.addEdge 0 0 [("cost", .int 5)], .addEdge 0 1 [("cost", .int 1)]]).edgeAttr.keys := by
        simpa [Graph.checkEdge, show (runOps (Graph.init true) [Op.addEdge 0 0 [("cost", .int 5)],
          .addEdge 0 1 [("cost", .int 1)]]).directed = true by decide, Dict.contains_iff] using h
      exact this
    simp only [List.mem_cons, Prod.mk.injEq, List.not_mem_nil, or_false] at h2
    rcases h2 with ⟨rfl, rfl⟩ | ⟨rfl, rfl⟩
    · exact ⟨5, by omega, by rfl⟩
    · exact ⟨1, by omega, by rfl⟩
  · intro w hw
    have : w 0 1 = 1 := by
      have h2 : (runOps (Graph.init true) [Op.addEdge 0 0 [("cost", .int 5)], .addEdge 0 1 [("cost", .int 1)]]).getEdgeCost 0 1 =
        .ok 1 := by rfl
      rw [h2] at hw
      injection hw with hw
      exact hw.symm
    have h3 := WalkCost.snoc (c := w) (R := Step (runOps (Graph.init true) [Op.addEdge 0 0 [("cost", .int 5)],
      .addEdge 0 1 [("cost", .int 1)]]) false) .nil (v := 0) (w := 1) (by unfold Step; decide)
    rw [this] at h3
    exact h3

/-- The exclusion of self loops in C12 is needed: with edges s-s and s-a the predecessor dictionary links s to itself. -/
theorem C12_self_loop : ∃ g : Graph Nat, Built g ∧ g.directed = false ∧
    predOf (search g pqOps' .prim false none none 0 (exCol ⟨.empty, by decide⟩) 10) = some [(0, 0), (1, 0)] :=
  ⟨runOps (Graph.init false) [Op.addEdge 0 0 [("cost", .int 5)], .addEdge 0 1 [("cost", .int 1)]],
    ⟨false, _, by intro op h; simp at h; rcases h with rfl | rfl <;> simp [Op.InScope], rfl⟩, by decide, by decide⟩

end GiMPy
