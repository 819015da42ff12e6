import Verif.Props.Dfs
import Verif.Props.Tarjan
import Verif.Props.Core

/-! # C121: the recursion of `dfs` and `strong_connect`

In `Model/Dfs.lean` and `Model/Tarjan.lean` the fuel is the number of nested calls that are allowed, and `diverge` stands for
the RecursionError that Python raises when there are more. -/

namespace GiMPy
open Search
variable {N : Type} [DecidableEq N] {g : Graph N}

theorem WalkLen.cons {R : N → N → Prop} {u v w : N} {k : Nat} (h : R u v) (hw : WalkLen R v k w) : WalkLen R u (k + 1) w := by
  induction hw with
  | nil => exact .snoc .nil h
  | snoc _ hs ih => exact .snoc ih hs

/-- the neighbours that a call loops over -/
theorem nbrs_step (hw : g.Wf) {r : N} (hn : g.hasNode r = true) {l : List N} (hl : g.getNeighbors r = .ok l) :
    ∀ i ∈ l, Step g false r i := by
  have hr : r ∈ g.getNodeList := by
    unfold Graph.hasNode at hn
    rw [Dict.contains_iff, hw.nodesEq] at hn
    exact hn
  obtain ⟨l', hl', hmem⟩ := nbrs_ok hw false hr
  have hl' : g.getNeighbors r = .ok l' := by simpa [nbrs] using hl'
  rw [hl] at hl'
  cases hl'
  exact fun i hi => (hmem i).1 hi

namespace Dfs

/-- more nested calls do not change a result -/
theorem dfsFor_mono {rec rec' : N → DState N → Int → Int → Res N} (root : N)
    (h : ∀ r st dc fc, rec r st dc fc ≠ .error .diverge → rec' r st dc fc = rec r st dc fc) (l : List N) (st : DState N)
    (dc fc : Int) (hne : dfsFor rec root l st dc fc ≠ .error .diverge) :
    dfsFor rec' root l st dc fc = dfsFor rec root l st dc fc := by
  induction l generalizing st dc fc with
  | nil => rfl
  | cons i l ih =>
    rw [dfsFor] at hne
    rw [dfsFor, dfsFor]
    by_cases hi : st.disc i = none
    · rw [if_pos hi] at hne
      rw [if_pos hi, if_pos hi]
      cases hr : rec i { st with pred := st.pred.set i root } dc fc with
      | error e =>
        rw [hr] at hne
        rw [h _ _ _ _ (by rw [hr]; exact hne), hr]
      | ok x =>
        obtain ⟨st1, dc1, fc1⟩ := x
        rw [hr] at hne
        rw [h _ _ _ _ (by rw [hr]; simp), hr]
        exact ih st1 dc1 fc1 hne
    · rw [if_neg hi] at hne
      rw [if_neg hi, if_neg hi]
      exact ih st dc fc hne

theorem dfs_mono (component : Option Int) (f : Nat) : ∀ (r : N) (st : DState N) (dc fc : Int),
    dfs g component f r st dc fc ≠ .error .diverge →
    dfs g component (f + 1) r st dc fc = dfs g component f r st dc fc := by
  induction f with
  | zero => intro r st dc fc h; exact absurd rfl h
  | succ f ih =>
    intro r st dc fc h
    rw [dfs] at h
    rw [dfs]
    conv_rhs => rw [dfs]
    by_cases hn : g.hasNode r = true
    · rw [if_neg (by simpa using hn)] at h ⊢
      rw [if_neg (by simpa using hn)]
      cases ht : touchPred g st.pred r with
      | error e => rfl
      | ok _ =>
        rw [ht] at h
        simp only [] at h ⊢
        cases hl : g.getNeighbors r with
        | error e => rfl
        | ok l =>
          rw [hl] at h
          simp only [] at h ⊢
          rw [dfsFor_mono (rec := dfs g component f) r ih]
          intro he
          rw [he] at h
          exact h rfl
    · rw [if_pos (by simpa using hn), if_pos (by simpa using hn)]

theorem dfs_mono' (component : Option Int) {f f' : Nat} (hf : f ≤ f') (r : N) (st : DState N) (dc fc : Int)
    (h : dfs g component f r st dc fc ≠ .error .diverge) :
    dfs g component f' r st dc fc = dfs g component f r st dc fc := by
  induction f', hf using Nat.le_induction with
  | base => rfl
  | succ k _ ih => rw [dfs_mono component k r st dc fc (by rw [ih]; exact h), ih]

/-- a call that may nest `f` calls discovers only nodes less than `f` edges away -/
theorem dfsFor_near {rec : N → DState N → Int → Int → Res N} {f : Nat}
    (h : ∀ r st dc fc st' dc' fc', rec r st dc fc = .ok (st', dc', fc') → ∀ v, st.disc v = none → st'.disc v ≠ none →
      ∃ k < f, WalkLen (Step g false) r k v) (root : N) (l : List N) (hl : ∀ i ∈ l, Step g false root i)
    (st : DState N) (dc fc : Int) {st' : DState N} {dc' fc' : Int} (he : dfsFor rec root l st dc fc = .ok (st', dc', fc'))
    (v : N) (h1 : st.disc v = none) (h2 : st'.disc v ≠ none) : ∃ k < f + 1, WalkLen (Step g false) root k v := by
  induction l generalizing st dc fc with
  | nil => cases he; exact absurd h1 h2
  | cons i l ih =>
    rw [dfsFor] at he
    by_cases hi : st.disc i = none
    · rw [if_pos hi] at he
      cases hr : rec i { st with pred := st.pred.set i root } dc fc with
      | error e => rw [hr] at he; cases he
      | ok x =>
        obtain ⟨st1, dc1, fc1⟩ := x
        rw [hr] at he
        by_cases h3 : st1.disc v = none
        · exact ih (fun j hj => hl j (by simp [hj])) st1 dc1 fc1 he h3
        · obtain ⟨k, hk, hw⟩ := h _ _ _ _ _ _ _ hr v h1 h3
          exact ⟨k + 1, by omega, hw.cons (hl i (by simp))⟩
    · rw [if_neg hi] at he
      exact ih (fun j hj => hl j (by simp [hj])) st dc fc he h1

theorem dfs_near (hw : g.Wf) (component : Option Int) (f : Nat) : ∀ (r : N) (st : DState N) (dc fc : Int) (st' : DState N)
    (dc' fc' : Int), dfs g component f r st dc fc = .ok (st', dc', fc') → ∀ v, st.disc v = none → st'.disc v ≠ none →
    ∃ k < f, WalkLen (Step g false) r k v := by
  induction f with
  | zero => intro r st dc fc st' dc' fc' h; cases h
  | succ f ih =>
    intro r st dc fc st' dc' fc' h v h1 h2
    rw [dfs] at h
    by_cases hn : g.hasNode r = true
    · rw [if_neg (by simpa using hn)] at h
      cases ht : touchPred g st.pred r with
      | error e => rw [ht] at h; cases h
      | ok _ =>
        rw [ht] at h
        simp only [] at h
        cases hl : g.getNeighbors r with
        | error e => rw [hl] at h; cases h
        | ok l =>
          rw [hl] at h
          simp only [] at h
          cases hx : dfsFor (dfs g component f) r l (enter component r st dc) (dc + 1) fc with
          | error e => rw [hx] at h; cases h
          | ok x =>
            obtain ⟨st1, dc1, fc1⟩ := x
            rw [hx] at h
            cases h
            by_cases hv : v = r
            · subst hv; exact ⟨0, by omega, .nil⟩
            · refine dfsFor_near ih r l (nbrs_step hw hn hl) _ _ _ hx v ?_ h2
              show upd st.disc r (some (dc + 1)) v = none
              rw [upd_ne _ _ hv]; exact h1
    · rw [if_pos (by simpa using hn)] at h
      cases h

end Dfs

namespace Tarjan

/-- more nested calls do not change a result -/
theorem scFor_mono {rec rec' : N → TState N → Int → Int → Res N} (node : N)
    (h : ∀ r st i c, rec r st i c ≠ .error .diverge → rec' r st i c = rec r st i c) (l : List N) (st : TState N)
    (i c : Int) (hne : scFor rec node l st i c ≠ .error .diverge) :
    scFor rec' node l st i c = scFor rec node l st i c := by
  induction l generalizing st i c with
  | nil => rfl
  | cons m l ih =>
    rw [scFor] at hne
    rw [scFor, scFor]
    by_cases hi : st.index m = none
    · rw [if_pos hi] at hne
      rw [if_pos hi, if_pos hi]
      cases hr : rec m st i c with
      | error e =>
        rw [hr] at hne
        rw [h _ _ _ _ (by rw [hr]; exact hne), hr]
      | ok x =>
        obtain ⟨st1, i1, c1⟩ := x
        rw [hr] at hne
        rw [h _ _ _ _ (by rw [hr]; simp), hr]
        simp only [] at hne ⊢
        cases hlow : lower st1 node (st1.low m) with
        | error e => rfl
        | ok st2 =>
          rw [hlow] at hne
          exact ih st2 i1 c1 hne
    · rw [if_neg hi] at hne
      rw [if_neg hi, if_neg hi]
      by_cases hq : m ∈ st.q
      · rw [if_pos hq] at hne
        rw [if_pos hq, if_pos hq]
        cases hlow : lower st node (st.index m) with
        | error e => rfl
        | ok st2 =>
          rw [hlow] at hne
          exact ih st2 i c hne
      · rw [if_neg hq] at hne
        rw [if_neg hq, if_neg hq]
        exact ih st i c hne

theorem strongConnect_mono (f : Nat) : ∀ (r : N) (st : TState N) (i c : Int),
    strongConnect g f r st i c ≠ .error .diverge → strongConnect g (f + 1) r st i c = strongConnect g f r st i c := by
  induction f with
  | zero => intro r st i c h; exact absurd rfl h
  | succ f ih =>
    intro r st i c h
    rw [strongConnect] at h
    rw [strongConnect]
    conv_rhs => rw [strongConnect]
    by_cases hn : g.hasNode r = true
    · rw [if_neg (by simpa using hn)] at h ⊢
      rw [if_neg (by simpa using hn)]
      cases hl : g.getNeighbors r with
      | error e => rfl
      | ok l =>
        rw [hl] at h
        simp only [] at h ⊢
        rw [scFor_mono (rec := strongConnect g f) r ih]
        intro he
        rw [he] at h
        exact h rfl
    · rw [if_pos (by simpa using hn), if_pos (by simpa using hn)]

theorem tarjanLoop_mono (f : Nat) (L : List N) (st : TState N) (i c : Int)
    (h : tarjanLoop g f L st i c ≠ .error .diverge) : tarjanLoop g (f + 1) L st i c = tarjanLoop g f L st i c := by
  induction L generalizing st i c with
  | nil => rfl
  | cons n L ih =>
    rw [tarjanLoop] at h
    rw [tarjanLoop, tarjanLoop]
    by_cases hi : st.index n = none
    · rw [if_pos hi] at h
      rw [if_pos hi, if_pos hi]
      cases hr : strongConnect g f n st i c with
      | error e =>
        rw [hr] at h
        rw [strongConnect_mono f n st i c (by rw [hr]; exact h), hr]
      | ok x =>
        obtain ⟨st1, i1, c1⟩ := x
        rw [hr] at h
        rw [strongConnect_mono f n st i c (by rw [hr]; simp), hr]
        exact ih st1 i1 c1 h
    · rw [if_neg hi] at h
      rw [if_neg hi, if_neg hi]
      exact ih st i c h

theorem label_mono {f f' : Nat} (hf : f ≤ f') (st : TState N) (h : labelStrongComponent g f st ≠ .error .diverge) :
    labelStrongComponent g f' st = labelStrongComponent g f st := by
  induction f', hf using Nat.le_induction with
  | base => rfl
  | succ k _ ih =>
    rw [← ih] at h
    rw [← ih]
    unfold labelStrongComponent tarjan at h ⊢
    rw [tarjanLoop_mono k]
    intro he
    rw [he] at h
    exact h rfl

theorem lower_index {st st' : TState N} {node : N} {x : Option Int} (h : lower st node x = .ok st') : st'.index = st.index := by
  unfold lower at h
  split at h
  · cases h
  · cases h; rfl

theorem finish_index {st st' : TState N} {node : N} {i c i' c' : Int} (h : finish node st i c = .ok (st', i', c')) :
    st'.index = st.index := by
  unfold finish at h
  split at h
  · split at h
    · cases h
    · cases h; rfl
  · cases h; rfl

theorem scFor_near {rec : N → TState N → Int → Int → Res N} {f : Nat}
    (h : ∀ r st i c st' i' c', rec r st i c = .ok (st', i', c') → ∀ v, st.index v = none → st'.index v ≠ none →
      ∃ k < f, WalkLen (Step g false) r k v) (node : N) (l : List N) (hl : ∀ j ∈ l, Step g false node j)
    (st : TState N) (i c : Int) {st' : TState N} {i' c' : Int} (he : scFor rec node l st i c = .ok (st', i', c'))
    (v : N) (h1 : st.index v = none) (h2 : st'.index v ≠ none) : ∃ k < f + 1, WalkLen (Step g false) node k v := by
  induction l generalizing st i c with
  | nil => cases he; exact absurd h1 h2
  | cons m l ih =>
    have ih := ih (fun j hj => hl j (by simp [hj]))
    rw [scFor] at he
    by_cases hi : st.index m = none
    · rw [if_pos hi] at he
      cases hr : rec m st i c with
      | error e => rw [hr] at he; cases he
      | ok x =>
        obtain ⟨st1, i1, c1⟩ := x
        rw [hr] at he
        simp only [] at he
        cases hlow : lower st1 node (st1.low m) with
        | error e => rw [hlow] at he; cases he
        | ok st2 =>
          rw [hlow] at he
          by_cases h3 : st1.index v = none
          · exact ih st2 i1 c1 he (by rw [lower_index hlow]; exact h3)
          · obtain ⟨k, hk, hw⟩ := h _ _ _ _ _ _ _ hr v h1 h3
            exact ⟨k + 1, by omega, hw.cons (hl m (by simp))⟩
    · rw [if_neg hi] at he
      by_cases hq : m ∈ st.q
      · rw [if_pos hq] at he
        cases hlow : lower st node (st.index m) with
        | error e => rw [hlow] at he; cases he
        | ok st2 =>
          rw [hlow] at he
          exact ih st2 i c he (by rw [lower_index hlow]; exact h1)
      · rw [if_neg hq] at he
        exact ih st i c he h1

theorem strongConnect_near (hw : g.Wf) (f : Nat) : ∀ (r : N) (st : TState N) (i c : Int) (st' : TState N) (i' c' : Int),
    strongConnect g f r st i c = .ok (st', i', c') → ∀ v, st.index v = none → st'.index v ≠ none →
    ∃ k < f, WalkLen (Step g false) r k v := by
  induction f with
  | zero => intro r st i c st' i' c' h; cases h
  | succ f ih =>
    intro r st i c st' i' c' h v h1 h2
    rw [strongConnect] at h
    by_cases hn : g.hasNode r = true
    · rw [if_neg (by simpa using hn)] at h
      cases hl : g.getNeighbors r with
      | error e => rw [hl] at h; cases h
      | ok l =>
        rw [hl] at h
        simp only [] at h
        cases hx : scFor (strongConnect g f) r l (enter r st i) (i + 1) c with
        | error e => rw [hx] at h; cases h
        | ok x =>
          obtain ⟨st1, i1, c1⟩ := x
          rw [hx] at h
          simp only [] at h
          by_cases hv : v = r
          · subst hv; exact ⟨0, by omega, .nil⟩
          · refine scFor_near ih r l (nbrs_step hw hn hl) _ _ _ hx v ?_ (by rw [← finish_index h]; exact h2)
            show upd st.index r (some i) v = none
            rw [upd_ne _ _ hv]; exact h1
    · rw [if_pos (by simpa using hn)] at h
      cases h

/-- what the loop of `tarjan` numbers is near to a node that was not numbered before -/
theorem tarjanLoop_near (hw : g.Wf) (f : Nat) (L : List N) (st : TState N) (i c : Int) {st' : TState N} {i' c' : Int}
    (h : tarjanLoop g f L st i c = .ok (st', i', c')) (v : N) (h1 : st.index v = none) (h2 : st'.index v ≠ none) :
    ∃ r ∈ L, ∃ k < f, WalkLen (Step g false) r k v := by
  induction L generalizing st i c with
  | nil => cases h; exact absurd h1 h2
  | cons n L ih =>
    rw [tarjanLoop] at h
    by_cases hi : st.index n = none
    · rw [if_pos hi] at h
      cases hr : strongConnect g f n st i c with
      | error e => rw [hr] at h; cases h
      | ok x =>
        obtain ⟨st1, i1, c1⟩ := x
        rw [hr] at h
        simp only [] at h
        by_cases h3 : st1.index v = none
        · obtain ⟨r, hr, h4⟩ := ih st1 i1 c1 h h3
          exact ⟨r, by simp [hr], h4⟩
        · exact ⟨n, by simp, strongConnect_near hw f n st i c st1 i1 c1 hr v h1 h3⟩
    · rw [if_neg hi] at h
      obtain ⟨r, hr, h4⟩ := ih st i c h h1
      exact ⟨r, by simp [hr], h4⟩

/-- the state in which `tarjan` starts satisfies the invariant -/
theorem start_inv (st : TState N) (hfresh : ∀ v, st.index v = none) : TInv g [] { st with num := 0, q := [] } 0 0 := by
  have hv : ∀ v, ¬ Vis ({ st with num := 0, q := [] } : TState N) v := by intro v; unfold Vis; simp [hfresh]
  refine ⟨by omega, rfl, ?_, ?_, by simp, by simp, ?_, ?_, ?_, ?_, by simp, by simp, by simp, ?_, ?_⟩
  · intro v h; exact absurd h (hv v)
  · intro v h; exact absurd h (hv v)
  · intro v h; exact absurd h (hv v)
  · intro u v h; exact absurd h (hv u)
  · intro u v h; exact absurd h (hv u)
  · intro j h1 h2; omega
  · intro u v h; exact absurd h (hv u)
  · intro u v j h; exact absurd h (hv u)

/-- the first call of `strong_connect` numbers all that can be reached from its node, so all that is near enough -/
theorem first_near (hw : g.Wf) {f : Nat} {r : N} (hr : r ∈ g.getNodeList) (st : TState N) (hfresh : ∀ v, st.index v = none)
    {x : TState N × Int × Int} (h : strongConnect g f r { st with num := 0, q := [] } 0 0 = .ok x) {v : N}
    (hv : Reach g false r v) : ∃ k < f, WalkLen (Step g false) r k v := by
  have hm : ∀ f', f ≤ f' → strongConnect g f' r { st with num := 0, q := [] } 0 0 = .ok x := by
    intro f' hf'
    induction f', hf' using Nat.le_induction with
    | base => exact h
    | succ k _ ih => rw [strongConnect_mono k r _ 0 0 (by rw [ih]; simp), ih]
  obtain ⟨st', i', c', new, l, e1, e2, e3⟩ := strongConnect_ok hw (max f g.getNodeList.length) [] _ 0 0 r
    (start_inv st hfresh) (hfresh r) hr (by simp) (Nat.le_trans (List.length_filter_le _ _) (le_max_right _ _))
  have hx := (hm _ (le_max_left f g.getNodeList.length)).symm.trans e1
  cases hx
  refine strongConnect_near hw f r _ 0 0 st' i' c' h v (hfresh v) (Option.isSome_iff_ne_none.1 ?_)
  induction hv with
  | refl => rw [e3.ind]; rfl
  | tail _ hs ih => exact e2.white _ _ ih (by simp) hs

end Tarjan

open Dfs Tarjan

/-- A list of nodes with an edge from each to the next, in a directed or an undirected graph. -/
def chainOps (n : Nat) : List (Op Nat) := .addNode 0 [] :: (List.range n).map fun i => .addEdge i (i + 1) []

theorem run_append (a : AGraph N) (l l' : List (Op N)) : (a.run (l ++ l')).2 = ((a.run l).2.run l').2 := by
  induction l generalizing a with
  | nil => rfl
  | cons op l ih => simp only [List.cons_append, AGraph.run]; exact ih _

theorem chain_run (d : Bool) (n : Nat) : ((AGraph.empty d).run (chainOps n)).2.directed = d ∧
    ((AGraph.empty d).run (chainOps n)).2.V = List.range (n + 1) ∧
    ((AGraph.empty d).run (chainOps n)).2.E = (List.range n).map fun i => (i, i + 1) := by
  induction n with
  | zero => refine ⟨rfl, rfl, rfl⟩
  | succ n ih =>
    obtain ⟨h1, h2, h3⟩ := ih
    have he : chainOps (n + 1) = chainOps n ++ [.addEdge n (n + 1) []] := by
      unfold chainOps; rw [List.range_succ, List.map_append]; rfl
    rw [he, run_append]
    generalize ((AGraph.empty d).run (chainOps n)).2 = a at h1 h2 h3
    have hk : a.key? n (n + 1) = none := by
      unfold AGraph.key?
      rw [h3, if_neg (by simp)]
      by_cases hd : a.directed = true
      · rw [if_pos hd]
      · rw [if_neg hd, if_neg]
        simp only [List.mem_map, List.mem_range, Prod.mk.injEq, not_exists, not_and]
        omega
    have hn : n ∈ a.V := by rw [h2]; simp
    have hn' : n + 1 ∉ a.V := by rw [h2]; simp
    have hs : (a.step (.addEdge n (n + 1) [])).2.directed = d ∧ (a.step (.addEdge n (n + 1) [])).2.V = List.range (n + 1 + 1) ∧
        (a.step (.addEdge n (n + 1) [])).2.E = (List.range (n + 1)).map fun i => (i, i + 1) := by
      simp only [AGraph.step, hk, Option.isSome_none, Bool.false_eq_true, if_false, AGraph.ensure, if_pos hn, if_neg hn']
      refine ⟨h1, ?_, ?_⟩
      · rw [h2, List.range_succ (n := n + 1)]
      · rw [h3, List.range_succ, List.map_append]; rfl
    exact hs

theorem chain_built (d : Bool) (n : Nat) : ∃ g : Graph Nat, Built g ∧ g.directed = d ∧ g.getNodeList = List.range (n + 1) ∧
    g.getEdgeList = (List.range n).map fun i => (i, i + 1) := by
  have hs : ∀ op ∈ chainOps n, op.InScope d := by
    intro op hop
    unfold chainOps at hop
    simp only [List.mem_cons, List.mem_map] at hop
    rcases hop with rfl | ⟨i, _, rfl⟩ <;> simp [Op.InScope]
  obtain ⟨h1, h2, h3⟩ := chain_run d n
  have h := rep_run (rep_init d) (chainOps n) hs
  exact ⟨_, ⟨d, _, hs, rfl⟩, by rw [h.2.dir]; exact h1, by rw [← h2]; exact h.2.V, by rw [← h3]; exact h.2.E⟩

/-- **C121, what holds.** Let Python allow `limit` nested calls.  `dfs(root)` on a graph without discovery times either works as
with any number of nested calls, or raises RecursionError.  It works if the graph has at most `limit` nodes, and raises if
some node that can be reached is `limit` or more edges away from the root.  Missing: graphs in between, where the order of
the neighbours decides how deep the search goes, and graphs that are too deep. -/
theorem C121_dfs_depth_partial (hg : Built g) (comp : Option Int) {root : N} (hr : root ∈ g.getNodeList) (st : DState N)
    (hfresh : ∀ v, st.disc v = none) (hpred : st.pred = .empty) (limit : Nat) :
    (dfs g comp limit root st 0 1 = .error .diverge ∨
      ∃ r, dfs g comp limit root st 0 1 = .ok r ∧ ∀ more, limit ≤ more → dfs g comp more root st 0 1 = .ok r) ∧
    (g.getNodeList.length ≤ limit → dfs g comp limit root st 0 1 ≠ .error .diverge) ∧
    (∀ v d, IsLeastLen (Step g false) root v d → limit ≤ d → dfs g comp limit root st 0 1 = .error .diverge) := by
  have hfull : ∀ more, g.getNodeList.length ≤ more → ∃ r : DState N × Int × Int, dfs g comp more root st 0 1 = .ok r ∧
      ∀ v, Reach g false root v → r.1.disc v ≠ none := by
    intro more hm
    obtain ⟨st', dc', fc', L, M, h1, h2, h3, _⟩ := dfs_fresh hg.wf comp hr hfresh hpred hm 0 1
    exact ⟨_, h1, fun v hv => Option.isSome_iff_ne_none.1 ((h2.some v).2 (.inr ((h3 v).2 hv)))⟩
  have hok : dfs g comp limit root st 0 1 ≠ .error .diverge →
      ∃ r : DState N × Int × Int, (∀ more, limit ≤ more → dfs g comp more root st 0 1 = .ok r) ∧
      ∀ v, Reach g false root v → r.1.disc v ≠ none := by
    intro hne
    obtain ⟨r, h1, h2⟩ := hfull (max limit g.getNodeList.length) (le_max_right _ _)
    rw [dfs_mono' comp (le_max_left _ _) root st 0 1 hne] at h1
    exact ⟨r, fun more hm => by rw [dfs_mono' comp hm root st 0 1 hne, h1], h2⟩
  refine ⟨?_, ?_, ?_⟩
  · by_cases h : dfs g comp limit root st 0 1 = .error .diverge
    · exact .inl h
    · obtain ⟨r, h1, _⟩ := hok h
      exact .inr ⟨r, h1 limit (le_refl _), h1⟩
  · intro h
    obtain ⟨r, h1, _⟩ := hfull limit h
    rw [h1]; simp
  · intro v d hd hl
    by_contra h
    obtain ⟨r, h1, h2⟩ := hok h
    obtain ⟨k, hk, hw⟩ := dfs_near hg.wf comp limit root st 0 1 r.1 r.2.1 r.2.2 (h1 limit (le_refl _)) v (hfresh v)
      (h2 v (reach_of_walkLen hd.1))
    have := hd.2 k hw
    omega

/-- **C121, what holds.** The same for `label_strong_component()` on a graph without indices; it raises if some node is
`limit` or more edges away from the first node of the graph. -/
theorem C121_strong_depth_partial (hg : Built g) (st : TState N) (hfresh : ∀ v, st.index v = none) (limit : Nat) :
    (labelStrongComponent g limit st = .error .diverge ∨
      ∃ r, labelStrongComponent g limit st = .ok r ∧ ∀ more, limit ≤ more → labelStrongComponent g more st = .ok r) ∧
    (g.getNodeList.length ≤ limit → labelStrongComponent g limit st ≠ .error .diverge) ∧
    (∀ root v d, g.getNodeList.head? = some root → IsLeastLen (Step g false) root v d → limit ≤ d →
      labelStrongComponent g limit st = .error .diverge) := by
  have hfull : ∀ more, g.getNodeList.length ≤ more → ∃ r, labelStrongComponent g more st = .ok r := by
    intro more hm
    obtain ⟨r, h1, _⟩ := strong_components_topo hg st hfresh hm
    exact ⟨r, h1⟩
  have hok : labelStrongComponent g limit st ≠ .error .diverge →
      ∃ r, ∀ more, limit ≤ more → labelStrongComponent g more st = .ok r := by
    intro hne
    obtain ⟨r, h1⟩ := hfull (max limit g.getNodeList.length) (le_max_right _ _)
    rw [label_mono (le_max_left _ _) st hne] at h1
    exact ⟨r, fun more hm => by rw [label_mono hm st hne, h1]⟩
  refine ⟨?_, ?_, ?_⟩
  · by_cases h : labelStrongComponent g limit st = .error .diverge
    · exact .inl h
    · obtain ⟨r, h1⟩ := hok h
      exact .inr ⟨r, h1 limit (le_refl _), h1⟩
  · intro h
    obtain ⟨r, h1⟩ := hfull limit h
    rw [h1]; simp
  · intro root v d hroot hd hl
    by_contra h
    obtain ⟨r, h1⟩ := hok h
    have h2 := h1 limit (le_refl _)
    cases hL : g.getNodeList with
    | nil => rw [hL] at hroot; cases hroot
    | cons n L =>
      rw [hL] at hroot
      cases hroot
      unfold labelStrongComponent tarjan at h2
      rw [hL, tarjanLoop, if_pos (hfresh root)] at h2
      cases hc : strongConnect g limit root { st with num := 0, q := [] } 0 0 with
      | error e => simp only [hc] at h2; cases h2
      | ok x =>
        obtain ⟨k, hk, hw⟩ := first_near hg.wf (by rw [hL]; simp) st hfresh hc (reach_of_walkLen hd.1)
        have := hd.2 k hw
        omega

/-- **C121 is false.** For every limit there are a digraph and an undirected graph with only one node more than the limit on
which `dfs` from the first node and `label_strong_component` raise RecursionError. -/
theorem C121_false (directed : Bool) (limit : Nat) : ∃ g : Graph Nat, Built g ∧ g.directed = directed ∧
    g.getNodeList.length = limit + 1 ∧
    (∀ (comp : Option Int) (st : DState Nat), (∀ v, st.disc v = none) → st.pred = .empty →
      dfs g comp limit 0 st 0 1 = .error .diverge) ∧
    ∀ st : TState Nat, (∀ v, st.index v = none) → labelStrongComponent g limit st = .error .diverge := by
  obtain ⟨g, hg, hd, hV, hE⟩ := chain_built directed limit
  have hstep : ∀ u v, Step g false u v → v ≤ u + 1 := by
    intro u v h
    have : (u, v) ∈ g.getEdgeList ∨ (v, u) ∈ g.getEdgeList := by
      simp only [Step, Graph.checkEdge, Bool.false_eq_true, if_false] at h
      unfold Graph.getEdgeList
      rw [← Dict.contains_iff, ← Dict.contains_iff]
      split at h
      · exact .inl h
      · simpa using h
    rw [hE] at this
    simp only [List.mem_map, List.mem_range, Prod.mk.injEq] at this
    omega
  have hedge : ∀ i, i < limit → Step g false i (i + 1) := by
    intro i hi
    have : (i, i + 1) ∈ g.getEdgeList := by rw [hE]; simp only [List.mem_map, List.mem_range]; exact ⟨i, hi, rfl⟩
    unfold Graph.getEdgeList at this
    rw [← Dict.contains_iff] at this
    simp [Step, Graph.checkEdge, this]
  have hwalk : ∀ i, i ≤ limit → WalkLen (Step g false) 0 i i := by
    intro i hi
    induction i with
    | zero => exact .nil
    | succ i ih => exact .snoc (ih (by omega)) (hedge i (by omega))
  have hle : ∀ k v, WalkLen (Step g false) 0 k v → v ≤ k := by
    intro k v h
    induction h with
    | nil => exact le_refl _
    | snoc _ hs ih => have := hstep _ _ hs; omega
  have hleast : IsLeastLen (Step g false) 0 limit limit := ⟨hwalk limit (le_refl _), fun k h => hle k _ h⟩
  refine ⟨g, hg, hd, by rw [hV]; simp, ?_, ?_⟩
  · intro comp st h1 h2
    exact (C121_dfs_depth_partial hg comp (by rw [hV]; simp) st h1 h2 limit).2.2 _ _ hleast (le_refl _)
  · intro st h1
    exact (C121_strong_depth_partial hg st h1 limit).2.2 0 _ _ (by rw [hV, List.range_succ_eq_map]; rfl) hleast (le_refl _)

/-- non-vacuity of C121: a digraph with a cycle and a chord.  The farthest node is two edges away, the search nests four calls
and there are five nodes; which of the outcomes occurs for a limit of three depends on the order of the edges. -/
def exDeep (ops : List (Op Nat)) : Graph Nat := runOps (Graph.init true) (ops ++ [.addNode 9 []])

example : timesOf [0, 1, 2, 3, 9] (dfs (exDeep [.addEdge 0 1 [], .addEdge 1 2 [], .addEdge 2 3 [], .addEdge 3 0 [], .addEdge 0 2 []])
      none 3 0 exD 0 1) = none := by decide
example : timesOf [0, 1, 2, 3, 9] (dfs (exDeep [.addEdge 0 1 [], .addEdge 1 2 [], .addEdge 2 3 [], .addEdge 3 0 [], .addEdge 0 2 []])
      none 4 0 exD 0 1) = some ([some 1, some 2, some 3, some 4, none], [some 4, some 3, some 2, some 1, none], [0, 1, 2, 3], 4, 5) := by decide
example : timesOf [0, 1, 2, 3, 9] (dfs (exDeep [.addEdge 0 2 [], .addEdge 0 1 [], .addEdge 1 2 [], .addEdge 2 3 [], .addEdge 3 0 []])
      none 3 0 exD 0 1) = some ([some 1, some 4, some 2, some 3, none], [some 4, some 3, some 2, some 1, none], [0, 1, 2, 3], 4, 5) := by decide

end GiMPy
