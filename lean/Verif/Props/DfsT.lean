import Verif.Lemmas.DfsT
import Verif.Props.Dfs
import Verif.Props.Tarjan

/-! # C67, C68: `dfs` with `transpose=True`, and strong components by two passes of `dfs` -/

namespace GiMPy
open Search Dfs
variable {N : Type} [DecidableEq N] {g : Graph N}
set_option linter.unusedSectionVars false

/-! ## C67: one transposed search -/

/-- a walk from `v` to `root` all of whose nodes except `root` are unlabelled -/
def ReachesUnlabelled (g : Graph N) (comp : N → Option Int) (root v : N) : Prop :=
  Relation.ReflTransGen (fun a b => g.checkEdge a b = true ∧ comp a = none) v root

theorem uReach_iff {comp : N → Option Int} {r v : N} : UReach g comp r v ↔ ReachesUnlabelled g comp r v := by
  unfold UReach ReachesUnlabelled
  rw [← Relation.reflTransGen_swap]
  rfl

/-- **C67, with a component number.**  If every node has a finish time and `root` has no component,
`dfs(root, component=k, transpose=True)` gives the component `k` to exactly those nodes (listed by `L`) that reach `root`
through nodes without a component; they get the discovery times 1..n and the finish times 1..n, and other nodes keep their
columns. -/
theorem C67_transpose_partial (hg : Built g) (k : Int) {root : N} (hr : root ∈ g.getNodeList) (st : DState N)
    (hc : st.comp root = none) (hfin : ∀ v ∈ g.getNodeList, st.fin v ≠ none) (hpred : st.pred = .empty) {fuel : Nat}
    (hf : g.getNodeList.length ≤ fuel) :
    ∃ (st' : DState N) (n : Nat) (L : List N), dfsT g (some k) fuel root st 0 1 = .ok (st', n, n + 1) ∧ L.Nodup ∧
      (∀ v, v ∈ L ↔ ReachesUnlabelled g st.comp root v) ∧ L.length = n ∧
      (∀ v, st'.comp v = if v ∈ L then some k else st.comp v) ∧
      (L.map st'.disc).Perm ((List.range n).map fun i : Nat => some (1 + (i : Int))) ∧
      (L.map st'.fin).Perm ((List.range n).map fun i : Nat => some (1 + (i : Int))) ∧
      (∀ v, v ∉ L → st'.disc v = st.disc v ∧ st'.fin v = st.fin v) := by
  obtain ⟨st', dc', fc', L, M, h1, h2, h3, _⟩ := dfsT_top hg.wf k hr hc
    (fun v hv => Option.isSome_iff_ne_none.2 (hfin v hv)) hpred hf 0 1
  refine ⟨st', L.length, L, ?_, h2.nodup, fun v => (h3 v).trans uReach_iff, rfl, h2.comp, ?_, ?_,
    fun v hv => ⟨h2.dkeep v hv, h2.fkeep v hv⟩⟩
  · rw [h1, h2.dcount, h2.fcount, Int.zero_add, Int.add_comm]
  · rw [← ticks_eq_range, ← show ticks (0 + 1) L.length = ticks 1 L.length from rfl, ← h2.dtimes]
    exact (h2.perm.map _).symm
  · rw [← ticks_eq_range, ← h2.ftimes]
    exact (List.reverse_perm L).symm.map _

theorem insertBy_sorted (x : N × Int) : ∀ l : List (N × Int), l.Pairwise (fun a b => a.2 ≤ b.2) →
    (insertBy x l).Pairwise (fun a b => a.2 ≤ b.2)
  | [], _ => by simp [insertBy]
  | y :: l, h => by
    have hy := List.pairwise_cons.1 h
    unfold insertBy
    split
    · next hxy =>
      refine List.pairwise_cons.2 ⟨?_, h⟩
      intro z hz
      rcases List.mem_cons.1 hz with rfl | hz
      · exact hxy
      · exact Int.le_trans hxy (hy.1 z hz)
    · next hxy =>
      refine List.pairwise_cons.2 ⟨?_, insertBy_sorted x l hy.2⟩
      intro z hz
      rcases List.mem_cons.1 ((insertBy_perm x l).mem_iff.1 hz) with rfl | hz
      · omega
      · exact hy.1 z hz

/-- **C67, the order.**  The neighbours are tried by descending finish time. -/
theorem C67_visit_order {st : DState N} {l l' : List N} (h : byFinish st l = .ok l') :
    l'.Perm l ∧ l'.Pairwise fun u v => 2 ≤ l.length → ∃ i j, st.fin u = some i ∧ st.fin v = some j ∧ j ≤ i := by
  unfold byFinish at h
  split at h
  · cases h
  · next hne =>
    cases h
    have hperm : ((l.map fun v => (v, (st.fin v).getD 0)).foldr insertBy []).Perm (l.map fun v => (v, (st.fin v).getD 0)) :=
      foldr_insertBy_perm _
    have hsort : ∀ m : List (N × Int), (m.foldr insertBy []).Pairwise fun a b => a.2 ≤ b.2 := by
      intro m
      induction m with
      | nil => exact .nil
      | cons x m ih => exact insertBy_sorted x _ ih
    refine ⟨?_, ?_⟩
    · refine (List.reverse_perm _).trans ((hperm.map Prod.fst).trans ?_)
      rw [List.map_map]
      have : (Prod.fst ∘ fun v => (v, (st.fin v).getD 0)) = (id : N → N) := rfl
      rw [this, List.map_id]
    · rw [List.pairwise_reverse, List.pairwise_map]
      refine List.Pairwise.imp_of_mem ?_ (hsort _)
      intro a b ha hb hab h2
      have key : ∀ c ∈ (l.map fun v => (v, (st.fin v).getD 0)).foldr insertBy [], st.fin c.1 = some c.2 := by
        intro c hc
        obtain ⟨v, hv, rfl⟩ := List.mem_map.1 (hperm.mem_iff.1 hc)
        cases hv' : st.fin v with
        | none => exact absurd ⟨h2, v, hv, hv'⟩ hne
        | some x => rfl
      exact ⟨b.2, a.2, key b hb, key a ha, hab⟩

/-- non-vacuity: two nodes sorted by their finish times -/
example : byFinish (⟨fun _ => none, fun v => some (if v = 1 then 5 else 3), fun _ => none, .empty, []⟩ : DState Nat) [0, 1, 2] =
    .ok [1, 2, 0] := by decide +kernel

/-- **C67 is false for the default `component=None`**: on a graph in which nobody has a component but everybody a finish time,
the call does not return if `root` lies on a cycle or is reached from one.  (In Python: RecursionError.) -/
theorem C67_false_default (hg : Built g) {root c : N} (hcyc : Relation.TransGen (Step g false) c c) (hreach : Reach g false c root)
    (st : DState N) (hc : ∀ v, st.comp v = none) (hfin : ∀ v ∈ g.getNodeList, st.fin v ≠ none) (hpred : st.pred = .empty)
    (fuel : Nat) (dc fc : Int) : dfsT g none fuel root st dc fc = .error .diverge := by
  refine dfsT_none_diverges hg.wf (P := fun v => Reach g false c v) ?_ fuel root st dc fc hreach hc
    (fun v hv => Option.isSome_iff_ne_none.2 (hfin v hv)) hpred
  intro v hv
  have h1 : Relation.TransGen (Step g false) c v := hcyc.trans_left hv
  obtain ⟨w, h2, h3⟩ := Relation.TransGen.tail'_iff.1 h1
  exact ⟨w, by simpa [Step] using h3, h2⟩

/-- **C67 is false on a graph without finish times**: as soon as `root` has two neighbours against the edges, sorting them
raises TypeError. -/
theorem C67_false_no_times (hg : Built g) (k : Option Int) {root : N} (hr : root ∈ g.getNodeList) (st : DState N)
    (hfin : ∀ v, st.fin v = none) (hpred : st.pred = .empty) {u v : N} (huv : u ≠ v) (hu : Step g true root u)
    (hv : Step g true root v) (fuel : Nat) (dc fc : Int) : dfsT g k (fuel + 1) root st dc fc = .error .typeError := by
  obtain ⟨l, hl, hmem⟩ := nbrs_ok hg.wf true hr
  have hn : g.hasNode root = true := by unfold Graph.hasNode; rw [Dict.contains_iff, hg.wf.nodesEq]; exact hr
  have htp : touchPred g st.pred root = .ok () := by rw [hpred]; rfl
  have h1 := (hmem u).2 hu
  have h2 := (hmem v).2 hv
  have h3 : byFinish (enter k root st dc) l = .error .typeError := by
    unfold byFinish
    rw [if_pos]
    refine ⟨?_, u, h1, hfin u⟩
    match l, h1, h2 with
    | [a], h1, h2 => simp at h1 h2; exact absurd (h1.trans h2.symm) huv
    | _ :: _ :: _, _, _ => simp
  rw [dfsT, if_neg (by simp [hn]), htp]
  simp only [hl, h3]

/-! ## C68: two passes -/

/-- a client: search forward from every node that is still undiscovered, passing the counters and one list
`topological_order` on -/
def forwardPass (g : Graph N) (fuel : Nat) : List N → DState N → Int → Int → Dfs.Res N
  | [], st, dc, fc => .ok (st, dc, fc)
  | n :: l, st, dc, fc =>
    if st.disc n = none then
      match dfs g none fuel n { st with pred := .empty } dc fc with
      | .error e => .error e
      | .ok (st, dc, fc) => forwardPass g fuel l st dc fc
    else forwardPass g fuel l st dc fc

/-- a client: search backward from every node of the list that still has no component, with a new number each time -/
def backwardPass (g : Graph N) (fuel : Nat) : List N → DState N → Int → Except PyErr (DState N × Int)
  | [], st, k => .ok (st, k)
  | n :: l, st, k =>
    if st.comp n = none then
      match dfsT g (some k) fuel n { st with pred := .empty } 0 1 with
      | .error e => .error e
      | .ok (st, _, _) => backwardPass g fuel l st (k + 1)
    else backwardPass g fuel l st k

/-- a client: the forward pass over all nodes, then the backward pass in the order of the list -/
def twoPass (g : Graph N) (fuel : Nat) (st : DState N) : Except PyErr (DState N × Int) :=
  match forwardPass g fuel g.getNodeList { st with pred := .empty, order := [] } 0 1 with
  | .error e => .error e
  | .ok (st, _, _) => backwardPass g fuel st.order st 0

theorem forwardPass_ok (hw : g.Wf) {fuel : Nat} (hf : g.getNodeList.length ≤ fuel) (l : List N)
    (hl : ∀ v ∈ l, v ∈ g.getNodeList) (st : DState N) (dc fc : Int)
    (hp : ∀ v p, st.pred.get? v = some p → Step g false p v) :
    ∃ st' dc' fc' L M, forwardPass g fuel l st dc fc = .ok (st', dc', fc') ∧ DRes g st st' dc dc' fc fc' L M ∧
      CompOK none st st' ∧ ∀ v ∈ l, (st'.disc v).isSome := by
  induction l generalizing st dc fc with
  | nil => exact ⟨st, dc, fc, [], [], rfl, .refl dc fc hp, ⟨fun _ h => h, fun v => by cases st.disc v <;> simp⟩, by simp⟩
  | cons n l ih =>
    rw [forwardPass]
    by_cases hd : st.disc n = none
    · rw [if_pos hd]
      obtain ⟨st1, dc1, fc1, L1, M1, h1, h2, h3, _, _⟩ := dfs_ok hw none fuel n { st with pred := .empty } dc fc
        (hl n (by simp)) hd (le_trans (List.length_filter_le _ _) hf) (by intro v p hv; cases hv)
      have h2' : DRes g st st1 dc dc1 fc fc1 L1 M1 :=
        ⟨h2.ord, h2.nodup, h2.fresh, h2.nodeL, h2.some, h2.dkeep, h2.fkeep, h2.dcount, h2.fcount, h2.perm, h2.dtimes,
          h2.ftimes, h2.closed, h2.topo, h2.anc, h2.predOK⟩
      have hc : CompOK none st st1 := dfs_comp none fuel n { st with pred := .empty } dc fc st1 dc1 fc1 hd h1
      rw [h1]
      obtain ⟨st2, dc2, fc2, L2, M2, r1, r2, r3, r4⟩ := ih (fun v hv => hl v (by simp [hv])) st1 dc1 fc1 h2'.predOK
      refine ⟨st2, dc2, fc2, L2 ++ L1, M1 ++ M2, r1, h2'.trans r2, hc.trans r3, ?_⟩
      intro v hv
      rcases List.mem_cons.1 hv with rfl | hv
      · exact (r2.some v).2 (.inl ((h2'.some v).2 (.inr h3)))
      · exact r4 v hv
    · rw [if_neg hd]
      obtain ⟨st2, dc2, fc2, L2, M2, r1, r2, r3, r4⟩ := ih (fun v hv => hl v (by simp [hv])) st dc fc hp
      refine ⟨st2, dc2, fc2, L2, M2, r1, r2, r3, ?_⟩
      intro v hv
      rcases List.mem_cons.1 hv with rfl | hv
      · exact (r2.some v).2 (.inl (Option.isSome_iff_ne_none.2 hd))
      · exact r4 v hv

/-- a walk to `n` inside the part of the order from `n` on can be walked back -/
theorem order_back {L A B : List N} {n : N} (hL : L = A ++ n :: B) (hnd : L.Nodup)
    (anc : ∀ A v C u B, L = A ++ v :: (C ++ u :: B) → Step g false u v → ∀ x ∈ C ++ [u], Reach g false v x) {u : N}
    (h : Relation.ReflTransGen (fun a b => Step g true a b ∧ b ∈ n :: B) n u) :
    ∀ C D, n :: B = C ++ u :: D → ∀ x ∈ C ++ [u], Reach g false n x := by
  have hnB : n ∉ B := by
    rw [hL] at hnd
    exact (List.nodup_cons.1 (List.nodup_append.1 hnd).2.1).1
  induction h with
  | refl =>
    intro C D hC x hx
    cases C with
    | nil => simp at hx; subst hx; exact .refl
    | cons c C =>
      simp only [List.cons_append, List.cons.injEq] at hC
      exact absurd (by rw [hC.2]; simp) hnB
  | @tail u w hpath hs ih =>
    intro C D hC x hx
    have hu : u ∈ n :: B := by
      rcases Relation.ReflTransGen.cases_tail hpath with h | ⟨_, _, h⟩
      · rw [← h]; simp
      · exact h.2
    rw [hC] at hu
    rcases List.mem_append.1 hu with hu | hu
    · obtain ⟨C1, C2, rfl⟩ := List.append_of_mem hu
      have i1 := ih C1 (C2 ++ w :: D) (by rw [hC]; simp)
      have i2 := anc (A ++ C1) u C2 w D (by rw [hL, hC]; simp) (by simpa [Step] using hs.1)
      have hx' : x ∈ C1 ++ [u] ∨ x ∈ C2 ++ [w] := by
        simp only [List.mem_append, List.mem_cons, List.not_mem_nil, or_false] at hx ⊢
        rcases hx with (h | h | h) | h <;> simp [h]
      rcases hx' with hx' | hx'
      · exact i1 x hx'
      · exact (i1 u (by simp)).trans (i2 x hx')
    · rcases List.mem_cons.1 hu with rfl | hu
      · exact ih C D hC x hx
      · obtain ⟨D1, D2, rfl⟩ := List.append_of_mem hu
        refine ih (C ++ w :: D1) D2 (by rw [hC]; simp) x ?_
        simp only [List.mem_append, List.mem_cons, List.not_mem_nil, or_false] at hx ⊢
        rcases hx with h | h <;> simp [h]

/-- state of the backward pass: `A` is the part of the order already treated -/
structure BInv (g : Graph N) (A : List N) (st : DState N) (k : Int) : Prop where
  k0 : 0 ≤ k
  done : ∀ v ∈ A, st.comp v ≠ none
  node : ∀ v, st.comp v ≠ none → v ∈ g.getNodeList
  range : ∀ v j, st.comp v = some j → 0 ≤ j ∧ j < k
  used : ∀ j, 0 ≤ j → j < k → ∃ v ∈ g.getNodeList, st.comp v = some j
  same : ∀ u v, st.comp u ≠ none → (st.comp v = st.comp u ↔ Reach g false u v ∧ Reach g false v u)
  fin : ∀ v ∈ g.getNodeList, (st.fin v).isSome

theorem reach_swap {u v : N} : Reach g true u v ↔ Reach g false v u := by
  unfold Reach
  rw [← Relation.reflTransGen_swap]
  constructor <;> (intro h; refine Relation.ReflTransGen.mono (fun a b hab => ?_) _ _ h) <;>
    simpa [Step, Function.swap] using hab

theorem backwardPass_ok (hw : g.Wf) {fuel : Nat} (hf : g.getNodeList.length ≤ fuel) {L : List N} (hnd : L.Nodup)
    (hall : ∀ v, v ∈ L ↔ v ∈ g.getNodeList)
    (anc : ∀ A v C u B, L = A ++ v :: (C ++ u :: B) → Step g false u v → ∀ x ∈ C ++ [u], Reach g false v x) (B : List N) :
    ∀ (A : List N) (st : DState N) (k : Int), L = A ++ B → BInv g A st k →
      ∃ st' k', backwardPass g fuel B st k = .ok (st', k') ∧ BInv g L st' k' := by
  induction B with
  | nil => intro A st k hL hi; rw [List.append_nil] at hL; subst hL; exact ⟨st, k, rfl, hi⟩
  | cons n B ih =>
    intro A st k hL hi
    have hn : n ∈ g.getNodeList := (hall n).1 (by rw [hL]; simp)
    rw [backwardPass]
    by_cases hc : st.comp n = none
    · rw [if_pos hc]
      obtain ⟨st1, dc1, fc1, T, M, h1, h2, h3, _⟩ := dfsT_top hw k (f := fuel) (st := { st with pred := .empty }) hn hc hi.fin
        rfl hf 0 1
      rw [h1]
      replace h3 : ∀ v, v ∈ T ↔ UReach g st.comp n v := h3
      have hcomp : ∀ v, st1.comp v = if v ∈ T then some k else st.comp v := h2.comp
      have hT : ∀ v, v ∈ T ↔ Reach g false n v ∧ Reach g false v n := by
        intro v
        rw [h3]
        constructor
        · intro h
          constructor
          · have h' : Relation.ReflTransGen (fun a b => Step g true a b ∧ b ∈ n :: B) n v := by
              refine Relation.ReflTransGen.mono ?_ _ _ h
              rintro a b ⟨hs, hb⟩
              refine ⟨hs, ?_⟩
              have hb' : b ∈ L := (hall b).2 (step_node hw hs).2
              rw [hL] at hb'
              rcases List.mem_append.1 hb' with h' | h'
              · exact absurd hb (hi.done b h')
              · exact h'
            have hv : v ∈ n :: B := by
              rcases Relation.ReflTransGen.cases_tail h' with h | ⟨_, _, h⟩
              · rw [← h]; simp
              · exact h.2
            obtain ⟨C, D, hCD⟩ := List.append_of_mem hv
            exact order_back hL hnd anc h' C D hCD v (by simp)
          · exact reach_swap.1 (Relation.ReflTransGen.mono (fun a b hab => hab.1) _ _ h)
        · rintro ⟨ha, hb⟩
          have hb := reach_swap.2 hb
          clear h3
          rename_i hb0
          clear hb0
          induction hb with
          | refl => exact .refl
          | @tail u w hp hs ih' =>
            have hu : Reach g false n u := ha.trans (.single (by simpa [Step] using hs))
            refine (ih' hu).tail ⟨hs, ?_⟩
            cases hw' : st.comp w with
            | none => rfl
            | some j =>
              have hwn : Reach g false w n := reach_swap.1 (hp.tail hs)
              have := (hi.same w n (by simp [hw'])).2 ⟨hwn, ha⟩
              rw [hc, hw'] at this; cases this
      have hk : ∀ v, st.comp v ≠ some k := by
        intro v h; have := hi.range v k h; omega
      refine ih (A ++ [n]) st1 (k + 1) (by rw [hL]; simp) ⟨by have := hi.k0; omega, ?_, ?_, ?_, ?_, ?_, ?_⟩
      · intro v hv
        rw [hcomp]
        split
        · simp
        · next hvT =>
          rcases List.mem_append.1 hv with h | h
          · exact hi.done v h
          · simp at h; subst h; exact absurd ((hT v).2 ⟨.refl, .refl⟩) hvT
      · intro v hv
        by_cases h : v ∈ T
        · exact h2.nodeL v h
        · rw [hcomp, if_neg h] at hv; exact hi.node v hv
      · intro v j hv
        rw [hcomp] at hv
        split at hv
        · obtain rfl := Option.some.inj hv; exact ⟨hi.k0, by omega⟩
        · have := hi.range v j hv; omega
      · intro j h0 hj
        by_cases h : j = k
        · subst h
          exact ⟨n, hn, by rw [hcomp, if_pos ((hT n).2 ⟨.refl, .refl⟩)]⟩
        · obtain ⟨v, hv, hvj⟩ := hi.used j h0 (by omega)
          refine ⟨v, hv, ?_⟩
          rw [hcomp, if_neg]
          · exact hvj
          · intro hvT
            have := h2.fresh v hvT
            replace this : st.comp v = none := this
            rw [hvj] at this; cases this
      · intro u v hu
        rw [hcomp, hcomp]
        by_cases huT : u ∈ T
        · have hu' := (hT u).1 huT
          rw [if_pos huT]
          by_cases hvT : v ∈ T
          · have hv' := (hT v).1 hvT
            rw [if_pos hvT]
            exact ⟨fun _ => ⟨hu'.2.trans hv'.1, hv'.2.trans hu'.1⟩, fun _ => rfl⟩
          · rw [if_neg hvT]
            exact ⟨fun h => absurd h (hk v), fun h => absurd ((hT v).2 ⟨hu'.1.trans h.1, h.2.trans hu'.2⟩) hvT⟩
        · rw [if_neg huT]
          rw [hcomp, if_neg huT] at hu
          by_cases hvT : v ∈ T
          · have hv' := (hT v).1 hvT
            rw [if_pos hvT]
            exact ⟨fun h => absurd h.symm (hk u), fun h => absurd ((hT u).2 ⟨hv'.1.trans h.2, h.1.trans hv'.2⟩) huT⟩
          · rw [if_neg hvT]
            exact hi.same u v hu
      · exact h2.fin hi.fin
    · rw [if_neg hc]
      refine ih (A ++ [n]) st k (by rw [hL]; simp) ⟨hi.k0, ?_, hi.node, hi.range, hi.used, hi.same, hi.fin⟩
      intro v hv
      rcases List.mem_append.1 hv with h | h
      · exact hi.done v h
      · simp at h; subst h; exact hc

/-- **C68.** On a fresh graph: `dfs` from every undiscovered node with the counters and one list `topological_order` passed
on, and then `dfs(n, component=k, transpose=True)` for the nodes `n` of that list that have no component, `k` being the
number of calls so far.  This labels exactly the strongly connected components. -/
theorem C68_two_passes (hg : Built g) (st : DState N) (hd : ∀ v, st.disc v = none) (hc : ∀ v, st.comp v = none) {fuel : Nat}
    (hf : g.getNodeList.length ≤ fuel) :
    ∃ st' k, twoPass g fuel st = .ok (st', k) ∧ LabelsSCC g st'.comp k := by
  obtain ⟨st1, dc1, fc1, L, M, h1, h2, h3, h4⟩ := forwardPass_ok hg.wf hf g.getNodeList (fun _ h => h)
    { st with pred := .empty, order := [] } 0 1 (by intro v p hv; cases hv)
  have hL : ∀ v, v ∈ L ↔ v ∈ g.getNodeList := by
    intro v
    refine ⟨h2.nodeL v, fun hv => ?_⟩
    rcases (h2.some v).1 (h4 v hv) with h | h
    · replace h : (st.disc v).isSome := h
      rw [hd] at h; cases h
    · exact h
  have hord : st1.order = L := by rw [h2.ord]; exact List.append_nil L
  have hcomp : ∀ v, st1.comp v = none := by
    intro v
    rw [h3.2]
    split
    · rfl
    · exact hc v
  have hfin : ∀ v ∈ g.getNodeList, (st1.fin v).isSome := by
    intro v hv
    have h5 : st1.fin v ∈ L.reverse.map st1.fin := List.mem_map.2 ⟨v, by simpa using (hL v).2 hv, rfl⟩
    rw [h2.ftimes, ticks_eq_range] at h5
    obtain ⟨i, _, hi⟩ := List.mem_map.1 h5
    rw [← hi]; rfl
  obtain ⟨st2, k, h6, h7⟩ := backwardPass_ok hg.wf hf h2.nodup hL h2.anc L [] st1 0 rfl
    ⟨Int.le_refl 0, by simp, fun v h => absurd (hcomp v) h, fun v j h => by rw [hcomp] at h; exact (nomatch h), fun j h h' => (by omega),
      fun u v h => absurd (hcomp u) h, hfin⟩
  refine ⟨st2, k, ?_, ?_, h7.used, ?_⟩
  · unfold twoPass
    rw [h1]
    simp only [hord]
    exact h6
  · intro v hv
    obtain ⟨j, hj⟩ := Option.ne_none_iff_exists'.1 (h7.done v ((hL v).2 hv))
    exact ⟨j, hj, h7.range v j hj⟩
  · intro u hu v hv
    rw [eq_comm]
    exact h7.same u v (h7.done u ((hL u).2 hu))

/-- non-vacuity of C68 and agreement with C15 on the same graph up to renumbering -/
example : (match twoPass exS 6 exD with
    | .ok (st, k) => some (exS.getNodeList.map st.comp, k) | .error _ => none) =
    some ([some 1, some 1, some 1, some 2, some 2, some 0], 3) := by decide +kernel

/-- finish times for every node -/
def exF : DState Nat := ⟨fun _ => none, fun v => some v, fun v => if v = 1 then some 7 else none, .empty, []⟩

/-- non-vacuity of C67 -/
example : (match dfsT exS (some 3) 6 0 exF 0 1 with
    | .ok (st, d, f) => some (exS.getNodeList, exS.getNodeList.map st.comp, d, f) | .error _ => none) =
    some ([0, 1, 2, 3, 4, 5], [some 3, some 7, some 3, none, none, some 3], 3, 4) := by decide +kernel

/-- non-vacuity of the hypotheses of `C67_false_default` and `C67_false_no_times` -/
example : Relation.TransGen (Step exS false) 0 0 ∧ Reach exS false 0 3 ∧ Step exS true 0 2 ∧ Step exS true 0 5 := by
  have h : ∀ a b, exS.checkEdge a b = true → Step exS false a b := fun a b h => by simpa [Step] using h
  have h01 := h 0 1 (by decide +kernel)
  have h12 := h 1 2 (by decide +kernel)
  have h20 := h 2 0 (by decide +kernel)
  have h23 := h 2 3 (by decide +kernel)
  exact ⟨.tail (.tail (.single h01) h12) h20, .tail (.tail (.single h01) h12) h23, by unfold Step; decide +kernel,
    by unfold Step; decide +kernel⟩

end GiMPy
