import Verif.Lemmas.SimplexTree
import Verif.Lemmas.Misc

/-! # Lemmas on `simplex_redraw` -/

namespace GiMPy
namespace Simplex
open MinCost MaxFlow
variable {N : Type} [DecidableEq N] {Q : Type} {g t : Graph N}
set_option linter.unusedSectionVars false

/-! ## Adding nodes and arcs to the new graph -/

theorem call_addNode {d : Graph N} (hb : Built d) (hd : d.directed = true) {n : N} (hn : n ∉ d.getNodeList) :
    ∃ d', d.call (.addNode n []) = .ok d' ∧ Built d' ∧ d'.directed = true ∧ d'.getNodeList = d.getNodeList ++ [n] ∧
      d'.getEdgeList = d.getEdgeList := by
  have hr := rep_of_wf hb.wf
  have hnV : n ∉ d.neighbors.keys := hn
  obtain ⟨d', h5, h6⟩ := rep_call hr hd (.addNode n []) (by simp only [AGraph.step]; rw [if_neg hnV])
  simp only [AGraph.step] at h6
  rw [if_neg hnV] at h6
  simp only at h6
  exact ⟨d', h5, hb.call hd h5, by rw [h6.dir]; exact hd, h6.V, h6.E⟩

theorem call_addEdge {d : Graph N} (hb : Built d) (hd : d.directed = true) {u v : N} (hu : u ∈ d.getNodeList)
    (hv : v ∈ d.getNodeList) (hn : (u, v) ∉ d.getEdgeList) :
    ∃ d', d.call (.addEdge u v []) = .ok d' ∧ Built d' ∧ d'.directed = true ∧ d'.getNodeList = d.getNodeList ∧
      d'.getEdgeList = d.getEdgeList ++ [(u, v)] := by
  have hr := rep_of_wf hb.wf
  obtain ⟨d', a', h1, h2, h3, h4, _, h6, _⟩ := rep_addEdge hr hd hn []
  have hu' : u ∈ d.neighbors.keys := hu
  have hv' : v ∈ d.neighbors.keys := hv
  refine ⟨d', h1, hb.call hd h1, by rw [h2.dir, h3], ?_, ?_⟩
  · show d'.neighbors.keys = d.neighbors.keys
    rw [h2.V, h6]
    unfold AGraph.ensure
    simp [hu', hv']
  · show d'.edgeAttr.keys = _
    rw [h2.E, h4]; rfl

/-! ## The invariant -/

/-- the new graph is a part of the component of the root, with the node attributes of `t` -/
structure Part (t : Graph N) (ix : Idx N) (root : N) (d : Graph N) (dx : Idx N) : Prop where
  built : Built d
  dir : d.directed = true
  nodes : ∀ v ∈ d.getNodeList, v ∈ t.getNodeList ∧ EConn t.getEdgeList root v
  edges : ∀ e ∈ d.getEdgeList, e ∈ t.getEdgeList
  idx : ∀ v ∈ d.getNodeList, dx.pred v = ix.pred v ∧ dx.depth v = ix.depth v ∧ dx.thread v = ix.thread v

theorem drawNode_ok (hwf : t.Wf) {ix : Idx N} {root : N} {st : DState N} (h : Part t ix root st.new st.ix) {n : N}
    (hn : n ∈ t.getNodeList) (hc : EConn t.getEdgeList root n) :
    ∃ d dx, drawNode t ix n st = .ok ⟨d, dx, st.q, st.visited⟩ ∧ Part t ix root d dx ∧
      (∀ v, v ∈ d.getNodeList ↔ v ∈ st.new.getNodeList ∨ v = n) ∧ d.getEdgeList = st.new.getEdgeList := by
  unfold drawNode
  by_cases hin : n ∈ st.new.getNodeList
  · rw [if_pos hin]
    exact ⟨_, _, rfl, h, fun v => ⟨.inl, fun hv => hv.elim id fun hv => hv ▸ hin⟩, rfl⟩
  · rw [if_neg hin]
    have hh : t.hasNode n = true := by unfold Graph.hasNode; rw [Dict.contains_iff, hwf.nodesEq]; exact hn
    obtain ⟨d, h1, h2, h3, h4, h5⟩ := call_addNode h.built h.dir hin
    rw [if_neg (by simp [hh]), h1]
    refine ⟨d, copyIdx ix st.ix n, rfl, ⟨h2, h3, ?_, ?_, ?_⟩, ?_, h5⟩
    · intro v hv
      rw [h4, List.mem_append, List.mem_singleton] at hv
      rcases hv with hv | rfl
      · exact h.nodes v hv
      · exact ⟨hn, hc⟩
    · rw [h5]; exact h.edges
    · intro v hv
      rw [h4, List.mem_append, List.mem_singleton] at hv
      by_cases hvn : v = n
      · subst hvn; simp [copyIdx]
      · simp only [copyIdx, Search.upd_ne _ _ hvn]
        exact h.idx v (hv.resolve_right hvn)
    · intro v
      rw [h4, List.mem_append, List.mem_singleton]

theorem drawArc_ok {ix : Idx N} {root : N} {st : DState N} (h : Part t ix root st.new st.ix) {u v : N}
    (hu : u ∈ st.new.getNodeList) (hv : v ∈ st.new.getNodeList) (he : (u, v) ∈ t.getEdgeList) :
    ∃ d, drawArc u v st = .ok ⟨d, st.ix, st.q, st.visited⟩ ∧ Part t ix root d st.ix ∧ d.getNodeList = st.new.getNodeList ∧
      ∀ e, e ∈ d.getEdgeList ↔ e ∈ st.new.getEdgeList ∨ e = (u, v) := by
  unfold drawArc
  by_cases hin : (u, v) ∈ st.new.getEdgeList
  · rw [if_pos ((contains_edge _ u v).2 hin)]
    exact ⟨_, rfl, h, rfl, fun e => ⟨.inl, fun hv => hv.elim id fun hv => hv ▸ hin⟩⟩
  · rw [if_neg fun hc => hin ((contains_edge _ u v).1 hc)]
    obtain ⟨d, h1, h2, h3, h4, h5⟩ := call_addEdge h.built h.dir hu hv hin
    rw [h1]
    refine ⟨d, rfl, ⟨h2, h3, ?_, ?_, ?_⟩, h4, ?_⟩
    · rw [h4]; exact h.nodes
    · intro e he'
      rw [h5, List.mem_append, List.mem_singleton] at he'
      rcases he' with he' | rfl
      · exact h.edges e he'
      · exact he
    · rw [h4]; exact h.idx
    · intro e
      rw [h5, List.mem_append, List.mem_singleton]

/-- the for loop -/
theorem drawFor_ok (hwf : t.Wf) {ix : Idx N} {root name : N} (hname : EConn t.getEdgeList root name) : ∀ (l : List N)
    (st : DState N), (∀ n ∈ l, EAdj t.getEdgeList name n) → Part t ix root st.new st.ix → name ∈ st.new.getNodeList →
    ∃ d dx push, drawFor t ix name l st = .ok ⟨d, dx, push ++ st.q, st.visited⟩ ∧ Part t ix root d dx ∧
      (∀ v, v ∈ d.getNodeList ↔ v ∈ st.new.getNodeList ∨ v ∈ l) ∧ (∀ e ∈ st.new.getEdgeList, e ∈ d.getEdgeList) ∧
      (∀ n ∈ l, (name, n) ∈ t.getEdgeList → (name, n) ∈ d.getEdgeList) ∧ push.length ≤ l.length ∧
      ∀ n, n ∈ push ↔ n ∈ l ∧ n ∉ st.visited := by
  intro l
  induction l with
  | nil => intro st _ h _; exact ⟨st.new, st.ix, [], rfl, h, by simp, fun e he => he, by simp, by simp, by simp⟩
  | cons n l ih =>
    intro st hl h hin
    have hadj := hl n (by simp)
    have hnt : n ∈ t.getNodeList := by
      rcases hadj with he | he
      · exact (hwf.endp _ _ he).2
      · exact (hwf.endp _ _ he).1
    obtain ⟨d1, dx1, h1, h2, h3, h4⟩ := drawNode_ok hwf h hnt (hname.tail hadj)
    rw [drawFor, h1]
    simp only []
    obtain ⟨d2, h5, h6, h7, h8, h9⟩ : ∃ d, (if (name, n) ∈ t.getEdgeList then drawArc name n ⟨d1, dx1, st.q, st.visited⟩
          else drawArc n name ⟨d1, dx1, st.q, st.visited⟩) = .ok ⟨d, dx1, st.q, st.visited⟩ ∧ Part t ix root d dx1 ∧
        d.getNodeList = d1.getNodeList ∧ (∀ e ∈ d1.getEdgeList, e ∈ d.getEdgeList) ∧
        ((name, n) ∈ t.getEdgeList → (name, n) ∈ d.getEdgeList) := by
      by_cases he : (name, n) ∈ t.getEdgeList
      · rw [if_pos he]
        obtain ⟨d, a1, a2, a3, a4⟩ := drawArc_ok (st := ⟨d1, dx1, st.q, st.visited⟩) h2 ((h3 name).2 (.inl hin))
          ((h3 n).2 (.inr rfl)) he
        exact ⟨d, a1, a2, a3, fun e he => (a4 e).2 (.inl he), fun _ => (a4 _).2 (.inr rfl)⟩
      · rw [if_neg he]
        obtain ⟨d, a1, a2, a3, a4⟩ := drawArc_ok (st := ⟨d1, dx1, st.q, st.visited⟩) h2 ((h3 n).2 (.inr rfl))
          ((h3 name).2 (.inl hin)) (hadj.resolve_left he)
        exact ⟨d, a1, a2, a3, fun e he => (a4 e).2 (.inl he), fun h => absurd h he⟩
    rw [h5]
    simp only []
    have hname2 : name ∈ d2.getNodeList := by rw [h7]; exact (h3 name).2 (.inl hin)
    by_cases hv : n ∈ st.visited
    · rw [if_pos hv]
      obtain ⟨d, dx, push, b1, b2, b3, b4, b5, b6, b7⟩ := ih ⟨d2, dx1, st.q, st.visited⟩ (fun m hm => hl m (by simp [hm])) h6 hname2
      refine ⟨d, dx, push, b1, b2, fun v => ?_, fun e he => b4 e (h8 e (h4 ▸ he)), ?_, by simp only [List.length_cons]; omega, ?_⟩
      · rw [b3]
        show v ∈ d2.getNodeList ∨ _ ↔ _
        rw [h7, h3, List.mem_cons, or_assoc]
      · intro m hm hmt
        rcases List.mem_cons.1 hm with rfl | hm
        · exact b4 _ (h9 hmt)
        · exact b5 m hm hmt
      · intro m
        rw [b7, List.mem_cons]
        constructor
        · rintro ⟨x, y⟩; exact ⟨.inr x, y⟩
        · rintro ⟨rfl | x, y⟩
          · exact absurd hv y
          · exact ⟨x, y⟩
    · rw [if_neg hv]
      obtain ⟨d, dx, push, b1, b2, b3, b4, b5, b6, b7⟩ := ih ⟨d2, dx1, n :: st.q, st.visited⟩ (fun m hm => hl m (by simp [hm])) h6 hname2
      refine ⟨d, dx, push ++ [n], by simpa using b1, b2, fun v => ?_, fun e he => b4 e (h8 e (h4 ▸ he)), ?_, by
        simp only [List.length_cons, List.length_append, List.length_nil]; omega, ?_⟩
      · rw [b3]
        show v ∈ d2.getNodeList ∨ _ ↔ _
        rw [h7, h3, List.mem_cons, or_assoc]
      · intro m hm hmt
        rcases List.mem_cons.1 hm with rfl | hm
        · exact b4 _ (h9 hmt)
        · exact b5 m hm hmt
      · intro m
        rw [List.mem_append, List.mem_singleton, b7, List.mem_cons]
        constructor
        · rintro (⟨x, y⟩ | rfl)
          · exact ⟨.inr x, y⟩
          · exact ⟨.inl rfl, hv⟩
        · rintro ⟨rfl | x, y⟩
          · exact .inr rfl
          · exact .inl ⟨x, y⟩

/-- arcs whose tail is not in `C` and arcs whose head is not in `C` -/
def restOf (E : List (N × N)) (C : List N) : Nat :=
  (E.filter fun e => e.1 ∉ C).length + (E.filter fun e => e.2 ∉ C).length

theorem filter_len_cons (E : List (N × N)) (p : N × N → N) {C : List N} {c : N} (hc : c ∉ C) :
    (E.filter fun e => p e ∉ c :: C).length + (E.filter fun e => p e = c).length = (E.filter fun e => p e ∉ C).length := by
  induction E with
  | nil => rfl
  | cons e E ih =>
    by_cases h1 : p e = c
    · simp only [List.filter_cons, h1, List.mem_cons, true_or, not_true_eq_false, decide_false, Bool.false_eq_true, if_false,
        decide_true, if_true, List.length_cons, hc, not_false_eq_true]
      simp only [List.mem_cons] at ih
      omega
    · by_cases h2 : p e ∈ C
      · simp only [List.filter_cons, h1, h2, List.mem_cons, or_true, not_true_eq_false, decide_false, Bool.false_eq_true, if_false]
        simp only [List.mem_cons] at ih
        omega
      · simp only [List.filter_cons, h1, h2, List.mem_cons, or_false, not_false_eq_true, decide_false, Bool.false_eq_true,
          if_false, decide_true, if_true, List.length_cons]
        simp only [List.mem_cons] at ih
        omega

theorem outIn_ok (hwf : t.Wf) (hd : t.directed = true) {c : N} (hc : c ∈ t.getNodeList) :
    ∃ l, outIn t c = .ok l ∧ (∀ v, v ∈ l ↔ EAdj t.getEdgeList c v) ∧
      ∀ C : List N, c ∉ C → restOf t.getEdgeList (c :: C) + l.length = restOf t.getEdgeList C := by
  obtain ⟨out, inn, h1, h2, h3, h4⟩ := nbrs_edges hwf hd hc
  refine ⟨out ++ inn, by unfold outIn; rw [h1, h2], fun v => ?_, fun C hC => ?_⟩
  · rw [List.mem_append, h3, h4]
    rfl
  · have ho : out.length = (t.getEdgeList.filter fun e => e.1 = c).length := by
      unfold Graph.getNeighbors at h1
      cases hg : t.neighbors.get? c with
      | none => rw [hg] at h1; cases h1
      | some x => rw [hg] at h1; cases h1; exact Misc.len_nbrs_dir hwf hd hg
    have hi : inn.length = (t.getEdgeList.filter fun e => e.2 = c).length := by
      unfold Graph.getInNeighbors at h2
      rw [if_pos hd] at h2
      cases hg : t.inNeighbors.get? c with
      | none => rw [hg] at h2; cases h2
      | some x => rw [hg] at h2; cases h2; exact Misc.len_inn hwf hd hg
    rw [List.length_append, ho, hi]
    unfold restOf
    have := filter_len_cons t.getEdgeList Prod.fst hC
    have := filter_len_cons t.getEdgeList Prod.snd hC
    omega

/-- the while loop; the nodes in `C` have been taken from the list -/
structure DInv (t : Graph N) (ix : Idx N) (root : N) (C : List N) (st : DState N) : Prop where
  part : Part t ix root st.new st.ix
  vis : ∀ v, v ∈ st.visited ↔ v ∈ C ∨ v = root
  start : root ∈ C ∨ (C = [] ∧ st.q = [root])
  q : ∀ v ∈ st.q, v ∈ st.new.getNodeList
  taken : ∀ v ∈ C, v ∈ st.new.getNodeList
  /-- whatever lies below on the list has no neighbour that is neither taken nor above it -/
  stack : ∀ a x b, st.q = a ++ x :: b → x ∈ C → ∀ n, EAdj t.getEdgeList x n → n ∈ C ∨ n ∈ a
  nbr : ∀ x ∈ C, ∀ n, EAdj t.getEdgeList x n → n ∈ C ∨ n ∈ st.q
  arcs : ∀ x ∈ C, ∀ n, (x, n) ∈ t.getEdgeList → (x, n) ∈ st.new.getEdgeList
  old : ∀ v ∈ st.new.getNodeList, v ∈ C ∨ v ∈ st.q

theorem drawLoop_ok (hwf : t.Wf) (hd : t.directed = true) {ix : Idx N} {root : N} : ∀ (k : Nat) (C : List N) (st : DState N),
    DInv t ix root C st → st.q.length + restOf t.getEdgeList C < k →
    ∃ C' st', drawLoop t ix k st = .ok st' ∧ DInv t ix root C' st' ∧ st'.q = [] := by
  intro k
  induction k with
  | zero => intro C st _ h; omega
  | succ k ih =>
    intro C st h hk
    unfold drawLoop
    cases hq : st.q with
    | nil => exact ⟨C, st, rfl, h, hq⟩
    | cons c q =>
      have hcn := h.q c (by rw [hq]; simp)
      obtain ⟨hct, hcc⟩ := h.part.nodes c hcn
      obtain ⟨l, h1, h2, h3⟩ := outIn_ok hwf hd hct
      simp only []
      rw [h1]
      simp only []
      obtain ⟨d, dx, push, b1, b2, b3, b4, b5, b6, b7⟩ := drawFor_ok hwf (ix := ix) hcc l
        ⟨st.new, st.ix, q, c :: st.visited⟩ (fun n hn => (h2 n).1 hn) h.part hcn
      have e : ({ st with q := q, visited := c :: st.visited } : DState N) = ⟨st.new, st.ix, q, c :: st.visited⟩ := rfl
      rw [e, b1]
      simp only []
      simp only [] at b3 b4 b7
      have hroot : root ∈ C ∨ c = root := by
        rcases h.start with hr | ⟨_, hr⟩
        · exact .inl hr
        · rw [hq] at hr; cases hr; exact .inr rfl
      have hpush : ∀ n, n ∈ push ↔ EAdj t.getEdgeList c n ∧ n ∉ c :: C := by
        intro n
        rw [b7, h2, List.mem_cons, List.mem_cons, h.vis]
        refine and_congr_right fun _ => not_congr ?_
        constructor
        · rintro (x | x | x)
          · exact .inl x
          · exact .inr x
          · rcases hroot with hr | hr
            · exact .inr (x ▸ hr)
            · exact .inl (x.trans hr.symm)
        · rintro (x | x)
          · exact .inl x
          · exact .inr (.inl x)
      have hlen : (push ++ q).length + restOf t.getEdgeList (c :: C) < k := by
        rw [hq, List.length_cons] at hk
        rw [List.length_append]
        by_cases hcC : c ∈ C
        · have : push = [] := by
            rw [List.eq_nil_iff_forall_not_mem]
            intro n hn
            obtain ⟨x, y⟩ := (hpush n).1 hn
            rcases h.stack [] c q (by rw [hq]; rfl) hcC n x with z | z
            · exact y (by simp [z])
            · cases z
          have hr : restOf t.getEdgeList (c :: C) = restOf t.getEdgeList C := by
            have : ∀ v, v ∉ c :: C ↔ v ∉ C := by
              intro v
              rw [List.mem_cons]
              exact not_congr ⟨fun x => x.elim (fun x => x ▸ hcC) id, .inr⟩
            unfold restOf
            simp only [this]
          rw [this, hr, List.length_nil]
          omega
        · have := h3 C hcC
          omega
      refine ih (c :: C) ⟨d, dx, push ++ q, c :: st.visited⟩ ⟨b2, ?_, ?_, ?_, ?_, ?_, ?_, ?_, ?_⟩ hlen
      · intro v
        simp only [List.mem_cons]
        rw [h.vis, or_assoc]
      · left
        rcases hroot with hr | hr
        · simp [hr]
        · simp [hr]
      · intro v hv
        rcases List.mem_append.1 hv with hv | hv
        · exact (b3 v).2 (.inr ((h2 v).2 ((hpush v).1 hv).1))
        · exact (b3 v).2 (.inl (h.q v (by rw [hq]; simp [hv])))
      · intro v hv
        rcases List.mem_cons.1 hv with rfl | hv
        · exact (b3 v).2 (.inl hcn)
        · exact (b3 v).2 (.inl (h.taken v hv))
      · intro a x b hsplit hx n hn
        by_cases hnC : n ∈ c :: C
        · exact .inl hnC
        · right
          replace hsplit : push ++ q = a ++ x :: b := hsplit
          -- the entry lies in the old part
          have hxp : x ∉ push := fun hp => ((hpush x).1 hp).2 hx
          rcases List.append_eq_append_iff.1 hsplit with ⟨a', ha, hb⟩ | ⟨c', hc', hb⟩
          · subst ha
            by_cases hxc : x = c
            · subst hxc
              exact List.mem_append_left _ ((hpush n).2 ⟨hn, hnC⟩)
            · have := h.stack (c :: a') x b (by rw [hq, hb]; rfl) ((List.mem_cons.1 hx).resolve_left hxc) n hn
              rcases this with y | y
              · exact absurd (List.mem_cons_of_mem _ y) hnC
              · rcases List.mem_cons.1 y with y | y
                · exact absurd (y ▸ List.mem_cons_self) hnC
                · exact List.mem_append_right _ y
          · cases c' with
            | nil =>
              rw [List.nil_append] at hb
              rw [List.append_nil] at hc'
              subst hc'
              by_cases hxc : x = c
              · subst hxc
                exact (hpush n).2 ⟨hn, hnC⟩
              · have := h.stack [c] x b (by rw [hq, ← hb]; rfl) ((List.mem_cons.1 hx).resolve_left hxc) n hn
                rcases this with y | y
                · exact absurd (List.mem_cons_of_mem _ y) hnC
                · exact absurd (List.mem_singleton.1 y ▸ List.mem_cons_self) hnC
            | cons z c' =>
              rw [List.cons_append] at hb
              injection hb with hz _
              exact absurd (by rw [hc', ← hz]; simp) hxp
      · intro x hx n hn
        by_cases hnC : n ∈ c :: C
        · exact .inl hnC
        · right
          show n ∈ push ++ q
          rcases List.mem_cons.1 hx with rfl | hx
          · exact List.mem_append_left _ ((hpush n).2 ⟨hn, hnC⟩)
          · rcases h.nbr x hx n hn with y | y
            · exact absurd (List.mem_cons_of_mem _ y) hnC
            · rw [hq] at y
              rcases List.mem_cons.1 y with y | y
              · exact absurd (y ▸ List.mem_cons_self) hnC
              · exact List.mem_append_right _ y
      · intro x hx n hn
        rcases List.mem_cons.1 hx with rfl | hx
        · exact b5 n ((h2 n).2 (.inl hn)) hn
        · exact b4 _ (h.arcs x hx n hn)
      · intro v hv
        by_cases hvC : v ∈ c :: C
        · exact .inl hvC
        · right
          show v ∈ push ++ q
          rcases (b3 v).1 hv with y | y
          · rcases h.old v y with z | z
            · exact absurd (List.mem_cons_of_mem _ z) hvC
            · rw [hq] at z
              rcases List.mem_cons.1 z with z | z
              · exact absurd (z ▸ List.mem_cons_self) hvC
              · exact List.mem_append_right _ z
          · exact List.mem_append_left _ ((hpush v).2 ⟨(h2 v).1 y, hvC⟩)

/-- the traversal: the component of the root is copied -/
theorem drawAll_ok (hwf : t.Wf) (hd : t.directed = true) (ix : Idx N) {root : N} (hroot : root ∈ t.getNodeList) {fuel : Nat}
    (hf : 2 * t.getEdgeList.length + 2 ≤ fuel) :
    t.hasNode root = true ∧ ∃ d0, (Graph.init true : Graph N).call (.addNode root []) = .ok d0 ∧
    ∃ st, drawLoop t ix fuel ⟨d0, copyIdx ix ⟨fun _ => none, fun _ => none, fun _ => none⟩ root, [root], [root]⟩ = .ok st ∧
      Part t ix root st.new st.ix ∧ (∀ v, v ∈ st.new.getNodeList ↔ v ∈ t.getNodeList ∧ EConn t.getEdgeList root v) ∧
      ∀ e, e ∈ st.new.getEdgeList ↔ e ∈ t.getEdgeList ∧ EConn t.getEdgeList root e.1 := by
  have hh : t.hasNode root = true := by unfold Graph.hasNode; rw [Dict.contains_iff, hwf.nodesEq]; exact hroot
  have hb0 : Built (Graph.init true : Graph N) := ⟨true, [], by simp, rfl⟩
  obtain ⟨d0, h1, h2, h3, h4, h5⟩ := call_addNode hb0 rfl (n := root) (by simp [Graph.init, Graph.getNodeList])
  have h4' : d0.getNodeList = [root] := h4
  have h5' : d0.getEdgeList = [] := h5
  refine ⟨hh, d0, h1, ?_⟩
  have hrest : restOf t.getEdgeList [] = 2 * t.getEdgeList.length := by
    unfold restOf
    simp
    omega
  obtain ⟨C, st, h6, h7, h8⟩ := drawLoop_ok (t := t) (ix := ix) (root := root) hwf hd fuel []
    ⟨d0, copyIdx ix ⟨fun _ => none, fun _ => none, fun _ => none⟩ root, [root], [root]⟩ (by
      refine ⟨⟨h2, h3, ?_, ?_, ?_⟩, by simp, .inr ⟨rfl, rfl⟩, ?_, by simp, by simp, by simp, by simp, ?_⟩
      · intro v hv
        rw [h4', List.mem_singleton] at hv
        subst hv
        exact ⟨hroot, .refl⟩
      · intro e he
        rw [h5'] at he; cases he
      · intro v hv
        rw [h4', List.mem_singleton] at hv
        subst hv
        simp [copyIdx]
      · intro v hv
        show v ∈ d0.getNodeList
        rw [h4']; exact hv
      · intro v hv
        right
        replace hv : v ∈ d0.getNodeList := hv
        rw [h4'] at hv; exact hv) (by
      rw [hrest]
      simp only [List.length_cons, List.length_nil]
      omega)
  refine ⟨st, h6, h7.part, ?_, ?_⟩
  all_goals
    have hrC : root ∈ C := by
      rcases h7.start with h | ⟨_, h⟩
      · exact h
      · rw [h8] at h; cases h
    have hcl : ∀ v, EConn t.getEdgeList root v → v ∈ C := by
      intro v hv
      induction hv with
      | refl => exact hrC
      | tail _ hs ih =>
        rcases h7.nbr _ ih _ hs with h | h
        · exact h
        · rw [h8] at h; cases h
  · intro v
    exact ⟨fun hv => h7.part.nodes v hv, fun hv => h7.taken v (hcl v hv.2)⟩
  · intro e
    constructor
    · intro he
      exact ⟨h7.part.edges e he, (h7.part.nodes _ (h7.part.built.wf.endp e.1 e.2 he).1).2⟩
    · intro he
      exact h7.arcs e.1 (hcl _ he.2) e.2 he.1

theorem drawAttrs_ok {new : Graph N} {s : N × N → Option (Int × Int × Int)} : ∀ (l : List (N × N))
    (r : N × N → Option (Int × Int × Int)), (∀ e ∈ l, e ∈ new.getEdgeList ∧ ∃ x, s e = some x) →
    ∃ r', drawAttrs new s l r = .ok r' ∧ ∀ e, r' e = if e ∈ l then s e else r e := by
  intro l
  induction l with
  | nil => intro r _; exact ⟨r, rfl, by simp⟩
  | cons e l ih =>
    intro r hl
    obtain ⟨h1, x, h2⟩ := hl e (by simp)
    rw [drawAttrs, h2]
    simp only []
    rw [if_pos ((contains_edge new e.1 e.2).2 h1)]
    obtain ⟨r', h3, h4⟩ := ih (upd r e (some x)) fun e he => hl e (by simp [he])
    refine ⟨r', h3, fun a => ?_⟩
    rw [h4]
    by_cases ha : a ∈ l
    · simp [ha]
    · by_cases hae : a = e
      · subst hae; simp [ha, h2]
      · simp [ha, hae, Search.upd_ne]

theorem stamps_ok {f cap cost : N × N → Int} (hcap : ∀ u v, (u, v) ∈ g.getEdgeList → g.capOf u v = .ok (cap (u, v)))
    (hcost : ∀ u v, (u, v) ∈ g.getEdgeList → g.getEdgeCost u v = .ok (cost (u, v))) : ∀ l : List (N × N),
    (∀ e ∈ l, e ∈ g.getEdgeList) →
    ∃ s, stamps g f l = .ok s ∧ ∀ e, s e = if e ∈ l then some (f e, cap e, cost e) else none := by
  intro l
  induction l with
  | nil => intro _; exact ⟨_, rfl, by simp⟩
  | cons e l ih =>
    intro hl
    have he := hl e (by simp)
    obtain ⟨s, h1, h2⟩ := ih fun e he => hl e (by simp [he])
    rw [stamps, flowOf_ok he, hcap e.1 e.2 he, hcost e.1 e.2 he, h1]
    refine ⟨_, rfl, fun a => ?_⟩
    by_cases hae : a = e
    · subst hae; simp
    · simp [hae, Search.upd_ne, h2]

theorem redraw_ok (hwf : t.Wf) (hd : t.directed = true) (ix : Idx N) {s : N × N → Option (Int × Int × Int)}
    (hs : ∀ e ∈ t.getEdgeList, ∃ x, s e = some x) {root : N} (hroot : root ∈ t.getNodeList)
    (hc : ∀ e ∈ t.getEdgeList, EConn t.getEdgeList root e.1) {fuel : Nat} (hf : 2 * t.getEdgeList.length + 2 ≤ fuel) :
    ∃ d dx r, redraw t ix s root fuel = .ok (d, dx, r) ∧ Part t ix root d dx ∧
      (∀ v, v ∈ d.getNodeList ↔ v ∈ t.getNodeList ∧ EConn t.getEdgeList root v) ∧
      (∀ e, e ∈ d.getEdgeList ↔ e ∈ t.getEdgeList) ∧ ∀ e, r e = if e ∈ t.getEdgeList then s e else none := by
  obtain ⟨h1, d0, h2, st, h3, h4, h5, h6⟩ := drawAll_ok hwf hd ix hroot hf
  obtain ⟨r, h7, h8⟩ := drawAttrs_ok (new := st.new) (s := s) t.getEdgeList (fun _ => none)
    fun e he => ⟨(h6 e).2 ⟨he, hc e he⟩, hs e he⟩
  refine ⟨st.new, st.ix, r, ?_, h4, h5, fun e => ⟨fun h => ((h6 e).1 h).1, fun h => (h6 e).2 ⟨h, hc e h⟩⟩, h8⟩
  unfold redraw
  rw [if_neg (by simp [h1]), h2]
  simp only []
  rw [h3]
  simp only []
  rw [h7]

end Simplex
end GiMPy
